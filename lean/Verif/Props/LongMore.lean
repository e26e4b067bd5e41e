import Verif.Model.LongMore
import Verif.Props.Long
import Verif.Props.EffortDivision

/-!
# C90: no overflow of `long`s in the remaining comparisons, in conversions to `double` and in `floordiv`
-/

namespace ExactReal.Props
open ExactReal

/-! ### Real numbers -/

theorem real_ltArfLoop_long {atoms : Atoms} {x : RN} (hx : x.WF) (mx : x.Moderate atoms (2 ^ 60)) (other : Ball)
    (fuel : ℕ) : ∀ {prec : ℕ} (a : Ball), 2 ≤ prec → prec * 2 ^ fuel ≤ 2 ^ 60 →
      RN.ltArfLoopLong atoms x other fuel prec a = RN.ltArfLoop atoms x other fuel prec a := by
  induction fuel with
  | zero => intros; rfl
  | succ fuel ih =>
    intro prec a h2 hp
    have h1 : 1 ≤ 2 ^ fuel := Nat.one_le_two_pow
    have hp' : prec * 2 * 2 ^ fuel ≤ 2 ^ 60 := by rw [pow_succ] at hp; linarith
    have hp2 : prec * 2 ≤ 2 ^ 60 := (Nat.le_mul_of_pos_right _ h1).trans hp'
    rw [RN.ltArfLoopLong, RN.ltArfLoop, refine_long hx mx le_rfl h2 (by omega), Out.ok_bind]
    cases (x.refine atoms a prec).lt other with
    | some r => rfl
    | none =>
      simp only
      rw [long_eq (by rw [abs_le]; omega), Out.ok_bind, show ((prec : ℤ) * 2).toNat = prec * 2 by omega]
      exact ih _ (by omega) hp'

theorem real_cmpQLoop_long {atoms : Atoms} {x : RN} (hx : x.WF) (mx : x.Moderate atoms (2 ^ 60)) (op : Ball → Option Bool)
    (fuel : ℕ) : ∀ {prec : ℕ}, 2 ≤ prec → prec * 2 ^ fuel ≤ 2 ^ 60 → RN.cmpQLoopLong atoms x op fuel prec = RN.cmpQLoop atoms x op fuel prec := by
  induction fuel with
  | zero => intros; rfl
  | succ fuel ih =>
    intro prec h2 hp
    have h1 : 1 ≤ 2 ^ fuel := Nat.one_le_two_pow
    have hp' : prec * 2 * 2 ^ fuel ≤ 2 ^ 60 := by rw [pow_succ] at hp; linarith
    have hp2 : prec * 2 ≤ 2 ^ 60 := (Nat.le_mul_of_pos_right _ h1).trans hp'
    rw [RN.cmpQLoopLong, RN.cmpQLoop, arb_long_rn hx mx le_rfl h2 (by omega), Out.ok_bind]
    cases op (x.arb atoms prec) with
    | some r => rfl
    | none =>
      simp only
      rw [long_eq (by rw [abs_le]; omega), Out.ok_bind, show ((prec : ℤ) * 2).toNat = prec * 2 by omega]
      exact ih (by omega) hp'

/-- C90. Comparisons of real numbers of moderate size with floating point numbers (and so with integers), and with rationals, and conversions to `double`,
compute precisions and exponents without overflow while the precision is at most `2 ^ 60`. -/
theorem real_lt_other_no_overflow {atoms : Atoms} {F : Arith} {x : RN} (hx : x.WF) (mx : x.Moderate atoms (2 ^ 60)) {fuel : ℕ} (hf : fuel ≤ 54) :
    (∀ a, RN.ltArfLong atoms fuel x a = RN.ltArf atoms fuel x a ∧ RN.gtArfLong atoms fuel x a = RN.gtArf atoms fuel x a) ∧
      (∀ q, RN.ltQLong atoms F fuel x q = RN.ltQ atoms F fuel x q ∧ RN.gtQLong atoms F fuel x q = RN.gtQ atoms F fuel x q) ∧
      RN.toDoubleLong atoms x = .ok (x.toDouble atoms) := by
  have b1 : 2 * 2 ^ fuel ≤ 2 ^ 60 := by
    rw [show 2 * 2 ^ fuel = 2 ^ (fuel + 1) by ring]; exact Nat.pow_le_pow_right (by norm_num) (by omega)
  have b2 : 64 * 2 ^ fuel ≤ 2 ^ 60 := by
    rw [show 64 * 2 ^ fuel = 2 ^ (fuel + 6) by ring]; exact Nat.pow_le_pow_right (by norm_num) (by omega)
  have lt : ∀ a, RN.ltArfLong atoms fuel x a = RN.ltArf atoms fuel x a := by
    intro a
    rw [RN.ltArfLong, RN.ltArf, real_ltArfLoop_long hx mx _ fuel _ le_rfl b1]
  refine ⟨fun a => ⟨lt a, by rw [RN.gtArfLong, RN.gtArf, lt]⟩, fun q => ?_, ?_⟩
  · unfold RN.ltQLong RN.ltQ RN.gtQLong RN.gtQ
    rw [real_cmpQLoop_long hx mx _ fuel (by norm_num) b2, real_cmpQLoop_long hx mx _ fuel (by norm_num) b2]
    exact ⟨rfl, rfl⟩
  · rw [RN.toDoubleLong, arf_long hx mx le_rfl (by norm_num), Out.ok_bind]; rfl

/-- C90. If a real number does not agree with a floating point number in more than `2 ^ 50` bits then comparing them returns without any overflow of a `long`, and
the answer is that of the unbounded model (C21). -/
theorem real_lt_arf_machine {atoms : Atoms} {x : RN} (hx : x.WF) (mx : x.Moderate atoms (2 ^ 60)) {a : ℚ}
    (h : 3 * magnitude (x.real atoms) ≤ 2 ^ (2 ^ 50) * |x.real atoms - a|) :
    ∃ r, RN.ltArfLong atoms 50 x a = .ok r ∧ RN.ltArf atoms 50 x a = .ok r := by
  obtain ⟨r, hr⟩ := real_lt_arf_effort (n := 49) atoms hx (by rw [show 2 * 2 ^ 49 = 2 ^ 50 by norm_num]; exact h) (fuel := 50) (by norm_num)
  exact ⟨r, by rw [((real_lt_other_no_overflow (F := FlintLike.arith) hx mx (by norm_num)).1 a).1, hr], hr⟩

/-- C90. The same for rationals. -/
theorem real_lt_rational_machine {atoms : Atoms} {F : Arith} (hF : F.Lawful) {x : RN} (hx : x.WF) (mx : x.Moderate atoms (2 ^ 60)) {q : ℚ}
    (h : 4 * magnitude (x.real atoms) ≤ 2 ^ (2 ^ 50) * |x.real atoms - q|) :
    (∃ r, RN.ltQLong atoms F 45 x q = .ok r ∧ RN.ltQ atoms F 45 x q = .ok r) ∧ ∃ r, RN.gtQLong atoms F 45 x q = .ok r ∧ RN.gtQ atoms F 45 x q = .ok r := by
  obtain ⟨⟨r, hr⟩, s, hs⟩ := real_lt_rational_effort (n := 44) atoms hF hx (by rw [show 64 * 2 ^ 44 = 2 ^ 50 by norm_num]; exact h) (fuel := 45) (by norm_num)
  obtain ⟨a, b⟩ := (real_lt_other_no_overflow (F := F) hx mx (fuel := 45) (by norm_num)).2.1 q
  exact ⟨⟨r, by rw [a, hr], hr⟩, s, by rw [b, hs], hs⟩

/-! ### Elements -/

section
variable {P : Type} [DecidableEq P] {R : Type} [CommRing R] [DecidableEq R] [CRing P R] [LawfulCRing P]
variable {atoms : Atoms} {F : Arith} {coeff : ℕ → R → Ball}

theorem arb_long_from {x : Elt P R} (hx : x.WF) (hm : ∀ g ∈ x.mod.basis, g.Moderate atoms (2 ^ 60)) {start fuel : ℕ} (hs : 2 ≤ start)
    (h : (start * 2 ^ fuel + Nat.clog 2 x.mod.basis.length) * 2 ^ fuel ≤ 2 ^ 60) {k : ℕ} (hk : k < fuel) :
    x.arbLong atoms F coeff fuel (start * 2 ^ k) = x.arb atoms F coeff fuel (start * 2 ^ k) := by
  have h1 : start * 2 ^ k ≤ start * 2 ^ fuel := Nat.mul_le_mul_left _ (Nat.pow_le_pow_right (by norm_num) hk.le)
  have h2 : start ≤ start * 2 ^ k := Nat.le_mul_of_pos_right _ (by positivity)
  exact elt_arb_no_overflow hx hm (by omega) ((Nat.mul_le_mul_right _ (by omega)).trans h)

omit [DecidableEq P] [CommRing R] [DecidableEq R] [CRing P R] [LawfulCRing P] in
theorem doubleLoop_long {self self' : ℕ → Out Ball} (fuel : ℕ) : ∀ {start : ℕ}, start * 2 ^ fuel ≤ 2 ^ 60 →
    (∀ k < fuel, self (start * 2 ^ k) = self' (start * 2 ^ k)) → Elt.doubleLoopLong self fuel start = Elt.doubleLoop self' fuel start := by
  induction fuel with
  | zero => intros; rfl
  | succ fuel ih =>
    intro start hp h
    have h1 : 1 ≤ 2 ^ fuel := Nat.one_le_two_pow
    have hp' : start * 2 * 2 ^ fuel ≤ 2 ^ 60 := by rw [pow_succ] at hp; linarith
    have hp2 : start * 2 ≤ 2 ^ 60 := (Nat.le_mul_of_pos_right _ h1).trans hp'
    have h0 := h 0 (by omega)
    rw [pow_zero, _root_.mul_one] at h0
    have step : Elt.doubleLoopLong self fuel ((start : ℤ) * 2).toNat = Elt.doubleLoop self' fuel (start * 2) := by
      rw [show ((start : ℤ) * 2).toNat = start * 2 by omega]
      refine ih hp' fun k hk => ?_
      have := h (k + 1) (by omega)
      rwa [pow_succ', ← _root_.mul_assoc] at this
    have hl : long ((start : ℤ) * 2) = .ok ((start : ℤ) * 2) := long_eq (by rw [abs_le]; omega)
    rw [Elt.doubleLoopLong, Elt.doubleLoop, h0]
    cases self' start with
    | ok b =>
      rw [Out.ok_bind, Out.ok_bind]
      cases b.interval with
      | ok i =>
        obtain ⟨lo, hi⟩ := i
        rw [Out.ok_bind, Out.ok_bind]
        simp only
        split_ifs
        · rfl
        · rw [hl, Out.ok_bind, step]
      | _ => simp only [Out.throws_bind, Out.abort_bind, Out.ub_bind, Out.pending_bind]
    | _ => simp only [Out.throws_bind, Out.abort_bind, Out.ub_bind, Out.pending_bind]

omit [DecidableEq P] [CommRing R] [DecidableEq R] [CRing P R] [LawfulCRing P] in
theorem floordivLoop_long {self self' rhs rhs' : ℕ → Out Ball} (fuel : ℕ) : ∀ {start : ℕ}, start * 2 ^ fuel ≤ 2 ^ 60 →
    (∀ k < fuel, self (start * 2 ^ k) = self' (start * 2 ^ k) ∧ rhs (start * 2 ^ k) = rhs' (start * 2 ^ k)) →
    Elt.floordivLoopLong F self rhs fuel start = Elt.floordivLoop F self' rhs' fuel start := by
  induction fuel with
  | zero => intros; rfl
  | succ fuel ih =>
    intro start hp h
    have h1 : 1 ≤ 2 ^ fuel := Nat.one_le_two_pow
    have hp' : start * 2 * 2 ^ fuel ≤ 2 ^ 60 := by rw [pow_succ] at hp; linarith
    have hp2 : start * 2 ≤ 2 ^ 60 := (Nat.le_mul_of_pos_right _ h1).trans hp'
    have h0 := h 0 (by omega)
    rw [pow_zero, _root_.mul_one] at h0
    have step : Elt.floordivLoopLong F self rhs fuel ((start : ℤ) * 2).toNat = Elt.floordivLoop F self' rhs' fuel (start * 2) := by
      rw [show ((start : ℤ) * 2).toNat = start * 2 by omega]
      refine ih hp' fun k hk => ?_
      have := h (k + 1) (by omega)
      rwa [pow_succ', ← _root_.mul_assoc] at this
    have hl : long ((start : ℤ) * 2) = .ok ((start : ℤ) * 2) := long_eq (by rw [abs_le]; omega)
    rw [Elt.floordivLoopLong, Elt.floordivLoop, h0.1, h0.2]
    cases rhs' start with
    | ok d =>
      rw [Out.ok_bind, Out.ok_bind]
      cases d.ne (Ball.exact 0) with
      | none => simp only; rw [hl, Out.ok_bind, step]
      | some t =>
        cases t with
        | false => rfl
        | true =>
          simp only
          cases self' start with
          | ok b =>
            rw [Out.ok_bind, Out.ok_bind]
            cases (F.div start b d).interval with
            | ok i =>
              obtain ⟨lo, hi⟩ := i
              rw [Out.ok_bind, Out.ok_bind]
              simp only
              split_ifs
              · rfl
              · rw [hl, Out.ok_bind, step]
            | _ => simp only [Out.throws_bind, Out.abort_bind, Out.ub_bind, Out.pending_bind]
          | _ => simp only [Out.throws_bind, Out.abort_bind, Out.ub_bind, Out.pending_bind]
    | _ => simp only [Out.throws_bind, Out.abort_bind, Out.ub_bind, Out.pending_bind]

/-- C90. Conversions of elements to `double`. -/
theorem elt_double_no_overflow {x : Elt P R} (hx : x.WF) (mx : ∀ g ∈ x.mod.basis, g.Moderate atoms (2 ^ 60)) {fuel : ℕ}
    (bx : (55 * 2 ^ fuel + Nat.clog 2 x.mod.basis.length) * 2 ^ fuel ≤ 2 ^ 60) : x.toDoubleLong atoms F coeff fuel = x.toDouble atoms F coeff fuel := by
  unfold Elt.toDoubleLong Elt.toDouble
  cases x.rational? with
  | some m => rfl
  | none => exact doubleLoop_long fuel ((Nat.le_add_right _ _).trans ((Nat.le_mul_of_pos_right _ (by positivity)).trans bx)) fun k hk => arb_long_from hx mx (by norm_num) bx hk

theorem floordivSame_long {x y : Elt P R} (hx : x.WF) (hy : y.WF) (mx : ∀ g ∈ x.mod.basis, g.Moderate atoms (2 ^ 60))
    (my : ∀ g ∈ y.mod.basis, g.Moderate atoms (2 ^ 60)) {fuel : ℕ} (bx : (64 * 2 ^ fuel + Nat.clog 2 x.mod.basis.length) * 2 ^ fuel ≤ 2 ^ 60)
    (by' : (64 * 2 ^ fuel + Nat.clog 2 y.mod.basis.length) * 2 ^ fuel ≤ 2 ^ 60) :
    Elt.floordivSameLong atoms F coeff fuel x y = Elt.floordivSame atoms F coeff fuel x y := by
  rw [Elt.floordivSameLong, Elt.floordivSame]
  split_ifs
  · rfl
  · cases Elt.exactLoop P none (x.coeffs.zip y.coeffs) with
    | some n => rfl
    | none => exact floordivLoop_long fuel (start_le bx) fun k hk => ⟨arb_long_all hx mx bx hk, arb_long_all hy my by' hk⟩

/-- C90. `floordiv` of elements of modules that are generated by numbers of moderate size. -/
theorem elt_floordiv_no_overflow [Build] {x y : Elt P R} (hx : x.WF) (hy : y.WF) (mx : ∀ g ∈ x.mod.basis, g.Moderate atoms (2 ^ 60))
    (my : ∀ g ∈ y.mod.basis, g.Moderate atoms (2 ^ 60)) {fuel : ℕ}
    (b : (64 * 2 ^ fuel + Nat.clog 2 (x.mod.basis.length + y.mod.basis.length)) * 2 ^ fuel ≤ 2 ^ 60) :
    Elt.floordivLong atoms F coeff fuel x y = Elt.floordiv atoms F coeff fuel x y := by
  have small : ∀ n ≤ x.mod.basis.length + y.mod.basis.length, (64 * 2 ^ fuel + Nat.clog 2 n) * 2 ^ fuel ≤ 2 ^ 60 := fun n hn =>
    (Nat.mul_le_mul_right _ (Nat.add_le_add_left (Nat.clog_mono_right _ hn) _)).trans b
  rw [Elt.floordivLong, Elt.floordiv]
  by_cases hb : (!x.toBool) = true
  · rw [if_pos hb, if_pos hb]
  rw [if_neg hb, if_neg hb]
  by_cases hm : x.mod = y.mod
  · rw [if_neg (by simpa using hm), if_neg (by simpa using hm)]
    exact floordivSame_long hx hy mx my (small _ (by omega)) (small _ (by omega))
  · rw [if_pos hm, if_pos hm]
    rcases Mod.span_throws (R := R) hx.mod hy.mod with ⟨s, hs⟩ | ⟨hs, -⟩
    · obtain ⟨x', px, wx, ex, -⟩ := Elt.promote_span_left hx hy.mod hs
      obtain ⟨y', py, wy, ey, -⟩ := Elt.promote_span_right hx.mod hy hs
      obtain ⟨ws, hg, -⟩ := Mod.span_ok (R := R) hx.mod hy.mod hs
      have ms : ∀ g ∈ s.basis, g.Moderate atoms (2 ^ 60) := fun g h => ((hg g).1 h).elim (mx g) (my g)
      have hlen : s.basis.length ≤ x.mod.basis.length + y.mod.basis.length := by
        rw [← List.length_append]
        exact (ws.nodup.subperm fun g h => List.mem_append.2 ((hg g).1 h)).length_le
      rw [hs, Out.ok_bind, Out.ok_bind, px, Out.ok_bind, Out.ok_bind, py, Out.ok_bind, Out.ok_bind]
      exact floordivSame_long wx wy (ex ▸ ms) (ey ▸ ms) (small _ (ex ▸ hlen)) (small _ (ey ▸ hlen))
    · rw [hs]; simp only [Out.throws_bind]

omit [DecidableEq P] [CommRing R] [DecidableEq R] [CRing P R] [LawfulCRing P] in
theorem rank_fits {n : ℕ} (hn : n ≤ 2 ^ 21) {start : ℕ} (hs : start ≤ 64) : (start * 2 ^ 25 + Nat.clog 2 n) * 2 ^ 25 ≤ 2 ^ 60 := by
  have : Nat.clog 2 n ≤ 21 := Nat.clog_le_of_le_pow hn
  omega

/-- C90. If the terms of an element do not cancel by more than `2 ^ 29` bits (`Enough`) and it does not agree with an integer in more than `2 ^ 29` bits, then
`floor` and `ceil` return without any overflow of a `long`, and the answers are those of the unbounded model (C22). -/
theorem elt_floor_machine (hF : F.Lawful) (hco : CoeffLawful P coeff) (hac : CoeffAccurate P coeff) {x : Elt P R} (hx : x.WF)
    (rx : x.mod.basis.length ≤ 2 ^ 20) (mx : ∀ g ∈ x.mod.basis, g.Moderate atoms (2 ^ 60)) (nx : x.Enough atoms 64 24) {ε : ℝ}
    (hε : ∀ m : ℤ, ε ≤ |x.real atoms.vals - m|) (h : 33 * |x.real atoms.vals| < 2 ^ (64 * 2 ^ 24) * ε) :
    (∃ m, x.floorLong atoms F coeff 25 = .ok m ∧ x.floor atoms F coeff 25 = .ok m) ∧ ∃ m, x.ceilLong atoms F coeff 25 = .ok m ∧ x.ceil atoms F coeff 25 = .ok m := by
  obtain ⟨⟨m, hm⟩, n, hn⟩ := elt_floor_effort atoms hF hco hac hx nx hε h (fuel := 25) (by norm_num) (by norm_num)
  obtain ⟨e1, e2⟩ := elt_floor_no_overflow (F := F) (coeff := coeff) hx mx (rank_fits (rx.trans (by norm_num)) le_rfl)
  exact ⟨⟨m, by rw [e1, hm], hm⟩, n, by rw [e2, hn], hn⟩

/-- C90. The same for the conversion to `double`, if all the numbers around the element round to the same `double`. -/
theorem elt_double_machine (hF : F.Lawful) (hco : CoeffLawful P coeff) (hac : CoeffAccurate P coeff) {x : Elt P R} (hx : x.WF)
    (rx : x.mod.basis.length ≤ 2 ^ 20) (mx : ∀ g ∈ x.mod.basis, g.Moderate atoms (2 ^ 60)) (nx : x.Enough atoms 55 24) {ε : ℝ} {d : Double}
    (hε : ∀ q : ℚ, |(q : ℝ) - x.real atoms.vals| < ε → Double.ofArf q = d) (h : 33 * |x.real atoms.vals| < 2 ^ (55 * 2 ^ 24) * ε) :
    ∃ d, x.toDoubleLong atoms F coeff 25 = .ok d ∧ x.toDouble atoms F coeff 25 = .ok d := by
  obtain ⟨d, hd⟩ := elt_double_effort atoms hF hco hac hx nx hε h (fuel := 25) (by norm_num) (by norm_num)
  exact ⟨d, by rw [elt_double_no_overflow hx mx (rank_fits (rx.trans (by norm_num)) (by norm_num)), hd], hd⟩

/-- C90. The same for `floordiv`, if the quotient does not agree with an integer in more than `2 ^ 29` bits. -/
theorem elt_floordiv_machine [Build] (hF : F.Lawful) (hco : CoeffLawful P coeff) (hac : CoeffAccurate P coeff) {x y x' y' : Elt P R} (hx : x.WF) (hy : y.WF)
    {s : Mod P} (hs : Mod.span x.mod y.mod = .ok s) (hx' : x.promote s = .ok x') (hy' : y.promote s = .ok y')
    (rx : x.mod.basis.length ≤ 2 ^ 20) (ry : y.mod.basis.length ≤ 2 ^ 20)
    (mx : ∀ g ∈ x.mod.basis, g.Moderate atoms (2 ^ 60)) (my : ∀ g ∈ y.mod.basis, g.Moderate atoms (2 ^ 60))
    (nx : x'.Enough atoms 64 24) (ny : y'.Enough atoms 64 24) (y0 : y.real atoms.vals ≠ 0) {ε : ℝ}
    (hε : ∀ m : ℤ, ε ≤ |x.real atoms.vals / y.real atoms.vals - m|)
    (h : 512 * |x.real atoms.vals / y.real atoms.vals| < 2 ^ (64 * 2 ^ 24) * ε) :
    ∃ m, Elt.floordivLong atoms F coeff 25 x y = .ok m ∧ Elt.floordiv atoms F coeff 25 x y = .ok m := by
  obtain ⟨m, hm⟩ := elt_floordiv_effort atoms hF hco hac hx hy hs hx' hy' nx ny y0 hε h (fuel := 25) (by norm_num) (by norm_num)
  exact ⟨m, by rw [elt_floordiv_no_overflow hx hy mx my (rank_fits (by omega) le_rfl), hm], hm⟩

end

/-! ### The theorems apply -/

theorem floorX_enough : floorX.Enough floorAtoms 64 24 := by
  obtain ⟨v1, -⟩ := effort_values
  have hsize : floorX.size floorAtoms ≤ 12 := by
    simp only [Elt.size, Elt.terms, floorX, floorMod, List.zip_cons_cons, List.zip_nil_right, List.map_cons, List.map_nil,
      List.sum_cons, List.sum_nil, num_int, RN.real_rat, RN.real_atom]
    show _ + (_ * magnitude floorDigits.value + 0) ≤ _
    rw [floorDigits_value, magnitude, magnitude, if_neg (by norm_num), if_neg (by norm_num)]
    norm_num [abs_of_pos, abs_of_neg]
  have h2 : (2 : ℝ) ≤ 2 ^ (2 ^ 29) := le_self_pow₀ (by norm_num) (by norm_num)
  have hlo : (6 : ℝ) ≤ 17 / 2 - 1 / 2 ^ 62 - 2 * (3 / 4 - 1 / 2 ^ 63 + (2 ^ 10 - 1) / 2 ^ 76) := by norm_num
  generalize (17 : ℝ) / 2 - 1 / 2 ^ 62 - 2 * (3 / 4 - 1 / 2 ^ 63 + (2 ^ 10 - 1) / 2 ^ 76) = v at v1 hlo
  refine enough_large floorAtoms (.inr ?_) (by decide) ?_
  · rw [v1]; exact ne_of_gt (by linarith)
  · rw [v1, abs_of_pos (by linarith)]
    exact hsize.trans ((by linarith : (12 : ℝ) ≤ 2 * v).trans (mul_le_mul_of_nonneg_right h2 (by linarith)))

/-- `17/2 - 2^-62 - 2a`, which agrees with 7 in 68 bits. -/
example : (∃ m, floorX.floorLong floorAtoms FlintLike.arith IntegerRing.arb 25 = .ok m ∧ floorX.floor floorAtoms FlintLike.arith IntegerRing.arb 25 = .ok m) ∧
    ∃ m, floorX.ceilLong floorAtoms FlintLike.arith IntegerRing.arb 25 = .ok m ∧ floorX.ceil floorAtoms FlintLike.arith IntegerRing.arb 25 = .ok m := by
  obtain ⟨v1, -⟩ := effort_values
  have v : floorX.real floorAtoms.vals = 7 - (2 ^ 10 - 1) / 2 ^ 75 := by rw [v1]; ring
  refine elt_floor_machine (ε := 1 / 2 ^ 66) FlintLike.lawful coeffLawful_int coeffAccurate_int (elt_floor_fails 0).1 (by decide) floorBasis_moderate floorX_enough ?_ ?_
  · intro m
    rw [v]
    rcases le_or_gt 7 m with hm | hm
    · have : (7 : ℝ) ≤ m := by exact_mod_cast hm
      rw [abs_of_neg (by linarith [(by norm_num : (0 : ℝ) < (2 ^ 10 - 1) / 2 ^ 75)])]
      linarith [(by norm_num : (1 : ℝ) / 2 ^ 66 ≤ (2 ^ 10 - 1) / 2 ^ 75)]
    · have : (m : ℝ) ≤ 6 := by exact_mod_cast (by omega : m ≤ 6)
      rw [abs_of_pos (by linarith [(by norm_num : (2 ^ 10 - 1) / 2 ^ 75 < (1 : ℝ))])]
      linarith [(by norm_num : (2 ^ 10 - 1) / 2 ^ 75 + 1 / 2 ^ 66 < (1 : ℝ))]
  · have h : (2 : ℝ) ^ 128 ≤ 2 ^ (64 * 2 ^ 24) := pow_le_pow_right₀ (by norm_num) (by norm_num)
    rw [v, abs_of_pos (by norm_num)]
    generalize (2 : ℝ) ^ (64 * 2 ^ 24) = K at *
    linarith [(by norm_num : 33 * (7 - (2 ^ 10 - 1) / 2 ^ 75) * 2 ^ 66 < (2 : ℝ) ^ 128)]

/-- `floordiv` of elements and the conversion of an element to `double` in 25 rounds. -/
example [Build] : Elt.floordivLong floorAtoms FlintLike.arith IntegerRing.arb 25 floorX floordivY = Elt.floordiv floorAtoms FlintLike.arith IntegerRing.arb 25 floorX floordivY ∧
    Elt.toDoubleLong floorAtoms FlintLike.arith IntegerRing.arb 25 floorX = Elt.toDouble floorAtoms FlintLike.arith IntegerRing.arb 25 floorX :=
  have w1 := (elt_floor_fails 0).1
  have w2 : floordivY.WF := ⟨w1.mod, rfl, fun c _ => by trivial⟩
  ⟨elt_floordiv_no_overflow w1 w2 floorBasis_moderate floorBasis_moderate (rank_fits (by decide) le_rfl),
    elt_double_no_overflow w1 floorBasis_moderate (rank_fits (by decide) (by norm_num))⟩

/-- A random number that is close to 3/4 compares with 1/2. -/
example : ∃ r, RN.ltArfLong floorAtoms 50 (.atom 0) (1 / 2) = .ok r ∧ RN.ltArf floorAtoms 50 (.atom 0) (1 / 2) = .ok r := by
  have hv : RN.real floorAtoms (.atom 0) = 3 / 4 - 1 / 2 ^ 63 + (2 ^ 10 - 1) / 2 ^ 76 := by rw [RN.real_atom]; exact floorDigits_value
  refine real_lt_arf_machine (x := .atom 0) trivial (floorBasis_moderate _ (by simp [floorX, floorMod])) ?_
  have h : (2 : ℝ) ^ 10 ≤ 2 ^ (2 ^ 50) := pow_le_pow_right₀ (by norm_num) (by norm_num)
  rw [hv, magnitude, if_neg (by norm_num), abs_of_pos (by norm_num), abs_of_pos (by norm_num)]
  generalize (2 : ℝ) ^ (2 ^ 50) = K at *
  norm_num
  linarith

end ExactReal.Props
