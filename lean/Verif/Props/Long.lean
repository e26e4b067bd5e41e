import Verif.Spec.Long
import Verif.Props.Effort

/-!
# C90: no overflow of `long`s in the approximations
-/

namespace ExactReal.Props
open ExactReal

theorem long_eq {z : ℤ} (h : |z| ≤ 2 ^ 62) : long z = .ok z := by
  rw [abs_le] at h
  rw [long, if_pos ⟨by omega, by omega⟩]

theorem long_nat {n : ℕ} (h : n ≤ 2 ^ 62) : long n = .ok (n : ℤ) := long_eq (by rw [abs_of_nonneg (by positivity)]; exact_mod_cast h)

section
variable {L prec : ℕ}

theorem digits_long {d : Digits} (hd : d.first ≤ L) (hL : L ≤ 2 ^ 60) (hp : prec ≤ 2 ^ 60 + 2 ^ 59) : d.arfLong prec = .ok (d.arf prec) := by
  rw [Digits.arfLong, long_eq (by rw [abs_le]; omega), Out.ok_bind, long_eq (by rw [abs_le]; omega), Out.ok_bind]

theorem bits_le {m e : ℤ} (h : |m| < 2 ^ L) : Arf.bits (Arf.ofMantissaExponent m e) ≤ L := by
  rcases eq_or_ne m 0 with rfl | hm
  · simp [Arf.bits, Arf.ofMantissaExponent]
  · have h1 := (Arf.bits_spec (e := e) hm).2.1
    have h2 := Arf.log_mul_zpow hm e
    rw [Arf.ofMantissaExponent] at *
    rw [h2] at h1
    have h3 : Nat.log 2 m.natAbs < L := Nat.log_lt_of_lt_pow (by omega) (by zify; exact h)
    omega

theorem atom_long {a : Atom} (ha : a.Moderate L) (hL : L ≤ 2 ^ 60) (hp : prec ≤ 2 ^ 60 + 2 ^ 59) : a.arfLong prec = .ok (a.arf prec) := by
  cases a with
  | random d => exact digits_long ha hL hp
  | constrained m e inner =>
    obtain ⟨h1, h2, h3⟩ := ha
    rw [abs_le] at h2
    have h3 := bits_le (e := e) h3
    rw [Atom.arfLong, Atom.arf, Atom.arfConstrained]
    simp only
    generalize Arf.bits (Arf.ofMantissaExponent m e) = b at *
    rw [long_eq (by rw [abs_le]; omega), Out.ok_bind, long_eq (by rw [abs_le]; omega), Out.ok_bind, long_eq (by rw [abs_le]; omega), Out.ok_bind]
    split_ifs with h
    · rw [long_eq (by rw [abs_le]; omega), Out.ok_bind, digits_long h1 hL (by omega), Out.ok_bind, long_eq (by rw [abs_le]; omega), Out.ok_bind]
    · rfl

theorem prod_long {atoms : Atoms} {m : Mono} (hm : ∀ p ∈ m, (atoms p.1).Moderate L) (hL : L ≤ 2 ^ 60) (hp : prec ≤ 2 ^ 60 + 2 ^ 59) (ret : ℚ) :
    RN.prodLong atoms prec ret m = .ok (prodLoop atoms prec ret m) := by
  induction m generalizing ret with
  | nil => rfl
  | cons p m ih =>
    obtain ⟨i, k⟩ := p
    rw [RN.prodLong, atom_long (hm (i, k) (by simp)) hL hp, Out.ok_bind, ih (fun p hp => hm p (by simp [hp]))]
    rfl

theorem arf_long {atoms : Atoms} {x : RN} (hx : x.WF) (hm : x.Moderate atoms L) (hL : L ≤ 2 ^ 60) (hp : prec ≤ 2 ^ 60) :
    x.arfLong atoms prec = .ok (x.arf_ atoms prec) := by
  cases x with
  | rat q => rfl
  | atom i => exact atom_long hm.2 hL (by omega)
  | prod m =>
    obtain ⟨h1, h2⟩ := hm.2
    have h3 := hx.2
    rw [RN.arfLong, RN.arf_, workingPrec]
    generalize (m.map Prod.snd).sum = n at *
    have hc : Nat.clog 2 (3 * n) ≤ 33 := Nat.clog_le_of_le_pow (by omega)
    rw [long_eq (by rw [abs_le]; omega), Out.ok_bind, long_eq (by rw [abs_le]; omega), Out.ok_bind, long_eq (by rw [abs_le]; omega), Out.ok_bind,
      show ((n : ℤ) * 2 + (n - 1) + 1).toNat = 3 * n by omega, long_eq (by rw [abs_le]; omega), Out.ok_bind,
      show ((prec : ℤ) + (Nat.clog 2 (3 * n) : ℕ)).toNat = prec + Nat.clog 2 (3 * n) by omega, prod_long h2 hL (by omega), Out.ok_bind,
      long_eq (by rw [abs_le]; omega), Out.ok_bind]

theorem logb_bound {atoms : Atoms} {x : RN} (hx : x.WF) (hm : x.Moderate atoms L) (h2 : 2 ≤ prec) :
    |Arf.logb (x.arf_ atoms prec)| ≤ L + 1 := by
  obtain ⟨r, -, -, -, h4⟩ := RN.arb_error atoms hx h2
  rw [RN.arb_eq] at h4
  change |x.real atoms - (x.arf_ atoms prec : ℚ)| ≤ _ at h4
  have hu := two_pow_neg_le prec h2
  generalize x.arf_ atoms prec = a at *
  have hx0 := abs_nonneg (x.real atoms)
  have h5 : |x.real atoms - a| ≤ 3 / 8 * |x.real atoms| := by
    refine h4.trans ?_
    have := mul_le_mul_of_nonneg_right hu hx0
    linarith
  have t1 := abs_sub_abs_le_abs_sub (x.real atoms) (a : ℝ)
  have t2 := abs_sub_abs_le_abs_sub (a : ℝ) (x.real atoms)
  rw [abs_sub_comm] at t2
  rcases hm.1 with h0 | ⟨lo, hi⟩
  · have h00 : |x.real atoms| = 0 := by rw [h0, abs_zero]
    have : (a : ℝ) = 0 := abs_eq_zero.1 (le_antisymm (by linarith) (abs_nonneg _))
    have ha : a = 0 := by exact_mod_cast this
    rw [Arf.logb, if_pos ha]
    rw [abs_neg, abs_one]
    omega
  · have hpos : (0 : ℝ) < 2 ^ (-(L : ℤ)) := by positivity
    have ha0 : a ≠ 0 := by
      rintro rfl
      rw [Rat.cast_zero, abs_zero] at t1
      simp only [Rat.cast_zero, sub_zero] at h5
      linarith
    have e1 : (2 : ℝ) ^ (-(L : ℤ) - 1) = 2 ^ (-(L : ℤ)) / 2 := by rw [zpow_sub₀ (by norm_num)]; norm_num
    have e2 : (2 : ℝ) ^ ((L : ℤ) + 1) = 2 ^ L * 2 := by rw [zpow_add₀ (by norm_num), zpow_natCast]; norm_num
    have k1 : (2 : ℚ) ^ (-(L : ℤ) - 1) ≤ |a| := by
      have : (2 : ℝ) ^ (-(L : ℤ) - 1) ≤ |(a : ℝ)| := by rw [e1]; linarith
      have h := this
      rw [show (2 : ℝ) ^ (-(L : ℤ) - 1) = (((2 : ℚ) ^ (-(L : ℤ) - 1) : ℚ) : ℝ) by push_cast; rfl, ← Rat.cast_abs, Rat.cast_le] at h
      exact h
    have k2 : |a| < (2 : ℚ) ^ ((L : ℤ) + 1) := by
      have : |(a : ℝ)| < (2 : ℝ) ^ ((L : ℤ) + 1) := by
        rw [e2]
        have : (0 : ℝ) < 2 ^ L := by positivity
        linarith
      have h := this
      rw [show (2 : ℝ) ^ ((L : ℤ) + 1) = (((2 : ℚ) ^ ((L : ℤ) + 1) : ℚ) : ℝ) by push_cast; rfl, ← Rat.cast_abs, Rat.cast_lt] at h
      exact h
    rw [Arf.logb, if_neg ha0, abs_le]
    have hap : 0 < |a| := abs_pos.2 ha0
    constructor
    · have := (Int.zpow_le_iff_le_log (b := 2) (by norm_num) hap).1 (by exact_mod_cast k1 : ((2 : ℕ) : ℚ) ^ (-(L : ℤ) - 1) ≤ |a|)
      omega
    · have := (Int.lt_zpow_iff_log_lt (b := 2) (by norm_num) hap).1 (by exact_mod_cast k2 : |a| < ((2 : ℕ) : ℚ) ^ ((L : ℤ) + 1))
      omega

theorem refine_long {atoms : Atoms} {x : RN} (hx : x.WF) (hm : x.Moderate atoms L) (hL : L ≤ 2 ^ 60) (h2 : 2 ≤ prec) (hp : prec ≤ 2 ^ 60) (b : Ball) :
    x.refineLong atoms b prec = .ok (x.refine atoms b prec) := by
  rw [RN.refineLong, RN.refine]
  split_ifs with h
  · rfl
  · have hb := logb_bound hx hm h2
    rw [abs_le] at hb
    have e : x.arf atoms prec = x.arf_ atoms prec := rfl
    rw [e, arf_long hx hm hL hp, Out.ok_bind]
    generalize x.arf_ atoms prec = a at *
    rw [long_eq (by rw [abs_le]; omega), Out.ok_bind, long_eq (by rw [abs_le]; omega), Out.ok_bind, long_eq (by rw [abs_le]; omega), Out.ok_bind,
      long_eq (by rw [abs_le]; omega), Out.ok_bind, add_sub_cancel_right]

end

/-! ### Real numbers -/

theorem real_ltLoop_long {atoms : Atoms} {L : ℕ} {x y : RN} (hx : x.WF) (hy : y.WF) (mx : x.Moderate atoms L) (my : y.Moderate atoms L) (hL : L ≤ 2 ^ 60)
    (fuel : ℕ) : ∀ {prec : ℕ} (a b : Ball), 2 ≤ prec → prec * 2 ^ fuel ≤ 2 ^ 60 →
      RN.ltLoopLong atoms x y fuel prec a b = RN.ltLoop atoms x y fuel prec a b := by
  induction fuel with
  | zero => intros; rfl
  | succ fuel ih =>
    intro prec a b h2 hp
    have h1 : 1 ≤ 2 ^ fuel := Nat.one_le_two_pow
    have hp' : prec * 2 * 2 ^ fuel ≤ 2 ^ 60 := by rw [pow_succ] at hp; linarith
    have hp2 : prec * 2 ≤ 2 ^ 60 := (Nat.le_mul_of_pos_right _ h1).trans hp'
    rw [RN.ltLoopLong, RN.ltLoop, refine_long hx mx hL h2 (by omega), Out.ok_bind, refine_long hy my hL h2 (by omega), Out.ok_bind]
    cases (x.refine atoms a prec).lt (y.refine atoms b prec) with
    | some r => rfl
    | none =>
      simp only
      rw [long_eq (by rw [abs_le]; omega), Out.ok_bind, show ((prec : ℤ) * 2).toNat = prec * 2 by omega]
      exact ih _ _ (by omega) hp'

/-- C90. Comparisons of real numbers of moderate size compute precisions and exponents without overflow while the precision is at most `2 ^ 60`. -/
theorem real_lt_no_overflow {atoms : Atoms} {x y : RN} (hx : x.WF) (hy : y.WF) (mx : x.Moderate atoms (2 ^ 60)) (my : y.Moderate atoms (2 ^ 60)) {fuel : ℕ}
    (hf : fuel ≤ 59) : RN.ltRNLong atoms fuel x y = RN.ltRN atoms fuel x y := by
  rw [RN.ltRNLong, RN.ltRN]
  split_ifs
  · rfl
  · exact real_ltLoop_long hx hy mx my le_rfl fuel _ _ le_rfl (by
      rw [show 2 * 2 ^ fuel = 2 ^ (fuel + 1) by ring]; exact Nat.pow_le_pow_right (by norm_num) (by omega))

/-! ### Numbers of moderate size -/

theorem atom_moderate {a : Atom} (ha : a.Moderate L) : (2 : ℝ) ^ (-((2 * L + 2 : ℕ) : ℤ)) ≤ |a.value| ∧ |a.value| ≤ 2 ^ (2 * L + 2) := by
  have one : (1 : ℝ) ≤ 2 := by norm_num
  cases a with
  | random d =>
    have hd : d.first ≤ L := ha
    rw [Atom.value, abs_of_pos d.value_pos]
    exact ⟨(zpow_le_zpow_right₀ one (by push_cast; omega)).trans d.le_value, d.value_le_one.trans (one_le_pow₀ one)⟩
  | constrained m e inner =>
    obtain ⟨h1, h2, h3⟩ := ha
    rw [abs_le] at h2
    have p1 := inner.le_value
    have p2 := inner.value_le_one
    have p0 := inner.value_pos
    have hp : (0 : ℝ) < 2 ^ (e - 1) := by positivity
    have he : (2 : ℝ) ^ e = 2 * 2 ^ (e - 1) := by rw [zpow_sub_one₀ (by norm_num)]; ring
    have hv : Atom.value (.constrained m e inner) = (2 * m + inner.value) * 2 ^ (e - 1) := by rw [Atom.value, he]; ring
    have key : inner.value ≤ |2 * (m : ℝ) + inner.value| := by
      rcases le_or_gt 0 m with h | h
      · have : (0 : ℝ) ≤ m := by exact_mod_cast h
        exact (by linarith : inner.value ≤ 2 * (m : ℝ) + inner.value).trans (le_abs_self _)
      · have : (m : ℝ) ≤ -1 := by exact_mod_cast (by omega : m ≤ -1)
        exact (by linarith : inner.value ≤ -(2 * (m : ℝ) + inner.value)).trans (neg_le_abs _)
    have upper : |2 * (m : ℝ) + inner.value| ≤ 2 ^ (L + 1) := by
      have : |(m : ℝ)| ≤ 2 ^ L - 1 := by
        have := Int.le_sub_one_of_lt h3
        have h4 : ((|m| : ℤ) : ℝ) ≤ ((2 ^ L - 1 : ℤ) : ℝ) := Int.cast_le.2 this
        push_cast at h4; exact h4
      refine (abs_add_le _ _).trans ?_
      rw [abs_mul, abs_of_pos p0, abs_of_pos (by norm_num : (0 : ℝ) < 2), pow_succ]
      linarith
    rw [hv, abs_mul, abs_of_pos hp]
    constructor
    · refine le_trans ?_ (mul_le_mul_of_nonneg_right (p1.trans key) hp.le)
      rw [← zpow_add₀ (by norm_num)]
      exact zpow_le_zpow_right₀ one (by push_cast; omega)
    · refine (mul_le_mul_of_nonneg_right upper hp.le).trans ?_
      rw [← zpow_natCast, ← zpow_natCast, ← zpow_add₀ (by norm_num)]
      exact zpow_le_zpow_right₀ one (by push_cast; omega)

theorem mono_moderate {atoms : Atoms} {K : ℕ} : ∀ {m : Mono}, (∀ p ∈ m, (2 : ℝ) ^ (-(K : ℤ)) ≤ |(atoms p.1).value| ∧ |(atoms p.1).value| ≤ 2 ^ K) →
    (2 : ℝ) ^ (-((K * (m.map Prod.snd).sum : ℕ) : ℤ)) ≤ |m.value fun i => (atoms i).value| ∧
      |m.value fun i => (atoms i).value| ≤ 2 ^ (K * (m.map Prod.snd).sum)
  | [], _ => by simp [Mono.value]
  | (i, k) :: m, h => by
    obtain ⟨h1, h2⟩ := mono_moderate (m := m) fun p hp => h p (List.mem_cons_of_mem _ hp)
    obtain ⟨a1, a2⟩ := h (i, k) List.mem_cons_self
    have hv : Mono.value (fun i => (atoms i).value) ((i, k) :: m) = (atoms i).value ^ k * Mono.value (fun i => (atoms i).value) m := by simp [Mono.value]
    rw [hv, abs_mul, abs_pow, List.map_cons, List.sum_cons]
    constructor
    · refine le_trans (le_of_eq ?_) (mul_le_mul (pow_le_pow_left₀ (by positivity) a1 k) h1 (by positivity) (by positivity))
      rw [← zpow_natCast, ← zpow_mul, ← zpow_add₀ (by norm_num)]
      congr 1; push_cast; ring
    · refine (mul_le_mul (pow_le_pow_left₀ (by positivity) a2 k) h2 (by positivity) (by positivity)).trans (le_of_eq ?_)
      rw [← pow_mul, ← pow_add]; congr 1; ring

/-- C90. A number or a product of at most `n` numbers that start with at most `L` zeros, or that are from intervals whose bounds have `L` bits and exponents of
at most `L`, is of moderate size. -/
theorem moderate_of_atoms {atoms : Atoms} {x : RN} {M n : ℕ} (hx : ∀ i, (atoms i).Moderate L) (h1 : 1 ≤ n) (hn : n ≤ 2 ^ 31) (hM : (2 * L + 2) * n ≤ M)
    (hd : match x with | .rat _ => False | .atom _ => True | .prod m => (m.map Prod.snd).sum ≤ n) : x.Moderate atoms M := by
  have one : (1 : ℝ) ≤ 2 := by norm_num
  have hLM : 2 * L + 2 ≤ M := (Nat.le_mul_of_pos_right _ h1).trans hM
  have mono : ∀ i, (atoms i).Moderate M := by
    intro i
    have := hx i
    cases h : atoms i with
    | random d => rw [h] at this; exact le_trans (show d.first ≤ L from this) (by omega)
    | constrained m e inner =>
      rw [h] at this
      obtain ⟨a, b, c⟩ := this
      exact ⟨by omega, b.trans (by omega), c.trans_le (pow_le_pow_right₀ (by norm_num) (by omega))⟩
  cases x with
  | rat q => exact hd.elim
  | atom i =>
    obtain ⟨a, b⟩ := atom_moderate (hx i)
    exact ⟨.inr ⟨(zpow_le_zpow_right₀ one (by push_cast; omega)).trans a, b.trans (pow_le_pow_right₀ one hLM)⟩, mono i⟩
  | prod m =>
    obtain ⟨a, b⟩ := mono_moderate (m := m) (K := 2 * L + 2) (atoms := atoms) fun p _ => atom_moderate (hx p.1)
    have hle : (2 * L + 2) * (m.map Prod.snd).sum ≤ M := (Nat.mul_le_mul_left _ hd).trans hM
    exact ⟨.inr ⟨(zpow_le_zpow_right₀ one (neg_le_neg (Int.ofNat_le.2 hle))).trans a, b.trans (pow_le_pow_right₀ one hle)⟩, le_trans hd hn, fun p _ => mono p.1⟩

/-- Products of up to two billion numbers that start with up to a million zeros. -/
example {atoms : Atoms} (h : ∀ i, (atoms i).Moderate (2 ^ 20)) {m : Mono} (hm : (m.map Prod.snd).sum ≤ 2 ^ 31) : (RN.prod m).Moderate atoms (2 ^ 60) :=
  moderate_of_atoms h (n := 2 ^ 31) (by norm_num) le_rfl (by norm_num) hm

/-! ### Elements -/

section
variable {P : Type} [DecidableEq P] {R : Type} [CommRing R] [DecidableEq R] [CRing P R] [LawfulCRing P]
variable {atoms : Atoms} {F : Arith} {coeff : ℕ → R → Ball}

theorem arb_long_rn {x : RN} (hx : x.WF) {L prec : ℕ} (hm : x.Moderate atoms L) (hL : L ≤ 2 ^ 60) (h2 : 2 ≤ prec) (hp : prec ≤ 2 ^ 60) :
    x.arbLong atoms prec = .ok (x.arb atoms prec) := refine_long hx hm hL h2 hp _

omit [CommRing R] [DecidableEq R] in
theorem arbSum_long {L prec : ℕ} (hL : L ≤ 2 ^ 60) (h2 : 2 ≤ prec) (hp : prec ≤ 2 ^ 60) {ts : List (RN × R)} (ht : ∀ t ∈ ts, t.1.WF ∧ t.1.Moderate atoms L) (ret : Ball) :
    Elt.arbSumLong atoms F coeff prec ret ts = .ok (Elt.arbSum atoms F coeff prec ret ts) := by
  induction ts generalizing ret with
  | nil => rfl
  | cons t ts ih =>
    obtain ⟨g, c⟩ := t
    obtain ⟨h3, h4⟩ := ht (g, c) (by simp)
    rw [Elt.arbSumLong, Elt.arbSum, arb_long_rn h3 h4 hL h2 hp, Out.ok_bind, ih fun t h => ht t (by simp [h])]

omit [CommRing R] [DecidableEq R] in
theorem arbLoop_long {L A : ℕ} (hL : L ≤ 2 ^ 60) {ts : List (RN × R)} (ht : ∀ t ∈ ts, t.1.WF ∧ t.1.Moderate atoms L) (fuel : ℕ) :
    ∀ {prec : ℕ}, 2 ≤ prec → prec * 2 ^ fuel ≤ 2 ^ 60 → Elt.arbLoopLong atoms F coeff A ts fuel prec = Elt.arbLoop atoms F coeff A ts fuel prec := by
  induction fuel with
  | zero => intros; rfl
  | succ fuel ih =>
    intro prec h2 hp
    have h1 : 1 ≤ 2 ^ fuel := Nat.one_le_two_pow
    have hp' : prec * 2 * 2 ^ fuel ≤ 2 ^ 60 := by rw [pow_succ] at hp; linarith
    have hp2 : prec * 2 ≤ 2 ^ 60 := (Nat.le_mul_of_pos_right _ h1).trans hp'
    rw [Elt.arbLoopLong, Elt.arbLoop, arbSum_long hL h2 (by omega) ht, Out.ok_bind]
    split_ifs
    · rfl
    · rw [long_eq (by rw [abs_le]; omega), Out.ok_bind, show ((prec : ℤ) * 2).toNat = prec * 2 by omega]
      exact ih (by omega) hp'

/-- C90. `arb` of an element whose generators are of moderate size computes precisions and exponents without overflow while the precision is at most `2 ^ 60`. -/
theorem elt_arb_no_overflow {x : Elt P R} (hx : x.WF) (hm : ∀ g ∈ x.mod.basis, g.Moderate atoms (2 ^ 60)) {A fuel : ℕ} (hA : 2 ≤ A)
    (h : (A + Nat.clog 2 x.mod.basis.length) * 2 ^ fuel ≤ 2 ^ 60) : x.arbLong atoms F coeff fuel A = x.arb atoms F coeff fuel A := by
  have h1 : 1 ≤ 2 ^ fuel := Nat.one_le_two_pow
  have h2 : A + Nat.clog 2 x.mod.basis.length ≤ 2 ^ 60 := (Nat.le_mul_of_pos_right _ h1).trans h
  rw [Elt.arbLong, Elt.arb]
  split_ifs
  · rfl
  · generalize Nat.clog 2 x.mod.basis.length = c at *
    rw [long_eq (by rw [abs_le]; omega), Out.ok_bind, show ((A : ℤ) + c).toNat = A + c by omega]
    exact arbLoop_long le_rfl (fun t ht => ⟨hx.mod.gens _ (List.of_mem_zip ht).1, hm _ (List.of_mem_zip ht).1⟩) fuel (by omega) h

theorem arb_long_all {x : Elt P R} (hx : x.WF) (hm : ∀ g ∈ x.mod.basis, g.Moderate atoms (2 ^ 60)) {fuel : ℕ}
    (h : (64 * 2 ^ fuel + Nat.clog 2 x.mod.basis.length) * 2 ^ fuel ≤ 2 ^ 60) {k : ℕ} (hk : k < fuel) :
    x.arbLong atoms F coeff fuel (64 * 2 ^ k) = x.arb atoms F coeff fuel (64 * 2 ^ k) := by
  have h1 : 64 * 2 ^ k ≤ 64 * 2 ^ fuel := Nat.mul_le_mul_left _ (Nat.pow_le_pow_right (by norm_num) hk.le)
  have h2 : 1 ≤ 2 ^ k := Nat.one_le_two_pow
  exact elt_arb_no_overflow hx hm (by omega) ((Nat.mul_le_mul_right _ (by omega)).trans h)

omit [DecidableEq P] [CommRing R] [DecidableEq R] [CRing P R] [LawfulCRing P] in
theorem ltLoop_long {op op' : ℕ → Ball → Out (Option Bool)} {self self' : ℕ → Out Ball} (fuel : ℕ) : ∀ {start : ℕ}, start * 2 ^ fuel ≤ 2 ^ 60 →
    (∀ k < fuel, self (start * 2 ^ k) = self' (start * 2 ^ k) ∧ ∀ b, op (start * 2 ^ k) b = op' (start * 2 ^ k) b) →
    Elt.ltLoopLong op self fuel start = Elt.ltLoop op' self' fuel start := by
  induction fuel with
  | zero => intros; rfl
  | succ fuel ih =>
    intro start hp h
    have h1 : 1 ≤ 2 ^ fuel := Nat.one_le_two_pow
    have hp' : start * 2 * 2 ^ fuel ≤ 2 ^ 60 := by rw [pow_succ] at hp; linarith
    have hp2 : start * 2 ≤ 2 ^ 60 := (Nat.le_mul_of_pos_right _ h1).trans hp'
    have h0 := h 0 (by omega)
    rw [pow_zero, _root_.mul_one] at h0
    have step : Elt.ltLoopLong op self fuel ((start : ℤ) * 2).toNat = Elt.ltLoop op' self' fuel (start * 2) := by
      rw [show ((start : ℤ) * 2).toNat = start * 2 by omega]
      refine ih hp' fun k hk => ?_
      have := h (k + 1) (by omega)
      rwa [pow_succ', ← _root_.mul_assoc] at this
    have hl : long ((start : ℤ) * 2) = .ok ((start : ℤ) * 2) := long_eq (by rw [abs_le]; omega)
    rw [Elt.ltLoopLong, Elt.ltLoop, h0.1]
    cases self' start with
    | ok b =>
      rw [Out.ok_bind, Out.ok_bind, h0.2]
      cases op' start b with
      | ok o =>
        rw [Out.ok_bind, Out.ok_bind]
        cases o with
        | some r => rfl
        | none =>
          simp only
          rw [hl, Out.ok_bind, step]
      | _ => simp only [Out.throws_bind, Out.abort_bind, Out.ub_bind, Out.pending_bind]
    | _ => simp only [Out.throws_bind, Out.abort_bind, Out.ub_bind, Out.pending_bind]

omit [DecidableEq P] [CommRing R] [DecidableEq R] [CRing P R] [LawfulCRing P] in
theorem roundLoop_long {round : ℚ → ℤ} {self self' : ℕ → Out Ball} (fuel : ℕ) : ∀ {start : ℕ}, start * 2 ^ fuel ≤ 2 ^ 60 →
    (∀ k < fuel, self (start * 2 ^ k) = self' (start * 2 ^ k)) → Elt.roundLoopLong round self fuel start = Elt.roundLoop round self' fuel start := by
  induction fuel with
  | zero => intros; rfl
  | succ fuel ih =>
    intro start hp h
    have h1 : 1 ≤ 2 ^ fuel := Nat.one_le_two_pow
    have hp' : start * 2 * 2 ^ fuel ≤ 2 ^ 60 := by rw [pow_succ] at hp; linarith
    have hp2 : start * 2 ≤ 2 ^ 60 := (Nat.le_mul_of_pos_right _ h1).trans hp'
    have h0 := h 0 (by omega)
    rw [pow_zero, _root_.mul_one] at h0
    have step : Elt.roundLoopLong round self fuel ((start : ℤ) * 2).toNat = Elt.roundLoop round self' fuel (start * 2) := by
      rw [show ((start : ℤ) * 2).toNat = start * 2 by omega]
      refine ih hp' fun k hk => ?_
      have := h (k + 1) (by omega)
      rwa [pow_succ', ← _root_.mul_assoc] at this
    have hl : long ((start : ℤ) * 2) = .ok ((start : ℤ) * 2) := long_eq (by rw [abs_le]; omega)
    rw [Elt.roundLoopLong, Elt.roundLoop, h0]
    cases self' start with
    | ok b =>
      rw [Out.ok_bind, Out.ok_bind]
      cases b.interval with
      | ok i =>
        obtain ⟨lo, hi⟩ := i
        rw [Out.ok_bind, Out.ok_bind]
        simp only
        split_ifs
        · rfl
        · rw [hl, Out.ok_bind, step]
      | _ => simp only [Out.throws_bind, Out.abort_bind, Out.ub_bind, Out.pending_bind]
    | _ => simp only [Out.throws_bind, Out.abort_bind, Out.ub_bind, Out.pending_bind]

omit [DecidableEq P] [CommRing R] [DecidableEq R] [CRing P R] [LawfulCRing P] in
theorem start_le {c fuel : ℕ} (h : (64 * 2 ^ fuel + c) * 2 ^ fuel ≤ 2 ^ 60) : 64 * 2 ^ fuel ≤ 2 ^ 60 :=
  (Nat.le_add_right _ _).trans ((Nat.le_mul_of_pos_right _ (by positivity)).trans h)

/-- C90. Comparisons of elements whose generators are of moderate size compute precisions and exponents without overflow while the precision is at most
`2 ^ 60`. -/
theorem elt_lt_no_overflow [Build] {x y : Elt P R} (hx : x.WF) (hy : y.WF) (mx : ∀ g ∈ x.mod.basis, g.Moderate atoms (2 ^ 60))
    (my : ∀ g ∈ y.mod.basis, g.Moderate atoms (2 ^ 60)) {fuel : ℕ} (bx : (64 * 2 ^ fuel + Nat.clog 2 x.mod.basis.length) * 2 ^ fuel ≤ 2 ^ 60)
    (by' : (64 * 2 ^ fuel + Nat.clog 2 y.mod.basis.length) * 2 ^ fuel ≤ 2 ^ 60) :
    Elt.ltLong atoms F coeff fuel x y = Elt.lt atoms F coeff fuel x y := by
  rw [Elt.ltLong, Elt.lt]
  congr 1
  funext e
  split_ifs
  · rfl
  · exact ltLoop_long fuel (start_le bx) fun k hk => ⟨arb_long_all hx mx bx hk, fun b => by rw [arb_long_all hy my by' hk]⟩

/-- C90. Comparisons with real numbers and with rationals. -/
theorem elt_lt_other_no_overflow [Build] {x : Elt P R} (hx : x.WF) (mx : ∀ g ∈ x.mod.basis, g.Moderate atoms (2 ^ 60)) {fuel : ℕ}
    (bx : (64 * 2 ^ fuel + Nat.clog 2 x.mod.basis.length) * 2 ^ fuel ≤ 2 ^ 60) :
    (∀ y : RN, y.WF → y.Moderate atoms (2 ^ 60) → Elt.ltRNLong atoms F coeff fuel x y = Elt.ltRN atoms F coeff fuel x y) ∧
      ∀ q, Elt.ltQLong atoms F coeff fuel x q = Elt.ltQ atoms F coeff fuel x q := by
  constructor
  · intro y hy my
    rw [Elt.ltRNLong, Elt.ltRN]
    congr 1
    funext e
    split_ifs
    · rfl
    · refine ltLoop_long fuel (start_le bx) fun k hk => ⟨arb_long_all hx mx bx hk, fun b => ?_⟩
      have h1 : 64 * 2 ^ k ≤ 64 * 2 ^ fuel := Nat.mul_le_mul_left _ (Nat.pow_le_pow_right (by norm_num) hk.le)
      have h2 : 1 ≤ 2 ^ k := Nat.one_le_two_pow
      rw [arb_long_rn hy my le_rfl (by omega) (h1.trans (start_le bx)), Out.ok_bind]
  · intro q
    rw [Elt.ltQLong, Elt.ltQ]
    split_ifs
    · rfl
    · exact ltLoop_long fuel (start_le bx) fun k hk => ⟨arb_long_all hx mx bx hk, fun b => rfl⟩

/-- C90. `floor` and `ceil`. -/
theorem elt_floor_no_overflow {x : Elt P R} (hx : x.WF) (mx : ∀ g ∈ x.mod.basis, g.Moderate atoms (2 ^ 60)) {fuel : ℕ}
    (bx : (64 * 2 ^ fuel + Nat.clog 2 x.mod.basis.length) * 2 ^ fuel ≤ 2 ^ 60) :
    x.floorLong atoms F coeff fuel = x.floor atoms F coeff fuel ∧ x.ceilLong atoms F coeff fuel = x.ceil atoms F coeff fuel := by
  unfold Elt.floorLong Elt.ceilLong Elt.floor Elt.ceil
  cases x.integer? with
  | some m => exact ⟨rfl, rfl⟩
  | none => exact ⟨roundLoop_long fuel (start_le bx) fun k hk => arb_long_all hx mx bx hk, roundLoop_long fuel (start_le bx) fun k hk => arb_long_all hx mx bx hk⟩

/-- C90. If the terms of the elements do not cancel by more than `2 ^ 29` bits and the elements do not agree in more than `2 ^ 29` bits, then `x < y` returns
without any overflow of a `long`, and the answer is that of the unbounded model (C21). -/
theorem elt_lt_machine [Build] (hF : F.Lawful) (hco : CoeffLawful P coeff) (hac : CoeffAccurate P coeff) {x y : Elt P R} (hx : x.WF) (hy : y.WF)
    (x0 : x.toBool = false ∨ x.real atoms.vals ≠ 0) (y0 : y.toBool = false ∨ y.real atoms.vals ≠ 0)
    (rx : x.mod.basis.length ≤ 2 ^ 20) (ry : y.mod.basis.length ≤ 2 ^ 20) (mx : ∀ g ∈ x.mod.basis, g.Moderate atoms (2 ^ 60))
    (my : ∀ g ∈ y.mod.basis, g.Moderate atoms (2 ^ 60))
    (sx : x.size atoms ≤ 2 ^ (2 ^ 29) * |x.real atoms.vals|) (sy : y.size atoms ≤ 2 ^ (2 ^ 29) * |y.real atoms.vals|)
    (h : |x.real atoms.vals| + |y.real atoms.vals| ≤ 2 ^ (2 ^ 29) * |x.real atoms.vals - y.real atoms.vals|)
    (hne : x.real atoms.vals ≠ y.real atoms.vals) {e : Bool} (he : x.eq y = .ok e) :
    ∃ r, Elt.ltLong atoms F coeff 25 x y = .ok r ∧ ∀ fuel, 25 ≤ fuel → Elt.lt atoms F coeff fuel x y = .ok r := by
  have hcl : ∀ n ≤ 2 ^ 20, (64 * 2 ^ 25 + Nat.clog 2 n) * 2 ^ 25 ≤ 2 ^ 60 := by
    intro n hn
    have : Nat.clog 2 n ≤ 20 := Nat.clog_le_of_le_pow hn
    omega
  have dx : ∀ g ∈ x.mod.basis ++ y.mod.basis, g.extra ≤ 2 ^ 20 := by
    intro g hg
    have hm : g.Moderate atoms (2 ^ 60) := (List.mem_append.1 hg).elim (mx g) (my g)
    cases g with
    | rat _ => exact Nat.zero_le _
    | atom _ => exact Nat.zero_le _
    | prod m =>
      have := hm.2.1
      exact (Nat.clog_le_of_le_pow (y := 33) (by omega)).trans (by norm_num)
  obtain ⟨r, hr, -⟩ := elt_lt_long atoms hF hco hac hx hy x0 y0 rx ry dx sx sy h hne he
  exact ⟨r, by rw [elt_lt_no_overflow hx hy mx my (hcl _ rx) (hcl _ ry)]; exact hr 25 le_rfl, hr⟩

end

/-! ### Examples -/

theorem floorBasis_moderate : ∀ g ∈ floorX.mod.basis, g.Moderate floorAtoms (2 ^ 60) := by
  have hfirst : floorDigits.first ≤ 1 := Nat.find_min' floorDigits.hasOne (show floorDigits.digit 0 = true by decide +kernel) |>.trans (by norm_num)
  intro g hg
  simp only [floorX, floorMod, List.mem_cons, List.not_mem_nil, or_false] at hg
  rcases hg with rfl | rfl
  · refine ⟨.inr ?_, trivial⟩
    have h0 : (0 : ℝ) < 17 / 2 - 1 / 2 ^ 62 := by norm_num
    have h1 : (2 : ℝ) ^ (4 : ℕ) ≤ 2 ^ (2 ^ 60) := pow_le_pow_right₀ (by norm_num) (by norm_num)
    have h2 : (2 : ℝ) ^ (-((2 ^ 60 : ℕ) : ℤ)) ≤ 2 ^ (0 : ℤ) := zpow_le_zpow_right₀ (by norm_num) (by norm_num)
    rw [RN.real_rat]
    push_cast
    push_cast at h2
    rw [abs_of_pos h0]
    exact ⟨h2.trans (by norm_num), le_trans (by norm_num) h1⟩
  · exact moderate_of_atoms (L := 1) (n := 1) (fun _ => hfirst) le_rfl (by norm_num) (by norm_num) trivial

/-- The elements of C22's counterexample, which agree with an integer in 62 bits, compare without overflow. -/
example [Build] : ∃ r, Elt.ltLong floorAtoms FlintLike.arith IntegerRing.arb 25 floorX ceilX = .ok r := by
  obtain ⟨w1, w2, -⟩ := elt_floor_fails 0
  obtain ⟨r, h1, -⟩ : ∃ r, _ ∧ ∀ fuel, 25 ≤ fuel → Elt.lt floorAtoms FlintLike.arith IntegerRing.arb fuel floorX ceilX = .ok r := by
    obtain ⟨v1, v2⟩ := effort_values
    have hlo : (6 : ℝ) ≤ 17 / 2 - 1 / 2 ^ 62 - 2 * (3 / 4 - 1 / 2 ^ 63 + (2 ^ 10 - 1) / 2 ^ 76) := by norm_num
    generalize (17 : ℝ) / 2 - 1 / 2 ^ 62 - 2 * (3 / 4 - 1 / 2 ^ 63 + (2 ^ 10 - 1) / 2 ^ 76) = v at v1 v2 hlo
    have h2 : (2 : ℝ) ≤ 2 ^ (2 ^ 29) := le_self_pow₀ (by norm_num) (by norm_num)
    have hsize : floorX.size floorAtoms ≤ 12 ∧ ceilX.size floorAtoms ≤ 12 := by
      constructor <;>
      · simp only [Elt.size, Elt.terms, floorX, ceilX, floorMod, List.zip_cons_cons, List.zip_nil_right, List.map_cons, List.map_nil,
          List.sum_cons, List.sum_nil, num_int, RN.real_rat, RN.real_atom]
        show _ + (_ * magnitude floorDigits.value + 0) ≤ _
        rw [floorDigits_value, magnitude, magnitude, if_neg (by norm_num), if_neg (by norm_num)]
        norm_num [abs_of_pos, abs_of_neg]
    refine elt_lt_machine FlintLike.lawful coeffLawful_int coeffAccurate_int w1 w2 (.inr ?_) (.inr ?_) (by decide) (by decide) floorBasis_moderate floorBasis_moderate
      ?_ ?_ ?_ ?_ (e := false) ?_
    · rw [v1]; linarith
    · rw [v2]; linarith
    · rw [v1, abs_of_pos (by linarith)]; nlinarith [hsize.1]
    · rw [v2, abs_neg, abs_of_pos (by linarith)]; nlinarith [hsize.2]
    · rw [v1, v2, abs_neg, abs_of_pos (by linarith), abs_of_pos (by linarith)]; nlinarith
    · rw [v1, v2]; linarith
    · simp [Elt.eq, floorX, ceilX]
  exact ⟨r, h1⟩

example : Elt.floorLong floorAtoms FlintLike.arith IntegerRing.arb 25 floorX = Elt.floor floorAtoms FlintLike.arith IntegerRing.arb 25 floorX :=
  (elt_floor_no_overflow (elt_floor_fails 0).1 floorBasis_moderate (by
    have : Nat.clog 2 floorX.mod.basis.length = 1 := by decide
    rw [this]; norm_num)).1

/-- C90. The bounds are needed: the shift of the digits of a number in an interval of length `2 ^ (-2 ^ 63)` does not fit. -/
theorem arb_overflow {atoms : Atoms} {i : ℕ} {d : Digits} (hi : atoms i = .constrained 0 (-2 ^ 63) d) (hd : d.first ≤ 2 ^ 60) {prec : ℕ} (hp : prec ≤ 2 ^ 60) :
    (RN.atom i).arbLong atoms prec = .ub := by
  have hb : Arf.bits (Arf.ofMantissaExponent 0 (-2 ^ 63)) = 0 := by simp [Arf.bits, Arf.ofMantissaExponent]
  have hu : long (-2 ^ 63 - 1) = .ub := by rw [long, if_neg (by norm_num)]
  rw [RN.arbLong, RN.refineLong, if_neg (by simp [Ball.hasAccuracy, Ball.zeroPmInf]), RN.arfLong, hi, Atom.arfLong]
  simp only [hb]
  rw [long_eq (by rw [abs_le]; omega), Out.ok_bind, long_eq (by norm_num), Out.ok_bind, long_eq (by rw [abs_le]; omega), Out.ok_bind, if_pos (by omega),
    long_eq (by rw [abs_le]; omega), Out.ok_bind, digits_long (L := 2 ^ 60) hd le_rfl (by omega), Out.ok_bind, hu]
  simp only [Out.ub_bind]

end ExactReal.Props
