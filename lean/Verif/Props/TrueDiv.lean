import Verif.Lemma.TrueDiv
import Verif.Props.Convert

/-! # Exact division of elements: C18, C19 -/

namespace ExactReal.Props
open Elt
variable {P : Type} [DecidableEq P] {R : Type} [CommRing R] [DecidableEq R] [CRing P R] [LawfulCRing P] [LawfulScalar P] [b : Build]

omit [LawfulScalar P] b in
theorem eqZ_of_toBool {y : Elt P R} (wy : y.WF) (h : y.toBool = false) : y.eqZ 0 = true := by
  unfold Elt.eqZ Elt.eqQ Elt.rational?
  have hl : ∀ l : List (RN × R), (∀ t ∈ l, t.2 = 0) → Elt.rationalLoop P 0 l = some 0 := by
    intro l
    induction l with
    | nil => intro _; rfl
    | cons t l ih =>
      intro ht
      have h1 : t.2 = 0 := ht t (by simp)
      rw [Elt.rationalLoop]
      simp only [h1, ne_eq, not_true_eq_false, if_false]
      exact ih fun t h' => ht t (by simp [h'])
  rw [hl]
  · simp
  · intro t ht
    exact (toBool_eq_false_iff y).1 h _ (terms_mem_snd ht)

theorem truedivLoop_zero {p : P} {y : Elt P R} (wy : y.WF) (hy : y.toBool = false) {n : ℕ} {r q z : Elt P R} (wr : r.WF)
    (h : truedivLoop p y n r q = .ok (some z)) : z = q ∧ r.toBool = false := by
  cases n with
  | zero => rw [truedivLoop] at h; cases h
  | succ n =>
    by_cases r0 : r.toBool = true
    · exfalso
      obtain ⟨c, g, hl, -⟩ := leading_spec wr r0
      have hy' : y.leading = .throws .logicError := by
        unfold leading
        rw [List.find?_eq_none.2]
        intro t ht
        have := (toBool_eq_false_iff y).1 hy _ (terms_mem_snd (List.mem_reverse.1 ht))
        simp [this]
      rw [truedivLoop] at h
      simp [r0, hl, hy'] at h
    · rw [truedivLoop] at h
      simp [r0] at h
      exact ⟨h.symm, by simpa using r0⟩

/-- The loop is sound for any divisor. -/
theorem truedivLoop_value {m : Mod P} {x y z : Elt P R} (wx : x.WF) (wy : y.WF) (mx : x.mod = m) (my : y.mod = m) {n : ℕ}
    (h : truedivLoop x.mod.par y n x x.mod.zero = .ok (some z)) :
    z.WF ∧ z.mod.par = m.par ∧ (∀ v : ℕ → ℝ, z.real v * y.real v = x.real v) ∧ (m.Unital → z.mod.Unital) := by
  subst mx
  have w0 : (x.mod.zero : Elt P R).WF := zero_WF wx.mod
  have z0 : ∀ v, (x.mod.zero : Elt P R).real v = 0 := fun v => by rw [real_eq_evalF, zero_fs, evalF_zero]
  by_cases y0 : y.toBool = true
  · obtain ⟨wz, pz, vz, uz⟩ := truedivLoop_sound wy (by rw [my]) y0 n wx rfl w0 rfl h
    refine ⟨wz, pz, fun v => ?_, fun u => uz u u (by rw [my]; exact u)⟩
    rw [vz v, z0 v]; ring
  · have y0 : y.toBool = false := by simpa using y0
    obtain ⟨rfl, x0⟩ := truedivLoop_zero wy y0 wx h
    refine ⟨w0, rfl, fun v => ?_, id⟩
    rw [z0, real_eq_evalF v x, fs_eq_zero_of_toBool x0, evalF_zero, zero_mul]

theorem checkArgument_ok {c : Bool} (h : checkArgument c = .ok ()) : b.checks = true → c = true := by
  unfold checkArgument at h
  intro hb
  rw [hb] at h
  cases c <;> simp_all

/-- Everything about a quotient that `truediv` returns. -/
theorem truediv_facts {x y q : Elt P R} (hx : x.WF) (hy : y.WF) {fuel : ℕ} (h : x.truediv fuel y = .ok (some q)) :
    q.WF ∧ (∀ v : ℕ → ℝ, q.real v * y.real v = x.real v) ∧ (x.mod.Unital → y.mod.Unital → q.mod.Unital) ∧
    (q.mod.par = x.mod.par ∨ q.mod.par = y.mod.par ∨ CRing.compositum x.mod.par y.mod.par = .ok q.mod.par) := by
  have one : ∀ {y : Elt P R}, y.eqZ 1 = true → ∀ v : ℕ → ℝ, y.real v = 1 := fun {y} hy1 v => by
    have : y.rational? = some ((1 : ℤ) : ℚ) := by simpa [eqZ, eqQ] using hy1
    rw [rational?_some this v]; norm_num
  unfold truediv at h
  rw [Out.bind_eq_ok] at h
  obtain ⟨-, -, h⟩ := h
  split at h
  · rename_i h1
    cases h
    exact ⟨hx, fun v => by rw [one h1 v, mul_one], fun u _ => u, .inl rfl⟩
  · split at h
    · simp only [Out.bind_eq_ok] at h
      obtain ⟨s, hs, x', hx', y', hy', h⟩ := h
      obtain ⟨x'', e1, wx', mx', fx'⟩ := promote_span_left hx hy.mod hs
      obtain ⟨y'', e2, wy', my', fy'⟩ := promote_span_right hx.mod hy hs
      rw [hx'] at e1; cases e1
      rw [hy'] at e2; cases e2
      obtain ⟨-, hmem, hpar⟩ := Mod.span_ok (R := R) hx.mod hy.mod hs
      have hp : s.par = x.mod.par ∨ s.par = y.mod.par ∨ CRing.compositum x.mod.par y.mod.par = .ok s.par := by
        rcases hpar with ⟨-, rfl⟩ | ⟨-, rfl⟩ | ⟨-, -, hc⟩
        · exact .inr (.inl rfl)
        · exact .inl rfl
        · exact .inr (.inr hc)
      have us : x.mod.Unital → y.mod.Unital → s.Unital := fun ux uy r hr => ((hmem _).1 hr).elim (ux r) (uy r)
      have rx : ∀ v, x'.real v = x.real v := fun v => by rw [real_eq_evalF, real_eq_evalF, fx']
      have ry : ∀ v, y'.real v = y.real v := fun v => by rw [real_eq_evalF, real_eq_evalF, fy']
      unfold truedivSame at h
      rw [Out.bind_eq_ok] at h
      obtain ⟨-, -, h⟩ := h
      split at h
      · rename_i h1
        cases h
        refine ⟨wx', fun v => by rw [← ry v, one h1 v, mul_one, rx v], fun ux uy => by rw [mx']; exact us ux uy, by rw [mx']; exact hp⟩
      · obtain ⟨wq, pq, vq, uq⟩ := truedivLoop_value wx' wy' mx' my' h
        exact ⟨wq, fun v => by rw [← rx v, ← ry v, vq v], fun ux uy => uq (us ux uy), by rw [pq]; exact hp⟩
    · rename_i hm
      rw [not_not] at hm
      obtain ⟨wq, pq, vq, uq⟩ := truedivLoop_value hx hy rfl hm.symm h
      exact ⟨wq, vq, fun ux _ => uq ux, .inl pq⟩

/-! ### C18 -/

/-- C18. If `x.truediv(y)` returns a quotient then it is an element (of some module) whose value times the value of `y` is the value of `x`, for
all real numbers the atoms stand for. -/
theorem truediv_sound {x y q : Elt P R} (hx : x.WF) (hy : y.WF) {fuel : ℕ} (h : x.truediv fuel y = .ok (some q)) :
    q.WF ∧ ∀ v : ℕ → ℝ, q.real v * y.real v = x.real v :=
  ⟨(truediv_facts hx hy h).1, (truediv_facts hx hy h).2.1⟩

/-- C18. Division by zero throws `invalid_argument` (unless argument checks have been disabled). -/
theorem truediv_zero (hb : b.checks = true) {x y : Elt P R} (hy : y.eqZ 0 = true) (fuel : ℕ) :
    x.truediv fuel y = .throws .invalidArgument := by
  unfold truediv
  simp [checkArgument, hb, hy]

/-- C18. If `x.truediv(y)` returns `q`, over compatible rings and with rational generators that are one, then `q * y` is defined and `q * y == x`. -/
theorem truediv_mul_eq {x y q : Elt P R} (hx : x.WF) (hy : y.WF) (ux : x.mod.Unital) (uy : y.mod.Unital)
    (hc : (CRing.compositum x.mod.par y.mod.par).isOk = true) {fuel : ℕ} (h : x.truediv fuel y = .ok (some q)) :
    ∃ z, q.mul y = .ok z ∧ z.eq x = .ok true := by
  obtain ⟨wq, vq, uq, pq⟩ := truediv_facts hx hy h
  have uq := uq ux uy
  have cxx : ∀ p : P, (CRing.compositum p p).isOk = true := fun p => Mod.isOk_of (LawfulCRing.compositum_self p)
  have cxq : (CRing.compositum x.mod.par q.mod.par).isOk = true := by
    rcases pq with h | h | h
    · rw [h]; exact cxx _
    · rw [h]; exact hc
    · exact (LawfulCRing.compositum_join h _).2 ⟨cxx _, hc⟩
  have cqy : (CRing.compositum q.mod.par y.mod.par).isOk = true := by
    rcases pq with h | h | h
    · rw [h]; exact hc
    · rw [h]; exact cxx _
    · exact Mod.compositum_isOk_symm ((LawfulCRing.compositum_join h _).2 ⟨Mod.compositum_isOk_symm hc, cxx _⟩)
  obtain ⟨z, hz⟩ := elt_mul_defined wq hy uq uy cqy
  have wz := (mul_ok wq hy hz).1
  have uz := mul_unital wq hy uq uy hz
  have cxz : (CRing.compositum x.mod.par z.mod.par).isOk = true := by
    have hz' := hz
    unfold Elt.mul at hz'
    rcases mul_cases wq hy with ⟨z', h', -, -, ⟨-, rfl⟩ | ⟨-, -, rfl⟩ | ⟨-, -, hcz, -⟩⟩ | ⟨x', h', -⟩
    · rw [h', result_done] at hz'; cases hz'; exact cxq
    · rw [h', result_done] at hz'; cases hz'; exact hc
    · rw [h', result_done] at hz'; cases hz'
      exact (LawfulCRing.compositum_join hcz _).2 ⟨cxq, hc⟩
    · rw [h', result_fail] at hz'; cases hz'
  refine ⟨z, hz, ?_⟩
  obtain ⟨c, hcb⟩ := eq_isOk wz hx (.inr (.inr (Mod.compositum_isOk_symm cxz))) fun p q hp hq => (uz p hp).trans (ux q hq).symm
  rw [hcb]
  congr 1
  rw [eq_iff_forall wz hx (unital_noZeroGen uz) (unital_noZeroGen ux) hcb]
  intro v
  rw [← vq v]
  exact Elt.mul_value (num P) v wq hy hz

/-! ### C19 -/

/-- The three ways in which `truediv` proceeds after its checks. -/
theorem truediv_total {x y : Elt P R} (hx : x.WF) (hy : y.WF) (ux : x.mod.Unital) (uy : y.mod.Unital) (y0 : y.toBool = true)
    (hc : (CRing.compositum x.mod.par y.mod.par).isOk = true) :
    ∃ N res, (∀ fuel ≥ N, x.truediv fuel y = .ok res) ∧
      (res = none → ∀ v : ℕ → ℝ, AlgebraicIndependent ℚ v → ∀ q : Elt P R, q.WF → q.mod.Unital → q.real v * y.real v ≠ x.real v) := by
  have nz : ∀ {y : Elt P R}, y.WF → y.mod.Unital → y.toBool = true → y.eqZ 0 = false := by
    intro y wy uy y0
    by_contra h
    have : y.rational? = some ((0 : ℤ) : ℚ) := by simpa [eqZ, eqQ] using h
    obtain ⟨v, hv⟩ := exists_independent
    have h1 := rational?_some this v
    rw [Int.cast_zero, Rat.cast_zero, real_eq_zero_iff hv wy (unital_noZeroGen uy), fs_eq_zero_iff wy, y0] at h1
    cases h1
  have loop : ∀ {m : Mod P} {x y : Elt P R}, x.WF → y.WF → x.mod = m → y.mod = m → m.Unital → y.toBool = true →
      ∃ N res, (∀ fuel ≥ N, truedivLoop x.mod.par y fuel x x.mod.zero = .ok res) ∧
      (res = none → ∀ v : ℕ → ℝ, AlgebraicIndependent ℚ v → ∀ q : Elt P R, q.WF → q.mod.Unital → q.real v * y.real v ≠ x.real v) := by
    intro m x y wx wy mx my um y0
    subst mx
    have hd : ∃ d, x.toBool = true → Lead x.poly d := by
      by_cases x0 : x.toBool = true
      · obtain ⟨d, hd⟩ := exists_lead (f := x.poly) (by rw [Ne, poly_eq_zero_iff wx um, x0]; simp)
        exact ⟨d, fun _ => hd⟩
      · exact ⟨0, fun h => absurd h x0⟩
    obtain ⟨d, hd⟩ := hd
    obtain ⟨N, res, hN, hr⟩ := truedivLoop_total wy (congrArg Mod.par my) (by rw [my]; exact um) y0 d x x.mod.zero wx rfl um (zero_WF wx.mod) rfl um hd
    refine ⟨N, res, hN, fun hnone v hv q wq uq he => hr hnone ⟨q.poly, coeff_poly_range wq uq, ?_⟩⟩
    have hinj : Function.Injective (MvPolynomial.aeval v : MvPolynomial ℕ AlgReal →ₐ[AlgReal] ℝ) := by
      have := independent_alg hv
      rwa [AlgebraicIndependent] at this
    apply hinj
    rw [map_mul]
    simp only [poly, aeval_polyF, ← real_eq_evalF]
    exact he
  by_cases h1 : y.eqZ 1 = true
  · refine ⟨0, some x, fun fuel _ => ?_, by simp⟩
    unfold truediv
    simp [nz hy uy y0, h1, checkArgument]
  by_cases hm : x.mod = y.mod
  · obtain ⟨N, res, hN, hr⟩ := loop hx hy rfl hm.symm ux y0
    refine ⟨N, res, fun fuel hf => ?_, hr⟩
    unfold truediv
    simp [nz hy uy y0, h1, checkArgument, hm]
    rw [← hm]; exact hN fuel hf
  · obtain ⟨s, hs⟩ := Mod.span_isOk (R := R) hx.mod hy.mod (.inr (.inr hc)) fun p q hp hq => (ux p hp).trans (uy q hq).symm
    obtain ⟨x', e1, wx', mx', fx'⟩ := promote_span_left hx hy.mod hs
    obtain ⟨y', e2, wy', my', fy'⟩ := promote_span_right hx.mod hy hs
    obtain ⟨-, hmem, -⟩ := Mod.span_ok (R := R) hx.mod hy.mod hs
    have us : s.Unital := fun r hr => ((hmem _).1 hr).elim (ux r) (uy r)
    have y0' : y'.toBool = true := by
      by_contra h
      have : y'.fs = 0 := (fs_eq_zero_iff wy').2 (by simpa using h)
      rw [fy', fs_eq_zero_iff hy, y0] at this
      cases this
    have h1' : ¬ y'.eqZ 1 = true := by
      intro h
      have h2 : y'.rational? = some ((1 : ℤ) : ℚ) := by simpa [eqZ, eqQ] using h
      obtain ⟨v, hv⟩ := exists_independent
      have h3 := rational?_some h2 v
      rw [real_eq_evalF, fy', ← real_eq_evalF] at h3
      have := rational?_of_real hv hy (.inl (unital_noZeroGen uy)) h3
      exact h1 (by simp [eqZ, eqQ, this])
    obtain ⟨N, res, hN, hr⟩ := loop wx' wy' mx' my' us y0'
    refine ⟨N, res, fun fuel hf => ?_, fun hn v hv q wq uq he => hr hn v hv q wq uq ?_⟩
    · unfold truediv
      rw [if_neg h1, if_pos hm, hs]
      simp only [Out.ok_bind, e1, e2, truedivSame, nz wy' (by rw [my']; exact us) y0', nz hy uy y0, checkArgument]
      rw [if_neg h1']
      simpa using hN fuel hf
    · rw [real_eq_evalF v y', fy', ← real_eq_evalF, real_eq_evalF v x', fx', ← real_eq_evalF]; exact he

/-- C19, termination. For `y ≠ 0`, compatible rings and modules whose rational generators (if any) are one, `x.truediv(y)` returns: its loop stops
after finitely many iterations, and it never throws. -/
theorem truediv_terminates {x y : Elt P R} (hx : x.WF) (hy : y.WF) (ux : x.mod.Unital) (uy : y.mod.Unital) (y0 : y.toBool = true)
    (hc : (CRing.compositum x.mod.par y.mod.par).isOk = true) : ∃ N res, ∀ fuel ≥ N, x.truediv fuel y = .ok res := by
  obtain ⟨N, res, h, -⟩ := truediv_total hx hy ux uy y0 hc
  exact ⟨N, res, h⟩

omit [LawfulCRing P] [LawfulScalar P] in
/-- C19. The budget of iterations used in the model does not change the answer. -/
theorem truediv_stable {x y : Elt P R} {r : Option (Elt P R)} {fuel : ℕ} (h : x.truediv fuel y = .ok r) :
    ∀ fuel' ≥ fuel, x.truediv fuel' y = .ok r := by
  have mono : ∀ (p : P) (y : Elt P R) (n : ℕ) (r q : Elt P R) (res : Option (Elt P R)), truedivLoop p y n r q = .ok res →
      ∀ m ≥ n, truedivLoop p y m r q = .ok res := by
    intro p y n
    induction n with
    | zero => intro r q res h; rw [truedivLoop] at h; cases h
    | succ n ih =>
      intro r q res h m hm
      obtain ⟨m, rfl⟩ : ∃ k, m = k + 1 := ⟨m - 1, by omega⟩
      rw [truedivLoop] at h ⊢
      split at h
      · rename_i h0; rw [if_pos h0]; exact h
      · rename_i h0
        rw [if_neg h0]
        simp only [Out.bind_eq_ok] at h ⊢
        obtain ⟨a, ha, c, hc, g, hg, h⟩ := h
        refine ⟨a, ha, c, hc, g, hg, ?_⟩
        cases g with
        | none => exact h
        | some gq =>
          simp only at h ⊢
          split at h
          · rename_i h1; rw [if_pos h1]; exact h
          · rename_i h1
            rw [if_neg h1]
            simp only [Out.bind_eq_ok] at h ⊢
            obtain ⟨a1, h1, a2, h2, a3, h3, a4, h4, a5, h5, a6, h6, h⟩ := h
            exact ⟨a1, h1, a2, h2, a3, h3, a4, h4, a5, h5, a6, h6, ih _ _ _ h _ (by omega)⟩
  intro fuel' hf
  unfold truediv at h ⊢
  simp only [Out.bind_eq_ok] at h ⊢
  obtain ⟨u, hu, h⟩ := h
  refine ⟨u, hu, ?_⟩
  split at h
  · rename_i h1; rw [if_pos h1]; exact h
  · rename_i h1
    rw [if_neg h1]
    split at h
    · rename_i h2
      rw [if_pos h2]
      simp only [truedivSame, Out.bind_eq_ok] at h ⊢
      obtain ⟨s, hs, x', hx', y', hy', c, hc', h⟩ := h
      refine ⟨s, hs, x', hx', y', hy', c, hc', ?_⟩
      split at h
      · rename_i h3; rw [if_pos h3]; exact h
      · rename_i h3; rw [if_neg h3]; exact mono _ _ _ _ _ _ h _ hf
    · rename_i h2; rw [if_neg h2]; exact mono _ _ _ _ _ _ h _ hf

/-- C19, completeness. If `x.truediv(y)` returns nothing then `x / y` is not an element: no element `q`, in any module whose rational generator (if
any) is one, satisfies `q * y = x` in the reals. -/
theorem truediv_complete {x y : Elt P R} (hx : x.WF) (hy : y.WF) (ux : x.mod.Unital) (uy : y.mod.Unital) (y0 : y.toBool = true)
    (hc : (CRing.compositum x.mod.par y.mod.par).isOk = true) {fuel : ℕ} (h : x.truediv fuel y = .ok none)
    {v : ℕ → ℝ} (hv : AlgebraicIndependent ℚ v) (q : Elt P R) (hq : q.WF) (uq : q.mod.Unital) : q.real v * y.real v ≠ x.real v := by
  obtain ⟨N, res, hN, hr⟩ := truediv_total hx hy ux uy y0 hc
  have h1 := truediv_stable h (max N fuel) (le_max_right _ _)
  rw [hN _ (le_max_left _ _)] at h1
  cases h1
  exact hr rfl v hv q hq uq

/-- C19, the hypothesis about rational generators cannot be dropped: in the ℚ-module generated by `2` and an atom, dividing the atom by `2` throws,
although the quotient is in the module. -/
theorem truediv_nonunital :
    ∃ x y q : Elt RationalField ℚ, x.WF ∧ y.WF ∧ q.WF ∧ x.mod = y.mod ∧ q.mod = x.mod ∧ (∀ v : ℕ → ℝ, q.real v * y.real v = x.real v) ∧
      ∀ fuel, x.truediv (fuel + 1) y = .throws .logicError := by
  have wm : (⟨.mk, [.rat 2, .atom 0]⟩ : Mod RationalField).WF := by
    refine ⟨by simp [RN.WF], ?_⟩
    simp only [List.pairwise_cons, List.mem_singleton, forall_eq, List.not_mem_nil, false_implies, implies_true, List.Pairwise.nil, and_true]
    exact Precedes.zero_of_ne (by simp [RN.mult])
  refine ⟨⟨⟨.mk, [.rat 2, .atom 0]⟩, [0, 1]⟩, ⟨⟨.mk, [.rat 2, .atom 0]⟩, [1, 0]⟩, ⟨⟨.mk, [.rat 2, .atom 0]⟩, [0, 1 / 2]⟩,
    ⟨wm, rfl, fun _ _ => trivial⟩, ⟨wm, rfl, fun _ _ => trivial⟩, ⟨wm, rfl, fun _ _ => trivial⟩, rfl, rfl, fun v => ?_, fun fuel => ?_⟩
  · simp [Elt.real, Elt.value, Elt.terms, RN.value, Elt.num, LawfulCRing.emb]
    ring
  · simp [truediv, truedivLoop, checkArgument, eqZ, eqQ, rational?, rationalLoop, terms, RN.rational?, Elt.toBool, leading, RN.div, CRing.rational]

/-- C18, C19. Dividing undoes multiplying: if `x * y` is `z` and `y ≠ 0` then `z.truediv(y)` returns a number with the value of `x`. -/
theorem mul_truediv_cancel {x y z : Elt P R} (hx : x.WF) (hy : y.WF) (ux : x.mod.Unital) (uy : y.mod.Unital) (y0 : y.toBool = true)
    (hc : (CRing.compositum x.mod.par y.mod.par).isOk = true) (h : x.mul y = .ok z) :
    ∃ N q, (∀ fuel ≥ N, z.truediv fuel y = .ok (some q)) ∧ q.WF ∧ ∀ v : ℕ → ℝ, AlgebraicIndependent ℚ v → q.real v = x.real v := by
  have wz := (mul_ok hx hy h).1
  have uz := mul_unital hx hy ux uy h
  have cxx : ∀ p : P, (CRing.compositum p p).isOk = true := fun p => Mod.isOk_of (LawfulCRing.compositum_self p)
  have czy : (CRing.compositum z.mod.par y.mod.par).isOk = true := by
    have hz' := h
    unfold Elt.mul at hz'
    rcases mul_cases hx hy with ⟨z', h', -, -, ⟨-, rfl⟩ | ⟨-, -, rfl⟩ | ⟨-, -, hcz, -⟩⟩ | ⟨x', h', -⟩
    · rw [h', result_done] at hz'; cases hz'; exact hc
    · rw [h', result_done] at hz'; cases hz'; exact cxx _
    · rw [h', result_done] at hz'; cases hz'
      exact Mod.compositum_isOk_symm ((LawfulCRing.compositum_join hcz _).2 ⟨Mod.compositum_isOk_symm hc, cxx _⟩)
    · rw [h', result_fail] at hz'; cases hz'
  have vz : ∀ v : ℕ → ℝ, z.real v = x.real v * y.real v := fun v => Elt.mul_value (num P) v hx hy h
  obtain ⟨N, res, hN, hr⟩ := truediv_total wz hy uz uy y0 czy
  cases res with
  | none =>
    obtain ⟨v, hv⟩ := exists_independent
    exact absurd (vz v).symm (hr rfl v hv x hx ux)
  | some q =>
    obtain ⟨wq, vq⟩ := truediv_sound wz hy (hN N le_rfl)
    refine ⟨N, q, hN, wq, fun v hv => ?_⟩
    have hy0 : y.real v ≠ 0 := by
      rw [Ne, real_eq_zero_iff hv hy (unital_noZeroGen uy), fs_eq_zero_iff hy, y0]; simp
    exact mul_right_cancel₀ hy0 ((vq v).trans (vz v))

/-- Non-vacuity: `(3 + 2a - b)·(1 + 4c)` is divisible by `1 + 4c`. -/
example : ∃ z N q, sample.mul sampleB = .ok z ∧ (∀ fuel ≥ N, z.truediv fuel sampleB = .ok (some q)) ∧
    ∀ v : ℕ → ℝ, AlgebraicIndependent ℚ v → q.real v = 3 + 2 * v 5 - v 7 := by
  obtain ⟨z, hz⟩ := elt_mul_defined sample_WF sampleB_WF sample_unital sampleB_unital rfl
  obtain ⟨N, q, hN, -, hv⟩ := mul_truediv_cancel sample_WF sampleB_WF sample_unital sampleB_unital (by simp [sampleB, Elt.toBool]) rfl hz
  exact ⟨z, N, q, hz, hN, fun v h => by rw [hv v h, sample_real]⟩

/-- Non-vacuity of completeness: over ℤ, `3 + 2a - b` is not divisible by `2`. -/
example : (sample.truediv 1 ⟨sampleModule, [2, 0, 0, 0]⟩) = .ok none := by
  simp [truediv, truedivLoop, checkArgument, eqZ, eqQ, Elt.rational?, rationalLoop, terms, RN.rational?, Elt.toBool, leading, RN.div, CRing.rational,
    sample, sampleModule, CRing.quo, assertThat, CRing.isField]

end ExactReal.Props
