import Verif.Props.Element

/-!
# C15, C45, C46: scaling elements

`Elt.num P c` is the real number a coefficient stands for (`Verif/Spec/Element.lean`).
-/

namespace ExactReal.Props
open ExactReal

section
variable {P : Type} [DecidableEq P] {R : Type} [CommRing R] [DecidableEq R] [CRing P R] [LawfulCRing P]

theorem scale_done_iff {f : R → Step R} (hf : ∀ c, (∃ d, f c = .done d) ∨ ∃ d, f c = .fail .invalidArgument d) (x : Elt P R) :
    (∃ y, x.scale f = .done y) ↔ ∀ c ∈ x.coeffs, ∃ d, f c = .done d := by
  refine ⟨Elt.scale_isDone x, fun h => ?_⟩
  rcases Elt.scale_fail hf x with h' | ⟨-, c, hc, d, hd⟩
  · exact h'
  · obtain ⟨d', hd'⟩ := h c hc
    rw [hd] at hd'; exact absurd hd' Step.fail_ne_done

theorem scale_outcomes {f : R → Step R} (hf : ∀ c, (∃ d, f c = .done d) ∨ ∃ d, f c = .fail .invalidArgument d) (x : Elt P R) :
    (∃ y, x.scale f = .done y) ∨ ∃ y, x.scale f = .fail .invalidArgument y :=
  (Elt.scale_fail hf x).imp_right And.left

theorem num_eq_iff (c d : R) (a : AlgReal) : Elt.num P d = Elt.num P c * algebraMap AlgReal ℝ a ↔
    LawfulCRing.emb P d = LawfulCRing.emb P c * a := by
  unfold Elt.num
  rw [RingHom.comp_apply, RingHom.comp_apply, ← map_mul, (algebraMap AlgReal ℝ).injective.eq_iff]

theorem num_eq_iff' (c d : R) (a : AlgReal) : Elt.num P d * algebraMap AlgReal ℝ a = Elt.num P c ↔
    LawfulCRing.emb P d * a = LawfulCRing.emb P c := by
  unfold Elt.num
  rw [RingHom.comp_apply, RingHom.comp_apply, ← map_mul, (algebraMap AlgReal ℝ).injective.eq_iff]

theorem alg_intCast (n : ℤ) : algebraMap AlgReal ℝ (n : AlgReal) = n := map_intCast _ n
theorem alg_ratCast (q : ℚ) : algebraMap AlgReal ℝ (algebraMap ℚ AlgReal q) = q := by
  rw [← IsScalarTower.algebraMap_apply ℚ AlgReal ℝ]; simp

variable [LawfulScalar P]

/-! ### C15, multiplication -/

/-- C15. `x *= n` for an integer `n` always returns and multiplies the value by `n`. -/
theorem imulZ_value {x : Elt P R} (hx : x.WF) (n : ℤ) :
    ∃ y, x.imulZ n = .done y ∧ y.WF ∧ y.mod = x.mod ∧ ∀ v : ℕ → ℝ, y.real v = x.real v * n := by
  have hd : ∃ y, x.imulZ n = .done y := (scale_done_iff (fun c => LawfulScalar.imulZ_outcomes c n) x).2 fun c _ =>
    ⟨c * n, (LawfulScalar.imulZ_iff _ _ _).2 (by simp)⟩
  obtain ⟨y, hy⟩ := hd
  have hf : ∀ c d : R, CRing.imulZ P c n = .done d → Elt.num P d * 1 = Elt.num P c * n := fun c d h => by
    rw [LawfulScalar.imulZ_iff, ← num_eq_iff (P := P), alg_intCast] at h
    rw [h]; ring
  have hm : ∀ c d : R, CRing.imulZ P c n = .done d → c ∈ LawfulCRing.mem x.mod.par → d ∈ LawfulCRing.mem x.mod.par := fun c d h hc => by
    rw [LawfulScalar.imulZ_iff] at h
    exact LawfulScalar.mem_of_mul (q := n) hc (by rw [h]; simp)
  refine ⟨y, hy, ?_⟩
  obtain ⟨h1, h2, -⟩ := Elt.scale_done hx hy (Elt.num P) 0 1 (n : ℝ) hf hm
  refine ⟨h1, h2, fun v => ?_⟩
  simpa [Elt.real] using (Elt.scale_done hx hy (Elt.num P) v 1 (n : ℝ) hf hm).2.2

/-- C15. `x *= q` for a rational `q` returns or throws `invalid_argument`; it returns exactly if all coefficients times `q` are
coefficients again; if it returns it multiplies the value by `q`. -/
theorem imulQ_value {x : Elt P R} (hx : x.WF) (q : ℚ) :
    ((∃ y, x.imulQ q = .done y) ∨ ∃ y, x.imulQ q = .fail .invalidArgument y) ∧
    ((∃ y, x.imulQ q = .done y) ↔ ∀ c ∈ x.coeffs, ∃ d : R, Elt.num P d = Elt.num P c * q) ∧
    ∀ y, x.imulQ q = .done y → y.WF ∧ y.mod = x.mod ∧ ∀ v : ℕ → ℝ, y.real v = x.real v * q := by
  have ho := fun c : R => LawfulScalar.imulQ_outcomes (P := P) c q
  have key : ∀ c d : R, CRing.imulQ P c q = .done d ↔ Elt.num P d = Elt.num P c * q := fun c d => by
    rw [LawfulScalar.imulQ_iff, ← num_eq_iff (P := P), alg_ratCast]
  refine ⟨scale_outcomes ho x, ?_, fun y hy => ?_⟩
  · show (∃ y, x.scale _ = .done y) ↔ _
    rw [scale_done_iff ho x]
    simp only [key]
  · have hf : ∀ c d : R, CRing.imulQ P c q = .done d → Elt.num P d * 1 = Elt.num P c * q := fun c d h => by
      rw [mul_one]; exact (key c d).1 h
    have hm : ∀ c d : R, CRing.imulQ P c q = .done d → c ∈ LawfulCRing.mem x.mod.par → d ∈ LawfulCRing.mem x.mod.par := fun c d h hc => by
      rw [LawfulScalar.imulQ_iff] at h
      exact LawfulScalar.mem_of_mul hc h
    obtain ⟨h1, h2, -⟩ := Elt.scale_done hx hy (Elt.num P) 0 1 (q : ℝ) hf hm
    refine ⟨h1, h2, fun v => ?_⟩
    simpa [Elt.real] using (Elt.scale_done hx hy (Elt.num P) v 1 (q : ℝ) hf hm).2.2

/-- C15. `x *= s` for a coefficient `s` of the ring of `x` always returns and multiplies the value by `s`. -/
theorem imulR_value {x : Elt P R} (hx : x.WF) {s : R} (hs : s ∈ LawfulCRing.mem x.mod.par) :
    ∃ y, x.imulR s = .done y ∧ y.WF ∧ y.mod = x.mod ∧ ∀ v : ℕ → ℝ, y.real v = x.real v * Elt.num P s := by
  have hd : ∃ y, x.imulR s = .done y := (scale_done_iff (fun c => LawfulScalar.imulR_outcomes c s) x).2 fun c _ =>
    ⟨c * s, (LawfulScalar.imulR_iff _ _ _).2 rfl⟩
  obtain ⟨y, hy⟩ := hd
  have hf : ∀ c d : R, CRing.imulR P c s = .done d → Elt.num P d * 1 = Elt.num P c * Elt.num P s := fun c d h => by
    rw [LawfulScalar.imulR_iff] at h
    rw [h, mul_one, map_mul]
  have hm : ∀ c d : R, CRing.imulR P c s = .done d → c ∈ LawfulCRing.mem x.mod.par → d ∈ LawfulCRing.mem x.mod.par := fun c d h hc => by
    rw [LawfulScalar.imulR_iff] at h
    rw [h]; exact Subring.mul_mem _ hc hs
  refine ⟨y, hy, ?_⟩
  obtain ⟨h1, h2, -⟩ := Elt.scale_done hx hy (Elt.num P) 0 1 (Elt.num P s) hf hm
  refine ⟨h1, h2, fun v => ?_⟩
  simpa [Elt.real] using (Elt.scale_done hx hy (Elt.num P) v 1 (Elt.num P s) hf hm).2.2

/-! ### C15, division -/

/-- C15. `x /= n` for an integer `n` returns or throws `invalid_argument`; it returns exactly if the exact quotients of all coefficients by
`n` exist (so it throws for `n = 0`, unless the module is trivial and there is nothing to divide); if it returns it divides the value by `n`. -/
theorem idivZ_value {x : Elt P R} (hx : x.WF) (n : ℤ) :
    ((∃ y, x.idivZ n = .done y) ∨ ∃ y, x.idivZ n = .fail .invalidArgument y) ∧
    ((∃ y, x.idivZ n = .done y) ↔ ∀ c ∈ x.coeffs, n ≠ 0 ∧ ∃ d : R, Elt.num P d * n = Elt.num P c) ∧
    ∀ y, x.idivZ n = .done y → y.WF ∧ y.mod = x.mod ∧ ∀ v : ℕ → ℝ, y.real v * n = x.real v ∧ (n ≠ 0 → y.real v = x.real v / n) := by
  have ho := fun c : R => LawfulScalar.idivZ_outcomes (P := P) c n
  have key : ∀ c d : R, CRing.idivZ P c n = .done d ↔ n ≠ 0 ∧ Elt.num P d * n = Elt.num P c := fun c d => by
    rw [LawfulScalar.idivZ_iff, ← num_eq_iff' (P := P), alg_intCast]
  refine ⟨scale_outcomes ho x, ?_, fun y hy => ?_⟩
  · show (∃ y, x.scale _ = .done y) ↔ _
    rw [scale_done_iff ho x]
    simp only [key, exists_and_left]
  · have hf : ∀ c d : R, CRing.idivZ P c n = .done d → Elt.num P d * n = Elt.num P c * 1 := fun c d h => by
      rw [mul_one]; exact ((key c d).1 h).2
    have hm : ∀ c d : R, CRing.idivZ P c n = .done d → c ∈ LawfulCRing.mem x.mod.par → d ∈ LawfulCRing.mem x.mod.par := fun c d h hc => by
      rw [LawfulScalar.idivZ_iff] at h
      refine LawfulScalar.mem_of_mul (q := (n : ℚ)⁻¹) hc ?_
      have hn : (n : AlgReal) ≠ 0 := by exact_mod_cast h.1
      have hi : algebraMap ℚ AlgReal (n : ℚ)⁻¹ = (n : AlgReal)⁻¹ := by
        rw [map_inv₀ (algebraMap ℚ AlgReal), map_intCast]
      rw [← h.2, hi, _root_.mul_assoc, mul_inv_cancel₀ hn, mul_one]
    obtain ⟨h1, h2, -⟩ := Elt.scale_done hx hy (Elt.num P) 0 (n : ℝ) 1 hf hm
    refine ⟨h1, h2, fun v => ?_⟩
    have h3 : y.real v * n = x.real v := by
      simpa [Elt.real] using (Elt.scale_done hx hy (Elt.num P) v (n : ℝ) 1 hf hm).2.2
    refine ⟨h3, fun hn => ?_⟩
    have : (n : ℝ) ≠ 0 := by exact_mod_cast hn
    field_simp; exact h3

/-- C15. The same for `x /= q` with a rational `q`. -/
theorem idivQ_value {x : Elt P R} (hx : x.WF) (q : ℚ) :
    ((∃ y, x.idivQ q = .done y) ∨ ∃ y, x.idivQ q = .fail .invalidArgument y) ∧
    ((∃ y, x.idivQ q = .done y) ↔ ∀ c ∈ x.coeffs, q ≠ 0 ∧ ∃ d : R, Elt.num P d * q = Elt.num P c) ∧
    ∀ y, x.idivQ q = .done y → y.WF ∧ y.mod = x.mod ∧ ∀ v : ℕ → ℝ, y.real v * q = x.real v ∧ (q ≠ 0 → y.real v = x.real v / q) := by
  have ho := fun c : R => LawfulScalar.idivQ_outcomes (P := P) c q
  have key : ∀ c d : R, CRing.idivQ P c q = .done d ↔ q ≠ 0 ∧ Elt.num P d * q = Elt.num P c := fun c d => by
    rw [LawfulScalar.idivQ_iff, ← num_eq_iff' (P := P), alg_ratCast]
  refine ⟨scale_outcomes ho x, ?_, fun y hy => ?_⟩
  · show (∃ y, x.scale _ = .done y) ↔ _
    rw [scale_done_iff ho x]
    simp only [key, exists_and_left]
  · have hf : ∀ c d : R, CRing.idivQ P c q = .done d → Elt.num P d * q = Elt.num P c * 1 := fun c d h => by
      rw [mul_one]; exact ((key c d).1 h).2
    have hm : ∀ c d : R, CRing.idivQ P c q = .done d → c ∈ LawfulCRing.mem x.mod.par → d ∈ LawfulCRing.mem x.mod.par := fun c d h hc => by
      rw [LawfulScalar.idivQ_iff] at h
      refine LawfulScalar.mem_of_mul (q := q⁻¹) hc ?_
      have hn : algebraMap ℚ AlgReal q ≠ 0 := by
        rw [Ne, map_eq_zero_iff _ (algebraMap ℚ AlgReal).injective]; exact h.1
      have hi : algebraMap ℚ AlgReal q⁻¹ = (algebraMap ℚ AlgReal q)⁻¹ := map_inv₀ (algebraMap ℚ AlgReal) q
      rw [← h.2, hi, _root_.mul_assoc, mul_inv_cancel₀ hn, mul_one]
    obtain ⟨h1, h2, -⟩ := Elt.scale_done hx hy (Elt.num P) 0 (q : ℝ) 1 hf hm
    refine ⟨h1, h2, fun v => ?_⟩
    have h3 : y.real v * q = x.real v := by
      simpa [Elt.real] using (Elt.scale_done hx hy (Elt.num P) v (q : ℝ) 1 hf hm).2.2
    refine ⟨h3, fun hn => ?_⟩
    have : (q : ℝ) ≠ 0 := by exact_mod_cast hn
    field_simp; exact h3

/-- C15. The same for `x /= s` with a coefficient `s` of the ring of `x`. -/
theorem idivR_value {x : Elt P R} (hx : x.WF) {s : R} (hs : s ∈ LawfulCRing.mem x.mod.par) :
    ((∃ y, x.idivR s = .done y) ∨ ∃ y, x.idivR s = .fail .invalidArgument y) ∧
    ((∃ y, x.idivR s = .done y) ↔ ∀ c ∈ x.coeffs, s ≠ 0 ∧ ∃ d : R, d * s = c) ∧
    ∀ y, x.idivR s = .done y → y.WF ∧ y.mod = x.mod ∧ ∀ v : ℕ → ℝ, y.real v * Elt.num P s = x.real v := by
  have ho := fun c : R => LawfulScalar.idivR_outcomes (P := P) c s
  have key : ∀ c d : R, CRing.idivR P c s = .done d ↔ s ≠ 0 ∧ d * s = c := fun c d => LawfulScalar.idivR_iff _ _ _
  refine ⟨scale_outcomes ho x, ?_, fun y hy => ?_⟩
  · show (∃ y, x.scale _ = .done y) ↔ _
    rw [scale_done_iff ho x]
    simp only [key, exists_and_left]
  · have hf : ∀ c d : R, CRing.idivR P c s = .done d → Elt.num P d * Elt.num P s = Elt.num P c * 1 := fun c d h => by
      rw [mul_one, ← map_mul, ((key c d).1 h).2]
    have hm : ∀ c d : R, CRing.idivR P c s = .done d → c ∈ LawfulCRing.mem x.mod.par → d ∈ LawfulCRing.mem x.mod.par := fun c d h hc =>
      LawfulScalar.mem_of_div hc hs ((key c d).1 h).1 ((key c d).1 h).2
    obtain ⟨h1, h2, -⟩ := Elt.scale_done hx hy (Elt.num P) 0 (Elt.num P s) 1 hf hm
    refine ⟨h1, h2, fun v => ?_⟩
    simpa [Elt.real] using (Elt.scale_done hx hy (Elt.num P) v (Elt.num P s) 1 hf hm).2.2

/-- C15. Over a field, multiplying by a rational and dividing by a non-zero rational always succeeds. -/
theorem field_scale_defined (hfield : CRing.isField P = true) {x : Elt P R} (hx : x.WF) (q : ℚ) :
    (∃ y, x.imulQ q = .done y) ∧ (q ≠ 0 → ∃ y, x.idivQ q = .done y) := by
  have hrat : ∀ r : ℚ, ∃ d : R, Elt.num P d = r := by
    intro r
    refine ⟨CRing.quo P (r.num : R) (r.den : R), ?_⟩
    have hden : ((r.den : ℕ) : R) ≠ 0 := by
      intro h
      have := congrArg (Elt.num P) h
      rw [map_natCast, map_zero] at this
      exact r.den_nz (by exact_mod_cast this)
    have := congrArg (Elt.num P) (LawfulCRing.quo_field hfield (a := (r.num : R)) hden)
    rw [map_mul, map_natCast, map_intCast] at this
    have hr : (r.den : ℝ) ≠ 0 := by exact_mod_cast r.den_nz
    rw [Rat.cast_def, eq_div_iff hr, this]
  rw [(imulQ_value hx q).2.1, (idivQ_value hx q).2.1]
  constructor
  · intro c _
    obtain ⟨d, hd⟩ := hrat q
    exact ⟨c * d, by rw [map_mul, hd]⟩
  · intro hq c _
    obtain ⟨d, hd⟩ := hrat q⁻¹
    refine ⟨hq, c * d, ?_⟩
    have : (q : ℝ) ≠ 0 := by exact_mod_cast hq
    rw [map_mul, hd]; push_cast; field_simp

end

/-- C15. Over ℤ, multiplying by `q` succeeds exactly if the products of the coefficients with `q` are integers, dividing by `q ≠ 0` exactly
if the quotients are integers. -/
theorem integers_scale_defined {x : Elt IntegerRing ℤ} (hx : x.WF) (q : ℚ) :
    ((∃ y, x.imulQ q = .done y) ↔ ∀ c ∈ x.coeffs, ∃ d : ℤ, (d : ℚ) = c * q) ∧
    (q ≠ 0 → ((∃ y, x.idivQ q = .done y) ↔ ∀ c ∈ x.coeffs, ∃ d : ℤ, (d : ℚ) = c / q)) := by
  have hnum : ∀ c : ℤ, Elt.num IntegerRing c = (c : ℝ) := fun c => by rw [← eq_intCast (Elt.num IntegerRing) c]
  rw [(imulQ_value hx q).2.1, (idivQ_value hx q).2.1]
  simp only [hnum]
  constructor
  · refine forall₂_congr fun c _ => exists_congr fun d => ?_
    exact_mod_cast Iff.rfl
  · intro hq
    refine forall₂_congr fun c _ => ?_
    simp only [hq, ne_eq, not_false_eq_true, true_and]
    refine exists_congr fun d => ?_
    rw [eq_div_iff hq]
    exact_mod_cast Iff.rfl

/-- Non-vacuity: `(3 + 2a - b) * 4/2` over ℤ succeeds, `* 3/2` throws. -/
example : (∃ y, sample.imulQ (4 / 2) = .done y ∧ y.coeffs = [6, 4, -2, 0]) ∧ ∃ y, sample.imulQ (3 / 2) = .fail .invalidArgument y := by
  constructor
  · refine ⟨⟨sampleModule, [6, 4, -2, 0]⟩, ?_, rfl⟩
    have : (4 / 2 : ℚ) = 2 := by norm_num
    rw [this]; rfl
  · refine ((imulQ_value sample_WF _).1).resolve_left ?_
    rw [(integers_scale_defined sample_WF _).1]
    intro h
    obtain ⟨d, hd⟩ := h 3 (by simp [sample])
    field_simp at hd
    have hd : d * 2 = 3 * 3 := by exact_mod_cast hd
    omega

/-! ### C45 -/

/-- C45 fails over ℤ: multiplying `3` by `5/2` throws and leaves `15`. -/
theorem imulQ_corrupts : (⟨⟨.mk, [.rat 1]⟩, [3]⟩ : Elt IntegerRing ℤ).imulQ (5 / 2) = .fail .invalidArgument ⟨⟨.mk, [.rat 1]⟩, [15]⟩ := by
  have h1 : (5 / 2 : ℚ).num = 5 := by norm_num
  have h2 : (5 / 2 : ℚ).den = 2 := by norm_num
  simp [Elt.imulQ, Elt.scale, Elt.scaleLoop, CRing.imulQ, IntegerRing.imulQ, h1, h2, IntegerRing.imulZ, IntegerRing.idivZ, Step.fail]

/-- C45 fails over ℤ: dividing `2 + 3·a` by `2` throws and leaves `1 + 3·a`. -/
theorem idivZ_corrupts : (⟨⟨.mk, [.rat 1, .atom 5]⟩, [2, 3]⟩ : Elt IntegerRing ℤ).idivZ 2 =
    .fail .invalidArgument ⟨⟨.mk, [.rat 1, .atom 5]⟩, [1, 3]⟩ := by
  simp [Elt.idivZ, Elt.scale, Elt.scaleLoop, CRing.idivZ, IntegerRing.idivZ, Step.fail, Step.done]

/-- What a failing scaling by `s` leaves of the coefficients `xs`: the ones before the first coefficient that cannot be scaled have been scaled, that one has been multiplied with `m`, the
rest is unchanged. -/
def ScaledBefore (s : ℚ) (m : ℤ) (xs ys : List ℤ) : Prop :=
  ∃ pre c post pre', xs = pre ++ c :: post ∧ ys = pre' ++ c * m :: post ∧ pre'.map (Int.cast : ℤ → ℚ) = pre.map (fun c => s * c) ∧ ¬ ∃ k : ℤ, (k : ℚ) = s * c

theorem scale_int {s : ℚ} {m : ℤ} {f : ℤ → Step ℤ}
    (hf : ∀ c, (∃ d : ℤ, f c = .done d ∧ (d : ℚ) = s * c) ∨ (f c = .fail .invalidArgument (c * m) ∧ ¬ ∃ k : ℤ, (k : ℚ) = s * c)) (xs : List ℤ) :
    (∃ ys, Elt.scaleLoop f xs = .done ys ∧ ys.map (Int.cast : ℤ → ℚ) = xs.map fun c => s * c) ∨
      ∃ ys, Elt.scaleLoop f xs = .fail .invalidArgument ys ∧ ScaledBefore s m xs ys := by
  induction xs with
  | nil => exact .inl ⟨[], rfl, rfl⟩
  | cons c cs ih =>
    rcases hf c with ⟨d, hd, hc⟩ | ⟨hd, hc⟩
    · rcases ih with ⟨ys, h1, h2⟩ | ⟨ys, h1, pre, c', post, pre', h2, h3, h4, h5⟩
      · refine .inl ⟨d :: ys, ?_, by simp [h2, hc]⟩
        rw [Elt.scaleLoop, hd]; simp only [Step.done, h1]
      · refine .inr ⟨d :: ys, ?_, c :: pre, c', post, d :: pre', by simp [h2], by simp [h3], by simp [h4, hc], h5⟩
        rw [Elt.scaleLoop, hd]; simp only [Step.done, Step.fail, h1]
    · refine .inr ⟨c * m :: cs, ?_, [], c, cs, [], rfl, rfl, rfl, hc⟩
      rw [Elt.scaleLoop, hd]; rfl

theorem idivZ_int {n : ℤ} (hn : n ≠ 0) (c : ℤ) :
    (∃ d : ℤ, IntegerRing.idivZ c n = .done d ∧ (d : ℚ) = (n : ℚ)⁻¹ * c) ∨
      (IntegerRing.idivZ c n = .fail .invalidArgument c ∧ ¬ ∃ k : ℤ, (k : ℚ) = (n : ℚ)⁻¹ * c) := by
  have hn' : (n : ℚ) ≠ 0 := by exact_mod_cast hn
  unfold IntegerRing.idivZ
  rw [if_neg hn]
  by_cases h : Int.tmod c n = 0
  · refine .inl ⟨_, if_neg (by simpa using h), ?_⟩
    have := Int.tdiv_mul_cancel (Int.dvd_of_tmod_eq_zero h)
    field_simp
    exact_mod_cast (by linarith : c.tdiv n * n = c)
  · refine .inr ⟨if_pos h, ?_⟩
    rintro ⟨k, hk⟩
    field_simp at hk
    have hk' : k * n = c ∨ n * k = c := by first | (left; exact_mod_cast hk) | (right; exact_mod_cast hk)
    apply h
    rcases hk' with rfl | rfl
    · simp
    · simp

/-- C45 over ℤ: exactly what happens.  Multiplication with integers never throws; multiplication with a rational `q`, division by an integer or by a rational either scale all coefficients or
throw `invalid_argument` at the first coefficient that is not integral afterwards.  Then the ones before have been scaled already, and that coefficient has been multiplied with the numerator
(multiplication) or the denominator (division).  Division by zero throws and changes nothing (unless there are no coefficients). -/
theorem scale_int_outcome (x : Elt IntegerRing ℤ) :
    (∀ n : ℤ, ∃ y, x.imulZ n = .done y ∧ x.imulR n = .done y ∧ y.mod = x.mod ∧ y.coeffs = x.coeffs.map (· * n)) ∧
    (∀ q : ℚ, (∃ y, x.imulQ q = .done y ∧ y.mod = x.mod ∧ y.coeffs.map (Int.cast : ℤ → ℚ) = x.coeffs.map fun c => q * c) ∨
      ∃ y, x.imulQ q = .fail .invalidArgument y ∧ y.mod = x.mod ∧ ScaledBefore q q.num x.coeffs y.coeffs) ∧
    (∀ n : ℤ, n ≠ 0 → x.idivR n = x.idivZ n ∧ ((∃ y, x.idivZ n = .done y ∧ y.mod = x.mod ∧ y.coeffs.map (Int.cast : ℤ → ℚ) = x.coeffs.map fun c => (n : ℚ)⁻¹ * c) ∨
      ∃ y, x.idivZ n = .fail .invalidArgument y ∧ y.mod = x.mod ∧ ScaledBefore (n : ℚ)⁻¹ 1 x.coeffs y.coeffs)) ∧
    (∀ q : ℚ, q ≠ 0 → (∃ y, x.idivQ q = .done y ∧ y.mod = x.mod ∧ y.coeffs.map (Int.cast : ℤ → ℚ) = x.coeffs.map fun c => q⁻¹ * c) ∨
      ∃ y, x.idivQ q = .fail .invalidArgument y ∧ y.mod = x.mod ∧ ScaledBefore q⁻¹ q.den x.coeffs y.coeffs) ∧
    (x.coeffs ≠ [] → x.idivZ 0 = .fail .invalidArgument x ∧ x.idivR 0 = .fail .invalidArgument x ∧ x.idivQ 0 = .fail .invalidArgument x) := by
  have lift : ∀ {s : ℚ} {m : ℤ} {f : ℤ → Step ℤ}, (∀ c, (∃ d : ℤ, f c = .done d ∧ (d : ℚ) = s * c) ∨ (f c = .fail .invalidArgument (c * m) ∧ ¬ ∃ k : ℤ, (k : ℚ) = s * c)) →
      (∃ y, x.scale f = .done y ∧ y.mod = x.mod ∧ y.coeffs.map (Int.cast : ℤ → ℚ) = x.coeffs.map fun c => s * c) ∨
      ∃ y, x.scale f = .fail .invalidArgument y ∧ y.mod = x.mod ∧ ScaledBefore s m x.coeffs y.coeffs := by
    intro s m f hf
    rcases scale_int hf x.coeffs with ⟨ys, h1, h2⟩ | ⟨ys, h1, h2⟩
    · exact .inl ⟨⟨x.mod, ys⟩, by rw [Elt.scale, h1]; rfl, rfl, h2⟩
    · exact .inr ⟨⟨x.mod, ys⟩, by rw [Elt.scale, h1]; rfl, rfl, h2⟩
  refine ⟨fun n => ?_, fun q => ?_, fun n hn => ⟨rfl, ?_⟩, fun q hq => ?_, fun hx => ?_⟩
  · have : ∀ xs : List ℤ, Elt.scaleLoop (fun c => IntegerRing.imulZ c n) xs = .done (xs.map (· * n)) := by
      intro xs
      induction xs with
      | nil => rfl
      | cons c cs ih => rw [Elt.scaleLoop]; simp only [IntegerRing.imulZ, Step.done] at ih ⊢; rw [ih]; rfl
    have h : x.imulZ n = .done ⟨x.mod, x.coeffs.map (· * n)⟩ := by
      show x.scale (fun c => IntegerRing.imulZ c n) = _
      rw [Elt.scale, this]; rfl
    exact ⟨_, h, h, rfl, rfl⟩
  · refine lift (f := fun c => IntegerRing.imulQ c q) fun c => ?_
    have hd : (q.den : ℤ) ≠ 0 := by exact_mod_cast q.den_nz
    have hq : (((q.den : ℤ) : ℚ))⁻¹ * ((c * q.num : ℤ) : ℚ) = q * c := by
      push_cast; nth_rw 3 [← Rat.num_div_den q]; ring
    have := idivZ_int hd (c * q.num)
    rw [hq] at this
    simpa [IntegerRing.imulQ, IntegerRing.imulZ, Step.andThen, Step.done] using this
  · refine lift (f := fun c => IntegerRing.idivZ c n) fun c => ?_
    rw [mul_one]; exact idivZ_int hn c
  · refine lift (f := fun c => IntegerRing.idivQ c q) fun c => ?_
    have hd : q.num ≠ 0 := Rat.num_ne_zero.2 hq
    have hq' : ((q.num : ℤ) : ℚ)⁻¹ * ((c * q.den : ℤ) : ℚ) = q⁻¹ * c := by
      push_cast; nth_rw 3 [← Rat.num_div_den q]; rw [inv_div]; ring
    have := idivZ_int hd (c * q.den)
    rw [hq'] at this
    simpa [IntegerRing.idivQ, hq, IntegerRing.imulZ, Step.andThen, Step.done] using this
  · obtain ⟨m, cs⟩ := x
    cases cs with
    | nil => exact absurd rfl hx
    | cons c cs =>
      refine ⟨?_, ?_, ?_⟩ <;>
        simp [Elt.idivZ, Elt.idivR, Elt.idivQ, Elt.scale, Elt.scaleLoop, CRing.idivZ, CRing.idivR, CRing.idivQ, IntegerRing.idivZ, IntegerRing.idivQ, Step.fail]

theorem scale_unchanged {P R : Type} [CommRing R] {f : R → Step R} (h : (∀ c, ∃ d, f c = .done d) ∨ ∀ c, ∃ e, f c = .fail e c) (x : Elt P R) :
    (∃ y, x.scale f = .done y) ∨ ∃ e, x.scale f = .fail e x := by
  unfold Elt.scale
  rcases h with h | h
  · left
    have : ∀ l : List R, ∃ l', Elt.scaleLoop f l = .done l' := by
      intro l
      induction l with
      | nil => exact ⟨_, rfl⟩
      | cons c l ih =>
        obtain ⟨d, hd⟩ := h c
        obtain ⟨l', hl'⟩ := ih
        exact ⟨d :: l', by simp [Elt.scaleLoop, hd, Step.done, hl']⟩
    obtain ⟨l', hl'⟩ := this x.coeffs
    exact ⟨⟨x.mod, l'⟩, by simp [hl', Step.done]⟩
  · cases hx : x.coeffs with
    | nil => exact .inl ⟨x, by cases x; simp_all [Elt.scaleLoop, Step.done]⟩
    | cons c l =>
      obtain ⟨e, he⟩ := h c
      exact .inr ⟨e, by cases x; simp_all [Elt.scaleLoop, Step.fail]⟩

/-- C45 over fields (missing: over ℤ the statement is false, `imulQ_corrupts` and `idivZ_corrupts`): if an in-place scaling by an
integer, a rational or a coefficient throws, the element is unchanged. -/
theorem scale_unchanged_partial :
    (∀ (x : Elt RationalField ℚ) (op : Step (Elt RationalField ℚ)) (n : ℤ) (q s : ℚ),
      op ∈ [x.imulZ n, x.imulQ q, x.imulR s, x.idivZ n, x.idivQ q, x.idivR s] → (∃ y, op = .done y) ∨ ∃ e, op = .fail e x) ∧
    (∀ (x : Elt NumberField AlgReal) (op : Step (Elt NumberField AlgReal)) (n : ℤ) (q : ℚ) (s : AlgReal),
      op ∈ [x.imulZ n, x.imulQ q, x.imulR s, x.idivZ n, x.idivQ q, x.idivR s] → (∃ y, op = .done y) ∨ ∃ e, op = .fail e x) := by
  have hq : ∀ s : ℚ, (∀ c, ∃ d, RationalField.idiv c s = .done d) ∨ ∀ c, ∃ e, RationalField.idiv c s = .fail e c := by
    intro s
    by_cases hs : s = 0
    · right; intro c; exact ⟨.invalidArgument, by simp [RationalField.idiv, hs]⟩
    · left; intro c; exact ⟨c / s, by simp [RationalField.idiv, hs]⟩
  have hn : ∀ s : AlgReal, (∀ c, ∃ d, NumberField.idiv c s = .done d) ∨ ∀ c, ∃ e, NumberField.idiv c s = .fail e c := by
    intro s
    by_cases hs : s = 0
    · right; intro c; exact ⟨.invalidArgument, by simp [NumberField.idiv, hs]⟩
    · left; intro c; exact ⟨c / s, by simp [NumberField.idiv, hs]⟩
  constructor
  · intro x op n q s h
    simp only [List.mem_cons, List.not_mem_nil, or_false] at h
    rcases h with rfl | rfl | rfl | rfl | rfl | rfl
    · exact scale_unchanged (.inl fun c => ⟨_, rfl⟩) x
    · exact scale_unchanged (.inl fun c => ⟨_, rfl⟩) x
    · exact scale_unchanged (.inl fun c => ⟨_, rfl⟩) x
    · exact scale_unchanged (hq _) x
    · exact scale_unchanged (hq _) x
    · exact scale_unchanged (hq _) x
  · intro x op n q s h
    simp only [List.mem_cons, List.not_mem_nil, or_false] at h
    rcases h with rfl | rfl | rfl | rfl | rfl | rfl
    · exact scale_unchanged (.inl fun c => ⟨_, rfl⟩) x
    · exact scale_unchanged (.inl fun c => ⟨_, rfl⟩) x
    · exact scale_unchanged (.inl fun c => ⟨_, rfl⟩) x
    · exact scale_unchanged (hn _) x
    · exact scale_unchanged (hn _) x
    · exact scale_unchanged (hn _) x

/-- C45, what remains true over ℤ: a failing scaling keeps the module and the number of coefficients. -/
theorem scale_keeps_module {P R : Type} [CommRing R] (f : R → Step R) (x : Elt P R) :
    (x.scale f).self.mod = x.mod ∧ (x.scale f).self.coeffs.length = x.coeffs.length := by
  refine ⟨rfl, ?_⟩
  show (Elt.scaleLoop f x.coeffs).self.length = _
  induction x.coeffs with
  | nil => rfl
  | cons c l ih =>
    rw [Elt.scaleLoop]
    split
    · simpa using ih
    · simp

example : ∃ y, (⟨⟨.mk, [.rat 1]⟩, [3]⟩ : Elt RationalField ℚ).idivQ 0 = .fail .invalidArgument y :=
  ⟨_, by simp [Elt.idivQ, Elt.scale, Elt.scaleLoop, CRing.idivQ, RationalField.idiv, Step.fail]; rfl⟩

/-! ### C46 -/

/-- C46 fails: `RationalField::floor(-1/2)` is `0`. -/
theorem rational_floor_wrong : RationalField.floor (-1 / 2) = 0 ∧ ⌊(-1 / 2 : ℚ)⌋ = -1 := by
  constructor
  · have h1 : (-1 / 2 : ℚ).num = -1 := by norm_num
    have h2 : (-1 / 2 : ℚ).den = 2 := by norm_num
    rw [RationalField.floor, h1, h2]; rfl
  · norm_num

/-- C46 for non-negative arguments and integers (missing: negative non-integers, where the statement is false, `rational_floor_wrong`). -/
theorem rational_floor_partial {q : ℚ} (h : 0 ≤ q ∨ q.den = 1) : RationalField.floor q = ⌊q⌋ := by
  unfold RationalField.floor
  rw [Rat.floor_def']
  rcases h with h | h
  · exact Int.tdiv_eq_ediv_of_nonneg (Rat.num_nonneg.2 h)
  · simp [h]

/-- C46, the rest: for negative arguments `RationalField::floor` is the ceiling, i.e., it rounds towards zero. -/
theorem rational_floor_neg {q : ℚ} (h : q ≤ 0) : RationalField.floor q = ⌈q⌉ := by
  have h2 := rational_floor_partial (q := -q) (.inl (by linarith))
  rw [Int.floor_neg] at h2
  rw [← neg_inj, ← h2]
  simp [RationalField.floor]

end ExactReal.Props
