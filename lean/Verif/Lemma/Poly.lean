import Verif.Lemma.Mul
import Mathlib.RingTheory.AlgebraicIndependent.AlgebraicClosure
import Mathlib.Algebra.MvPolynomial.Basic

namespace ExactReal.Elt
open Finsupp
variable {P : Type} [DecidableEq P] {R : Type} [CommRing R] [DecidableEq R] [CRing P R] [LawfulCRing P]

/-- The polynomial in the atoms described by a combination. -/
noncomputable def polyF (P : Type) [DecidableEq P] {R : Type} [CommRing R] [DecidableEq R] [CRing P R] [LawfulCRing P]
    (f : RN →₀ R) : MvPolynomial ℕ AlgReal :=
  evalF ((MvPolynomial.C).comp (LawfulCRing.emb P)) (MvPolynomial.X) f

theorem rn_value_X (g : RN) : g.value (MvPolynomial.X : ℕ → MvPolynomial ℕ AlgReal) =
    MvPolynomial.monomial g.mult (algebraMap ℚ AlgReal g.coef) := by
  rw [RN.value_eq, MvPolynomial.monomial_eq]
  rfl

theorem polyF_single (g : RN) (c : R) : polyF P (single g c) =
    MvPolynomial.monomial g.mult (LawfulCRing.emb P c * algebraMap ℚ AlgReal g.coef) := by
  unfold polyF
  rw [evalF_single, rn_value_X, RingHom.comp_apply, MvPolynomial.C_mul_monomial]

theorem polyF_add (f g : RN →₀ R) : polyF P (f + g) = polyF P f + polyF P g := evalF_add _ _ _ _
theorem polyF_zero : polyF P (0 : RN →₀ R) = 0 := evalF_zero _ _

theorem polyF_sub (f g : RN →₀ R) : polyF P (f - g) = polyF P f - polyF P g := by
  unfold polyF
  rw [sub_eq_add_neg, evalF_add, evalF_neg, ← sub_eq_add_neg]

theorem coeff_polyF (f : RN →₀ R) (m : ℕ →₀ ℕ) : (polyF P f).coeff m =
    ∑ g ∈ f.support, if g.mult = m then LawfulCRing.emb P (f g) * algebraMap ℚ AlgReal g.coef else 0 := by
  have : polyF P f = ∑ g ∈ f.support, MvPolynomial.monomial g.mult (LawfulCRing.emb P (f g) * algebraMap ℚ AlgReal g.coef) := by
    unfold polyF evalF Finsupp.sum
    refine Finset.sum_congr rfl fun g _ => ?_
    simp only []
    rw [rn_value_X, RingHom.comp_apply, MvPolynomial.C_mul_monomial]
  rw [this, MvPolynomial.coeff_sum]
  refine Finset.sum_congr rfl fun g _ => ?_
  rw [MvPolynomial.coeff_monomial]

/-- A set of generators on which multiplicities are injective, as in a module. -/
def MultInj (f : RN →₀ R) : Prop := ∀ g h, f g ≠ 0 → f h ≠ 0 → g.mult = h.mult → g = h

theorem coeff_polyF_self {f : RN →₀ R} (hf : MultInj f) {g : RN} (hg : f g ≠ 0) :
    (polyF P f).coeff g.mult = LawfulCRing.emb P (f g) * algebraMap ℚ AlgReal g.coef := by
  rw [coeff_polyF, Finset.sum_eq_single g]
  · simp
  · intro h hh hne
    rw [if_neg]
    intro he
    exact hne (hf h g (Finsupp.mem_support_iff.1 hh) hg he)
  · intro h
    rw [Finsupp.notMem_support_iff] at h
    simp [h]

theorem polyF_eq_zero {f : RN →₀ R} (hf : MultInj f) (hz : f (.rat 0) = 0) (h : polyF P f = 0) : f = 0 := by
  ext g
  by_contra hg
  have hg : f g ≠ 0 := hg
  have := coeff_polyF_self (P := P) hf hg
  rw [h, MvPolynomial.coeff_zero] at this
  have := this.symm
  rw [mul_eq_zero] at this
  rcases this with this | this
  · exact hg (LawfulCRing.emb_injective (P := P) (by rw [this, map_zero]))
  · have hc : g.coef = 0 := (algebraMap ℚ AlgReal).injective (by rw [this, map_zero])
    cases g with
    | rat q => simp [RN.coef] at hc; subst hc; exact hg hz
    | atom i => simp [RN.coef] at hc
    | prod m => simp [RN.coef] at hc

/-- Evaluation of the polynomial at real numbers gives the real value. -/
theorem aeval_polyF (v : ℕ → ℝ) (f : RN →₀ R) : MvPolynomial.aeval v (polyF P f) = evalF (num P) v f := by
  induction f using Finsupp.induction_linear with
  | zero => rw [polyF_zero, map_zero, evalF_zero]
  | add f g hf hg => rw [polyF_add, map_add, hf, hg, evalF_add]
  | single g c =>
    rw [polyF_single, evalF_single, MvPolynomial.aeval_monomial, RN.value_eq, map_mul, ← IsScalarTower.algebraMap_apply ℚ AlgReal ℝ, mul_assoc]
    rfl

theorem independent_alg {v : ℕ → ℝ} (hv : AlgebraicIndependent ℚ v) : AlgebraicIndependent AlgReal v := by
  have h : Algebra.IsAlgebraic ℚ AlgReal := by
    convert algebraicClosure.isAlgebraic ℚ ℝ
    · rfl
    · exact Subsingleton.elim (α := Algebra ℚ AlgReal) _ _
  exact hv.extendScalars _

theorem evalF_eq_zero_iff {v : ℕ → ℝ} (hv : AlgebraicIndependent ℚ v) {f : RN →₀ R} : evalF (num P) v f = 0 ↔ polyF P f = 0 := by
  rw [← aeval_polyF]
  have := independent_alg hv
  rw [algebraicIndependent_iff_injective_aeval] at this
  rw [map_eq_zero_iff _ this]

theorem real_eq_evalF (v : ℕ → ℝ) (x : Elt P R) : x.real v = evalF (num P) v x.fs := value_eq_evalF _ _ _

theorem sorted_mult_inj {l : List RN} (h : l.Pairwise fun g h => Precedes g.mult h.mult) {a b : RN} (ha : a ∈ l) (hb : b ∈ l)
    (he : a.mult = b.mult) : a = b := by
  rw [List.pairwise_iff_getElem] at h
  obtain ⟨i, hi, rfl⟩ := List.getElem_of_mem ha
  obtain ⟨j, hj, rfl⟩ := List.getElem_of_mem hb
  rcases lt_trichotomy i j with hij | rfl | hij
  · have := h i j hi hj hij; rw [he] at this; exact absurd this (Precedes.irrefl _)
  · rfl
  · have := h j i hj hi hij; rw [he] at this; exact absurd this (Precedes.irrefl _)

theorem WF.multInj {x : Elt P R} (h : x.WF) : MultInj x.fs := fun _ _ hg hk he =>
  sorted_mult_inj h.mod.sorted (fs_support_WF h hg).1 (fs_support_WF h hk).1 he

theorem WF.multInj_sub {x y : Elt P R} (hx : x.WF) (hy : y.WF) (hm : x.mod = y.mod) : MultInj (x.fs - y.fs) := by
  have key : ∀ g, (x.fs - y.fs) g ≠ 0 → g ∈ x.mod.basis := by
    intro g hg
    by_contra hno
    apply hg
    rw [Finsupp.sub_apply, fs_apply_of_not_mem hx hno, fs_apply_of_not_mem hy (hm ▸ hno), sub_zero]
  intro g k hg hk he
  exact sorted_mult_inj hx.mod.sorted (key g hg) (key k hk) he

theorem NoZeroGen.fs {x : Elt P R} (hx : x.WF) (h : x.NoZeroGen) : x.fs (.rat 0) = 0 := fs_apply_of_not_mem hx h

/-- In one module, equal real values mean equal combinations. -/
theorem real_eq_iff_same {v : ℕ → ℝ} (hv : AlgebraicIndependent ℚ v) {x y : Elt P R} (hx : x.WF) (hy : y.WF) (hm : x.mod = y.mod)
    (hz : x.NoZeroGen) : x.real v = y.real v ↔ x.fs = y.fs := by
  rw [real_eq_evalF, real_eq_evalF]
  refine ⟨fun h => ?_, fun h => by rw [h]⟩
  have h0 : evalF (num P) v (x.fs - y.fs) = 0 := by
    rw [sub_eq_add_neg, evalF_add, evalF_neg, h]; ring
  rw [evalF_eq_zero_iff hv] at h0
  have := polyF_eq_zero (hx.multInj_sub hy hm)
    (by rw [Finsupp.sub_apply, hz.fs hx, NoZeroGen.fs hy (by unfold NoZeroGen; rw [← hm]; exact hz), sub_zero]) h0
  exact sub_eq_zero.1 this

theorem real_eq_zero_iff {v : ℕ → ℝ} (hv : AlgebraicIndependent ℚ v) {x : Elt P R} (hx : x.WF)
    (hz : x.NoZeroGen) : x.real v = 0 ↔ x.fs = 0 := by
  rw [real_eq_evalF, evalF_eq_zero_iff hv]
  exact ⟨polyF_eq_zero hx.multInj (hz.fs hx), fun h => by rw [h, polyF_zero]⟩

/-- If the real value is an algebraic number then all generators that occur are rational. -/
theorem rat_of_real_alg {v : ℕ → ℝ} (hv : AlgebraicIndependent ℚ v) {x : Elt P R} (hx : x.WF) {a : AlgReal}
    (h : x.real v = algebraMap AlgReal ℝ a) {g : RN} (hg : x.fs g ≠ 0) : g.isRat = true := by
  have hw := fs_support_WF hx hg
  by_contra hr
  have hr : g.isRat = false := by simpa using hr
  have hp : polyF P x.fs = MvPolynomial.C a := by
    have := independent_alg hv
    rw [algebraicIndependent_iff_injective_aeval] at this
    apply this
    rw [aeval_polyF, ← real_eq_evalF, h, MvPolynomial.aeval_C]
  have h1 := coeff_polyF_self (P := P) hx.multInj hg
  rw [hp, MvPolynomial.coeff_C, if_neg (RN.mult_ne_zero hw.2 hr).symm, RN.coef_of_not_rat hr, map_one, mul_one] at h1
  exact hg (LawfulCRing.emb_injective (P := P) (by rw [← h1, map_zero]))

end ExactReal.Elt
