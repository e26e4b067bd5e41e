import Verif.Lemma.Compat
import Mathlib.Algebra.MvPolynomial.Nilpotent

/-! Elements with a single non-zero coefficient. -/

namespace ExactReal
open Finsupp
variable {P : Type} [DecidableEq P] {R : Type} [CommRing R] [DecidableEq R] [CRing P R]

/-- The element `d·g` of the module `m`. -/
def Mod.single (m : Mod P) (g : RN) (d : R) : Elt P R := ⟨m, m.basis.map fun h => if h = g then d else 0⟩

theorem combo_map_ite {l : List RN} (hn : l.Nodup) {g : RN} (hg : g ∈ l) (d : R) :
    Elt.combo (l.zip (l.map fun h => if h = g then d else 0)) = Finsupp.single g d := by
  induction l with
  | nil => simp at hg
  | cons a l ih =>
    rw [List.nodup_cons] at hn
    simp only [List.map_cons, List.zip_cons_cons, Elt.combo_cons]
    rcases List.mem_cons.1 hg with rfl | hg
    · rw [if_pos rfl, Elt.combo_eq_zero, add_zero]
      intro t ht
      obtain ⟨h1, h2⟩ := List.of_mem_zip ht
      rw [List.zip_map_right, List.mem_map] at ht
      obtain ⟨⟨a, b⟩, hab, rfl⟩ := ht
      have : a = b := by
        have : (a, b) ∈ l.zip l := hab
        rw [List.zip_self_eq_map] at this
        obtain ⟨c, -, h⟩ := List.mem_map.1 this
        cases h; rfl
      subst this
      simp only [Prod.map]
      rw [if_neg]; rintro rfl
      exact hn.1 h1
    · rw [if_neg (by rintro rfl; exact hn.1 hg), ih hn.2 hg]; simp
where
  List.zip_self_eq_map {l : List RN} : l.zip l = l.map fun a => (a, a) := by
    induction l with
    | nil => rfl
    | cons a l ih => simp [ih]

variable [LawfulCRing P]

theorem Mod.WF.nodup {m : Mod P} (h : m.WF) : m.basis.Nodup :=
  h.sorted.imp fun hp => by rintro rfl; exact Precedes.irrefl _ hp

theorem Mod.single_spec {m : Mod P} (hm : m.WF) {g : RN} (hg : g ∈ m.basis) {d : R} (hd : d ∈ LawfulCRing.mem m.par) :
    (m.single g d).WF ∧ (m.single g d).fs = Finsupp.single g d := by
  refine ⟨⟨hm, by simp [Mod.single], ?_⟩, combo_map_ite hm.nodup hg d⟩
  intro c hc
  obtain ⟨h, -, rfl⟩ := List.mem_map.1 hc
  split
  · exact hd
  · exact Subring.zero_mem _

theorem Mod.gen_spec {m : Mod P} (hm : m.WF) {j : ℕ} (hj : j < m.basis.length) :
    ∃ e : Elt P R, m.gen j = .ok e ∧ e = m.single m.basis[j] 1 := by
  refine ⟨_, if_pos hj, ?_⟩
  unfold Mod.single
  congr 1
  apply List.ext_getElem
  · simp
  · intro i h1 h2
    simp only [List.getElem_map, List.getElem_set, List.getElem_replicate]
    have hi : i < m.basis.length := by simpa using h2
    by_cases h : j = i
    · subst h; simp
    · rw [if_neg h, if_neg]
      intro he
      exact h ((List.Nodup.getElem_inj_iff hm.nodup).1 he).symm

theorem single_real (v : ℕ → ℝ) {x : Elt P R} {g : RN} {d : R} (h : x.fs = Finsupp.single g d) : x.real v = Elt.num P d * g.value v := by
  rw [Elt.real_eq_evalF, h, Elt.evalF_single]

theorem num_injective : Function.Injective (Elt.num P : R →+* ℝ) := by
  intro a b h
  unfold Elt.num at h
  rw [RingHom.comp_apply, RingHom.comp_apply] at h
  exact LawfulCRing.emb_injective (P := P) ((algebraMap AlgReal ℝ).injective h)

/-- The value of a real number is zero only for the rational zero. -/
theorem rn_value_eq_zero {v : ℕ → ℝ} (hv : AlgebraicIndependent ℚ v) {g : RN} (h : g.value v = 0) : g = .rat 0 := by
  have h1 : Elt.evalF (Elt.num RationalField) v (Finsupp.single g (1 : ℚ)) = 0 := by rw [Elt.evalF_single, h, mul_zero]
  rw [Elt.evalF_eq_zero_iff hv] at h1
  by_contra hg
  have := Elt.polyF_eq_zero (P := RationalField) (f := Finsupp.single g (1 : ℚ)) ?_ (by rw [Finsupp.single_apply, if_neg hg]) h1
  · have h2 := DFunLike.congr_fun this g
    simp at h2
  · intro a b ha hb _
    rw [Finsupp.single_apply] at ha hb
    have e1 : g = a := by by_contra h; simp [h] at ha
    have e2 : g = b := by by_contra h; simp [h] at hb
    exact e1.symm.trans e2

/-- If a product of elements is one, then both are constants. -/
theorem alg_of_mul_eq_one {v : ℕ → ℝ} (hv : AlgebraicIndependent ℚ v) {x y : Elt P R} (h : x.real v * y.real v = 1) :
    ∃ a : AlgReal, x.real v = algebraMap AlgReal ℝ a := by
  rw [Elt.real_eq_evalF, Elt.real_eq_evalF, ← Elt.aeval_polyF, ← Elt.aeval_polyF, ← map_mul] at h
  have hinj : Function.Injective (MvPolynomial.aeval v : MvPolynomial ℕ AlgReal →ₐ[AlgReal] ℝ) := by
    have := Elt.independent_alg hv
    rwa [algebraicIndependent_iff_injective_aeval] at this
  have h1 : Elt.polyF P x.fs * Elt.polyF P y.fs = 1 := hinj (by rw [h, map_one])
  have hu : IsUnit (Elt.polyF P x.fs) := IsUnit.of_mul_eq_one _ h1
  rw [MvPolynomial.isUnit_iff_eq_C_of_isReduced] at hu
  obtain ⟨a, -, ha⟩ := hu
  refine ⟨a, ?_⟩
  rw [Elt.real_eq_evalF, ← Elt.aeval_polyF, ha, MvPolynomial.aeval_C]

end ExactReal
