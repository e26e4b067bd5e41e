import Verif.Lemma.FlintLike

/-! # `Ring::arb` of the three rings -/

namespace ExactReal

open Ball Filter Topology

theorem num_int (c : ℤ) : Elt.num IntegerRing c = ((c : ℚ) : ℝ) := by
  show algebraMap AlgReal ℝ (Int.castRingHom AlgReal c) = _
  simp

theorem num_rat (c : ℚ) : Elt.num RationalField c = (c : ℝ) := by
  show algebraMap AlgReal ℝ (algebraMap ℚ AlgReal c) = _
  rw [← IsScalarTower.algebraMap_apply]; simp

/-- Integer coefficients are exact balls. -/
theorem coeffLawful_int : CoeffLawful IntegerRing IntegerRing.arb where
  contains prec c := by rw [num_int]; exact (contains_exact _ _).2 rfl
  finite _ _ := finite_exact _
  tends c := by rw [num_int]; exact tends_exact _

/-- Rational coefficients are rounded to `prec` bits. -/
theorem coeffLawful_rat {F : Arith} (hF : F.Lawful) : CoeffLawful RationalField (RationalField.arb F) where
  contains prec c := by rw [num_rat]; exact hF.ofRat_contains prec c
  finite prec c := hF.ofRat_finite prec c
  tends c := by rw [num_rat]; exact hF.ofRat_tends c

/-- There are balls for the elements of number fields, too. -/
theorem exists_coeffLawful (P : Type) [DecidableEq P] {R : Type} [CommRing R] [DecidableEq R] [CRing P R] [LawfulCRing P] :
    ∃ coeff : ℕ → R → Ball, CoeffLawful P coeff := by
  have h : ∀ (n : ℕ) (x : ℝ), ∃ q : ℚ, |x - q| ≤ ((2 ^ (0 - (n : ℤ)) : ℚ) : ℝ) := by
    intro n x
    obtain ⟨q, hq⟩ := exists_rat_near x (show (0 : ℝ) < ((2 ^ (0 - (n : ℤ)) : ℚ) : ℝ) by exact_mod_cast Arf.two_zpow_pos _)
    exact ⟨q, hq.le⟩
  choose q hq using h
  refine ⟨fun n c => ⟨q n (Elt.num P c), some (2 ^ (0 - (n : ℤ)))⟩, ⟨fun n c => ?_, fun n c => ⟨_, rfl, (Arf.two_zpow_pos _).le⟩, fun c => ?_⟩⟩
  · rw [contains_iff rfl]; exact hq n _
  · refine Tends.mk' (f := fun n : ℕ => 2 ^ (0 - (n : ℤ))) (g := fun n : ℕ => 2 ^ (0 - (n : ℤ)))
      (Eventually.of_forall fun n => ⟨_, rfl, (Arf.two_zpow_pos _).le⟩) (Eventually.of_forall fun n => ?_) (zpow_neg_tendsto 0)
      (Eventually.of_forall fun n => ?_) (zpow_neg_tendsto 0)
    · simp [radius]
    · rw [abs_sub_comm]
      have := hq n (Elt.num P c)
      simpa using this

end ExactReal
