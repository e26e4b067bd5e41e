import Verif.Props.ElementOrder
import Verif.Lemma.FlintLike
import Verif.Lemma.Contained

/-!
# C22: comparisons of elements can be wrong

A machine-checked pair of elements `x < y` for which `x < y` is `false`, and cases that meet the hypotheses of `Verif/Props/ElementOrder.lean`.
-/

namespace ExactReal.Props

open Arf Ball

/-- `0.1` followed by 65 zeros and ten ones. -/
def lateOnes : Digits := ⟨finiteDigits (2 ^ 75 + (2 ^ 10 - 1)) 76, 0, by decide⟩

theorem lateOnes_value : lateOnes.value = 1 / 2 + (2 ^ 10 - 1) / 2 ^ 76 := by
  rw [value_finite lateOnes 76 (fun i hi => by simp [lateOnes, finiteDigits, hi])]
  have : Digits.prefixValue lateOnes.digit 76 = 1 / 2 + (2 ^ 10 - 1) / 2 ^ 76 := by decide +kernel
  rw [this]; push_cast; norm_num

/-- All atoms are that number. -/
def lateAtoms : Atoms := fun _ => .random lateOnes

/-- `3/2 + 9/16 * 2^-64` -/
def nearQ : ℚ := 3 / 2 + 9 / 2 ^ 68

/-- The module with generators `nearQ` and the random number. -/
def lateMod : Mod IntegerRing := ⟨.mk, [.rat nearQ, .atom 0]⟩
/-- The element `nearQ`. -/
def lateX : Elt IntegerRing ℤ := ⟨lateMod, [1, 0]⟩
/-- Three times the random number. -/
def lateY : Elt IntegerRing ℤ := ⟨lateMod, [0, 3]⟩

theorem late_ball_rat : (RN.rat nearQ).arb lateAtoms 65 = ⟨3 / 2 + 1 / 2 ^ 64, some (1 / 2 ^ 66)⟩ := by
  have : (RN.rat nearQ).arf lateAtoms (65 : ℕ) = 3 / 2 + 1 / 2 ^ 64 := by
    rw [RN.arf_nat, RN.arf_, if_neg (by norm_num)]; decide +kernel
  rw [RN.arb_eq, this]; decide +kernel

theorem late_ball_atom : (RN.atom 0).arb lateAtoms 65 = ⟨1 / 2, some (1 / 2 ^ 67)⟩ := by
  have : (RN.atom 0).arf lateAtoms (65 : ℕ) = 1 / 2 := by
    rw [RN.arf_nat]
    show lateOnes.arf 65 = _
    rw [Digits.arf, first_eq_zero _ (by decide)]
    decide +kernel
  rw [RN.arb_eq, this]; decide +kernel

theorem late_arb_x (fuel : ℕ) : lateX.arb lateAtoms FlintLike.arith IntegerRing.arb (fuel + 1) 64 = .ok ⟨3 / 2 + 1 / 2 ^ 64, some (1 / 2 ^ 66)⟩ := by
  have h : Elt.arbSum lateAtoms FlintLike.arith IntegerRing.arb 65 (Ball.exact 0) lateX.terms = ⟨3 / 2 + 1 / 2 ^ 64, some (1 / 2 ^ 66)⟩ := by
    simp only [Elt.terms, lateX, lateMod, List.zip_cons_cons, List.zip_nil_right, Elt.arbSum, late_ball_rat, late_ball_atom]
    decide +kernel
  rw [Elt.arb, if_neg (by decide)]
  have e : 64 + Nat.clog 2 lateX.mod.basis.length = 65 := by decide
  rw [e, Elt.arbLoop, h, if_pos (by decide +kernel)]

theorem late_arb_y (fuel : ℕ) : lateY.arb lateAtoms FlintLike.arith IntegerRing.arb (fuel + 1) 64 = .ok ⟨3 / 2, some (3 / 2 ^ 67)⟩ := by
  have h : Elt.arbSum lateAtoms FlintLike.arith IntegerRing.arb 65 (Ball.exact 0) lateY.terms = ⟨3 / 2, some (3 / 2 ^ 67)⟩ := by
    simp only [Elt.terms, lateY, lateMod, List.zip_cons_cons, List.zip_nil_right, Elt.arbSum, late_ball_rat, late_ball_atom]
    decide +kernel
  rw [Elt.arb, if_neg (by decide)]
  have e : 64 + Nat.clog 2 lateY.mod.basis.length = 65 := by decide
  rw [e, Elt.arbLoop, h, if_pos (by decide +kernel)]

theorem ltLoop_one {op : ℕ → Ball → Out (Option Bool)} {self : ℕ → Out Ball} {prec : ℕ} {a : Ball} {r : Bool} (h1 : self prec = .ok a)
    (h2 : op prec a = .ok (some r)) (fuel : ℕ) : Elt.ltLoop op self (fuel + 1) prec = .ok r := by
  rw [Elt.ltLoop, h1, Out.ok_bind, h2]; rfl

/-- **C22 is false**: with an arithmetic that meets FLINT's contract there are elements `x < y` of the same module with `x < y` `false` and `y < x`
`true`, and a rational `q < y` with `y < q` `true`. -/
theorem elt_lt_fails [build : Build] (fuel : ℕ) : lateX.WF ∧ lateY.WF ∧
    (Elt.lt lateAtoms FlintLike.arith IntegerRing.arb (fuel + 1) lateX lateY = .ok false ∧
      Elt.lt lateAtoms FlintLike.arith IntegerRing.arb (fuel + 1) lateY lateX = .ok true ∧
      lateX.real lateAtoms.vals < lateY.real lateAtoms.vals) ∧
    (Elt.ltQ lateAtoms FlintLike.arith IntegerRing.arb (fuel + 1) lateY (3 / 2 + 5 / 2 ^ 67) = .ok true ∧
      ((3 / 2 + 5 / 2 ^ 67 : ℚ) : ℝ) < lateY.real lateAtoms.vals) := by
  have v1 : lateX.real lateAtoms.vals = 3 / 2 + 9 / 2 ^ 68 := by
    simp [Elt.real, Elt.value, Elt.terms, lateX, lateMod, nearQ, num_int, RN.value]
  have v2 : lateY.real lateAtoms.vals = 3 * (1 / 2 + (2 ^ 10 - 1) / 2 ^ 76) := by
    rw [← lateOnes_value]
    simp [Elt.real, Elt.value, Elt.terms, lateY, lateMod, num_int, RN.value]
    rfl
  have n1 : lateX.eq lateY = .ok false := by rw [Elt.eq, if_neg (by simp [lateX, lateY])]; simp [lateX, lateY]
  have n2 : lateY.eq lateX = .ok false := by rw [Elt.eq, if_neg (by simp [lateX, lateY])]; simp [lateX, lateY]
  have hm : lateMod.WF := by
    have h : Mod.make IntegerRing.mk [.rat nearQ, .atom 0] = .ok lateMod := by
      simp [Mod.make, Mod.sort, RN.lt, RN.deglex, Mod.check, Mod.compatible, RN.isRat, RN.rational?, lateMod]
    exact (Mod.make_ok (by simp [RN.WF]) h).2.2
  refine ⟨⟨hm, rfl, fun _ _ => trivial⟩, ⟨hm, rfl, fun _ _ => trivial⟩, ⟨?_, ?_, ?_⟩, ?_, ?_⟩
  · rw [Elt.lt, n1, Out.ok_bind, if_neg (by simp)]
    refine ltLoop_one (late_arb_x fuel) ?_ fuel
    rw [late_arb_y, Out.ok_bind]
    decide +kernel
  · rw [Elt.lt, n2, Out.ok_bind, if_neg (by simp)]
    refine ltLoop_one (late_arb_y fuel) ?_ fuel
    rw [late_arb_x, Out.ok_bind]
    decide +kernel
  · rw [v1, v2]; norm_num
  · rw [Elt.ltQ, if_neg (by decide)]
    exact ltLoop_one (late_arb_y fuel) (by decide +kernel) fuel
  · rw [v2]; norm_num

/-- **C26 is false**: with an arithmetic that meets FLINT's contract there is an element that is not in the ball that `arb` returns for it. -/
theorem elt_arb_fails (fuel : ℕ) : lateX.WF ∧ ∃ b, lateX.arb lateAtoms FlintLike.arith IntegerRing.arb (fuel + 1) 64 = .ok b ∧
    ¬ b.Contains (lateX.real lateAtoms.vals) := by
  have v1 : lateX.real lateAtoms.vals = 3 / 2 + 9 / 2 ^ 68 := by
    simp [Elt.real, Elt.value, Elt.terms, lateX, lateMod, nearQ, num_int, RN.value]
  refine ⟨(elt_lt_fails (build := ⟨true, true⟩) 0).1, _, late_arb_x fuel, ?_⟩
  rw [contains_iff rfl, v1]
  push_cast
  rw [abs_of_neg (by norm_num)]
  norm_num

/-- **C25** for random numbers, exactly: `arb(prec)` contains the number iff the first random digit that `arf(prec)` does not use is zero (or all digits
after it are).  So it misses the number for half of all random numbers. -/
theorem arb_random_contains_iff (atoms : Atoms) {i : ℕ} {d : Digits} (hd : atoms i = .random d) (prec : ℕ) :
    ((RN.atom i).arb atoms prec).Contains ((RN.atom i).real atoms) ↔
      d.digit (d.first + prec + 1) = false ∨ ∀ j, d.first + prec + 1 < j → d.digit j = false := random_contains_iff atoms hd prec

/-! ### The hypotheses can be met -/

/-- The module with generators 1 and a transcendental random number whose balls contain it. -/
def goodMod : Mod IntegerRing := ⟨.mk, [.rat 1, .atom 0]⟩
/-- `3 - 2 a` -/
def goodX : Elt IntegerRing ℤ := ⟨goodMod, [3, -2]⟩
/-- `7 a` -/
def goodY : Elt IntegerRing ℤ := ⟨goodMod, [0, 7]⟩

theorem good_wf : goodX.WF ∧ goodY.WF ∧ goodX.NoZeroGen ∧ goodY.NoZeroGen := by
  have hm : goodMod.WF := by
    have h : Mod.make IntegerRing.mk [.rat 1, .atom 0] = .ok goodMod := by
      simp [Mod.make, Mod.sort, RN.lt, RN.deglex, Mod.check, Mod.compatible, RN.isRat, RN.rational?, goodMod]
    exact (Mod.make_ok (by simp [RN.WF]) h).2.2
  exact ⟨⟨hm, rfl, fun _ _ => trivial⟩, ⟨hm, rfl, fun _ _ => trivial⟩, by simp [Elt.NoZeroGen, goodX, goodMod], by simp [Elt.NoZeroGen, goodY, goodMod]⟩

/-- All hypotheses of `elt_arb_contains`, `elt_lt_exact`, `elt_gt_exact` and `elt_trichotomy` are met by the elements `3 - 2a` and `7a`, and the
comparisons return. -/
theorem good_case [Build] : ∃ (F : Arith) (atoms : Atoms), F.Lawful ∧ CoeffLawful IntegerRing IntegerRing.arb ∧ AlgebraicIndependent ℚ atoms.vals ∧
    goodX.mod.Contained atoms 64 ∧ goodX.mod.ContainedFrom atoms 64 ∧ goodY.mod.ContainedFrom atoms 64 ∧
    ∃ fuel r s t, Elt.lt atoms F IntegerRing.arb fuel goodX goodY = .ok r ∧ goodX.eq goodY = .ok s ∧
      Elt.lt atoms F IntegerRing.arb fuel goodY goodX = .ok t := by
  obtain ⟨atoms, hv, h0⟩ := exists_liouville_atoms
  have hc := liouville_contained atoms h0 IntegerRing.mk 64 (by norm_num) (by norm_num)
  obtain ⟨wx, wy, zx, zy⟩ := good_wf
  have n1 : goodX.eq goodY = .ok false := by rw [Elt.eq, if_neg (by simp [goodX, goodY])]; simp [goodX, goodY]
  have n2 : goodY.eq goodX = .ok false := by rw [Elt.eq, if_neg (by simp [goodX, goodY])]; simp [goodX, goodY]
  obtain ⟨r, N, h1⟩ := (elt_lt_terminates atoms FlintLike.lawful coeffLawful_int hv wx zx).1 goodY wy zy _ n1
  obtain ⟨t, N', h2⟩ := (elt_lt_terminates atoms FlintLike.lawful coeffLawful_int hv wy zy).1 goodX wx zx _ n2
  exact ⟨FlintLike.arith, atoms, FlintLike.lawful, coeffLawful_int, hv, by simpa [goodX, goodMod] using hc 0, hc, hc, max N N', r, _, t, h1 _ (by simp), n1,
    h2 _ (by simp)⟩

end ExactReal.Props
