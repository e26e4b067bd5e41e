import Verif.Props.ElementDouble
import Verif.Props.ElementRound

/-!
# C35, C36: counterexamples, and cases that meet the hypotheses
-/

namespace ExactReal.Props

open Arf Ball

/-- The element `2^-1075 + 2^-1200`. -/
def tiny : Elt RationalField ℚ := ⟨⟨.mk, [.rat 1]⟩, [2 ^ (-1075 : ℤ) + 2 ^ (-1200 : ℤ)]⟩

set_option maxRecDepth 20000 in
/-- **C35 is false** for subnormal rationals, which are rounded twice: `2^-1075 + 2^-1200` is converted to 0 although `2^-1074` is closer. -/
theorem elt_double_subnormal_fails (atoms : Atoms) (F : Arith) (coeff : ℕ → ℚ → Ball) (fuel : ℕ) :
    tiny.toDouble atoms F coeff fuel = .ok (.fin 0) ∧ ¬ Double.IsNearest 0 (tiny.real atoms.vals) := by
  have hr : tiny.rational? = some (2 ^ (-1075 : ℤ) + 2 ^ (-1200 : ℤ)) := by decide +kernel
  constructor
  · rw [Elt.toDouble, hr]
    simp only
    rw [show Double.ofArf (Arf.round .near 53 (2 ^ (-1075 : ℤ) + 2 ^ (-1200 : ℤ))) = .fin 0 by decide +kernel]
  · rw [rational_sound hr]
    intro h
    have h2 := h.2 (2 ^ (-1074 : ℤ)) ⟨Double.isRep_zpow le_rfl, by decide +kernel⟩
    have h3 : |(0 : ℚ) - (2 ^ (-1075 : ℤ) + 2 ^ (-1200 : ℤ))| ≤ |2 ^ (-1074 : ℤ) - (2 ^ (-1075 : ℤ) + 2 ^ (-1200 : ℤ))| := by exact_mod_cast h2
    revert h3
    decide +kernel

/-! ### Numbers close to the middle of two doubles -/

/-- `3/4 - 2^-54 + (2^-57 - 2^-67)` -/
def doubleDigits : Digits := ⟨finiteDigits (3 * 2 ^ 65 - 2 ^ 13 + (2 ^ 10 - 1)) 67, 0, by decide⟩

theorem doubleDigits_value : doubleDigits.value = 3 / 4 - 1 / 2 ^ 54 + (2 ^ 10 - 1) / 2 ^ 67 := by
  rw [value_finite doubleDigits 67 (fun i hi => by simp [doubleDigits, finiteDigits, hi])]
  have : Digits.prefixValue doubleDigits.digit 67 = 3 / 4 - 1 / 2 ^ 54 + (2 ^ 10 - 1) / 2 ^ 67 := by decide +kernel
  rw [this]; push_cast; norm_num

def doubleAtoms : Atoms := fun _ => .random doubleDigits

/-- The rational generator. -/
def doubleQ : ℚ := 17 / 2 + 11 / 2 ^ 53
/-- `17/2 + 11/2^53 - 2a`, slightly below the middle of the doubles `7 + 2^-50` and `7 + 2^-49`. -/
def doubleX : Elt IntegerRing ℤ := ⟨⟨.mk, [.rat doubleQ, .atom 0]⟩, [1, -2]⟩
/-- The same number in a module with one more generator. -/
def doubleY : Elt IntegerRing ℤ := ⟨⟨.mk, [.rat doubleQ, .atom 0, .atom 1]⟩, [1, -2, 0]⟩

theorem double_ball_atom (i prec : ℕ) {a r : ℚ} (h1 : Digits.prefixValue doubleDigits.digit (prec + 1) = a) (h2 : 2 ^ (Arf.logb a - ((prec : ℤ) + 1)) = r) :
    (RN.atom i).arb doubleAtoms prec = ⟨a, some r⟩ := by
  have : (RN.atom i).arf doubleAtoms prec = a := by
    rw [RN.arf_nat]
    show doubleDigits.arf prec = _
    rw [Digits.arf, first_eq_zero _ (by decide), zero_add, h1]
  rw [RN.arb_eq, this, h2]

theorem double_ball_rat (prec : ℕ) {a r : ℚ} (hp : prec ≠ 0) (h1 : Arf.round .near prec doubleQ = a) (h2 : 2 ^ (Arf.logb a - ((prec : ℤ) + 1)) = r) :
    (RN.rat doubleQ).arb doubleAtoms prec = ⟨a, some r⟩ := by
  have : (RN.rat doubleQ).arf doubleAtoms prec = a := by
    rw [RN.arf_nat, RN.arf_, if_neg (by omega), Rat.num_div_den, h1]
  rw [RN.arb_eq, this, h2]

theorem double_sum_x : Elt.arbSum doubleAtoms FlintLike.arith IntegerRing.arb 56 (Ball.exact 0) doubleX.terms = ⟨7 + 13 / 2 ^ 53, some (9 / 2 ^ 57)⟩ := by
  simp only [Elt.terms, doubleX, List.zip_cons_cons, List.zip_nil_right, Elt.arbSum]
  rw [double_ball_atom 0 56 (a := 3 / 4 - 1 / 2 ^ 54) (r := 1 / 2 ^ 58) (by decide +kernel) (by decide +kernel),
    double_ball_rat 56 (a := 17 / 2 + 12 / 2 ^ 53) (r := 1 / 2 ^ 54) (by norm_num) (by decide +kernel) (by decide +kernel)]
  decide +kernel

theorem double_sum_y1 : Elt.arbSum doubleAtoms FlintLike.arith IntegerRing.arb 57 (Ball.exact 0) doubleY.terms = ⟨7 + 3 / 2 ^ 51, some (11 / 2 ^ 58)⟩ := by
  simp only [Elt.terms, doubleY, List.zip_cons_cons, List.zip_nil_right, Elt.arbSum]
  rw [double_ball_atom 0 57 (a := 3 / 4 - 1 / 2 ^ 54 + 1 / 2 ^ 58) (r := 1 / 2 ^ 59) (by decide +kernel) (by decide +kernel),
    double_ball_atom 1 57 (a := 3 / 4 - 1 / 2 ^ 54 + 1 / 2 ^ 58) (r := 1 / 2 ^ 59) (by decide +kernel) (by decide +kernel),
    double_ball_rat 57 (a := 17 / 2 + 11 / 2 ^ 53) (r := 1 / 2 ^ 55) (by norm_num) (by decide +kernel) (by decide +kernel)]
  decide +kernel

theorem double_sum_y2 : Elt.arbSum doubleAtoms FlintLike.arith IntegerRing.arb 112 (Ball.exact 0) doubleY.terms =
    ⟨7 + 97281 / 2 ^ 66, some (9 / 2 ^ 113)⟩ := by
  simp only [Elt.terms, doubleY, List.zip_cons_cons, List.zip_nil_right, Elt.arbSum]
  rw [double_ball_atom 0 112 (a := 3 / 4 - 1 / 2 ^ 54 + (2 ^ 10 - 1) / 2 ^ 67) (r := 1 / 2 ^ 114) (by decide +kernel) (by decide +kernel),
    double_ball_atom 1 112 (a := 3 / 4 - 1 / 2 ^ 54 + (2 ^ 10 - 1) / 2 ^ 67) (r := 1 / 2 ^ 114) (by decide +kernel) (by decide +kernel),
    double_ball_rat 112 (a := 17 / 2 + 11 / 2 ^ 53) (r := 1 / 2 ^ 110) (by norm_num) (by decide +kernel) (by decide +kernel)]
  decide +kernel

theorem double_arb_x (fuel : ℕ) :
    doubleX.arb doubleAtoms FlintLike.arith IntegerRing.arb (fuel + 1) 55 = .ok ⟨7 + 13 / 2 ^ 53, some (9 / 2 ^ 57)⟩ := by
  rw [Elt.arb, if_neg (by decide), show 55 + Nat.clog 2 doubleX.mod.basis.length = 56 by decide, Elt.arbLoop, double_sum_x, if_pos (by decide +kernel)]

theorem double_arb_y1 (fuel : ℕ) :
    doubleY.arb doubleAtoms FlintLike.arith IntegerRing.arb (fuel + 1) 55 = .ok ⟨7 + 3 / 2 ^ 51, some (11 / 2 ^ 58)⟩ := by
  rw [Elt.arb, if_neg (by decide), show 55 + Nat.clog 2 doubleY.mod.basis.length = 57 by decide, Elt.arbLoop, double_sum_y1, if_pos (by decide +kernel)]

theorem double_arb_y2 (fuel : ℕ) :
    doubleY.arb doubleAtoms FlintLike.arith IntegerRing.arb (fuel + 1) 110 = .ok ⟨7 + 97281 / 2 ^ 66, some (9 / 2 ^ 113)⟩ := by
  rw [Elt.arb, if_neg (by decide), show 110 + Nat.clog 2 doubleY.mod.basis.length = 112 by decide, Elt.arbLoop, double_sum_y2, if_pos (by decide +kernel)]

theorem doubleLoop_one {self : ℕ → Out Ball} {prec : ℕ} {a : Ball} {i : ℚ × ℚ} (h1 : self prec = .ok a) (h2 : a.interval = .ok i) (fuel : ℕ) :
    Elt.doubleLoop self (fuel + 1) prec = if Double.ofArf i.1 = Double.ofArf i.2 then .ok (Double.ofArf i.1) else Elt.doubleLoop self fuel (prec * 2) := by
  rw [Elt.doubleLoop, h1, Out.ok_bind, h2, Out.ok_bind]

theorem double_wf : doubleX.WF ∧ doubleY.WF := by
  have hx : doubleX.mod.WF := by
    have h : Mod.make IntegerRing.mk [.rat doubleQ, .atom 0] = .ok doubleX.mod := by
      simp [Mod.make, Mod.sort, RN.lt, RN.deglex, Mod.check, Mod.compatible, RN.isRat, RN.rational?, doubleX, doubleQ]
    exact (Mod.make_ok (by simp [RN.WF]) h).2.2
  have hy : doubleY.mod.WF := by
    have h : Mod.make IntegerRing.mk [.rat doubleQ, .atom 0, .atom 1] = .ok doubleY.mod := by
      simp [Mod.make, Mod.sort, RN.lt, RN.deglex, Mod.check, Mod.compatible, RN.isRat, RN.rational?, doubleY, doubleQ]
    exact (Mod.make_ok (by simp [RN.WF]) h).2.2
  exact ⟨⟨hx, rfl, fun _ _ => trivial⟩, ⟨hy, rfl, fun _ _ => trivial⟩⟩

theorem double_value : doubleX.real doubleAtoms.vals = 7 + 97281 / 2 ^ 66 ∧ doubleY.real doubleAtoms.vals = 7 + 97281 / 2 ^ 66 := by
  have : doubleAtoms.vals 0 = doubleDigits.value := rfl
  constructor
  · simp [Elt.real, Elt.value, Elt.terms, doubleX, RN.value, doubleQ, this, doubleDigits_value]
    norm_num
  · simp [Elt.real, Elt.value, Elt.terms, doubleY, RN.value, doubleQ, this, doubleDigits_value]
    norm_num

theorem double_x (fuel : ℕ) : doubleX.toDouble doubleAtoms FlintLike.arith IntegerRing.arb (fuel + 1) = .ok (.fin (7 + 1 / 2 ^ 49)) := by
  rw [Elt.toDouble, show doubleX.rational? = none by decide +kernel]
  have := doubleLoop_one (self := fun prec => doubleX.arb doubleAtoms FlintLike.arith IntegerRing.arb (fuel + 1) prec)
      (i := (7 + 3 / 2 ^ 51, 7 + 7 / 2 ^ 52)) (double_arb_x fuel) (by decide +kernel) fuel
  simp only [this]
  rw [if_pos (by decide +kernel)]
  decide +kernel

theorem double_y (fuel : ℕ) : doubleY.toDouble doubleAtoms FlintLike.arith IntegerRing.arb (fuel + 2) = .ok (.fin (7 + 1 / 2 ^ 50)) := by
  rw [Elt.toDouble, show doubleY.rational? = none by decide +kernel]
  have := doubleLoop_one (self := fun prec => doubleY.arb doubleAtoms FlintLike.arith IntegerRing.arb (fuel + 2) prec)
      (i := (7 + 11 / 2 ^ 53, 7 + 13 / 2 ^ 53)) (double_arb_y1 (fuel + 1)) (by decide +kernel) (fuel + 1)
  simp only [this]
  rw [if_neg (by decide +kernel)]
  obtain ⟨i, hi, hd, he⟩ : ∃ i, Ball.interval ⟨7 + 97281 / 2 ^ 66, some (9 / 2 ^ 113)⟩ = .ok i ∧ Double.ofArf i.1 = Double.ofArf i.2 ∧
      Double.ofArf i.1 = .fin (7 + 1 / 2 ^ 50) := 
    ⟨(7 + 97281 / 2 ^ 66 - 1 / 2 ^ 108, 7 + 97281 / 2 ^ 66 + 1 / 2 ^ 108), by decide +kernel, by decide +kernel, by decide +kernel⟩
  have := doubleLoop_one (self := fun prec => doubleY.arb doubleAtoms FlintLike.arith IntegerRing.arb (fuel + 2) prec) (prec := 110)
      (double_arb_y2 (fuel + 1)) hi fuel
  simp only [show 55 * 2 = 110 from rfl, this]
  rw [if_pos hd, he]

set_option maxRecDepth 20000 in
/-- **C35 is false** also for irrational and normal values: with an arithmetic that meets FLINT's contract, the element `17/2 + 11/2^53 - 2a` is
converted to the double `7 + 2^-49` although `7 + 2^-50` is closer. -/
theorem elt_double_fails (fuel : ℕ) : doubleX.WF ∧
    doubleX.toDouble doubleAtoms FlintLike.arith IntegerRing.arb (fuel + 1) = .ok (.fin (7 + 1 / 2 ^ 49)) ∧
    ¬ Double.IsNearest (7 + 1 / 2 ^ 49) (doubleX.real doubleAtoms.vals) := by
  refine ⟨double_wf.1, double_x fuel, fun h => ?_⟩
  have h2 := h.2 (7 + 1 / 2 ^ 50) ⟨⟨7 * 2 ^ 50 + 1, -50, by norm_num, by norm_num, by norm_num⟩, by decide +kernel⟩
  rw [double_value.1] at h2
  revert h2
  norm_num [abs_of_pos]

/-- **C36 is false**: the same number in two modules; the elements compare equal but have different hash values, whatever the hash of the doubles
`7 + 2^-49` and `7 + 2^-50` (if these differ). -/
theorem elt_hash_fails [Build] (fuel : ℕ) (hashDouble : Double → UInt64) : doubleX.WF ∧ doubleY.WF ∧ doubleX.eq doubleY = .ok true ∧
    doubleX.hash doubleAtoms FlintLike.arith IntegerRing.arb hashDouble (fuel + 2) = .ok (hashDouble (.fin (7 + 1 / 2 ^ 49))) ∧
    doubleY.hash doubleAtoms FlintLike.arith IntegerRing.arb hashDouble (fuel + 2) = .ok (hashDouble (.fin (7 + 1 / 2 ^ 50))) := by
  refine ⟨double_wf.1, double_wf.2, ?_, ?_, ?_⟩
  · obtain ⟨b, hb⟩ := Elt.eq_isOk (x := doubleX) (y := doubleY) double_wf.1 double_wf.2 (.inr (.inr (by decide)))
      (by intro p q h1 h2; simp [doubleX, doubleY] at h1 h2; rw [h1, h2])
    rcases Elt.eq_of_forall (x := doubleX) (y := doubleY) double_wf.1 double_wf.2 (by simp [Elt.NoZeroGen, doubleX, doubleQ]; norm_num)
      (by simp [Elt.NoZeroGen, doubleY, doubleQ]; norm_num)
      (fun v => by simp [Elt.real, Elt.value, Elt.terms, doubleX, doubleY, RN.value]) with h | h
    · exact h
    · rw [hb] at h; cases h
  · rw [Elt.hash, double_x (fuel + 1)]; rfl
  · rw [Elt.hash, double_y fuel]; rfl

/-! ### The hypotheses can be met -/

/-- `3 a` in the module generated by `a`. -/
def goodD : Elt IntegerRing ℤ := ⟨⟨.mk, [.atom 0]⟩, [3]⟩
/-- `3 a` in the module generated by 1 and `a`. -/
def goodE : Elt IntegerRing ℤ := ⟨goodMod, [0, 3]⟩

theorem goodD_wf : goodD.WF ∧ goodE.WF ∧ goodD.NoZeroGen ∧ goodE.NoZeroGen := by
  have hm : goodD.mod.WF := by
    have h : Mod.make IntegerRing.mk [.atom 0] = .ok goodD.mod := by
      simp [Mod.make, Mod.sort, Mod.check, Mod.compatible, goodD]
    exact (Mod.make_ok (by simp [RN.WF]) h).2.2
  exact ⟨⟨hm, rfl, fun _ _ => trivial⟩, ⟨good_wf.1.mod, rfl, fun _ _ => trivial⟩, by simp [Elt.NoZeroGen, goodD], by simp [Elt.NoZeroGen, goodE, goodMod]⟩

/-- All hypotheses of `elt_double_exact` and `elt_hash_partial` are met by `3 a` in two modules, and the conversion and hashing return. -/
theorem good_double [Build] (hashDouble : Double → UInt64) : ∃ (F : Arith) (atoms : Atoms), F.Lawful ∧ CoeffLawful IntegerRing IntegerRing.arb ∧
    AlgebraicIndependent ℚ atoms.vals ∧ goodD.mod.ContainedFrom atoms 55 ∧ goodE.mod.ContainedFrom atoms 55 ∧ goodD.mod ≠ goodE.mod ∧
    goodD.eq goodE = .ok true ∧ ∃ fuel h, goodD.hash atoms F IntegerRing.arb hashDouble fuel = .ok h ∧ goodE.hash atoms F IntegerRing.arb hashDouble fuel = .ok h := by
  obtain ⟨atoms, hv, h0⟩ := exists_liouville_atoms
  have hc := liouville_contained55 atoms h0 IntegerRing.mk
  obtain ⟨wx, wy, zx, zy⟩ := goodD_wf
  have he : goodD.eq goodE = .ok true := by
    obtain ⟨b, hb⟩ := Elt.eq_isOk (x := goodD) (y := goodE) wx wy (.inr (.inr (by decide)))
      (by intro p q h1 h2; simp [goodD] at h1)
    rcases Elt.eq_of_forall (x := goodD) (y := goodE) wx wy zx zy
      (fun v => by simp [Elt.real, Elt.value, Elt.terms, goodD, goodE, goodMod, RN.value]) with h | h
    · exact h
    · rw [hb] at h; cases h
  obtain ⟨d, N, h1⟩ := elt_double_terminates atoms FlintLike.lawful coeffLawful_int hv wx zx
  obtain ⟨e, N', h2⟩ := elt_double_terminates atoms FlintLike.lawful coeffLawful_int hv wy zy
  have k1 : goodD.hash atoms FlintLike.arith IntegerRing.arb hashDouble (max N N') = .ok (hashDouble d) := by
    rw [Elt.hash, h1 _ (by simp)]; rfl
  have k2 : goodE.hash atoms FlintLike.arith IntegerRing.arb hashDouble (max N N') = .ok (hashDouble e) := by
    rw [Elt.hash, h2 _ (by simp)]; rfl
  have k := elt_hash_partial atoms FlintLike.lawful coeffLawful_int hv hashDouble wx wy zx zy he (.inr ⟨hc.2, hc.1⟩) k1 k2
  exact ⟨FlintLike.arith, atoms, FlintLike.lawful, coeffLawful_int, hv, hc.2, hc.1, by decide, he, _, _, k1, by rw [k2, k]⟩

end ExactReal.Props
