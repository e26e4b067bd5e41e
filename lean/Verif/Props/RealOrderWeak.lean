import Verif.Lemma.NonCrossing
import Verif.Model.DerivedOrder
import Verif.Props.ElementOrderFails
import Verif.Props.RealOrderExact

/-!
# C64: `<` as an order

Sorting and ordered containers need a strict weak order.  Positive answers of `<` are right (for numbers that are not products), and `<` is
irreflexive, asymmetric and transitive.  But negative answers may be wrong, so incomparability is not transitive.
-/

namespace ExactReal.Props

open Arf Ball

variable (atoms : Atoms)

theorem ltRN_first {fuel : ℕ} {x y : RN} {r : Bool} (h : RN.ltRN atoms fuel x y = .ok r) :
    (x = y ∧ r = false) ∨ (x ≠ y ∧ ∃ k, (x.arb atoms (2 * 2 ^ k)).lt (y.arb atoms (2 * 2 ^ k)) = some r ∧
      ∀ j < k, (x.arb atoms (2 * 2 ^ j)).lt (y.arb atoms (2 * 2 ^ j)) = none) := by
  rw [RN.ltRN] at h
  split_ifs at h with he
  · cases h; exact .inl ⟨he, rfl⟩
  · rw [RN.ltLoop_eq_search atoms x y fuel 2 _ _ le_rfl (hasAccuracy_zeroPmInf _) (hasAccuracy_zeroPmInf _)] at h
    obtain ⟨k, h1, h2⟩ := search_first h
    exact .inr ⟨he, k, by simpa using h1, fun j hj => by simpa using h2 j hj⟩

/-- **C64**: positive answers are right: if `x < y` answers `true` and the values differ, then `x` is less than `y`.  (Products excluded.) -/
theorem real_lt_sound {fuel : ℕ} {x y : RN} (hx : ∀ m, x ≠ .prod m) (hy : ∀ m, y ≠ .prod m) (hne : x.real atoms ≠ y.real atoms) :
    (RN.ltRN atoms fuel x y = .ok true → x.real atoms < y.real atoms) ∧
    (RN.gtRN atoms fuel x y = .ok true → x.real atoms > y.real atoms) ∧
    (RN.leRN atoms fuel x y = .ok false → ¬ x.real atoms ≤ y.real atoms) ∧
    (RN.geRN atoms fuel x y = .ok false → ¬ x.real atoms ≥ y.real atoms) := by
  have key : ∀ {x y : RN}, (∀ m, x ≠ .prod m) → (∀ m, y ≠ .prod m) → x.real atoms ≠ y.real atoms → RN.ltRN atoms fuel x y = .ok true →
      x.real atoms < y.real atoms := by
    intro x y hx hy hne h
    rcases ltRN_ok atoms h with ⟨-, h⟩ | ⟨-, prec, hp, h⟩
    · cases h
    · exact lt_of_le_of_ne (RN.le_of_balls atoms hx hy (by omega) h) hne
  have hnot : ∀ {r : Out Bool}, r.not = .ok false → r = .ok true := by
    intro r h
    obtain ⟨b, h1, h2⟩ := Out.bind_eq_ok.1 h
    cases b with
    | true => exact h1
    | false => cases h2
  exact ⟨key hx hy hne, key hy hx hne.symm, fun h => not_le.2 (key hy hx hne.symm (hnot h)), fun h => not_le.2 (key hx hy hne (hnot h))⟩

theorem ball_lt_asymm {a b r s : ℚ} (hr : 0 ≤ r) (hs : 0 ≤ s) (h : (⟨a, some r⟩ : Ball).lt ⟨b, some s⟩ = some true) :
    (⟨b, some s⟩ : Ball).lt ⟨a, some r⟩ = some false := by
  have h1 := (ball_lt_finite h).1 rfl
  unfold Ball.lt
  simp only [allLt, allLe, decide_eq_true_eq]
  rw [if_neg (by linarith), if_pos h1.le]

/-- **C64**: irreflexive and asymmetric, for all real numbers: `x < x` is `false`, and `x < y` and `y < x` are never both `true`. -/
theorem real_lt_asymm {fuel fuel' : ℕ} (x y : RN) :
    RN.ltRN atoms fuel x x = .ok false ∧ ¬ (RN.ltRN atoms fuel x y = .ok true ∧ RN.ltRN atoms fuel' y x = .ok true) := by
  refine ⟨by rw [RN.ltRN, if_pos rfl], ?_⟩
  rintro ⟨h1, h2⟩
  rcases ltRN_first atoms h1 with ⟨-, h⟩ | ⟨-, k, a1, a2⟩
  · cases h
  rcases ltRN_first atoms h2 with ⟨-, h⟩ | ⟨-, l, b1, b2⟩
  · cases h
  have asym : ∀ {x y : RN} {p : ℕ}, (x.arb atoms p).lt (y.arb atoms p) = some true → (y.arb atoms p).lt (x.arb atoms p) = some false := by
    intro x y p h
    rw [RN.arb_eq, RN.arb_eq] at h ⊢
    exact ball_lt_asymm (two_zpow_pos _).le (two_zpow_pos _).le h
  rcases lt_trichotomy k l with h | rfl | h
  · have := b2 k h
    rw [asym a1] at this; cases this
  · rw [asym a1] at b1; cases b1
  · have := a2 l h
    rw [asym b1] at this; cases this

/-- The approximation of a number that is itself a floating point number with at most `prec` digits does not exceed it. -/
theorem arf_le_of_eq {x : RN} (hx : ∀ m, x ≠ .prod m) {prec : ℕ} (hp : 1 ≤ prec) {z : ℚ} (hz : Rep prec z) (h : x.real atoms ≤ z) :
    x.arf atoms prec ≤ z := by
  rw [RN.arf_nat]
  cases x with
  | prod m => exact absurd rfl (hx m)
  | rat q =>
    rw [RN.arf_, if_neg (by omega), Rat.num_div_den]
    rw [RN.real_rat] at h
    exact round_le .near hp hz (by exact_mod_cast h)
  | atom i =>
    rw [RN.arf_]
    rw [RN.real_atom] at h
    exact (atoms i).arf_le_of_le (by omega) hz h

/-- **C64**: transitive: if `x < y` and `y < z` answer `true`, then so does `x < z`. (Products excluded; the values are different.)
Missing: products, and that numbers not related by `<` are equal, which is false (`real_lt_not_weak`). -/
theorem real_lt_trans_partial {f₁ f₂ f₃ : ℕ} {x y z : RN} (hx : ∀ m, x ≠ .prod m) (hy : ∀ m, y ≠ .prod m) (hz : ∀ m, z ≠ .prod m)
    (hxy : x.real atoms ≠ y.real atoms) (hyz : y.real atoms ≠ z.real atoms)
    (h1 : RN.ltRN atoms f₁ x y = .ok true) (h2 : RN.ltRN atoms f₂ y z = .ok true) {r : Bool} (h3 : RN.ltRN atoms f₃ x z = .ok r) : r = true := by
  have vxy := (real_lt_sound atoms hx hy hxy).1 h1
  have vyz := (real_lt_sound atoms hy hz hyz).1 h2
  have vxz := vxy.trans vyz
  rcases ltRN_first atoms h1 with ⟨-, h⟩ | ⟨-, k1, a1, a2⟩
  · cases h
  rcases ltRN_first atoms h2 with ⟨-, h⟩ | ⟨-, k2, b1, b2⟩
  · cases h
  rcases ltRN_first atoms h3 with ⟨rfl, h⟩ | ⟨-, k, c1, c2⟩
  · exact absurd vxz (lt_irrefl _)
  cases r with
  | true => rfl
  | false =>
  exfalso
  have hp : 1 ≤ 2 * 2 ^ k := (prec_ge k).trans' (by norm_num)
  have hlevel : ∀ {j : ℕ}, j < k → 2 * 2 ^ j + 1 ≤ 2 * 2 ^ k := by
    intro j hj
    have := Nat.pow_le_pow_right (show 0 < 2 by norm_num) (show j + 1 ≤ k from hj)
    rw [pow_succ] at this
    have := Nat.one_le_two_pow (n := j)
    omega
  set p := 2 * 2 ^ k with hpd
  have gx := RN.rep_arf_succ atoms hx hp
  have gy := RN.rep_arf_succ atoms hy hp
  have gz := RN.rep_arf_succ atoms hz hp
  have hgh : z.arf atoms p < x.arf atoms p := by
    rw [RN.arb_eq, RN.arb_eq] at c1
    have := (ball_lt_finite c1).2 rfl
    linarith [two_zpow_pos (logb (x.arf atoms p) - ((p : ℤ) + 1)), two_zpow_pos (logb (z.arf atoms p) - ((p : ℤ) + 1))]
  -- nothing between the midpoints
  have gap : ∀ a, Rep (p + 1) a → z.arf atoms p < a → x.arf atoms p ≤ a := by
    intro a ha hza
    by_contra hc
    rw [not_le] at hc
    have s1 : z.real atoms ≤ a := not_lt.1 fun h => absurd ((RN.arf_side_succ atoms hz hp ha).1 h) (not_le.2 hza)
    have s2 : (a : ℝ) ≤ x.real atoms := not_lt.1 fun h => absurd ((RN.arf_side_succ atoms hx hp ha).2 h) (not_le.2 hc)
    linarith
  have lo : ((z.arf atoms p : ℚ) : ℝ) ≤ x.real atoms := not_lt.1 fun h => absurd ((RN.arf_side_succ atoms hx hp gz).2 h) (not_le.2 hgh)
  have hi : z.real atoms ≤ (x.arf atoms p : ℚ) := not_lt.1 fun h => absurd ((RN.arf_side_succ atoms hz hp gx).1 h) (not_le.2 hgh)
  have y1 := (RN.arf_side_succ atoms hy hp gz).1 (by linarith)
  have y2 := (RN.arf_side_succ atoms hy hp gx).2 (by linarith)
  -- the midpoint of `y` is one of the midpoints of `x` and `z`
  have between : ∀ {u v : RN} {j : ℕ}, (∀ m, u ≠ .prod m) → (∀ m, v ≠ .prod m) → (u.arb atoms (2 * 2 ^ j)).lt (v.arb atoms (2 * 2 ^ j)) = some true →
      ∃ a, Rep (2 * 2 ^ j + 1) a ∧ u.arf atoms ((2 * 2 ^ j : ℕ) : ℤ) < a ∧ a < v.arf atoms ((2 * 2 ^ j : ℕ) : ℤ) ∧ u.real atoms ≤ a ∧ (a : ℝ) ≤ v.real atoms := by
    intro u v j hu hv h
    have hj := prec_ge j
    set q := 2 * 2 ^ j
    rw [RN.arb_eq, RN.arb_eq] at h
    obtain ⟨a, ha, h1, h2⟩ := exists_between_balls (RN.rep_arf_succ atoms hu (by omega)) (RN.rep_arf_succ atoms hv (by omega)) ((ball_lt_finite h).1 rfl)
    exact ⟨a, ha, h1, h2, not_lt.1 fun h => absurd ((RN.arf_side_succ atoms hu (by omega) ha).1 h) (not_le.2 h1),
      not_lt.1 fun h => absurd ((RN.arf_side_succ atoms hv (by omega) ha).2 h) (not_le.2 h2)⟩
  rcases y1.eq_or_lt with he | hlt
  · -- `y` looks like `z`: so `x < y` was decided before
    have hb : y.arb atoms p = z.arb atoms p := by rw [RN.arb_eq, RN.arb_eq, he]
    have hk : k1 < k := by
      rcases lt_trichotomy k1 k with h | rfl | h
      · exact h
      · rw [← hpd, hb, c1] at a1; cases a1
      · have := a2 k h
        rw [← hpd, hb, c1] at this; cases this
    obtain ⟨a, ha, -, -, hxa, hay⟩ := between hx hy a1
    have hza : a ≤ z.arf atoms p := by
      by_contra hc
      have := gap a (ha.mono (by have := hlevel hk; omega)) (not_le.1 hc)
      have : ((x.arf atoms p : ℚ) : ℝ) ≤ a := by exact_mod_cast this
      linarith
    have := arf_le_of_eq atoms hx hp (ha.mono (hlevel hk)) hxa
    exact absurd (this.trans hza) (not_le.2 hgh)
  · -- `y` looks like `x`: so `y < z` was decided before
    have he : y.arf atoms p = x.arf atoms p := le_antisymm y2 (gap _ gy hlt)
    have hb : y.arb atoms p = x.arb atoms p := by rw [RN.arb_eq, RN.arb_eq, he]
    have hk : k2 < k := by
      rcases lt_trichotomy k2 k with h | rfl | h
      · exact h
      · rw [← hpd, hb, c1] at b1; cases b1
      · have := b2 k h
        rw [← hpd, hb, c1] at this; cases this
    obtain ⟨a, ha, -, haz, hya, hza⟩ := between hy hz b1
    have hxa : x.arf atoms p ≤ a := by
      refine gap a (ha.mono (by have := hlevel hk; omega)) ?_
      have : ((z.arf atoms p : ℚ) : ℝ) < a := by linarith
      exact_mod_cast this
    have hax : (x.arf atoms p : ℚ) = a := le_antisymm hxa (by
      have : (a : ℝ) ≤ (x.arf atoms p : ℚ) := hza.trans hi
      exact_mod_cast this)
    rw [hax] at hi hgh
    cases z with
    | prod m => exact absurd rfl (hz m)
    | rat q =>
      rw [RN.real_rat] at hi hza
      have hq : q = a := le_antisymm (by exact_mod_cast hi) (by exact_mod_cast hza)
      rw [RN.arf_nat, RN.arf_, if_neg (by omega), Rat.num_div_den, hq, round_eq_self .near hp (ha.mono (hlevel hk))] at hgh
      exact absurd hgh (lt_irrefl _)
    | atom i =>
      rw [RN.real_atom] at hi
      rw [RN.arf_nat, RN.arf_] at haz
      exact absurd ((atoms i).arf_le_of_le le_rfl ha hi) (not_le.2 haz)

/-! ### counterexamples -/

theorem ltRN_two {x y : RN} {r : Bool} (hne : x ≠ y) (h1 : (x.arb atoms 2).lt (y.arb atoms 2) = none)
    (h2 : (x.arb atoms 4).lt (y.arb atoms 4) = some r) (fuel : ℕ) : RN.ltRN atoms (fuel + 2) x y = .ok r := by
  rw [RN.ltRN, if_neg hne, RN.ltLoop_eq_search atoms x y _ 2 _ _ le_rfl (hasAccuracy_zeroPmInf _)
    (hasAccuracy_zeroPmInf _), search, h1]
  simp only
  rw [search, h2]

theorem arb_four {x : RN} {a : ℚ} (h : x.arf atoms (4 : ℕ) = a) : x.arb atoms 4 = ⟨a, some (2 ^ (Arf.logb a - 5))⟩ := by
  rw [RN.arb_eq, h]
  norm_num

/-- A random number with value `0.101111`. -/
def weakAtoms : Atoms := fun _ => .random fiveOnes

theorem weak_atom (prec : ℕ) : (RN.atom 0).arf weakAtoms prec = Digits.prefixValue fiveOnes.digit (prec + 1) := by
  rw [RN.arf_nat]
  show fiveOnes.arf prec = _
  rw [Digits.arf, first_eq_zero _ (by decide), Nat.zero_add]

theorem weak_balls : (RN.atom 0).arb weakAtoms 2 = ⟨5 / 8, some (1 / 16)⟩ ∧ (RN.atom 0).arb weakAtoms 4 = ⟨23 / 32, some (1 / 64)⟩ ∧
    (RN.rat (21 / 32)).arb weakAtoms 2 = ⟨3 / 4, some (1 / 16)⟩ ∧ (RN.rat (21 / 32)).arb weakAtoms 4 = ⟨5 / 8, some (1 / 64)⟩ ∧
    (RN.rat (11 / 16)).arb weakAtoms 2 = ⟨3 / 4, some (1 / 16)⟩ ∧ (RN.rat (11 / 16)).arb weakAtoms 4 = ⟨11 / 16, some (1 / 64)⟩ := by
  refine ⟨?_, ?_, ?_, ?_, ?_, ?_⟩
  · rw [arb_two _ (a := 5 / 8) (by rw [weak_atom]; decide +kernel)]; decide +kernel
  · rw [arb_four _ (a := 23 / 32) (by rw [weak_atom]; decide +kernel)]; decide +kernel
  · rw [arb_two _ (a := 3 / 4) (by rw [RN.arf_nat, RN.arf_, if_neg (by norm_num)]; decide +kernel)]; decide +kernel
  · rw [arb_four _ (a := 5 / 8) (by rw [RN.arf_nat, RN.arf_, if_neg (by norm_num)]; decide +kernel)]; decide +kernel
  · rw [arb_two _ (a := 3 / 4) (by rw [RN.arf_nat, RN.arf_, if_neg (by norm_num)]; decide +kernel)]; decide +kernel
  · rw [arb_four _ (a := 11 / 16) (by rw [RN.arf_nat, RN.arf_, if_neg (by norm_num)]; decide +kernel)]; decide +kernel

/-- **C64 is false**: for the random number `y = 0.101111` and the rationals `21/32` and `11/16`, which are both smaller than `y`, neither `x < y`
nor `y < x` holds although the values differ; so `y` is equivalent to both, but they are not equivalent to each other. -/
theorem real_lt_not_weak (fuel : ℕ) :
    (RN.ltRN weakAtoms (fuel + 2) (.rat (21 / 32)) (.atom 0) = .ok false ∧ RN.ltRN weakAtoms (fuel + 2) (.atom 0) (.rat (21 / 32)) = .ok false) ∧
    (RN.ltRN weakAtoms (fuel + 2) (.rat (11 / 16)) (.atom 0) = .ok false ∧ RN.ltRN weakAtoms (fuel + 2) (.atom 0) (.rat (11 / 16)) = .ok false) ∧
    RN.ltRN weakAtoms (fuel + 2) (.rat (21 / 32)) (.rat (11 / 16)) = .ok true ∧
    (RN.rat (11 / 16)).real weakAtoms < (RN.atom 0).real weakAtoms := by
  obtain ⟨y2, y4, x2, x4, z2, z4⟩ := weak_balls
  refine ⟨⟨ltRN_one _ (by simp) (by rw [x2, y2]; decide +kernel) _, ltRN_two _ (by simp) (by rw [x2, y2]; decide +kernel) (by rw [x4, y4]; decide +kernel) _⟩,
    ⟨ltRN_one _ (by simp) (by rw [z2, y2]; decide +kernel) _, ltRN_two _ (by simp) (by rw [z2, y2]; decide +kernel) (by rw [z4, y4]; decide +kernel) _⟩,
    ltRN_two _ (by rw [ne_eq, RN.rat.injEq]; norm_num) (by rw [x2, z2]; decide +kernel) (by rw [x4, z4]; decide +kernel) _, ?_⟩
  rw [RN.real_rat, RN.real_atom]
  show _ < fiveOnes.value
  rw [fiveOnes_value]; norm_num

/-- So `x <= y`, `x >= y` are both `true` and `x < y`, `x > y`, are both `false` for numbers that differ. -/
theorem real_le_not_antisymm (fuel : ℕ) :
    RN.leRN weakAtoms (fuel + 2) (.rat (21 / 32)) (.atom 0) = .ok true ∧ RN.geRN weakAtoms (fuel + 2) (.rat (21 / 32)) (.atom 0) = .ok true ∧
    RN.gtRN weakAtoms (fuel + 2) (.rat (21 / 32)) (.atom 0) = .ok false ∧ (RN.rat (21 / 32)) ≠ RN.atom 0 ∧
    (RN.rat (21 / 32)).real weakAtoms < (RN.atom 0).real weakAtoms := by
  obtain ⟨⟨h1, h2⟩, -⟩ := real_lt_not_weak fuel
  refine ⟨by rw [RN.leRN, h2]; rfl, by rw [RN.geRN, h1]; rfl, by rw [RN.gtRN, h2], by simp, ?_⟩
  rw [RN.real_rat, RN.real_atom]
  show _ < fiveOnes.value
  rw [fiveOnes_value]; norm_num

/-- The hypotheses of `real_lt_trans_partial` are met: `1/4 < 1/2 < 0.101111`. -/
example (fuel : ℕ) : RN.ltRN weakAtoms (fuel + 1) (.rat (1 / 4)) (.rat (1 / 2)) = .ok true ∧
    RN.ltRN weakAtoms (fuel + 2) (.rat (1 / 2)) (.atom 0) = .ok true := by
  obtain ⟨y2, y4, -⟩ := weak_balls
  have h2 : (RN.rat (1 / 2)).arb weakAtoms 2 = ⟨1 / 2, some (1 / 16)⟩ := by
    rw [arb_two _ (a := 1 / 2) (by rw [RN.arf_nat, RN.arf_, if_neg (by norm_num)]; decide +kernel)]; decide +kernel
  have h4 : (RN.rat (1 / 2)).arb weakAtoms 4 = ⟨1 / 2, some (1 / 64)⟩ := by
    rw [arb_four _ (a := 1 / 2) (by rw [RN.arf_nat, RN.arf_, if_neg (by norm_num)]; decide +kernel)]; decide +kernel
  have q2 : (RN.rat (1 / 4)).arb weakAtoms 2 = ⟨1 / 4, some (1 / 32)⟩ := by
    rw [arb_two _ (a := 1 / 4) (by rw [RN.arf_nat, RN.arf_, if_neg (by norm_num)]; decide +kernel)]; decide +kernel
  exact ⟨ltRN_one _ (by simp) (by rw [h2, q2]; decide +kernel) _, ltRN_two _ (by simp) (by rw [h2, y2]; decide +kernel) (by rw [h4, y4]; decide +kernel) _⟩

/-! ### elements -/

variable {P : Type} [DecidableEq P] {R : Type} [CommRing R] [DecidableEq R] [CRing P R] [LawfulCRing P] {F : Arith} {coeff : ℕ → R → Ball} [build : Build]

/-- **C64** for elements: irreflexive and asymmetric, whatever the generators. -/
theorem elt_lt_asymm (hF : F.Lawful) (hco : CoeffLawful P coeff) {fuel : ℕ} {x y : Elt P R} (hx : x.WF) (hy : y.WF) :
    ¬ (Elt.lt atoms F coeff fuel x y = .ok true ∧ Elt.lt atoms F coeff fuel y x = .ok true) := by
  rintro ⟨h1, h2⟩
  have radius : ∀ {x : Elt P R} {k : ℕ} {a : Ball}, x.WF → x.arb atoms F coeff fuel (64 * 2 ^ k) = .ok a → ∃ r : ℚ, a.rad = some r ∧ 0 ≤ r := by
    intro x k a hx h
    obtain ⟨-, r, h1, h2, -⟩ := elt_arb_partial atoms hF hco hx (by have := le_start 64 k; omega) h
    exact ⟨r, h1, h2⟩
  have first : ∀ {x y : Elt P R}, Elt.lt atoms F coeff fuel x y = .ok true → ∃ k a b, x.arb atoms F coeff fuel (64 * 2 ^ k) = .ok a ∧
      y.arb atoms F coeff fuel (64 * 2 ^ k) = .ok b ∧ a.lt b = some true ∧ ∀ j < k, ∃ a b, x.arb atoms F coeff fuel (64 * 2 ^ j) = .ok a ∧
      y.arb atoms F coeff fuel (64 * 2 ^ j) = .ok b ∧ a.lt b = none := by
    intro x y h
    rw [Elt.lt] at h
    obtain ⟨e, -, h2⟩ := Out.bind_eq_ok.1 h
    cases e with
    | true => rw [if_pos rfl] at h2; cases h2
    | false =>
      rw [if_neg (by simp), Elt.ltLoop_eq_search] at h2
      obtain ⟨k, h3, h4⟩ := search_first h2
      obtain ⟨a, k1, k2⟩ := Out.bind_eq_ok.1 h3
      obtain ⟨b, k3, k4⟩ := Out.bind_eq_ok.1 k2
      refine ⟨k, a, b, k1, k3, by simpa using k4, fun j hj => ?_⟩
      obtain ⟨a, k1, k2⟩ := Out.bind_eq_ok.1 (h4 j hj)
      obtain ⟨b, k3, k4⟩ := Out.bind_eq_ok.1 k2
      exact ⟨a, b, k1, k3, by simpa using k4⟩
  have asym : ∀ {x y : Elt P R} {k : ℕ} {a b : Ball}, x.WF → y.WF → x.arb atoms F coeff fuel (64 * 2 ^ k) = .ok a →
      y.arb atoms F coeff fuel (64 * 2 ^ k) = .ok b → a.lt b = some true → b.lt a = some false := by
    intro x y k a b hx hy ha hb h
    obtain ⟨r, h1, h2⟩ := radius hx ha
    obtain ⟨s, h3, h4⟩ := radius hy hb
    obtain ⟨a, r'⟩ := a
    obtain ⟨b, s'⟩ := b
    simp only at h1 h3
    subst h1; subst h3
    exact ball_lt_asymm h2 h4 h
  obtain ⟨k, a, b, k1, k2, k3, k4⟩ := first h1
  obtain ⟨l, c, d, l1, l2, l3, l4⟩ := first h2
  rcases lt_trichotomy k l with h | rfl | h
  · obtain ⟨b', a', e1, e2, e3⟩ := l4 k h
    rw [k2] at e1; rw [k1] at e2
    cases e1; cases e2
    rw [asym hx hy k1 k2 k3] at e3; cases e3
  · rw [k2] at l1; rw [k1] at l2
    cases l1; cases l2
    rw [asym hx hy k1 k2 k3] at l3; cases l3
  · obtain ⟨a', b', e1, e2, e3⟩ := k4 l h
    rw [l2] at e1; rw [l1] at e2
    cases e1; cases e2
    rw [asym hy hx l1 l2 l3] at e3; cases e3

omit build in
theorem out_not {r : Out Bool} {b : Bool} (h : r.not = .ok b) : r = .ok !b := by
  obtain ⟨c, h1, h2⟩ := Out.bind_eq_ok.1 h
  cases h2
  rw [h1, Bool.not_not]

omit build in
theorem not_iff {r : Bool} {p : Prop} (h : (!r) = true ↔ p) : r = true ↔ ¬ p := by
  rw [← h]; cases r <;> simp

/-- **C22** for the derived operators: if the balls of the generators contain the generators, then `>`, `<=`, `>=` of two elements, whenever they
return, are right, and so is `>=` against rationals and integers. -/
theorem elt_derived_exact (hF : F.Lawful) (hco : CoeffLawful P coeff) {fuel : ℕ} {x : Elt P R} (hx : x.WF) (gx : x.mod.ContainedFrom atoms 64) {r : Bool} :
    (∀ y : Elt P R, y.WF → y.mod.ContainedFrom atoms 64 →
      (Elt.gt atoms F coeff fuel x y = .ok r → (r = true ↔ x.real atoms.vals > y.real atoms.vals)) ∧
      (Elt.le atoms F coeff fuel x y = .ok r → (r = true ↔ x.real atoms.vals ≤ y.real atoms.vals)) ∧
      (Elt.ge atoms F coeff fuel x y = .ok r → (r = true ↔ x.real atoms.vals ≥ y.real atoms.vals))) ∧
    (∀ q : ℚ, Elt.geQ atoms F coeff fuel x q = .ok r → (r = true ↔ x.real atoms.vals ≥ q)) ∧
    (∀ n : ℤ, Elt.geZ atoms F coeff fuel x n = .ok r → (r = true ↔ x.real atoms.vals ≥ n)) := by
  have hlt := fun b => elt_lt_exact atoms hF hco (fuel := fuel) hx gx (r := b)
  refine ⟨fun y hy gy => ⟨fun h => ?_, fun h => ?_, fun h => ?_⟩, fun q h => ?_, fun n h => ?_⟩
  · rw [Elt.gt] at h; exact (elt_lt_exact atoms hF hco hy gy).1 x hx gx h
  · have := not_iff ((elt_lt_exact atoms hF hco hy gy).1 x hx gx (out_not h))
    rwa [not_lt] at this
  · have := not_iff ((hlt _).1 y hy gy (out_not h))
    rwa [not_lt] at this
  · have := not_iff ((hlt _).2.2.1 q (out_not h))
    rwa [not_lt] at this
  · have := not_iff ((hlt _).2.2.2 n (out_not h))
    rwa [not_lt] at this

/-- **C22** for `<=` against rationals and integers, which is `!(x > q)`. -/
theorem elt_le_exact (hF : F.Lawful) (hco : CoeffLawful P coeff) (hv : AlgebraicIndependent ℚ atoms.vals) {fuel : ℕ} {x : Elt P R} (hx : x.WF)
    (zx : x.NoZeroGen) (gx : x.mod.ContainedFrom atoms 64) {r : Bool} :
    (∀ q : ℚ, Elt.leQ atoms F coeff fuel x q = .ok r → (r = true ↔ x.real atoms.vals ≤ q)) ∧
    (∀ n : ℤ, Elt.leZ atoms F coeff fuel x n = .ok r → (r = true ↔ x.real atoms.vals ≤ n)) := by
  refine ⟨fun q h => ?_, fun n h => ?_⟩
  · have := not_iff ((elt_gt_exact atoms hF hco hv hx zx gx).2.1 q (out_not h))
    rwa [not_lt] at this
  · have := not_iff ((elt_gt_exact atoms hF hco hv hx zx gx).2.2 n (out_not h))
    rwa [not_lt] at this

omit build in
/-- **C23** for the derived operators and two rationals. -/
theorem real_derived_rational {fuel : ℕ} {p q : ℚ} {r : Bool} :
    (RN.gtRN atoms fuel (.rat p) (.rat q) = .ok r → (r = true ↔ p > q)) ∧
    (RN.leRN atoms fuel (.rat p) (.rat q) = .ok r → (r = true ↔ p ≤ q)) ∧
    (RN.geRN atoms fuel (.rat p) (.rat q) = .ok r → (r = true ↔ p ≥ q)) := by
  refine ⟨fun h => real_lt_rational atoms h, fun h => ?_, fun h => ?_⟩
  · have := not_iff (real_lt_rational atoms (out_not h))
    rwa [not_lt] at this
  · have := not_iff (real_lt_rational atoms (out_not h))
    rwa [not_lt] at this

omit build in
/-- **C23**: a rational real number is compared with an `mpq_class` exactly, by all operators. -/
theorem real_derived_mpq {F : Arith} {fuel : ℕ} {p q : ℚ} :
    RN.ltQ atoms F fuel (.rat p) q = .ok (p < q) ∧ RN.gtQ atoms F fuel (.rat p) q = .ok (p > q) ∧
    RN.leQ atoms F fuel (.rat p) q = .ok (p ≤ q) ∧ RN.geQ atoms F fuel (.rat p) q = .ok (p ≥ q) := by
  refine ⟨rfl, rfl, ?_, ?_⟩
  · show Out.ok (!decide (q < p)) = _
    rw [← decide_not]; simp
  · show Out.ok (!decide (p < q)) = _
    rw [← decide_not]; simp

end ExactReal.Props
