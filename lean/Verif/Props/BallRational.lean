import Verif.Model.BallRational
import Verif.Props.BallSpecial

/-! # C29 for balls with infinities and NaN -/

namespace ExactReal.Props
open XBall

namespace BallRationalLemma

theorem ereal_mul {d : ℝ} (hd : 0 < d) (x : EReal) (q : ℝ) :
    (x * (d : EReal) < ((q * d : ℝ) : EReal) ↔ x < (q : EReal)) ∧ (((q * d : ℝ) : EReal) < x * (d : EReal) ↔ (q : EReal) < x) := by
  induction x using EReal.rec with
  | bot => rw [EReal.bot_mul_coe_of_pos hd]; exact ⟨by simp only [EReal.bot_lt_coe], by simp⟩
  | top => rw [EReal.top_mul_coe_of_pos hd]; exact ⟨by simp, by simp only [EReal.coe_lt_top]⟩
  | coe x =>
    rw [← EReal.coe_mul, EReal.coe_lt_coe_iff, EReal.coe_lt_coe_iff, EReal.coe_lt_coe_iff, EReal.coe_lt_coe_iff]
    exact ⟨mul_lt_mul_iff_left₀ hd, mul_lt_mul_iff_left₀ hd⟩

theorem scaled_points {mag : ℚ → ℚ} (hm : ∀ r, r ≤ mag r) {a : XBall} {x : EReal} (hx : x ∈ a.points) (q : ℚ) :
    x * ((q.den : ℝ) : EReal) ∈ (a.scaled mag q).points := by
  have hd : (0 : ℝ) < q.den := by exact_mod_cast q.den_pos
  obtain ⟨m, r⟩ := a
  cases m with
  | nan => simp [XBall.points, scaled, mulMid]
  | posInf =>
    cases r with
    | none => simp [XBall.points, scaled, mulMid]
    | some r =>
      simp only [XBall.points, Set.mem_setOf_eq] at hx
      subst hx
      exact EReal.top_mul_coe_of_pos hd
  | negInf =>
    cases r with
    | none => simp [XBall.points, scaled, mulMid]
    | some r =>
      simp only [XBall.points, Set.mem_setOf_eq] at hx
      subst hx
      exact EReal.bot_mul_coe_of_pos hd
  | fin m =>
    cases r with
    | none => simp [XBall.points, scaled, mulMid]
    | some r =>
      obtain ⟨y, rfl, hy⟩ := hx
      refine ⟨y * q.den, (EReal.coe_mul _ _).symm, ?_⟩
      have h1 : ((r * q.den : ℚ) : ℝ) ≤ (mag (r * q.den) : ℝ) := by exact_mod_cast hm _
      push_cast at h1 ⊢
      rw [← sub_mul, abs_mul, abs_of_pos hd]
      exact (mul_le_mul_of_nonneg_right hy hd.le).trans h1

theorem mpz_points (n : ℤ) : (ofMpz n).points = {((n : ℝ) : EReal)} := by
  ext x
  simp only [XBall.points, ofMpz, Set.mem_setOf_eq, Set.mem_singleton_iff]
  constructor
  · rintro ⟨y, rfl, hy⟩
    simp only [Rat.cast_zero, abs_nonpos_iff, sub_eq_zero] at hy
    rw [hy]; simp
  · rintro rfl; exact ⟨n, rfl, by simp⟩

theorem num_eq (q : ℚ) : ((q.num : ℝ)) = (q : ℝ) * q.den := by
  have : (q : ℚ) * q.den = q.num := Rat.mul_den_eq_num q
  exact_mod_cast this.symm

theorem scaled_wf {mag : ℚ → ℚ} (hm : ∀ r, r ≤ mag r) {a : XBall} (ha : a.WF) (q : ℚ) : (a.scaled mag q).WF := by
  intro r hr
  simp only [scaled, Option.mem_def, Option.map_eq_some_iff] at hr
  obtain ⟨s, hs, rfl⟩ := hr
  exact (mul_nonneg (ha s hs) (by exact_mod_cast q.den_pos.le)).trans (hm _)

theorem mid_nan {a : XBall} (mag : ℚ → ℚ) (q : ℚ) : (a.scaled mag q).mid = .nan ↔ a.mid = .nan := by
  obtain ⟨m, r⟩ := a
  cases m <;> simp [scaled, mulMid]

end BallRationalLemma
open BallRationalLemma

/-- **C29** for all balls, including those with infinite or indeterminate midpoint or radius: when one of `<`, `>`, `<=`, `>=`, `==` between a ball and a rational
number gives an answer, it is right for every point of the ball.  `mag` is any way of rounding radii up. -/
theorem xball_rational_partial {mag : ℚ → ℚ} (hm : ∀ r, r ≤ mag r) {a : XBall} (ha : a.WF) (q : ℚ) (r : Bool) (x : EReal) (hx : x ∈ a.points) :
    (cmpQ mag lt a q = some r → (r = true ↔ x < ((q : ℝ) : EReal))) ∧ (cmpQ mag gt a q = some r → (r = true ↔ x > ((q : ℝ) : EReal))) ∧
    (cmpQ mag le a q = some r → (r = true ↔ x ≤ ((q : ℝ) : EReal))) ∧ (cmpQ mag ge a q = some r → (r = true ↔ x ≥ ((q : ℝ) : EReal))) ∧
    (cmpQ mag eq a q = some r → (r = true ↔ x = ((q : ℝ) : EReal))) := by
  have hd : (0 : ℝ) < q.den := by exact_mod_cast q.den_pos
  by_cases na : (a.scaled mag q).mid = .nan
  · obtain ⟨c1, c2, c3, c4, c5, -⟩ := xball_compare_nan (a := a.scaled mag q) (b := ofMpz q.num) (.inl na)
    simp only [cmpQ, c1, c2, c3, c4, c5]
    simp
  obtain ⟨c1, c2, c3, c4, c5, -⟩ := xball_compare (scaled_wf hm ha q) (b := ofMpz q.num) (by simp [XBall.WF, ofMpz]) na (by simp [ofMpz])
  have hp := scaled_points hm hx q
  have hn : ((q.num : ℝ) : EReal) ∈ (ofMpz q.num).points := by rw [mpz_points]; rfl
  have key : ∀ {R : EReal → EReal → Prop} {o : Option Bool}, Answers o R (a.scaled mag q) (ofMpz q.num) → o = some r →
      (r = true ↔ R (x * ((q.den : ℝ) : EReal)) (((q : ℝ) * q.den : ℝ) : EReal)) := by
    intro R o h ho
    rw [← num_eq]
    subst ho
    cases r with
    | true => simpa using h.1.1 rfl _ hp _ hn
    | false => simpa using h.2.1 rfl _ hp _ hn
  obtain ⟨e1, e2⟩ := ereal_mul hd x q
  refine ⟨fun h => ?_, fun h => ?_, fun h => ?_, fun h => ?_, fun h => ?_⟩
  · rw [key c1 h, e1]
  · rw [key c2 h, gt_iff_lt, e2]
  · rw [key c3 h, ← not_lt, e2, not_lt]
  · rw [key c4 h, ge_iff_le, ← not_lt, e1, not_lt]
  · rw [key c5 h]
    constructor
    · intro h
      refine le_antisymm (not_lt.1 fun h' => ?_) (not_lt.1 fun h' => ?_)
      · exact absurd h (e2.2 h').ne'
      · exact absurd h (e1.2 h').ne
    · rintro rfl; rw [← EReal.coe_mul]

/-- **C29**: exact balls, including infinities, are always comparable with rational numbers (if an exact radius stays exact); nothing is answered for an indeterminate. -/
theorem xball_rational_exact {mag : ℚ → ℚ} (h0 : mag 0 = 0) (x : XArf) (q : ℚ) :
    (x ≠ .nan → ∀ op ∈ [lt, gt, le, ge, eq], (cmpQ mag op (ofArf x) q).isSome) ∧
      (∀ r, ∀ op ∈ [lt, gt, le, ge, eq], cmpQ mag op ⟨.nan, r⟩ q = none) := by
  constructor
  · intro hx op hop
    have e : (ofArf x).scaled mag q = ofArf (mulMid x q.den) := by simp [scaled, ofArf, h0]
    have e2 : ofMpz q.num = ofArf (.fin q.num) := rfl
    have hx' : mulMid x q.den ≠ .nan := by cases x <;> simp_all [mulMid]
    obtain ⟨c1, c2, c3, c4, c5, -⟩ := xball_compare_exact (x := mulMid x q.den) (y := .fin q.num) hx' (by simp)
    simp only [List.mem_cons, List.not_mem_nil, or_false] at hop
    rcases hop with rfl | rfl | rfl | rfl | rfl <;> simp [cmpQ, e, e2, c1, c2, c3, c4, c5]
  · intro r op hop
    obtain ⟨c1, c2, c3, c4, c5, -⟩ := xball_compare_nan (a := (XBall.mk .nan r).scaled mag q) (b := ofMpz q.num) (.inl (by simp [scaled, mulMid]))
    simp only [List.mem_cons, List.not_mem_nil, or_false] at hop
    rcases hop with rfl | rfl | rfl | rfl | rfl <;> simp [cmpQ, c1, c2, c3, c4, c5]

/-- **C29, finding F4**, for all balls: every answer of `!=` is wrong for every point of the ball. -/
theorem xball_rational_ne_wrong {mag : ℚ → ℚ} (hm : ∀ r, r ≤ mag r) {a : XBall} (ha : a.WF) (q : ℚ) (r : Bool) (x : EReal) (hx : x ∈ a.points)
    (h : neQ mag a q = some r) : r = true ↔ ¬ x ≠ ((q : ℝ) : EReal) := by
  rw [not_not]
  exact (xball_rational_partial hm ha q r x hx).2.2.2.2 h

/-- The hypotheses are met: `inf` is above and different from `1/3`; there is no answer for a ball around `1/3` and for `[± inf]`. -/
example : cmpQ id gt posInf (1 / 3) = some true ∧ cmpQ id le posInf (1 / 3) = some false ∧ cmpQ id eq posInf (1 / 3) = some false ∧
    cmpQ id lt ⟨.fin (3 / 8), some (1 / 8)⟩ (1 / 3) = none ∧ cmpQ id lt ⟨.fin (3 / 8), some (1 / 8)⟩ (2 / 3) = some true ∧
    cmpQ id lt zeroPmInf (1 / 3) = none ∧ neQ id posInf (1 / 3) = some false := by
  decide +kernel

end ExactReal.Props
