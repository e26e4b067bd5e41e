import Verif.Spec.BallSpecial
import Verif.Props.ArfSpecial

/-!
# `Arb` with infinities and NaN: comparisons, integers, constants (C63)
-/

namespace ExactReal.Props

open XBall (Answers points)

namespace XBallAux

theorem lower_ne {a : XBall} (h : a.isNaN = false) : a.lower ≠ .nan := by
  obtain ⟨m, r⟩ := a
  cases m <;> cases r <;> simp_all [XBall.isNaN, XBall.lower]

theorem upper_ne {a : XBall} (h : a.isNaN = false) : a.upper ≠ .nan := by
  obtain ⟨m, r⟩ := a
  cases m <;> cases r <;> simp_all [XBall.isNaN, XBall.upper]

/-- The points of a ball form an interval. -/
theorem points_eq {a : XBall} (h : a.isNaN = false) : a.points = Set.Icc a.lower.ereal a.upper.ereal := by
  obtain ⟨m, r⟩ := a
  ext x
  cases m with
  | nan => simp [XBall.isNaN] at h
  | posInf => cases r <;> simp [points, XBall.lower, XBall.upper, XArf.ereal]
  | negInf => cases r <;> simp [points, XBall.lower, XBall.upper, XArf.ereal]
  | fin m =>
    cases r with
    | none => simp [points, XBall.lower, XBall.upper, XArf.ereal]
    | some r =>
      simp only [points, XBall.lower, XBall.upper, XArf.ereal, Set.mem_setOf_eq, Set.mem_Icc]
      constructor
      · rintro ⟨y, rfl, h⟩
        rw [EReal.coe_le_coe_iff, EReal.coe_le_coe_iff]
        have := abs_le.1 h
        push_cast
        constructor <;> linarith
      · rintro ⟨h1, h2⟩
        induction x with
        | bot => exact absurd (le_bot_iff.1 h1) (EReal.coe_ne_bot _)
        | top => exact absurd (top_le_iff.1 h2) (EReal.coe_ne_top _)
        | coe y =>
          rw [EReal.coe_le_coe_iff] at h1 h2
          push_cast at h1 h2
          exact ⟨y, rfl, abs_le.2 ⟨by linarith, by linarith⟩⟩

theorem lower_le_upper {a : XBall} (ha : a.WF) (h : a.isNaN = false) : a.lower.ereal ≤ a.upper.ereal := by
  obtain ⟨m, r⟩ := a
  cases m <;> cases r <;> simp_all [XBall.isNaN, XBall.lower, XBall.upper, XArf.ereal, XBall.WF]
  norm_cast
  linarith

theorem all_lt {a b c d : EReal} (h1 : a ≤ b) (h2 : c ≤ d) : (∀ x ∈ Set.Icc a b, ∀ y ∈ Set.Icc c d, x < y) ↔ b < c :=
  ⟨fun h => h b ⟨h1, le_rfl⟩ c ⟨le_rfl, h2⟩, fun h x hx y hy => (hx.2.trans_lt h).trans_le hy.1⟩

theorem all_le {a b c d : EReal} (h1 : a ≤ b) (h2 : c ≤ d) : (∀ x ∈ Set.Icc a b, ∀ y ∈ Set.Icc c d, x ≤ y) ↔ b ≤ c :=
  ⟨fun h => h b ⟨h1, le_rfl⟩ c ⟨le_rfl, h2⟩, fun h x hx y hy => (hx.2.trans h).trans hy.1⟩

theorem xAllLt_iff {a b : XBall} (ha : a.WF) (hb : b.WF) (na : a.isNaN = false) (nb : b.isNaN = false) :
    a.allLt b = true ↔ ∀ x ∈ a.points, ∀ y ∈ b.points, x < y := by
  rw [points_eq na, points_eq nb, all_lt (lower_le_upper ha na) (lower_le_upper hb nb), ← (xarf_cmp (upper_ne na) (lower_ne nb)).1]
  simp [XBall.allLt, na, nb]

theorem xAllLe_iff {a b : XBall} (ha : a.WF) (hb : b.WF) (na : a.isNaN = false) (nb : b.isNaN = false) :
    a.allLe b = true ↔ ∀ x ∈ a.points, ∀ y ∈ b.points, x ≤ y := by
  rw [points_eq na, points_eq nb, all_le (lower_le_upper ha na) (lower_le_upper hb nb), ← not_lt, ← (xarf_cmp (upper_ne na) (lower_ne nb)).2]
  simp [XBall.allLe, na, nb]

theorem nonempty {a : XBall} (ha : a.WF) : a.points.Nonempty := by
  cases na : a.isNaN with
  | false => rw [points_eq na]; exact ⟨_, le_rfl, lower_le_upper ha na⟩
  | true =>
    refine ⟨0, ?_⟩
    have : a.mid = .nan := by simpa [XBall.isNaN] using na
    simp [points, this]

theorem xAllEq_iff {a b : XBall} (ha : a.WF) (hb : b.WF) (na : a.isNaN = false) (nb : b.isNaN = false) :
    a.allEq b = true ↔ ∀ x ∈ a.points, ∀ y ∈ b.points, x = y := by
  have e : (∀ x ∈ a.points, ∀ y ∈ b.points, x = y) ↔ a.allLe b = true ∧ b.allLe a = true := by
    rw [xAllLe_iff ha hb na nb, xAllLe_iff hb ha nb na]
    exact ⟨fun h => ⟨fun x hx y hy => (h x hx y hy).le, fun x hx y hy => (h y hy x hx).ge⟩,
      fun h x hx y hy => le_antisymm (h.1 x hx y hy) (h.2 y hy x hx)⟩
  rw [e]
  have l (a b : XBall) : a.allLe b = true ↔ (a.isNaN = false ∧ b.isNaN = false) ∧ XArf.cmp a.upper b.lower ≤ 0 := by simp [XBall.allLe]
  rw [l, l]
  clear e l
  obtain ⟨m, r⟩ := a
  obtain ⟨n, s⟩ := b
  cases m <;> cases r <;> cases n <;> cases s <;>
    simp_all [XBall.isNaN, XBall.allEq, XBall.lower, XBall.upper, XArf.cmp, XBall.WF]
  rename_i m r n s
  have c (p q : ℚ) : ((if p < q then (-1 : ℤ) else if q < p then 1 else 0) ≤ 0) ↔ p ≤ q := by
    split_ifs with h1 h2
    · simp [h1.le]
    · simp [h2]
    · simp; linarith
  rw [c, c]
  constructor
  · rintro ⟨⟨h1, h2⟩, h3⟩
    constructor <;> linarith
  · rintro ⟨h1, h2⟩
    refine ⟨⟨?_, ?_⟩, ?_⟩ <;> linarith

end XBallAux
open XBallAux

/-- For `op` computed as "`yes` then true, `no` then false". -/
theorem answers_of {a b : XBall} (ha : a.WF) (hb : b.WF) {R : EReal → EReal → Prop} {yes no : Bool} (hy : yes = true ↔ ∀ x ∈ a.points, ∀ y ∈ b.points, R x y)
    (hn : no = true ↔ ∀ x ∈ a.points, ∀ y ∈ b.points, ¬ R x y) : Answers (if yes then some true else if no then some false else none) R a b := by
  obtain ⟨x, hx⟩ := nonempty ha
  obtain ⟨y, hy'⟩ := nonempty hb
  constructor
  · rw [← hy]; cases yes <;> cases no <;> simp
  · rw [← hn]
    cases yes <;> cases no <;> simp
    exact (hn.1 rfl x hx y hy') (hy.1 rfl x hx y hy')

theorem answers_not {a b : XBall} {R : EReal → EReal → Prop} {r : Option Bool} (h : Answers r R a b) :
    Answers (r.map (!·)) (fun x y => ¬ R x y) a b := by
  refine ⟨?_, ?_⟩
  · rw [← h.2]; rcases r with _ | _ | _ <;> simp
  · simp only [not_not]; rw [← h.1]; rcases r with _ | _ | _ <;> simp

/-- **C63**: on the extended real line, the six comparison operators of balls answer `true` if the relation holds for all points, `false` if it
holds for no points, and nothing otherwise. -/
theorem xball_compare {a b : XBall} (ha : a.WF) (hb : b.WF) (na : a.mid ≠ .nan) (nb : b.mid ≠ .nan) :
    Answers (a.lt b) (· < ·) a b ∧ Answers (a.gt b) (· > ·) a b ∧ Answers (a.le b) (· ≤ ·) a b ∧ Answers (a.ge b) (· ≥ ·) a b ∧
    Answers (a.eq b) (· = ·) a b ∧ Answers (a.ne b) (· ≠ ·) a b := by
  have na : a.isNaN = false := by simpa [XBall.isNaN] using na
  have nb : b.isNaN = false := by simpa [XBall.isNaN] using nb
  have lt : Answers (a.lt b) (· < ·) a b := answers_of ha hb (xAllLt_iff ha hb na nb)
    ((xAllLe_iff hb ha nb na).trans ⟨fun h x hx y hy => (h y hy x hx).not_gt, fun h y hy x hx => not_lt.1 (h x hx y hy)⟩)
  have gt : Answers (a.gt b) (· > ·) a b := answers_of ha hb
    ((xAllLt_iff hb ha nb na).trans ⟨fun h x hx y hy => h y hy x hx, fun h y hy x hx => h x hx y hy⟩)
    ((xAllLe_iff ha hb na nb).trans ⟨fun h x hx y hy => (h x hx y hy).not_gt, fun h x hx y hy => not_lt.1 (h x hx y hy)⟩)
  have eq : Answers (a.eq b) (· = ·) a b := by
    refine answers_of ha hb (xAllEq_iff ha hb na nb) ?_
    rw [XBall.allNe, Bool.or_eq_true, xAllLt_iff ha hb na nb, xAllLt_iff hb ha nb na]
    constructor
    · rintro (h | h) x hx y hy
      · exact (h x hx y hy).ne
      · exact (h y hy x hx).ne'
    · rw [points_eq na, points_eq nb, all_lt (lower_le_upper ha na) (lower_le_upper hb nb), all_lt (lower_le_upper hb nb) (lower_le_upper ha na)]
      intro h
      by_contra hc
      rw [not_or, not_lt, not_lt] at hc
      refine h (max a.lower.ereal b.lower.ereal) ⟨le_max_left _ _, max_le (lower_le_upper ha na) hc.1⟩ _ ⟨le_max_right _ _, max_le hc.2 (lower_le_upper hb nb)⟩ rfl
  have n1 : a.le b = (a.gt b).map (!·) := by unfold XBall.le; cases a.gt b <;> rfl
  have n2 : a.ge b = (a.lt b).map (!·) := by unfold XBall.ge; cases a.lt b <;> rfl
  have n3 : a.ne b = (a.eq b).map (!·) := by unfold XBall.ne; cases a.eq b <;> rfl
  refine ⟨lt, gt, ?_, ?_, eq, ?_⟩
  · rw [n1]; simpa only [not_lt, gt_iff_lt] using answers_not gt
  · rw [n2]; simpa only [not_lt, ge_iff_le] using answers_not lt
  · rw [n3]; exact answers_not eq

/-- For example, `pos_inf` is not less than any point of the extended real line, so `<` is answered `false` and `>=` is answered `true`, but it is
neither always greater nor always equal. -/
example : XBall.posInf.lt .zeroPmInf = some false ∧ XBall.posInf.ge .zeroPmInf = some true ∧ XBall.posInf.gt .zeroPmInf = none ∧
    XBall.posInf.eq .zeroPmInf = none ∧ XBall.unitInterval.le .one = some true ∧ XBall.unitInterval.lt .one = none ∧ XBall.zeroPmOne.lt .posInf = some true ∧
    XBall.unitInterval.WF ∧ XBall.zeroPmOne.mid ≠ .nan := by
  refine ⟨?_, ?_, ?_, ?_, ?_, ?_, ?_, ?_, ?_⟩ <;> first | decide +kernel | (simp [XBall.WF, XBall.unitInterval])

/-- **C63**: no comparison with an indeterminate is ever answered. -/
theorem xball_compare_nan {a b : XBall} (h : a.mid = .nan ∨ b.mid = .nan) :
    a.lt b = none ∧ a.gt b = none ∧ a.le b = none ∧ a.ge b = none ∧ a.eq b = none ∧ a.ne b = none := by
  have l : a.allLt b = false ∧ b.allLt a = false ∧ a.allLe b = false ∧ b.allLe a = false ∧ a.allEq b = false := by
    obtain ⟨m, r⟩ := a
    obtain ⟨n, s⟩ := b
    simp only at h
    rcases h with rfl | rfl
    · simp [XBall.allLt, XBall.allLe, XBall.isNaN, XBall.allEq]
    · cases m <;> cases r <;> simp [XBall.allLt, XBall.allLe, XBall.isNaN, XBall.allEq]
  obtain ⟨l1, l2, l3, l4, l5⟩ := l
  simp [XBall.lt, XBall.gt, XBall.le, XBall.ge, XBall.eq, XBall.ne, XBall.allNe, l1, l2, l3, l4, l5]

/-- **C63**: exact balls other than NaN, including the infinities, are totally ordered: every comparison is answered, by comparing the midpoints. -/
theorem xball_compare_exact {x y : XArf} (hx : x ≠ .nan) (hy : y ≠ .nan) :
    (XBall.ofArf x).lt (.ofArf y) = some (x.lt y) ∧ (XBall.ofArf x).gt (.ofArf y) = some (x.gt y) ∧ (XBall.ofArf x).le (.ofArf y) = some (x.le y) ∧
    (XBall.ofArf x).ge (.ofArf y) = some (x.ge y) ∧ (XBall.ofArf x).eq (.ofArf y) = some (x.eq y) ∧ (XBall.ofArf x).ne (.ofArf y) = some (x.ne y) := by
  have w (x : XArf) : (XBall.ofArf x).WF := by simp [XBall.WF, XBall.ofArf]
  have p {x : XArf} (hx : x ≠ .nan) : (XBall.ofArf x).points = {x.ereal} := by
    rw [points_eq (by simp [XBall.isNaN, XBall.ofArf, hx])]
    cases x <;> simp [XBall.ofArf, XBall.lower, XBall.upper]
  have key {R : EReal → EReal → Prop} {r : Option Bool} {s : Bool} (h : Answers r R (.ofArf x) (.ofArf y)) (hs : s = true ↔ R x.ereal y.ereal) : r = some s := by
    obtain ⟨h1, h2⟩ := h
    rw [p hx, p hy] at h1 h2
    simp only [Set.mem_singleton_iff, forall_eq] at h1 h2
    cases s with
    | true => exact h1.2 (hs.1 rfl)
    | false => exact h2.2 (fun h => by simpa using hs.2 h)
  obtain ⟨c1, c2, c3, c4, c5, c6⟩ := xball_compare (w x) (w y) hx hy
  obtain ⟨o1, o2, o3, o4, o5, o6⟩ := arf_order hx hy
  exact ⟨key c1 o3, key c2 o4, key c3 o5, key c4 o6, key c5 o1, key c6 o2⟩

/-- **C63**: `equal` means that the balls have the same midpoint and the same radius; equal balls are never answered to be different. -/
theorem xball_equal {a b : XBall} (ha : a.WF) (h : a.equal b = true) : a = b ∧ a.eq b ≠ some false ∧ a.ne b ≠ some true ∧ a.lt b ≠ some true ∧ a.gt b ≠ some true := by
  have e : a = b := by simpa [XBall.equal] using h
  subst e
  refine ⟨rfl, ?_⟩
  by_cases na : a.mid = .nan
  · obtain ⟨h1, h2, h3, h4, h5, h6⟩ := xball_compare_nan (a := a) (b := a) (.inl na)
    simp [h1, h2, h5, h6]
  · obtain ⟨c1, c2, c3, c4, c5, c6⟩ := xball_compare ha ha na na
    obtain ⟨x, hx⟩ := nonempty ha
    exact ⟨fun h => c5.2.1 h x hx x hx rfl, fun h => c6.1.1 h x hx x hx rfl, fun h => lt_irrefl _ (c1.1.1 h x hx x hx), fun h => lt_irrefl _ (c2.1.1 h x hx x hx)⟩

theorem cast_of_holds {t : IntType} (ht : 0 < t.bits) {n : ℤ} (h : t.Holds n) : t.cast n = n := by
  obtain ⟨s, k⟩ := t
  obtain ⟨k, rfl⟩ : ∃ j, k = j + 1 := ⟨k - 1, by simp at ht; omega⟩
  obtain ⟨h1, h2⟩ := h
  have e : (2 : ℤ) ^ (k + 1) = 2 * 2 ^ k := by ring
  cases s with
  | true =>
    simp only [IntType.min, IntType.max, if_true, Nat.add_sub_cancel] at h1 h2
    simp only [IntType.cast, if_true]
    have := Int.bmod_eq_of_le (n := n) (m := 2 ^ (k + 1))
    apply this
    · push_cast; rw [e]; omega
    · push_cast; rw [e]; omega
  | false =>
    simp only [IntType.min, IntType.max, Bool.false_eq_true, if_false] at h1 h2
    simp only [IntType.cast, Bool.false_eq_true, if_false]
    exact Int.emod_eq_of_lt h1 (by omega)

/-- **C63**: the ball that is created from, or assigned, an integer of any built-in type is exact and equal to that integer, whatever the size of
`long` is. -/
theorem xball_of_int {longBits : ℕ} (hl : 0 < longBits) (t : IntType) {n : ℤ} (h : t.Holds n) :
    XBall.ofInt longBits t n = ⟨.fin n, some 0⟩ ∧ XBall.assignInt longBits t n = ⟨.fin n, some 0⟩ := by
  have a (t : IntType) {n : ℤ} (h : t.Holds n) : t.toSupported longBits n = .mpz n ∨
      t.toSupported longBits n = .long ⟨t.signed, longBits⟩ n ∧ IntType.Holds ⟨t.signed, longBits⟩ n := by
    simp only [IntType.toSupported]
    split_ifs with hc
    · have h' : IntType.Holds ⟨t.signed, longBits⟩ n := ⟨hc.1.trans h.1, h.2.trans hc.2⟩
      exact .inr ⟨by rw [cast_of_holds hl h'], h'⟩
    · exact .inl rfl
  have b (t : IntType) {n : ℤ} (h : t.Holds n) : XBall.assignInt longBits t n = ⟨.fin n, some 0⟩ := by
    rcases a t h with e | ⟨e, -⟩ <;> simp [XBall.assignInt, e, XBall.ofMpz]
  refine ⟨?_, b t h⟩
  rcases a t h with e | ⟨e, h'⟩
  · simp [XBall.ofInt, e, XBall.ofMpz]
  · simp only [XBall.ofInt, e]; exact b _ h'

/-- The largest `unsigned long long`, where `long` has 64 bits and where it has 32 bits. -/
example : IntType.Holds ⟨false, 64⟩ (2 ^ 64 - 1) ∧ IntType.toSupported 64 ⟨false, 64⟩ (2 ^ 64 - 1) = .long ⟨false, 64⟩ (2 ^ 64 - 1) ∧
    IntType.toSupported 32 ⟨false, 64⟩ (2 ^ 64 - 1) = .mpz (2 ^ 64 - 1) ∧ IntType.cast ⟨false, 32⟩ (2 ^ 64 - 1) ≠ 2 ^ 64 - 1 := by
  refine ⟨⟨?_, ?_⟩, ?_, ?_, ?_⟩ <;> decide +kernel

/-- **C63**: comparisons of a ball with an integer of any built-in type answer for the integer itself. -/
theorem xball_compare_int {longBits : ℕ} (hl : 0 < longBits) (t : IntType) {n : ℤ} (h : t.Holds n) {a : XBall} (ha : a.WF) (na : a.mid ≠ .nan) :
    (a.cmpInt XBall.lt longBits t n = some true ↔ ∀ x ∈ a.points, x < ((n : ℝ) : EReal)) ∧
    (a.cmpInt XBall.lt longBits t n = some false ↔ ∀ x ∈ a.points, ((n : ℝ) : EReal) ≤ x) ∧
    (a.cmpInt XBall.gt longBits t n = some true ↔ ∀ x ∈ a.points, ((n : ℝ) : EReal) < x) ∧
    (a.cmpInt XBall.gt longBits t n = some false ↔ ∀ x ∈ a.points, x ≤ ((n : ℝ) : EReal)) ∧
    (a.cmpInt XBall.le longBits t n = some true ↔ ∀ x ∈ a.points, x ≤ ((n : ℝ) : EReal)) ∧
    (a.cmpInt XBall.le longBits t n = some false ↔ ∀ x ∈ a.points, ((n : ℝ) : EReal) < x) ∧
    (a.cmpInt XBall.ge longBits t n = some true ↔ ∀ x ∈ a.points, ((n : ℝ) : EReal) ≤ x) ∧
    (a.cmpInt XBall.ge longBits t n = some false ↔ ∀ x ∈ a.points, x < ((n : ℝ) : EReal)) ∧
    (a.cmpInt XBall.eq longBits t n = some true ↔ ∀ x ∈ a.points, x = ((n : ℝ) : EReal)) ∧
    (a.cmpInt XBall.eq longBits t n = some false ↔ ((n : ℝ) : EReal) ∉ a.points) ∧
    (a.cmpInt XBall.ne longBits t n = some true ↔ ((n : ℝ) : EReal) ∉ a.points) ∧
    (a.cmpInt XBall.ne longBits t n = some false ↔ ∀ x ∈ a.points, x = ((n : ℝ) : EReal)) := by
  obtain ⟨c1, c2, c3, c4, c5, c6⟩ := xball_compare ha (b := ⟨.fin n, some 0⟩) (by simp [XBall.WF]) na (by simp)
  have p : (⟨.fin n, some 0⟩ : XBall).points = {((n : ℝ) : EReal)} := by
    rw [points_eq (by simp [XBall.isNaN])]
    simp [XBall.lower, XBall.upper, XArf.ereal]
  have d {S : Set EReal} {c : EReal} : c ∉ S ↔ ∀ x ∈ S, ¬ x = c := ⟨fun h x hx e => h (e ▸ hx), fun h hc => h c hc rfl⟩
  simp only [Answers, p, Set.mem_singleton_iff, forall_eq, not_lt, not_le, not_not, gt_iff_lt, ge_iff_le, ne_eq] at c1 c2 c3 c4 c5 c6
  simp only [XBall.cmpInt, (xball_of_int hl t h).1, d]
  exact ⟨c1.1, c1.2, c2.1, c2.2, c3.1, c3.2, c4.1, c4.2, c5.1, c5.2, c6.1, c6.2⟩

/-- **C63**: the negative of a ball consists of the negatives of its points; negating twice gives the same ball, and comparing negatives is comparing
the other way round. -/
theorem xball_neg {a b : XBall} : a.neg.neg = a ∧ (∀ x, x ∈ a.neg.points ↔ -x ∈ a.points) ∧ a.neg.lt b.neg = b.lt a := by
  refine ⟨?_, ?_, ?_⟩
  · obtain ⟨m, r⟩ := a
    cases m <;> simp [XBall.neg, XArf.neg]
  · intro x
    obtain ⟨m, r⟩ := a
    cases m <;> cases r <;> simp [XBall.neg, XArf.neg, points]
    · rename_i m r
      constructor
      · rintro ⟨y, rfl, h⟩
        refine ⟨-y, by simp, ?_⟩
        rw [← abs_neg]; convert h using 2; ring
      · rintro ⟨y, e, h⟩
        refine ⟨-y, by simp [← e], ?_⟩
        rw [← abs_neg]; convert h using 2; ring
    
  · have lo (a : XBall) (h : a.mid ≠ .nan) : a.neg.lower = a.upper.neg ∧ a.neg.upper = a.lower.neg := by
      obtain ⟨m, r⟩ := a
      cases m <;> cases r <;> simp_all [XBall.neg, XArf.neg, XBall.lower, XBall.upper]
      constructor <;> ring
    have cm (x y : XArf) : XArf.cmp x.neg y.neg = XArf.cmp y x := by
      cases x <;> cases y <;> simp [XArf.cmp, XArf.neg]
    have nn (a : XBall) : a.neg.isNaN = a.isNaN := by
      obtain ⟨m, r⟩ := a
      cases m <;> simp [XBall.neg, XArf.neg, XBall.isNaN]
    have l1 (a b : XBall) : a.neg.allLt b.neg = b.allLt a ∧ a.neg.allLe b.neg = b.allLe a := by
      simp only [XBall.allLt, XBall.allLe, nn]
      cases na : a.isNaN
      · cases nb : b.isNaN
        · have na : a.mid ≠ .nan := by simpa [XBall.isNaN] using na
          have nb : b.mid ≠ .nan := by simpa [XBall.isNaN] using nb
          simp [(lo a na).2, (lo b nb).1, cm]
        · simp
      · simp
    simp [XBall.lt, (l1 a b).1, (l1 b a).2]

/-- **C63**: the named balls are what their documentation says. -/
theorem xball_constants :
    XBall.zero.points = {0} ∧ XBall.one.points = {1} ∧ XBall.posInf.points = {⊤} ∧ XBall.negInf.points = {⊥} ∧
    XBall.zeroPmOne.points = Set.Icc (-1) 1 ∧ XBall.zeroPmInf.points = Set.univ ∧ XBall.indeterminate.points = Set.univ ∧
    XBall.unitInterval.points = Set.Icc 0 1 ∧ XBall.zeroPmInf.mid = .fin 0 ∧ XBall.indeterminate.mid = .nan := by
  have one : XBall.one = ⟨.fin 1, some 0⟩ := by decide +kernel
  refine ⟨?_, ?_, ?_, ?_, ?_, ?_, ?_, ?_, rfl, rfl⟩
  · rw [points_eq (by decide +kernel)]; simp [XBall.zero, XBall.lower, XBall.upper, XArf.ereal]
  · rw [one, points_eq (by decide +kernel)]; simp [XBall.lower, XBall.upper, XArf.ereal]
  · ext x; simp [XBall.posInf, XBall.ofArf, XArf.ofDouble, points]
  · ext x; simp [XBall.negInf, XBall.ofArf, XArf.ofDouble, points]
  · rw [points_eq (by decide +kernel)]; simp [XBall.zeroPmOne, XBall.lower, XBall.upper, XArf.ereal]
  · ext x; simp [XBall.zeroPmInf, points]
  · ext x; simp [XBall.indeterminate, points]
  · rw [points_eq (by decide +kernel)]; norm_num [XBall.unitInterval, XBall.lower, XBall.upper, XArf.ereal]

/-- **C63**: `is_finite` says that neither infinity is a point of the ball, and an exact ball that is not NaN has one point, which is its midpoint. -/
theorem xball_finite_exact (a : XBall) : (a.isFinite = true ↔ ⊤ ∉ a.points ∧ ⊥ ∉ a.points) ∧
    (a.isExact = true → a.mid ≠ .nan → a.points = {a.toArf.ereal}) := by
  constructor
  · obtain ⟨m, r⟩ := a
    cases m <;> cases r <;> simp [XBall.isFinite, points]
  · intro h na
    have h : a.rad = some 0 := by simpa [XBall.isExact] using h
    rw [points_eq (by simpa [XBall.isNaN] using na)]
    obtain ⟨m, r⟩ := a
    simp only at h
    subst h
    cases m <;> simp_all [XBall.lower, XBall.upper, XBall.toArf]

end ExactReal.Props
