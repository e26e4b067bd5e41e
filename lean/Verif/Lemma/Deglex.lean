import Verif.Lemma.Monomial
import Mathlib.Data.List.Shortlex
import Mathlib.Data.Finset.Sort

namespace ExactReal
open Finsupp

/-! ### the specification order -/

namespace Precedes

theorem irrefl (f : ℕ →₀ ℕ) : ¬ Precedes f f := by
  rintro (h | ⟨-, i, -, h⟩) <;> omega

theorem trans {f g h : ℕ →₀ ℕ} (h1 : Precedes f g) (h2 : Precedes g h) : Precedes f h := by
  rcases h1 with h1 | ⟨d1, i, a1, b1⟩ <;> rcases h2 with h2 | ⟨d2, j, a2, b2⟩
  · left; omega
  · left; omega
  · left; omega
  · right
    refine ⟨d1.trans d2, ?_⟩
    rcases lt_trichotomy i j with hij | rfl | hij
    · refine ⟨i, fun k hk => (a1 k hk).trans (a2 k (hk.trans hij)), ?_⟩
      rw [← a2 i hij]; exact b1
    · exact ⟨i, fun k hk => (a1 k hk).trans (a2 k hk), b2.trans b1⟩
    · refine ⟨j, fun k hk => (a1 k (hk.trans hij)).trans (a2 k hk), ?_⟩
      rw [a1 j hij]; exact b2

theorem trichotomy (f g : ℕ →₀ ℕ) : Precedes f g ∨ f = g ∨ Precedes g f := by
  rcases lt_trichotomy f.degree g.degree with h | h | h
  · exact Or.inl (Or.inl h)
  · by_cases e : f = g
    · exact Or.inr (Or.inl e)
    · have : ∃ i, f i ≠ g i := by
        by_contra hn; push Not at hn; exact e (Finsupp.ext hn)
      classical
      obtain ⟨hi, hmin⟩ := Nat.find_spec this, fun k hk => not_not.1 (Nat.find_min this hk)
      rcases lt_or_gt_of_ne hi with hlt | hlt
      · exact Or.inr (Or.inr (Or.inr ⟨h.symm, _, fun k hk => (hmin k hk).symm, hlt⟩))
      · exact Or.inl (Or.inr ⟨h, _, hmin, hlt⟩)
  · exact Or.inr (Or.inr (Or.inl h))

theorem asymm {f g : ℕ →₀ ℕ} (h : Precedes f g) : ¬ Precedes g f := fun h' => irrefl f (h.trans h')

theorem add_right {f g : ℕ →₀ ℕ} (h : Precedes f g) (k : ℕ →₀ ℕ) : Precedes (f + k) (g + k) := by
  rcases h with h | ⟨d, i, a, b⟩
  · left; simpa using h
  · right
    refine ⟨by simpa using d, i, fun j hj => by simp [a j hj], by simpa using b⟩

theorem zero_of_ne {f : ℕ →₀ ℕ} (h : f ≠ 0) : Precedes 0 f := by
  left
  have : f.degree ≠ 0 := fun e => h (degree_eq_zero_iff f |>.1 e)
  simp only [map_zero]; omega

theorem of_add_right {f g k : ℕ →₀ ℕ} (h : Precedes (f + k) (g + k)) : Precedes f g := by
  rcases trichotomy f g with h' | rfl | h'
  · exact h'
  · exact absurd h (irrefl _)
  · exact absurd (h'.add_right k) (asymm h)

end Precedes

namespace Mono

/-! ### deglexLoop computes the specification order -/

theorem deglexLoop_spec {m n : Mono} (hm : Canon m) (hn : Canon n) (hd : m.mult.degree = n.mult.degree)
    (hne : m ≠ n) : ∃ b, deglexLoop m n = .ok b ∧
      (b = true ↔ ∃ i, (∀ j < i, m.mult j = n.mult j) ∧ n.mult i < m.mult i) := by
  fun_induction deglexLoop m n with
  | case1 i a l j b r hlt =>
    refine ⟨true, rfl, ?_⟩
    simp only [true_iff]
    have h0 : ∀ k ≤ i, (mult ((j, b) :: r)) k = 0 := by
      intro k hk
      apply mult_apply_of_lt
      intro x hx
      rcases List.mem_cons.1 hx with rfl | hx
      · simp only; omega
      · have := (canon_cons.1 hn).2.2 x hx; simp only at this; omega
    refine ⟨i, ?_, ?_⟩
    · intro k hk
      rw [h0 k hk.le]
      apply mult_apply_of_lt
      intro x hx
      rcases List.mem_cons.1 hx with rfl | hx
      · exact hk
      · exact hk.trans ((canon_cons.1 hm).2.2 x hx)
    · rw [h0 i le_rfl]
      have := mult_head hm
      simp only at this
      rw [this]; exact (canon_cons.1 hm).2.1
  | case2 i a l j b r h1 hlt =>
    refine ⟨false, rfl, ?_⟩
    simp only [Bool.false_eq_true, false_iff]
    rintro ⟨k, hk, hk'⟩
    have h0 : ∀ k ≤ j, (mult ((i, a) :: l)) k = 0 := by
      intro k hk
      apply mult_apply_of_lt
      intro x hx
      rcases List.mem_cons.1 hx with rfl | hx
      · simp only; omega
      · have := (canon_cons.1 hm).2.2 x hx; simp only at this; omega
    by_cases hkj : k ≤ j
    · rw [h0 k hkj] at hk'; omega
    · have := hk j (by omega)
      rw [h0 j le_rfl] at this
      have h2 := mult_head hn
      simp only at h2
      rw [h2] at this
      have := (canon_cons.1 hn).2.1
      simp only at this; omega
  | case3 i a l j b r h1 h2 hlt =>
    have hij : i = j := by omega
    subst hij
    refine ⟨false, rfl, ?_⟩
    simp only [Bool.false_eq_true, false_iff]
    rintro ⟨k, hk, hk'⟩
    have e1 := mult_head hm
    have e2 := mult_head hn
    simp only at e1 e2
    rcases lt_trichotomy k i with h | rfl | h
    · rw [mult_apply_of_lt (m := (i, a) :: l)] at hk'
      · omega
      · intro x hx
        rcases List.mem_cons.1 hx with rfl | hx
        · exact h
        · exact h.trans ((canon_cons.1 hm).2.2 x hx)
    · omega
    · have := hk i h; omega
  | case4 i a l j b r h1 h2 h3 hlt =>
    have hij : i = j := by omega
    subst hij
    refine ⟨true, rfl, ?_⟩
    simp only [true_iff]
    have e1 := mult_head hm
    have e2 := mult_head hn
    simp only at e1 e2
    refine ⟨i, ?_, by omega⟩
    intro k hk
    rw [mult_apply_of_lt, mult_apply_of_lt]
    · intro x hx
      rcases List.mem_cons.1 hx with rfl | hx
      · exact hk
      · exact hk.trans ((canon_cons.1 hn).2.2 x hx)
    · intro x hx
      rcases List.mem_cons.1 hx with rfl | hx
      · exact hk
      · exact hk.trans ((canon_cons.1 hm).2.2 x hx)
  | case5 i a l j b r h1 h2 h3 h4 ih =>
    have hij : i = j := by omega
    have hab : a = b := by omega
    subst hij; subst hab
    obtain ⟨c, hc, hiff⟩ := ih hm.tail hn.tail (by simpa using hd) (fun e => hne (by rw [e]))
    refine ⟨c, hc, hiff.trans ?_⟩
    simp only [mult_cons, Finsupp.add_apply, Nat.add_left_cancel_iff, Nat.add_lt_add_iff_left]
  | case6 => exact absurd rfl hne
  | case7 p l =>
    exfalso
    have := (canon_cons.1 hm).2.1
    simp at hd; omega
  | case8 p l =>
    exfalso
    have := (canon_cons.1 hn).2.1
    simp at hd; omega

theorem deglex_spec {m n : Mono} (hm : Canon m) (hn : Canon n) (hne : m ≠ n) :
    ∃ b, deglex m n = .ok b ∧ (b = true ↔ Precedes m.mult n.mult) := by
  unfold deglex
  rw [totalDegree_eq, totalDegree_eq, degree_eq, degree_eq]
  by_cases hd : m.mult.degree = n.mult.degree
  · obtain ⟨b, hb, h⟩ := deglexLoop_spec hm hn hd hne
    refine ⟨b, by simp [hd, hb], h.trans ?_⟩
    unfold Precedes
    simp [hd]
  · refine ⟨_, if_pos hd, ?_⟩
    unfold Precedes
    simp [hd]

/-! ### well-foundedness -/

/-- The sorted list of atoms with repetitions. -/
def expand (m : Mono) : List ℕ := m.flatMap fun p => List.replicate p.2 p.1

@[simp] theorem expand_cons (p : ℕ × ℕ) (m : Mono) : expand (p :: m) = List.replicate p.2 p.1 ++ expand m := by
  simp [expand]

theorem length_expand (m : Mono) : m.expand.length = m.mult.degree := by
  induction m with
  | nil => simp [expand]
  | cons p m ih => simp [ih]

theorem lt_of_mem_expand {m : Mono} {i x : ℕ} (h : ∀ q ∈ m, i < q.1) (hx : x ∈ m.expand) : i < x := by
  simp only [expand, List.mem_flatMap, List.mem_replicate] at hx
  obtain ⟨q, hq, -, rfl⟩ := hx
  exact h q hq

theorem lex_append_left {l a b : List ℕ} (h : List.Lex (· < ·) a b) : List.Lex (· < ·) (l ++ a) (l ++ b) := by
  induction l with
  | nil => exact h
  | cons x l ih => exact List.Lex.cons ih

theorem lex_of_deglexLoop {m n : Mono} (hm : Canon m) (hn : Canon n) (hd : m.mult.degree = n.mult.degree)
    (h : deglexLoop m n = .ok true) : List.Lex (· < ·) m.expand n.expand := by
  fun_induction deglexLoop m n with
  | case1 i a l j b r hlt =>
    obtain ⟨a', rfl⟩ := Nat.exists_eq_succ_of_ne_zero (canon_cons.1 hm).2.1.ne'
    obtain ⟨b', rfl⟩ := Nat.exists_eq_succ_of_ne_zero (canon_cons.1 hn).2.1.ne'
    simp only [expand_cons, List.replicate_succ, List.cons_append]
    exact List.Lex.rel hlt
  | case2 => simp at h
  | case3 => simp at h
  | case4 i a l j b r h1 h2 h3 hlt =>
    have hij : i = j := by omega
    subst hij
    have : a = b + ((a - b - 1) + 1) := by omega
    simp only [expand_cons]
    rw [this, List.replicate_add, List.append_assoc]
    apply lex_append_left
    rw [List.replicate_succ, List.cons_append]
    cases hr : expand r with
    | nil =>
      exfalso
      have h0 : (mult r).degree = 0 := by rw [← length_expand, hr]; rfl
      simp [h0] at hd
      omega
    | cons x xs =>
      apply List.Lex.rel
      exact lt_of_mem_expand (canon_cons.1 hn).2.2 (by rw [hr]; simp)
  | case5 i a l j b r h1 h2 h3 h4 ih =>
    have hij : i = j := by omega
    have hab : a = b := by omega
    subst hij; subst hab
    simp only [expand_cons]
    exact lex_append_left (ih hm.tail hn.tail (by simpa using hd) h)
  | case6 => simp at h
  | case7 => simp at h
  | case8 => simp at h

/-- The canonical list of a multiplicity function. -/
noncomputable def ofMult (f : ℕ →₀ ℕ) : Mono := (f.support.sort (· ≤ ·)).map fun i => (i, f i)

theorem canon_ofMult (f : ℕ →₀ ℕ) : Canon (ofMult f) := by
  constructor
  · unfold ofMult
    rw [List.pairwise_map]
    simpa using (f.support.sortedLT_sort).pairwise
  · intro p hp
    simp only [ofMult, List.mem_map, Finset.mem_sort, Finsupp.mem_support_iff] at hp
    obtain ⟨i, hi, rfl⟩ := hp
    simp only; omega

theorem mult_ofMult (f : ℕ →₀ ℕ) : (ofMult f).mult = f := by
  have : (ofMult f).mult = ((f.support.sort (· ≤ ·)).map fun i => single i (f i)).sum := by
    simp [mult, ofMult, Function.comp_def]
  rw [this, ← Multiset.sum_coe, ← Multiset.map_coe, Finset.sort_eq]
  exact f.sum_single

end Mono

/-- No infinite descent in the specification order. -/
theorem precedes_wf : WellFounded Precedes := by
  have key : ∀ f g, Precedes f g →
      List.Shortlex (· < ·) (Mono.ofMult f).expand (Mono.ofMult g).expand := by
    intro f g h
    rw [List.shortlex_def]
    simp only [Mono.length_expand, Mono.mult_ofMult]
    rcases h with h | ⟨hd, h⟩
    · exact Or.inl h
    · right
      refine ⟨hd, ?_⟩
      have hd' : (Mono.ofMult f).mult.degree = (Mono.ofMult g).mult.degree := by
        rw [Mono.mult_ofMult, Mono.mult_ofMult, hd]
      have hne : Mono.ofMult f ≠ Mono.ofMult g := by
        intro e
        have : f = g := by rw [← Mono.mult_ofMult f, e, Mono.mult_ofMult]
        subst this
        obtain ⟨i, -, hi⟩ := h
        omega
      apply Mono.lex_of_deglexLoop (Mono.canon_ofMult f) (Mono.canon_ofMult g) hd'
      obtain ⟨b, hb, hiff⟩ := Mono.deglexLoop_spec (Mono.canon_ofMult f) (Mono.canon_ofMult g) hd' hne
      rw [Mono.mult_ofMult, Mono.mult_ofMult] at hiff
      rw [hb, hiff.2 h]
  exact Subrelation.wf (fun {a b} h => key a b h) (InvImage.wf (fun f => (Mono.ofMult f).expand) (List.Shortlex.wf wellFounded_lt))

end ExactReal
