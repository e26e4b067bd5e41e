import Verif.Spec.RealNumber
import Mathlib.Data.List.Sort
import Mathlib.Tactic.Ring
import Mathlib.Tactic.Abel
import Mathlib.Tactic.Linarith
import Mathlib.Data.Finsupp.Order
import Mathlib.Data.Finsupp.Weight

namespace ExactReal
namespace Mono
open Finsupp

@[simp] theorem mult_nil : mult [] = 0 := rfl
@[simp] theorem mult_cons (p : ℕ × ℕ) (m : Mono) : mult (p :: m) = single p.1 p.2 + mult m := by
  simp [mult]

section value
variable {A : Type*} [CommMonoid A] (v : ℕ → A)
@[simp] theorem value_nil : value v [] = 1 := rfl
@[simp] theorem value_cons (p : ℕ × ℕ) (m : Mono) : value v (p :: m) = v p.1 ^ p.2 * value v m := by
  simp [value]

theorem value_eq_mult (m : Mono) : value v m = m.mult.prod fun i e => v i ^ e := by
  induction m with
  | nil => simp
  | cons p m ih =>
    rw [value_cons, mult_cons, Finsupp.prod_add_index', ← ih, Finsupp.prod_single_index]
    · simp
    · simp
    · intros; rw [pow_add]
end value

theorem Canon.nil : Canon [] := ⟨List.Pairwise.nil, by simp⟩

theorem canon_cons {p : ℕ × ℕ} {m : Mono} :
    Canon (p :: m) ↔ Canon m ∧ 0 < p.2 ∧ ∀ q ∈ m, p.1 < q.1 := by
  constructor
  · rintro ⟨h1, h2⟩
    rw [List.pairwise_cons] at h1
    exact ⟨⟨h1.2, fun q hq => h2 q (by simp [hq])⟩, h2 p (by simp), h1.1⟩
  · rintro ⟨⟨h1, h2⟩, h3, h4⟩
    refine ⟨List.pairwise_cons.2 ⟨h4, h1⟩, ?_⟩
    intro q hq
    rcases List.mem_cons.1 hq with rfl | hq
    · exact h3
    · exact h2 q hq

theorem Canon.tail {p : ℕ × ℕ} {m : Mono} (h : Canon (p :: m)) : Canon m := (canon_cons.1 h).1

/-- Atoms below all ids of the list do not occur. -/
theorem mult_apply_of_lt {m : Mono} {i : ℕ} (h : ∀ q ∈ m, i < q.1) : m.mult i = 0 := by
  induction m with
  | nil => simp
  | cons p m ih =>
    have hp := h p (by simp)
    rw [mult_cons, Finsupp.add_apply, ih (fun q hq => h q (by simp [hq])), Finsupp.single_apply,
      if_neg (by omega)]

theorem mult_head {p : ℕ × ℕ} {m : Mono} (h : Canon (p :: m)) : (mult (p :: m)) p.1 = p.2 := by
  rw [mult_cons, Finsupp.add_apply, mult_apply_of_lt (canon_cons.1 h).2.2]
  simp

theorem Canon.mult_injective {m n : Mono} (hm : Canon m) (hn : Canon n) (h : m.mult = n.mult) : m = n := by
  induction m generalizing n with
  | nil =>
    cases n with
    | nil => rfl
    | cons q n =>
      exfalso
      have := mult_head hn
      rw [← h] at this
      have h2 := (canon_cons.1 hn).2.1
      simp at this; omega
  | cons p m ih =>
    cases n with
    | nil =>
      exfalso
      have := mult_head hm
      rw [h] at this
      have h2 := (canon_cons.1 hm).2.1
      simp at this; omega
    | cons q n =>
      have hp := canon_cons.1 hm
      have hq := canon_cons.1 hn
      have h1 := mult_head hm
      have h2 := mult_head hn
      have hid : p.1 = q.1 := by
        rcases lt_trichotomy p.1 q.1 with hlt | heq | hlt
        · exfalso
          have : (mult (q :: n)) p.1 = 0 := by
            apply mult_apply_of_lt
            intro r hr
            rcases List.mem_cons.1 hr with rfl | hr
            · exact hlt
            · exact hlt.trans (hq.2.2 r hr)
          rw [← h, h1] at this
          omega
        · exact heq
        · exfalso
          have : (mult (p :: m)) q.1 = 0 := by
            apply mult_apply_of_lt
            intro r hr
            rcases List.mem_cons.1 hr with rfl | hr
            · exact hlt
            · exact hlt.trans (hp.2.2 r hr)
          rw [h, h2] at this
          omega
      have he : p.2 = q.2 := by rw [← h1, ← h2, h, hid]
      have hpq : p = q := Prod.ext hid he
      subst hpq
      rw [mult_cons, mult_cons, add_left_cancel_iff] at h
      rw [ih hp.1 hq.1 h]

/-! ### merge -/

@[simp] theorem merge_nil_left (m : Mono) : merge [] m = m := by
  cases m <;> rw [merge]

@[simp] theorem merge_nil_right (m : Mono) : merge m [] = m := by
  cases m <;> rw [merge]
  simp

theorem merge_cons (i a j b : ℕ) (l r : Mono) : merge ((i, a) :: l) ((j, b) :: r) =
    if i < j then (i, a) :: merge l ((j, b) :: r)
    else if i = j then (i, a + b) :: merge l r
    else (j, b) :: merge ((i, a) :: l) r := by
  rw [merge]

theorem mult_merge (l r : Mono) : (merge l r).mult = l.mult + r.mult := by
  fun_induction merge l r with
  | case1 => simp
  | case2 => simp
  | case3 i a l j b r h ih => simp only [mult_cons, ih]; abel
  | case4 a l j b r h ih => simp only [mult_cons, ih, Finsupp.single_add]; abel
  | case5 i a l j b r h1 h2 ih => simp only [mult_cons, ih]; abel

theorem mem_merge_fst {l r : Mono} {p : ℕ × ℕ} (h : p ∈ merge l r) :
    (∃ q ∈ l, q.1 = p.1) ∨ (∃ q ∈ r, q.1 = p.1) := by
  fun_induction merge l r with
  | case1 r => exact Or.inr ⟨p, h, rfl⟩
  | case2 l _ => exact Or.inl ⟨p, h, rfl⟩
  | case3 i a l j b r hlt ih =>
    rcases List.mem_cons.1 h with rfl | h
    · exact Or.inl ⟨(i, a), by simp, rfl⟩
    · rcases ih h with ⟨q, hq, e⟩ | h
      · exact Or.inl ⟨q, by simp [hq], e⟩
      · exact Or.inr h
  | case4 a l j b r hlt ih =>
    rcases List.mem_cons.1 h with rfl | h
    · exact Or.inr ⟨(j, b), by simp, rfl⟩
    · rcases ih h with ⟨q, hq, e⟩ | ⟨q, hq, e⟩
      · exact Or.inl ⟨q, by simp [hq], e⟩
      · exact Or.inr ⟨q, by simp [hq], e⟩
  | case5 i a l j b r h1 h2 ih =>
    rcases List.mem_cons.1 h with rfl | h
    · exact Or.inr ⟨(j, b), by simp, rfl⟩
    · rcases ih h with h | ⟨q, hq, e⟩
      · exact Or.inl h
      · exact Or.inr ⟨q, by simp [hq], e⟩

theorem canon_merge {l r : Mono} (hl : Canon l) (hr : Canon r) : Canon (merge l r) := by
  fun_induction merge l r with
  | case1 => exact hr
  | case2 => exact hl
  | case3 i a l j b r hlt ih =>
    have h1 := canon_cons.1 hl
    have h2 := canon_cons.1 hr
    refine canon_cons.2 ⟨ih hl.tail hr, h1.2.1, ?_⟩
    intro q hq
    rcases mem_merge_fst hq with ⟨x, hx, e⟩ | ⟨x, hx, e⟩
    · rw [← e]; exact h1.2.2 x hx
    · rw [← e]
      rcases List.mem_cons.1 hx with rfl | hx
      · exact hlt
      · exact hlt.trans (h2.2.2 x hx)
  | case4 a l j b r hlt ih =>
    have h1 := canon_cons.1 hl
    have h2 := canon_cons.1 hr
    refine canon_cons.2 ⟨ih hl.tail hr.tail, Nat.add_pos_left h1.2.1 _, ?_⟩
    intro q hq
    rcases mem_merge_fst hq with ⟨x, hx, e⟩ | ⟨x, hx, e⟩
    · rw [← e]; exact h1.2.2 x hx
    · rw [← e]; exact h2.2.2 x hx
  | case5 i a l j b r hn1 hn2 ih =>
    have h1 := canon_cons.1 hl
    have h2 := canon_cons.1 hr
    refine canon_cons.2 ⟨ih hl hr.tail, h2.2.1, ?_⟩
    have hlt : j < i := by omega
    intro q hq
    rcases mem_merge_fst hq with ⟨x, hx, e⟩ | ⟨x, hx, e⟩
    · rw [← e]
      rcases List.mem_cons.1 hx with rfl | hx
      · exact hlt
      · exact hlt.trans (h1.2.2 x hx)
    · rw [← e]; exact h2.2.2 x hx

/-! ### square -/

theorem mult_square (m : Mono) : m.square.mult = m.mult + m.mult := by
  induction m with
  | nil => rfl
  | cons p m ih =>
    have : square (p :: m) = (p.1, p.2 * 2) :: square m := rfl
    rw [this, mult_cons, mult_cons, ih]
    simp only [mul_two, Finsupp.single_add]; abel

theorem canon_square {m : Mono} (h : Canon m) : Canon m.square := by
  induction m with
  | nil => exact h
  | cons p m ih =>
    have hp := canon_cons.1 h
    have : square (p :: m) = (p.1, p.2 * 2) :: square m := rfl
    rw [this]
    refine canon_cons.2 ⟨ih hp.1, by simpa using hp.2.1, ?_⟩
    intro q hq
    simp only [square, List.mem_map] at hq
    obtain ⟨x, hx, rfl⟩ := hq
    exact hp.2.2 x hx

/-! ### degrees -/

/-- Degree of a multiplicity function. -/
theorem degree_eq (m : Mono) : (m.map Prod.snd).sum = m.mult.degree := by
  induction m with
  | nil => simp
  | cons p m ih => simp [ih]

theorem totalDegree_eq_aux (m : Mono) (d : ℕ) :
    m.foldl (fun d p => d + p.2) d = d + (m.map Prod.snd).sum := by
  induction m generalizing d with
  | nil => simp
  | cons p m ih => simp [ih]; omega

theorem totalDegree_eq (m : Mono) : m.totalDegree = (m.map Prod.snd).sum := by
  simp [totalDegree, totalDegree_eq_aux]

/-! ### keyEq -/

theorem mult_zero_of_canon {m : Mono} (h : Canon m) (h0 : m.mult = 0) : m = [] :=
  h.mult_injective Canon.nil h0

theorem keyEq_iff {l r s : Mono} (hl : Canon l) (hr : Canon r) (hs : Canon s) :
    keyEq l r s = true ↔ s = merge l r := by
  fun_induction keyEq l r s with
  | case1 l r =>
    cases l with
    | nil => cases r <;> simp
    | cons p l =>
      cases r with
      | nil => simp
      | cons q r =>
        obtain ⟨i, a⟩ := p; obtain ⟨j, b⟩ := q
        rw [merge_cons]
        simp only [List.isEmpty_cons, Bool.and_self]
        split_ifs <;> simp
  | case2 i a l j b r k c s h =>
    simp only [Bool.false_eq_true, false_iff]
    rw [merge_cons]
    split_ifs with h1 h2
    · intro e; injection e with e; injection e with e; omega
    · intro e; injection e with e; injection e with e; omega
    · intro e; injection e with e; injection e with e; omega
  | case3 i a l j b r k c s h h' =>
    simp only [Bool.false_eq_true, false_iff]
    rw [merge_cons]
    split_ifs with h1 h2
    · intro e; injection e with e; injection e with e; omega
    · intro e; injection e with e; injection e with e; omega
    · intro e; injection e with e; injection e with e; omega
  | case4 i a l j b r k c s h1 h2 h3 h4 =>
    obtain ⟨rfl, rfl⟩ := h3
    rw [merge_cons]
    simp only [lt_irrefl, if_false, if_true]
    simp only [Bool.false_eq_true, false_iff]
    intro e; injection e with e; injection e with e1 e2; exact h4 e2.symm
  | case5 i a l j b r k c s h1 h2 h3 h4 ih =>
    obtain ⟨rfl, rfl⟩ := h3
    rw [ih hl.tail hr.tail hs.tail, merge_cons]
    simp only [lt_irrefl, if_false, if_true]
    have : a + b = c := not_not.1 h4
    rw [this]
    simp
  | case6 a l j b r k c s h1 h2 h3 h4 =>
    have hij : k < j := by omega
    rw [merge_cons, if_pos hij]
    simp only [Bool.false_eq_true, false_iff]
    intro e; injection e with e; injection e with e1 e2; omega
  | case7 a l j b r k c s h1 h2 h3 h4 ih =>
    have hij : k < j := by omega
    have : a = c := by omega
    rw [ih hl.tail hr hs.tail, merge_cons, if_pos hij, this]
    simp
  | case8 i a l b r k c s h1 h2 h3 h4 h5 =>
    rw [merge_cons, if_neg (by omega), if_neg (by omega)]
    simp only [Bool.false_eq_true, false_iff]
    intro e; injection e with e; injection e with e1 e2; omega
  | case9 i a l b r k c s h1 h2 h3 h4 h5 ih =>
    have : b = c := by omega
    rw [ih hl hr.tail hs.tail, merge_cons, if_neg (by omega), if_neg (by omega), this]
    simp
  | case10 i a l j b r k c s h1 h2 h3 h4 h5 =>
    simp only [Bool.false_eq_true, false_iff]
    rw [merge_cons]
    split_ifs with h1 h2
    · intro e; injection e with e; injection e with e; omega
    · intro e; injection e with e; injection e with e; omega
    · intro e; injection e with e; injection e with e; omega
  | case11 i a l k c s h =>
    simp only [merge_nil_right, Bool.false_eq_true, false_iff]
    intro e; injection e with e; injection e with e; omega
  | case12 i a l k c s h h' =>
    simp only [merge_nil_right, Bool.false_eq_true, false_iff]
    intro e; injection e with e; injection e with e1 e2
    rcases h' with h' | h'
    · exact h' e1.symm
    · exact h' e2.symm
  | case13 i a l k c s h h' ih =>
    have e1 : i = k := by by_contra e; exact h' (Or.inl e)
    have e2 : a = c := by by_contra e; exact h' (Or.inr e)
    rw [ih hl.tail Canon.nil hs.tail]
    simp [e1, e2]
  | case14 j b r k c s h =>
    simp only [merge_nil_left, Bool.false_eq_true, false_iff]
    intro e; injection e with e; injection e with e1 e2
    rcases h with h | h
    · exact h e1.symm
    · exact h e2.symm
  | case15 j b r k c s h ih =>
    have e1 : j = k := by by_contra e; exact h (Or.inl e)
    have e2 : b = c := by by_contra e; exact h (Or.inr e)
    rw [ih Canon.nil hr.tail hs.tail]
    simp [e1, e2]
  | case16 => simp

/-! ### quotients -/

theorem divLoop_some {m n q : Mono} (hm : Canon m) (hn : Canon n) (h : divLoop m n = some q) :
    q.mult + n.mult = m.mult ∧ q.map Prod.fst = m.map Prod.fst := by
  fun_induction divLoop m n generalizing q with
  | case1 l => injection h with h; subst h; simp
  | case2 => simp at h
  | case3 i a l j b r hlt ih =>
    simp only [Option.map_eq_some_iff] at h
    obtain ⟨q', hq', rfl⟩ := h
    have := ih hm.tail hn hq'
    refine ⟨?_, by simp [this.2]⟩
    have h1 := this.1
    simp only [mult_cons] at h1 ⊢
    rw [← h1]; abel
  | case4 => simp at h
  | case5 => simp at h
  | case6 i a l j b r h1 h2 h3 ih =>
    simp only [Option.map_eq_some_iff] at h
    obtain ⟨q', hq', rfl⟩ := h
    have := ih hm.tail hn.tail hq'
    have hij : i = j := by omega
    subst hij
    refine ⟨?_, by simp [this.2]⟩
    have hh := this.1
    simp only [mult_cons]
    have : a = (a - b) + b := by omega
    conv_rhs => rw [this, Finsupp.single_add, ← hh]
    abel

theorem divLoop_none {m n : Mono} (hm : Canon m) (hn : Canon n) (h : divLoop m n = none) :
    ¬ n.mult ≤ m.mult := by
  fun_induction divLoop m n with
  | case1 => simp at h
  | case2 p n =>
    intro hle
    have := hle p.1
    rw [mult_head hn] at this
    have h2 := (canon_cons.1 hn).2.1
    simp at this; omega
  | case3 i a l j b r hlt ih =>
    simp only [Option.map_eq_none_iff] at h
    intro hle
    refine ih hm.tail hn h ?_
    intro k
    have hk := hle k
    by_cases hki : k = i
    · subst hki
      have : (mult ((j, b) :: r)) k = 0 := by
        apply mult_apply_of_lt
        intro x hx
        rcases List.mem_cons.1 hx with rfl | hx
        · exact hlt
        · exact hlt.trans ((canon_cons.1 hn).2.2 x hx)
      rw [this]; exact Nat.zero_le _
    · rw [mult_cons (i, a), Finsupp.add_apply, Finsupp.single_apply, if_neg (by simpa using fun e => hki e.symm), zero_add] at hk
      exact hk
  | case4 i a l j b r h1 h2 =>
    intro hle
    have := hle j
    rw [mult_head hn, mult_apply_of_lt] at this
    · have h2 := (canon_cons.1 hn).2.1
      simp only at h2 this; omega
    · intro x hx
      rcases List.mem_cons.1 hx with rfl | hx
      · exact h2
      · exact h2.trans ((canon_cons.1 hm).2.2 x hx)
  | case5 i a l j b r h1 h2 h3 =>
    have hij : i = j := by omega
    subst hij
    intro hle
    have := hle i
    rw [mult_head hn, mult_head hm] at this
    simp only at this; omega
  | case6 i a l j b r h1 h2 h3 ih =>
    have hij : i = j := by omega
    subst hij
    simp only [Option.map_eq_none_iff] at h
    intro hle
    refine ih hm.tail hn.tail h ?_
    intro k
    have hk := hle k
    by_cases hki : k = i
    · subst hki
      rw [mult_apply_of_lt (canon_cons.1 hn).2.2]; exact Nat.zero_le _
    · simp only [mult_cons, Finsupp.add_apply, Finsupp.single_apply] at hk
      rw [if_neg (fun e => hki e.symm), if_neg (fun e => hki e.symm)] at hk
      simpa using hk

theorem divAtom_eq {m : Mono} (j : ℕ) (hm : Canon m) : divAtom j m = divLoop m [(j, 1)] ∨
    (divAtom j m = none ∧ divLoop m [(j, 1)] = none) := by
  left
  induction m with
  | nil => rw [divAtom, divLoop]
  | cons p m ih =>
    obtain ⟨i, a⟩ := p
    have hp := canon_cons.1 hm
    rw [divAtom, divLoop]
    by_cases hij : i = j
    · subst hij
      have : ¬ (1 > a) := by have := hp.2.1; simp only at this; omega
      simp only [lt_irrefl, if_true, if_false, this]
      have : divLoop m [] = some m := by cases m <;> rw [divLoop]
      rw [this]; simp
    · rw [if_neg hij, ih hp.1]
      by_cases hlt : i < j
      · rw [if_pos hlt]
      · rw [if_neg hlt, if_pos (show i > j by omega)]
        rw [Option.map_eq_none_iff]
        cases m with
        | nil => rw [divLoop]
        | cons q m =>
          obtain ⟨k, c⟩ := q
          have : i < k := hp.2.2 (k, c) (by simp)
          rw [divLoop, if_neg (by omega), if_pos (by omega)]

theorem divAtom_eq_divLoop {m : Mono} (j : ℕ) (hm : Canon m) : divAtom j m = divLoop m [(j, 1)] := by
  rcases divAtom_eq j hm with h | ⟨h1, h2⟩
  · exact h
  · rw [h1, h2]

theorem mult_dropZeros (m : Mono) : m.dropZeros.mult = m.mult := by
  induction m with
  | nil => rfl
  | cons p m ih =>
    unfold dropZeros at ih ⊢
    by_cases hp : p.2 = 0
    · rw [List.filter_cons_of_neg (by simpa using hp), ih, mult_cons, hp]; simp
    · rw [List.filter_cons_of_pos (by simpa using hp), mult_cons, mult_cons, ih]

theorem canon_dropZeros {m : Mono} (h : m.Pairwise fun p q => p.1 < q.1) : Canon m.dropZeros := by
  refine ⟨h.filter _, ?_⟩
  intro p hp
  have := (List.mem_filter.1 hp).2
  simp only [ne_eq, decide_not, Bool.not_eq_eq_eq_not, Bool.not_true, decide_eq_false_iff_not] at this
  omega

theorem sorted_of_map_fst {m q : Mono} (h : q.map Prod.fst = m.map Prod.fst)
    (hm : m.Pairwise fun p q => p.1 < q.1) : q.Pairwise fun p q => p.1 < q.1 := by
  rw [← List.pairwise_map (f := Prod.fst) (R := (· < ·))] at hm ⊢
  rwa [h]

end Mono
end ExactReal
