import Verif.Lemma.Deglex

namespace ExactReal
open Finsupp
namespace RN

@[simp] theorem mult_rat (q : ℚ) : (rat q).mult = 0 := rfl
@[simp] theorem mult_atom (i : ℕ) : (atom i).mult = single i 1 := rfl
@[simp] theorem mult_prod (m : Mono) : (prod m).mult = m.mult := rfl

theorem degree_prod {m : Mono} (h : (prod m).WF) : 2 ≤ m.mult.degree := by
  rw [← Mono.degree_eq]; exact h.2

theorem prod_degree_pos {m : Mono} (h : (prod m).WF) : m.mult ≠ 0 := by
  intro e
  have := degree_prod h
  rw [e] at this; simp at this

/-- A non-rational number has at least one atom. -/
theorem mult_ne_zero {x : RN} (h : x.WF) (hx : x.isRat = false) : x.mult ≠ 0 := by
  cases x with
  | rat q => simp [isRat, rational?] at hx
  | atom i => simp
  | prod m => exact prod_degree_pos h

theorem isRat_iff {x : RN} (h : x.WF) : x.isRat = true ↔ x.mult = 0 := by
  constructor
  · intro hx
    cases x with
    | rat q => rfl
    | atom i => simp [isRat, rational?] at hx
    | prod m => simp [isRat, rational?] at hx
  · intro hx
    by_contra hn
    exact mult_ne_zero h (by simpa using hn) hx

/-- Non-rational numbers are determined by the multiplicities of their atoms. -/
theorem mult_injective {x y : RN} (hx : x.WF) (hy : y.WF) (h : x.mult = y.mult) (hr : x.isRat = false) : x = y := by
  have h0 := mult_ne_zero hx hr
  cases x with
  | rat q => simp at h0
  | atom i =>
    cases y with
    | rat q => exact absurd h h0
    | atom j =>
      simp only [mult_atom] at h
      rw [Finsupp.single_left_inj (by norm_num)] at h
      rw [h]
    | prod m =>
      have := degree_prod hy
      simp only [mult_atom, mult_prod] at h
      rw [← h] at this; simp at this
  | prod m =>
    cases y with
    | rat q => exact absurd h h0
    | atom j =>
      have := degree_prod hx
      simp only [mult_atom, mult_prod] at h
      rw [h] at this; simp at this
    | prod n =>
      simp only [mult_prod] at h
      rw [hx.1.mult_injective hy.1 h]

theorem factors_mult (x : RN) : x.factors.mult = x.mult := by
  cases x <;> simp [factors]

theorem factors_canon {x : RN} (h : x.WF) : x.factors.Canon := by
  cases x with
  | rat q => exact Mono.Canon.nil
  | atom i => exact Mono.canon_cons.2 ⟨Mono.Canon.nil, by simp, by simp⟩
  | prod m => exact h.1

theorem persist_mult (x y : RN) (hx : x.isRat = false) : (persist x y).mult = x.mult + y.mult := by
  unfold persist
  split_ifs with h
  · subst h
    cases x with
    | rat q => simp [isRat, rational?] at hx
    | atom i => simp [← Finsupp.single_add]
    | prod m => simp [Mono.mult_square]
  · simp [Mono.mult_merge, factors_mult]

theorem persist_isProd (x y : RN) (hx : x.isRat = false) : ∃ m, persist x y = prod m := by
  unfold persist
  split_ifs with h
  · subst h
    cases x with
    | rat q => simp [isRat, rational?] at hx
    | atom i => exact ⟨_, rfl⟩
    | prod m => exact ⟨_, rfl⟩
  · exact ⟨_, rfl⟩

theorem persist_canon {x y : RN} (hx : x.WF) (hy : y.WF) {m : Mono} (h : persist x y = prod m) : m.Canon := by
  unfold persist at h
  split_ifs at h with e
  · subst e
    cases x with
    | rat q => simp at h
    | atom i =>
      simp only [prod.injEq] at h; subst h
      exact Mono.canon_cons.2 ⟨Mono.Canon.nil, by simp, by simp⟩
    | prod m =>
      simp only [prod.injEq] at h; subst h
      exact Mono.canon_square hx.1
  · simp only [prod.injEq] at h; subst h
    exact Mono.canon_merge (factors_canon hx) (factors_canon hy)

theorem degree_pos_of_ne_zero {f : ℕ →₀ ℕ} (h : f ≠ 0) : 1 ≤ f.degree := by
  have : f.degree ≠ 0 := fun e => h ((degree_eq_zero_iff f).1 e)
  omega

theorem persist_WF {x y : RN} (hx : x.WF) (hy : y.WF) (rx : x.isRat = false) (ry : y.isRat = false) : (persist x y).WF := by
  obtain ⟨m, hm⟩ := persist_isProd x y rx
  have := persist_mult x y rx
  rw [hm] at this ⊢
  refine ⟨persist_canon hx hy hm, ?_⟩
  rw [Mono.degree_eq]
  simp only [mult_prod] at this
  rw [this, map_add]
  have h1 := degree_pos_of_ne_zero (mult_ne_zero hx rx)
  have h2 := degree_pos_of_ne_zero (mult_ne_zero hy ry)
  omega

/-- The rational factor of a number: rationals contribute themselves, everything else contributes 1. -/
def coef : RN → ℚ
  | rat q => q
  | _ => 1

theorem value_eq {A : Type*} [CommRing A] [Algebra ℚ A] (v : ℕ → A) (x : RN) :
    x.value v = algebraMap ℚ A x.coef * x.mult.prod fun i e => v i ^ e := by
  cases x with
  | rat q => simp [value, coef]
  | atom i => simp [value, coef]
  | prod m => simp [value, coef, Mono.value_eq_mult]

theorem coef_of_not_rat {x : RN} (h : x.isRat = false) : x.coef = 1 := by
  cases x <;> simp_all [coef, isRat, rational?]

/-- Two well-formed numbers are equal iff they have the same atoms and the same rational factor. -/
theorem ext_iff' {x y : RN} (hx : x.WF) (hy : y.WF) : x = y ↔ x.mult = y.mult ∧ x.coef = y.coef := by
  constructor
  · rintro rfl; exact ⟨rfl, rfl⟩
  · rintro ⟨h1, h2⟩
    cases hr : x.isRat
    · exact mult_injective hx hy h1 hr
    · have hy' : y.isRat = true := by rw [isRat_iff hy, ← h1]; exact (isRat_iff hx).1 hr
      cases x <;> simp [isRat, rational?] at hr
      cases y <;> simp [isRat, rational?] at hy'
      simpa [coef] using h2

/-- When does `*` return, and what. -/
theorem mul_eq_ok {x y z : RN} (hx : x.WF) (hy : y.WF) (h : mul x y = .ok z) :
    z.WF ∧ z.mult = x.mult + y.mult ∧ z.coef = x.coef * y.coef := by
  cases x with
  | rat p =>
    simp only [mul, ratMul] at h
    split_ifs at h with hp
    · simp only [Out.ok.injEq] at h; subst h; subst hp
      exact ⟨hy, by simp, by simp [coef]⟩
    · cases y with
      | rat q => simp only [Out.ok.injEq] at h; subst h; exact ⟨trivial, by simp, rfl⟩
      | atom i => simp at h
      | prod m => simp at h
  | atom i =>
    cases y with
    | rat q =>
      simp only [mul, ratMul] at h
      split_ifs at h with hp
      · simp only [Out.ok.injEq] at h; subst h; subst hp
        exact ⟨trivial, by simp, by simp [coef]⟩
    | atom j =>
      simp only [mul, Out.ok.injEq] at h; subst h
      refine ⟨persist_WF hx hy rfl rfl, persist_mult _ _ rfl, ?_⟩
      obtain ⟨m, hm⟩ := persist_isProd (atom i) (atom j) rfl
      rw [hm]; simp [coef]
    | prod n =>
      simp only [mul, Out.ok.injEq] at h; subst h
      refine ⟨persist_WF hx hy rfl rfl, persist_mult _ _ rfl, ?_⟩
      obtain ⟨m, hm⟩ := persist_isProd (atom i) (prod n) rfl
      rw [hm]; simp [coef]
  | prod l =>
    cases y with
    | rat q =>
      simp only [mul, ratMul] at h
      split_ifs at h with hp
      · simp only [Out.ok.injEq] at h; subst h; subst hp
        exact ⟨hx, by simp, by simp [coef]⟩
    | atom j =>
      simp only [mul, Out.ok.injEq] at h; subst h
      refine ⟨persist_WF hx hy rfl rfl, persist_mult _ _ rfl, ?_⟩
      obtain ⟨m, hm⟩ := persist_isProd (prod l) (atom j) rfl
      rw [hm]; simp [coef]
    | prod n =>
      simp only [mul, Out.ok.injEq] at h; subst h
      refine ⟨persist_WF hx hy rfl rfl, persist_mult _ _ rfl, ?_⟩
      obtain ⟨m, hm⟩ := persist_isProd (prod l) (prod n) rfl
      rw [hm]; simp [coef]

/-- The inputs on which `*` is implemented: both rational, or no rational other than 1 is involved. -/
def mulDefined (x y : RN) : Prop := (x.isRat = true ∧ y.isRat = true) ∨ (x.coef = 1 ∧ y.coef = 1)

theorem mul_isOk_iff (x y : RN) : (∃ z, mul x y = .ok z) ↔ mulDefined x y := by
  unfold mulDefined
  cases x with
  | rat p =>
    by_cases hp : p = 1
    · cases y <;> simp [mul, ratMul, hp, isRat, rational?, coef]
    · cases y <;> simp [mul, ratMul, hp, isRat, rational?, coef]
  | atom i =>
    cases y with
    | rat q => by_cases hq : q = 1 <;> simp [mul, ratMul, hq, isRat, rational?, coef]
    | atom j => simp [mul, isRat, rational?, coef]
    | prod n => simp [mul, isRat, rational?, coef]
  | prod l =>
    cases y with
    | rat q => by_cases hq : q = 1 <;> simp [mul, ratMul, hq, isRat, rational?, coef]
    | atom j => simp [mul, isRat, rational?, coef]
    | prod n => simp [mul, isRat, rational?, coef]

theorem mul_ok_or_throws (x y : RN) : (∃ z, mul x y = .ok z) ∨ mul x y = .throws .logicError := by
  cases x with
  | rat p => by_cases hp : p = 1 <;> cases y <;> simp [mul, ratMul, hp]
  | atom i => cases y with
    | rat q => by_cases hq : q = 1 <;> simp [mul, ratMul, hq]
    | _ => simp [mul]
  | prod i => cases y with
    | rat q => by_cases hq : q = 1 <;> simp [mul, ratMul, hq]
    | _ => simp [mul]

/-- Characterization: `*` returns `z` iff it is implemented and `z` has the summed atoms and multiplied rational factors. -/
theorem mul_eq_ok_iff {x y z : RN} (hx : x.WF) (hy : y.WF) (hz : z.WF) :
    mul x y = .ok z ↔ mulDefined x y ∧ z.mult = x.mult + y.mult ∧ z.coef = x.coef * y.coef := by
  constructor
  · intro h
    exact ⟨(mul_isOk_iff x y).1 ⟨z, h⟩, (mul_eq_ok hx hy h).2⟩
  · rintro ⟨h1, h2, h3⟩
    obtain ⟨z', hz'⟩ := (mul_isOk_iff x y).2 h1
    obtain ⟨w, h4, h5⟩ := mul_eq_ok hx hy hz'
    rw [hz', (ext_iff' w hz).2 ⟨by rw [h4, h2], by rw [h5, h3]⟩]

theorem mulDefined_comm {x y : RN} : mulDefined x y ↔ mulDefined y x := by
  unfold mulDefined; tauto

/-- Rebuilding a number from a quotient vector. -/
theorem rebuild_spec {q : Mono} (h : q.Pairwise fun p q => p.1 < q.1) :
    (rebuild q).WF ∧ (rebuild q).mult = q.mult ∧ (rebuild q).coef = 1 := by
  have hc := Mono.canon_dropZeros h
  have hm := Mono.mult_dropZeros q
  unfold rebuild
  generalize q.dropZeros = r at hc hm
  rw [← hm]
  split
  · exact ⟨trivial, by simp, rfl⟩
  · refine ⟨trivial, by simp, rfl⟩
  · rename_i h0 h1
    refine ⟨⟨hc, ?_⟩, rfl, rfl⟩
    match r, hc, h0, h1 with
    | [], _, h0, _ => exact absurd rfl h0
    | [(i, e)], hc, _, h1 =>
      have := hc.pos (i, e) (by simp)
      have h2 : e ≠ 1 := by rintro rfl; exact h1 i rfl
      simp only [List.map_cons, List.map_nil, List.sum_cons, List.sum_nil]
      simp only at this
      omega
    | a :: b :: r, hc, _, _ =>
      have h1 := hc.pos a (by simp)
      have h2 := hc.pos b (by simp)
      simp only [List.map_cons, List.sum_cons]
      omega

theorem div_eq_some {x y q : RN} (hx : x.WF) (hy : y.WF) (h : div x y = .ok (some q)) :
    q.WF ∧ mul q y = .ok x := by
  have main : ∀ (m n p : Mono), m.Canon → n.Canon → Mono.divLoop m n = some p → (rebuild p).WF ∧
      (rebuild p).mult + n.mult = m.mult ∧ (rebuild p).coef = 1 := by
    intro m n p hm hn hp
    have h1 := Mono.divLoop_some hm hn hp
    have h2 := rebuild_spec (Mono.sorted_of_map_fst h1.2 hm.sorted)
    exact ⟨h2.1, by rw [h2.2.1]; exact h1.1, h2.2.2⟩
  cases x with
  | prod m =>
    cases y with
    | rat p =>
      simp only [div] at h
      split_ifs at h with hp
      · simp only [Out.ok.injEq, Option.some.injEq] at h; subst h; subst hp
        exact ⟨hx, by simp [mul, ratMul]⟩
    | atom j =>
      simp only [div, Out.ok.injEq, Option.map_eq_some_iff] at h
      obtain ⟨p, hp, rfl⟩ := h
      rw [Mono.divAtom_eq_divLoop j hx.1] at hp
      obtain ⟨h1, h2, h3⟩ := main _ _ _ hx.1 (Mono.canon_cons.2 ⟨Mono.Canon.nil, by simp, by simp⟩) hp
      refine ⟨h1, (mul_eq_ok_iff h1 hy hx).2 ⟨Or.inr ⟨h3, rfl⟩, ?_, ?_⟩⟩
      · simpa using h2.symm
      · rw [h3]; simp [coef]
    | prod n =>
      simp only [div, Out.ok.injEq, Option.map_eq_some_iff] at h
      obtain ⟨p, hp, rfl⟩ := h
      obtain ⟨h1, h2, h3⟩ := main _ _ _ hx.1 hy.1 hp
      refine ⟨h1, (mul_eq_ok_iff h1 hy hx).2 ⟨Or.inr ⟨h3, rfl⟩, ?_, ?_⟩⟩
      · simpa using h2.symm
      · rw [h3]; simp [coef]
  | rat p =>
    simp only [div] at h
    split_ifs at h with e
    · simp only [Out.ok.injEq, Option.some.injEq] at h; subst h; subst e
      exact ⟨trivial, by simp [mul, ratMul]⟩
    · cases y with
      | rat p' =>
        simp only at h
        split_ifs at h with hp
        · simp only [Out.ok.injEq, Option.some.injEq] at h; subst h; subst hp
          exact ⟨trivial, by by_cases hp : p = 1 <;> simp [mul, ratMul, hp]⟩
      | atom j => simp at h
      | prod n => simp at h
  | atom i =>
    simp only [div] at h
    split_ifs at h with e
    · simp only [Out.ok.injEq, Option.some.injEq] at h; subst h; subst e
      exact ⟨trivial, by simp [mul, ratMul]⟩
    · cases y with
      | rat p' =>
        simp only at h
        split_ifs at h with hp
        · simp only [Out.ok.injEq, Option.some.injEq] at h; subst h; subst hp
          exact ⟨trivial, by simp [mul, ratMul]⟩
      | atom j => simp at h
      | prod n => simp at h

theorem div_eq_none {x y : RN} (hx : x.WF) (hy : y.WF) (h : div x y = .ok none) (q : RN) (hq : q.WF) :
    mul q y ≠ .ok x := by
  intro hm
  obtain ⟨-, h1, h2⟩ := mul_eq_ok hq hy hm
  have hle : y.mult ≤ x.mult := by rw [h1]; exact le_add_self
  cases x with
  | prod m =>
    cases y with
    | rat p =>
      simp only [div] at h
      split_ifs at h
      simp at h
    | atom j =>
      simp only [div, Out.ok.injEq, Option.map_eq_none_iff] at h
      rw [Mono.divAtom_eq_divLoop j hx.1] at h
      refine Mono.divLoop_none hx.1 (Mono.canon_cons.2 ⟨Mono.Canon.nil, by simp, by simp⟩) h ?_
      simpa using hle
    | prod n =>
      simp only [div, Out.ok.injEq, Option.map_eq_none_iff] at h
      exact Mono.divLoop_none hx.1 hy.1 h hle
  | rat p =>
    have hy0 : y.mult = 0 := by
      have : y.mult ≤ 0 := hle
      exact le_antisymm this (zero_le)
    have hyr := (isRat_iff hy).2 hy0
    cases y <;> simp [isRat, rational?] at hyr
    simp only [div] at h
    split_ifs at h <;> simp at h
  | atom i =>
    simp only [div] at h
    split_ifs at h with e
    · simp at h
    cases y with
    | rat p =>
      simp only at h
      split_ifs at h
      simp at h
    | atom j =>
      have := hle j
      simp only [mult_atom, single_eq_same, Finsupp.single_apply] at this
      split_ifs at this with hij
      · subst hij; exact e rfl
      · omega
    | prod n =>
      have h3 := degree_prod hy
      have : (n.mult).degree ≤ (single i 1 : ℕ →₀ ℕ).degree := by
        simp only [mult_prod, mult_atom] at h1
        rw [h1, map_add]; omega
      simp at this; omega

theorem div_outcomes (x y : RN) : (∃ r, div x y = .ok r) ∨ div x y = .throws .logicError := by
  cases x with
  | prod m => cases y with
    | rat p => by_cases hp : p = 1 <;> simp [div, hp]
    | _ => simp [div]
  | rat m => cases y with
    | rat p => by_cases hp : p = 1 <;> by_cases e : m = p <;> simp_all [div]
    | _ => simp [div]
  | atom m => cases y with
    | rat p => by_cases hp : p = 1 <;> simp [div, hp]
    | atom j => by_cases e : m = j <;> simp_all [div]
    | _ => simp [div]

theorem div_throws_iff (x y : RN) : div x y = .throws .logicError ↔ x ≠ y ∧ ∃ q, y = rat q ∧ q ≠ 1 := by
  cases x with
  | prod m => cases y with
    | rat p => by_cases hp : p = 1 <;> simp [div, hp]
    | _ => simp [div]
  | rat m => cases y with
    | rat p => by_cases hp : p = 1 <;> by_cases e : m = p <;> simp_all [div]
    | _ => simp [div]
  | atom m => cases y with
    | rat p => by_cases hp : p = 1 <;> simp [div, hp]
    | atom j => by_cases e : m = j <;> simp_all [div]
    | _ => simp [div]

/-! ### deglex -/

theorem deglex_spec {x y : RN} (hx : x.WF) (hy : y.WF) :
    ∃ b, deglex x y = .ok b ∧ (b = true ↔ Precedes x.mult y.mult) := by
  by_cases e : x = y
  · subst e
    refine ⟨false, by simp [deglex], ?_⟩
    simpa using Precedes.irrefl x.mult
  · cases x with
    | prod m =>
      cases y with
      | prod n =>
        obtain ⟨b, hb, h⟩ := Mono.deglex_spec hx.1 hy.1 (fun h => e (by rw [h]))
        refine ⟨b, ?_, h⟩
        unfold deglex; rw [if_neg e]; exact hb
      | rat q =>
        refine ⟨false, by simp [deglex], ?_⟩
        simp only [Bool.false_eq_true, false_iff]
        exact (Precedes.zero_of_ne (prod_degree_pos hx)).asymm
      | atom j =>
        refine ⟨false, by simp [deglex], ?_⟩
        simp only [Bool.false_eq_true, false_iff]
        apply Precedes.asymm
        left
        have := degree_prod hx
        simp; omega
    | rat q =>
      cases y with
      | prod n =>
        refine ⟨true, by simp [deglex], ?_⟩
        simpa using Precedes.zero_of_ne (prod_degree_pos hy)
      | rat q' =>
        refine ⟨false, by simp [deglex, isRat, rational?], ?_⟩
        simpa using Precedes.irrefl 0
      | atom j =>
        refine ⟨true, by simp [deglex, isRat, rational?], ?_⟩
        simpa using Precedes.zero_of_ne (f := single j 1) (by simp)
    | atom i =>
      cases y with
      | prod n =>
        refine ⟨true, by simp [deglex], ?_⟩
        simp only [true_iff]
        left
        have := degree_prod hy
        simp; omega
      | rat q' =>
        refine ⟨false, by simp [deglex], ?_⟩
        simp only [Bool.false_eq_true, false_iff]
        exact (Precedes.zero_of_ne (f := single i 1) (by simp)).asymm
      | atom j =>
        refine ⟨decide (i < j), by unfold deglex; rw [if_neg e], ?_⟩
        have hij : i ≠ j := fun h => e (by rw [h])
        simp only [decide_eq_true_eq, mult_atom]
        constructor
        · intro hlt
          right
          refine ⟨by simp, i, ?_, ?_⟩
          · intro k hk; rw [Finsupp.single_apply, Finsupp.single_apply, if_neg (by omega), if_neg (by omega)]
          · rw [Finsupp.single_apply, Finsupp.single_apply, if_neg (by omega), if_pos rfl]; omega
        · rintro (h | ⟨-, k, h1, h2⟩)
          · simp at h
          · rw [Finsupp.single_apply, Finsupp.single_apply] at h2
            by_contra hlt
            have hik : i = k := by
              by_contra hc; rw [if_neg hc] at h2; omega
            subst hik
            have := h1 j (by omega)
            rw [Finsupp.single_apply, Finsupp.single_apply, if_neg (by omega), if_pos rfl] at this
            omega

theorem lt_iff {x y : RN} (hx : x.WF) (hy : y.WF) : lt x y = true ↔ Precedes x.mult y.mult := by
  obtain ⟨b, hb, h⟩ := deglex_spec hx hy
  rw [← h, lt, hb]
  cases b <;> simp <;> decide

end RN
end ExactReal
