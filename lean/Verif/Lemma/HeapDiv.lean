import Verif.Lemma.HeapOps

/-! # Division on the heap -/

namespace ExactReal.Heap
open State

theorem toMono_divLoop (s : State) (f g : List (Ptr × ℕ)) :
    (s.divLoop f g).map s.toMono = Mono.divLoop (s.toMono f) (s.toMono g) := by
  fun_induction State.divLoop s f g with
  | case1 lhs => simp [toMono, Mono.divLoop]
  | case2 x l => simp [toMono, Mono.divLoop]
  | case3 i a lhs j b rhs hlt ih =>
    simp only [toMono, List.map_cons] at ih ⊢
    rw [Mono.divLoop, if_pos hlt, ← ih]; simp [Option.map_map]; rfl
  | case4 i a lhs j b rhs hlt he =>
    simp only [toMono, List.map_cons]
    rw [Mono.divLoop, if_neg hlt, if_pos he]; rfl
  | case5 i a lhs j b rhs hlt he hb =>
    simp only [toMono, List.map_cons]
    rw [Mono.divLoop, if_neg hlt, if_neg he, if_pos hb]; rfl
  | case6 i a lhs j b rhs hlt he hb ih =>
    simp only [toMono, List.map_cons] at ih ⊢
    rw [Mono.divLoop, if_neg hlt, if_neg he, if_neg hb, ← ih]; simp [Option.map_map]; rfl

theorem fst_divLoop (s : State) (f g : List (Ptr × ℕ)) {x : List (Ptr × ℕ)} (hx : s.divLoop f g = some x) :
    x.map Prod.fst = f.map Prod.fst := by
  fun_induction State.divLoop s f g generalizing x with
  | case1 lhs => simp at hx; rw [hx]
  | case2 y l => simp at hx
  | case3 i a lhs j b rhs hlt ih =>
    obtain ⟨y, hy, rfl⟩ := Option.map_eq_some_iff.1 hx
    simp [ih hy]
  | case4 i a lhs j b rhs hlt he => simp at hx
  | case5 i a lhs j b rhs hlt he hb => simp at hx
  | case6 i a lhs j b rhs hlt he hb ih =>
    obtain ⟨y, hy, rfl⟩ := Option.map_eq_some_iff.1 hx
    simp [ih hy]

theorem toMono_divAtom {s : State} (h : Inv s) {j : Ptr} (hj : (s.live j).isSome) (f : List (Ptr × ℕ))
    (hf : ∀ x ∈ f, (s.live x.1).isSome) : (s.divAtom j f).map s.toMono = Mono.divAtom (s.idOf j) (s.toMono f) := by
  induction f with
  | nil => simp [State.divAtom, toMono, Mono.divAtom]
  | cons a f ih =>
    rcases a with ⟨i, a⟩
    have hi := hf (i, a) (by simp)
    have ih' := ih fun x hx => hf x (by simp [hx])
    simp only [State.divAtom, toMono, List.map_cons, Mono.divAtom] at ih' ⊢
    have e : s.addrOf i = s.addrOf j ↔ s.idOf i = s.idOf j := by
      rw [addrOf_eq_iff h hi hj, idOf_eq h hi, idOf_eq h hj]
      exact ⟨fun hc => by rw [hc], Nat.add_left_cancel⟩
    by_cases hc : s.addrOf i = s.addrOf j
    · rw [if_pos hc, if_pos (e.1 hc)]; rfl
    · have hc' : ¬ s.idOf i = s.idOf j := fun hx => hc (e.2 hx)
      rw [if_neg hc, if_neg hc', ← ih']
      simp [Option.map_map]; rfl

theorem fst_divAtom (s : State) (j : Ptr) (f : List (Ptr × ℕ)) {x : List (Ptr × ℕ)} (hx : s.divAtom j f = some x) :
    x.map Prod.fst = f.map Prod.fst := by
  induction f generalizing x with
  | nil => simp [State.divAtom] at hx
  | cons a f ih =>
    rcases a with ⟨i, a⟩
    simp only [State.divAtom] at hx
    split_ifs at hx
    · injection hx with hx; subst hx; rfl
    · obtain ⟨y, hy, rfl⟩ := Option.map_eq_some_iff.1 hx
      simp [ih hy]

theorem toMono_filter (s : State) (f : List (Ptr × ℕ)) : s.toMono (f.filter fun x => x.2 ≠ 0) = (s.toMono f).dropZeros := by
  unfold toMono Mono.dropZeros
  rw [List.filter_map]; rfl

theorem rebuild_returns {s : State} (h : Inv s) {alloc : Alloc} (ha : alloc.Valid) {f x : List (Ptr × ℕ)} {hh : UInt64}
    (hok : s.DataOK (.product f hh)) (hx : x.map Prod.fst = f.map Prod.fst) (hb : (s.rebuild alloc x).1.next ≤ 2 ^ 64) :
    Returns s (s.rebuild alloc x) (RN.rebuild (s.toMono x)) := by
  have hatoms : ∀ y ∈ x, ∃ o, s.live y.1 = some o ∧ o.data.isAtom := by
    intro y hy
    have : y.1 ∈ f.map Prod.fst := by rw [← hx]; exact List.mem_map.2 ⟨y, hy, rfl⟩
    obtain ⟨z, hz, he⟩ := List.mem_map.1 this
    rw [← he]; exact hok.2.2 z hz
  have hsort : (s.toMono x).Pairwise fun p q => p.1 < q.1 := by
    apply Mono.sorted_of_map_fst (m := s.toMono f) _ hok.2.1.1.sorted
    have : ∀ g : List (Ptr × ℕ), (s.toMono g).map Prod.fst = (g.map Prod.fst).map s.idOf := by
      intro g; simp [toMono]
    rw [this, this, hx]
  have hdz := toMono_filter s x
  have hatoms' : ∀ y ∈ x.filter (fun x => x.2 ≠ 0), ∃ o, s.live y.1 = some o ∧ o.data.isAtom := fun y hy =>
    hatoms y (List.mem_of_mem_filter hy)
  have hcanon := Mono.canon_dropZeros hsort
  unfold State.rebuild at hb ⊢
  unfold RN.rebuild
  rw [← hdz] at hcanon ⊢
  generalize x.filter (fun x => decide (x.2 ≠ 0)) = g at *
  match g, hb, hatoms', hcanon with
  | [], hb, _, _ => exact rational_returns h ha 1 hb
  | [(i, 1)], hb, hat, _ =>
    obtain ⟨o, ho, hd⟩ := hat (i, 1) (by simp)
    have := Returns.self h (p := i) (by simp [ho])
    rw [rn_atom ho hd] at this
    simp only [toMono, List.map_cons, List.map_nil, idOf, ho]
    exact this
  | [(i, 0)], hb, hat, hcan =>
    have := hcan.pos (s.idOf i, 0) (by simp [toMono])
    simp at this
  | [(i, n + 2)], hb, hat, hcan =>
    refine productFactory_returns h ha [(i, n + 2)] ⟨rfl, ⟨hcan, ?_⟩, hat⟩ hb
    simp [toMono]
  | a :: b :: g, hb, hat, hcan =>
    rcases a with ⟨i, _ | _ | n⟩ <;>
    refine productFactory_returns h ha _ ⟨rfl, ⟨hcan, ?_⟩, hat⟩ hb
    all_goals
    have h1 := hcan.pos _ (by simp only [toMono, List.map_cons]; exact List.mem_cons_self)
    have h2 := hcan.pos (s.idOf b.1, b.2) (by simp [toMono])
    simp only [toMono, List.map_cons, List.sum_cons]
    simp only at h1 h2
    have : 0 ≤ ((g.map fun x => (s.idOf x.1, x.2)).map Prod.snd).sum := Nat.zero_le _
    omega

/-- The outcome of an operation that returns an optional pointer. -/
def RefinesOption (s : State) (r : State × Out (Option Ptr)) (x : Out (Option RN)) : Prop :=
  match r.2 with
  | .ok (some p) => ∃ y, x = .ok (some y) ∧ Returns s (r.1, p) y
  | .ok none => x = .ok none ∧ r.1 = s
  | .throws e => x = .throws e ∧ r.1 = s
  | _ => False

theorem rnDiv_not_prod {x y : RN} (hx : ∀ m, x ≠ .prod m) : RN.div x y = if x = y then .ok (some (.rat 1))
    else match y with | .rat q => if q = 1 then .ok (some x) else .throws .logicError | _ => .ok none := by
  cases x with
  | prod m => exact absurd rfl (hx m)
  | rat q => rfl
  | atom i => rfl

theorem div_refines {s : State} (h : Inv s) {alloc : Alloc} (ha : alloc.Valid) {p q : Ptr} (hp : (s.live p).isSome)
    (hq : (s.live q).isSome) (hb : (s.div alloc p q).1.next ≤ 2 ^ 64) :
    RefinesOption s (s.div alloc p q) (RN.div (s.rn p) (s.rn q)) := by
  obtain ⟨⟨a, i, d⟩, ho⟩ := Option.isSome_iff_exists.1 hp
  obtain ⟨⟨a', i', d'⟩, ho'⟩ := Option.isSome_iff_exists.1 hq
  by_cases hd : ∃ f hh, d = .product f hh
  · obtain ⟨f, hh, rfl⟩ := hd
    have hok := h.data_ok p _ ho
    simp only at hok
    have atomCase : (∀ r, d' ≠ .rational r) → (∀ g hg, d' ≠ .product g hg) →
        RefinesOption s (s.div alloc p q) (RN.div (s.rn p) (s.rn q)) := by
      intro n1 n2
      have hat : d'.isAtom := by
        cases d' with
        | rational r => exact absurd rfl (n1 r)
        | product g hg => exact absurd rfl (n2 g hg)
        | _ => trivial
      have e : s.div alloc p q = match s.divAtom q f with
          | some x => ((s.rebuild alloc x).1, .ok (some (s.rebuild alloc x).2))
          | none => (s, .ok none) := by
        cases hx : s.divAtom q f <;> cases d' <;> simp_all [State.div, Data.isAtom]
      rw [e] at hb ⊢
      have e2 := toMono_divAtom h hq f (DataOK.product_live hok)
      have hid : s.idOf q = i' := by simp [idOf, ho']
      rw [hid] at e2
      rw [rn_product ho rfl, rn_atom ho' hat]
      simp only [RN.div]
      rw [← e2]
      cases hx : s.divAtom q f with
      | none => exact ⟨rfl, rfl⟩
      | some x =>
        rw [hx] at hb
        exact ⟨_, rfl, rebuild_returns h ha hok (fst_divAtom s q f hx) hb⟩
    cases d' with
    | rational r =>
      have e : s.div alloc p q = if r = 1 then ({ s with roots := p :: s.roots }, .ok (some p)) else (s, .throws .logicError) := by
        simp [State.div, ho, ho']
      rw [e] at hb ⊢
      rw [rn_rational ho' rfl]
      have : RN.div (s.rn p) (.rat r) = if r = 1 then .ok (some (s.rn p)) else .throws .logicError := by
        rw [rn_product ho rfl]; rfl
      rw [this]
      split_ifs
      · exact ⟨_, rfl, Returns.self h hp⟩
      · exact ⟨rfl, rfl⟩
    | product g hg =>
      have e : s.div alloc p q = match s.divLoop f g with
          | some x => ((s.rebuild alloc x).1, .ok (some (s.rebuild alloc x).2))
          | none => (s, .ok none) := by
        cases hx : s.divLoop f g <;> simp [State.div, ho, ho', hx]
      rw [e] at hb ⊢
      rw [rn_product ho rfl, rn_product ho' rfl]
      simp only [RN.div]
      rw [← toMono_divLoop]
      cases hx : s.divLoop f g with
      | none => exact ⟨rfl, rfl⟩
      | some x =>
        rw [hx] at hb
        exact ⟨_, rfl, rebuild_returns h ha hok (fst_divLoop s f g hx) hb⟩
    | random t => exact atomCase (by simp) (by simp)
    | constrained t e n => exact atomCase (by simp) (by simp)
  · have np : ∀ m, s.rn p ≠ .prod m := by
      cases d with
      | product f hh => exact absurd ⟨f, hh, rfl⟩ hd
      | rational r => rw [rn_rational ho rfl]; simp
      | random t => rw [rn_atom ho trivial]; simp
      | constrained t e n => rw [rn_atom ho trivial]; simp
    have e : s.div alloc p q = if s.addrOf p = s.addrOf q then ((s.rational alloc 1).1, .ok (some (s.rational alloc 1).2))
        else match s.live q with
        | some ⟨_, _, .rational r⟩ => if r = 1 then ({ s with roots := p :: s.roots }, .ok (some p)) else (s, .throws .logicError)
        | _ => (s, .ok none) := by
      cases d with
      | product f hh => exact absurd ⟨f, hh, rfl⟩ hd
      | _ => cases d' <;> simp [State.div, ho, ho']
    rw [e] at hb ⊢
    rw [rnDiv_not_prod np]
    by_cases hpq : s.addrOf p = s.addrOf q
    · have := (addrOf_eq_iff h hp hq).1 hpq
      subst this
      simp only [if_true] at hb ⊢
      exact ⟨_, rfl, rational_returns h ha 1 hb⟩
    · have hne : s.rn p ≠ s.rn q := fun hc => hpq (by rw [rn_inj h hp hq hc])
      rw [if_neg hpq] at hb ⊢
      rw [if_neg hne]
      cases d' with
      | rational r =>
        simp only [ho', rn_rational ho' rfl]
        split_ifs
        · exact ⟨_, rfl, Returns.self h hp⟩
        · exact ⟨rfl, rfl⟩
      | product g hg => simp only [ho', rn_product ho' rfl]; exact ⟨rfl, rfl⟩
      | random t => simp only [ho']; rw [rn_atom ho' trivial]; exact ⟨rfl, rfl⟩
      | constrained t e n => simp only [ho']; rw [rn_atom ho' trivial]; exact ⟨rfl, rfl⟩

end ExactReal.Heap
