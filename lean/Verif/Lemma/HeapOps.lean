import Verif.Lemma.Heap

/-! # The operations on the heap do what the abstract operations do -/

namespace ExactReal.Heap
open State

/-- What an operation that returns an object for the abstract number `x` does. -/
structure Returns (s : State) (r : State × Ptr) (x : RN) : Prop where
  inv : Inv r.1
  ext : Ext s r.1
  rn : r.1.rn r.2 = x
  root : r.2 ∈ r.1.roots

theorem Returns.self {s : State} (h : Inv s) {p : Ptr} (hp : (s.live p).isSome) : Returns s ({ s with roots := p :: s.roots }, p) (s.rn p) :=
  ⟨inv_root h hp, ext_root s p, rn_ext h (ext_root s p) hp, by simp⟩

theorem rational_returns {s : State} (h : Inv s) {alloc : Alloc} (ha : alloc.Valid) (q : ℚ)
    (hb : (s.rational alloc q).1.next ≤ 2 ^ 64) : Returns s (s.rational alloc q) (.rat q) := by
  have g := rational_spec h ha q hb
  obtain ⟨o, ho, hd⟩ := g.data
  exact ⟨g.inv, g.ext, rn_rational ho hd, g.root⟩

theorem DataOK_ext {s s' : State} (he : Ext s s') {d : Data} (hd : s.DataOK d) : s'.DataOK d :=
  DataOK_congr (fun r hr => he.live_eq (hd.refs_live r hr)) hd

theorem toMono_ext {s s' : State} (he : Ext s s') {f : List (Ptr × ℕ)} (hf : ∀ x ∈ f, (s.live x.1).isSome) : s'.toMono f = s.toMono f :=
  toMono_congr fun x hx => he.live_eq (hf x hx)

theorem productFactory_returns {s : State} (h : Inv s) {alloc : Alloc} (ha : alloc.Valid) (f : List (Ptr × ℕ))
    (hd : s.DataOK (.product f (s.toMono f).hash)) (hb : (s.productFactory alloc f).1.next ≤ 2 ^ 64) :
    Returns s (s.productFactory alloc f) (.prod (s.toMono f)) := by
  have g := productFactory_spec h ha f hd hb
  obtain ⟨o, ho, ho'⟩ := g.data
  exact ⟨g.inv, g.ext, by rw [rn_product ho ho', toMono_ext g.ext (DataOK.product_live hd)], g.root⟩

/-! ### Multiplication -/

theorem toMono_merge (s : State) (f g : List (Ptr × ℕ)) : s.toMono (s.merge f g) = Mono.merge (s.toMono f) (s.toMono g) := by
  fun_induction State.merge s f g with
  | case1 rhs => simp [toMono, Mono.merge_nil_left]
  | case2 lhs h => simp [toMono, Mono.merge_nil_right]
  | case3 i a lhs j b rhs hlt ih => simp only [toMono, List.map_cons, Mono.merge_cons] at ih ⊢; simp [hlt, ih]
  | case4 i a lhs j b rhs hlt he ih => simp only [toMono, List.map_cons, Mono.merge_cons] at ih ⊢; simp [he, ih]
  | case5 i a lhs j b rhs hlt he ih => simp only [toMono, List.map_cons, Mono.merge_cons] at ih ⊢; simp [hlt, he, ih]

theorem mem_merge_fst (s : State) {f g : List (Ptr × ℕ)} {x : Ptr × ℕ} (hx : x ∈ s.merge f g) :
    (∃ y ∈ f, y.1 = x.1) ∨ (∃ y ∈ g, y.1 = x.1) := by
  fun_induction State.merge s f g with
  | case1 rhs => exact Or.inr ⟨x, hx, rfl⟩
  | case2 lhs h => exact Or.inl ⟨x, hx, rfl⟩
  | case3 i a lhs j b rhs hlt ih =>
    rcases List.mem_cons.1 hx with rfl | hx
    · exact Or.inl ⟨_, List.mem_cons_self, rfl⟩
    · rcases ih hx with ⟨y, hy, he⟩ | h
      · exact Or.inl ⟨y, List.mem_cons_of_mem _ hy, he⟩
      · exact Or.inr h
  | case4 i a lhs j b rhs hlt he ih =>
    rcases List.mem_cons.1 hx with rfl | hx
    · exact Or.inl ⟨_, List.mem_cons_self, rfl⟩
    · rcases ih hx with ⟨y, hy, he⟩ | ⟨y, hy, he⟩
      · exact Or.inl ⟨y, List.mem_cons_of_mem _ hy, he⟩
      · exact Or.inr ⟨y, List.mem_cons_of_mem _ hy, he⟩
  | case5 i a lhs j b rhs hlt he ih =>
    rcases List.mem_cons.1 hx with rfl | hx
    · exact Or.inr ⟨_, List.mem_cons_self, rfl⟩
    · rcases ih hx with h | ⟨y, hy, he⟩
      · exact Or.inl h
      · exact Or.inr ⟨y, List.mem_cons_of_mem _ hy, he⟩

/-- The live object at `p`, when it is not rational, in one of two forms. -/
theorem kinds {s : State} {p : Ptr} (hp : (s.live p).isSome) (hr : (s.rn p).isRat = false) :
    (∃ a i f hh, s.live p = some ⟨a, i, .product f hh⟩) ∨ (∃ o, s.live p = some o ∧ o.data.isAtom) := by
  obtain ⟨⟨a, i, d⟩, ho⟩ := Option.isSome_iff_exists.1 hp
  cases d with
  | rational q => rw [rn_rational ho rfl] at hr; simp [RN.isRat, RN.rational?] at hr
  | product f hh => exact Or.inl ⟨a, i, f, hh, ho⟩
  | random t => exact Or.inr ⟨_, ho, trivial⟩
  | constrained i e n => exact Or.inr ⟨_, ho, trivial⟩

theorem factorsOf_atom {s : State} {p : Ptr} {o : Obj} (ho : s.live p = some o) (hd : o.data.isAtom) : s.factorsOf p = [(p, 1)] := by
  rcases o with ⟨a, i, d⟩
  cases d <;> simp_all [factorsOf, Data.isAtom]

theorem hashOf_atom {s : State} {p : Ptr} {o : Obj} (ho : s.live p = some o) (hd : o.data.isAtom) : s.hashOf p = UInt64.ofNat o.id := by
  rcases o with ⟨a, i, d⟩
  cases d <;> simp_all [hashOf, idOf, Data.isAtom]

theorem toMono_factorsOf {s : State} {p : Ptr} (hp : (s.live p).isSome) (hr : (s.rn p).isRat = false) :
    s.toMono (s.factorsOf p) = (s.rn p).factors := by
  rcases kinds hp hr with ⟨a, i, f, hh, ho⟩ | ⟨o, ho, hd⟩
  · rw [rn_product ho rfl]; simp [factorsOf, ho, RN.factors]
  · rw [rn_atom ho hd, factorsOf_atom ho hd]; simp [toMono, RN.factors, idOf, ho]

theorem hashOf_eq {s : State} (h : Inv s) {p : Ptr} (hp : (s.live p).isSome) (hr : (s.rn p).isRat = false) :
    s.hashOf p = (s.rn p).hashOf := by
  rcases kinds hp hr with ⟨a, i, f, hh, ho⟩ | ⟨o, ho, hd⟩
  · rw [rn_product ho rfl]; simp only [hashOf, ho, RN.hashOf]; exact (h.data_ok p _ ho).1
  · rw [rn_atom ho hd, hashOf_atom ho hd]; rfl

theorem factorsOf_atoms {s : State} (h : Inv s) {p : Ptr} (hp : (s.live p).isSome) (hr : (s.rn p).isRat = false) :
    ∀ x ∈ s.factorsOf p, ∃ o, s.live x.1 = some o ∧ o.data.isAtom := by
  rcases kinds hp hr with ⟨a, i, f, hh, ho⟩ | ⟨o, ho, hd⟩
  · simp only [factorsOf, ho]
    exact (h.data_ok p _ ho).2.2
  · rw [factorsOf_atom ho hd]
    simp only [List.mem_singleton, forall_eq]
    exact ⟨o, ho, hd⟩

theorem persist_spec {s : State} (h : Inv s) {p q : Ptr} (hp : (s.live p).isSome) (hq : (s.live q).isSome)
    (rp : (s.rn p).isRat = false) (rq : (s.rn q).isRat = false) :
    RN.persist (s.rn p) (s.rn q) = .prod (s.toMono (s.persist p q).1) ∧ (s.persist p q).2 = RN.persistHash (s.rn p) (s.rn q) ∧
      ∀ x ∈ (s.persist p q).1, ∃ o, s.live x.1 = some o ∧ o.data.isAtom := by
  by_cases hpq : p = q
  · subst hpq
    rcases kinds hp rp with ⟨a, i, f, hh, ho⟩ | ⟨o, ho, hd⟩
    · rw [rn_product ho rfl]
      have hok := h.data_ok p _ ho
      simp only [State.persist, if_true, ho, RN.persist, RN.persistHash, hok.1]
      refine ⟨by simp [toMono, Mono.square], trivial, ?_⟩
      intro x hx
      obtain ⟨y, hy, rfl⟩ := List.mem_map.1 hx
      exact hok.2.2 y hy
    · have hpers : s.persist p p = ([(p, 2)], UInt64.ofNat o.id * UInt64.ofNat o.id) := by
        rcases o with ⟨a, i, d⟩
        cases d <;> simp_all [State.persist, idOf, Data.isAtom]
      rw [rn_atom ho hd, hpers]
      refine ⟨by simp [RN.persist, toMono, idOf, ho], by simp [RN.persistHash], ?_⟩
      simp only [List.mem_singleton, forall_eq]
      exact ⟨o, ho, hd⟩
  · have ha : s.addrOf p ≠ s.addrOf q := fun hc => hpq ((addrOf_eq_iff h hp hq).1 hc)
    have hr : s.rn p ≠ s.rn q := fun hc => hpq (rn_inj h hp hq hc)
    simp only [State.persist, if_neg ha, RN.persist, if_neg hr, RN.persistHash, RN.factorsHash]
    refine ⟨by rw [toMono_merge, toMono_factorsOf hp rp, toMono_factorsOf hq rq], by rw [hashOf_eq h hp rp, hashOf_eq h hq rq], ?_⟩
    intro x hx
    rcases mem_merge_fst s hx with ⟨y, hy, he⟩ | ⟨y, hy, he⟩
    · rw [← he]; exact factorsOf_atoms h hp rp y hy
    · rw [← he]; exact factorsOf_atoms h hq rq y hy

theorem mulFactory_returns {s : State} (h : Inv s) {alloc : Alloc} (ha : alloc.Valid) {p q : Ptr} (hp : (s.live p).isSome)
    (hq : (s.live q).isSome) (rp : (s.rn p).isRat = false) (rq : (s.rn q).isRat = false)
    (hb : (s.mulFactory alloc p q).1.next ≤ 2 ^ 64) : Returns s (s.mulFactory alloc p q) (RN.persist (s.rn p) (s.rn q)) := by
  obtain ⟨h1, h2, h3⟩ := persist_spec h hp hq rp rq
  have hwf := RN.persist_WF (rn_WF h p) (rn_WF h q) rp rq
  have hh : (s.persist p q).2 = (s.toMono (s.persist p q).1).hash := by
    rw [h2, RN.persistHash_eq _ _ rp, ← RN.factorsHash_eq _ _ rp rq, h1]; rfl
  rw [h1] at hwf
  have hd : s.DataOK (.product (s.persist p q).1 (s.persist p q).2) := ⟨hh, hwf, h3⟩
  have g : Got s (s.mulFactory alloc p q) (.product (s.persist p q).1 (s.persist p q).2) := by
    refine get_spec h ha (d := .product (s.persist p q).1 (s.persist p q).2) hd ?_ hb
    intro r o ho
    have hd' := h.data_ok r o ho
    cases hod : o.data with
    | product g hg =>
      rw [hod] at hd'
      simp only [keyOf, Bool.and_eq_true, decide_eq_true_eq, Data.product.injEq]
      rw [toMono_factorsOf hp rp, toMono_factorsOf hq rq, hashOf_eq h hp rp, hashOf_eq h hq rq,
        Mono.keyEq_iff (RN.factors_canon (rn_WF h p)) (RN.factors_canon (rn_WF h q)) hd'.2.1.1]
      have hm : s.toMono (s.persist p q).1 = Mono.merge (s.rn p).factors (s.rn q).factors := by
        apply Mono.Canon.mult_injective hwf.1
        · exact Mono.canon_merge (RN.factors_canon (rn_WF h p)) (RN.factors_canon (rn_WF h q))
        · rw [Mono.mult_merge, RN.factors_mult, RN.factors_mult, ← RN.mult_prod, ← h1, RN.persist_mult _ _ rp]
      have hfh : (s.rn p).hashOf * (s.rn q).hashOf = (s.persist p q).2 := by
        rw [h2, RN.persistHash_eq _ _ rp]; rfl
      rw [hfh, ← hm]
      constructor
      · rintro ⟨e1, e2⟩
        exact ⟨toMono_inj h (DataOK.product_live hd') (DataOK.product_live hd) e2, e1⟩
      · rintro ⟨e1, e2⟩
        exact ⟨e2, by rw [e1]⟩
    | _ => simp [keyOf]
  obtain ⟨o, ho, ho'⟩ := g.data
  exact ⟨g.inv, g.ext, by rw [rn_product ho ho', toMono_ext g.ext (DataOK.product_live hd), h1], g.root⟩

/-- The outcome of an operation that returns a pointer. -/
def Refines (s : State) (r : State × Out Ptr) (x : Out RN) : Prop :=
  match r.2 with
  | .ok p => ∃ y, x = .ok y ∧ Returns s (r.1, p) y
  | .throws e => x = .throws e ∧ r.1 = s
  | _ => False

theorem ratMul_refines {s : State} (h : Inv s) {alloc : Alloc} (ha : alloc.Valid) (x : ℚ) {q : Ptr} (hq : (s.live q).isSome)
    (hb : (s.ratMul alloc x q).1.next ≤ 2 ^ 64) : Refines s (s.ratMul alloc x q) (RN.ratMul x (s.rn q)) := by
  unfold State.ratMul at hb ⊢
  unfold RN.ratMul
  by_cases h1 : x = 1
  · simp only [h1, if_true]
    exact ⟨_, rfl, Returns.self h hq⟩
  · simp only [h1, if_false] at hb ⊢
    obtain ⟨⟨a, i, d⟩, ho⟩ := Option.isSome_iff_exists.1 hq
    cases d with
    | rational y =>
      simp only [ho] at hb ⊢
      rw [rn_rational ho rfl]
      exact ⟨_, rfl, rational_returns h ha _ hb⟩
    | product f hh => rw [rn_product ho rfl]; simp only [ho]; exact ⟨rfl, rfl⟩
    | random t => rw [rn_atom ho trivial]; simp only [ho]; exact ⟨rfl, rfl⟩
    | constrained t e n => rw [rn_atom ho trivial]; simp only [ho]; exact ⟨rfl, rfl⟩

theorem isRat_of {s : State} {p : Ptr} {o : Obj} (ho : s.live p = some o) (hd : ∀ q, o.data ≠ .rational q) : (s.rn p).isRat = false := by
  rcases o with ⟨a, i, d⟩
  cases d with
  | rational q => exact absurd rfl (hd q)
  | product f hh => rw [rn_product ho rfl]; rfl
  | random t => rw [rn_atom ho trivial]; rfl
  | constrained t e n => rw [rn_atom ho trivial]; rfl

theorem rnMul_of_not_rat {x y : RN} (hx : x.isRat = false) (hy : y.isRat = false) : RN.mul x y = .ok (RN.persist x y) := by
  cases x <;> cases y <;> simp_all [RN.mul, RN.isRat, RN.rational?]

theorem rnMul_rat_right {x : RN} {q : ℚ} (hx : x.isRat = false) : RN.mul x (.rat q) = RN.ratMul q x := by
  cases x <;> simp_all [RN.mul, RN.isRat, RN.rational?]

theorem mul_refines {s : State} (h : Inv s) {alloc : Alloc} (ha : alloc.Valid) {p q : Ptr} (hp : (s.live p).isSome)
    (hq : (s.live q).isSome) (hb : (s.mul alloc p q).1.next ≤ 2 ^ 64) : Refines s (s.mul alloc p q) (RN.mul (s.rn p) (s.rn q)) := by
  obtain ⟨⟨a, i, d⟩, ho⟩ := Option.isSome_iff_exists.1 hp
  obtain ⟨⟨a', i', d'⟩, ho'⟩ := Option.isSome_iff_exists.1 hq
  by_cases hd : ∃ x, d = .rational x
  · obtain ⟨x, rfl⟩ := hd
    simp only [State.mul, ho] at hb ⊢
    rw [rn_rational ho rfl]
    exact ratMul_refines h ha x hq hb
  · have hr := isRat_of ho (fun q hc => hd ⟨q, hc⟩)
    by_cases hd' : ∃ x, d' = .rational x
    · obtain ⟨x, rfl⟩ := hd'
      have e : s.mul alloc p q = s.ratMul alloc x p := by
        cases d <;> simp_all [State.mul]
      rw [e] at hb ⊢
      rw [rn_rational ho' rfl, rnMul_rat_right hr]
      exact ratMul_refines h ha x hp hb
    · have hr' := isRat_of ho' (fun q hc => hd' ⟨q, hc⟩)
      have e : s.mul alloc p q = ((s.mulFactory alloc p q).1, .ok (s.mulFactory alloc p q).2) := by
        cases d <;> cases d' <;> simp_all [State.mul]
      rw [e] at hb ⊢
      rw [rnMul_of_not_rat hr hr']
      exact ⟨_, rfl, mulFactory_returns h ha hp hq hr hr' hb⟩

end ExactReal.Heap
