import Verif.Lemma.HeapResult
import Verif.Lemma.Module
import Verif.Model.ModuleHeap

/-! # Histories with modules -/

namespace ExactReal.Heap
open State

variable {P : Type} [DecidableEq P]

theorem rn_later {s s' : State} (h : Inv s) (h' : Inv s') (hl : Later s s') {p : Ptr} (hp : (s.live p).isSome)
    (hp' : (s'.live p).isSome) : s'.rn p = s.rn p ∧ s'.idOf p = s.idOf p := by
  have back : ∀ {q o}, (s.live q).isSome → s'.live q = some o → s.live q = some o := by
    intro q o hq hq'
    obtain ⟨o1, h1⟩ := Option.isSome_iff_exists.1 hq
    exact hl.live q o hq' (h.obj_id q o1 h1).1
  obtain ⟨⟨a, i, d⟩, ho⟩ := Option.isSome_iff_exists.1 hp'
  have ho' := back hp ho
  have hid : s'.idOf p = s.idOf p := by simp [State.idOf, ho, ho']
  refine ⟨?_, hid⟩
  cases d with
  | rational q => rw [rn_rational ho rfl, rn_rational ho' rfl]
  | random q => rw [rn_atom ho trivial, rn_atom ho' trivial]
  | constrained x e n => rw [rn_atom ho trivial, rn_atom ho' trivial]
  | product f hh =>
    rw [rn_product ho rfl, rn_product ho' rfl, toMono_congr]
    intro x hx
    have l1 := DataOK.product_live (h'.data_ok p _ ho) x hx
    have l0 := DataOK.product_live (h.data_ok p _ ho') x hx
    obtain ⟨o1, h1⟩ := Option.isSome_iff_exists.1 l1
    rw [h1, back l0 h1]

/-! ### Roots -/

/-- Events other than dropping a reference only add references. -/
def Grows (s s' : State) : Prop := ∃ l, s'.roots = l ++ s.roots

theorem Grows.rfl {s : State} : Grows s s := ⟨[], by simp⟩
theorem Grows.trans {a b c : State} (h : Grows a b) (h' : Grows b c) : Grows a c := by
  obtain ⟨l, hl⟩ := h; obtain ⟨l', hl'⟩ := h'
  exact ⟨l' ++ l, by rw [hl', hl, List.append_assoc]⟩

theorem Grows.count {s s' : State} (h : Grows s s') (p : Ptr) : s.roots.count p ≤ s'.roots.count p := by
  obtain ⟨l, hl⟩ := h
  rw [hl, List.count_append]
  exact Nat.le_add_left _ _

theorem grows_get (s : State) (alloc : Alloc) (isKey : Key → Bool) (k : Key) (d : Data) : Grows s (s.get alloc isKey k d).1 := by
  unfold State.get
  split
  · exact ⟨[_], rfl⟩
  · exact ⟨[_], rfl⟩

theorem grows_root (s : State) (p : Ptr) : Grows s { s with roots := p :: s.roots } := ⟨[p], rfl⟩

theorem grows_rebuild (s : State) (alloc : Alloc) (f : List (Ptr × ℕ)) : Grows s (s.rebuild alloc f).1 := by
  unfold State.rebuild
  split
  · exact grows_get _ _ _ _ _
  · exact grows_root _ _
  · exact grows_get _ _ _ _ _

theorem grows_ratMul (s : State) (alloc : Alloc) (x : ℚ) (q : Ptr) : Grows s (s.ratMul alloc x q).1 := by
  unfold State.ratMul
  split_ifs
  · exact grows_root _ _
  · split
    · exact grows_get _ _ _ _ _
    · exact Grows.rfl

theorem grows_step {gen : Generators} {alloc : Alloc} {s s' : State} {e : Event} {r : Res} (he : ∀ p, e ≠ .drop p)
    (h : step gen alloc s e = some (s', r)) : Grows s s' := by
  cases e with
  | rational q => simp only [step, Option.some.injEq, Prod.mk.injEq] at h; rw [← h.1]; exact grows_get _ _ _ _ _
  | random q => simp only [step, Option.some.injEq, Prod.mk.injEq] at h; rw [← h.1]; exact grows_get _ _ _ _ _
  | randomIn l u q =>
    simp only [step, Option.some.injEq, Prod.mk.injEq] at h; rw [← h.1]
    unfold State.randomIn
    split
    · exact grows_get _ _ _ _ _
    · exact ⟨[_], erase_inner _ _ _ _ _⟩
    all_goals exact Grows.rfl
  | mul p q =>
    simp only [step] at h
    split_ifs at h
    simp only [Option.some.injEq, Prod.mk.injEq] at h; rw [← h.1]
    unfold State.mul
    split
    · exact grows_ratMul _ _ _ _
    · split
      · exact grows_ratMul _ _ _ _
      · exact grows_get _ _ _ _ _
  | div p q =>
    simp only [step] at h
    split_ifs at h
    simp only [Option.some.injEq, Prod.mk.injEq] at h; rw [← h.1]
    unfold State.div
    split
    · split
      · split_ifs
        · exact grows_root _ _
        · exact Grows.rfl
      · split
        · exact grows_rebuild _ _ _
        · exact Grows.rfl
      · split
        · exact grows_rebuild _ _ _
        · exact Grows.rfl
    · split_ifs
      · exact grows_get _ _ _ _ _
      · split
        · split_ifs
          · exact grows_root _ _
          · exact Grows.rfl
        · exact Grows.rfl
  | copy p =>
    simp only [step] at h
    split_ifs at h
    simp only [Option.some.injEq, Prod.mk.injEq] at h; rw [← h.1]; exact grows_root _ _
  | drop p => exact absurd rfl (he p)
  | destroy p =>
    simp only [step] at h
    split_ifs at h
    simp only [Option.some.injEq, Prod.mk.injEq] at h; rw [← h.1]; exact ⟨[], rfl⟩
  | forget k p =>
    simp only [step] at h
    split_ifs at h
    simp only [Option.some.injEq, Prod.mk.injEq] at h; rw [← h.1]; exact ⟨[], rfl⟩

mutual
theorem grows_load (alloc : Alloc) (s : State) (tab : List (ℕ × Ptr)) (t : Tree) : Grows s (s.load alloc tab t).1 := by
  match t with
  | .shared id => exact Grows.rfl
  | .rational id q => rw [State.load]; exact grows_get _ _ _ _ _
  | .random id q => rw [State.load]; exact grows_get _ _ _ _ _
  | .constrained id i e t =>
    have := grows_load alloc s tab t
    rw [State.load]
    split
    · rename_i h; rw [h] at this; exact this.trans (grows_get _ _ _ _ _)
    · rename_i h; rw [h] at this; exact this
  | .product id ts =>
    have := grows_loadAll alloc s tab [] ts
    rw [State.load]
    split
    · rename_i h; rw [h] at this; exact this.trans (grows_get _ _ _ _ _)
    · rename_i h; rw [h] at this; exact this
theorem grows_loadAll (alloc : Alloc) (s : State) (tab : List (ℕ × Ptr)) (f : List (Ptr × ℕ)) (ts : Trees) :
    Grows s (s.loadAll alloc tab f ts).1 := by
  match ts with
  | .nil => exact Grows.rfl
  | .cons t e rest =>
    have := grows_load alloc s tab t
    rw [State.loadAll]
    split
    · rename_i h; rw [h] at this; exact this.trans (grows_loadAll _ _ _ _ _)
    · rename_i h; rw [h] at this; exact this
end

theorem loadBasis_mono (alloc : Alloc) (ts : List Tree) : ∀ (s : State) (tab : List (ℕ × Ptr)),
    Grows s (s.loadBasis alloc tab ts).1 ∧ Later s (s.loadBasis alloc tab ts).1 ∧ s.next ≤ (s.loadBasis alloc tab ts).1.next := by
  induction ts with
  | nil => intro s tab; exact ⟨Grows.rfl, Later.rfl, le_rfl⟩
  | cons t ts ih =>
    intro s tab
    have h1 := grows_load alloc s tab t
    have h2 := later_load alloc s tab t
    have h3 := next_load alloc s tab t
    rw [State.loadBasis]
    split
    · rename_i s1 tab1 p h
      rw [h] at h1 h2 h3
      have := ih s1 tab1
      split
      · rename_i h'; rw [h'] at this; exact ⟨h1.trans this.1, h2.trans this.2.1, h3.trans this.2.2⟩
      · rename_i h'; rw [h'] at this; exact ⟨h1.trans this.1, h2.trans this.2.1, h3.trans this.2.2⟩
    · rename_i h
      rw [h] at h1 h2 h3
      exact ⟨h1, h2, h3⟩

theorem inv_roots {s : State} (h : Inv s) (l : List Ptr) (hl : ∀ p ∈ l, (s.live p).isSome) : Inv { s with roots := l } :=
  ⟨h.next_eq, h.bound, h.obj_id, h.addr_inj, h.data_ok, h.data_inj, h.cached, h.cache_sound, h.cache_refs, hl⟩

/-- What `saveBasis` has written, `loadBasis` reads. -/
theorem load_saveBasis {s₀ : State} (h₀ : Inv s₀) {alloc : Alloc} (ha : alloc.Valid) (ps : List Ptr) :
    ∀ (s : State), Inv s → ∀ tab tab' ts lt, s₀.saveBasis tab ps = some (tab', ts) → Matched s₀ s tab lt ∅ →
      (s.loadBasis alloc lt ts).1.next ≤ 2 ^ 64 →
      Inv (s.loadBasis alloc lt ts).1 ∧ Ext s (s.loadBasis alloc lt ts).1 ∧
        ∃ qs, (s.loadBasis alloc lt ts).2.2 = some qs ∧ List.Forall₂ (fun p q => Same s₀ p (s.loadBasis alloc lt ts).1 q) ps qs := by
  induction ps with
  | nil =>
    intro s h tab tab' ts lt hs hm hb
    simp only [State.saveBasis, Option.some.injEq, Prod.mk.injEq] at hs
    obtain ⟨rfl, rfl⟩ := hs
    exact ⟨h, Ext.rfl, [], rfl, List.Forall₂.nil⟩
  | cons p ps ih =>
    intro s h tab tab' ts lt hs hm hb
    rw [State.saveBasis] at hs
    split at hs
    · cases hs
    · rename_i tab1 t1 hs1
      split at hs
      · cases hs
      · rename_i tab2 ts2 hs2
        simp only [Option.some.injEq, Prod.mk.injEq] at hs
        obtain ⟨rfl, rfl⟩ := hs
        rw [State.loadBasis] at hb ⊢
        have hb1 : (s.load alloc lt t1).1.next ≤ 2 ^ 64 := by
          refine le_trans ?_ hb
          split
          · rename_i h'; rw [h']
            have := (loadBasis_mono alloc ts2 ‹State› ‹List (ℕ × Ptr)›).2.2
            split
            · rename_i h''; rw [h''] at this; exact this
            · rename_i h''; rw [h''] at this; exact this
          · rename_i h'; rw [h']
        have l := (load_save h₀ ha 3 s h tab p tab1 t1 lt ∅ hs1 (fun o _ i hi => by simp at hi) hm hb1).2
        rcases e1 : s.load alloc lt t1 with ⟨s1, lt1, r1⟩
        rw [e1] at l hb
        obtain ⟨q, hq, hsame⟩ := l.same
        simp only at hq
        subst hq
        simp only at hb ⊢
        have hb2 : (s1.loadBasis alloc lt1 ts2).1.next ≤ 2 ^ 64 := by
          refine le_trans ?_ hb
          split
          · rename_i h''; rw [h'']
          · rename_i h''; rw [h'']
        have l2 := ih s1 l.inv tab1 tab2 ts2 lt1 hs2 l.matched hb2
        rcases e2 : s1.loadBasis alloc lt1 ts2 with ⟨s2, lt2, r2⟩
        rw [e2] at l2
        obtain ⟨i2, x2, qs, hqs, hf⟩ := l2
        simp only at hqs
        subst hqs
        exact ⟨i2, l.ext.trans x2, q :: qs, rfl, List.Forall₂.cons (hsame.ext l.inv x2) hf⟩

theorem loadBasis_denotes {alloc : Alloc} (ha : alloc.Valid) {tab tab' : List (ℕ × Desc)} {ts : List Tree} {ds : List Desc}
    (hd : BasisDenotes tab ts tab' ds) : ∀ (s : State), Inv s → ∀ lt, Known s tab lt → (s.loadBasis alloc lt ts).1.next ≤ 2 ^ 64 →
      Inv (s.loadBasis alloc lt ts).1 ∧ Ext s (s.loadBasis alloc lt ts).1 ∧
        ∃ qs, (s.loadBasis alloc lt ts).2.2 = some qs ∧
          List.Forall₂ (fun d q => ((s.loadBasis alloc lt ts).1.live q).isSome ∧ (s.loadBasis alloc lt ts).1.desc q = d) ds qs := by
  induction hd with
  | nil => intro s h lt hk hb; exact ⟨h, Ext.rfl, [], rfl, List.Forall₂.nil⟩
  | @cons tab tab1 tab2 t ts d ds hd _ ih =>
    intro s h lt hk hb
    rw [State.loadBasis] at hb ⊢
    have hb1 : (s.load alloc lt t).1.next ≤ 2 ^ 64 := by
      refine le_trans ?_ hb
      split
      · rename_i h'; rw [h']
        have := (loadBasis_mono alloc ts ‹State› ‹List (ℕ × Ptr)›).2.2
        split
        · rename_i h''; rw [h''] at this; exact this
        · rename_i h''; rw [h''] at this; exact this
      · rename_i h'; rw [h']
    have l := load_denotes ha t hd h hk hb1
    rcases e1 : s.load alloc lt t with ⟨s1, lt1, r1⟩
    rw [e1] at l hb
    obtain ⟨q, hq, hl, hqd⟩ := l.num
    simp only at hq
    subst hq
    simp only at hb ⊢
    have hb2 : (s1.loadBasis alloc lt1 ts).1.next ≤ 2 ^ 64 := by
      refine le_trans ?_ hb
      split
      · rename_i h''; rw [h'']
      · rename_i h''; rw [h'']
    have l2 := ih s1 l.inv lt1 l.known hb2
    rcases e2 : s1.loadBasis alloc lt1 ts with ⟨s2, lt2, r2⟩
    rw [e2] at l2
    obtain ⟨i2, x2, qs, hqs, hf⟩ := l2
    simp only at hqs
    subst hqs
    exact ⟨i2, l.ext.trans x2, q :: qs, rfl, List.Forall₂.cons
      ⟨by rw [x2.live_eq hl]; exact hl, by rw [desc_ext l.inv x2 hl]; exact hqd⟩ hf⟩

/-! ### The invariant -/

namespace MState

/-- The invariant of a history with modules. -/
structure MInv (st : MState P) : Prop where
  base : Inv st.base
  nodup : (st.mods.map Prod.fst).Nodup
  bound : ∀ m o, st.live m = some o → m < st.mcount
  addr_inj : ∀ m o m' o', st.live m = some o → st.live m' = some o' → o.addr = o'.addr → m = m'
  held : ∀ p, st.held p ≤ st.base.roots.count p
  sorted : ∀ m o, st.live m = some o → (o.basis.map st.base.rn).Pairwise fun g h => Precedes g.mult h.mult
  data_inj : ∀ m o m' o', st.live m = some o → st.live m' = some o' → o.ring = o'.ring → o.basis = o'.basis → m = m'
  cached : ∀ m o, st.live m = some o → ((o.basis.map st.base.idOf, o.ring), m) ∈ st.mcache
  cache_sound : ∀ k m, (k, m) ∈ st.mcache → m < st.mcount ∧ ∀ o, st.live m = some o → k = (o.basis.map st.base.idOf, o.ring)

theorem mem_of_live {st : MState P} {m : Ptr} {o : MObj P} (h : st.live m = some o) : (m, o) ∈ st.mods := by
  have key : ∀ l : List (Ptr × MObj P), l.lookup m = some o → (m, o) ∈ l := by
    intro l
    induction l with
    | nil => intro h; simp at h
    | cons a l ih =>
      rcases a with ⟨q, o'⟩
      intro h
      rw [List.lookup_cons] at h
      by_cases hq : m = q
      · subst hq
        simp only [beq_self_eq_true] at h
        injection h with h
        rw [h]; exact List.mem_cons_self
      · rw [beq_eq_false_iff_ne.2 hq] at h
        exact List.mem_cons_of_mem _ (ih h)
  exact key _ h

theorem held_ge {st : MState P} {m : Ptr} {o : MObj P} (h : st.live m = some o) (p : Ptr) : o.basis.count p ≤ st.held p := by
  have := mem_of_live h
  unfold MState.held
  exact List.single_le_sum (fun _ _ => Nat.zero_le _) _ (List.mem_map.2 ⟨(m, o), this, rfl⟩)

theorem MInv.basis_root {st : MState P} (h : MInv st) {m : Ptr} {o : MObj P} (ho : st.live m = some o) {p : Ptr} (hp : p ∈ o.basis) :
    p ∈ st.base.roots := by
  have h1 := held_ge ho p
  have h2 := h.held p
  have h3 := List.count_pos_iff.2 hp
  exact List.count_pos_iff.1 (by omega)

theorem MInv.basis_live {st : MState P} (h : MInv st) {m : Ptr} {o : MObj P} (ho : st.live m = some o) {p : Ptr} (hp : p ∈ o.basis) :
    (st.base.live p).isSome := h.base.roots_live p (h.basis_root ho hp)

theorem minv_init : MInv (minit P) := by
  refine ⟨inv_init, by simp [minit], ?_, ?_, ?_, ?_, ?_, ?_, ?_⟩
  all_goals simp [minit, MState.live, MState.held]

/-- The state of the real numbers changes. -/
theorem minv_base {st : MState P} (h : MInv st) {s' : State} (h' : Inv s') (hl : Later st.base s')
    (hr : ∀ p, st.held p ≤ s'.roots.count p) : MInv { st with base := s' } := by
  have hlive : ∀ m o, st.live m = some o → ∀ p ∈ o.basis, (s'.live p).isSome := by
    intro m o ho p hp
    have h1 := held_ge ho p
    have h2 := hr p
    have h3 := List.count_pos_iff.2 hp
    exact h'.roots_live p (List.count_pos_iff.1 (by omega))
  have e : ∀ m o, st.live m = some o → o.basis.map s'.rn = o.basis.map st.base.rn ∧ o.basis.map s'.idOf = o.basis.map st.base.idOf := by
    intro m o ho
    constructor
    · exact List.map_congr_left fun p hp => (rn_later h.base h' hl (h.basis_live ho hp) (hlive m o ho p hp)).1
    · exact List.map_congr_left fun p hp => (rn_later h.base h' hl (h.basis_live ho hp) (hlive m o ho p hp)).2
  refine ⟨h', h.nodup, h.bound, h.addr_inj, hr, ?_, h.data_inj, ?_, ?_⟩
  · intro m o ho
    show (o.basis.map s'.rn).Pairwise _
    rw [(e m o ho).1]; exact h.sorted m o ho
  · intro m o ho
    show ((o.basis.map s'.idOf, o.ring), m) ∈ st.mcache
    rw [(e m o ho).2]; exact h.cached m o ho
  · intro k m hk
    refine ⟨(h.cache_sound k m hk).1, fun o ho => ?_⟩
    show k = (o.basis.map s'.idOf, o.ring)
    rw [(e m o ho).2]; exact (h.cache_sound k m hk).2 o ho

theorem map_sort {s : State} (l : List Ptr) : (sort s l).map s.rn = Mod.sort (l.map s.rn) := by
  unfold sort Mod.sort
  exact List.map_insertionSort _ _ _ _ (fun a _ b _ => Iff.rfl)

theorem check_eq {s : State} (h : Inv s) (l : List Ptr) (hl : ∀ p ∈ l, (s.live p).isSome) : check s l = Mod.check (l.map s.rn) := by
  induction l with
  | nil => rfl
  | cons p l ih =>
    simp only [check, Mod.check, List.map_cons]
    rw [ih fun q hq => hl q (by simp [hq]), List.all_map]
    congr 1
    rw [Bool.eq_iff_iff, List.all_eq_true, List.all_eq_true]
    have hc' : ∀ q ∈ l, ((!((s.rn p).isRat && (s.rn q).isRat) && !(s.addrOf p = s.addrOf q)) : Bool) =
        Mod.compatible (s.rn p) (s.rn q) := by
      intro q hq
      have hp' := hl p (by simp)
      have hq' := hl q (by simp [hq])
      unfold Mod.compatible
      congr 2
      rw [decide_eq_decide, addrOf_eq_iff h hp' hq']
      exact ⟨fun e => by rw [e], fun e => rn_inj h hp' hq' e⟩
    exact ⟨fun hh q hq => by have := hh q hq; rw [hc' q hq] at this; exact this, fun hh q hq => by rw [hc' q hq]; exact hh q hq⟩

theorem mem_sort {s : State} {l : List Ptr} {p : Ptr} : p ∈ sort s l ↔ p ∈ l := List.mem_insertionSort _

theorem idOf_map_inj {s : State} (h : Inv s) {l l' : List Ptr} (hl : ∀ p ∈ l, (s.live p).isSome) (hl' : ∀ p ∈ l', (s.live p).isSome)
    (he : l.map s.idOf = l'.map s.idOf) : l = l' := by
  induction l generalizing l' with
  | nil => cases l' with
    | nil => rfl
    | cons a l' => simp at he
  | cons a l ih => cases l' with
    | nil => simp at he
    | cons b l' =>
      simp only [List.map_cons, List.cons.injEq] at he
      have h1 := he.1
      rw [idOf_eq h (hl a (by simp)), idOf_eq h (hl' b (by simp))] at h1
      rw [Nat.add_left_cancel h1, ih (fun p hp => hl p (by simp [hp])) (fun p hp => hl' p (by simp [hp])) he.2]

theorem live_cons (st : MState P) (m : Ptr) (o : MObj P) (b : State) (c : ℕ) (r : List Ptr) (k : List ((List ℕ × P) × Ptr)) (q : Ptr) :
    MState.live ⟨b, c, (m, o) :: st.mods, r, k⟩ q = if q = m then some o else st.live q := by
  unfold MState.live
  rw [List.lookup_cons]
  by_cases hq : q = m
  · simp [hq]
  · simp [hq, beq_eq_false_iff_ne.2 hq]

/-- What `make` does. -/
structure Made (st : MState P) (ring : P) (l : List Ptr) (r : MState P × Out Ptr) : Prop where
  inv : MInv r.1
  heap : r.1.base.heap = st.base.heap
  next : r.1.base.next = st.base.next
  count : r.1.base.count = st.base.count
  grows : Grows st.base r.1.base
  mlive : ∀ m o, st.live m = some o → r.1.live m = some o
  mnew : ∀ m o, r.1.live m = some o → m < st.mcount → st.live m = some o
  mcount : st.mcount ≤ r.1.mcount
  result : (∃ m o, r.2 = .ok m ∧ r.1.live m = some o ∧ m ∈ r.1.mroots ∧ o.ring = ring ∧ o.basis = sort st.base l ∧
      Mod.make ring (l.map st.base.rn) = .ok ⟨ring, o.basis.map st.base.rn⟩) ∨
    (r = (st, .throws .logicError) ∧ Mod.make ring (l.map st.base.rn) = .throws .logicError)

theorem rn_of_heap {s s' : State} (h : s'.heap = s.heap) : s'.rn = s.rn ∧ s'.idOf = s.idOf ∧ s'.live = s.live ∧ s'.desc = s.desc := by
  rcases s with ⟨a, b, c, d, e⟩
  rcases s' with ⟨a', b', c', d', e'⟩
  simp only at h
  subst h
  exact ⟨rfl, rfl, rfl, rfl⟩

theorem make_spec {st : MState P} (h : MInv st) {malloc : MAlloc P} (hm : malloc.Valid) (ring : P) (l : List Ptr)
    (hl : ∀ p ∈ l, (st.base.live p).isSome) : Made st ring l (st.make malloc ring l) := by
  have hsl : ∀ p ∈ sort st.base l, (st.base.live p).isSome := fun p hp => hl p (mem_sort.1 hp)
  have hcheck := check_eq h.base (sort st.base l) hsl
  have hwf : ∀ g ∈ l.map st.base.rn, g.WF := by
    intro g hg
    obtain ⟨p, -, rfl⟩ := List.mem_map.1 hg
    exact rn_WF h.base p
  have hmake : Mod.make ring (l.map st.base.rn) =
      if check st.base (sort st.base l) then .ok ⟨ring, (sort st.base l).map st.base.rn⟩ else .throws .logicError := by
    unfold Mod.make
    simp only
    rw [hcheck, map_sort]
  unfold MState.make
  simp only
  split
  · rename_i e hf
    have h1 := List.find?_some hf
    have h2 := List.mem_of_find?_eq_some hf
    simp only [Bool.and_eq_true, decide_eq_true_eq] at h1
    obtain ⟨o, ho⟩ := Option.isSome_iff_exists.1 h1.2
    rcases e with ⟨k, m⟩
    simp only at h1 ho
    have hk := (h.cache_sound k m h2).2 o ho
    rw [h1.1, Prod.mk.injEq] at hk
    have hb : o.basis = sort st.base l := (idOf_map_inj h.base hsl (fun p hp => h.basis_live ho hp) hk.1).symm
    have hw : Mod.make ring (l.map st.base.rn) = .ok ⟨ring, o.basis.map st.base.rn⟩ := by
      have hs := h.sorted m o ho
      have hc : Mod.check (o.basis.map st.base.rn) = true := by
        rw [Mod.check_iff]
        refine hs.imp_of_mem ?_
        intro x y hx hy hxy
        obtain ⟨p, -, rfl⟩ := List.mem_map.1 hx
        obtain ⟨q, -, rfl⟩ := List.mem_map.1 hy
        exact Mod.compatible_of_precedes (rn_WF h.base p) (rn_WF h.base q) hxy
      rw [hmake, hcheck, ← hb, if_pos hc]
    refine ⟨⟨h.base, h.nodup, h.bound, h.addr_inj, h.held, h.sorted, h.data_inj, h.cached, h.cache_sound⟩, rfl, rfl, rfl, Grows.rfl,
      fun _ _ h => h, fun _ _ h _ => h, le_rfl, Or.inl ⟨m, o, rfl, ho, List.mem_cons_self, hk.2.symm, hb, hw⟩⟩
  · rename_i hf
    split_ifs with hc
    · have hmc : st.live st.mcount = none := by
        cases hx : st.live st.mcount with
        | none => rfl
        | some o => exact absurd (h.bound _ _ hx) (lt_irrefl _)
      have hlv := live_cons st st.mcount ⟨malloc st, ring, sort st.base l⟩ { st.base with roots := sort st.base l ++ st.base.roots }
        (st.mcount + 1) (st.mcount :: st.mroots) ((((sort st.base l).map st.base.idOf, ring), st.mcount) :: st.mcache)
      have hnew : ∀ {m o}, st.live m = some o → o.ring = ring → o.basis = sort st.base l → False := by
        intro m o ho h1 h2
        have := List.find?_eq_none.1 hf _ (h.cached m o ho)
        simp [h1, h2, ho] at this
      set st' : MState P := ⟨{ st.base with roots := sort st.base l ++ st.base.roots }, st.mcount + 1,
        (st.mcount, ⟨malloc st, ring, sort st.base l⟩) :: st.mods, st.mcount :: st.mroots,
        (((sort st.base l).map st.base.idOf, ring), st.mcount) :: st.mcache⟩ with hst'
      obtain ⟨ern, eid, eli, -⟩ := rn_of_heap (s := st.base) (s' := st'.base) rfl
      have cases' : ∀ {m o}, st'.live m = some o → (m = st.mcount ∧ o = ⟨malloc st, ring, sort st.base l⟩) ∨ (m ≠ st.mcount ∧ st.live m = some o) := by
        intro m o ho
        rw [hlv] at ho
        split_ifs at ho with hc'
        · injection ho with ho; exact Or.inl ⟨hc', ho.symm⟩
        · exact Or.inr ⟨hc', ho⟩
      refine ⟨⟨?_, ?_, ?_, ?_, ?_, ?_, ?_, ?_, ?_⟩, rfl, rfl, rfl, ⟨_, rfl⟩, ?_, ?_, Nat.le_succ _, Or.inl ⟨st.mcount, ⟨malloc st, ring, sort st.base l⟩, rfl, ?_,
          List.mem_cons_self, rfl, rfl, ?_⟩⟩
      · apply inv_roots h.base
        intro p hp
        rcases List.mem_append.1 hp with hp | hp
        · exact hsl p hp
        · exact h.base.roots_live p hp
      · simp only [hst', List.map_cons, List.nodup_cons]
        refine ⟨?_, h.nodup⟩
        intro hmem
        have : ∀ L : List (Ptr × MObj P), st.mcount ∈ L.map Prod.fst → (L.lookup st.mcount).isSome := by
          intro L
          induction L with
          | nil => simp
          | cons a L ih =>
            intro hh
            rcases a with ⟨q, o⟩
            rw [List.lookup_cons]
            by_cases hq : st.mcount = q
            · simp [hq]
            · rw [beq_eq_false_iff_ne.2 hq]
              simp only [List.map_cons, List.mem_cons] at hh
              exact ih (hh.resolve_left hq)
        have := this _ hmem
        rw [show st.mods.lookup st.mcount = none from hmc] at this
        cases this
      · intro m o ho
        rcases cases' ho with ⟨rfl, -⟩ | ⟨-, ho⟩
        · exact Nat.lt_succ_self _
        · exact Nat.lt_succ_of_lt (h.bound m o ho)
      · intro m o m' o' ho ho' he
        rcases cases' ho with ⟨rfl, rfl⟩ | ⟨-, ho⟩ <;> rcases cases' ho' with ⟨rfl, rfl⟩ | ⟨-, ho'⟩
        · rfl
        · exact absurd he (hm st m' o' ho')
        · exact absurd he.symm (hm st m o ho)
        · exact h.addr_inj m o m' o' ho ho' he
      · intro p
        show st'.held p ≤ (sort st.base l ++ st.base.roots).count p
        have e : st'.held p = (sort st.base l).count p + st.held p := rfl
        rw [e, List.count_append]
        have := h.held p
        omega
      · intro m o ho
        rw [ern]
        rcases cases' ho with ⟨-, rfl⟩ | ⟨-, ho⟩
        · simp only
          rw [map_sort]
          refine Mod.pairwise_precedes_of ?_ (Mod.sort_sorted hwf) ?_
          · intro g hg; exact hwf g ((Mod.sort_perm _).mem_iff.1 hg)
          · rw [← map_sort, ← hcheck]; exact hc
        · exact h.sorted m o ho
      · intro m o m' o' ho ho' h1 h2
        rcases cases' ho with ⟨rfl, rfl⟩ | ⟨-, ho⟩ <;> rcases cases' ho' with ⟨rfl, rfl⟩ | ⟨-, ho'⟩
        · rfl
        · exact (hnew ho' h1.symm h2.symm).elim
        · exact (hnew ho h1 h2).elim
        · exact h.data_inj m o m' o' ho ho' h1 h2
      · intro m o ho
        rw [eid]
        rcases cases' ho with ⟨rfl, rfl⟩ | ⟨-, ho⟩
        · exact List.mem_cons_self
        · exact List.mem_cons_of_mem _ (h.cached m o ho)
      · intro k m hk
        rw [eid]
        rcases List.mem_cons.1 hk with hk | hk
        · rw [Prod.mk.injEq] at hk
          obtain ⟨rfl, rfl⟩ := hk
          refine ⟨Nat.lt_succ_self _, fun o ho => ?_⟩
          rcases cases' ho with ⟨-, rfl⟩ | ⟨hne, -⟩
          · rfl
          · exact absurd rfl hne
        · obtain ⟨h1, h2⟩ := h.cache_sound k m hk
          refine ⟨Nat.lt_succ_of_lt h1, fun o ho => ?_⟩
          rcases cases' ho with ⟨rfl, -⟩ | ⟨-, ho⟩
          · exact absurd h1 (lt_irrefl _)
          · exact h2 o ho
      · intro m o ho
        rw [hlv, if_neg (Nat.ne_of_lt (h.bound m o ho))]; exact ho
      · intro m o ho hlt
        rcases cases' ho with ⟨rfl, -⟩ | ⟨-, ho⟩
        · exact absurd hlt (lt_irrefl _)
        · exact ho
      · rw [hlv, if_pos rfl]
      · rw [hmake, if_pos hc]
    · exact ⟨h, rfl, rfl, rfl, Grows.rfl, fun _ _ h => h, fun _ _ h _ => h, le_rfl, Or.inr ⟨rfl, by rw [hmake, if_neg hc]⟩⟩

theorem lookup_filter {L : List (Ptr × MObj P)} (m q : Ptr) :
    (L.filter fun x => x.1 ≠ m).lookup q = if q = m then none else L.lookup q := by
  induction L with
  | nil => simp
  | cons a L ih =>
    rcases a with ⟨b, o⟩
    by_cases hb : b = m
    · subst hb
      rw [List.filter_cons_of_neg (by simp), ih, List.lookup_cons]
      by_cases hq : q = b
      · simp [hq]
      · rw [if_neg hq, if_neg hq, beq_eq_false_iff_ne.2 hq]
    · rw [List.filter_cons_of_pos (by simpa using hb), List.lookup_cons, List.lookup_cons, ih]
      by_cases hq : q = b
      · subst hq; simp [hb]
      · rw [beq_eq_false_iff_ne.2 hq]

theorem sum_filter {L : List (Ptr × MObj P)} (hn : (L.map Prod.fst).Nodup) {m : Ptr} {o : MObj P} (ho : L.lookup m = some o) (p : Ptr) :
    (L.map fun x => x.2.basis.count p).sum = o.basis.count p + ((L.filter fun x => x.1 ≠ m).map fun x => x.2.basis.count p).sum := by
  induction L with
  | nil => simp at ho
  | cons a L ih =>
    rcases a with ⟨b, o'⟩
    simp only [List.map_cons, List.nodup_cons] at hn
    rw [List.lookup_cons] at ho
    by_cases hb : m = b
    · subst hb
      simp only [beq_self_eq_true] at ho
      injection ho with ho
      subst ho
      rw [List.filter_cons_of_neg (by simp)]
      have : (L.filter fun x => x.1 ≠ m) = L := by
        rw [List.filter_eq_self]
        intro x hx
        simp only [ne_eq, decide_not, Bool.not_eq_true', decide_eq_false_iff_not]
        rintro rfl
        exact hn.1 (List.mem_map.2 ⟨x, hx, rfl⟩)
      rw [this]; simp
    · rw [beq_eq_false_iff_ne.2 hb] at ho
      rw [List.filter_cons_of_pos (by simpa using fun h => hb h.symm)]
      simp only [List.map_cons, List.sum_cons]
      rw [ih hn.2 ho]
      omega

theorem count_diff_ge (l l' : List Ptr) (p : Ptr) : l.count p - l'.count p ≤ (l.diff l').count p := by
  rw [List.count_diff]

theorem minv_destroy {st : MState P} (h : MInv st) {m : Ptr} {o : MObj P} (ho : st.live m = some o) :
    MInv { st with base := { st.base with roots := st.base.roots.diff o.basis }, mods := st.mods.filter fun x => x.1 ≠ m } := by
  have hlv : ∀ q, MState.live { st with base := { st.base with roots := st.base.roots.diff o.basis }, mods := st.mods.filter fun x => x.1 ≠ m } q =
      if q = m then none else st.live q := fun q => lookup_filter m q
  set st' : MState P := { st with base := { st.base with roots := st.base.roots.diff o.basis }, mods := st.mods.filter fun x => x.1 ≠ m } with hst'
  obtain ⟨ern, eid, eli, -⟩ := rn_of_heap (s := st.base) (s' := st'.base) rfl
  have back : ∀ {q o'}, st'.live q = some o' → st.live q = some o' := by
    intro q o' hq
    rw [hlv] at hq
    split_ifs at hq
    exact hq
  refine ⟨?_, ?_, ?_, ?_, ?_, ?_, ?_, ?_, ?_⟩
  · apply inv_roots h.base
    intro p hp
    exact h.base.roots_live p (List.diff_subset _ _ hp)
  · exact (List.filter_sublist.map Prod.fst).nodup h.nodup
  · intro q o' hq; exact h.bound q o' (back hq)
  · intro q o1 q' o2 hq hq'; exact h.addr_inj q o1 q' o2 (back hq) (back hq')
  · intro p
    show st'.held p ≤ (st.base.roots.diff o.basis).count p
    have e1 := sum_filter h.nodup ho p
    have e2 := h.held p
    have e3 := count_diff_ge st.base.roots o.basis p
    have e4 : st.held p = o.basis.count p + st'.held p := e1
    omega
  · intro q o' hq; rw [ern]; exact h.sorted q o' (back hq)
  · intro q o1 q' o2 hq hq'; exact h.data_inj q o1 q' o2 (back hq) (back hq')
  · intro q o' hq; rw [eid]; exact h.cached q o' (back hq)
  · intro k q hk
    refine ⟨(h.cache_sound k q hk).1, fun o' hq => ?_⟩
    rw [eid]; exact (h.cache_sound k q hk).2 o' (back hq)

/-- What an event does to the modules. -/
structure MLater (st st' : MState P) : Prop where
  base : Later st.base st'.base
  count : st.mcount ≤ st'.mcount
  live : ∀ m o, st'.live m = some o → m < st.mcount → st.live m = some o

theorem MLater.rfl {st : MState P} : MLater st st := ⟨Later.rfl, le_rfl, fun _ _ h _ => h⟩
theorem MLater.trans {a b c : MState P} (h : MLater a b) (h' : MLater b c) : MLater a c :=
  ⟨h.base.trans h'.base, h.count.trans h'.count, fun m o hm hl => h.live m o (h'.live m o hm (Nat.lt_of_lt_of_le hl h.count)) hl⟩

theorem later_of_heap {s s' : State} (h : s'.heap = s.heap) (hc : s'.count = s.count) : Later s s' :=
  ⟨by rw [hc], fun p o hp _ => by rw [(rn_of_heap h).2.2.1] at hp; exact hp⟩

theorem Made.later {st : MState P} {ring : P} {l : List Ptr} {r : MState P × Out Ptr} (h : Made st ring l r) : MLater st r.1 :=
  ⟨later_of_heap h.heap h.count, h.mcount, h.mnew⟩

theorem base_step {gen : Generators} {alloc : Alloc} {malloc : MAlloc P} {st st' : MState P} {e : Event} {r : Res}
    (hs : mstep gen alloc malloc st (.base e) = some (st', r)) :
    ∃ s', step gen alloc st.base e = some (s', r) ∧ st' = { st with base := s' } ∧ ∀ p, e = .drop p → st.held p < st.base.roots.count p := by
  have key : ∀ {x : Option (State × Res)}, (x.map fun x => (({ st with base := x.1 } : MState P), x.2)) = some (st', r) →
      ∃ s', x = some (s', r) ∧ st' = { st with base := s' } := by
    intro x hx
    cases x with
    | none => cases hx
    | some y =>
      simp only [Option.map_some, Option.some.injEq, Prod.mk.injEq] at hx
      exact ⟨y.1, by rw [← hx.2], hx.1.symm⟩
  cases e with
  | drop p =>
    simp only [mstep] at hs
    split_ifs at hs with hc
    obtain ⟨s', h1, h2⟩ := key hs
    exact ⟨s', h1, h2, fun q hq => by injection hq with hq; rw [← hq]; exact hc⟩
  | _ =>
    simp only [mstep] at hs
    obtain ⟨s', h1, h2⟩ := key hs
    exact ⟨s', h1, h2, fun q hq => by cases hq⟩

theorem minv_step {gen : Generators} {alloc : Alloc} (ha : alloc.Valid) {malloc : MAlloc P} (hm : malloc.Valid) {st st' : MState P}
    (h : MInv st) {e : MEvent P} {r : Res} (hs : mstep gen alloc malloc st e = some (st', r)) (hb : st'.base.next ≤ 2 ^ 64) :
    MInv st' ∧ MLater st st' := by
  cases e with
  | base e =>
    obtain ⟨s', h1, rfl, h3⟩ := base_step hs
    have hi := inv_step ha h.base h1 hb
    refine ⟨minv_base h hi (later_step h1) ?_, ⟨later_step h1, le_rfl, fun _ _ h _ => h⟩⟩
    by_cases hd : ∃ p, e = .drop p
    · obtain ⟨p, rfl⟩ := hd
      have hlt := h3 p rfl
      simp only [step] at h1
      split_ifs at h1 with hc
      simp only [Option.some.injEq, Prod.mk.injEq] at h1
      intro q
      rw [← h1.1]
      show st.held q ≤ (st.base.roots.erase p).count q
      have := h.held q
      by_cases hq : q = p
      · subst hq
        rw [List.count_erase_self]; omega
      · rw [List.count_erase_of_ne hq]; exact this
    · push Not at hd
      intro q
      exact (h.held q).trans ((grows_step hd h1).count q)
  | make ring basis =>
    simp only [mstep] at hs
    split_ifs at hs with hc
    simp only [Option.some.injEq, Prod.mk.injEq] at hs
    have hx := make_spec h hm ring basis fun p hp => roots_of_contains h.base (List.all_eq_true.1 hc p hp)
    rw [← hs.1]
    exact ⟨hx.inv, hx.later⟩
  | copy m =>
    simp only [mstep] at hs
    split_ifs at hs
    simp only [Option.some.injEq, Prod.mk.injEq] at hs
    rw [← hs.1]
    exact ⟨⟨h.base, h.nodup, h.bound, h.addr_inj, h.held, h.sorted, h.data_inj, h.cached, h.cache_sound⟩, ⟨Later.rfl, le_rfl, fun _ _ h _ => h⟩⟩
  | drop m =>
    simp only [mstep] at hs
    split_ifs at hs
    simp only [Option.some.injEq, Prod.mk.injEq] at hs
    rw [← hs.1]
    exact ⟨⟨h.base, h.nodup, h.bound, h.addr_inj, h.held, h.sorted, h.data_inj, h.cached, h.cache_sound⟩, ⟨Later.rfl, le_rfl, fun _ _ h _ => h⟩⟩
  | destroy m =>
    simp only [mstep] at hs
    split at hs
    · rename_i o ho
      split_ifs at hs
      simp only [Option.some.injEq, Prod.mk.injEq] at hs
      rw [← hs.1]
      refine ⟨minv_destroy h ho, ⟨later_of_heap rfl rfl, le_rfl, fun q o' hq _ => ?_⟩⟩
      have : (st.mods.filter fun x => x.1 ≠ m).lookup q = some o' := hq
      rw [lookup_filter] at this
      split_ifs at this
      exact this
    · cases hs
  | forget k m =>
    simp only [mstep] at hs
    split_ifs at hs with hc
    simp only [Option.some.injEq, Prod.mk.injEq] at hs
    rw [← hs.1]
    refine ⟨⟨h.base, h.nodup, h.bound, h.addr_inj, h.held, h.sorted, h.data_inj, ?_, ?_⟩, ⟨Later.rfl, le_rfl, fun _ _ h _ => h⟩⟩
    · intro q o hq
      have hne : ((o.basis.map st.base.idOf, o.ring), q) ≠ (k, m) := by
        intro he
        have : q = m := congrArg Prod.snd he
        subst this
        have hq' : st.live q = some o := hq
        rw [hq'] at hc; cases hc
      exact (List.mem_erase_of_ne hne).2 (h.cached q o hq)
    · intro k' q hk
      exact h.cache_sound k' q (List.mem_of_mem_erase hk)

/-- What loading an element does. -/
structure EltLoaded {R : Type} (st₀ : MState P) (o₀ : MObj P) (st : MState P) (cs : List R) (r : MState P × Option (Out (Ptr × List R))) : Prop where
  inv : MInv r.1
  later : MLater st r.1
  ext : Ext st.base r.1.base
  mlive : ∀ m o, st.live m = some o → r.1.live m = some o
  result : ∃ m o qs, r.2 = some (.ok (m, cs)) ∧ r.1.live m = some o ∧ o.ring = o₀.ring ∧ o.basis = sort r.1.base qs ∧
    List.Forall₂ (fun p q => Same st₀.base p r.1.base q) o₀.basis qs

theorem next_make (malloc : MAlloc P) (st : MState P) (ring : P) (l : List Ptr) : (st.make malloc ring l).1.base.next = st.base.next := by
  unfold MState.make
  simp only
  split
  · rfl
  · split_ifs <;> rfl

theorem next_loadElement {R : Type} (alloc : Alloc) (malloc : MAlloc P) (st : MState P) (a : EltArchive P R) :
    (st.loadElement alloc malloc a).1.base.next = (st.base.loadBasis alloc [] a.basis).1.next := by
  unfold MState.loadElement
  split
  · rename_i s tab basis hl
    rw [hl]
    have := next_make malloc { st with base := s } a.ring basis
    split
    all_goals
      rename_i h'
      rw [h'] at this
      exact this
  · rename_i s tab hl
    rw [hl]

theorem ext_of_heap {s s' : State} (h : s'.heap = s.heap) (hn : s'.next = s.next) (hg : Grows s s') : Ext s s' := by
  refine ⟨fun p o hp => by rw [(rn_of_heap h).2.2.1]; exact hp, by rw [hn], fun p hp => ?_⟩
  obtain ⟨l, hl⟩ := hg
  rw [hl]; exact List.mem_append_right _ hp

/-- Descriptions of loaded generators are distinct if those of the written ones are; a rational generator is loaded as a rational. -/
theorem check_loaded {s₀ s : State} (h₀ : Inv s₀) (h : Inv s) {ps qs : List Ptr} (hf : List.Forall₂ (fun p q => Same s₀ p s q) ps qs)
    (hp : (ps.map s₀.rn).Pairwise fun g h => Precedes g.mult h.mult) : Mod.check (qs.map s.rn) = true := by
  have hrat : ∀ {p q}, Same s₀ p s q → (s.rn q).isRat = (s₀.rn p).isRat := by
    intro p q hs
    have e := hs.desc
    rw [desc_eq_descOf h hs.live, desc_eq_descOf h₀ hs.live₀] at e
    cases h1 : (s.rn q).isRat <;> cases h2 : (s₀.rn p).isRat <;> try rfl
    · rw [descOf_of_not_rat _ h1] at e
      cases hx : s₀.rn p with
      | rat x => rw [hx] at e; cases e
      | _ => rw [hx] at h2; simp [RN.isRat, RN.rational?] at h2
    · rw [descOf_of_not_rat _ h2] at e
      cases hx : s.rn q with
      | rat x => rw [hx] at e; cases e
      | _ => rw [hx] at h1; simp [RN.isRat, RN.rational?] at h1
  induction hf with
  | nil => rfl
  | cons hs hf ih =>
    rename_i p q ps qs
    simp only [List.map_cons, List.pairwise_cons] at hp
    simp only [List.map_cons, Mod.check, Bool.and_eq_true]
    refine ⟨?_, ih hp.2⟩
    rw [List.all_eq_true]
    intro g hg
    obtain ⟨q', hq', rfl⟩ := List.mem_map.1 hg
    obtain ⟨p', hp', hs'⟩ : ∃ p' ∈ ps, Same s₀ p' s q' := by
      clear ih hp hg
      induction hf with
      | nil => cases hq'
      | cons a _ ih =>
        rcases List.mem_cons.1 hq' with rfl | hq'
        · exact ⟨_, List.mem_cons_self, a⟩
        · obtain ⟨p', h1, h2⟩ := ih hq'
          exact ⟨p', List.mem_cons_of_mem _ h1, h2⟩
    have hc := Mod.compatible_of_precedes (rn_WF h₀ p) (rn_WF h₀ p') (hp.1 _ (List.mem_map.2 ⟨p', hp', rfl⟩))
    rw [Mod.compatible_iff] at hc ⊢
    rw [hrat hs, hrat hs']
    refine ⟨hc.1, fun he => hc.2 ?_⟩
    have e := rn_inj h hs.live hs'.live he
    subst e
    have : p = p' := desc_inj h₀ hs.live₀ hs'.live₀ (by rw [← hs.desc, hs'.desc])
    rw [this]

theorem forall₂_live {s₀ s : State} {ps qs : List Ptr} (hf : List.Forall₂ (fun p q => Same s₀ p s q) ps qs) :
    ∀ q ∈ qs, (s.live q).isSome := by
  induction hf with
  | nil => intro q hq; cases hq
  | cons a _ ih =>
    intro q hq
    rcases List.mem_cons.1 hq with rfl | hq
    · exact a.live
    · exact ih q hq

theorem loadElement_spec {R : Type} {st₀ : MState P} (h₀ : MInv st₀) {alloc : Alloc} (ha : alloc.Valid) {malloc : MAlloc P} (hm : malloc.Valid)
    {st : MState P} (h : MInv st) {m₀ : Ptr} {o₀ : MObj P} (ho₀ : st₀.live m₀ = some o₀) {cs : List R} {a : EltArchive P R}
    (hs : st₀.saveElement m₀ cs = some a) (hb : (st.loadElement alloc malloc a).1.base.next ≤ 2 ^ 64) :
    EltLoaded st₀ o₀ st cs (st.loadElement alloc malloc a) := by
  rw [next_loadElement] at hb
  unfold MState.saveElement at hs
  rw [ho₀] at hs
  simp only at hs
  split at hs
  · cases hs
  · rename_i tab' ts hsb
    injection hs with hs
    subst hs
    obtain ⟨i1, x1, qs, hq, hf⟩ := load_saveBasis h₀.base ha o₀.basis st.base h.base [] tab' ts [] hsb (fun i a hi => by simp at hi) hb
    have hlt := loadBasis_mono alloc ts st.base []
    unfold MState.loadElement
    rcases e1 : st.base.loadBasis alloc [] ts with ⟨s1, tab1, r1⟩
    rw [e1] at i1 x1 hq hf hlt
    simp only at hq i1 x1 hf hlt
    subst hq
    simp only
    have hi := minv_base h i1 hlt.2.1 fun q => (h.held q).trans (hlt.1.count q)
    have hql : ∀ q ∈ qs, (s1.live q).isSome := forall₂_live hf
    have hmk := make_spec hi hm o₀.ring qs hql
    have hc := check_loaded h₀.base i1 hf (h₀.sorted m₀ o₀ ho₀)
    have hne : Mod.make o₀.ring (qs.map s1.rn) ≠ .throws .logicError := by
      unfold Mod.make
      simp only
      rw [Mod.check_perm (Mod.sort_perm _), if_pos hc]
      simp
    rcases hmk.result with ⟨m, o, h1, h2, h3, h4, h5, h6⟩ | ⟨-, h2⟩
    · rcases e2 : ({ st with base := s1 } : MState P).make malloc o₀.ring qs with ⟨st2, r2⟩
      rw [e2] at hmk h1 h2 h3
      simp only at h1 h2
      subst h1
      simp only
      have x2 : Ext s1 st2.base := ext_of_heap hmk.heap hmk.next hmk.grows
      refine ⟨hmk.inv, (⟨hlt.2.1, le_rfl, fun _ _ h _ => h⟩ : MLater st { st with base := s1 }).trans hmk.later, x1.trans x2,
        fun m' o' h' => hmk.mlive m' o' h', m, o, qs, rfl, h2, h4, ?_, ?_⟩
      · rw [h5]
        unfold sort
        rw [show st2.base.rn = s1.rn from (rn_of_heap hmk.heap).1]
      · exact hf.imp fun p q hpq => hpq.ext i1 x2
    · exact absurd h2 hne

/-- The result of loading an element whose generators are described by `ds`. -/
structure EltRead {R : Type} (st : MState P) (ring : P) (ds : List Desc) (cs : List R) (r : MState P × Option (Out (Ptr × List R))) : Prop where
  inv : MInv r.1
  later : MLater st r.1
  ext : Ext st.base r.1.base
  result : ∃ qs, List.Forall₂ (fun d q => (r.1.base.live q).isSome ∧ r.1.base.desc q = d) ds qs ∧
    ((∃ m o, r.2 = some (.ok (m, cs)) ∧ r.1.live m = some o ∧ m ∈ r.1.mroots ∧ o.ring = ring ∧ o.basis = sort r.1.base qs ∧
        Mod.check (qs.map r.1.base.rn) = true) ∨
      (r.2 = some (.throws .logicError) ∧ Mod.check (qs.map r.1.base.rn) = false))

theorem loadElement_read {R : Type} {alloc : Alloc} (ha : alloc.Valid) {malloc : MAlloc P} (hm : malloc.Valid)
    {st : MState P} (h : MInv st) {a : EltArchive P R} {tab : List (ℕ × Desc)} {ds : List Desc} (hd : BasisDenotes [] a.basis tab ds)
    (hb : (st.loadElement alloc malloc a).1.base.next ≤ 2 ^ 64) : EltRead st a.ring ds a.coefficients (st.loadElement alloc malloc a) := by
  rw [next_loadElement] at hb
  obtain ⟨i1, x1, qs, hq, hf⟩ := loadBasis_denotes ha hd st.base h.base [] (fun i a hi => by simp at hi) hb
  have hlt := loadBasis_mono alloc a.basis st.base []
  unfold MState.loadElement
  rcases e1 : st.base.loadBasis alloc [] a.basis with ⟨s1, tab1, r1⟩
  rw [e1] at i1 x1 hq hf hlt
  simp only at hq i1 x1 hf hlt
  subst hq
  simp only
  have hi := minv_base h i1 hlt.2.1 fun q => (h.held q).trans (hlt.1.count q)
  have hql : ∀ q ∈ qs, (s1.live q).isSome := by
    clear hi hd e1 hlt
    induction hf with
    | nil => intro q hq; cases hq
    | cons x _ ih =>
      intro q hq
      rcases List.mem_cons.1 hq with rfl | hq
      · exact x.1
      · exact ih q hq
  have hmk := make_spec hi hm a.ring qs hql
  have hmake : Mod.make a.ring (qs.map s1.rn) = if Mod.check (qs.map s1.rn) then .ok ⟨a.ring, Mod.sort (qs.map s1.rn)⟩ else .throws .logicError := by
    unfold Mod.make
    simp only
    rw [Mod.check_perm (Mod.sort_perm _)]
  rcases e2 : ({ st with base := s1 } : MState P).make malloc a.ring qs with ⟨st2, r2⟩
  rw [e2] at hmk
  have x2 : Ext s1 st2.base := ext_of_heap hmk.heap hmk.next hmk.grows
  have hlater := (⟨hlt.2.1, le_rfl, fun _ _ h _ => h⟩ : MLater st { st with base := s1 }).trans hmk.later
  obtain ⟨r1, r2', r3, r4⟩ := rn_of_heap hmk.heap
  simp only at r1 r2' r3 r4
  have hf2 : List.Forall₂ (fun d q => (st2.base.live q).isSome ∧ st2.base.desc q = d) ds qs := by rw [r3, r4]; exact hf
  rcases hmk.result with ⟨m, o, h1, h2, h3, h4, h5, h6⟩ | ⟨h1, h2⟩
  · simp only at h1 h2
    subst h1
    have hc : Mod.check (qs.map s1.rn) = true := by
      have h6' : Mod.make a.ring (qs.map s1.rn) = .ok _ := h6
      rw [hmake] at h6'
      split_ifs at h6' with hc
      exact hc
    refine ⟨hmk.inv, hlater, x1.trans x2, qs, hf2, Or.inl ⟨m, o, rfl, h2, h3, h4, ?_, by rw [r1]; exact hc⟩⟩
    rw [h5]; unfold sort; rw [r1]
  · injection h1 with h1 h1'
    subst h1'
    have hc : Mod.check (qs.map s1.rn) = false := by
      have h2' : Mod.make a.ring (qs.map s1.rn) = .throws .logicError := h2
      rw [hmake] at h2'
      split_ifs at h2' with hc
      simpa using hc
    exact ⟨hmk.inv, hlater, x1.trans x2, qs, hf2, Or.inr ⟨rfl, by rw [r1]; exact hc⟩⟩

theorem saveElement_live {R : Type} {st : MState P} {m : Ptr} {cs : List R} {a : EltArchive P R} (h : st.saveElement m cs = some a) :
    ∃ o, st.live m = some o := by
  unfold MState.saveElement at h
  split at h
  · cases h
  · exact ⟨_, ‹_›⟩

theorem next_mstep {gen : Generators} {alloc : Alloc} {malloc : MAlloc P} {st st' : MState P} {e : MEvent P} {r : Res}
    (hs : mstep gen alloc malloc st e = some (st', r)) : st.base.next ≤ st'.base.next := by
  cases e with
  | base e =>
    obtain ⟨s', h1, rfl, -⟩ := base_step hs
    exact next_step h1
  | make ring basis =>
    simp only [mstep] at hs
    split_ifs at hs with hc
    simp only [Option.some.injEq, Prod.mk.injEq] at hs
    rw [← hs.1, next_make]
  | copy m => simp only [mstep] at hs; split_ifs at hs; simp only [Option.some.injEq, Prod.mk.injEq] at hs; rw [← hs.1]
  | drop m => simp only [mstep] at hs; split_ifs at hs; simp only [Option.some.injEq, Prod.mk.injEq] at hs; rw [← hs.1]
  | destroy m =>
    simp only [mstep] at hs
    split at hs
    · split_ifs at hs; simp only [Option.some.injEq, Prod.mk.injEq] at hs; rw [← hs.1]
    · cases hs
  | forget k m => simp only [mstep] at hs; split_ifs at hs; simp only [Option.some.injEq, Prod.mk.injEq] at hs; rw [← hs.1]

theorem minv_of_mreach {gen : Generators} {st : MState P} (h : MReach gen st) (hb : st.base.next ≤ 2 ^ 64) : MInv st := by
  induction h with
  | init => exact minv_init
  | step _ ha hm hs ih => exact (minv_step ha hm (ih ((next_mstep hs).trans hb)) hs hb).1
  | load _ ha hm _ hb₀ hs ih ih₀ =>
    obtain ⟨o, ho⟩ := saveElement_live hs
    refine (loadElement_spec (ih₀ hb₀) ha hm (ih ?_) ho hs hb).inv
    rw [next_loadElement] at hb
    exact (loadBasis_mono _ _ _ _).2.2.trans hb
  | read _ ha hm hd ih =>
    refine (loadElement_read ha hm (ih ?_) hd hb).inv
    rw [next_loadElement] at hb
    exact (loadBasis_mono _ _ _ _).2.2.trans hb

theorem mreach_of_mevolves {gen : Generators} {st st' : MState P} (h : MReach gen st) (he : MEvolves gen st st') : MReach gen st' := by
  induction he with
  | refl => exact h
  | step _ ha hm hs ih => exact ih.step ha hm hs
  | load _ ha hm h₀ hb hs ih => exact ih.load ha hm h₀ hb hs
  | read _ ha hm hd ih => exact ih.read ha hm hd

theorem mlater_of_mevolves {gen : Generators} {st st' : MState P} (h : MReach gen st) (he : MEvolves gen st st') (hb : st'.base.next ≤ 2 ^ 64) :
    MLater st st' ∧ st.base.next ≤ st'.base.next := by
  induction he with
  | refl => exact ⟨MLater.rfl, le_rfl⟩
  | step he ha hm hs ih =>
    obtain ⟨h1, h2⟩ := ih ((next_mstep hs).trans hb)
    have hi := minv_of_mreach (mreach_of_mevolves h he) ((next_mstep hs).trans hb)
    exact ⟨h1.trans (minv_step ha hm hi hs hb).2, h2.trans (next_mstep hs)⟩
  | load he ha hm h₀ hb₀ hs ih =>
    have hb1 := hb
    rw [next_loadElement] at hb1
    have hn := (loadBasis_mono _ _ _ _).2.2.trans hb1
    obtain ⟨h1, h2⟩ := ih hn
    obtain ⟨o, ho⟩ := saveElement_live hs
    have hi := minv_of_mreach (mreach_of_mevolves h he) hn
    have l := loadElement_spec (minv_of_mreach h₀ hb₀) ha hm hi ho hs hb
    exact ⟨h1.trans l.later, h2.trans l.ext.next⟩
  | read he ha hm hd ih =>
    have hb1 := hb
    rw [next_loadElement] at hb1
    have hn := (loadBasis_mono _ _ _ _).2.2.trans hb1
    obtain ⟨h1, h2⟩ := ih hn
    have l := loadElement_read ha hm (minv_of_mreach (mreach_of_mevolves h he) hn) hd hb
    exact ⟨h1.trans l.later, h2.trans l.ext.next⟩

end MState

end ExactReal.Heap
