import Verif.Spec.Heap
import Verif.Lemma.RealNumber
import Verif.Lemma.Hash

/-! # Invariants of the heap -/

namespace ExactReal.Heap
open State

/-- The first identity, `src/real_number_base.cc:26`. -/
def base : ℕ := 2147483659

theorem lookup_filter_ne (l : List (Ptr × Obj)) (p q : Ptr) :
    (l.filter fun x => x.1 ≠ p).lookup q = if q = p then none else l.lookup q := by
  induction l with
  | nil => simp
  | cons a l ih =>
    rcases a with ⟨a, o⟩
    by_cases ha : a = p
    · subst ha
      rw [List.filter_cons_of_neg (by simp), ih]
      by_cases hq : q = a
      · simp [hq]
      · simp [hq, List.lookup_cons, beq_eq_false_iff_ne.2 hq]
    · rw [List.filter_cons_of_pos (by simpa using ha), List.lookup_cons, List.lookup_cons, ih]
      by_cases hq : q = a
      · subst hq; simp [ha]
      · simp [beq_eq_false_iff_ne.2 hq]

theorem live_create (s : State) (alloc : Alloc) (k : Key) (d : Data) (q : Ptr) :
    (s.create alloc k d).1.live q = if q = s.count then some ⟨alloc s, s.next % 2 ^ 64, d⟩ else s.live q := by
  unfold State.live create
  simp only [List.lookup_cons]
  by_cases h : q = s.count
  · simp [h]
  · simp [h, beq_eq_false_iff_ne.2 h]

/-- Is this a random number (possibly in an interval)? -/
def Data.isAtom : Data → Prop
  | .random _ => True
  | .constrained _ _ _ => True
  | _ => False

namespace State

/-- The key of an object in its factory. -/
def keyOf (s : State) : Data → Key
  | .rational q => .rational q
  | .random t => .random t
  | .constrained i e n => .constrained i e n
  | .product f h => .product (s.toMono f) h

/-- The references of an object are alive and of the right kind, products are canonical. -/
def DataOK (s : State) : Data → Prop
  | .rational _ => True
  | .random _ => True
  | .constrained _ _ n => ∃ o, s.live n = some o ∧ ∃ t, o.data = .random t
  | .product f h => h = (s.toMono f).hash ∧ (RN.prod (s.toMono f)).WF ∧ ∀ x ∈ f, ∃ o, s.live x.1 = some o ∧ o.data.isAtom

theorem toMono_congr {s s' : State} {f : List (Ptr × ℕ)} (h : ∀ x ∈ f, s'.live x.1 = s.live x.1) : s'.toMono f = s.toMono f := by
  unfold toMono
  apply List.map_congr_left
  intro x hx
  simp only [idOf, h x hx]

theorem keyOf_congr {s s' : State} {d : Data} (h : ∀ r ∈ d.refs, s'.live r = s.live r) : s'.keyOf d = s.keyOf d := by
  cases d with
  | product f hh =>
    simp only [keyOf]
    rw [toMono_congr]
    intro x hx
    exact h _ (List.mem_map.2 ⟨x, hx, rfl⟩)
  | _ => rfl

theorem DataOK_congr {s s' : State} {d : Data} (h : ∀ r ∈ d.refs, s'.live r = s.live r) (hd : s.DataOK d) : s'.DataOK d := by
  cases d with
  | rational q => trivial
  | random t => trivial
  | constrained i e n =>
    obtain ⟨o, ho, t⟩ := hd
    exact ⟨o, by rw [h n (by simp [Data.refs])]; exact ho, t⟩
  | product f hh =>
    have hf : ∀ x ∈ f, s'.live x.1 = s.live x.1 := fun x hx => h _ (List.mem_map.2 ⟨x, hx, rfl⟩)
    obtain ⟨h1, h2, h3⟩ := hd
    refine ⟨by rw [toMono_congr hf]; exact h1, by rw [toMono_congr hf]; exact h2, fun x hx => ?_⟩
    rw [hf x hx]; exact h3 x hx

theorem DataOK.refs_live {s : State} {d : Data} (h : s.DataOK d) : ∀ r ∈ d.refs, (s.live r).isSome := by
  cases d with
  | rational q => simp [Data.refs]
  | random t => simp [Data.refs]
  | constrained i e n =>
    obtain ⟨o, ho, -⟩ := h
    simp [Data.refs, ho]
  | product f hh =>
    intro r hr
    obtain ⟨x, hx, rfl⟩ := List.mem_map.1 hr
    obtain ⟨o, ho, -⟩ := h.2.2 x hx
    simp [ho]

end State

/-- The invariant of the heap. -/
structure Inv (s : State) : Prop where
  next_eq : s.next = base + s.count
  bound : s.next ≤ 2 ^ 64
  obj_id : ∀ p o, s.live p = some o → p < s.count ∧ o.id = base + p
  addr_inj : ∀ p o p' o', s.live p = some o → s.live p' = some o' → o.addr = o'.addr → p = p'
  data_ok : ∀ p o, s.live p = some o → s.DataOK o.data
  data_inj : ∀ p o p' o', s.live p = some o → s.live p' = some o' → o.data = o'.data → p = p'
  cached : ∀ p o, s.live p = some o → (s.keyOf o.data, p) ∈ s.cache
  cache_sound : ∀ k p, (k, p) ∈ s.cache → p < s.count ∧ ∀ o, s.live p = some o → k = s.keyOf o.data
  cache_refs : ∀ k p, (k, p) ∈ s.cache → ∀ r ∈ k.refs, (s.live r).isSome
  roots_live : ∀ p ∈ s.roots, (s.live p).isSome

/-- Nothing is destroyed or dropped and ids only grow. -/
structure Ext (s s' : State) : Prop where
  live : ∀ p o, s.live p = some o → s'.live p = some o
  next : s.next ≤ s'.next
  roots : ∀ p ∈ s.roots, p ∈ s'.roots

theorem Ext.rfl {s : State} : Ext s s := ⟨fun _ _ h => h, le_rfl, fun _ h => h⟩
theorem Ext.trans {a b c : State} (h : Ext a b) (h' : Ext b c) : Ext a c :=
  ⟨fun p o x => h'.live p o (h.live p o x), h.next.trans h'.next, fun p x => h'.roots p (h.roots p x)⟩

theorem Ext.live_eq {s s' : State} (h : Ext s s') {p : Ptr} (hp : (s.live p).isSome) : s'.live p = s.live p := by
  obtain ⟨o, ho⟩ := Option.isSome_iff_exists.1 hp
  rw [ho, h.live p o ho]

theorem inv_init : Inv init := by
  constructor <;> simp [init, State.live, base]

/-- Adding a reference to a live object. -/
theorem inv_root {s : State} (h : Inv s) {p : Ptr} (hp : (s.live p).isSome) : Inv { s with roots := p :: s.roots } := by
  have hl : ∀ q, State.live { s with roots := p :: s.roots } q = s.live q := fun _ => rfl
  exact ⟨h.next_eq, h.bound, h.obj_id, h.addr_inj, h.data_ok, h.data_inj, h.cached, h.cache_sound, h.cache_refs, by
    intro q hq
    rcases List.mem_cons.1 hq with rfl | hq
    · exact hp
    · exact h.roots_live q hq⟩

theorem ext_root (s : State) (p : Ptr) : Ext s { s with roots := p :: s.roots } :=
  ⟨fun _ _ h => h, le_rfl, fun _ h => List.mem_cons_of_mem _ h⟩

theorem live_count {s : State} (h : Inv s) : s.live s.count = none := by
  cases hc : s.live s.count with
  | none => rfl
  | some o => exact absurd (h.obj_id _ _ hc).1 (lt_irrefl _)

theorem ext_create {s : State} (h : Inv s) (alloc : Alloc) (k : Key) (d : Data) : Ext s (s.create alloc k d).1 := by
  refine ⟨fun p o ho => ?_, by simp [create], fun p hp => by simp [create, hp]⟩
  rw [live_create, if_neg, ho]
  rintro rfl
  simp [live_count h] at ho

theorem inv_create {s : State} (h : Inv s) {alloc : Alloc} (ha : alloc.Valid) {d : Data} (hd : s.DataOK d)
    (hn : ∀ p o, s.live p = some o → o.data ≠ d) (hb : s.next + 1 ≤ 2 ^ 64) : Inv (s.create alloc (s.keyOf d) d).1 := by
  have hext := ext_create h alloc (s.keyOf d) d
  have hl := live_create s alloc (s.keyOf d) d
  set s' := (s.create alloc (s.keyOf d) d).1 with hs'
  have hk : ∀ {d' : Data}, s.DataOK d' → s'.keyOf d' = s.keyOf d' := fun hd' =>
    keyOf_congr fun r hr => hext.live_eq (hd'.refs_live r hr)
  have hk' : ∀ {d' : Data}, s.DataOK d' → s'.DataOK d' := fun hd' =>
    DataOK_congr (fun r hr => hext.live_eq (hd'.refs_live r hr)) hd'
  have hc : s'.count = s.count + 1 := rfl
  have hcache : s'.cache = (s.keyOf d, s.count) :: s.cache := rfl
  have hmod : s.next % 2 ^ 64 = base + s.count := by
    rw [Nat.mod_eq_of_lt (by omega), h.next_eq]
  have cases : ∀ {p o}, s'.live p = some o → (p = s.count ∧ o = ⟨alloc s, s.next % 2 ^ 64, d⟩) ∨ (p ≠ s.count ∧ s.live p = some o) := by
    intro p o hp
    rw [hl] at hp
    split_ifs at hp with hpc
    · exact Or.inl ⟨hpc, by injection hp with hp; exact hp.symm⟩
    · exact Or.inr ⟨hpc, hp⟩
  refine ⟨?_, hb, ?_, ?_, ?_, ?_, ?_, ?_, ?_, ?_⟩
  · show s.next + 1 = base + (s.count + 1)
    have := h.next_eq; omega
  · intro p o hp
    rcases cases hp with ⟨rfl, rfl⟩ | ⟨-, hp⟩
    · exact ⟨by rw [hc]; exact Nat.lt_succ_self _, hmod⟩
    · have := h.obj_id p o hp
      exact ⟨by rw [hc]; exact Nat.lt_succ_of_lt this.1, this.2⟩
  · intro p o p' o' hp hp' he
    rcases cases hp with ⟨rfl, rfl⟩ | ⟨-, hp⟩ <;> rcases cases hp' with ⟨rfl, rfl⟩ | ⟨-, hp'⟩
    · rfl
    · exact absurd he (ha s p' o' hp')
    · exact absurd he.symm (ha s p o hp)
    · exact h.addr_inj p o p' o' hp hp' he
  · intro p o hp
    rcases cases hp with ⟨rfl, rfl⟩ | ⟨-, hp⟩
    · exact hk' hd
    · exact hk' (h.data_ok p o hp)
  · intro p o p' o' hp hp' he
    rcases cases hp with ⟨rfl, rfl⟩ | ⟨-, hp⟩ <;> rcases cases hp' with ⟨rfl, rfl⟩ | ⟨-, hp'⟩
    · rfl
    · exact absurd he.symm (hn p' o' hp')
    · exact absurd he (hn p o hp)
    · exact h.data_inj p o p' o' hp hp' he
  · intro p o hp
    rcases cases hp with ⟨rfl, rfl⟩ | ⟨-, hp⟩
    · rw [hk hd, hcache]; exact List.mem_cons_self
    · rw [hk (h.data_ok p o hp), hcache]; exact List.mem_cons_of_mem _ (h.cached p o hp)
  · intro k p hkp
    rw [hcache] at hkp
    rcases List.mem_cons.1 hkp with hkp | hkp
    · obtain ⟨rfl, rfl⟩ := Prod.mk.inj hkp
      refine ⟨by rw [hc]; exact Nat.lt_succ_self _, fun o ho => ?_⟩
      rcases cases ho with ⟨-, rfl⟩ | ⟨hne, -⟩
      · exact (hk hd).symm
      · exact absurd rfl hne
    · obtain ⟨h1, h2⟩ := h.cache_sound k p hkp
      refine ⟨by rw [hc]; exact Nat.lt_succ_of_lt h1, fun o ho => ?_⟩
      rcases cases ho with ⟨rfl, -⟩ | ⟨-, ho⟩
      · exact absurd h1 (lt_irrefl _)
      · rw [hk (h.data_ok p o ho)]; exact h2 o ho
  · intro k p hkp r hr
    have : (s.live r).isSome := by
      rw [hcache] at hkp
      rcases List.mem_cons.1 hkp with hkp | hkp
      · obtain ⟨rfl, rfl⟩ := Prod.mk.inj hkp
        apply hd.refs_live
        cases d <;> simp_all [keyOf, Key.refs, Data.refs]
      · exact h.cache_refs k p hkp r hr
    rw [hext.live_eq this]; exact this
  · intro p hp
    have : s'.roots = s.count :: s.roots := rfl
    rw [this] at hp
    rcases List.mem_cons.1 hp with rfl | hp
    · rw [hl, if_pos rfl]; rfl
    · rw [hext.live_eq (h.roots_live p hp)]; exact h.roots_live p hp

/-- What an operation that returns the object with the given data does. -/
structure Got (s : State) (r : State × Ptr) (d : Data) : Prop where
  inv : Inv r.1
  ext : Ext s r.1
  data : ∃ o, r.1.live r.2 = some o ∧ o.data = d
  root : r.2 ∈ r.1.roots

theorem next_get (s : State) (alloc : Alloc) (isKey : Key → Bool) (k : Key) (d : Data) : s.next ≤ (s.get alloc isKey k d).1.next := by
  unfold State.get
  split
  · exact le_rfl
  · simp [create]

theorem get_spec {s : State} (h : Inv s) {alloc : Alloc} (ha : alloc.Valid) {d : Data} (hd : s.DataOK d) {isKey : Key → Bool}
    (hk : ∀ p o, s.live p = some o → (isKey (s.keyOf o.data) = true ↔ o.data = d))
    (hb : (s.get alloc isKey (s.keyOf d) d).1.next ≤ 2 ^ 64) : Got s (s.get alloc isKey (s.keyOf d) d) d := by
  unfold State.get at hb ⊢
  cases hf : s.cache.find? fun e => isKey e.1 && (s.live e.2).isSome with
  | some e =>
    have hm := List.mem_of_find?_eq_some hf
    have hp := List.find?_some hf
    simp only [Bool.and_eq_true] at hp
    obtain ⟨o, ho⟩ := Option.isSome_iff_exists.1 hp.2
    have he := (h.cache_sound e.1 e.2 hm).2 o ho
    refine ⟨inv_root h hp.2, ext_root s e.2, ⟨o, ho, (hk e.2 o ho).1 ?_⟩, by simp⟩
    rw [← he]; exact hp.1
  | none =>
    simp only [hf] at hb
    have hn : ∀ p o, s.live p = some o → o.data ≠ d := by
      intro p o ho hod
      have := List.find?_eq_none.1 hf _ (h.cached p o ho)
      simp [ho, (hk p o ho).2 hod] at this
    show Got s (s.create alloc (s.keyOf d) d) d
    refine ⟨inv_create h ha hd hn hb, ext_create h _ _ _, ⟨⟨alloc s, s.next % 2 ^ 64, d⟩, ?_, rfl⟩, by simp [create]⟩
    rw [live_create]; exact if_pos rfl

theorem rational_spec {s : State} (h : Inv s) {alloc : Alloc} (ha : alloc.Valid) (q : ℚ)
    (hb : (s.rational alloc q).1.next ≤ 2 ^ 64) : Got s (s.rational alloc q) (.rational q) := by
  apply get_spec h ha (d := .rational q) trivial ?_ hb
  intro p o _
  cases o.data <;> simp [keyOf]

theorem random_spec {s : State} (h : Inv s) {alloc : Alloc} (ha : alloc.Valid) (seed : UInt32)
    (hb : (s.random alloc seed).1.next ≤ 2 ^ 64) : Got s (s.random alloc seed) (.random seed) := by
  apply get_spec h ha (d := .random seed) trivial ?_ hb
  intro p o _
  cases o.data <;> simp [keyOf]

theorem addrOf_eq_iff {s : State} (h : Inv s) {p q : Ptr} (hp : (s.live p).isSome) (hq : (s.live q).isSome) :
    s.addrOf p = s.addrOf q ↔ p = q := by
  obtain ⟨o, ho⟩ := Option.isSome_iff_exists.1 hp
  obtain ⟨o', ho'⟩ := Option.isSome_iff_exists.1 hq
  refine ⟨fun he => h.addr_inj p o q o' ho ho' ?_, fun he => by rw [he]⟩
  simpa [addrOf, ho, ho'] using he

theorem constrained_spec {s : State} (h : Inv s) {alloc : Alloc} (ha : alloc.Valid) (initial : ℚ) (e : ℤ) (inner : Ptr)
    (hi : ∃ o, s.live inner = some o ∧ ∃ t, o.data = .random t)
    (hb : (s.constrained alloc initial e inner).1.next ≤ 2 ^ 64) :
    Got s (s.constrained alloc initial e inner) (.constrained initial e inner) := by
  apply get_spec h ha (d := .constrained initial e inner) hi ?_ hb
  intro p o ho
  have hd := h.data_ok p o ho
  cases hod : o.data with
  | constrained i f n =>
    rw [hod] at hd
    obtain ⟨o1, h1, -⟩ := hd
    obtain ⟨o2, h2, -⟩ := hi
    simp only [keyOf, Bool.and_eq_true, decide_eq_true_eq, addrOf_eq_iff h (p := n) (q := inner) (by simp [h1]) (by simp [h2]),
      Data.constrained.injEq, and_assoc]
  | _ => simp [keyOf]

theorem idOf_eq {s : State} (h : Inv s) {p : Ptr} (hp : (s.live p).isSome) : s.idOf p = base + p := by
  obtain ⟨o, ho⟩ := Option.isSome_iff_exists.1 hp
  simp [idOf, ho, (h.obj_id p o ho).2]

theorem toMono_inj {s : State} (h : Inv s) {f g : List (Ptr × ℕ)} (hf : ∀ x ∈ f, (s.live x.1).isSome)
    (hg : ∀ x ∈ g, (s.live x.1).isSome) (he : s.toMono f = s.toMono g) : f = g := by
  induction f generalizing g with
  | nil => cases g <;> simp_all [toMono]
  | cons a f ih =>
    cases g with
    | nil => simp [toMono] at he
    | cons b g =>
      simp only [toMono, List.map_cons, List.cons.injEq, Prod.mk.injEq] at he
      obtain ⟨⟨h1, h2⟩, h3⟩ := he
      rw [idOf_eq h (hf a (by simp)), idOf_eq h (hg b (by simp))] at h1
      have hab : a = b := Prod.ext (Nat.add_left_cancel h1) h2
      rw [hab, ih (fun x hx => hf x (by simp [hx])) (fun x hx => hg x (by simp [hx])) h3]

theorem DataOK.product_live {s : State} {f : List (Ptr × ℕ)} {hh : UInt64} (h : s.DataOK (.product f hh)) :
    ∀ x ∈ f, (s.live x.1).isSome := by
  intro x hx
  obtain ⟨o, ho, -⟩ := h.2.2 x hx
  simp [ho]

theorem productFactory_spec {s : State} (h : Inv s) {alloc : Alloc} (ha : alloc.Valid) (f : List (Ptr × ℕ))
    (hd : s.DataOK (.product f (s.toMono f).hash)) (hb : (s.productFactory alloc f).1.next ≤ 2 ^ 64) :
    Got s (s.productFactory alloc f) (.product f (s.toMono f).hash) := by
  apply get_spec h ha (d := .product f (s.toMono f).hash) hd ?_ hb
  intro p o ho
  have hd' := h.data_ok p o ho
  cases hod : o.data with
  | product g hh =>
    rw [hod] at hd'
    simp only [keyOf, Bool.and_eq_true, decide_eq_true_eq, Data.product.injEq]
    constructor
    · rintro ⟨h1, h2⟩
      exact ⟨toMono_inj h (DataOK.product_live hd') (DataOK.product_live hd) h2, h1⟩
    · rintro ⟨rfl, h1⟩
      exact ⟨h1, rfl⟩
  | _ => simp [keyOf]

/-! ### The abstract number of an object -/

theorem rn_WF {s : State} (h : Inv s) (p : Ptr) : (s.rn p).WF := by
  unfold rn
  split
  · trivial
  · rename_i _ _ f hh ho
    exact (h.data_ok p _ ho).2.1
  · trivial

theorem rn_rational {s : State} {p : Ptr} {o : Obj} (ho : s.live p = some o) {q : ℚ} (hd : o.data = .rational q) : s.rn p = .rat q := by
  rcases o with ⟨a, i, d⟩
  simp only at hd; subst hd
  simp [rn, ho]

theorem rn_product {s : State} {p : Ptr} {o : Obj} (ho : s.live p = some o) {f : List (Ptr × ℕ)} {hh : UInt64}
    (hd : o.data = .product f hh) : s.rn p = .prod (s.toMono f) := by
  rcases o with ⟨a, i, d⟩
  simp only at hd; subst hd
  simp [rn, ho]

theorem rn_atom {s : State} {p : Ptr} {o : Obj} (ho : s.live p = some o) (hd : o.data.isAtom) : s.rn p = .atom o.id := by
  rcases o with ⟨a, i, d⟩
  cases d <;> simp_all [rn, idOf, Data.isAtom]

theorem rn_inj {s : State} (h : Inv s) {p q : Ptr} (hp : (s.live p).isSome) (hq : (s.live q).isSome) (he : s.rn p = s.rn q) : p = q := by
  obtain ⟨o, ho⟩ := Option.isSome_iff_exists.1 hp
  obtain ⟨o', ho'⟩ := Option.isSome_iff_exists.1 hq
  have h1 := h.data_ok p o ho
  have h2 := h.data_ok q o' ho'
  have key : o.data = o'.data → p = q := h.data_inj p o q o' ho ho'
  have ids : o.id = o'.id → p = q := by
    intro hid
    rw [(h.obj_id p o ho).2, (h.obj_id q o' ho').2] at hid
    exact Nat.add_left_cancel hid
  cases hd : o.data with
  | rational x =>
    rw [rn_rational ho hd] at he
    cases hd' : o'.data with
    | rational y => rw [rn_rational ho' hd'] at he; injection he with he; exact key (by rw [hd, hd', he])
    | product g hh => rw [rn_product ho' hd'] at he; cases he
    | random t => rw [rn_atom ho' (by simp [hd', Data.isAtom])] at he; cases he
    | constrained i e n => rw [rn_atom ho' (by simp [hd', Data.isAtom])] at he; cases he
  | product f hh =>
    rw [rn_product ho hd] at he
    cases hd' : o'.data with
    | rational y => rw [rn_rational ho' hd'] at he; cases he
    | product g hh' =>
      rw [rn_product ho' hd'] at he
      injection he with he
      rw [hd] at h1; rw [hd'] at h2
      have hfg := toMono_inj h (DataOK.product_live h1) (DataOK.product_live h2) he
      subst hfg
      exact key (by rw [hd, hd', h1.1, h2.1])
    | random t => rw [rn_atom ho' (by simp [hd', Data.isAtom])] at he; cases he
    | constrained i e n => rw [rn_atom ho' (by simp [hd', Data.isAtom])] at he; cases he
  | random t =>
    rw [rn_atom ho (by simp [hd, Data.isAtom])] at he
    cases hd' : o'.data with
    | rational y => rw [rn_rational ho' hd'] at he; cases he
    | product g hh => rw [rn_product ho' hd'] at he; cases he
    | random t => rw [rn_atom ho' (by simp [hd', Data.isAtom])] at he; injection he with he; exact ids he
    | constrained i e n => rw [rn_atom ho' (by simp [hd', Data.isAtom])] at he; injection he with he; exact ids he
  | constrained i e n =>
    rw [rn_atom ho (by simp [hd, Data.isAtom])] at he
    cases hd' : o'.data with
    | rational y => rw [rn_rational ho' hd'] at he; cases he
    | product g hh => rw [rn_product ho' hd'] at he; cases he
    | random t => rw [rn_atom ho' (by simp [hd', Data.isAtom])] at he; injection he with he; exact ids he
    | constrained i e n => rw [rn_atom ho' (by simp [hd', Data.isAtom])] at he; injection he with he; exact ids he

theorem rn_ext {s s' : State} (h : Inv s) (he : Ext s s') {p : Ptr} (hp : (s.live p).isSome) : s'.rn p = s.rn p := by
  have hl := he.live_eq hp
  obtain ⟨o, ho⟩ := Option.isSome_iff_exists.1 hp
  have ho' : s'.live p = some o := by rw [hl, ho]
  have hd := h.data_ok p o ho
  cases hod : o.data with
  | rational x => rw [rn_rational ho hod, rn_rational ho' hod]
  | product f hh =>
    rw [rn_product ho hod, rn_product ho' hod, toMono_congr]
    rw [hod] at hd
    exact fun x hx => he.live_eq (DataOK.product_live hd x hx)
  | random t => rw [rn_atom ho (by simp [hod, Data.isAtom]), rn_atom ho' (by simp [hod, Data.isAtom])]
  | constrained i e n => rw [rn_atom ho (by simp [hod, Data.isAtom]), rn_atom ho' (by simp [hod, Data.isAtom])]

end ExactReal.Heap
