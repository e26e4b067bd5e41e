import Verif.Lemma.HeapDesc
import Verif.Spec.Archive

/-! # Loading what has been saved -/

namespace ExactReal.Heap
open State

/-- How deeply an object is nested. -/
def Data.level : Data → ℕ
  | .rational _ => 0
  | .random _ => 0
  | .constrained _ _ _ => 1
  | .product _ _ => 2

/-- `p` in the process `s₀` and `q` in the process `s` are the same number. -/
structure Same (s₀ : State) (p : Ptr) (s : State) (q : Ptr) : Prop where
  live₀ : (s₀.live p).isSome
  live : (s.live q).isSome
  desc : s.desc q = s₀.desc p
  atom : ∀ o₀, s₀.live p = some o₀ → o₀.data.isAtom → (∃ o, s.live q = some o ∧ o.data.isAtom) ∧ s.atomDesc q = s₀.atomDesc p
  random : ∀ o₀ t, s₀.live p = some o₀ → o₀.data = .random t → ∃ o, s.live q = some o ∧ o.data = .random t

theorem Same.ext {s₀ s s' : State} {p q : Ptr} (h : Inv s) (he : Ext s s') (x : Same s₀ p s q) : Same s₀ p s' q := by
  refine ⟨x.live₀, ?_, ?_, ?_, ?_⟩
  · rw [he.live_eq x.live]; exact x.live
  · rw [desc_ext h he x.live]; exact x.desc
  · intro o₀ h1 h2
    obtain ⟨⟨o, h3, h4⟩, h5⟩ := x.atom o₀ h1 h2
    refine ⟨⟨o, he.live q o h3, h4⟩, ?_⟩
    rw [← h5]
    exact atomDesc_congr h3 (he.live_eq x.live) fun r hr => he.live_eq ((h.data_ok q o h3).refs_live r hr)
  · intro o₀ t h1 h2
    obtain ⟨o, h3, h4⟩ := x.random o₀ t h1 h2
    exact ⟨o, he.live q o h3, h4⟩

/-- The tables of writer and reader agree, except for the numbers `O` that are still being written. -/
def Matched (s₀ s : State) (tab : List Addr) (lt : List (ℕ × Ptr)) (O : Set ℕ) : Prop :=
  ∀ i a, tab[i]? = some a → i ∉ O → ∃ p o q, s₀.live p = some o ∧ o.addr = a ∧ lt.lookup (i + 1) = some q ∧ Same s₀ p s q

theorem Matched.ext {s₀ s s' : State} {tab : List Addr} {lt : List (ℕ × Ptr)} {O : Set ℕ} (h : Inv s) (he : Ext s s')
    (m : Matched s₀ s tab lt O) : Matched s₀ s' tab lt O := by
  intro i a hi hO
  obtain ⟨p, o, q, h1, h2, h3, h4⟩ := m i a hi hO
  exact ⟨p, o, q, h1, h2, h3, h4.ext h he⟩

/-- Open numbers are nested more deeply than what is being written. -/
def Open (s₀ : State) (tab : List Addr) (O : Set ℕ) (l : ℕ) : Prop :=
  ∀ i ∈ O, i < tab.length ∧ ∀ p o, s₀.live p = some o → tab[i]? = some o.addr → l < o.data.level

/-- The result of loading what has been written for `p`. -/
structure Loaded (s₀ s : State) (p : Ptr) (tab' : List Addr) (O : Set ℕ) (r : State × List (ℕ × Ptr) × Option Ptr) : Prop where
  inv : Inv r.1
  ext : Ext s r.1
  same : ∃ q, r.2.2 = some q ∧ Same s₀ p r.1 q
  matched : Matched s₀ r.1 tab' r.2.1 O

theorem Matched.push {s₀ s : State} {tab : List Addr} {lt : List (ℕ × Ptr)} {O : Set ℕ} {p q : Ptr} {o : Obj} {i : ℕ}
    (ho : s₀.live p = some o) (hi : tab[i]? = some o.addr) (m : Matched s₀ s tab lt (insert i O)) (x : Same s₀ p s q) :
    Matched s₀ s tab ((i + 1, q) :: lt) O := by
  intro j a hj hO
  by_cases hji : j = i
  · subst hji
    rw [hi] at hj
    injection hj with hj
    exact ⟨p, o, q, ho, hj, by simp [List.lookup_cons], x⟩
  · obtain ⟨p', o', q', h1, h2, h3, h4⟩ := m j a hj (by simp [hji, hO])
    refine ⟨p', o', q', h1, h2, ?_, h4⟩
    rw [List.lookup_cons]
    have : (j + 1 == i + 1) = false := by simp [hji]
    rw [this]; exact h3

theorem Matched.open_new {s₀ s : State} {tab : List Addr} {lt : List (ℕ × Ptr)} {O : Set ℕ} (a : Addr) (m : Matched s₀ s tab lt O) :
    Matched s₀ s (tab ++ [a]) lt (insert tab.length O) := by
  intro j b hj hO
  simp only [Set.mem_insert_iff, not_or] at hO
  have hlt : j < tab.length := by
    have := List.getElem?_eq_some_iff.1 hj
    obtain ⟨h1, -⟩ := this
    simp at h1
    omega
  rw [List.getElem?_append_left hlt] at hj
  exact m j b hj hO.2

theorem Open.new {s₀ : State} (h₀ : Inv s₀) {tab : List Addr} {O : Set ℕ} {p : Ptr} {o : Obj} (ho : s₀.live p = some o) {l : ℕ}
    (h : Open s₀ tab O o.data.level) (hl : l < o.data.level) : Open s₀ (tab ++ [o.addr]) (insert tab.length O) l := by
  intro i hi
  rcases Set.mem_insert_iff.1 hi with rfl | hi
  · refine ⟨by simp, fun q o' hq ha => ?_⟩
    simp at ha
    have := h₀.addr_inj p o q o' ho hq ha
    subst this
    rw [ho] at hq; injection hq with hq; subst hq
    exact hl
  · obtain ⟨h1, h2⟩ := h i hi
    refine ⟨by simp; omega, fun q o' hq ha => ?_⟩
    rw [List.getElem?_append_left h1] at ha
    exact hl.trans (h2 q o' hq ha)

theorem Open.mono {s₀ : State} {tab ext : List Addr} {O : Set ℕ} {l l' : ℕ} (h : Open s₀ tab O l) (hl : l' ≤ l) : Open s₀ (tab ++ ext) O l' := by
  intro i hi
  obtain ⟨h1, h2⟩ := h i hi
  refine ⟨by simp; omega, fun q o' hq ha => ?_⟩
  rw [List.getElem?_append_left h1] at ha
  exact lt_of_le_of_lt hl (h2 q o' hq ha)

/-! ### Reading numbers without references -/

theorem same_rational {s₀ s : State} {p q : Ptr} {o₀ o : Obj} (h1 : s₀.live p = some o₀) (h2 : s.live q = some o) {x : ℚ}
    (h3 : o₀.data = .rational x) (h4 : o.data = .rational x) : Same s₀ p s q := by
  rcases o₀ with ⟨a, i, d⟩; rcases o with ⟨a', i', d'⟩
  simp only at h3 h4; subst h3; subst h4
  refine ⟨by simp [h1], by simp [h2], by simp [desc, h1, h2], ?_, ?_⟩
  · intro o₀ h hd; rw [h1] at h; injection h with h; subst h; exact hd.elim
  · intro o₀ t h hd; rw [h1] at h; injection h with h; subst h; cases hd

theorem desc_of_atom {s : State} {p : Ptr} {o : Obj} (ho : s.live p = some o) (hd : o.data.isAtom) :
    s.desc p = .monomial (Finsupp.single (s.atomDesc p) 1) := by
  rcases o with ⟨a, i, d⟩
  cases d <;> simp_all [desc, Data.isAtom]

theorem same_atom {s₀ s : State} {p q : Ptr} {o₀ o : Obj} (h1 : s₀.live p = some o₀) (h2 : s.live q = some o)
    (h3 : o₀.data.isAtom) (h4 : o.data.isAtom) (he : s.atomDesc q = s₀.atomDesc p)
    (hr : ∀ t, o₀.data = .random t → o.data = .random t) : Same s₀ p s q := by
  refine ⟨by simp [h1], by simp [h2], by rw [desc_of_atom h1 h3, desc_of_atom h2 h4, he], ?_, ?_⟩
  · intro o₀' h _
    exact ⟨⟨o, h2, h4⟩, he⟩
  · intro o₀' t h hd
    rw [h1] at h; injection h with h; subst h
    exact ⟨o, h2, hr t hd⟩

/-! ### `next` only grows -/

theorem next_productFactory (s : State) (alloc : Alloc) (f : List (Ptr × ℕ)) : s.next ≤ (s.productFactory alloc f).1.next :=
  next_get _ _ _ _ _

mutual
theorem next_load (alloc : Alloc) (s : State) (tab : List (ℕ × Ptr)) (t : Tree) : s.next ≤ (s.load alloc tab t).1.next := by
  match t with
  | .shared id => simp [State.load]
  | .rational id q => rw [State.load]; exact next_get _ _ _ _ _
  | .random id seed => rw [State.load]; exact next_get _ _ _ _ _
  | .constrained id i e t =>
    have := next_load alloc s tab t
    rw [State.load]
    rcases hx : s.load alloc tab t with ⟨s', tab', _ | inner⟩
    · rw [hx] at this; exact this
    · rw [hx] at this; exact this.trans (next_get _ _ _ _ _)
  | .product id ts =>
    have := next_loadAll alloc s tab [] ts
    rw [State.load]
    rcases hx : s.loadAll alloc tab [] ts with ⟨s', tab', _ | f⟩
    · rw [hx] at this; exact this
    · rw [hx] at this; exact this.trans (next_get _ _ _ _ _)
theorem next_loadAll (alloc : Alloc) (s : State) (tab : List (ℕ × Ptr)) (f : List (Ptr × ℕ)) (ts : Trees) :
    s.next ≤ (s.loadAll alloc tab f ts).1.next := by
  match ts with
  | .nil => simp [State.loadAll]
  | .cons t e rest =>
    have := next_load alloc s tab t
    rw [State.loadAll]
    rcases hx : s.load alloc tab t with ⟨s', tab', _ | p⟩
    · rw [hx] at this; exact this
    · rw [hx] at this; exact this.trans (next_loadAll alloc s' tab' _ rest)
end

/-! ### Entries of a map -/

/-- Two lists of entries that stand for the same numbers. -/
def Entries (s₀ s : State) (l : List (Ptr × ℕ)) (f : List (Ptr × ℕ)) : Prop :=
  List.Forall₂ (fun x y => x.2 = y.2 ∧ Same s₀ x.1 s y.1) l f

theorem Entries.ext {s₀ s s' : State} {l f : List (Ptr × ℕ)} (h : Inv s) (he : Ext s s') (x : Entries s₀ s l f) : Entries s₀ s' l f :=
  List.Forall₂.imp (fun _ _ hab => ⟨hab.1, hab.2.ext h he⟩) x

/-- The entries written for a map are read. -/
theorem loadAll_saveAll {s₀ : State} (h₀ : Inv s₀) {alloc : Alloc} (ha : alloc.Valid) {n : ℕ}
    (ih : ∀ (s : State), Inv s → ∀ tab p tab' t lt O, s₀.save n tab p = some (tab', t) →
      (∀ o, s₀.live p = some o → Open s₀ tab O o.data.level) → Matched s₀ s tab lt O → (s.load alloc lt t).1.next ≤ 2 ^ 64 →
      (∃ ext, tab' = tab ++ ext) ∧ Loaded s₀ s p tab' O (s.load alloc lt t))
    (l : List (Ptr × ℕ)) (k : ℕ) (hl : ∀ x ∈ l, ∀ o, s₀.live x.1 = some o → o.data.level ≤ k) :
    ∀ (s : State), Inv s → ∀ tab tab' ts lt O l₀ f, saveAll (s₀.save n) tab l = some (tab', ts) →
      Open s₀ tab O k → Matched s₀ s tab lt O → Entries s₀ s l₀ f → ((l₀ ++ l).map Prod.fst).Nodup →
      (s.loadAll alloc lt f ts).1.next ≤ 2 ^ 64 →
      (∃ ext, tab' = tab ++ ext) ∧ ∃ s' lt' f', s.loadAll alloc lt f ts = (s', lt', some f') ∧ Inv s' ∧ Ext s s' ∧
        Matched s₀ s' tab' lt' O ∧ Entries s₀ s' (l₀ ++ l) f' := by
  induction l with
  | nil =>
    intro s h tab tab' ts lt O l₀ f hs _ hm he _ _
    simp only [saveAll, Option.some.injEq, Prod.mk.injEq] at hs
    obtain ⟨rfl, rfl⟩ := hs
    exact ⟨⟨[], by simp⟩, s, lt, f, by simp [State.loadAll], h, Ext.rfl, hm, by simpa using he⟩
  | cons x l ihl =>
    rcases x with ⟨p, e⟩
    intro s h tab tab' ts lt O l₀ f hs hO hm he hnd hb
    simp only [saveAll] at hs
    cases hw : s₀.save n tab p with
    | none => rw [hw] at hs; simp at hs
    | some r =>
      rcases r with ⟨tab1, t⟩
      rw [hw] at hs
      simp only at hs
      cases hr : saveAll (s₀.save n) tab1 l with
      | none => rw [hr] at hs; simp at hs
      | some r2 =>
        rcases r2 with ⟨tab2, ts2⟩
        rw [hr] at hs
        simp only [Option.some.injEq, Prod.mk.injEq] at hs
        obtain ⟨rfl, rfl⟩ := hs
        have hb1 : (s.load alloc lt t).1.next ≤ 2 ^ 64 := by
          refine le_trans ?_ hb
          rw [State.loadAll]
          rcases hx : s.load alloc lt t with ⟨s', tab', _ | q⟩
          · exact le_rfl
          · exact next_loadAll _ _ _ _ _
        obtain ⟨⟨ext1, hext1⟩, L⟩ := ih s h tab p tab1 t lt O hw
          (fun o ho => by
            have := hO.mono (ext := []) (hl (p, e) (by simp) o ho)
            simpa using this) hm hb1
        rw [State.loadAll] at hb ⊢
        rcases hx : s.load alloc lt t with ⟨s1, lt1, r1⟩
        rw [hx] at L hb
        obtain ⟨q, hq, hsame⟩ := L.same
        simp only at hq hsame
        subst hq
        simp only at hb ⊢
        have hins : s1.insertKey f q e = f ++ [(q, e)] := by
          unfold insertKey
          rw [if_neg]
          intro hc
          obtain ⟨y, hy, hyq⟩ := List.any_eq_true.1 hc
          simp only [decide_eq_true_eq] at hyq
          have hent := he.ext h L.ext
          obtain ⟨x', hx', hx2, hsx⟩ : ∃ x' ∈ l₀, x'.2 = y.2 ∧ Same s₀ x'.1 s1 y.1 := by
            clear hnd hb he
            unfold Entries at hent
            induction hent with
            | nil => simp at hy
            | cons hab _ ihe =>
              rcases List.mem_cons.1 hy with rfl | hy
              · exact ⟨_, List.mem_cons_self, hab⟩
              · obtain ⟨x', h1, h2⟩ := ihe (List.any_eq_true.2 ⟨y, hy, by simpa using hyq⟩) hy
                exact ⟨x', List.mem_cons_of_mem _ h1, h2⟩
          have hyq' := (addrOf_eq_iff L.inv hsx.live hsame.live).1 hyq
          have hd : s₀.desc x'.1 = s₀.desc p := by rw [← hsx.desc, ← hsame.desc, hyq']
          have hxp := desc_inj h₀ hsx.live₀ hsame.live₀ hd
          rw [List.map_append, List.map_cons, List.nodup_append] at hnd
          exact hnd.2.2 x'.1 (List.mem_map.2 ⟨x', hx', rfl⟩) p (by simp) hxp
        rw [hins] at hb ⊢
        have hent : Entries s₀ s1 (l₀ ++ [(p, e)]) (f ++ [(q, e)]) :=
          List.rel_append (he.ext h L.ext) (List.Forall₂.cons ⟨rfl, hsame⟩ List.Forall₂.nil)
        obtain ⟨⟨ext2, hext2⟩, s', lt', f', r1, r2, r3, r4, r5⟩ := ihl (fun x hx => hl x (by simp [hx])) s1 L.inv tab1 tab2 ts2 lt1 O
          (l₀ ++ [(p, e)]) (f ++ [(q, e)]) hr (by rw [hext1]; exact hO.mono le_rfl) L.matched hent (by simpa using hnd) hb
        refine ⟨⟨ext1 ++ ext2, by rw [hext2, hext1]; simp⟩, s', lt', f', r1, r2, L.ext.trans r3, r4, by simpa using r5⟩

theorem Entries.atoms {s₀ s : State} {l f : List (Ptr × ℕ)} (hl : ∀ x ∈ l, ∃ o, s₀.live x.1 = some o ∧ o.data.isAtom)
    (he : Entries s₀ s l f) : (∀ y ∈ f, ∃ o, s.live y.1 = some o ∧ o.data.isAtom) ∧ f.map Prod.snd = l.map Prod.snd ∧
      (f.map fun y => Finsupp.single (s.atomDesc y.1) y.2).sum = (l.map fun x => Finsupp.single (s₀.atomDesc x.1) x.2).sum := by
  unfold Entries at he
  induction he with
  | nil => simp
  | cons hab _ ih =>
    obtain ⟨i1, i2, i3⟩ := ih fun x hx => hl x (List.mem_cons_of_mem _ hx)
    obtain ⟨o, h1, h2⟩ := hl _ List.mem_cons_self
    obtain ⟨h3, h4⟩ := hab.2.atom o h1 h2
    refine ⟨?_, by simp [i2, hab.1], by simp [i3, h4, hab.1]⟩
    intro y hy
    rcases List.mem_cons.1 hy with rfl | hy
    · exact h3
    · exact i1 y hy

theorem Entries.nodup {s₀ s : State} (h₀ : Inv s₀) {l f : List (Ptr × ℕ)} (he : Entries s₀ s l f) (hn : (l.map Prod.fst).Nodup) :
    (f.map Prod.fst).Nodup := by
  unfold Entries at he
  induction he with
  | nil => simp
  | @cons a b l f hab hlf ih =>
    rw [List.map_cons, List.nodup_cons] at hn ⊢
    refine ⟨fun hc => hn.1 ?_, ih hn.2⟩
    obtain ⟨y, hy, hyb⟩ := List.mem_map.1 hc
    obtain ⟨x, hx, hxy⟩ : ∃ x ∈ l, Same s₀ x.1 s y.1 := by
      clear ih hn hc hab hyb
      induction hlf with
      | nil => simp at hy
      | cons hab _ ihe =>
        rcases List.mem_cons.1 hy with rfl | hy
        · exact ⟨_, List.mem_cons_self, hab.2⟩
        · obtain ⟨x', h1, h2⟩ := ihe hy
          exact ⟨x', List.mem_cons_of_mem _ h1, h2⟩
    have : x.1 = a.1 := desc_inj h₀ hxy.live₀ hab.2.live₀ (by rw [← hxy.desc, ← hab.2.desc, hyb])
    exact List.mem_map.2 ⟨x, hx, this⟩

theorem level_atom {d : Data} (h : d.isAtom) : d.level ≤ 1 := by
  cases d <;> simp_all [Data.isAtom, Data.level]

theorem sum_perm {α : Type*} {l l' : List α} (h : l.Perm l') {β : Type*} [AddCommMonoid β] (g : α → β) :
    (l.map g).sum = (l'.map g).sum := (h.map g).sum_eq

/-- A list of distinct atoms with the exponents of a well-formed product becomes a product when it is sorted by id. -/
theorem DataOK_byId {s : State} (h : Inv s) {f : List (Ptr × ℕ)} (hf : ∀ y ∈ f, ∃ o, s.live y.1 = some o ∧ o.data.isAtom)
    (hn : (f.map Prod.fst).Nodup) (hpos : ∀ y ∈ f, 0 < y.2) (hsum : 2 ≤ (f.map Prod.snd).sum) :
    s.DataOK (.product (s.byId f) (s.toMono (s.byId f)).hash) := by
  have hperm : (s.byId f).Perm f := List.perm_insertionSort _ _
  refine ⟨rfl, ⟨⟨?_, ?_⟩, ?_⟩, fun x hx => hf x (hperm.mem_iff.1 hx)⟩
  · have hs : (s.byId f).Pairwise fun x y => s.idOf x.1 ≤ s.idOf y.1 := by
      haveI : IsTotal (Ptr × ℕ) fun x y => s.idOf x.1 ≤ s.idOf y.1 := ⟨fun a b => le_total _ _⟩
      haveI : IsTrans (Ptr × ℕ) fun x y => s.idOf x.1 ≤ s.idOf y.1 := ⟨fun a b c => le_trans⟩
      exact List.pairwise_insertionSort _ _
    have hnd : (s.byId f).Pairwise fun x y => x.1 ≠ y.1 := by
      have : ((s.byId f).map Prod.fst).Nodup := (hperm.map Prod.fst).nodup_iff.2 hn
      exact List.pairwise_map.1 this
    have hlv : ∀ x ∈ s.byId f, (s.live x.1).isSome := by
      intro x hx
      obtain ⟨o, ho, -⟩ := hf x (hperm.mem_iff.1 hx)
      simp [ho]
    rw [toMono, List.pairwise_map]
    refine List.Pairwise.imp_of_mem ?_ (hs.and hnd)
    intro a b ha hb hab
    refine lt_of_le_of_ne hab.1 fun hc => hab.2 ?_
    rw [idOf_eq h (hlv a ha), idOf_eq h (hlv b hb)] at hc
    exact Nat.add_left_cancel hc
  · intro p hp
    obtain ⟨x, hx, rfl⟩ := List.mem_map.1 hp
    exact hpos x (hperm.mem_iff.1 hx)
  · have : ((s.toMono (s.byId f)).map Prod.snd).sum = (f.map Prod.snd).sum := by
      rw [toMono, List.map_map, ← sum_perm hperm]; rfl
    rw [this]; exact hsum

theorem same_of_product {s₀ s : State} {p q : Ptr} {o₀ o : Obj} (h1 : s₀.live p = some o₀) (h2 : s.live q = some o)
    {f g : List (Ptr × ℕ)} {hh hg : UInt64} (h3 : o₀.data = .product f hh) (h4 : o.data = .product g hg)
    (he : (g.map fun y => Finsupp.single (s.atomDesc y.1) y.2).sum = (f.map fun x => Finsupp.single (s₀.atomDesc x.1) x.2).sum) :
    Same s₀ p s q := by
  rcases o₀ with ⟨a, i, d⟩; rcases o with ⟨a', i', d'⟩
  simp only at h3 h4; subst h3; subst h4
  refine ⟨by simp [h1], by simp [h2], by simp only [desc, h1, h2, he], ?_, ?_⟩
  · intro o₀ h hd; rw [h1] at h; injection h with h; subst h; exact hd.elim
  · intro o₀ t h hd; rw [h1] at h; injection h with h; subst h; cases hd

/-- What `save` has written, `load` reads as the same number. -/
theorem load_save {s₀ : State} (h₀ : Inv s₀) {alloc : Alloc} (ha : alloc.Valid) (n : ℕ) :
    ∀ (s : State), Inv s → ∀ tab p tab' t lt O, s₀.save n tab p = some (tab', t) →
      (∀ o, s₀.live p = some o → Open s₀ tab O o.data.level) → Matched s₀ s tab lt O → (s.load alloc lt t).1.next ≤ 2 ^ 64 →
      (∃ ext, tab' = tab ++ ext) ∧ Loaded s₀ s p tab' O (s.load alloc lt t) := by
  induction n with
  | zero => intro s _ tab p tab' t lt O hs; simp [State.save] at hs
  | succ n ih =>
    intro s h tab p tab' t lt O hs hO hm hb
    rw [State.save] at hs
    cases ho : s₀.live p with
    | none => rw [ho] at hs; simp at hs
    | some o =>
      rw [ho] at hs
      simp only at hs
      have hO' := hO o ho
      by_cases hmem : o.addr ∈ tab
      · rw [if_pos hmem] at hs
        simp only [Option.some.injEq, Prod.mk.injEq] at hs
        obtain ⟨rfl, rfl⟩ := hs
        have hidx : tab[tab.idxOf o.addr]? = some o.addr := List.getElem?_idxOf hmem
        have hnO : tab.idxOf o.addr ∉ O := by
          intro hc
          exact lt_irrefl _ ((hO' _ hc).2 p o ho hidx)
        obtain ⟨p', o', q, h1, h2, h3, h4⟩ := hm _ _ hidx hnO
        have hpp := h₀.addr_inj p' o' p o h1 ho h2
        subst hpp
        exact ⟨⟨[], by simp⟩, h, Ext.rfl, ⟨q, by simp [State.load, h3], h4⟩, by simpa [State.load] using hm⟩
      · rw [if_neg hmem] at hs
        have hi : (tab ++ [o.addr])[tab.length]? = some o.addr := by simp
        have hlen : (tab ++ [o.addr]).length = tab.length + 1 := by simp
        have hmo := hm.open_new o.addr
        cases hd : o.data with
        | rational q =>
          rw [hd] at hs
          simp only [Option.some.injEq, Prod.mk.injEq] at hs
          obtain ⟨rfl, rfl⟩ := hs
          rw [State.load] at hb ⊢
          have g := rational_spec h ha q hb
          obtain ⟨o', h1, h2⟩ := g.data
          have hsame := same_rational ho h1 hd h2
          refine ⟨⟨[o.addr], rfl⟩, g.inv, g.ext, ⟨_, rfl, hsame⟩, ?_⟩
          rw [hlen]
          exact (hmo.ext h g.ext).push ho hi hsame
        | random t =>
          rw [hd] at hs
          simp only [Option.some.injEq, Prod.mk.injEq] at hs
          obtain ⟨rfl, rfl⟩ := hs
          rw [State.load] at hb ⊢
          have g := random_spec h ha t hb
          obtain ⟨o', h1, h2⟩ := g.data
          have hsame := same_atom ho h1 (by rw [hd]; trivial) (by rw [h2]; trivial)
            (by rw [atomDesc_random ho hd, atomDesc_random h1 h2]) (fun t' ht' => by rw [h2, ← hd, ht'])
          refine ⟨⟨[o.addr], rfl⟩, g.inv, g.ext, ⟨_, rfl, hsame⟩, ?_⟩
          rw [hlen]
          exact (hmo.ext h g.ext).push ho hi hsame
        | constrained i e inner =>
          rw [hd] at hs
          simp only at hs
          cases hw : s₀.save n (tab ++ [o.addr]) inner with
          | none => rw [hw] at hs; simp at hs
          | some r =>
            rcases r with ⟨tab1, t1⟩
            rw [hw] at hs
            simp only [Option.some.injEq, Prod.mk.injEq] at hs
            obtain ⟨rfl, rfl⟩ := hs
            have hok := h₀.data_ok p o ho
            rw [hd] at hok
            obtain ⟨oi, hoi, ti, hti⟩ := hok
            have hb1 : (s.load alloc lt t1).1.next ≤ 2 ^ 64 := by
              refine le_trans ?_ hb
              rw [State.load]
              rcases hx : s.load alloc lt t1 with ⟨s', tab', _ | q⟩
              · exact le_rfl
              · exact next_get _ _ _ _ _
            obtain ⟨⟨ext1, hext1⟩, L⟩ := ih s h (tab ++ [o.addr]) inner tab1 t1 lt (insert tab.length O) hw
              (fun o1 ho1 => by
                rw [hoi] at ho1; injection ho1 with ho1; subst ho1
                exact hO'.new h₀ ho (by rw [hd, hti]; simp [Data.level])) hmo hb1
            rw [State.load] at hb ⊢
            rcases hx : s.load alloc lt t1 with ⟨s1, lt1, r1⟩
            rw [hx] at L hb
            obtain ⟨q, hq, hsame⟩ := L.same
            simp only at hq hsame
            subst hq
            simp only at hb ⊢
            obtain ⟨oq, hoq, hoqd⟩ := hsame.random oi ti hoi hti
            have g := constrained_spec L.inv ha i e q ⟨oq, hoq, ti, hoqd⟩ hb
            obtain ⟨o', h1, h2⟩ := g.data
            have hseed : (s1.constrained alloc i e q).1.seedOf q = s₀.seedOf inner := by
              rw [seedOf_random hoi hti, seedOf_random (g.ext.live q oq hoq) hoqd]
            have hsame' := same_atom ho h1 (by rw [hd]; trivial) (by rw [h2]; trivial)
              (by rw [atomDesc_constrained ho hd, atomDesc_constrained h1 h2, hseed]) (fun t' ht' => by rw [hd] at ht'; cases ht')
            refine ⟨⟨o.addr :: ext1, by rw [hext1]; simp⟩, g.inv, L.ext.trans g.ext, ⟨_, rfl, hsame'⟩, ?_⟩
            rw [hlen]
            refine (L.matched.ext L.inv g.ext).push ho ?_ hsame'
            rw [hext1, List.getElem?_append_left (by simp)]; exact hi
        | product f hh =>
          rw [hd] at hs
          simp only at hs
          cases hw : saveAll (s₀.save n) (tab ++ [o.addr]) (s₀.byAddr f) with
          | none => rw [hw] at hs; simp at hs
          | some r =>
            rcases r with ⟨tab1, ts1⟩
            rw [hw] at hs
            simp only [Option.some.injEq, Prod.mk.injEq] at hs
            obtain ⟨rfl, rfl⟩ := hs
            have hok := h₀.data_ok p o ho
            rw [hd] at hok
            have hperm : (s₀.byAddr f).Perm f := List.perm_insertionSort _ _
            have hat : ∀ x ∈ s₀.byAddr f, ∃ o, s₀.live x.1 = some o ∧ o.data.isAtom := fun x hx => hok.2.2 x (hperm.mem_iff.1 hx)
            have hnd : ((s₀.byAddr f).map Prod.fst).Nodup := by
              rw [(hperm.map Prod.fst).nodup_iff]
              have := hok.2.1.1.sorted
              rw [toMono, List.pairwise_map] at this
              exact List.pairwise_map.2 (this.imp fun hab hc => by rw [hc] at hab; exact lt_irrefl _ hab)
            have hb1 : (s.loadAll alloc lt [] ts1).1.next ≤ 2 ^ 64 := by
              refine le_trans ?_ hb
              rw [State.load]
              rcases hx : s.loadAll alloc lt [] ts1 with ⟨s', tab', _ | q⟩
              · exact le_rfl
              · exact next_get _ _ _ _ _
            obtain ⟨⟨ext1, hext1⟩, s1, lt1, f1, hl1, inv1, extn1, mat1, ent1⟩ := loadAll_saveAll h₀ ha ih (s₀.byAddr f) 1
              (fun x hx o1 ho1 => by
                obtain ⟨o2, ho2, hat2⟩ := hat x hx
                rw [ho2] at ho1; injection ho1 with ho1; subst ho1
                exact level_atom hat2) s h (tab ++ [o.addr]) tab1 ts1 lt (insert tab.length O) [] [] hw
              (hO'.new h₀ ho (by rw [hd]; simp [Data.level])) hmo List.Forall₂.nil (by simpa using hnd) hb1
            simp only [List.nil_append] at ent1
            rw [State.load, hl1] at hb ⊢
            simp only at hb ⊢
            obtain ⟨at1, sn1, sum1⟩ := Entries.atoms hat ent1
            have hsndp : (f1.map Prod.snd).Perm ((s₀.toMono f).map Prod.snd) := by
              rw [sn1]
              have : (s₀.toMono f).map Prod.snd = f.map Prod.snd := by simp [toMono]
              rw [this]; exact hperm.map _
            have hdok := DataOK_byId inv1 at1 (ent1.nodup h₀ hnd)
              (by
                intro y hy
                have : y.2 ∈ (s₀.toMono f).map Prod.snd := hsndp.mem_iff.1 (List.mem_map.2 ⟨y, hy, rfl⟩)
                obtain ⟨z, hz, hzy⟩ := List.mem_map.1 this
                rw [← hzy]; exact hok.2.1.1.pos z hz)
              (by rw [hsndp.sum_eq]; exact hok.2.1.2)
            have g := productFactory_spec inv1 ha (s1.byId f1) hdok hb
            obtain ⟨o', h1, h2⟩ := g.data
            have hsame : Same s₀ p (s1.productFactory alloc (s1.byId f1)).1 (s1.productFactory alloc (s1.byId f1)).2 := by
              refine same_of_product ho h1 hd h2 ?_
              have hp1 : (s1.byId f1).Perm f1 := List.perm_insertionSort _ _
              rw [sum_perm hp1, ← sum_perm hperm (fun x => Finsupp.single (s₀.atomDesc x.1) x.2), ← sum1]
              congr 1
              apply List.map_congr_left
              intro y hy
              obtain ⟨oy, hoy, -⟩ := at1 y hy
              rw [atomDesc_congr hoy (g.ext.live_eq (by simp [hoy])) fun r hr =>
                g.ext.live_eq ((inv1.data_ok y.1 oy hoy).refs_live r hr)]
            refine ⟨⟨o.addr :: ext1, by rw [hext1]; simp⟩, g.inv, extn1.trans g.ext, ⟨_, rfl, hsame⟩, ?_⟩
            rw [hlen]
            refine (mat1.ext inv1 g.ext).push ho ?_ hsame
            rw [hext1, List.getElem?_append_left (by simp)]; exact hi

end ExactReal.Heap
