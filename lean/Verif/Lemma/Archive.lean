import Verif.Lemma.Serialize

/-! # Loading archives that describe a number -/

namespace ExactReal.Heap
open State

/-- The numbers in the table of the reader are the ones that the archive describes. -/
def Known (s : State) (tab : List (ℕ × Desc)) (lt : List (ℕ × Ptr)) : Prop :=
  ∀ id d, tab.lookup id = some d → ∃ q, lt.lookup id = some q ∧ (s.live q).isSome ∧ s.desc q = d

theorem Known.ext {s s' : State} (h : Inv s) (he : Ext s s') {tab : List (ℕ × Desc)} {lt : List (ℕ × Ptr)} (k : Known s tab lt) :
    Known s' tab lt := by
  intro id d hd
  obtain ⟨q, h1, h2, h3⟩ := k id d hd
  exact ⟨q, h1, by rw [he.live_eq h2]; exact h2, by rw [desc_ext h he h2]; exact h3⟩

theorem Known.push {s : State} {tab : List (ℕ × Desc)} {lt : List (ℕ × Ptr)} (k : Known s tab lt) {id : ℕ} {q : Ptr} {d : Desc}
    (hq : (s.live q).isSome) (hd : s.desc q = d) : Known s ((id, d) :: tab) ((id, q) :: lt) := by
  intro j d' hj
  rw [List.lookup_cons] at hj ⊢
  by_cases hji : j = id
  · subst hji
    simp only [beq_self_eq_true, Option.some.injEq] at hj ⊢
    exact ⟨q, rfl, hq, by rw [hd, hj]⟩
  · have : (j == id) = false := by simp [hji]
    rw [this] at hj ⊢
    exact k j d' hj

/-- An object that is described as a single random number is one. -/
theorem atom_of_desc {s : State} (h : Inv s) {p : Ptr} (hp : (s.live p).isSome) {a : AtomDesc}
    (hd : s.desc p = .monomial (.single a 1)) : ∃ o, s.live p = some o ∧ o.data.isAtom ∧ s.atomDesc p = a := by
  obtain ⟨o, ho⟩ := Option.isSome_iff_exists.1 hp
  have hok := h.data_ok p o ho
  rcases o with ⟨ad, i, d⟩
  have inj : ∀ {b : AtomDesc}, Finsupp.single b 1 = Finsupp.single a 1 → b = a := fun hb => by
    have := (Finsupp.single_eq_single_iff _ _ _ _).1 hb
    grind
  cases d with
  | rational q => simp [desc, ho] at hd
  | random t =>
    refine ⟨_, ho, trivial, inj ?_⟩
    rw [desc_of_atom ho trivial] at hd
    injection hd
  | constrained x e n =>
    refine ⟨_, ho, trivial, inj ?_⟩
    rw [desc_of_atom ho trivial] at hd
    injection hd
  | product f hh =>
    exfalso
    simp only [desc, ho, Desc.monomial.injEq] at hd
    have hdeg : ∀ g : List (Ptr × ℕ), ((g.map fun x => Finsupp.single (s.atomDesc x.1) x.2).sum).sum (fun _ n => n) = (g.map Prod.snd).sum := by
      intro g
      induction g with
      | nil => simp
      | cons x g ih => rw [List.map_cons, List.sum_cons, Finsupp.sum_add_index' (by simp) (by simp), ih]; simp
    have h1 := hdeg f
    rw [hd] at h1
    simp at h1
    have h2 := hok.2.1.2
    simp [toMono, Function.comp_def] at h2
    rw [show (fun x : Ptr × ℕ => x.2) = Prod.snd from rfl] at h2
    omega

/-- The seed of an object that is described as a random number. -/
theorem random_of_desc {s : State} (h : Inv s) {p : Ptr} (hp : (s.live p).isSome) {t : UInt32}
    (hd : s.desc p = .monomial (.single (.random t) 1)) : ∃ o, s.live p = some o ∧ o.data = .random t := by
  obtain ⟨o, ho, ha, he⟩ := atom_of_desc h hp hd
  rcases o with ⟨ad, i, d⟩
  cases d with
  | rational q => exact ha.elim
  | product f hh => exact ha.elim
  | random t' => rw [atomDesc_random ho rfl] at he; injection he with he; subst he; exact ⟨_, ho, rfl⟩
  | constrained x e n => rw [atomDesc_constrained ho rfl] at he; cases he

/-- The result of reading a number. -/
structure Reads (s : State) (tab' : List (ℕ × Desc)) (d : Desc) (r : State × List (ℕ × Ptr) × Option Ptr) : Prop where
  inv : Inv r.1
  ext : Ext s r.1
  num : ∃ q, r.2.2 = some q ∧ (r.1.live q).isSome ∧ r.1.desc q = d
  known : Known r.1 tab' r.2.1

/-- The entries that have been read so far. -/
structure MapOf (s : State) (f : List (Ptr × ℕ)) (g : AtomDesc →₀ ℕ) : Prop where
  atoms : ∀ y ∈ f, ∃ o, s.live y.1 = some o ∧ o.data.isAtom
  nodup : (f.map Prod.fst).Nodup
  pos : ∀ y ∈ f, 0 < y.2
  sum : (f.map fun y => Finsupp.single (s.atomDesc y.1) y.2).sum = g

theorem MapOf.ext {s s' : State} (h : Inv s) (he : Ext s s') {f : List (Ptr × ℕ)} {g : AtomDesc →₀ ℕ} (m : MapOf s f g) : MapOf s' f g := by
  refine ⟨fun y hy => ?_, m.nodup, m.pos, ?_⟩
  · obtain ⟨o, h1, h2⟩ := m.atoms y hy
    exact ⟨o, he.live _ _ h1, h2⟩
  · rw [← m.sum]
    congr 1
    apply List.map_congr_left
    intro y hy
    obtain ⟨o, h1, h2⟩ := m.atoms y hy
    rw [atomDesc_congr h1 (he.live_eq (by simp [h1])) fun r hr => he.live_eq ((h.data_ok y.1 o h1).refs_live r hr)]

/-- The result of reading the entries of a map. -/
structure ReadsAll (s : State) (tab' : List (ℕ × Desc)) (g : AtomDesc →₀ ℕ) (r : State × List (ℕ × Ptr) × Option (List (Ptr × ℕ))) : Prop where
  inv : Inv r.1
  ext : Ext s r.1
  map : ∃ f, r.2.2 = some f ∧ MapOf r.1 f g
  known : Known r.1 tab' r.2.1

mutual
/-- An archive is read as the number that it describes. -/
theorem load_denotes {alloc : Alloc} (ha : alloc.Valid) {tab tab' : List (ℕ × Desc)} {d : Desc} (t : Tree) (hd : t.Denotes tab tab' d)
    {s : State} (h : Inv s) {lt : List (ℕ × Ptr)} (hk : Known s tab lt) (hb : (s.load alloc lt t).1.next ≤ 2 ^ 64) :
    Reads s tab' d (s.load alloc lt t) := by
  match t with
  | .shared id =>
    cases hd with
    | shared hl =>
      obtain ⟨q, h1, h2, h3⟩ := hk id d hl
      rw [State.load]
      exact ⟨h, Ext.rfl, ⟨q, h1, h2, h3⟩, hk⟩
  | .rational id q =>
    cases hd with
    | rational =>
      rw [State.load] at hb ⊢
      have g := rational_spec h ha q hb
      obtain ⟨o', h1, h2⟩ := g.data
      have hs : ((s.rational alloc q).1.live (s.rational alloc q).2).isSome := by rw [h1]; rfl
      have hdesc : (s.rational alloc q).1.desc (s.rational alloc q).2 = .rational q := by
        rcases o' with ⟨a, i, d⟩; simp only at h2; subst h2; simp [desc, h1]
      exact ⟨g.inv, g.ext, ⟨_, rfl, hs, hdesc⟩, (hk.ext h g.ext).push hs hdesc⟩
  | .random id seed =>
    cases hd with
    | random =>
      rw [State.load] at hb ⊢
      have g := random_spec h ha seed hb
      obtain ⟨o', h1, h2⟩ := g.data
      have hs : ((s.random alloc seed).1.live (s.random alloc seed).2).isSome := by rw [h1]; rfl
      have hdesc : (s.random alloc seed).1.desc (s.random alloc seed).2 = .monomial (.single (.random seed) 1) := by
        rw [desc_of_atom h1 (by rw [h2]; trivial), atomDesc_random h1 h2]
      exact ⟨g.inv, g.ext, ⟨_, rfl, hs, hdesc⟩, (hk.ext h g.ext).push hs hdesc⟩
  | .constrained id i e t =>
    cases hd with
    | @constrained _ tab1 _ _ _ _ seed hd =>
      have hb1 : (s.load alloc lt t).1.next ≤ 2 ^ 64 := by
        refine le_trans ?_ hb
        rw [State.load]
        rcases hx : s.load alloc lt t with ⟨s', tab', _ | q⟩
        · exact le_rfl
        · exact next_get _ _ _ _ _
      have L := load_denotes ha t hd h hk hb1
      rw [State.load] at hb ⊢
      rcases hx : s.load alloc lt t with ⟨s1, lt1, r1⟩
      rw [hx] at L hb
      obtain ⟨q, hq, hl, hqd⟩ := L.num
      simp only at hq hl hqd
      subst hq
      simp only at hb ⊢
      have i1 : Inv s1 := L.inv
      obtain ⟨oq, hoq, hoqd⟩ := random_of_desc i1 hl hqd
      have g := constrained_spec i1 ha i e q ⟨oq, hoq, seed, hoqd⟩ hb
      obtain ⟨o', h1, h2⟩ := g.data
      have hs : ((s1.constrained alloc i e q).1.live (s1.constrained alloc i e q).2).isSome := by rw [h1]; rfl
      have hdesc : (s1.constrained alloc i e q).1.desc (s1.constrained alloc i e q).2 = .monomial (.single (.constrained i e seed) 1) := by
        rw [desc_of_atom h1 (by rw [h2]; trivial), atomDesc_constrained h1 h2, seedOf_random (g.ext.live q oq hoq) hoqd]
      exact ⟨g.inv, L.ext.trans g.ext, ⟨_, rfl, hs, hdesc⟩, (Known.ext i1 g.ext L.known).push hs hdesc⟩
  | .product id ts =>
    cases hd with
    | @product _ tab1 _ _ f hd hdeg =>
      have hb1 : (s.loadAll alloc lt [] ts).1.next ≤ 2 ^ 64 := by
        refine le_trans ?_ hb
        rw [State.load]
        rcases hx : s.loadAll alloc lt [] ts with ⟨s', tab', _ | q⟩
        · exact le_rfl
        · exact next_get _ _ _ _ _
      have L := loadAll_denotes ha ts hd h hk (f := []) (g₀ := 0) ⟨by simp, by simp, by simp, by simp⟩ (by simp) hb1
      rw [State.load] at hb ⊢
      rcases hx : s.loadAll alloc lt [] ts with ⟨s1, lt1, r1⟩
      rw [hx] at L hb
      obtain ⟨f1, hf1, m1⟩ := L.map
      simp only at hf1 m1
      subst hf1
      simp only at hb ⊢
      rw [zero_add] at m1
      have i1 : Inv s1 := L.inv
      have hdg : (f1.map Prod.snd).sum = f.sum fun _ n => n := by
        rw [← m1.sum]
        clear m1 hb hx L
        induction f1 with
        | nil => simp
        | cons x g ih => rw [List.map_cons, List.map_cons, List.sum_cons, List.sum_cons, Finsupp.sum_add_index' (by simp) (by simp), ih]; simp
      have hdok := DataOK_byId i1 m1.atoms m1.nodup m1.pos (by rw [hdg]; exact hdeg)
      have g := productFactory_spec i1 ha (s1.byId f1) hdok hb
      obtain ⟨o', h1, h2⟩ := g.data
      have hs : ((s1.productFactory alloc (s1.byId f1)).1.live (s1.productFactory alloc (s1.byId f1)).2).isSome := by rw [h1]; rfl
      have hdesc : (s1.productFactory alloc (s1.byId f1)).1.desc (s1.productFactory alloc (s1.byId f1)).2 = .monomial f := by
        rcases o' with ⟨a, i, d⟩
        simp only at h2
        subst h2
        simp only [desc, h1]
        have hp1 : (s1.byId f1).Perm f1 := List.perm_insertionSort _ _
        rw [sum_perm hp1]
        rw [(m1.ext i1 g.ext).sum]
      exact ⟨g.inv, L.ext.trans g.ext, ⟨_, rfl, hs, hdesc⟩, (Known.ext i1 g.ext L.known).push hs hdesc⟩
/-- A map is read as the product that it describes. -/
theorem loadAll_denotes {alloc : Alloc} (ha : alloc.Valid) {tab tab' : List (ℕ × Desc)} {g : AtomDesc →₀ ℕ} (ts : Trees)
    (hd : ts.Denotes tab tab' g) {s : State} (h : Inv s) {lt : List (ℕ × Ptr)} (hk : Known s tab lt) {f : List (Ptr × ℕ)}
    {g₀ : AtomDesc →₀ ℕ} (hm : MapOf s f g₀) (hdis : ∀ a, g a ≠ 0 → g₀ a = 0) (hb : (s.loadAll alloc lt f ts).1.next ≤ 2 ^ 64) :
    ReadsAll s tab' (g₀ + g) (s.loadAll alloc lt f ts) := by
  match ts with
  | .nil =>
    cases hd with
    | nil =>
      rw [State.loadAll]
      exact ⟨h, Ext.rfl, ⟨f, rfl, by simpa using hm⟩, hk⟩
  | .cons t n rest =>
    cases hd with
    | @cons _ tab1 _ _ _ _ a g hd hn hrest hga =>
      have hb1 : (s.load alloc lt t).1.next ≤ 2 ^ 64 := by
        refine le_trans ?_ hb
        rw [State.loadAll]
        rcases hx : s.load alloc lt t with ⟨s', tab', _ | q⟩
        · exact le_rfl
        · exact next_loadAll _ _ _ _ _
      have L := load_denotes ha t hd h hk hb1
      rw [State.loadAll] at hb ⊢
      rcases hx : s.load alloc lt t with ⟨s1, lt1, r1⟩
      rw [hx] at L hb
      obtain ⟨q, hq, hl, hqd⟩ := L.num
      simp only at hq hl hqd
      subst hq
      simp only at hb ⊢
      have i1 : Inv s1 := L.inv
      have m1 : MapOf s1 f g₀ := hm.ext h L.ext
      obtain ⟨oq, hoq, hoqa, hoqd⟩ := atom_of_desc i1 hl hqd
      have g0a : g₀ a = 0 := hdis a (by simp; omega)
      have hnew : ∀ y ∈ f, y.1 ≠ q := by
        intro y hy hyq
        have hle : Finsupp.single (s1.atomDesc y.1) y.2 ≤ g₀ := by
          rw [← m1.sum]
          exact List.single_le_sum (by intros; exact zero_le) _ (List.mem_map.2 ⟨y, hy, rfl⟩)
        have := hle a
        rw [hyq, hoqd] at this
        simp at this
        have := m1.pos y hy
        omega
      have hins : s1.insertKey f q n = f ++ [(q, n)] := by
        rw [insertKey, if_neg]
        simp only [List.any_eq_true, decide_eq_true_eq, not_exists, not_and]
        intro y hy he
        obtain ⟨oy, hoy, -⟩ := m1.atoms y hy
        simp only [addrOf, hoy, hoq, Option.map_some, Option.some.injEq] at he
        exact hnew y hy (i1.addr_inj _ _ _ _ hoy hoq he)
      have m2 : MapOf s1 (s1.insertKey f q n) (g₀ + Finsupp.single a n) := by
        rw [hins]
        refine ⟨?_, ?_, ?_, ?_⟩
        · intro y hy
          rcases List.mem_append.1 hy with hy | hy
          · exact m1.atoms y hy
          · simp only [List.mem_singleton] at hy; subst hy; exact ⟨oq, hoq, hoqa⟩
        · rw [List.map_append, List.nodup_append]
          refine ⟨m1.nodup, by simp, ?_⟩
          intro x hx y hy
          obtain ⟨z, hz, rfl⟩ := List.mem_map.1 hx
          simp only [List.map_cons, List.map_nil, List.mem_singleton] at hy
          subst hy
          exact hnew z hz
        · intro y hy
          rcases List.mem_append.1 hy with hy | hy
          · exact m1.pos y hy
          · simp only [List.mem_singleton] at hy; subst hy; exact hn
        · rw [List.map_append, List.sum_append, m1.sum]; simp [hoqd]
      have M := loadAll_denotes ha rest hrest i1 L.known m2 (fun b hb' => by
        have hba : b ≠ a := by rintro rfl; exact hb' hga
        have := hdis b (by simp; omega)
        simp [this, hba.symm]) hb
      refine ⟨M.inv, L.ext.trans M.ext, ?_, M.known⟩
      rw [← add_assoc]
      exact M.map
end

end ExactReal.Heap
