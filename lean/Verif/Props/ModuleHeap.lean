import Verif.Lemma.SameOrder
import Verif.Props.Heap

/-!
# Uniqueness of modules in every history (C55), serialization of elements (C44)

`MReach gen st` says that the process can be in the state `st` after any history of creating, copying, destroying, loading real numbers and
modules.
-/

namespace ExactReal.Props
open Heap

variable {P : Type} [DecidableEq P]

/-! ### C55 -/

/-- C38 continued. Real numbers are unique in histories that involve modules, too. -/
theorem unique_with_modules {gen : Generators} {st : MState P} (h : MReach gen st) (hb : st.base.next ≤ 2 ^ 64) {p q : Ptr} {o o' : Obj}
    (hp : st.base.live p = some o) (hq : st.base.live q = some o') :
    (o.addr = o'.addr ↔ st.base.desc p = st.base.desc q) ∧ (o.id = o'.id ↔ o.addr = o'.addr) := by
  have hi := (MState.minv_of_mreach h hb).base
  have key : ∀ {P : Prop}, (p = q → P) → (P → p = q) → (P ↔ p = q) := fun a b => ⟨b, a⟩
  have e1 : o.addr = o'.addr ↔ p = q := ⟨hi.addr_inj p o q o' hp hq, by rintro rfl; rw [hp] at hq; injection hq with hq; rw [hq]⟩
  have e2 : st.base.desc p = st.base.desc q ↔ p = q := ⟨desc_inj hi (by simp [hp]) (by simp [hq]), by rintro rfl; rfl⟩
  have e3 : o.id = o'.id ↔ p = q := by
    rw [(hi.obj_id p o hp).2, (hi.obj_id q o' hq).2]
    exact ⟨fun e => Nat.add_left_cancel e, fun e => by rw [e]⟩
  rw [e1, e2, e3]
  exact ⟨Iff.rfl, Iff.rfl⟩

/-- C55. In every reachable state, two live modules are the same object if and only if they have the same ring and the same set of
generators. -/
theorem module_unique {gen : Generators} {st : MState P} (h : MReach gen st) (hb : st.base.next ≤ 2 ^ 64) {m m' : Ptr} {o o' : MObj P}
    (hm : st.live m = some o) (hm' : st.live m' = some o') :
    o.addr = o'.addr ↔ o.ring = o'.ring ∧ ∀ d, (∃ p ∈ o.basis, st.base.desc p = d) ↔ ∃ p ∈ o'.basis, st.base.desc p = d := by
  have hi := MState.minv_of_mreach h hb
  constructor
  · intro he
    have := hi.addr_inj m o m' o' hm hm' he
    subst this
    rw [hm] at hm'; injection hm' with hm'; subst hm'
    exact ⟨rfl, fun _ => Iff.rfl⟩
  · rintro ⟨h1, h2⟩
    have hmem : ∀ p, p ∈ o.basis ↔ p ∈ o'.basis := by
      intro p
      constructor
      · intro hp
        obtain ⟨q, hq, hd⟩ := (h2 (st.base.desc p)).1 ⟨p, hp, rfl⟩
        rw [← desc_inj hi.base (hi.basis_live hm' hq) (hi.basis_live hm hp) hd]; exact hq
      · intro hp
        obtain ⟨q, hq, hd⟩ := (h2 (st.base.desc p)).2 ⟨p, hp, rfl⟩
        rw [← desc_inj hi.base (hi.basis_live hm hq) (hi.basis_live hm' hp) hd]; exact hq
    have hrn : o.basis.map st.base.rn = o'.basis.map st.base.rn := by
      apply Mod.eq_of_mem_iff (hi.sorted m o hm) (hi.sorted m' o' hm')
      intro g
      simp only [List.mem_map]
      exact ⟨fun ⟨p, hp, e⟩ => ⟨p, (hmem p).1 hp, e⟩, fun ⟨p, hp, e⟩ => ⟨p, (hmem p).2 hp, e⟩⟩
    have hb : o.basis = o'.basis := by
      have key : ∀ (l l' : List Ptr), (∀ p ∈ l, (st.base.live p).isSome) → (∀ p ∈ l', (st.base.live p).isSome) →
          l.map st.base.rn = l'.map st.base.rn → l = l' := by
        intro l
        induction l with
        | nil => intro l' _ _ he; cases l' with | nil => rfl | cons a l' => simp at he
        | cons a l ih =>
          intro l' h1 h2 he
          cases l' with
          | nil => simp at he
          | cons b l' =>
            simp only [List.map_cons, List.cons.injEq] at he
            rw [rn_inj hi.base (h1 a (by simp)) (h2 b (by simp)) he.1, ih l' (fun p hp => h1 p (by simp [hp])) (fun p hp => h2 p (by simp [hp])) he.2]
      exact key _ _ (fun p hp => hi.basis_live hm hp) (fun p hp => hi.basis_live hm' hp) hrn
    have := hi.data_inj m o m' o' hm hm' h1 hb
    subst this
    rw [hm] at hm'; injection hm' with hm'; rw [hm']

/-- C55. `Module::make` returns a live module with the given ring and exactly the given generators, or throws `logic_error`; it throws if and
only if a generator is given twice or two generators are rational. -/
theorem module_make_result {gen : Generators} {alloc : Alloc} {malloc : MAlloc P} (hma : malloc.Valid) {st st' : MState P} (h : MReach gen st)
    (hb : st.base.next ≤ 2 ^ 64) {ring : P} {basis : List Ptr} {r : Res} (hs : mstep gen alloc malloc st (.make ring basis) = some (st', r)) :
    (r = .throws .logicError ↔ ¬ basis.Nodup ∨ ∃ p q x y, p ∈ basis ∧ q ∈ basis ∧ p ≠ q ∧ st.base.desc p = .rational x ∧ st.base.desc q = .rational y) ∧
    (r ≠ .throws .logicError → ∃ m o, r = .ptr m ∧ m ∈ st'.mroots ∧ st'.live m = some o ∧ o.ring = ring ∧ o.basis.Perm basis) := by
  have hi := MState.minv_of_mreach h hb
  simp only [mstep] at hs
  split_ifs at hs with hc
  have hl : ∀ p ∈ basis, (st.base.live p).isSome := fun p hp => roots_of_contains hi.base (List.all_eq_true.1 hc p hp)
  have hx := MState.make_spec hi hma ring basis hl
  simp only [Option.some.injEq, Prod.mk.injEq] at hs
  obtain ⟨rfl, rfl⟩ := hs
  have hrat : ∀ p ∈ basis, (st.base.rn p).isRat = true ↔ ∃ x, st.base.desc p = .rational x := by
    intro p hp
    rw [desc_eq_descOf hi.base (hl p hp)]
    cases st.base.rn p <;> simp [RN.isRat, RN.rational?, descOf]
  have hmk : Mod.check (basis.map st.base.rn) = true ↔
      ¬ (¬ basis.Nodup ∨ ∃ p q x y, p ∈ basis ∧ q ∈ basis ∧ p ≠ q ∧ st.base.desc p = .rational x ∧ st.base.desc q = .rational y) := by
    rw [Mod.check_iff, List.pairwise_map]
    constructor
    · intro hp
      rw [not_or, not_not]
      refine ⟨hp.imp fun {a b} hab => ?_, ?_⟩
      · rintro rfl; exact (Mod.compatible_iff.1 hab).2 rfl
      · rintro ⟨p, q, x, y, hp1, hq1, hne, hx, hy⟩
        have hsym : ∀ a b, Mod.compatible (st.base.rn a) (st.base.rn b) = true → Mod.compatible (st.base.rn b) (st.base.rn a) = true :=
          fun a b => Mod.compatible_symm
        have hpq : ∀ (l : List Ptr), l.Pairwise (fun a b => Mod.compatible (st.base.rn a) (st.base.rn b) = true) → p ∈ l → q ∈ l →
            Mod.compatible (st.base.rn p) (st.base.rn q) = true := by
          intro l hl
          induction hl with
          | nil => intro h; simp at h
          | cons ha _ ih =>
            intro h1 h2
            rcases List.mem_cons.1 h1 with rfl | h1'
            · rcases List.mem_cons.1 h2 with rfl | h2
              · exact absurd rfl hne
              · exact ha _ h2
            · rcases List.mem_cons.1 h2 with rfl | h2
              · exact hsym _ _ (ha _ (by assumption))
              · exact ih (by assumption) h2
        have hpq := hpq basis hp hp1 hq1
        exact (Mod.compatible_iff.1 hpq).1 ⟨(hrat p hp1).2 ⟨x, hx⟩, (hrat q hq1).2 ⟨y, hy⟩⟩
    · intro hn
      rw [not_or, not_not] at hn
      obtain ⟨h1, h2⟩ := hn
      refine List.Pairwise.imp_of_mem ?_ h1
      intro a b ha hb' hab
      rw [Mod.compatible_iff]
      refine ⟨?_, fun he => hab (rn_inj hi.base (hl a ha) (hl b hb') he)⟩
      rintro ⟨ra, rb⟩
      obtain ⟨x, hx⟩ := (hrat a ha).1 ra
      obtain ⟨y, hy⟩ := (hrat b hb').1 rb
      exact h2 ⟨a, b, x, y, ha, hb', hab, hx, hy⟩
  have hmake : ∀ m, Mod.make ring (basis.map st.base.rn) = .ok m → Mod.check (basis.map st.base.rn) = true := by
    intro m he
    unfold Mod.make at he
    simp only at he
    rw [Mod.check_perm (Mod.sort_perm _)] at he
    split_ifs at he with hc
    exact hc
  have hmake' : Mod.make ring (basis.map st.base.rn) = .throws .logicError → ¬ Mod.check (basis.map st.base.rn) = true := by
    intro he
    unfold Mod.make at he
    simp only at he
    rw [Mod.check_perm (Mod.sort_perm _)] at he
    split_ifs at he with hc
    exact hc
  rcases hx.result with ⟨m, o, h1, h2, h3, h4, h5, h6⟩ | ⟨h1, h2⟩
  · rw [h1]
    refine ⟨⟨fun he => (by simp [Res.ofOut] at he), fun he => ?_⟩, fun _ => ⟨m, o, rfl, h3, h2, h4, by rw [h5]; exact List.perm_insertionSort _ _⟩⟩
    exact absurd he (hmk.1 (hmake _ h6))
  · rw [h1]
    refine ⟨⟨fun _ => ?_, fun _ => rfl⟩, fun he => absurd rfl he⟩
    by_contra hcon
    exact hmake' h2 (hmk.2 hcon)

/-! ### lifetimes -/

namespace MAlive

/-- Every module that somebody refers to is alive. -/
def Ok (st : MState P) : Prop := ∀ m ∈ st.mroots, (st.live m).isSome

theorem make {malloc : MAlloc P} {st : MState P} (h : Ok st) (ring : P) (basis : List Ptr) : Ok (st.make malloc ring basis).1 := by
  unfold MState.make
  dsimp only
  split
  · next e he =>
    have := List.find?_some he
    simp only [Bool.and_eq_true] at this
    intro m hm
    rcases List.mem_cons.1 hm with rfl | hm
    · exact this.2
    · exact h m hm
  · split
    · intro m hm
      simp only [MState.live, List.lookup_cons]
      split
      · rfl
      · rename_i hne
        rcases List.mem_cons.1 hm with rfl | hm
        · simp at hne
        · exact h m hm
    · exact h

theorem lookup_filter {l : List (Ptr × MObj P)} {m m' : Ptr} (hne : m' ≠ m) : (l.filter fun x => x.1 ≠ m).lookup m' = l.lookup m' := by
  induction l with
  | nil => rfl
  | cons a l ih =>
    by_cases ha : a.1 = m
    · have : (m' == a.1) = false := by rw [ha]; simpa using hne
      rw [List.filter_cons_of_neg (by simp [ha]), ih, List.lookup_cons, this]
    · rw [List.filter_cons_of_pos (by simpa using ha), List.lookup_cons, List.lookup_cons, ih]

theorem step {gen : Generators} {alloc : Alloc} {malloc : MAlloc P} {st st' : MState P} {e : MEvent P} {r : Res} (h : Ok st)
    (hs : mstep gen alloc malloc st e = some (st', r)) : Ok st' := by
  cases e with
  | base e =>
    have : ∃ x : State × Res, st' = { st with base := x.1 } := by
      cases e <;> simp only [mstep, Option.map_eq_some_iff, Option.ite_none_right_eq_some] at hs
      all_goals
        first
        | (obtain ⟨x, -, hx⟩ := hs; exact ⟨x, (congrArg Prod.fst hx).symm⟩)
        | (obtain ⟨-, x, -, hx⟩ := hs; exact ⟨x, (congrArg Prod.fst hx).symm⟩)
    obtain ⟨x, rfl⟩ := this
    exact h
  | make ring basis =>
    simp only [mstep] at hs
    split at hs
    · cases hs; exact make h ring basis
    · cases hs
  | copy m =>
    simp only [mstep] at hs
    split at hs
    · rename_i hc
      cases hs
      intro k hk
      rcases List.mem_cons.1 hk with rfl | hk
      · exact h _ (by simpa using hc)
      · exact h k hk
    · cases hs
  | drop m =>
    simp only [mstep] at hs
    split at hs
    · cases hs; exact fun k hk => h k (List.mem_of_mem_erase hk)
    · cases hs
  | destroy m =>
    simp only [mstep] at hs
    split at hs
    · split at hs
      · cases hs
      · rename_i hc
        cases hs
        intro k hk
        have hne : k ≠ m := by rintro rfl; exact hc (by simpa using hk)
        simp only [MState.live]
        rw [lookup_filter hne]
        exact h k hk
    · cases hs
  | forget k m =>
    simp only [mstep] at hs
    split at hs
    · cases hs; exact h
    · cases hs

theorem load {R : Type} {alloc : Alloc} {malloc : MAlloc P} {st : MState P} (h : Ok st) (a : EltArchive P R) : Ok (st.loadElement alloc malloc a).1 := by
  unfold MState.loadElement
  split
  · next s tab basis _ =>
    have := make (malloc := malloc) (st := { st with base := s }) h a.ring basis
    split <;> rename_i hm <;> rw [hm] at this <;> exact this
  · exact h

end MAlive

/-- C55. A module that the client, or an element, refers to is alive, in every history; and so are the generators of every module that is alive. -/
theorem module_alive {gen : Generators} {st : MState P} (h : MReach gen st) (hb : st.base.next ≤ 2 ^ 64) :
    (∀ m ∈ st.mroots, ∃ o, st.live m = some o) ∧ ∀ m o, st.live m = some o → ∀ p ∈ o.basis, ∃ x, st.base.live p = some x := by
  have hi := MState.minv_of_mreach h hb
  constructor
  · have : MAlive.Ok st := by
      clear hi hb
      induction h with
      | init => intro m hm; cases hm
      | step _ _ _ hs ih => exact MAlive.step ih hs
      | load _ _ _ _ _ _ ih _ => exact MAlive.load ih _
      | read _ _ _ _ ih => exact MAlive.load ih _
    exact fun m hm => Option.isSome_iff_exists.1 (this m hm)
  · intro m o hm p hp
    refine Option.isSome_iff_exists.1 (hi.base.roots_live p (List.count_pos_iff.1 (lt_of_lt_of_le ?_ (hi.held p))))
    have h1 : o.basis.count p ∈ st.mods.map fun m => m.2.basis.count p := List.mem_map.2 ⟨(m, o), MState.mem_of_live hm, rfl⟩
    exact lt_of_lt_of_le (List.count_pos_iff.2 hp) (List.le_sum_of_mem h1)

/-- C55. What a pointer to a module that is still alive points to never changes: its address, ring, generators, and the numbers these stand
for. -/
theorem module_immutable {gen : Generators} {st st' : MState P} (h : MReach gen st) (he : MEvolves gen st st') (hb : st'.base.next ≤ 2 ^ 64)
    {m : Ptr} {o o' : MObj P} (hm : st.live m = some o) (hm' : st'.live m = some o') :
    o' = o ∧ ∀ p ∈ o.basis, st'.base.desc p = st.base.desc p := by
  obtain ⟨hl, hn⟩ := MState.mlater_of_mevolves h he hb
  have hi := MState.minv_of_mreach h (hn.trans hb)
  have hi' := MState.minv_of_mreach (MState.mreach_of_mevolves h he) hb
  have e := hl.live m o' hm' (hi.bound m o hm)
  rw [hm] at e; injection e with e; subst e
  exact ⟨rfl, fun p hp => (desc_later hi.base hi'.base hl.base (hi.basis_live hm hp) (hi'.basis_live hm' hp)).2⟩

/-! ### C44 -/

/-- C44, partial. Loading an element never throws, yields a module with the same ring and the same set of generators, and the coefficients that
were written.  If the identities of the random numbers are in the same order in both processes then the loaded element is the same linear
combination.  Missing: the last statement without the assumption on the order, see `element_round_trip_fails`. -/
theorem element_round_trip_partial {R : Type} [AddCommMonoid R] {gen : Generators} {alloc : Alloc} (ha : alloc.Valid) {malloc : MAlloc P}
    (hma : malloc.Valid) {st₀ st : MState P} (h₀ : MReach gen st₀) (hb₀ : st₀.base.next ≤ 2 ^ 64) (h : MReach gen st) {m₀ : Ptr} {o₀ : MObj P}
    (hm₀ : st₀.live m₀ = some o₀) {cs : List R} {a : EltArchive P R} (hs : st₀.saveElement m₀ cs = some a)
    (hb : (st.loadElement alloc malloc a).1.base.next ≤ 2 ^ 64) :
    ∃ m o, (st.loadElement alloc malloc a).2 = some (.ok (m, cs)) ∧ (st.loadElement alloc malloc a).1.live m = some o ∧ o.ring = o₀.ring ∧
      (∀ d, (∃ p ∈ o.basis, (st.loadElement alloc malloc a).1.base.desc p = d) ↔ ∃ p ∈ o₀.basis, st₀.base.desc p = d) ∧
      (SameOrder st₀.base (st.loadElement alloc malloc a).1.base →
        (st.loadElement alloc malloc a).1.base.combination o.basis cs = st₀.base.combination o₀.basis cs) := by
  have hi₀ := MState.minv_of_mreach h₀ hb₀
  have hn : st.base.next ≤ (st.loadElement alloc malloc a).1.base.next := by
    rw [MState.next_loadElement]; exact (loadBasis_mono _ _ _ _).2.2
  have l := MState.loadElement_spec hi₀ ha hma (MState.minv_of_mreach h (hn.trans hb)) hm₀ hs hb
  obtain ⟨m, o, qs, h1, h2, h3, h4, h5⟩ := l.result
  refine ⟨m, o, h1, h2, h3, ?_, ?_⟩
  · intro d
    rw [h4]
    simp only [MState.mem_sort]
    clear h1 h2 h4
    generalize (st.loadElement alloc malloc a).1.base = s at h5
    revert h5
    generalize o₀.basis = ps
    intro h5
    induction h5 with
    | nil => simp
    | cons x _ ih => simp only [List.mem_cons, exists_eq_or_imp, ih, x.desc]
  · intro ho
    have hp := pairwise_same hi₀.base l.inv.base ho h5 (hi₀.sorted m₀ o₀ hm₀)
    rw [h4, sort_of_precedes l.inv.base hp]
    exact combination_same h5 cs

/-- C44. Loading an element while its module is alive yields the original module and the original coefficients. -/
theorem element_round_trip_alive {R : Type} {gen : Generators} {alloc : Alloc} (ha : alloc.Valid) {malloc : MAlloc P}
    (hma : malloc.Valid) {st₀ st : MState P} (h₀ : MReach gen st₀) (he : MEvolves gen st₀ st) {m₀ : Ptr} {o₀ o : MObj P}
    (hm₀ : st₀.live m₀ = some o₀) (hm : st.live m₀ = some o) {cs : List R} {a : EltArchive P R} (hs : st₀.saveElement m₀ cs = some a)
    (hb : (st.loadElement alloc malloc a).1.base.next ≤ 2 ^ 64) :
    (st.loadElement alloc malloc a).2 = some (.ok (m₀, cs)) := by
  have hn : st.base.next ≤ (st.loadElement alloc malloc a).1.base.next := by
    rw [MState.next_loadElement]; exact (loadBasis_mono _ _ _ _).2.2
  have hbs := hn.trans hb
  obtain ⟨hl, hn₀⟩ := MState.mlater_of_mevolves h₀ he hbs
  have hi₀ := MState.minv_of_mreach h₀ (hn₀.trans hbs)
  have hi := MState.minv_of_mreach (MState.mreach_of_mevolves h₀ he) hbs
  have l := MState.loadElement_spec hi₀ ha hma hi hm₀ hs hb
  obtain ⟨m, o', qs, h1, h2, h3, h4, h5⟩ := l.result
  have e := hl.live m₀ o hm (hi₀.bound m₀ o₀ hm₀)
  rw [hm₀] at e; injection e with e; subst e
  have hqs : qs = o₀.basis := by
    have hsame : ∀ p ∈ o₀.basis, ∀ q, Same st₀.base p (st.loadElement alloc malloc a).1.base q → q = p := by
      intro p hp q hpq
      have lp := hi.basis_live hm hp
      have lp' : ((st.loadElement alloc malloc a).1.base.live p).isSome := by rw [l.ext.live_eq lp]; exact lp
      apply desc_inj l.inv.base hpq.live lp'
      rw [hpq.desc, desc_ext hi.base l.ext lp, (desc_later hi₀.base hi.base hl.base (hi₀.basis_live hm₀ hp) lp).2]
    clear h1 h2 h4 hm hm₀
    revert h5 hsame
    generalize (st.loadElement alloc malloc a).1.base = s
    generalize o₀.basis = ps
    intro h5 hsame
    induction h5 with
    | nil => rfl
    | cons x _ ih => rw [hsame _ (by simp) _ x, ih fun p hp => hsame p (by simp [hp])]
  have hp : (o₀.basis.map (st.loadElement alloc malloc a).1.base.rn).Pairwise fun g h => Precedes g.mult h.mult := by
    have := l.inv.sorted m₀ o₀ (l.mlive m₀ o₀ hm)
    exact this
  have hb' : o'.basis = o₀.basis := by rw [h4, hqs, sort_of_precedes l.inv.base hp]
  rw [h1, l.inv.data_inj m o' m₀ o₀ h2 (l.mlive m₀ o₀ hm) h3 hb']

/-! ### Examples and the failure of C44 in general -/

/-- An allocator that hands out addresses downwards as long as they are free. -/
def downAlloc : Alloc := fun s => if s.heap.all fun x => x.2.addr ≠ 1000 - s.count then 1000 - s.count else stackAlloc s

theorem downAlloc_valid : downAlloc.Valid := by
  intro s p o h hc
  rw [downAlloc] at hc
  split_ifs at hc with hf
  · have := List.all_eq_true.1 hf _ (mem_of_lookup h)
    simp only [ne_eq, decide_not, Bool.not_eq_eq_eq_not, Bool.not_true, decide_eq_false_iff_not] at this
    exact this hc.symm
  · exact stackAlloc_valid s p o h hc

/-- An allocator for modules. -/
def stackMAlloc (P : Type) : MAlloc P := fun st => (st.mods.map fun x => x.2.addr).foldr max 0 + 1

theorem stackMAlloc_valid (P : Type) : (stackMAlloc P).Valid := by
  classical
  intro s p o h hc
  have hm := MState.mem_of_live h
  have : ∀ l : List (Ptr × MObj P), (p, o) ∈ l → o.addr ≤ (l.map fun x => x.2.addr).foldr max 0 := by
    intro l
    induction l with
    | nil => simp
    | cons a l ih =>
      intro hl
      rw [List.mem_cons] at hl
      rcases hl with rfl | hl
      · simp
      · exact (ih hl).trans (by simp)
  have := this _ hm
  rw [stackMAlloc] at hc
  exact Nat.not_succ_le_self _ (hc ▸ this)

/-- Run events one after the other. -/
def mrun (gen : Generators) (alloc : Alloc) (malloc : MAlloc P) (s : MState P) : List (MEvent P) → Option (MState P)
  | [] => some s
  | e :: es => match mstep gen alloc malloc s e with
    | some (s, _) => mrun gen alloc malloc s es
    | none => none

theorem mreach_mrun {gen : Generators} {alloc : Alloc} (ha : alloc.Valid) {malloc : MAlloc P} (hma : malloc.Valid) {s s' : MState P}
    (h : MReach gen s) (es : List (MEvent P)) (hr : mrun gen alloc malloc s es = some s') : MReach gen s' := by
  induction es generalizing s with
  | nil => simp only [mrun, Option.some.injEq] at hr; exact hr ▸ h
  | cons e es ih =>
    rw [mrun] at hr
    split at hr
    · exact ih (h.step ha hma ‹_›) hr
    · cases hr

/-- Two random numbers `a` and `b`, the products `a·b` and `b²` and the module generated by them. -/
def mhistory : List (MEvent Unit) :=
  [.base (.random 1), .base (.random 2), .base (.mul 0 1), .base (.mul 1 1), .make () [2, 3]]

/-- The state after `mhistory`. -/
def mstate : MState Unit :=
  ⟨⟨2147483663, 4,
    [(3, ⟨997, 2147483662, .product [(1, 2)] (2147483660 * 2147483660)⟩),
      (2, ⟨998, 2147483661, .product [(0, 1), (1, 1)] (2147483659 * 2147483660)⟩), (1, ⟨999, 2147483660, .random 2⟩),
      (0, ⟨1000, 2147483659, .random 1⟩)],
    [2, 3, 3, 2, 1, 0],
    [(.product [(2147483660, 2)] (2147483660 * 2147483660), 3),
      (.product [(2147483659, 1), (2147483660, 1)] (2147483659 * 2147483660), 2), (.random 2, 1), (.random 1, 0)]⟩,
    1, [(0, ⟨1, (), [2, 3]⟩)], [0], [(([2147483661, 2147483662], ()), 0)]⟩

theorem mrun_mhistory (gen : Generators) : mrun gen downAlloc (stackMAlloc Unit) (minit Unit) mhistory = some mstate := by
  simp [mrun, mhistory, mstep, Heap.step, State.random, State.get, State.create, State.live, minit, init, downAlloc, List.lookup, State.mul,
    State.mulFactory, State.persist, State.addrOf, State.factorsOf, State.merge, State.idOf, State.toMono, State.hashOf, MState.make, MState.sort,
    List.insertionSort, List.orderedInsert, State.rn, RN.lt, RN.deglex, Mono.deglex, Mono.totalDegree, Mono.deglexLoop, MState.check, RN.isRat,
    RN.rational?, stackMAlloc, mstate]

theorem mreach_mstate (gen : Generators) : MReach gen mstate :=
  mreach_mrun downAlloc_valid (stackMAlloc_valid Unit) MReach.init _ (mrun_mhistory gen)

/-- The element `1·ab + 0·b²`, written. -/
def marchive : EltArchive Unit ℤ :=
  ⟨[.product 1 (.cons (.random 2 2) 1 (.cons (.random 3 1) 1 .nil)), .product 4 (.cons (.shared 2) 2 .nil)], (), [1, 0]⟩

theorem save_marchive : mstate.saveElement 0 [(1 : ℤ), 0] = some marchive := by
  rfl

/-- The state of a fresh process after loading the element. -/
def mloaded : MState Unit :=
  ⟨⟨2147483663, 4,
    [(3, ⟨997, 2147483662, .product [(0, 2)] (2147483659 * 2147483659)⟩),
      (2, ⟨998, 2147483661, .product [(0, 1), (1, 1)] (2147483659 * 2147483660)⟩), (1, ⟨999, 2147483660, .random 1⟩),
      (0, ⟨1000, 2147483659, .random 2⟩)],
    [3, 2, 3, 2, 1, 0],
    [(.product [(2147483659, 2)] (2147483659 * 2147483659), 3),
      (.product [(2147483659, 1), (2147483660, 1)] (2147483659 * 2147483660), 2), (.random 1, 1), (.random 2, 0)]⟩,
    1, [(0, ⟨1, (), [3, 2]⟩)], [0], [(([2147483662, 2147483661], ()), 0)]⟩

theorem hash_ab : Mono.hash [(2147483659, 1), (2147483660, 1)] = 2147483659 * 2147483660 := by
  simp [Mono.hash, Mono.pow64_eq]

theorem hash_bb : Mono.hash [(2147483659, 2)] = 2147483659 * 2147483659 := by
  simp [Mono.hash, Mono.pow64_eq, pow_two]

theorem hash_bb' : Mono.hash [(2147483660, 2)] = 2147483660 * 2147483660 := by
  simp [Mono.hash, Mono.pow64_eq, pow_two]

/-- The state after loading the first generator. -/
def mloaded1 : State :=
  ⟨2147483662, 3,
    [(2, ⟨998, 2147483661, .product [(0, 1), (1, 1)] (2147483659 * 2147483660)⟩), (1, ⟨999, 2147483660, .random 1⟩),
      (0, ⟨1000, 2147483659, .random 2⟩)],
    [2, 1, 0],
    [(.product [(2147483659, 1), (2147483660, 1)] (2147483659 * 2147483660), 2), (.random 1, 1), (.random 2, 0)]⟩

theorem load_first : State.load downAlloc init [] (.product 1 (.cons (.random 2 2) 1 (.cons (.random 3 1) 1 .nil))) =
    (mloaded1, [(1, 2), (3, 1), (2, 0)], some 2) := by
  simp [State.load, State.loadAll, State.random, State.get, State.create, State.live, init, downAlloc, List.lookup, State.insertKey,
    State.addrOf, State.productFactory, State.byId, State.idOf, State.toMono, List.insertionSort, List.orderedInsert, mloaded1, hash_ab]

theorem load_second : State.load downAlloc mloaded1 [(1, 2), (3, 1), (2, 0)] (.product 4 (.cons (.shared 2) 2 .nil)) =
    (⟨2147483663, 4,
    [(3, ⟨997, 2147483662, .product [(0, 2)] (2147483659 * 2147483659)⟩),
      (2, ⟨998, 2147483661, .product [(0, 1), (1, 1)] (2147483659 * 2147483660)⟩), (1, ⟨999, 2147483660, .random 1⟩),
      (0, ⟨1000, 2147483659, .random 2⟩)],
    [3, 2, 1, 0],
    [(.product [(2147483659, 2)] (2147483659 * 2147483659), 3),
      (.product [(2147483659, 1), (2147483660, 1)] (2147483659 * 2147483660), 2), (.random 1, 1), (.random 2, 0)]⟩,
      [(4, 3), (1, 2), (3, 1), (2, 0)], some 3) := by
  simp [State.load, State.loadAll, State.get, State.create, State.live, downAlloc, List.lookup, State.insertKey,
    State.productFactory, State.byId, State.idOf, State.toMono, List.insertionSort, List.orderedInsert, mloaded1, hash_bb]

theorem load_marchive : (minit Unit).loadElement downAlloc (stackMAlloc Unit) marchive = (mloaded, some (.ok (0, [1, 0]))) := by
  simp only [MState.loadElement, State.loadBasis, marchive, minit, load_first, load_second]
  simp [State.live, List.lookup, State.addrOf, State.idOf, State.toMono,
      List.insertionSort, List.orderedInsert, MState.make, MState.sort, State.rn, RN.lt, RN.deglex, Mono.deglex, Mono.totalDegree,
      Mono.deglexLoop, MState.check, RN.isRat, RN.rational?, stackMAlloc, mloaded]

/-- C44, negation. In a fresh process, the generators `ab` and `b²` come out in the opposite order, because the ids of `a` and `b` are assigned in
the order of their addresses in the writing process.  The element `1·ab + 0·b²` is read as `1·b² + 0·ab`. -/
theorem element_round_trip_fails (gen : Generators) : ∃ (st₀ : MState Unit) (m₀ : Ptr) (o₀ : MObj Unit) (cs : List ℤ) (a : EltArchive Unit ℤ),
    MReach gen st₀ ∧ st₀.live m₀ = some o₀ ∧ o₀.basis.length = cs.length ∧ st₀.saveElement m₀ cs = some a ∧
    ∃ m o cs', ((minit Unit).loadElement downAlloc (stackMAlloc Unit) a).2 = some (.ok (m, cs')) ∧
      ((minit Unit).loadElement downAlloc (stackMAlloc Unit) a).1.live m = some o ∧
      ((minit Unit).loadElement downAlloc (stackMAlloc Unit) a).1.base.combination o.basis cs' ≠ st₀.base.combination o₀.basis cs := by
  refine ⟨mstate, 0, ⟨1, (), [2, 3]⟩, [1, 0], marchive, mreach_mstate gen, rfl, rfl, save_marchive, 0, ⟨1, (), [3, 2]⟩, [1, 0], ?_⟩
  rw [load_marchive]
  refine ⟨rfl, rfl, ?_⟩
  simp only [State.combination, mstate, mloaded, State.desc, State.live, List.lookup, State.atomDesc]
  simp
  intro he
  have := Finsupp.single_left_injective one_ne_zero he
  simp only [Desc.monomial.injEq] at this
  simpa using DFunLike.congr_fun this (AtomDesc.random 1)

/-- The module of the example is alive; `module_unique`, `module_immutable` and `element_round_trip_alive` apply to it. -/
example (gen : Generators) : MReach gen mstate ∧ mstate.base.next ≤ 2 ^ 64 ∧ mstate.live 0 = some ⟨1, (), [2, 3]⟩ ∧ MEvolves gen mstate mstate ∧
    (mstate.loadElement downAlloc (stackMAlloc Unit) marchive).2 = some (.ok (0, [1, 0])) := by
  refine ⟨mreach_mstate gen, by simp [mstate], rfl, .refl, ?_⟩
  refine element_round_trip_alive downAlloc_valid (stackMAlloc_valid Unit) (mreach_mstate gen) .refl (o := ⟨1, (), [2, 3]⟩) rfl rfl save_marchive ?_
  have : (mstate.loadElement downAlloc (stackMAlloc Unit) marchive).1.base.next = 2147483663 := by
    simp [MState.next_loadElement, marchive, State.loadBasis, State.load, State.loadAll, State.random, State.get, State.live, List.lookup,
      mstate, State.insertKey, State.addrOf, State.productFactory, State.byId, State.idOf, State.toMono, List.insertionSort,
      List.orderedInsert, hash_ab, hash_bb']
  rw [this]; norm_num

/-- A process in which `a` and `b` have been created in the same order as in the writing process: the hypothesis on the order of
`element_round_trip_partial` is satisfied there. -/
def mloader : MState Unit := { minit Unit with
  base := ⟨2147483661, 2, [(1, ⟨999, 2147483660, .random 2⟩), (0, ⟨1000, 2147483659, .random 1⟩)], [1, 0], [(.random 2, 1), (.random 1, 0)]⟩ }

theorem mreach_mloader (gen : Generators) : MReach gen mloader :=
  mreach_mrun downAlloc_valid (stackMAlloc_valid Unit) MReach.init [.base (.random 1), .base (.random 2)] rfl

/-- The real numbers of `mloader` after loading the element. -/
def mloader1 : State :=
  ⟨2147483663, 4,
    [(3, ⟨997, 2147483662, .product [(1, 2)] (2147483660 * 2147483660)⟩),
      (2, ⟨998, 2147483661, .product [(0, 1), (1, 1)] (2147483659 * 2147483660)⟩), (1, ⟨999, 2147483660, .random 2⟩),
      (0, ⟨1000, 2147483659, .random 1⟩)],
    [2, 3, 3, 2, 0, 1, 1, 0],
    [(.product [(2147483660, 2)] (2147483660 * 2147483660), 3),
      (.product [(2147483659, 1), (2147483660, 1)] (2147483659 * 2147483660), 2), (.random 2, 1), (.random 1, 0)]⟩

theorem mloader1_base : (mloader.loadElement downAlloc (stackMAlloc Unit) marchive).1.base = mloader1 := by
  simp [MState.loadElement, State.loadBasis, marchive, mloader, minit, State.load, State.loadAll, State.random, State.get, State.create, State.live,
      downAlloc, List.lookup, State.insertKey, State.addrOf, State.productFactory, State.byId, State.idOf, State.toMono, List.insertionSort,
      List.orderedInsert, hash_ab, hash_bb', MState.make, MState.sort, State.rn, RN.lt, RN.deglex, Mono.deglex, Mono.totalDegree, Mono.deglexLoop,
      MState.check, RN.isRat, RN.rational?, stackMAlloc, mloader1]

example (gen : Generators) : MReach gen mloader ∧ SameOrder mstate.base (mloader.loadElement downAlloc (stackMAlloc Unit) marchive).1.base := by
  refine ⟨mreach_mloader gen, ?_⟩
  rw [mloader1_base]
  have ha : ∀ s : State, s.heap = mstate.base.heap → ∀ p, s.IsAtom p → p = 0 ∨ p = 1 := by
    rintro ⟨n, c, heap, r, ca⟩ he p ⟨o, ho, h⟩
    simp only at he
    subst he
    simp only [State.live, mstate, List.lookup_cons, List.lookup_nil] at ho
    by_cases h0 : p = 0
    · exact Or.inl h0
    by_cases h1 : p = 1
    · exact Or.inr h1
    by_cases h2 : p = 2
    · subst h2; simp at ho; subst ho; simp at h
    by_cases h3 : p = 3
    · subst h3; simp at ho; subst ho; simp at h
    rw [beq_eq_false_iff_ne.2 h0, beq_eq_false_iff_ne.2 h1, beq_eq_false_iff_ne.2 h2, beq_eq_false_iff_ne.2 h3] at ho
    cases ho
  have hd : ∀ p q, (p = 0 ∨ p = 1) → (q = 0 ∨ q = 1) → mloader1.desc q = mstate.base.desc p → q = p := by
    have e : Finsupp.single (AtomDesc.random 1) 1 ≠ Finsupp.single (AtomDesc.random 2) 1 := by
      intro he
      have := Finsupp.single_left_injective one_ne_zero he
      simp at this
    rintro p q (rfl | rfl) (rfl | rfl) h
    · rfl
    · simp only [State.desc, mloader1, mstate, State.live, List.lookup, State.atomDesc] at h
      simp at h
      exact absurd h.symm e
    · simp only [State.desc, mloader1, mstate, State.live, List.lookup, State.atomDesc] at h
      simp at h
      exact absurd h e
    · rfl
  intro p p' q q' hp hp' hq hq' h h' hlt
  have a1 := ha _ rfl p hp
  have a2 := ha _ rfl p' hp'
  have a3 := ha _ rfl q hq
  have a4 := ha _ rfl q' hq'
  rw [hd p q a1 a3 h, hd p' q' a2 a4 h']
  exact hlt

end ExactReal.Props
