import Verif.Spec.ArchiveStream
import Verif.Props.Archive

/-! # Archives with several numbers and elements -/

namespace ExactReal.Heap
open State

variable {P R : Type} [DecidableEq P]

theorem minv_of_mevolves {gen : Generators} {st st' : MState P} (h : MState.MInv st) (he : MEvolves gen st st') (hb : st'.base.next ≤ 2 ^ 64) :
    MState.MInv st' ∧ MState.MLater st st' ∧ st.base.next ≤ st'.base.next := by
  induction he with
  | refl => exact ⟨h, MState.MLater.rfl, le_rfl⟩
  | step he ha hm hs ih =>
    obtain ⟨h0, h1, h2⟩ := ih ((MState.next_mstep hs).trans hb)
    obtain ⟨h3, h4⟩ := MState.minv_step ha hm h0 hs hb
    exact ⟨h3, h1.trans h4, h2.trans (MState.next_mstep hs)⟩
  | load he ha hm h₀ hb₀ hs ih =>
    have hb1 := hb
    rw [MState.next_loadElement] at hb1
    have hn := (loadBasis_mono _ _ _ _).2.2.trans hb1
    obtain ⟨h0, h1, h2⟩ := ih hn
    obtain ⟨o, ho⟩ := MState.saveElement_live hs
    have l := MState.loadElement_spec (MState.minv_of_mreach h₀ hb₀) ha hm h0 ho hs hb
    exact ⟨l.inv, h1.trans l.later, h2.trans l.ext.next⟩
  | read he ha hm hd ih =>
    have hb1 := hb
    rw [MState.next_loadElement] at hb1
    have hn := (loadBasis_mono _ _ _ _).2.2.trans hb1
    obtain ⟨h0, h1, h2⟩ := ih hn
    have l := MState.loadElement_read ha hm h0 hd hb
    exact ⟨l.inv, h1.trans l.later, h2.trans l.ext.next⟩

theorem next_of_mevolves {gen : Generators} {st st' : MState P} (he : MEvolves gen st st') : st.base.next ≤ st'.base.next := by
  induction he with
  | refl => exact le_rfl
  | step he ha hm hs ih => exact ih.trans (MState.next_mstep hs)
  | load he ha hm h₀ hb₀ hs ih => exact ih.trans (by rw [MState.next_loadElement]; exact (loadBasis_mono _ _ _ _).2.2)
  | read he ha hm hd ih => exact ih.trans (by rw [MState.next_loadElement]; exact (loadBasis_mono _ _ _ _).2.2)

/-- An object that is alive in two states is the same. -/
theorem mlive_later {st st' : MState P} (h : MState.MInv st) (h' : MState.MInv st') (hl : MState.MLater st st') {m : Ptr} {o : MObj P}
    (hm : st.live m = some o) (hm' : (st'.live m).isSome) : st'.live m = some o ∧ o.basis.map st'.base.desc = o.basis.map st.base.desc := by
  obtain ⟨o', ho'⟩ := Option.isSome_iff_exists.1 hm'
  have e := hl.live m o' ho' (h.bound m o hm)
  rw [hm] at e; injection e with e; subst e
  refine ⟨ho', List.map_congr_left fun p hp => ?_⟩
  exact (desc_later h.base h'.base hl.base (h.basis_live hm hp) (h'.basis_live ho' hp)).2

/-! ### What the archive describes -/

/-- The numbers and elements that something written describes; `mt` are the modules that have been written. -/
inductive Item.Denotes : List (ℕ × Desc) → List (ℕ × P × List Desc) → Item P R → List (ℕ × Desc) → List (ℕ × P × List Desc) → Source P R → Prop
  | number {dt dt' : List (ℕ × Desc)} {mt : List (ℕ × P × List Desc)} {t : Tree} {s : State} {p : Ptr} :
      t.Denotes dt dt' (s.desc p) → Item.Denotes dt mt (.number t) dt' mt (.number s p)
  | shared {dt : List (ℕ × Desc)} {mt : List (ℕ × P × List Desc)} {id : ℕ} {cs : List R} {st : MState P} {m : Ptr} {o : MObj P} :
      MState.MInv st → st.live m = some o → mt.lookup id = some (o.ring, o.basis.map st.base.desc) →
      Item.Denotes dt mt (.element (.shared id) cs) dt mt (.element st m cs)
  | module {dt dt' : List (ℕ × Desc)} {mt : List (ℕ × P × List Desc)} {id : ℕ} {ts : List Tree} {cs : List R} {st : MState P} {m : Ptr}
      {o : MObj P} : MState.MInv st → st.live m = some o → BasisDenotes dt ts dt' (o.basis.map st.base.desc) →
      Item.Denotes dt mt (.element (.module id ts o.ring) cs) dt' ((id, o.ring, o.basis.map st.base.desc) :: mt) (.element st m cs)

/-- The items that have been written one after the other. -/
inductive Stream : List (ℕ × Desc) → List (ℕ × P × List Desc) → List (Item P R × Source P R) → Prop
  | nil : Stream [] [] []
  | snoc {dt dt' : List (ℕ × Desc)} {mt mt' : List (ℕ × P × List Desc)} {l : List (Item P R × Source P R)} {i : Item P R} {x : Source P R} :
      Stream dt mt l → i.Denotes dt mt dt' mt' x → Stream dt' mt' (l ++ [(i, x)])

/-! ### The writer -/

theorem saveBasis_denotes {s : State} (h : Inv s) (ps : List Ptr) : ∀ tab tab' ts dt O, s.saveBasis tab ps = some (tab', ts) →
    (∀ p ∈ ps, ∀ o, s.live p = some o → Open s tab O 2) → Written s tab dt O →
    (∃ ext, tab' = tab ++ ext) ∧ ∃ dt', BasisDenotes dt ts dt' (ps.map s.desc) ∧ Written s tab' dt' O := by
  induction ps with
  | nil =>
    intro tab tab' ts dt O hs _ hw
    simp only [State.saveBasis, Option.some.injEq, Prod.mk.injEq] at hs
    obtain ⟨rfl, rfl⟩ := hs
    exact ⟨⟨[], by simp⟩, dt, .nil, hw⟩
  | cons p ps ih =>
    intro tab tab' ts dt O hs hO hw
    rw [State.saveBasis] at hs
    split at hs
    · cases hs
    · rename_i tab1 t h1
      split at hs
      · cases hs
      · rename_i tab2 ts' h2
        simp only [Option.some.injEq, Prod.mk.injEq] at hs
        obtain ⟨rfl, rfl⟩ := hs
        obtain ⟨⟨e1, he1⟩, dt1, hd1, hw1⟩ := save_denotes h 3 tab p tab1 t dt O h1
          (fun o ho => by
            have := (hO p (by simp) o ho).mono (ext := []) (l' := o.data.level) (by cases o.data <;> simp [Data.level])
            simpa using this) hw
        obtain ⟨⟨e2, he2⟩, dt2, hd2, hw2⟩ := ih tab1 tab2 ts' dt1 O h2
          (fun q hq o ho => by rw [he1]; exact (hO q (by simp [hq]) o ho).mono le_rfl) hw1
        exact ⟨⟨e1 ++ e2, by rw [he2, he1, List.append_assoc]⟩, dt2, .cons hd1 hd2, hw2⟩

/-- The invariant of an archive that keeps objects alive. -/
structure WInv (w : Writer P) (dt : List (ℕ × Desc)) (mt : List (ℕ × P × List Desc)) : Prop where
  inv : MState.MInv w.proc
  tab : ∀ i a, w.tab[i]? = some a →
    (∃ p o, p ∈ w.kept ∧ w.proc.base.live p = some o ∧ o.addr = a ∧ dt.lookup (i + 1) = some (w.proc.base.desc p)) ∨
    (∃ m o, m ∈ w.mkept ∧ w.proc.live m = some o ∧ o.addr = a ∧ mt.lookup (i + 1) = some (o.ring, o.basis.map w.proc.base.desc))

theorem WInv.progress {w : Writer P} {dt : List (ℕ × Desc)} {mt : List (ℕ × P × List Desc)} (h : WInv w dt mt) {gen : Generators} {st : MState P}
    (he : MEvolves gen w.proc st) (hb : st.base.next ≤ 2 ^ 64) (hk : ∀ p ∈ w.kept, (st.base.live p).isSome)
    (hm : ∀ m ∈ w.mkept, (st.live m).isSome) : WInv { w with proc := st } dt mt := by
  obtain ⟨hi, hl, -⟩ := minv_of_mevolves h.inv he hb
  refine ⟨hi, fun i a hia => ?_⟩
  rcases h.tab i a hia with ⟨p, o, h1, h2, h3, h4⟩ | ⟨m, o, h1, h2, h3, h4⟩
  · obtain ⟨e1, e2⟩ := desc_later h.inv.base hi.base hl.base (by simp [h2]) (hk p h1)
    exact Or.inl ⟨p, o, h1, by rw [e1]; exact h2, h3, by rw [e2]; exact h4⟩
  · obtain ⟨e1, e2⟩ := mlive_later h.inv hi hl h2 (hm m h1)
    exact Or.inr ⟨m, o, h1, e1, h3, by rw [e2]; exact h4⟩

/-- The numbers of modules. -/
def moduleIds (st : MState P) (tab : List Addr) : Set ℕ := {i | ∃ m o, st.live m = some o ∧ tab[i]? = some o.addr}

theorem open_modules {st : MState P} (hs : st.Separate) (tab : List Addr) (l : ℕ) : Open st.base tab (moduleIds st tab) l := by
  rintro i ⟨m, o, h1, h2⟩
  refine ⟨(List.getElem?_eq_some_iff.1 h2).1, fun p o' h3 h4 => ?_⟩
  rw [h2] at h4; injection h4 with h4
  exact absurd h4.symm (hs p o' m o h3 h1)

theorem WInv.written {w : Writer P} {dt : List (ℕ × Desc)} {mt : List (ℕ × P × List Desc)} (h : WInv w dt mt) :
    Written w.proc.base w.tab dt (moduleIds w.proc w.tab) := by
  intro i a hia hi
  rcases h.tab i a hia with ⟨p, o, h1, h2, h3, h4⟩ | ⟨m, o, h1, h2, h3, h4⟩
  · exact ⟨p, o, h2, h3, h4⟩
  · exact absurd ⟨m, o, h2, by rw [hia, h3]⟩ hi

theorem mem_kept {w : Writer P} {dt : List (ℕ × Desc)} {mt : List (ℕ × P × List Desc)} (h : WInv w dt mt) (hs : w.proc.Separate) {tab : List Addr}
    {p : Ptr} {o : Obj} (ho : w.proc.base.live p = some o) (ht : o.addr ∈ tab) : p ∈ (w.register true tab).kept := by
  by_cases hw : o.addr ∈ w.tab
  · obtain ⟨i, hi⟩ := List.mem_iff_getElem?.1 hw
    rcases h.tab i _ hi with ⟨p', o', h1, h2, h3, -⟩ | ⟨m, o', -, h2, h3, -⟩
    · have := h.inv.base.addr_inj p' o' p o h2 ho h3
      subst this
      simp [Writer.register, h1]
    · exact absurd h3.symm (hs p o m o' ho h2)
  · simp only [Writer.register, if_true, List.mem_append, List.mem_map, List.mem_filter]
    exact Or.inr ⟨(p, o), ⟨mem_of_lookup ho, by simp [ht, hw]⟩, rfl⟩

theorem mem_mkept {w : Writer P} {dt : List (ℕ × Desc)} {mt : List (ℕ × P × List Desc)} (h : WInv w dt mt) (hs : w.proc.Separate) {tab : List Addr}
    {m : Ptr} {o : MObj P} (ho : w.proc.live m = some o) (ht : o.addr ∈ tab) : m ∈ (w.register true tab).mkept := by
  by_cases hw : o.addr ∈ w.tab
  · obtain ⟨i, hi⟩ := List.mem_iff_getElem?.1 hw
    rcases h.tab i _ hi with ⟨p, o', -, h2, h3, -⟩ | ⟨m', o', h1, h2, h3, -⟩
    · exact absurd h3 (hs p o' m o h2 ho)
    · have := h.inv.addr_inj m' o' m o h2 ho h3
      subst this
      simp [Writer.register, h1]
  · simp only [Writer.register, if_true, List.mem_append, List.mem_map, List.mem_filter]
    exact Or.inr ⟨(m, o), ⟨MState.mem_of_live ho, by simp [ht, hw]⟩, rfl⟩

theorem WInv.number {w w' : Writer P} {dt : List (ℕ × Desc)} {mt : List (ℕ × P × List Desc)} (h : WInv w dt mt) (hs : w.proc.Separate)
    {p : Ptr} {i : Item P R} (hw : w.writeNumber true p = some (w', i)) :
    ∃ dt', WInv w' dt' mt ∧ i.Denotes dt mt dt' mt (.number w.proc.base p) := by
  unfold Writer.writeNumber at hw
  split at hw
  · cases hw
  · rename_i tab t hsv
    simp only [Option.some.injEq, Prod.mk.injEq] at hw
    obtain ⟨rfl, rfl⟩ := hw
    obtain ⟨⟨ext, rfl⟩, dt', hd, hwr⟩ := save_denotes h.inv.base 3 w.tab p tab t dt (moduleIds w.proc w.tab) hsv
      (fun o _ => open_modules hs _ _) h.written
    refine ⟨dt', ⟨h.inv, fun j a hj => ?_⟩, .number hd⟩
    have hj' : (w.tab ++ ext)[j]? = some a := hj
    by_cases hO : j ∈ moduleIds w.proc w.tab
    · obtain ⟨m, o, h1, h2⟩ := hO
      have e : a = o.addr := by
        have hlt := (List.getElem?_eq_some_iff.1 h2).1
        rw [List.getElem?_append_left hlt, h2] at hj'
        injection hj' with hj'
        exact hj'.symm
      rcases h.tab j _ h2 with ⟨p', o', -, h4, h5, -⟩ | ⟨m', o', h3, h4, h5, h6⟩
      · exact absurd h5 (hs p' o' m o h4 h1)
      · exact Or.inr ⟨m', o', by simp [Writer.register, h3], h4, by rw [h5, e], h6⟩
    · obtain ⟨q, o, h1, h2, h3⟩ := hwr j a hj' hO
      exact Or.inl ⟨q, o, mem_kept h hs h1 (by rw [h2]; exact List.mem_of_getElem? hj'), h1, h2, h3⟩

theorem WInv.element {w w' : Writer P} {dt : List (ℕ × Desc)} {mt : List (ℕ × P × List Desc)} (h : WInv w dt mt) (hs : w.proc.Separate)
    {m : Ptr} {cs : List R} {i : Item P R} (hw : w.writeElement true m cs = some (w', i)) :
    ∃ dt' mt', WInv w' dt' mt' ∧ i.Denotes dt mt dt' mt' (.element w.proc m cs) := by
  unfold Writer.writeElement at hw
  split at hw
  · cases hw
  · rename_i o ho
    split_ifs at hw with hmem
    · simp only [Option.some.injEq, Prod.mk.injEq] at hw
      obtain ⟨rfl, rfl⟩ := hw
      refine ⟨dt, mt, h, .shared h.inv ho ?_⟩
      rcases h.tab _ _ (List.getElem?_idxOf hmem) with ⟨p', o', -, h4, h5, -⟩ | ⟨m', o', h3, h4, h5, h6⟩
      · exact absurd h5 (hs p' o' m o h4 ho)
      · have := h.inv.addr_inj m' o' m o h4 ho h5
        subst this
        rw [ho] at h4; injection h4 with h4; subst h4
        exact h6
    · split at hw
      · cases hw
      · rename_i tab ts hsv
        simp only [Option.some.injEq, Prod.mk.injEq] at hw
        obtain ⟨rfl, rfl⟩ := hw
        have hwr : Written w.proc.base (w.tab ++ [o.addr]) dt (moduleIds w.proc (w.tab ++ [o.addr])) := by
          intro j a hj hO
          by_cases hlt : j < w.tab.length
          · rw [List.getElem?_append_left hlt] at hj
            refine h.written j a hj fun hc => hO ?_
            obtain ⟨m', o', h1, h2⟩ := hc
            exact ⟨m', o', h1, by rw [List.getElem?_append_left hlt]; exact h2⟩
          · have h' := (List.getElem?_eq_some_iff.1 hj).1
            simp at h'
            obtain rfl : j = w.tab.length := by omega
            simp at hj
            exact absurd ⟨m, o, ho, by simp⟩ hO
        obtain ⟨⟨ext, rfl⟩, dt', hd, hwr'⟩ := saveBasis_denotes h.inv.base o.basis _ tab ts dt _ hsv (fun _ _ _ _ => open_modules hs _ _) hwr
        refine ⟨dt', _, ⟨h.inv, fun j a hj => ?_⟩, .module h.inv ho hd⟩
        have hj' : (w.tab ++ [o.addr] ++ ext)[j]? = some a := hj
        by_cases hO : j ∈ moduleIds w.proc (w.tab ++ [o.addr])
        · obtain ⟨m', o', h1, h2⟩ := hO
          have hlt := (List.getElem?_eq_some_iff.1 h2).1
          rw [List.getElem?_append_left hlt, h2] at hj'
          injection hj' with e
          by_cases hjl : j = w.tab.length
          · subst hjl
            simp at h2
            have := h.inv.addr_inj m o m' o' ho h1 h2
            subst this
            rw [ho] at h1; injection h1 with h1; subst h1
            refine Or.inr ⟨m, o, mem_mkept h hs ho (by simp), ho, e, ?_⟩
            rw [List.lookup_cons]
            simp only [beq_self_eq_true]
            rfl
          · have hlt' : j < w.tab.length := by simp at hlt; omega
            rw [List.getElem?_append_left hlt'] at h2
            rcases h.tab j _ h2 with ⟨p', o'', -, h4, h5, -⟩ | ⟨m'', o'', h3, h4, h5, h6⟩
            · exact absurd h5 (hs p' o'' m' o' h4 h1)
            · refine Or.inr ⟨m'', o'', by simp [Writer.register, h3], h4, by rw [h5, e], ?_⟩
              rw [List.lookup_cons]
              have : (j + 1 == w.tab.length + 1) = false := by simp [hjl]
              rw [this]; exact h6
        · obtain ⟨q, o', h1, h2, h3⟩ := hwr' j a hj' hO
          exact Or.inl ⟨q, o', mem_kept h hs h1 (by rw [h2]; exact List.mem_of_getElem? hj'), h1, h2, h3⟩

theorem Writer.proc_number {retain : Bool} {w w' : Writer P} {p : Ptr} {i : Item P R} (h : w.writeNumber retain p = some (w', i)) :
    w'.proc = w.proc := by
  unfold Writer.writeNumber at h
  split at h
  · cases h
  · simp only [Option.some.injEq, Prod.mk.injEq] at h
    rw [← h.1]; rfl

theorem Writer.proc_element {retain : Bool} {w w' : Writer P} {m : Ptr} {cs : List R} {i : Item P R}
    (h : w.writeElement retain m cs = some (w', i)) : w'.proc = w.proc := by
  unfold Writer.writeElement at h
  split at h
  · cases h
  · split_ifs at h
    · simp only [Option.some.injEq, Prod.mk.injEq] at h
      rw [← h.1]
    · split at h
      · cases h
      · simp only [Option.some.injEq, Prod.mk.injEq] at h
        rw [← h.1]; rfl

theorem stream_of_writes {gen : Generators} {w : Writer P} {l : List (Item P R × Source P R)} (h : WritesTo gen true w l)
    (hb : w.proc.base.next ≤ 2 ^ 64) : ∃ dt mt, WInv w dt mt ∧ Stream dt mt l := by
  induction h with
  | start h => exact ⟨[], [], ⟨MState.minv_of_mreach h hb, fun i a hi => by simp at hi⟩, .nil⟩
  | progress h he h1 h2 ih =>
    obtain ⟨dt, mt, hi, hst⟩ := ih ((next_of_mevolves he).trans hb)
    exact ⟨dt, mt, hi.progress he hb h1 h2, hst⟩
  | number h hs hw ih =>
    obtain ⟨dt, mt, hi, hst⟩ := ih (by rw [← Writer.proc_number hw]; exact hb)
    obtain ⟨dt', h1, h2⟩ := hi.number hs hw
    exact ⟨dt', mt, h1, .snoc hst h2⟩
  | element h hs hw ih =>
    obtain ⟨dt, mt, hi, hst⟩ := ih (by rw [← Writer.proc_element hw]; exact hb)
    obtain ⟨dt', mt', h1, h2⟩ := hi.element hs hw
    exact ⟨dt', mt', h1, .snoc hst h2⟩

/-! ### The reader -/

theorem loadBasis_known {alloc : Alloc} (ha : alloc.Valid) {tab tab' : List (ℕ × Desc)} {ts : List Tree} {ds : List Desc}
    (hd : BasisDenotes tab ts tab' ds) : ∀ (s : State), Inv s → ∀ lt, Known s tab lt → (s.loadBasis alloc lt ts).1.next ≤ 2 ^ 64 →
      Known (s.loadBasis alloc lt ts).1 tab' (s.loadBasis alloc lt ts).2.1 := by
  induction hd with
  | nil => intro s h lt hk hb; exact hk
  | @cons tab tab1 tab2 t ts d ds hd hds ih =>
    intro s h lt hk hb
    have full := loadBasis_denotes ha (.cons hd hds) s h lt hk hb
    rw [State.loadBasis] at hb ⊢
    have hb1 : (s.load alloc lt t).1.next ≤ 2 ^ 64 := by
      refine le_trans ?_ hb
      split
      · rename_i h'; rw [h']
        have := (loadBasis_mono alloc ts ‹State› ‹List (ℕ × Ptr)›).2.2
        split
        · rename_i h''; rw [h''] at this; exact this
        · rename_i h''; rw [h''] at this; exact this
      · rename_i h'; rw [h']
    have l := load_denotes ha t hd h hk hb1
    rcases e1 : s.load alloc lt t with ⟨s1, lt1, r1⟩
    rw [e1] at l hb
    obtain ⟨q, hq, hl, hqd⟩ := l.num
    simp only at hq
    subst hq
    simp only at hb ⊢
    have hb2 : (s1.loadBasis alloc lt1 ts).1.next ≤ 2 ^ 64 := by
      refine le_trans ?_ hb
      split
      · rename_i h''; rw [h'']
      · rename_i h''; rw [h'']
    have l2 := ih s1 l.inv lt1 l.known hb2
    rcases e2 : s1.loadBasis alloc lt1 ts with ⟨s2, lt2, r2⟩
    rw [e2] at l2
    cases r2 with
    | none => exact l2
    | some qs => exact l2

/-- The invariant of the reader. -/
structure RInv (r : Reader P) (dt : List (ℕ × Desc)) (mt : List (ℕ × P × List Desc)) : Prop where
  inv : MState.MInv r.proc
  known : Known r.proc.base dt r.numbers
  modules : ∀ id ring ds, mt.lookup id = some (ring, ds) → ∃ m o, r.modules.lookup id = some m ∧ r.proc.live m = some o ∧ o.ring = ring ∧
    (o.basis.map r.proc.base.desc).Perm ds

theorem mem_of_lookup' {α : Type*} {l : List (ℕ × α)} {i : ℕ} {a : α} (h : l.lookup i = some a) : (i, a) ∈ l := by
  induction l with
  | nil => simp at h
  | cons x l ih =>
    rcases x with ⟨j, b⟩
    rw [List.lookup_cons] at h
    by_cases hij : i = j
    · subst hij; simp at h; simp [h]
    · rw [show (i == j) = false by simp [hij]] at h
      exact List.mem_cons_of_mem _ (ih h)

theorem RInv.progress {r : Reader P} {dt : List (ℕ × Desc)} {mt : List (ℕ × P × List Desc)} (h : RInv r dt mt) {gen : Generators} {st : MState P}
    (he : MEvolves gen r.proc st) (hb : st.base.next ≤ 2 ^ 64) (hk : ∀ x ∈ r.numbers, (st.base.live x.2).isSome)
    (hm : ∀ x ∈ r.modules, (st.live x.2).isSome) : RInv { r with proc := st } dt mt := by
  obtain ⟨hi, hl, -⟩ := minv_of_mevolves h.inv he hb
  refine ⟨hi, fun id d hid => ?_, fun id ring ds hid => ?_⟩
  · obtain ⟨q, h1, h2, h3⟩ := h.known id d hid
    have hq := hk _ (mem_of_lookup' h1)
    obtain ⟨e1, e2⟩ := desc_later h.inv.base hi.base hl.base h2 hq
    exact ⟨q, h1, hq, by rw [e2]; exact h3⟩
  · obtain ⟨m, o, h1, h2, h3, h4⟩ := h.modules id ring ds hid
    obtain ⟨e1, e2⟩ := mlive_later h.inv hi hl h2 (hm _ (mem_of_lookup' h1))
    exact ⟨m, o, h1, e1, h3, by rw [e2]; exact h4⟩

/-- Numbers that are described in the same way are the same in both processes. -/
theorem same_of_desc {s₀ s : State} (h₀ : Inv s₀) (h : Inv s) {p q : Ptr} (hp : (s₀.live p).isSome) (hq : (s.live q).isSome)
    (hd : s.desc q = s₀.desc p) : Heap.Same s₀ p s q := by
  refine ⟨hp, hq, hd, fun o₀ ho ha => ?_, fun o₀ t ho ht => ?_⟩
  · rw [desc_of_atom ho ha] at hd
    obtain ⟨o, h1, h2, h3⟩ := atom_of_desc h hq hd
    exact ⟨⟨o, h1, h2⟩, h3⟩
  · rw [desc_of_atom ho (by rw [ht]; trivial), atomDesc_random ho ht] at hd
    exact random_of_desc h hq hd

/-- Two sorted lists of generators that describe the same numbers are the same if the identities are in the same order. -/
theorem map_desc_eq {s₀ s : State} (h₀ : Inv s₀) (h : Inv s) (ho : SameOrder s₀ s) {ps qs : List Ptr} (hp : ∀ p ∈ ps, (s₀.live p).isSome)
    (hq : ∀ q ∈ qs, (s.live q).isSome) (hps : (ps.map s₀.rn).Pairwise fun g h => Precedes g.mult h.mult)
    (hqs : (qs.map s.rn).Pairwise fun g h => Precedes g.mult h.mult) (hperm : (qs.map s.desc).Perm (ps.map s₀.desc)) :
    qs.map s.desc = ps.map s₀.desc := by
  obtain ⟨qs', h1, h2⟩ : ∃ qs', qs.Perm qs' ∧ qs'.map s.desc = ps.map s₀.desc := by
    clear hqs hq hps hp
    generalize ps.map s₀.desc = ds at hperm
    induction ds generalizing qs with
    | nil => exact ⟨[], by rw [List.map_eq_nil_iff.1 hperm.eq_nil], rfl⟩
    | cons d ds ih =>
      obtain ⟨q, hq, rfl⟩ := List.mem_map.1 (hperm.symm.subset (List.mem_cons_self (a := d) (l := ds)))
      have hpq := List.perm_cons_erase hq
      have h2 := (hpq.map s.desc).symm.trans hperm
      rw [List.map_cons] at h2
      obtain ⟨l, h3, h4⟩ := ih (List.Perm.cons_inv h2)
      exact ⟨q :: l, hpq.trans (h3.cons q), by rw [List.map_cons, h4]⟩
  have hf : List.Forall₂ (fun p q => Heap.Same s₀ p s q) ps qs' := by
    have hq' : ∀ q ∈ qs', (s.live q).isSome := fun q hx => hq q (h1.symm.subset hx)
    clear h1 hperm hqs hps hq
    induction ps generalizing qs' with
    | nil => rw [List.map_eq_nil_iff.1 h2]; exact .nil
    | cons p ps ih =>
      cases qs' with
      | nil => simp at h2
      | cons q qs' =>
        simp only [List.map_cons, List.cons.injEq] at h2
        exact .cons (same_of_desc h₀ h (hp p (by simp)) (hq' q (by simp)) h2.1)
          (ih (fun p hx => hp p (by simp [hx])) qs' h2.2 fun q hx => hq' q (by simp [hx]))
  have hs' := pairwise_same h₀ h ho hf hps
  rw [List.pairwise_map] at hs' hqs
  have : qs = qs' := h1.eq_of_pairwise (fun a b _ _ hab hba => absurd hba hab.asymm) hqs hs'
  rw [this, h2]

theorem basisOk_of_live {st : MState P} (h : MState.MInv st) {m : Ptr} {o : MObj P} (ho : st.live m = some o) :
    Props.BasisOk (o.basis.map st.base.desc) := by
  have hf : List.Forall₂ (fun p q => Heap.Same st.base p st.base q) o.basis o.basis := by
    have : ∀ p ∈ o.basis, (st.base.live p).isSome := fun p hp => h.basis_live ho hp
    generalize o.basis = l at this
    induction l with
    | nil => exact .nil
    | cons p l ih => exact .cons (same_of_desc h.base h.base (this p (by simp)) (this p (by simp)) rfl) (ih fun q hq => this q (by simp [hq]))
  refine (Props.check_iff_basisOk h.base ?_).1 (MState.check_loaded h.base h.base hf (h.sorted m o ho))
  have : ∀ p ∈ o.basis, (st.base.live p).isSome := fun p hp => h.basis_live ho hp
  generalize o.basis = l at this
  induction l with
  | nil => exact .nil
  | cons p l ih => exact .cons ⟨this p (by simp), rfl⟩ (ih fun q hq => this q (by simp [hq]))

/-- Reading one item. -/
theorem RInv.read {r : Reader P} {dt dt' : List (ℕ × Desc)} {mt mt' : List (ℕ × P × List Desc)} (h : RInv r dt mt) {i : Item P R} {x : Source P R}
    (hd : i.Denotes dt mt dt' mt' x) {alloc : Alloc} (ha : alloc.Valid) {malloc : MAlloc P} (hm : malloc.Valid)
    (hb : (r.read alloc malloc i).1.proc.base.next ≤ 2 ^ 64) : RInv (r.read alloc malloc i).1 dt' mt' ∧ x.Same (r.read alloc malloc i) := by
  cases hd with
  | @number _ _ t s p hd =>
    simp only [Reader.read] at hb ⊢
    have hb' : (r.proc.base.load alloc r.numbers t).1.next ≤ 2 ^ 64 := by
      revert hb
      split <;> rename_i h' <;> rw [h'] <;> exact id
    have l := load_denotes ha t hd h.inv.base h.known hb'
    have hg := grows_load alloc r.proc.base r.numbers t
    have hlt := later_load alloc r.proc.base r.numbers t
    rcases e : r.proc.base.load alloc r.numbers t with ⟨s1, tab1, p1⟩
    rw [e] at l hg hlt
    obtain ⟨q, h1, h2, h3⟩ := l.num
    simp only at h1 h2 h3
    subst h1
    simp only
    have hi1 : Inv { s1 with roots := q :: s1.roots } := inv_roots l.inv _ (by
      intro x hx
      rcases List.mem_cons.1 hx with rfl | hx
      · exact h2
      · exact l.inv.roots_live x hx)
    have hi := MState.minv_base h.inv hi1 (s' := { s1 with roots := q :: s1.roots }) ⟨hlt.count, hlt.live⟩ (by
      intro x
      have := (h.inv.held x).trans (hg.count x)
      simp only [List.count_cons]
      simp only at this
      omega)
    have hext : Ext r.proc.base { s1 with roots := q :: s1.roots } :=
      l.ext.trans (MState.ext_of_heap rfl rfl ⟨[q], rfl⟩)
    refine ⟨⟨hi, ?_, ?_⟩, q, rfl, h2, h3⟩
    · exact l.known
    · intro id ring ds hid
      obtain ⟨m, o, h4, h5, h6, h7⟩ := h.modules id ring ds hid
      refine ⟨m, o, h4, h5, h6, ?_⟩
      rw [show o.basis.map ({ s1 with roots := q :: s1.roots } : State).desc = o.basis.map r.proc.base.desc from
        List.map_congr_left fun p hp => desc_ext h.inv.base hext (h.inv.basis_live h5 hp)]
      exact h7
  | @shared _ id cs st m o hst ho hid =>
    obtain ⟨m', o', h4, h5, h6, h7⟩ := h.modules id _ _ hid
    simp only [Reader.read, h4]
    refine ⟨⟨⟨h.inv.base, h.inv.nodup, h.inv.bound, h.inv.addr_inj, h.inv.held, h.inv.sorted, h.inv.data_inj, ?_, ?_⟩, h.known, h.modules⟩, m', o, o', rfl, ho, h5,
      h6, h7, fun hso => ?_⟩
    · exact h.inv.8
    · exact h.inv.9
    · exact map_desc_eq hst.base h.inv.base hso (fun p hp => hst.basis_live ho hp) (fun p hp => h.inv.basis_live h5 hp) (hst.sorted m o ho)
        (h.inv.sorted m' o' h5) h7
  | @module _ _ id ts cs st m o hst ho hbd =>
    simp only [Reader.read] at hb ⊢
    have hb' : (r.proc.base.loadBasis alloc r.numbers ts).1.next ≤ 2 ^ 64 := by
      refine le_trans ?_ hb
      split
      · rename_i s tab basis h'
        rw [h']
        have := MState.next_make malloc { r.proc with base := s } o.ring basis
        split <;> rename_i h'' <;> rw [h''] at this <;> exact this.ge
      · rename_i h'
        rw [h']
    obtain ⟨i1, x1, qs, hq, hf⟩ := loadBasis_denotes ha hbd r.proc.base h.inv.base r.numbers h.known hb'
    have hkn := loadBasis_known ha hbd r.proc.base h.inv.base r.numbers h.known hb'
    have hlt := loadBasis_mono alloc ts r.proc.base r.numbers
    rcases e1 : r.proc.base.loadBasis alloc r.numbers ts with ⟨s1, tab1, r1⟩
    rw [e1] at i1 x1 hq hf hlt hkn
    simp only at hq i1 x1 hf hlt hkn
    subst hq
    simp only
    have hi := MState.minv_base h.inv i1 hlt.2.1 fun q => (h.inv.held q).trans (hlt.1.count q)
    have hql : ∀ q ∈ qs, (s1.live q).isSome := by
      clear hi e1 hlt hbd hb' hkn
      generalize o.basis.map st.base.desc = ds at hf
      induction hf with
      | nil => intro q hq; cases hq
      | cons x _ ih =>
        intro q hq
        rcases List.mem_cons.1 hq with rfl | hq
        · exact x.1
        · exact ih q hq
    have hmk := MState.make_spec hi hm o.ring qs hql
    have hc : Mod.check (qs.map s1.rn) = true := (Props.check_iff_basisOk i1 hf).2 (basisOk_of_live hst ho)
    have hne : Mod.make o.ring (qs.map s1.rn) ≠ .throws .logicError := by
      unfold Mod.make
      simp only
      rw [Mod.check_perm (Mod.sort_perm _), if_pos hc]
      simp
    rcases hmk.result with ⟨m', o', h1, h2, h3, h4, h5, h6⟩ | ⟨-, h2⟩
    · rcases e2 : ({ r.proc with base := s1 } : MState P).make malloc o.ring qs with ⟨st2, r2⟩
      rw [e2] at hmk h1 h2 h3
      simp only at h1 h2
      subst h1
      simp only
      have x2 : Ext s1 st2.base := MState.ext_of_heap hmk.heap hmk.next hmk.grows
      obtain ⟨r1, r2', r3, r4⟩ := MState.rn_of_heap hmk.heap
      simp only at r1 r2' r3 r4
      have hperm : (o'.basis.map st2.base.desc).Perm (o.basis.map st.base.desc) := by
        rw [h5, r4]
        refine ((List.perm_insertionSort _ qs).map _).trans (List.Perm.of_eq ?_)
        clear hkn hlt hi hmk h5 hbd hb' e1
        generalize o.basis.map st.base.desc = ds at hf
        clear h2 h3 h4 h6 hne hc hql e2 x2 r1 r2' r3 r4
        induction hf with
        | nil => rfl
        | cons x _ ih => rw [List.map_cons, x.2, ih]
      refine ⟨⟨hmk.inv, hkn.ext i1 x2, ?_⟩, m', o, o', rfl, ho, h2, h4, hperm, fun hso => ?_⟩
      · intro id' ring ds hid
        rw [List.lookup_cons] at hid
        by_cases hii : id' = id
        · subst hii
          simp only [beq_self_eq_true, Option.some.injEq, Prod.mk.injEq] at hid
          obtain ⟨rfl, rfl⟩ := hid
          exact ⟨m', o', by simp [List.lookup_cons], h2, h4, hperm⟩
        · rw [show (id' == id) = false by simp [hii]] at hid
          obtain ⟨m'', o'', g1, g2, g3, g4⟩ := h.modules id' ring ds hid
          refine ⟨m'', o'', ?_, hmk.mlive m'' o'' g2, g3, ?_⟩
          · rw [List.lookup_cons, show (id' == id) = false by simp [hii]]; exact g1
          · rw [show o''.basis.map st2.base.desc = o''.basis.map r.proc.base.desc from
              List.map_congr_left fun p hp => desc_ext h.inv.base (x1.trans x2) (h.inv.basis_live g2 hp)]
            exact g4
      · exact map_desc_eq hst.base hmk.inv.base hso (fun p hp => hst.basis_live ho hp) (fun p hp => hmk.inv.basis_live h2 hp) (hst.sorted m o ho)
          (hmk.inv.sorted m' o' h2) hperm
    · exact absurd h2 hne

theorem Reader.next_read (alloc : Alloc) (malloc : MAlloc P) (r : Reader P) (i : Item P R) :
    r.proc.base.next ≤ (r.read alloc malloc i).1.proc.base.next := by
  cases i with
  | number t =>
    have := next_load alloc r.proc.base r.numbers t
    simp only [Reader.read]
    split <;> rename_i h' <;> rw [h'] at this <;> exact this
  | element mt cs =>
    cases mt with
    | shared id =>
      simp only [Reader.read]
      split <;> exact le_rfl
    | module id ts ring =>
      have h1 := (loadBasis_mono alloc ts r.proc.base r.numbers).2.2
      simp only [Reader.read]
      split
      · rename_i s tab basis h'
        rw [h'] at h1
        have := MState.next_make malloc { r.proc with base := s } ring basis
        split <;> rename_i h'' <;> rw [h''] at this <;> exact h1.trans this.ge
      · rename_i h'
        rw [h'] at h1
        exact h1

/-- The reader after it has read part of a stream. -/
theorem rinv_of_reads {gen : Generators} {r : Reader P} {items : List (Item P R)} (hr : ReadsFrom gen r items) :
    ∀ {dt : List (ℕ × Desc)} {mt : List (ℕ × P × List Desc)} {l : List (Item P R × Source P R)}, Stream dt mt l → l.map Prod.fst = items →
      r.proc.base.next ≤ 2 ^ 64 → RInv r dt mt := by
  induction hr with
  | start h =>
    intro dt mt l hs hl hb
    cases hs with
    | nil => exact ⟨MState.minv_of_mreach h hb, fun id d hd => by simp at hd, fun id ring ds hd => by simp at hd⟩
    | snoc => simp at hl
  | progress h he h1 h2 ih =>
    intro dt mt l hs hl hb
    exact (ih hs hl ((next_of_mevolves he).trans hb)).progress he hb h1 h2
  | read h ha hm ih =>
    intro dt mt l hs hl hb
    cases hs with
    | nil => simp at hl
    | snoc hs hd =>
      simp only [List.map_append, List.map_cons, List.map_nil] at hl
      obtain ⟨h1, h2⟩ := List.append_inj' hl rfl
      injection h2 with h2
      subst h2
      exact ((ih hs h1 ((Reader.next_read _ _ _ _).trans hb)).read hd ha hm hb).1

theorem Stream.prefix {dt : List (ℕ × Desc)} {mt : List (ℕ × P × List Desc)} {l : List (Item P R × Source P R)} (h : Stream dt mt l)
    {l₁ l₂ : List (Item P R × Source P R)} {i : Item P R} {x : Source P R} (hl : l = l₁ ++ (i, x) :: l₂) :
    ∃ dt mt dt' mt', Stream dt mt l₁ ∧ i.Denotes dt mt dt' mt' x := by
  induction h generalizing l₂ with
  | nil => simp at hl
  | @snoc dt dt' mt mt' l j y hs hd ih =>
    rcases List.eq_nil_or_concat l₂ with rfl | ⟨l₃, z, rfl⟩
    · obtain ⟨h1, h2⟩ := List.append_inj' hl rfl
      simp only [List.cons.injEq, Prod.mk.injEq, and_true] at h2
      obtain ⟨rfl, rfl⟩ := h2
      subst h1
      exact ⟨dt, mt, dt', mt', hs, hd⟩
    · have : l ++ [(j, y)] = (l₁ ++ (i, x) :: l₃) ++ [z] := by rw [hl]; simp
      exact ih (List.append_inj' this rfl).1

end ExactReal.Heap
