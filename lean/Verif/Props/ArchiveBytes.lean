import Verif.Lemma.ArchiveBytes
import Verif.Props.ArchiveStream

/-!
# C87: the bytes of an archive; files that end too early

A program writes numbers and elements to a file (`WritesTo`, C80) as bytes (`Item.bytes`), and a program reads them (`FetchesFrom`,
`Verif/Spec/ArchiveBytes.lean`).  The program that writes might be killed at any time, so the file might end anywhere.
-/

namespace ExactReal.Props
open Heap State Text

section
variable {P R : Type} [DecidableEq P]

/-- C87. What has been written is read from the bytes as it was written, whatever follows in the file, and nothing that follows is read. -/
theorem bytes_read {gen gen' : Generators} {approx : ℚ → UInt64} {ring : Codec P} {coefficient : Codec R} {w : Writer P} {l₁ l₂ : List (Item P R × Source P R)}
    {i : Item P R} {x : Source P R} (hw : WritesTo gen true w (l₁ ++ (i, x) :: l₂)) (hb : w.proc.base.next ≤ 2 ^ 64)
    (hl : w.tab.length < 2 ^ 31) (ht : ∀ y ∈ l₁ ++ (i, x) :: l₂, y.2.Typed ring coefficient)
    {r : Reader P} (hr : FetchesFrom gen' approx ring coefficient r (l₁.map Prod.fst)) {alloc : Alloc} (ha : alloc.Valid) {malloc : MAlloc P}
    (hm : malloc.Valid) {n : ℕ} (hn : 3 ≤ n) (hb' : (r.read alloc malloc i).1.proc.base.next ≤ 2 ^ 64) (rest : Bytes) :
    ∃ r' a, Reader.fetch alloc malloc n ring coefficient i.wanted r (i.bytes approx ring coefficient ++ rest) = (r', .ok a rest) ∧
      x.Same (r', a) ∧ Unharmed r.proc r'.proc := by
  have hf := written_fits hw hl ht (i, x) (by simp)
  obtain ⟨dt, mt, -, hs⟩ := stream_of_writes hw hb
  obtain ⟨dt, mt, dt', mt', hs, hd⟩ := hs.prefix rfl
  have inv := rinv_of_fetches hr hs rfl ((Reader.next_read _ _ _ _).trans hb')
  obtain ⟨h1, h2⟩ := fetch_item approx inv hd hf ha hm hn hb'
  exact ⟨_, _, h1.full rest, (inv.read hd ha hm hb').2, h2.unharmed inv.inv⟩

theorem bytes_cut_of_fits {gen gen' : Generators} {approx : ℚ → UInt64} {ring : Codec P} {coefficient : Codec R} {w : Writer P} {l₁ l₂ : List (Item P R × Source P R)}
    {i : Item P R} {x : Source P R} (hw : WritesTo gen true w (l₁ ++ (i, x) :: l₂)) (hb : w.proc.base.next ≤ 2 ^ 64) (hf : i.Fits ring coefficient)
    {r : Reader P} (hr : FetchesFrom gen' approx ring coefficient r (l₁.map Prod.fst)) {alloc : Alloc} (ha : alloc.Valid) {malloc : MAlloc P}
    (hm : malloc.Valid) {n : ℕ} (hn : 3 ≤ n) (hb' : (r.read alloc malloc i).1.proc.base.next ≤ 2 ^ 64) {v : Bytes}
    (hv : CutOff v (i.bytes approx ring coefficient)) :
    ∃ t, Reader.fetch alloc malloc n ring coefficient i.wanted r v = (t, .cereal) ∧ Unharmed r.proc t.proc := by
  obtain ⟨dt, mt, -, hs⟩ := stream_of_writes hw hb
  obtain ⟨dt, mt, dt', mt', hs, hd⟩ := hs.prefix rfl
  have inv := rinv_of_fetches hr hs rfl ((Reader.next_read _ _ _ _).trans hb')
  obtain ⟨t, h1, h2⟩ := (fetch_item approx inv hd hf ha hm hn hb').1.cut v hv
  exact ⟨t, h1, h2.unharmed inv.inv⟩

/-- C87. If the file ends before all the bytes of what is to be read, then `cereal` throws; whatever the program had before the call, it still has. -/
theorem bytes_cut {gen gen' : Generators} {approx : ℚ → UInt64} {ring : Codec P} {coefficient : Codec R} {w : Writer P} {l₁ l₂ : List (Item P R × Source P R)}
    {i : Item P R} {x : Source P R} (hw : WritesTo gen true w (l₁ ++ (i, x) :: l₂)) (hb : w.proc.base.next ≤ 2 ^ 64)
    (hl : w.tab.length < 2 ^ 31) (ht : ∀ y ∈ l₁ ++ (i, x) :: l₂, y.2.Typed ring coefficient)
    {r : Reader P} (hr : FetchesFrom gen' approx ring coefficient r (l₁.map Prod.fst)) {alloc : Alloc} (ha : alloc.Valid) {malloc : MAlloc P}
    (hm : malloc.Valid) {n : ℕ} (hn : 3 ≤ n) (hb' : (r.read alloc malloc i).1.proc.base.next ≤ 2 ^ 64) {v : Bytes}
    (hv : CutOff v (i.bytes approx ring coefficient)) :
    ∃ t, Reader.fetch alloc malloc n ring coefficient i.wanted r v = (t, .cereal) ∧ Unharmed r.proc t.proc := by
  exact bytes_cut_of_fits hw hb (written_fits hw hl ht (i, x) (by simp)) hr ha hm hn hb' hv

theorem unharmed_trans {a b c : MState P} (h : Unharmed a b) (h' : Unharmed b c) : Unharmed a c where
  numbers p o ho := by
    obtain ⟨h1, h2⟩ := h.numbers p o ho
    obtain ⟨h3, h4⟩ := h'.numbers p o h1
    exact ⟨h3, h4.trans h2⟩
  roots p := (h.roots p).trans (h'.roots p)
  modules m o ho := h'.modules m o (h.modules m o ho)
  mroots m := (h.mroots m).trans (h'.mroots m)
  unique := h'.unique
  munique := h'.munique

theorem length_item_bytes (approx : ℚ → UInt64) (ring : Codec P) (coefficient : Codec R) (i : Item P R) : i.bytes approx ring coefficient ≠ [] := by
  have h : ∀ b id (w : Bytes), bytesOfId b id ++ w ≠ [] := by
    intro b id w e
    have := congrArg List.length e
    simp [bytesOfId, bytesOf] at this
  have h' : ∀ b id, bytesOfId b id ≠ [] := fun b id e => h b id [] (by rw [e]; rfl)
  cases i with
  | number t =>
    simp only [Item.bytes]
    cases t <;> simp only [Tree.bytes] <;> first | exact h' _ _ | exact h _ _ _
  | element m cs =>
    simp only [Item.bytes]
    cases m <;> simp only [MTree.bytes, List.append_assoc] <;> exact h _ _ _

theorem minv_of_fetches {gen gen' : Generators} {approx : ℚ → UInt64} {ring : Codec P} {coefficient : Codec R} {w : Writer P} {x y : List (Item P R × Source P R)}
    (hw : WritesTo gen true w (x ++ y)) (hb : w.proc.base.next ≤ 2 ^ 64) {r : Reader P} (hr : FetchesFrom gen' approx ring coefficient r (x.map Prod.fst))
    (hb' : r.proc.base.next ≤ 2 ^ 64) : MState.MInv r.proc := by
  obtain ⟨dt, mt, -, hs⟩ := stream_of_writes hw hb
  cases y with
  | nil => rw [List.append_nil] at hs; exact (rinv_of_fetches hr hs rfl hb').inv
  | cons y l => obtain ⟨_, _, _, _, hs, -⟩ := hs.prefix (i := y.1) (x := y.2) rfl; exact (rinv_of_fetches hr hs rfl hb').inv

theorem next_fold (alloc : Alloc) (malloc : MAlloc P) (l : List (Item P R × Source P R)) (r : Reader P) :
    r.proc.base.next ≤ (l.foldl (fun r y => (r.read alloc malloc y.1).1) r).proc.base.next := by
  induction l generalizing r with
  | nil => exact le_rfl
  | cons y l ih => exact (Reader.next_read _ _ _ _).trans (ih _)

theorem file_recovered_of_fits {gen gen' : Generators} {approx : ℚ → UInt64} {ring : Codec P} {coefficient : Codec R} {w : Writer P}
    {alloc : Alloc} (ha : alloc.Valid) {malloc : MAlloc P} (hm : malloc.Valid) {n : ℕ} (hn : 3 ≤ n) (l : List (Item P R × Source P R)) :
    ∀ {l₀ : List (Item P R × Source P R)} (_ : WritesTo gen true w (l₀ ++ l)) (_ : w.proc.base.next ≤ 2 ^ 64) (_ : ∀ y ∈ l, y.1.Fits ring coefficient)
    {r : Reader P} (_ : FetchesFrom gen' approx ring coefficient r (l₀.map Prod.fst))
    (_ : (l.foldl (fun r y => (r.read alloc malloc y.1).1) r).proc.base.next ≤ 2 ^ 64) {v : Bytes}
    (_ : v <+: fileBytes approx ring coefficient (l.map Prod.fst)),
    ∃ l₁ l₂ res r' ok, l = l₁ ++ l₂ ∧ r.fetchFile alloc malloc n ring coefficient (l.map fun y => y.1.wanted) v = (res, r', ok) ∧
      fileBytes approx ring coefficient (l₁.map Prod.fst) <+: v ∧
      (∀ y l₃, l₂ = y :: l₃ → ¬ fileBytes approx ring coefficient ((l₁ ++ [y]).map Prod.fst) <+: v) ∧
      List.Forall₂ (fun y z => y.2.Same z) l₁ res ∧ (ok = true ↔ l₂ = []) ∧ Unharmed r.proc r'.proc := by
  induction l with
  | nil =>
    intro l₀ hw hb hf r hr hb' v hv
    have hv' : v = [] := List.prefix_nil.1 hv
    have inv := minv_of_fetches (x := l₀) (y := []) hw hb hr hb'
    exact ⟨[], [], [], r, true, rfl, rfl, List.nil_prefix, by simp, .nil, by simp, (Reader.Intact.rfl inv).unharmed inv⟩
  | cons y l ih =>
    obtain ⟨i, x⟩ := y
    intro l₀ hw hb hf r hr hb' v hv
    rw [List.foldl_cons] at hb'
    have hb1 : (r.read alloc malloc i).1.proc.base.next ≤ 2 ^ 64 := (next_fold alloc malloc l _).trans hb'
    have hfi := hf (i, x) (by simp)
    simp only [fileBytes, List.map_cons, List.flatten_cons] at hv
    by_cases hp : i.bytes approx ring coefficient <+: v
    · obtain ⟨rest, rfl⟩ := hp
      obtain ⟨dt, mt, -, hs⟩ := stream_of_writes hw hb
      obtain ⟨dt, mt, dt', mt', hs, hd⟩ := hs.prefix rfl
      have inv := rinv_of_fetches hr hs rfl ((Reader.next_read _ _ _ _).trans hb1)
      obtain ⟨h1, h2⟩ := fetch_item approx inv hd hfi ha hm hn hb1
      have hfetch := h1.full rest
      have hsame := (inv.read hd ha hm hb1).2
      have hr' := hr.fetch ha hm hn hfi hb1 hfetch
      have hu := h2.unharmed inv.inv
      have hw' : WritesTo gen true w ((l₀ ++ [(i, x)]) ++ l) := by rw [List.append_assoc]; exact hw
      obtain ⟨l₁, l₂, res, r', ok, h3, h4, h5, h6, h7, h8, h9⟩ := ih hw' hb (fun y hy => hf y (by simp [hy])) (r := (r.read alloc malloc i).1)
        (by rw [List.map_append]; exact hr') hb' (v := rest) ((List.prefix_append_right_inj _).1 hv)
      refine ⟨(i, x) :: l₁, l₂, ((r.read alloc malloc i).1, (r.read alloc malloc i).2) :: res, r', ok, by rw [h3]; rfl, ?_, ?_, ?_, .cons hsame h7, h8,
        unharmed_trans hu h9⟩
      · simp only [List.map_cons, Reader.fetchFile, hfetch, h4]
      · simp only [fileBytes, List.map_cons, List.flatten_cons]
        exact (List.prefix_append_right_inj _).2 h5
      · intro y l₃ e hc
        refine h6 y l₃ e ?_
        simp only [fileBytes, List.map_cons, List.cons_append, List.flatten_cons] at hc
        exact (List.prefix_append_right_inj _).1 hc
    · have hcut : CutOff v (i.bytes approx ring coefficient) := by
        refine ⟨?_, fun e => hp (by rw [e])⟩
        obtain ⟨u, hu⟩ := hv
        rcases List.append_eq_append_iff.1 hu with ⟨c, h1, h2⟩ | ⟨c, h1, h2⟩
        · exact ⟨c, h1.symm⟩
        · exact absurd ⟨c, h1.symm⟩ hp
      obtain ⟨t, h1, h2⟩ := bytes_cut_of_fits hw hb hfi hr ha hm hn hb1 hcut
      refine ⟨[], (i, x) :: l, [], t, false, rfl, ?_, List.nil_prefix, ?_, .nil, by simp, h2⟩
      · simp only [List.map_cons, Reader.fetchFile, h1]
      · intro y l₃ e hc
        injection e with e1 e2
        subst e1
        exact hp (by simpa [fileBytes] using hc)

/-- C87. The program that writes a file might be killed at any time: `v`, what is in the file, is any prefix of what was to be written. Then everything
that is complete in the file (`l₁`) is read as it was written; if something is missing then the first call for something that is not complete throws,
and whatever the program had before, it still has. -/
theorem file_recovered {gen gen' : Generators} {approx : ℚ → UInt64} {ring : Codec P} {coefficient : Codec R} {w : Writer P}
    {l₀ l : List (Item P R × Source P R)} (hw : WritesTo gen true w (l₀ ++ l)) (hb : w.proc.base.next ≤ 2 ^ 64) (hl : w.tab.length < 2 ^ 31)
    (ht : ∀ y ∈ l₀ ++ l, y.2.Typed ring coefficient) {r : Reader P} (hr : FetchesFrom gen' approx ring coefficient r (l₀.map Prod.fst))
    {alloc : Alloc} (ha : alloc.Valid) {malloc : MAlloc P} (hm : malloc.Valid) {n : ℕ} (hn : 3 ≤ n)
    (hb' : (l.foldl (fun r y => (r.read alloc malloc y.1).1) r).proc.base.next ≤ 2 ^ 64) {v : Bytes}
    (hv : v <+: fileBytes approx ring coefficient (l.map Prod.fst)) :
    ∃ l₁ l₂ res r' ok, l = l₁ ++ l₂ ∧ r.fetchFile alloc malloc n ring coefficient (l.map fun y => y.1.wanted) v = (res, r', ok) ∧
      fileBytes approx ring coefficient (l₁.map Prod.fst) <+: v ∧
      (∀ y l₃, l₂ = y :: l₃ → ¬ fileBytes approx ring coefficient ((l₁ ++ [y]).map Prod.fst) <+: v) ∧
      List.Forall₂ (fun y z => y.2.Same z) l₁ res ∧ (ok = true ↔ l₂ = []) ∧ Unharmed r.proc r'.proc :=
  file_recovered_of_fits ha hm hn l hw hb (fun y hy => written_fits hw hl ht y (List.mem_append_right _ hy)) hr hb' hv

/-! ### Integers and rationals -/

/-- Integers whose text is not too long are read as they are written. -/
theorem integer_exact {z : ℤ} (h : (saveMpz z).length < 2 ^ 64) : Codec.integer.Exact z := by
  obtain ⟨h1, h2⟩ := Serves.mpz' (Q := fun _ : Unit => True) (s := ()) trivial h
  refine ⟨fun rest => ?_, fun v hv => ?_⟩
  · have := h1 rest
    simp only [Codec.integer] at *
    rw [this]
  · obtain ⟨t, h3, -⟩ := h2 v hv
    simp only [Codec.integer]
    rw [h3]

theorem rational_exact {q : ℚ} (h : (saveMpq q).length < 2 ^ 64) : Codec.rational.Exact q := by
  obtain ⟨h1, h2⟩ := Serves.mpq' (Q := fun _ : Unit => True) (s := ()) trivial h
  refine ⟨fun rest => ?_, fun v hv => ?_⟩
  · have := h1 rest
    simp only [Codec.rational] at *
    rw [this]
  · obtain ⟨t, h3, -⟩ := h2 v hv
    simp only [Codec.rational]
    rw [h3]

theorem unit_exact (u : Unit) : Codec.unit.Exact u :=
  ⟨fun _ => rfl, fun _ hv => absurd (List.prefix_nil.1 hv.1) hv.2⟩

end

/-! ### The theorems apply -/

/-- The file of `stream_example` (an element, a number, another element of the same module). -/
example (gen : Generators) (approx : ℚ → UInt64) : ∃ (w : Writer Unit) (l : List (Item Unit ℤ × Source Unit ℤ)) (r : Reader Unit),
    l.length = 3 ∧ WritesTo gen true w l ∧ w.proc.base.next ≤ 2 ^ 64 ∧ w.tab.length < 2 ^ 31 ∧ (∀ y ∈ l, y.2.Typed Codec.unit Codec.integer) ∧
    FetchesFrom (R := ℤ) gen approx Codec.unit Codec.integer r [] ∧
    (l.foldl (fun r y => (r.read stackAlloc (highMAlloc Unit) y.1).1) r).proc.base.next ≤ 2 ^ 64 := by
  obtain ⟨w, ⟨hw, htab⟩, h⟩ := stream_example gen
  refine ⟨w, _, ⟨minit Unit, [], []⟩, rfl, h, by rw [hw]; decide, by rw [htab]; decide, ?_, .start MReach.init, by decide +kernel⟩
  have small : ∀ z ∈ [3, 4, 5, 6], (saveMpz z).length < 2 ^ 64 := by decide +kernel
  have e := fun z hz => integer_exact (small z hz)
  have hs : streamState3.base.Typed := by
    intro p o ho
    have := mem_of_lookup ho
    simp [streamState3] at this
    grind
  have hm : ∀ o, streamState3.live 0 = some o → o.basis.length < 2 ^ 64 ∧ Codec.unit.Exact o.ring := by
    intro o ho
    refine ⟨?_, unit_exact _⟩
    have := MState.mem_of_live ho
    simp [streamState3] at this
    rw [this]
    norm_num
  intro y hy
  simp only [streamItems, List.cons_append, List.nil_append, List.mem_cons, List.not_mem_nil, or_false] at hy
  rcases hy with rfl | rfl | rfl
  · exact ⟨hs, hm, by norm_num, fun c hc => e c (by simp at hc ⊢; omega)⟩
  · exact hs
  · exact ⟨hs, hm, by norm_num, fun c hc => e c (by simp at hc ⊢; omega)⟩

/-- Seven bytes of a random number. -/
example : CutOff [1, 0, 0, 128, 6, 0, 0] ((Item.number (.random 1 5) : Item Unit ℤ).bytes (fun _ => 0) Codec.unit Codec.integer) := by
  refine ⟨?_, ?_⟩ <;> decide +kernel

end ExactReal.Props
