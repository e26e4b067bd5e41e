import Verif.Spec.Storage

/-! # The invariant of the storage model: every block has exactly one owner -/

namespace ExactReal.Storage

variable {V : Type}

namespace Mem

/-- The value of an object; `none` for a null pointer. -/
def slotVal (m : Mem V) : Slot V → Option V
  | .inline v => some v
  | .owner p => m.blocks p
  | .null => none

/-- Objects have the expected values, pointers point to blocks that are allocated, and every block has exactly one owner. -/
structure Inv (m : Mem V) (vals : ℕ → Option (Option V)) : Prop where
  val : ∀ o, (m.objs o).map m.slotVal = vals o
  alive : ∀ o p, m.objs o = some (.owner p) → ∃ v, m.blocks p = some v
  inj : ∀ o o' p, m.objs o = some (.owner p) → m.objs o' = some (.owner p) → o = o'
  onto : ∀ p v, m.blocks p = some v → ∃ o, m.objs o = some (.owner p)

variable {m : Mem V} {vals : ℕ → Option (Option V)}

/-- The object owns no block. -/
def Free (m : Mem V) (o : ℕ) : Prop := ∀ p, m.objs o ≠ some (.owner p)

theorem inv_start : Inv (start : Mem V) fun _ => none :=
  ⟨fun _ => rfl, fun _ _ h => by simp [start] at h, fun _ _ _ h => by simp [start] at h, fun _ _ h => by simp [start] at h⟩

theorem Inv.free_of_none (h : Inv m vals) {o : ℕ} (ho : vals o = none) : m.Free o := by
  intro p hp
  have := h.val o
  rw [hp, ho] at this
  cases this

theorem Inv.obj_none (h : Inv m vals) {o : ℕ} (ho : vals o = none) : m.objs o = none := by
  have := h.val o
  rw [ho] at this
  simpa using this

theorem Inv.obj_some (h : Inv m vals) {o : ℕ} {w : Option V} (ho : vals o = some w) : ∃ s, m.objs o = some s ∧ m.slotVal s = w := by
  have := h.val o
  rw [ho] at this
  simpa using this

/-- A slot that owns nothing is written to an object that owns nothing. -/
theorem Inv.setObj (h : Inv m vals) {o : ℕ} (ho : m.Free o) {s : Slot V} (hs : ∀ p, s ≠ .owner p) :
    Inv (m.setObj o s) (Function.update vals o (some (m.slotVal s))) := by
  obtain ⟨h1, h2, h3, h4⟩ := h
  have hsv : (m.setObj o s).slotVal = m.slotVal := by funext t; cases t <;> rfl
  unfold Free at ho
  refine ⟨fun o' => ?_, fun o' p hp => ?_, fun a b p ha hb => ?_, fun p v hp => ?_⟩
  · rw [hsv]
    by_cases e : o' = o
    · subst e; simp [Mem.setObj]
    · simp [Mem.setObj, e, h1]
  · simp only [Mem.setObj, Function.update_apply] at hp ⊢; grind
  · simp only [Mem.setObj, Function.update_apply] at ha hb; grind
  · simp only [Mem.setObj] at hp
    obtain ⟨o', ho'⟩ := h4 p v hp
    refine ⟨o', ?_⟩
    simp only [Mem.setObj, Function.update_apply]; grind

/-- The object is removed. -/
theorem Inv.remove (h : Inv m vals) {o : ℕ} (ho : m.Free o) : Inv (m.remove o) (Function.update vals o none) := by
  obtain ⟨h1, h2, h3, h4⟩ := h
  have hsv : (m.remove o).slotVal = m.slotVal := by funext t; cases t <;> rfl
  unfold Free at ho
  refine ⟨fun o' => ?_, fun o' p hp => ?_, fun a b p ha hb => ?_, fun p v hp => ?_⟩
  · rw [hsv]
    by_cases e : o' = o
    · subst e; simp [Mem.remove]
    · simp [Mem.remove, e, h1]
  · simp only [Mem.remove, Function.update_apply] at hp ⊢; grind
  · simp only [Mem.remove, Function.update_apply] at ha hb; grind
  · simp only [Mem.remove] at hp
    obtain ⟨o', ho'⟩ := h4 p v hp
    refine ⟨o', ?_⟩
    simp only [Mem.remove, Function.update_apply]; grind

/-- A new block is written to an object that owns nothing. -/
theorem Inv.alloc (h : Inv m vals) {o fresh : ℕ} (ho : m.Free o) (hf : m.blocks fresh = none) (v : V) :
    Inv ((m.setBlock fresh v).setObj o (.owner fresh)) (Function.update vals o (some (some v))) := by
  obtain ⟨h1, h2, h3, h4⟩ := h
  unfold Free at ho
  refine ⟨fun o' => ?_, fun o' p hp => ?_, fun a b p ha hb => ?_, fun p w hp => ?_⟩
  · by_cases e : o' = o
    · subst e; simp [Mem.setObj, slotVal, Mem.setBlock]
    · simp only [Mem.setObj, Mem.setBlock, Function.update_of_ne e, ← h1]
      cases hs : m.objs o' with
      | none => rfl
      | some s =>
        cases s with
        | owner p =>
          have : p ≠ fresh := by rintro rfl; obtain ⟨v, hv⟩ := h2 _ _ hs; rw [hf] at hv; cases hv
          simp [slotVal, this]
        | _ => rfl
  · simp only [Mem.setObj, Mem.setBlock, Function.update_apply] at hp ⊢
    split_ifs with e
    · exact ⟨v, rfl⟩
    · exact h2 o' p (by grind)
  · simp only [Mem.setObj, Mem.setBlock, Function.update_apply] at ha hb; grind
  · simp only [Mem.setObj, Mem.setBlock, Function.update_apply] at hp ⊢
    by_cases e : p = fresh
    · exact ⟨o, by simp [e]⟩
    · rw [if_neg e] at hp
      obtain ⟨o', ho'⟩ := h4 p w hp
      exact ⟨o', by grind⟩

/-- The block of an object is overwritten. -/
theorem Inv.setBlock (h : Inv m vals) {o p : ℕ} (ho : m.objs o = some (.owner p)) (v : V) :
    Inv (m.setBlock p v) (Function.update vals o (some (some v))) := by
  obtain ⟨h1, h2, h3, h4⟩ := h
  refine ⟨fun o' => ?_, fun o' q hq => ?_, fun a b p ha hb => h3 a b p ha hb, fun q w hq => ?_⟩
  · by_cases e : o' = o
    · subst e; simp [slotVal, Mem.setBlock, ho]
    · simp only [Mem.setBlock, Function.update_of_ne e, ← h1]
      cases hs : m.objs o' with
      | none => rfl
      | some s =>
        cases s with
        | owner q =>
          have : q ≠ p := by rintro rfl; exact e (h3 _ _ _ hs ho)
          simp [slotVal, this]
        | _ => rfl
  · simp only [Mem.setBlock, Function.update_apply] at hq ⊢
    split_ifs with e
    · exact ⟨v, rfl⟩
    · exact h2 o' q hq
  · simp only [Mem.setBlock, Function.update_apply] at hq ⊢
    split_ifs at hq with e
    · exact ⟨o, e ▸ ho⟩
    · exact h4 q w hq

/-- The block of an object is freed and the object is removed. -/
theorem Inv.free (h : Inv m vals) {o p : ℕ} (ho : m.objs o = some (.owner p)) :
    ∃ m', m.free p = some m' ∧ m'.objs = m.objs ∧ (∀ q v, m'.blocks q = some v → m.blocks q = some v) ∧ (∀ q, q ≠ p → m'.blocks q = m.blocks q) ∧
      Inv (m'.remove o) (Function.update vals o none) := by
  obtain ⟨h1, h2, h3, h4⟩ := h
  obtain ⟨v, hv⟩ := h2 o p ho
  refine ⟨{ m with blocks := Function.update m.blocks p none }, by rw [Mem.free, hv]; rfl, rfl, ?_, fun q hq => by simp [hq], fun o' => ?_, fun o' q hq => ?_, fun a b p ha hb => ?_, fun q w hq => ?_⟩
  · intro q w hq
    simp only [Function.update_apply] at hq; grind
  · by_cases e : o' = o
    · subst e; simp [Mem.remove]
    · simp only [Mem.remove, Function.update_of_ne e, ← h1]
      cases hs : m.objs o' with
      | none => rfl
      | some s =>
        cases s with
        | owner q =>
          have : q ≠ p := by rintro rfl; exact e (h3 _ _ _ hs ho)
          simp [slotVal, this]
        | _ => rfl
  · simp only [Mem.remove, Function.update_apply] at hq ⊢; grind
  · simp only [Mem.remove, Function.update_apply] at ha hb; grind
  · simp only [Mem.remove, Function.update_apply] at hq ⊢
    split_ifs at hq with e
    obtain ⟨o', ho'⟩ := h4 q w hq
    exact ⟨o', by grind⟩

/-- The bytes of two objects are exchanged. -/
theorem Inv.swap (h : Inv m vals) {a b : ℕ} {v w : Option V} (ha : vals a = some v) (hb : vals b = some w) :
    ∃ m', m.swap a b = some m' ∧ Inv m' (Function.update (Function.update vals a (some w)) b (some v)) := by
  obtain ⟨x, hx, hv⟩ := h.obj_some ha
  obtain ⟨y, hy, hw⟩ := h.obj_some hb
  refine ⟨_, by rw [Mem.swap, hx, hy], ?_⟩
  obtain ⟨h1, h2, h3, h4⟩ := h
  have hsv : ((m.setObj a y).setObj b x).slotVal = m.slotVal := by funext t; cases t <;> rfl
  refine ⟨fun o' => ?_, fun o' q hq => ?_, fun c d p hc hd => ?_, fun q u hq => ?_⟩
  · rw [hsv]
    simp only [Mem.setObj, Function.update_apply]
    have := h1 o'
    split_ifs <;> simp_all
  · simp only [Mem.setObj, Function.update_apply] at hq ⊢; grind
  · simp only [Mem.setObj, Function.update_apply] at hc hd; grind
  · simp only [Mem.setObj] at hq
    obtain ⟨o', ho'⟩ := h4 q u hq
    by_cases e1 : o' = a
    · exact ⟨b, by simp only [Mem.setObj, Function.update_apply]; grind⟩
    · by_cases e2 : o' = b
      · exact ⟨a, by simp only [Mem.setObj, Function.update_apply]; grind⟩
      · exact ⟨o', by simp only [Mem.setObj, Function.update_apply]; grind⟩

/-- The bytes of an object are moved to another object that owns nothing; it becomes a slot that owns nothing. -/
theorem Inv.move (h : Inv m vals) {d s : ℕ} (hd : m.Free d) (hne : d ≠ s) {x y : Slot V} (hs : m.objs s = some x) (hy : ∀ p, y ≠ .owner p) :
    Inv ((m.setObj s y).setObj d x) (Function.update (Function.update vals s (some (m.slotVal y))) d (some (m.slotVal x))) := by
  obtain ⟨h1, h2, h3, h4⟩ := h
  have hsv : ((m.setObj s y).setObj d x).slotVal = m.slotVal := by funext t; cases t <;> rfl
  unfold Free at hd
  refine ⟨fun o' => ?_, fun o' q hq => ?_, fun a b p ha hb => ?_, fun q u hq => ?_⟩
  · rw [hsv]
    simp only [Mem.setObj, Function.update_apply]
    have := h1 o'
    split_ifs <;> simp_all
  · simp only [Mem.setObj, Function.update_apply] at hq ⊢; grind
  · simp only [Mem.setObj, Function.update_apply] at ha hb; grind
  · simp only [Mem.setObj] at hq
    obtain ⟨o', ho'⟩ := h4 q u hq
    by_cases e1 : o' = s
    · exact ⟨d, by simp only [Mem.setObj, Function.update_apply]; grind⟩
    · exact ⟨o', by simp only [Mem.setObj, Function.update_apply]; grind⟩

end Mem
end ExactReal.Storage

namespace ExactReal.Storage
variable {V : Type}
namespace Mem
variable {m : Mem V} {vals : ℕ → Option (Option V)}

theorem Inv.setObj_removed {o : ℕ} (h : Inv (m.remove o) (Function.update vals o none)) {s : Slot V} (hs : ∀ p, s ≠ .owner p) :
    Inv (m.setObj o s) (Function.update vals o (some (m.slotVal s))) := by
  have := h.setObj (o := o) (by intro p; simp [Mem.remove]) hs
  have e : (m.remove o).setObj o s = m.setObj o s := by simp [Mem.remove, Mem.setObj]
  have e' : (m.remove o).slotVal = m.slotVal := by funext t; cases t <;> rfl
  rw [e, e', Function.update_idem] at this
  exact this

theorem Inv.alloc_removed {o fresh : ℕ} (h : Inv (m.remove o) (Function.update vals o none)) (hf : m.blocks fresh = none) (v : V) :
    Inv ((m.setBlock fresh v).setObj o (.owner fresh)) (Function.update vals o (some (some v))) := by
  have := h.alloc (o := o) (by intro p; simp [Mem.remove]) (fresh := fresh) hf v
  have e : ((m.remove o).setBlock fresh v).setObj o (.owner fresh) = (m.setBlock fresh v).setObj o (.owner fresh) := by
    simp [Mem.remove, Mem.setObj, Mem.setBlock]
  rw [e, Function.update_idem] at this
  exact this

theorem Inv.read (h : Inv m vals) {o : ℕ} {v : V} (ho : vals o = some (some v)) : m.read o = some v := by
  obtain ⟨s, hs, hv⟩ := h.obj_some ho
  unfold Mem.read
  rw [hs]
  cases s with
  | inline u => exact hv
  | owner p => exact hv
  | null => cases hv

theorem Inv.store (h : Inv m vals) {small : V → Bool} {o fresh : ℕ} (hf : m.blocks fresh = none) {u : V} (ho : vals o = some (some u)) (v : V) :
    ∃ m', m.store small fresh o v = some m' ∧ Inv m' (Function.update vals o (some (some v))) := by
  obtain ⟨s, hs, hv⟩ := h.obj_some ho
  unfold Mem.store
  rw [hs]
  cases s with
  | inline w =>
    have hfree : m.Free o := by intro p hp; rw [hs] at hp; cases hp
    dsimp only
    split
    · exact ⟨_, rfl, h.setObj hfree (by intro p hp; cases hp)⟩
    · exact ⟨_, rfl, h.alloc hfree hf v⟩
  | owner p =>
    dsimp only
    split
    · obtain ⟨m', e, -, -, -, hi⟩ := h.free hs
      exact ⟨m'.setObj o (.inline v), by rw [e]; rfl, hi.setObj_removed (s := .inline v) (by intro p hp; cases hp)⟩
    · obtain ⟨w, hw⟩ := h.alive _ _ hs
      rw [hw]
      exact ⟨_, rfl, h.setBlock hs v⟩
  | null => cases hv

theorem Inv.init (h : Inv m vals) {zero : V} {o : ℕ} (ho : m.Free o) : Inv (m.init zero o) (Function.update vals o (some (some zero))) :=
  h.setObj ho (s := .inline zero) (by intro p hp; cases hp)

theorem Inv.delete (h : Inv m vals) {o : ℕ} (hn : ∀ v, m.objs o ≠ some (.inline v)) {w : Option V} (ho : vals o = some w) :
    ∃ m', m.delete o = some m' ∧ m'.objs = m.objs ∧ (∀ q, m.blocks q = none → m'.blocks q = none) ∧
      (∀ q, m.objs o ≠ some (.owner q) → m'.blocks q = m.blocks q) ∧ Inv (m'.remove o) (Function.update vals o none) := by
  obtain ⟨s, hs, hv⟩ := h.obj_some ho
  unfold Mem.delete
  rw [hs]
  cases s with
  | inline u => exact absurd hs (hn u)
  | null => exact ⟨m, rfl, rfl, fun _ h => h, fun _ _ => rfl, h.remove (by intro p hp; rw [hs] at hp; cases hp)⟩
  | owner p =>
    obtain ⟨m', e, e1, e2, e3, hi⟩ := h.free hs
    refine ⟨m', e, e1, fun q hq => ?_, fun q hq => e3 q (by rintro rfl; exact hq rfl), hi⟩
    cases hb : m'.blocks q with
    | none => rfl
    | some v => rw [e2 q v hb] at hq; cases hq

theorem Inv.clear (h : Inv m vals) {o : ℕ} {v : V} (ho : vals o = some (some v)) :
    ∃ m', m.clear o = some m' ∧ Inv (m'.remove o) (Function.update vals o none) := by
  obtain ⟨s, hs, hv⟩ := h.obj_some ho
  unfold Mem.clear
  rw [hs]
  cases s with
  | inline u => exact ⟨m, rfl, h.remove (by intro p hp; rw [hs] at hp; cases hp)⟩
  | null => cases hv
  | owner p =>
    obtain ⟨m', e, -, -, -, hi⟩ := h.free hs
    exact ⟨m', e, hi⟩

end Mem

/-- The values of numbers, as values of objects that can be null. -/
def lift (vals : ℕ → Option V) : ℕ → Option (Option V) := fun o => (vals o).map some

theorem lift_update (vals : ℕ → Option V) (o : ℕ) (w : Option V) : lift (Function.update vals o w) = Function.update (lift vals) o (w.map some) := by
  funext o'
  simp only [lift, Function.update_apply]
  split_ifs <;> rfl

theorem lift_some {vals : ℕ → Option V} {o : ℕ} {v : V} (h : vals o = some v) : lift vals o = some (some v) := by simp [lift, h]
theorem lift_none {vals : ℕ → Option V} {o : ℕ} (h : vals o = none) : lift vals o = none := by simp [lift, h]

/-- Whatever a program is allowed to do with numbers is defined, and keeps the invariant. -/
theorem numStep_inv {cls : NumClass} {small : V → Bool} {zero : V} {m : Mem V} {vals vals' : ℕ → Option V} {e : NumEvent V} {fresh : ℕ}
    (h : m.Inv (lift vals)) (hf : m.blocks fresh = none) (ha : numSpec zero vals e = some vals') :
    ∃ m', numStep cls small zero fresh m e = some m' ∧ m'.Inv (lift vals') := by
  cases e with
  | construct d =>
    simp only [numSpec] at ha
    split at ha <;> cases ha
    rename_i hd
    exact ⟨_, rfl, by rw [lift_update]; exact h.init (h.free_of_none (lift_none hd))⟩
  | constructFrom d v =>
    simp only [numSpec] at ha
    split at ha <;> cases ha
    rename_i hd
    have h1 := h.init (zero := zero) (h.free_of_none (lift_none hd))
    obtain ⟨m', e, hi⟩ := h1.store (small := small) (o := d) (fresh := fresh) (u := zero) hf (Function.update_self ..) v
    exact ⟨m', e, by rw [lift_update]; simpa using hi⟩
  | copyConstruct d s =>
    simp only [numSpec] at ha
    split at ha <;> cases ha
    rename_i v hd hs
    have hne : s ≠ d := by rintro rfl; rw [hd] at hs; cases hs
    have h1 := h.init (zero := zero) (h.free_of_none (lift_none hd))
    obtain ⟨m', e, hi⟩ := h1.store (small := small) (o := d) (fresh := fresh) (u := zero) hf (Function.update_self ..) v
    refine ⟨m', ?_, by rw [lift_update]; simpa using hi⟩
    have := h1.read (o := s) (v := v) (by rw [Function.update_of_ne hne]; exact lift_some hs)
    simp only [numStep, this]
    exact e
  | moveConstruct d s =>
    simp only [numSpec] at ha
    split at ha <;> cases ha
    rename_i v hd hs
    have hne : d ≠ s := by rintro rfl; rw [hd] at hs; cases hs
    cases cls with
    | arf =>
      have h1 := h.init (zero := zero) (h.free_of_none (lift_none hd))
      obtain ⟨m', e, hi⟩ := h1.swap (a := d) (b := s) (v := some zero) (w := some v) (by simp) (by rw [Function.update_of_ne hne.symm]; exact lift_some hs)
      exact ⟨m', e, by rw [lift_update, lift_update]; simpa using hi⟩
    | arb =>
      obtain ⟨x, hx, hv⟩ := h.obj_some (lift_some hs)
      refine ⟨(m.setObj d x).init zero s, by simp only [numStep, hx], ?_⟩
      have := h.move (h.free_of_none (lift_none hd)) hne hx (y := .inline zero) (by intro p hp; cases hp)
      rw [lift_update, lift_update]
      rw [hv, Function.update_comm hne.symm] at this
      have e : (m.setObj d x).init zero s = (m.setObj s (.inline zero)).setObj d x := by
        simp only [Mem.init, Mem.setObj, Mem.mk.injEq, and_true]
        exact Function.update_comm hne _ _ _
      rw [e]; exact this
  | copyAssign d s =>
    simp only [numSpec] at ha
    split at ha <;> cases ha
    rename_i u v hd hs
    by_cases hne : d = s
    · subst hne
      refine ⟨m, by simp [numStep], ?_⟩
      rw [← hs, Function.update_eq_self]; exact h
    · obtain ⟨m', e, hi⟩ := h.store (small := small) (fresh := fresh) hf (lift_some hd) v
      refine ⟨m', ?_, by rw [lift_update]; exact hi⟩
      simp only [numStep, if_neg hne, h.read (lift_some hs)]
      exact e
  | moveAssign a b =>
    simp only [numSpec] at ha
    split at ha <;> cases ha
    rename_i v w hd hs
    obtain ⟨m', e, hi⟩ := h.swap (lift_some hd) (lift_some hs)
    exact ⟨m', e, by rw [lift_update, lift_update]; exact hi⟩
  | swap a b =>
    simp only [numSpec] at ha
    split at ha <;> cases ha
    rename_i v w hd hs
    obtain ⟨m', e, hi⟩ := h.swap (lift_some hd) (lift_some hs)
    exact ⟨m', e, by rw [lift_update, lift_update]; exact hi⟩
  | assign d v =>
    simp only [numSpec] at ha
    split at ha <;> cases ha
    rename_i u hd
    obtain ⟨m', e, hi⟩ := h.store (small := small) (fresh := fresh) hf (lift_some hd) v
    exact ⟨m', e, by rw [lift_update]; exact hi⟩
  | operate d a b f =>
    simp only [numSpec] at ha
    split at ha <;> cases ha
    rename_i u v w hd hx hy
    obtain ⟨m', e, hi⟩ := h.store (small := small) (fresh := fresh) hf (lift_some hd) (f v w)
    refine ⟨m', ?_, by rw [lift_update]; exact hi⟩
    simp only [numStep, h.read (lift_some hx), h.read (lift_some hy)]
    exact e
  | destroy d =>
    simp only [numSpec] at ha
    split at ha <;> cases ha
    rename_i u hd
    obtain ⟨m', e, hi⟩ := h.clear (lift_some hd)
    refine ⟨m'.remove d, ?_, by rw [lift_update]; exact hi⟩
    simp only [numStep, e]
    rfl

theorem numHist_inv {cls : NumClass} {small : V → Bool} {zero : V} {m : Mem V} {vals : ℕ → Option V} (h : NumHist cls small zero m vals) :
    m.Inv (lift vals) := by
  induction h with
  | start => exact Mem.inv_start
  | step _ hf ha hs ih =>
    obtain ⟨m', e, hi⟩ := numStep_inv (cls := cls) (small := small) ih hf ha
    rw [hs] at e; cases e
    exact hi

end ExactReal.Storage

namespace ExactReal.Storage
variable {V : Type}
namespace Mem
variable {m : Mem V} {W : ℕ → Option (Option V)}

/-- No object stores its value in itself. -/
def NoInline (m : Mem V) : Prop := ∀ o v, m.objs o ≠ some (.inline v)

theorem NoInline.setObj (h : NoInline m) {o : ℕ} {s : Slot V} (hs : ∀ v, s ≠ .inline v) : NoInline (m.setObj o s) := by
  intro o' v hv
  simp only [Mem.setObj, Function.update_apply] at hv
  split_ifs at hv with e
  · exact hs v (by simpa using hv)
  · exact h o' v hv

theorem NoInline.remove (h : NoInline m) {o : ℕ} : NoInline (m.remove o) := by
  intro o' v hv
  simp only [Mem.remove, Function.update_apply] at hv
  split_ifs at hv with e
  exact h o' v hv

theorem NoInline.of_objs {m' : Mem V} (h : NoInline m) (e : m'.objs = m.objs) : NoInline m' := by
  intro o v; rw [e]; exact h o v

theorem Inv.eltOwner (h : Inv m W) (hn : NoInline m) {o : ℕ} {v : V} (ho : W o = some (some v)) : ∃ p, m.objs o = some (.owner p) ∧ m.blocks p = some v := by
  obtain ⟨s, hs, hv⟩ := h.obj_some ho
  cases s with
  | inline u => exact absurd hs (hn o u)
  | owner p => exact ⟨p, hs, hv⟩
  | null => cases hv

theorem Inv.eltMoveConstruct (h : Inv m W) (hn : NoInline m) {d s : ℕ} {w : Option V} (hd : W d = none) (hs : W s = some w) :
    ∃ m', m.eltMoveConstruct d s = some m' ∧ NoInline m' ∧ Inv m' (Function.update (Function.update W s (some none)) d (some w)) := by
  obtain ⟨x, hx, hw⟩ := h.obj_some hs
  have hne : d ≠ s := by rintro rfl; rw [hd] at hs; cases hs
  refine ⟨_, by rw [Mem.eltMoveConstruct, hx], (hn.setObj (by intro v hv; cases hv)).setObj (fun v hv => hn s v (hv ▸ hx)), ?_⟩
  rw [← hw]
  exact h.move (h.free_of_none hd) hne hx (y := .null) (by intro p hp; cases hp)

theorem Inv.eltMoveAssign (h : Inv m W) (hn : NoInline m) {d s : ℕ} {u w : Option V} (hd : W d = some u) (hs : W s = some w) :
    ∃ m', m.eltMoveAssign d s = some m' ∧ NoInline m' ∧
      Inv m' (if d = s then W else Function.update (Function.update W s (some none)) d (some w)) := by
  unfold Mem.eltMoveAssign
  by_cases hne : d = s
  · simp only [if_pos hne]
    exact ⟨m, rfl, hn, h⟩
  · simp only [if_neg hne]
    obtain ⟨x, hx, hw⟩ := h.obj_some hs
    obtain ⟨m', e, e1, -, -, hi⟩ := h.delete (hn d) hd
    rw [hx]
    refine ⟨(m'.setObj s .null).setObj d x, by rw [e]; rfl, ((hn.of_objs e1).setObj (by intro v hv; cases hv)).setObj (fun v hv => hn s v (hv ▸ hx)), ?_⟩
    have hs' : (m'.remove d).objs s = some x := by simp [Mem.remove, e1, hx, Ne.symm hne]
    have := hi.move (d := d) (s := s) (by intro p; simp [Mem.remove]) hne hs' (y := .null) (by intro p hp; cases hp)
    have ew : (m'.remove d).slotVal x = w := by
      have := hi.val s
      rw [hs', Function.update_of_ne (Ne.symm hne), hs] at this
      simpa using this
    rw [ew] at this
    have e2 : ((m'.remove d).setObj s .null).setObj d x = (m'.setObj s .null).setObj d x := by
      simp only [Mem.remove, Mem.setObj, Mem.mk.injEq, and_true]
      funext o
      simp only [Function.update_apply]
      split_ifs <;> rfl
    rw [e2] at this
    have e3 : Function.update (Function.update (Function.update W d none) s (some ((m'.remove d).slotVal .null))) d (some w) =
        Function.update (Function.update W s (some none)) d (some w) := by
      funext o
      simp only [Function.update_apply]
      split_ifs <;> rfl
    rw [e3] at this
    exact this

theorem delete_setBlock {m' : Mem V} {d fresh : ℕ} {v : V} (h : m.delete d = some m') (hf : m.objs d ≠ some (.owner fresh)) :
    (m.setBlock fresh v).delete d = some (m'.setBlock fresh v) := by
  unfold Mem.delete at h ⊢
  have : (m.setBlock fresh v).objs = m.objs := rfl
  rw [this]
  cases hs : m.objs d with
  | none => rw [hs] at h; cases h
  | some s =>
    rw [hs] at h
    cases s with
    | inline u => cases h
    | null => cases h; rfl
    | owner p =>
      have hne : p ≠ fresh := by rintro rfl; exact hf hs
      simp only [Mem.free] at h ⊢
      split at h <;> cases h
      rename_i hp
      simp only [Mem.setBlock, Function.update_of_ne hne, if_pos hp, Option.some.injEq, Mem.mk.injEq, true_and]
      rw [Function.update_comm hne.symm]

theorem Inv.eltCopyAssign (h : Inv m W) (hn : NoInline m) {d s fresh : ℕ} (hf : m.blocks fresh = none) {u : Option V} {v : V} (hd : W d = some u)
    (hs : W s = some (some v)) : ∃ m', m.eltCopyAssign fresh d s = some m' ∧ NoInline m' ∧ Inv m' (Function.update W d (some (some v))) := by
  unfold Mem.eltCopyAssign
  by_cases hne : d = s
  · subst hne
    simp only [if_true]
    refine ⟨m, rfl, hn, ?_⟩
    rw [← hs, Function.update_eq_self]; exact h
  · simp only [if_neg hne]
    obtain ⟨p, hp, hv⟩ := h.eltOwner hn hs
    obtain ⟨m', e, e1, e2, -, hi⟩ := h.delete (hn d) hd
    rw [hp]
    have := delete_setBlock (v := v) e (fresh := fresh) (by intro hh; obtain ⟨w, hw⟩ := h.alive _ _ hh; rw [hf] at hw; cases hw)
    refine ⟨(m'.setBlock fresh v).setObj d (.owner fresh), ?_, ?_, hi.alloc_removed (e2 _ hf) v⟩
    · simp only [hv, Option.bind_eq_bind, Option.bind_some, this]
    · exact NoInline.setObj (m := m'.setBlock fresh v) (hn.of_objs e1) (by intro v hv; cases hv)

end Mem

section elements
variable {P : Type} {R : Type} [CommRing R]

/-- The loop over the coefficients adds them, also if the operands are the same object. -/
theorem addLoop_spec {p q : ℕ} {M : Mod P} : ∀ {xs ys pre : List R} {m : Mem (Elt P R)} {y : Elt P R}, xs.length = ys.length →
    m.blocks p = some ⟨M, pre ++ xs⟩ → m.blocks q = some y → y.coeffs.drop pre.length = ys →
    addLoop p q xs.length pre.length m = some (m.setBlock p ⟨M, pre ++ List.zipWith (· + ·) xs ys⟩) := by
  intro xs
  induction xs with
  | nil =>
    intro ys pre m y hl hp hq hy
    simp only [List.length_nil, addLoop, Mem.setBlock, List.zipWith_nil_left, ← hp, Function.update_eq_self]
  | cons a xs ih =>
    intro ys pre m y hl hp hq hy
    cases ys with
    | nil => cases hl
    | cons b ys =>
      have hb : y.coeffs[pre.length]? = some b := by
        have := congrArg (fun l => l[0]?) hy
        simpa using this
      simp only [List.length_cons, addLoop, hp, hq, Option.bind_eq_bind, Option.bind_some, hb]
      have ha : (pre ++ a :: xs)[pre.length]? = some a := by simp
      rw [ha]
      simp only [Option.bind_some]
      have hset : (pre ++ a :: xs).set pre.length (a + b) = (pre ++ [a + b]) ++ xs := by simp
      rw [hset]
      have hdrop : y.coeffs.drop (pre.length + 1) = ys := by
        rw [← List.drop_drop, hy]; rfl
      have key := @ih ys (pre ++ [a + b]) (m.setBlock p ⟨M, (pre ++ [a + b]) ++ xs⟩)
        (if q = p then ⟨M, (pre ++ [a + b]) ++ xs⟩ else y) (by simpa using hl) (by simp [Mem.setBlock])
        (by simp only [Mem.setBlock, Function.update_apply]; split_ifs <;> simp [hq]) (by
          split_ifs with e
          · subst e
            rw [hp] at hq; cases hq
            simp only [List.length_append, List.length_singleton] at *
            have : (pre ++ a :: xs).drop pre.length = a :: xs := by simp
            rw [this] at hy; injection hy with _ hy
            rw [← hy]
            have : pre.length + 1 = (pre ++ [a + b]).length := by simp
            rw [this, List.drop_left]
          · simpa using hdrop)
      simp only [List.length_append, List.length_singleton] at key
      rw [key]
      simp [Mem.setBlock]

variable [DecidableEq P] [DecidableEq R] [CRing P R]

/-- Whatever a program is allowed to do with elements is defined, and keeps the invariant. -/
theorem eltStep_inv [Build] {m : Mem (Elt P R)} {W W' : ℕ → Option (Option (Elt P R))} {e : EltEvent P R} {fresh : ℕ} (h : m.Inv W) (hn : m.NoInline)
    (hl : ∀ o v, W o = some (some v) → v.coeffs.length = v.mod.basis.length) (hf : m.blocks fresh = none) (ha : eltSpec W e = some W') :
    ∃ m', eltStep fresh m e = some m' ∧ m'.NoInline ∧ m'.Inv W' := by
  cases e with
  | construct d v =>
    simp only [eltSpec] at ha
    split at ha <;> cases ha
    rename_i hd
    refine ⟨_, rfl, ?_, h.alloc (h.free_of_none hd) hf v⟩
    exact Mem.NoInline.setObj (m := m.setBlock fresh v) hn (by intro v hv; cases hv)
  | copyConstruct d s =>
    simp only [eltSpec] at ha
    split at ha <;> cases ha
    rename_i v hd hs
    obtain ⟨p, hp, hv⟩ := h.eltOwner hn hs
    refine ⟨(m.setBlock fresh v).setObj d (.owner fresh), ?_, ?_, h.alloc (h.free_of_none hd) hf v⟩
    · simp only [eltStep, Mem.eltCopyConstruct, hp, hv]; rfl
    · exact Mem.NoInline.setObj (m := m.setBlock fresh v) hn (by intro v hv; cases hv)
  | moveConstruct d s =>
    simp only [eltSpec] at ha
    split at ha <;> cases ha
    rename_i v hd hs
    exact h.eltMoveConstruct hn hd hs
  | copyAssign d s =>
    simp only [eltSpec] at ha
    split at ha <;> cases ha
    rename_i u v hd hs
    exact h.eltCopyAssign hn hf hd hs
  | moveAssign d s =>
    simp only [eltSpec] at ha
    split at ha
    · rename_i u w hd hs
      obtain ⟨m', e, hn', hi⟩ := h.eltMoveAssign hn hd hs
      refine ⟨m', e, hn', ?_⟩
      split at ha <;> cases ha
      · rename_i hds; simpa [hds] using hi
      · rename_i hds; simpa [hds] using hi
    · cases ha
  | swap a b tmp =>
    simp only [eltSpec] at ha
    split at ha <;> cases ha
    rename_i v w hA hB ht
    have hta : tmp ≠ a := by rintro rfl; rw [ht] at hA; cases hA
    have htb : tmp ≠ b := by rintro rfl; rw [ht] at hB; cases hB
    obtain ⟨m1, e1, n1, i1⟩ := h.eltMoveConstruct hn ht hA
    obtain ⟨m2, e2, n2, i2⟩ := i1.eltMoveAssign n1 (d := a) (s := b) (u := none) (w := if a = b then none else w)
      (by simp [Function.update_apply, hta.symm]) (by
        simp only [Function.update_apply, if_neg htb.symm]
        by_cases hab : a = b
        · simp [hab]
        · simp [hab, Ne.symm hab, hB])
    obtain ⟨m3, e3, n3, i3⟩ := i2.eltMoveAssign n2 (d := b) (s := tmp) (u := none) (w := v)
      (by
        by_cases hab : a = b
        · simp [hab, Function.update_apply, htb.symm]
        · simp [hab, Function.update_apply, Ne.symm hab])
      (by
        by_cases hab : a = b
        · simp [hab]
        · simp [hab, Function.update_apply, hta, htb])
    obtain ⟨m4, e4, o4, -, -, i4⟩ := i3.delete (n3 tmp) (w := none) (by simp [htb.symm, Function.update_apply, htb])
    refine ⟨m4.remove tmp, ?_, Mem.NoInline.remove (n3.of_objs o4), ?_⟩
    · simp only [eltStep, e1, e2, e3, e4, Option.bind_eq_bind, Option.bind_some]
    · convert i4 using 1
      funext o
      by_cases hab : a = b
      · subst hab
        simp only [Function.update_apply, if_neg hta.symm, if_true]
        by_cases h1 : o = a
        · subst h1; simp [hta.symm]
        · by_cases h2 : o = tmp
          · subst h2; simp [h1, ht]
          · simp [h1, h2]
      · simp only [Function.update_apply, if_neg htb.symm, if_neg hab]
        by_cases h1 : o = a
        · subst h1; simp [hta.symm, hab]
        · by_cases h2 : o = b
          · subst h2; simp [htb.symm]
          · by_cases h3 : o = tmp
            · subst h3; simp [h1, h2, ht]
            · simp [h1, h2, h3]
  | add d s =>
    simp only [eltSpec] at ha
    split at ha <;> cases ha
    rename_i x y hd hs
    obtain ⟨p, hp, hx⟩ := h.eltOwner hn hd
    obtain ⟨q, hq, hy⟩ := h.eltOwner hn hs
    refine ⟨m.setBlock p (x.addAssign y).self, ?_, hn, h.setBlock hp _⟩
    simp only [eltStep, hp, hq, hx, hy, Option.bind_eq_bind, Option.bind_some]
    split
    · rename_i hm
      have lx := hl d x hd
      have ly := hl s y hs
      have := addLoop_spec (p := p) (q := q) (M := x.mod) (xs := x.coeffs) (ys := y.coeffs) (pre := []) (m := m) (y := y)
        (by rw [lx, ly, hm]) hx hy rfl
      rw [← lx]
      simp only [List.length_nil, List.nil_append] at this
      rw [this]
      have e : x.addAssign y = .done (x.addSame y) := by rw [Elt.addAssign, if_neg (by simpa using hm)]
      rw [e]; rfl
    · rfl
  | operate d s f =>
    simp only [eltSpec] at ha
    split at ha <;> cases ha
    rename_i x y hd hs
    obtain ⟨p, hp, hx⟩ := h.eltOwner hn hd
    obtain ⟨q, hq, hy⟩ := h.eltOwner hn hs
    refine ⟨m.setBlock p (f x y), ?_, hn, h.setBlock hp _⟩
    simp only [eltStep, hp, hq, hx, hy, Option.bind_eq_bind, Option.bind_some]
  | destroy d =>
    simp only [eltSpec] at ha
    split at ha <;> cases ha
    rename_i u hd
    obtain ⟨m', e, o, -, -, hi⟩ := h.delete (hn d) hd
    refine ⟨m'.remove d, ?_, Mem.NoInline.remove (hn.of_objs o), hi⟩
    simp only [eltStep, e]
    rfl

theorem eltHist_inv [Build] {m : Mem (Elt P R)} {W : ℕ → Option (Option (Elt P R))} (h : EltHist m W) :
    m.Inv W ∧ m.NoInline ∧ ∀ o v, W o = some (some v) → v.coeffs.length = v.mod.basis.length := by
  induction h with
  | start => exact ⟨Mem.inv_start, (fun o v hv => by cases hv), fun o v hv => by cases hv⟩
  | step _ hf ha hs hw ih =>
    obtain ⟨m', e, hn, hi⟩ := eltStep_inv ih.1 ih.2.1 ih.2.2 hf ha
    rw [hs] at e; cases e
    exact ⟨hi, hn, hw⟩

end elements
end ExactReal.Storage
