import Verif.Lemma.Storage

/-!
# C69: objects behave like values, and memory is neither leaked nor freed twice
-/

namespace ExactReal.Props

open ExactReal.Storage

variable {V : Type}

/-- **C69**: whatever a program does with floating point numbers and balls that exist, in any history, is defined: no block of memory is freed twice,
none is used after it was freed, no object is used that owns nothing. -/
theorem storage_num_defined {cls : NumClass} {small : V → Bool} {zero : V} {m : Mem V} {vals vals' : ℕ → Option V} (h : NumHist cls small zero m vals)
    {e : NumEvent V} (ha : numSpec zero vals e = some vals') {fresh : ℕ} (hf : m.blocks fresh = none) :
    ∃ m', numStep cls small zero fresh m e = some m' := by
  obtain ⟨m', e, -⟩ := numStep_inv (cls := cls) (small := small) (numHist_inv h) hf ha
  exact ⟨m', e⟩

/-- **C69**: every number has, in every history, the value that the program expects, that is, the one it would have if every object were a variable
that shares nothing with the others. -/
theorem storage_num_value {cls : NumClass} {small : V → Bool} {zero : V} {m : Mem V} {vals : ℕ → Option V} (h : NumHist cls small zero m vals) (o : ℕ) :
    m.read o = vals o := by
  have hi := numHist_inv h
  cases hv : vals o with
  | none =>
    unfold Mem.read
    rw [hi.obj_none (lift_none hv)]
  | some v => exact hi.read (lift_some hv)

/-- **C69**: every block of memory that is allocated belongs to exactly one number that exists.  In particular nothing is allocated once all numbers
have been destroyed. -/
theorem storage_num_leak {cls : NumClass} {small : V → Bool} {zero : V} {m : Mem V} {vals : ℕ → Option V} (h : NumHist cls small zero m vals) {p : ℕ} {v : V}
    (hp : m.blocks p = some v) : (∃! o, m.objs o = some (.owner p)) ∧ ∃ o, vals o = some v := by
  have hi := numHist_inv h
  obtain ⟨o, ho⟩ := hi.onto p v hp
  refine ⟨⟨o, ho, fun o' ho' => hi.inj _ _ _ ho' ho⟩, o, ?_⟩
  have := hi.val o
  rw [ho] at this
  simp only [Option.map_some, Mem.slotVal, hp, lift] at this
  cases hv : vals o with
  | none => rw [hv] at this; cases this
  | some w => rw [hv] at this; simpa using this.symm

variable {P : Type} [DecidableEq P] {R : Type} [CommRing R] [DecidableEq R] [CRing P R]

/-- **C69**: the same for elements. -/
theorem storage_elt_defined [Build] {m : Mem (Elt P R)} {vals vals' : ℕ → Option (Option (Elt P R))} (h : EltHist m vals) {e : EltEvent P R}
    (ha : eltSpec vals e = some vals') {fresh : ℕ} (hf : m.blocks fresh = none) : ∃ m', eltStep fresh m e = some m' := by
  obtain ⟨hi, hn, hl⟩ := eltHist_inv h
  obtain ⟨m', e, -⟩ := eltStep_inv hi hn hl hf ha
  exact ⟨m', e⟩

/-- **C69**: every element has the value that the program expects; `x += y` adds the value that `y` had before, also if `y` is `x`. -/
theorem storage_elt_value [Build] {m : Mem (Elt P R)} {vals : ℕ → Option (Option (Elt P R))} (h : EltHist m vals) (o : ℕ) :
    m.read o = (vals o).join := by
  obtain ⟨hi, hn, -⟩ := eltHist_inv h
  cases hv : vals o with
  | none =>
    unfold Mem.read
    rw [hi.obj_none hv]; rfl
  | some w =>
    cases w with
    | some v => exact hi.read hv
    | none =>
      obtain ⟨s, hs, he⟩ := hi.obj_some hv
      unfold Mem.read
      rw [hs]
      cases s with
      | inline v => cases he
      | owner p => exact he
      | null => rfl

/-- **C69**: every implementation of an element that is allocated belongs to exactly one element. -/
theorem storage_elt_leak [Build] {m : Mem (Elt P R)} {vals : ℕ → Option (Option (Elt P R))} (h : EltHist m vals) {p : ℕ} {v : Elt P R}
    (hp : m.blocks p = some v) : (∃! o, m.objs o = some (.owner p)) ∧ ∃ o, vals o = some (some v) := by
  obtain ⟨hi, hn, -⟩ := eltHist_inv h
  obtain ⟨o, ho⟩ := hi.onto p v hp
  refine ⟨⟨o, ho, fun o' ho' => hi.inj _ _ _ ho' ho⟩, o, ?_⟩
  have := hi.val o
  rw [ho] at this
  simp only [Option.map_some, Mem.slotVal, hp] at this
  exact this.symm

/-- **C69**, the aliased case by itself: `x += x` doubles `x`. -/
theorem storage_add_self [Build] {m : Mem (Elt P R)} {vals : ℕ → Option (Option (Elt P R))} (h : EltHist m vals) {d fresh : ℕ} {x : Elt P R}
    (hx : vals d = some (some x)) (hf : m.blocks fresh = none) :
    ∃ m', eltStep fresh m (.add d d) = some m' ∧ m'.read d = some ⟨x.mod, x.coeffs.map fun c => c + c⟩ ∧ ∀ o, o ≠ d → m'.read o = m.read o := by
  obtain ⟨hi, hn, hl⟩ := eltHist_inv h
  have ha : eltSpec vals (.add d d) = some (Function.update vals d (some (some (x.addAssign x).self))) := by simp [eltSpec, hx]
  obtain ⟨m', e, hn', hi'⟩ := eltStep_inv hi hn hl hf ha
  have e1 : (x.addAssign x).self = ⟨x.mod, x.coeffs.map fun c => c + c⟩ := by
    simp [Elt.addAssign, Elt.addSame, Step.done, List.zipWith_self]
  have hh : EltHist m' _ := .step h hf ha e (by
    intro o v hv
    by_cases ho : o = d
    · subst ho
      simp only [Function.update_self, Option.some.injEq] at hv
      subst hv
      rw [e1]
      simpa using hl o x hx
    · rw [Function.update_of_ne ho] at hv
      exact hl o v hv)
  refine ⟨m', e, ?_, fun o ho => ?_⟩
  · rw [storage_elt_value hh, Function.update_self, e1]; rfl
  · rw [storage_elt_value hh, storage_elt_value h, Function.update_of_ne ho]

/-- A history: two numbers with a large mantissa are constructed, moved, swapped and one of them destroyed.  What is left is the value `7`, in the one block
that is still allocated. -/
example : ∃ m vals, NumHist .arb (fun v : ℤ => v = 0) 0 m vals ∧ vals 1 = none ∧ vals 2 = some 0 ∧ vals 3 = some 7 ∧ m.blocks 10 = some 7 ∧ m.blocks 11 = none :=
  ⟨_, _, .step (fresh := 12) (e := .destroy 1) (.step (fresh := 12) (e := .swap 1 3) (.step (fresh := 12) (e := .moveConstruct 3 2)
    (.step (fresh := 11) (e := .constructFrom 2 5) (.step (fresh := 10) (e := .constructFrom 1 7) .start rfl rfl rfl) rfl rfl rfl) rfl rfl rfl) rfl rfl rfl)
    rfl rfl rfl, rfl, rfl, rfl, rfl, rfl⟩

/-- A history of elements: an element is constructed, copied, moved, and added to itself. -/
example [Build] (x : Elt P R) (hx : x.coeffs.length = x.mod.basis.length) : ∃ m vals, EltHist m vals ∧ vals 1 = some none ∧ vals 2 = some (some x) ∧ vals 3 = some (some x) ∧
    (∃ w, eltSpec vals (.add 3 3) = some w) ∧ m.blocks 12 = none := by
  have len : ∀ {vals : ℕ → Option (Option (Elt P R))}, (∀ o, vals o = none ∨ vals o = some none ∨ vals o = some (some x)) →
      ∀ o v, vals o = some (some v) → v.coeffs.length = v.mod.basis.length := by
    intro vals h o v hv
    rcases h o with h | h | h <;> rw [h] at hv <;> cases hv
    exact hx
  have h1 : EltHist _ _ := .step (fresh := 10) (e := .construct 1 x) .start rfl rfl rfl (len fun o => by
    simp only [Function.update_apply]; split_ifs <;> simp)
  have h2 : EltHist _ _ := .step (fresh := 11) (e := .copyConstruct 2 1) h1 rfl rfl rfl (len fun o => by
    simp only [Function.update_apply]; split_ifs <;> simp)
  have h3 : EltHist _ _ := .step (fresh := 12) (e := .moveConstruct 3 1) h2 rfl rfl rfl (len fun o => by
    simp only [Function.update_apply]; split_ifs <;> simp)
  exact ⟨_, _, h3, rfl, rfl, rfl, ⟨_, rfl⟩, rfl⟩

end ExactReal.Props
