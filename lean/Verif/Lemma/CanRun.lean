import Verif.Lemma.ProgramHeap

/-! # Threads can run -/

namespace ExactReal.Heap
open State MState

variable {P : Type} [DecidableEq P] {gen : Generators}

/-- What a factory for numbers does: it takes at most two identities, keeps the references and returns a new one. -/
structure Hands (s : State) (x : State × Ptr) (n : ℕ) : Prop where
  next : x.1.next ≤ s.next + n
  roots : ∀ p ∈ s.roots, p ∈ x.1.roots
  mem : x.2 ∈ x.1.roots

theorem hands_get (s : State) (alloc : Alloc) (isKey : Key → Bool) (k : Key) (d : Data) : Hands s (s.get alloc isKey k d) 1 := by
  unfold State.get
  split
  · exact ⟨Nat.le_succ _, fun p hp => List.mem_cons_of_mem _ hp, List.mem_cons_self⟩
  · exact ⟨le_rfl, fun p hp => List.mem_cons_of_mem _ hp, List.mem_cons_self⟩

theorem hands_root (s : State) (p : Ptr) : Hands s ({ s with roots := p :: s.roots }, p) 2 :=
  ⟨Nat.le_add_right _ _, fun q hq => List.mem_cons_of_mem _ hq, List.mem_cons_self⟩

theorem Hands.le {s : State} {x : State × Ptr} {n m : ℕ} (h : Hands s x n) (hn : n ≤ m) : Hands s x m := ⟨h.next.trans (by omega), h.roots, h.mem⟩

theorem Hands.trans {s : State} {x y : State × Ptr} {n m : ℕ} (h : Hands s x n) (h' : Hands x.1 y m) : Hands s y (n + m) :=
  ⟨h'.next.trans (by have := h.next; omega), fun p hp => h'.roots p (h.roots p hp), h'.mem⟩

/-- What a call does that may throw. -/
def HandsOut (s : State) (x : State × Out Ptr) (n : ℕ) : Prop :=
  x.1.next ≤ s.next + n ∧ (∀ p ∈ s.roots, p ∈ x.1.roots) ∧ ∀ p, x.2 = .ok p → p ∈ x.1.roots

theorem Hands.out {s : State} {x : State × Ptr} {n : ℕ} (h : Hands s x n) : HandsOut s (x.1, .ok x.2) n :=
  ⟨h.next, h.roots, fun p hp => by cases hp; exact h.mem⟩

theorem handsOut_same (s : State) {x : Out Ptr} (hx : ∀ p, x ≠ .ok p) (n : ℕ) : HandsOut s (s, x) n :=
  ⟨Nat.le_add_right _ _, fun _ h => h, fun p hp => absurd hp (hx p)⟩

theorem hands_ratMul (s : State) (alloc : Alloc) (x : ℚ) (q : Ptr) : HandsOut s (s.ratMul alloc x q) 2 := by
  unfold State.ratMul
  split_ifs
  · exact (hands_root s q).out
  · split
    · exact ((hands_get s alloc _ _ _).le one_le_two).out
    · exact handsOut_same s (by simp) 2

theorem hands_run (gen : Generators) (alloc : Alloc) (s : State) (op : NumOp) : HandsOut s (op.run gen alloc s) 2 := by
  cases op with
  | rational q =>
    show HandsOut s ((s.rational alloc q).1, .ok (s.rational alloc q).2) 2
    exact ((hands_get s alloc _ _ _).le one_le_two).out
  | random t =>
    show HandsOut s ((s.random alloc t).1, .ok (s.random alloc t).2) 2
    exact ((hands_get s alloc _ _ _).le one_le_two).out
  | randomIn l u t =>
    show HandsOut s (s.randomIn gen alloc l u t) 2
    unfold State.randomIn
    split
    · exact ((hands_get s alloc _ _ _).le one_le_two).out
    · refine ⟨((hands_get s alloc _ _ _).trans (hands_get _ alloc _ _ _)).next, fun p hp => ?_, fun p hp => ?_⟩
      · show p ∈ List.erase _ _
        rw [erase_inner]; exact List.mem_cons_of_mem _ hp
      · cases hp
        show _ ∈ List.erase _ _
        rw [erase_inner]; exact List.mem_cons_self
    all_goals exact handsOut_same s (by simp) 2
  | mul p q =>
    show HandsOut s (s.mul alloc p q) 2
    unfold State.mul
    split
    · exact hands_ratMul _ _ _ _
    · split
      · exact hands_ratMul _ _ _ _
      · exact ((hands_get s alloc _ _ _).le one_le_two).out

/-- The thread's references are strong references. -/
def Keeps (w : World P) : Prop := (∀ p ∈ w.nums, p ∈ w.st.base.roots) ∧ ∀ m ∈ w.mods, m ∈ w.st.mroots

theorem Keeps.waits {w : World P} (h : Keeps w) : Waits gen w w := ⟨.refl, rfl, rfl, h.1, h.2⟩

/-- At most `n` factories for numbers are called (and no division). -/
inductive Act.AtMost {P α : Type} : ℕ → Act P α → Prop
  | ret {n : ℕ} {x : Out α} : AtMost n (.ret x)
  | read {n : ℕ} {k : MState P → Act P α} : (∀ st, AtMost n (k st)) → AtMost n (.read k)
  | num {n : ℕ} {op : NumOp} {k : Out Ptr → Act P α} : (∀ r, AtMost n (k r)) → AtMost (n + 1) (.num op k)
  | make {n : ℕ} {ring : P} {basis : List Ptr} {k : Out Ptr → Act P α} : (∀ r, AtMost n (k r)) → AtMost n (.make ring basis k)

/-- A thread that calls few factories can run to its end. -/
theorem can_run {alloc : Alloc} (ha : alloc.Valid) {malloc : MAlloc P} (hm : malloc.Valid) {α : Type} {n : ℕ} {a : Act P α} (h : a.AtMost n) :
    ∀ {w : World P}, Keeps w → ∃ w' r, Exec gen w a w' r ∧ w'.st.base.next ≤ w.st.base.next + 2 * n ∧ Keeps w' := by
  induction h with
  | ret => intro w hw; exact ⟨w, _, .ret, Nat.le_add_right _ _, hw⟩
  | read _ ih =>
    intro w hw
    obtain ⟨w', r, h1, h2⟩ := ih w.st hw
    exact ⟨w', r, .read hw.waits h1, h2⟩
  | @num n op k _ ih =>
    intro w hw
    by_cases hh : ∀ p ∈ op.args, Held w p
    swap
    · obtain ⟨w', r, h4, h5, h6⟩ := ih _ hw
      exact ⟨w', r, .numUndefined hw.waits hh h4, by omega, h6⟩
    obtain ⟨h1, h2, h3⟩ := hands_run gen alloc w.st.base op
    have hk : Keeps (w.afterNum (op.run gen alloc w.st.base)) := by
      generalize op.run gen alloc w.st.base = x at h1 h2 h3
      obtain ⟨s, r⟩ := x
      cases r with
      | ok p =>
        refine ⟨fun q hq => ?_, hw.2⟩
        rcases Set.mem_insert_iff.1 hq with rfl | hq
        · exact h3 _ rfl
        · exact h2 q (hw.1 q hq)
      | _ => exact ⟨fun q hq => h2 q (hw.1 q hq), hw.2⟩
    obtain ⟨w', r, h4, h5, h6⟩ := ih _ hk
    refine ⟨w', r, .num hw.waits ha hh h4, ?_, h6⟩
    rw [afterNum_base] at h5
    have h7 : w'.st.base.next ≤ (op.run gen alloc w.st.base).1.next + 2 * n := h5
    omega
  | @make n ring basis k _ ih =>
    intro w hw
    by_cases hh : ∀ p ∈ basis, Held w p
    swap
    · obtain ⟨w', r, h4, h5, h6⟩ := ih _ hw
      exact ⟨w', r, .makeUndefined hw.waits hh h4, h5, h6⟩
    have hk : Keeps (w.afterMake (w.st.make malloc ring basis)) := by
      unfold MState.make
      dsimp only
      split
      · refine ⟨hw.1, fun q hq => ?_⟩
        rcases Set.mem_insert_iff.1 hq with rfl | hq
        · exact List.mem_cons_self
        · exact List.mem_cons_of_mem _ (hw.2 q hq)
      · split
        · refine ⟨fun p hp => List.mem_append_right _ (hw.1 p hp), fun q hq => ?_⟩
          rcases Set.mem_insert_iff.1 hq with rfl | hq
          · exact List.mem_cons_self
          · exact List.mem_cons_of_mem _ (hw.2 q hq)
        · exact hw
    obtain ⟨w', r, h4, h5, h6⟩ := ih _ hk
    refine ⟨w', r, .make hw.waits hm hh h4, ?_, h6⟩
    rw [afterMake_base, next_make] at h5
    exact h5

namespace Act.AtMost
variable {α β : Type}

theorem andThen {n m : ℕ} {a : Act P α} (ha : a.AtMost n) {f : Out α → Act P β} (hf : ∀ r, (f r).AtMost m) : (a.andThen f).AtMost (n + m) := by
  induction ha with
  | @ret n x =>
    have up : ∀ {k : ℕ} {b : Act P β}, b.AtMost k → ∀ n, b.AtMost (n + k) := by
      intro k b hb n
      induction hb with
      | ret => exact .ret
      | read _ ih => exact .read ih
      | num _ ih => exact .num ih
      | make _ ih => exact .make ih
    exact up (hf x) n
  | read _ ih => exact .read ih
  | @num n op k _ ih => rw [show n + 1 + m = n + m + 1 by omega]; exact .num ih
  | make _ ih => exact .make ih

theorem bind {n m : ℕ} {a : Act P α} (ha : a.AtMost n) {f : α → Act P β} (hf : ∀ x, (f x).AtMost m) : (a >>= f).AtMost (n + m) :=
  ha.andThen fun r => by cases r <;> [exact hf _; exact .ret; exact .ret; exact .ret; exact .ret]

theorem bind0 {a : Act P α} (ha : a.AtMost 0) {f : α → Act P β} (hf : ∀ x, (f x).AtMost 0) : (a >>= f).AtMost 0 := bind ha hf

theorem pure {n : ℕ} {x : α} : (Pure.pure x : Act P α).AtMost n := .ret
theorem look {f : MState P → Out α} : (Act.look f).AtMost 0 := .read fun _ => .ret
theorem deref {m : Ptr} : (Act.deref m : Act P _).AtMost 0 := look
theorem call {op : NumOp} : (Act.call op : Act P _).AtMost 1 := .num fun _ => .ret
theorem makeModule {ring : P} {l : List Ptr} : (Act.makeModule ring l).AtMost 0 := .make fun _ => .ret
theorem ite {n : ℕ} {c : Prop} [Decidable c] {a b : Act P α} (ha : a.AtMost n) (hb : b.AtMost n) : (if c then a else b).AtMost n := by split <;> assumption

variable {R : Type} [CommRing R] [DecidableEq R] [CRing P R]

theorem ofCoefficients [Build] {m : Ptr} {l : List R} : (HElt.ofCoefficients m l : Act P _).AtMost 0 := bind0 deref fun _ => bind0 .ret fun _ => pure
theorem zero {m : Ptr} : (HElt.zero m : Act P (HElt R)).AtMost 0 := bind0 deref fun _ => pure
theorem gen' {m : Ptr} {j : ℕ} : (HElt.gen m j : Act P (HElt R)).AtMost 0 := bind0 deref fun _ => ite pure .ret
theorem promote [Build] {x : HElt R} {m : Ptr} : (x.promote m : Act P _).AtMost 0 :=
  bind0 look fun _ => ite pure (ite zero (bind0 deref fun _ => bind0 deref fun _ => bind0 look fun _ => ofCoefficients))
theorem spanSame {m n : Ptr} : (spanSame m n : Act P _).AtMost 0 :=
  bind0 deref fun _ => bind0 deref fun _ => bind0 look fun _ => ite pure (bind0 look fun _ => ite pure (bind0 look fun _ => makeModule))
theorem span {m n : Ptr} : (span m n : Act P _).AtMost 0 :=
  bind0 deref fun _ => bind0 deref fun _ => ite pure (ite pure (ite (bind0 .ret fun _ => bind0 makeModule fun _ => bind0 makeModule fun _ => spanSame) spanSame))
theorem inplace {x : HElt R} {a : Act P α} (ha : a.AtMost 0) {f : α → Act P (Step (HElt R))} (hf : ∀ z, (f z).AtMost 0) : (x.inplace a f).AtMost 0 :=
  ha.andThen (m := 0) fun r => by cases r <;> [exact hf _; exact .ret; exact .ret; exact .ret; exact .ret]
theorem addAssign [Build] {x y : HElt R} : (x.addAssign y : Act P _).AtMost 0 :=
  bind0 look fun _ => ite pure (inplace (bind0 span fun _ => bind0 promote fun _ => bind0 promote fun _ => pure) fun _ => pure)

theorem assign {s : HVars R} {d : ℕ} {a : Act P (HElt R)} (ha : a.AtMost 0) : (s.assign d a).AtMost 0 :=
  ha.andThen (m := 0) fun r => by cases r <;> exact .ret

theorem assignNum {s : HVars R} {d : ℕ} {a : Act P Ptr} {n : ℕ} (ha : a.AtMost n) : (s.assignNum d a).AtMost n :=
  ha.andThen (m := 0) fun r => by cases r <;> exact .ret

end Act.AtMost

end ExactReal.Heap
