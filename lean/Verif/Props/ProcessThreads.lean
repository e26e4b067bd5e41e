import Verif.Spec.ProcessThreads
import Verif.Props.ProgramOrderHeap

/-!
# C85, C86: several threads in one process

Every thread of a process computes what its program says, whatever the scheduler does.
-/

namespace ExactReal.Props
open Heap State MState

variable {P : Type} [DecidableEq P] {R : Type} [CommRing R] [DecidableEq R] [CRing P R] [LawfulCRing P] {gen : Generators}

/-! ### one step -/

section
omit [DecidableEq P]
theorem held_mono {w w' : World P} (hs : w'.st = w.st) (hn : w.nums ⊆ w'.nums) (hm : w.mods ⊆ w'.mods) {p : Ptr} (h : Held w p) : Held w' p := by
  rcases h with h | ⟨m, h1, o, h2, h3⟩
  · exact .inl (hn h)
  · exact .inr ⟨m, hm h1, o, by rw [hs]; exact h2, h3⟩
end

theorem _root_.ExactReal.Heap.Good.stay {w : World P} (h : Good gen w) : Waits gen w w := ⟨.refl, rfl, rfl, h.nums, h.mods⟩

theorem isNum_of_held {w : World P} {p : Ptr} (h : Held w p) : IsNum w p (w.st.base.rn p) := ⟨h, rfl⟩

theorem follows_num {w : World P} (h : Good gen w) {op : NumOp} {alloc : Alloc} (ha : alloc.Valid) (hp : ∀ p ∈ op.args, Held w p)
    (hb : (op.run gen alloc w.st.base).1.next ≤ 2 ^ 64) : Follows gen w (w.afterNum (op.run gen alloc w.st.base)) := by
  have he : Exec gen w (Act.call op : Act P Ptr) (w.afterNum (op.run gen alloc w.st.base)) (op.run gen alloc w.st.base).2 := .num h.stay ha hp .ret
  have hb' : (w.afterNum (op.run gen alloc w.st.base)).st.base.next ≤ 2 ^ 64 := by rw [afterNum_base]; exact hb
  cases op with
  | rational q => exact (sim_rational h q _ _ he hb').1
  | random seed => exact (sim_random h seed _ _ he hb').1
  | randomIn l u seed => exact (sim_randomIn h l u seed _ _ he hb').1
  | mul p q => exact (sim_mul h (isNum_of_held (hp p (by simp [NumOp.args]))) (isNum_of_held (hp q (by simp [NumOp.args]))) _ _ he hb').1

theorem follows_div {w : World P} (h : Good gen w) {p q : Ptr} {alloc : Alloc} (ha : alloc.Valid) (hp : Held w p ∧ Held w q)
    (hb : (w.st.base.div alloc p q).1.next ≤ 2 ^ 64) : Follows gen w (w.afterDiv (w.st.base.div alloc p q)) :=
  (sim_quotient h (isNum_of_held hp.1) (isNum_of_held hp.2) _ _ (.div h.stay ha hp .ret) (by rw [afterDiv_base]; exact hb)).1

theorem follows_make {w : World P} (h : Good gen w) {ring : P} {basis : List Ptr} {malloc : MAlloc P} (hm : malloc.Valid) (hp : ∀ p ∈ basis, Held w p) :
    Follows gen w (w.afterMake (w.st.make malloc ring basis)) :=
  (sim_make h ring ⟨hp, rfl⟩ _ _ (.make h.stay hm hp .ret) (by rw [afterMake_base, next_make]; exact h.bound)).1

theorem moves_next {α : Type} {w w' : World P} {a a' : Act P α} (h : a.Moves gen w w' a') : w.st.base.next ≤ w'.st.base.next := by
  cases h with
  | num => rw [afterNum_base]; exact next_run _ _ _
  | div => rw [afterDiv_base]; exact next_div _ _ _ _
  | make => rw [afterMake_base, next_make]
  | _ => exact le_rfl

/-- A step leads to a good world. -/
theorem moves_follows {α : Type} {w w' : World P} {a a' : Act P α} (g : Good gen w) (h : a.Moves gen w w' a') (hb : w'.st.base.next ≤ 2 ^ 64) : Follows gen w w' := by
  cases h with
  | num ha hp => rw [afterNum_base] at hb; exact follows_num g ha hp hb
  | div ha hp => rw [afterDiv_base] at hb; exact follows_div g ha hp hb
  | make hm hp => exact follows_make g hm hp
  | _ => exact g.follows

/-- The same step, with more references. -/
theorem moves_mono {α : Type} {w w' : World P} {a a' : Act P α} (h : a.Moves gen w w' a') {v : World P} (hs : v.st = w.st) (hn : w.nums ⊆ v.nums) (hm : w.mods ⊆ v.mods) :
    w'.st = w.st ∨ ∃ (v' : World P) (b b' : Act P α), b.Moves gen v v' b' ∧ v'.st = w'.st := by
  cases h with
  | @num op k alloc ha hp =>
    refine .inr ⟨_, .num op k, _, .num (alloc := alloc) ha fun p h => held_mono hs hn hm (hp p h), ?_⟩
    rw [afterNum_base, afterNum_base, hs]
  | @div p q k alloc ha hp =>
    refine .inr ⟨_, .div p q k, _, .div (alloc := alloc) ha ⟨held_mono hs hn hm hp.1, held_mono hs hn hm hp.2⟩, ?_⟩
    rw [afterDiv_base, afterDiv_base, hs]
  | @make ring basis k malloc hv hp =>
    refine .inr ⟨_, .make ring basis k, _, .make (malloc := malloc) hv fun p h => held_mono hs hn hm (hp p h), ?_⟩
    rw [afterMake_base, afterMake_base, hs]
  | _ => exact .inl rfl

/-- Other threads do not lose anything. -/
theorem moves_waits {α : Type} {w w' : World P} {a a' : Act P α} (g : Good gen w) (h : a.Moves gen w w' a') (hb : w'.st.base.next ≤ 2 ^ 64)
    {v : World P} (gv : Good gen v) (hs : v.st = w.st) : Waits gen v ⟨w'.st, v.nums, v.mods⟩ := by
  let u : World P := ⟨w.st, w.nums ∪ v.nums, w.mods ∪ v.mods⟩
  have gu : Good gen u := ⟨g.reach, g.bound, fun p hp => hp.elim (g.nums p) fun h => by have := gv.nums p h; rwa [hs] at this,
    fun p hp => hp.elim (g.mods p) fun h => by have := gv.mods p h; rwa [hs] at this⟩
  rcases moves_mono h (v := u) rfl Set.subset_union_left Set.subset_union_left with e | ⟨u', b, b', hm, e⟩
  · rw [e, ← hs]; exact ⟨.refl, rfl, rfl, gv.nums, gv.mods⟩
  · have f := moves_follows gu hm (by rw [e]; exact hb)
    refine ⟨?_, rfl, rfl, fun p hp => ?_, fun p hp => ?_⟩
    · rw [hs, ← e]; exact f.evolves
    · show p ∈ w'.st.base.roots
      rw [← e]; exact f.good.nums p (f.nums (.inr hp))
    · show p ∈ w'.st.mroots
      rw [← e]; exact f.good.mods p (f.mods (.inr hp))

/-- The rest of an execution. -/
theorem exec_moves {α : Type} {w w₁ w₂ w' : World P} {a a' : Act P α} {x : Out α} (hw : Waits gen w w₁) (h : a.Moves gen w₁ w₂ a') (he : Exec gen w₂ a' w' x) :
    Exec gen w a w' x := by
  cases h with
  | read => exact .read hw he
  | num ha hp => exact .num hw ha hp he
  | div ha hp => exact .div hw ha hp he
  | make hm hp => exact .make hw hm hp he
  | numUndefined hp => exact .numUndefined hw hp he
  | divUndefined hp => exact .divUndefined hw hp he
  | makeUndefined hp => exact .makeUndefined hw hp he

/-! ### one call -/

/-- What a call does. -/
theorem call_ok [Build] [LawfulScalar P] [LawfulFail P] {w w' : World P} (h : Good gen w) {s s' : HVars R} {S : Vars P R} (hs : IsVars w s S)
    (hw : (∀ i, (S.num i).WF) ∧ ∀ i, (S.elt i).WF) (hg : Vars.NumsIn (regularNums w.st.base) S) {c : HCmd P R} (hp : c.Pre w.st s) {o : Out Bool} (he : Exec gen w (c.exec s) w' (.ok (o, s')))
    (ho : (∃ b, o = .ok b) ∨ ∃ e, o = .throws e) (hb : w'.st.base.next ≤ 2 ^ 64) :
    Follows gen w w' ∧ (∃ S' : Vars P R, IsVars w' s' S' ∧ ((∀ i, (S'.num i).WF) ∧ ∀ i, (S'.elt i).WF) ∧ Vars.NumsIn (regularNums w'.st.base) S') ∧ ∀ val : AtomDesc → ℝ,
      (o = .ok true ∧ c.Means gen val (s.value val w.st) (s'.value val w'.st)) ∨ (o = .ok false ∧ s'.value val w'.st = s.value val w.st) ∨
        ∃ e, o = .throws e ∧ c.Failed (s.value val w.st) (s'.value val w'.st) := by
  obtain ⟨f, o', s'', hr, hx⟩ := exec_sim h hs c hp he hb
  cases hr
  refine ⟨f, ?_⟩
  have hg' := numsIn_follows h f hs hg
  rcases hx with ⟨C, hp, hC, h4, h5, h6, -, -, h9⟩ | ⟨d, lo, up, seed, e, rfl, rfl, rfl, -⟩
  · have key : ∀ val, StepOk (idVal val w'.st.base) C (s.value val w.st) o (C.exec S).2 := fun val =>
      exec_ok ((stands_iff f.good val (hs.follows h f)).2 ⟨hw, IsVars.value_follows h f val hs⟩) C hp (by rw [← hC]) ho
    refine ⟨⟨(C.exec S).2, h4, ?_, ?_⟩, fun val => ?_⟩
    · rcases key fun _ => 0 with ⟨-, σ', -, hs⟩ | ⟨-, hs⟩ | ⟨e, -, σ', -, hs⟩
      all_goals exact ((stands_iff f.good _ h4).1 hs).1
    · refine exec_basisIn (regularNums_closed _) hw.1 hw.2 hg' C (fun d q _ i hi => absurd rfl hi) (fun d i e j hj => ?_) hp rfl
      have : j = i := by
        by_contra hne
        exact hj (by simp [RN.mult, Finsupp.single_apply, Ne.symm hne])
      rw [this]
      exact h9 d i e
    · rcases key val with ⟨rfl, σ', hm, hs⟩ | ⟨rfl, hs⟩ | ⟨e, rfl, σ', hf, hs⟩
      · rw [((stands_iff f.good _ h4).1 hs).2]
        exact .inl ⟨rfl, h5 _ _ _ hm⟩
      · exact .inr (.inl ⟨rfl, ((stands_iff f.good _ h4).1 hs).2⟩)
      · rw [((stands_iff f.good _ h4).1 hs).2]
        exact .inr (.inr ⟨e, rfl, h6 _ _ hf⟩)
  · refine ⟨⟨S, hs.follows h f, hw, hg'⟩, fun val => .inr (.inr ⟨e, rfl, ?_⟩)⟩
    rw [IsVars.value_follows h f val hs]
    rfl

/-! ### the state of a process -/

/-- A thread that has begun with `q` has still to do `a`. -/
structure Begun [Build] (gen : Generators) (l : List (HCmd P R × Out Bool)) (alone : Prop) (s : HVars R) (S : Vars P R) (now : World P) {α : Type} (q a : Act P α) (st : MState P) : Prop where
  good : Good gen (s.world st)
  vars : IsVars (s.world st) s S
  regular : Vars.NumsIn (regularNums st.base) S
  run : alone → HRun gen l s st
  follows : Follows gen (s.world st) now
  rest : ∃ w, Waits gen w now ∧ ∀ w' x, Exec gen w a w' x → Exec gen (s.world st) q w' x

/-- What is known about a thread. -/
structure Fine [Build] (gen : Generators) (l : List (HCmd P R × Out Bool)) (alone : Prop) (st : MState P) (x : Worker P R) (S : Vars P R) : Prop where
  good : Good gen ⟨st, x.nums, x.mods⟩
  vars : IsVars ⟨st, x.nums, x.mods⟩ x.vars S
  wf : (∀ i, (S.num i).WF) ∧ ∀ i, (S.elt i).WF
  regular : Vars.NumsIn (regularNums st.base) S
  idle : x.doing = .idle → x.nums = x.vars.numSet ∧ x.mods = x.vars.modSet ∧ (alone → HRun gen l x.vars st)
  calling : ∀ c a, x.doing = .calling c a → ∃ st₀, c.Pre st₀ x.vars ∧ Begun gen l alone x.vars S ⟨st, x.nums, x.mods⟩ (c.exec x.vars) a st₀
  asking : ∀ (α : Type) (q a : Act P α), x.doing = .asking q a → (∃ F coeff fuel, IsQuestion gen F coeff fuel x.vars q) ∧
    ∃ st₀, Begun gen l alone x.vars S ⟨st, x.nums, x.mods⟩ q a st₀

theorem Begun.wait [Build] {l : List (HCmd P R × Out Bool)} {alone : Prop} {s : HVars R} {S : Vars P R} {now now' : World P} {α : Type} {q a : Act P α} {st : MState P}
    (h : Begun gen l alone s S now q a st) (g : Good gen now) (hw : Waits gen now now') (hb : now'.st.base.next ≤ 2 ^ 64) : Begun gen l alone s S now' q a st := by
  obtain ⟨w, h1, h2⟩ := h.rest
  exact ⟨h.good, h.vars, h.regular, h.run, h.follows.trans (g.waits hw hb), w, ⟨h1.1.trans hw.1, hw.2.1.trans h1.2.1, hw.2.2.1.trans h1.2.2.1, by rw [← h1.2.1]; exact hw.2.2.2.1,
    by rw [← h1.2.2.1]; exact hw.2.2.2.2⟩, h2⟩

theorem Begun.move [Build] {l : List (HCmd P R × Out Bool)} {alone : Prop} {s : HVars R} {S : Vars P R} {now now' : World P} {α : Type} {q a a' : Act P α} {st : MState P}
    (h : Begun gen l alone s S now q a st) (g : Good gen now) (hm : a.Moves gen now now' a') (hb : now'.st.base.next ≤ 2 ^ 64) : Begun gen l alone s S now' q a' st := by
  obtain ⟨w, h1, h2⟩ := h.rest
  have f := moves_follows g hm hb
  exact ⟨h.good, h.vars, h.regular, h.run, h.follows.trans f, now', f.good.stay, fun w' x he => h2 w' x (exec_moves h1 hm he)⟩

/-- A thread that does nothing while something happens. -/
theorem Fine.wait [Build] {l : List (HCmd P R × Out Bool)} {alone : Prop} {st st' : MState P} {x : Worker P R} {S : Vars P R} (h : Fine gen l alone st x S)
    (hw : Waits gen ⟨st, x.nums, x.mods⟩ ⟨st', x.nums, x.mods⟩) (hb : st'.base.next ≤ 2 ^ 64) :
    Fine gen l alone st' x S ∧ ∀ val : AtomDesc → ℝ, x.vars.value val st' = x.vars.value val st := by
  have f := h.good.waits hw hb
  refine ⟨⟨f.good, h.vars.follows h.good f, h.wf, numsIn_follows h.good f h.vars h.regular, fun hi => ?_, fun c a hc => ?_, fun α q a hc => ?_⟩, fun val => IsVars.value_follows h.good f val h.vars⟩
  · obtain ⟨h1, h2, h3⟩ := h.idle hi
    refine ⟨h1, h2, fun ha => (h3 ha).wait (w := x.vars.world st') ?_⟩
    rw [h1, h2] at hw
    exact hw
  · obtain ⟨st₀, h1, h2⟩ := h.calling c a hc
    exact ⟨st₀, h1, h2.wait h.good hw hb⟩
  · obtain ⟨hq, st₀, h2⟩ := h.asking α q a hc
    exact ⟨hq, st₀, h2.wait h.good hw hb⟩

/-! ### histories -/

omit [LawfulCRing P] in
theorem set_self (p : Proc P R) (t : ℕ) (w : World P) (s : HVars R) (d : Doing P R) : (p.set t w s d).threads t = ⟨s, d, w.nums, w.mods⟩ := by simp [Proc.set]
omit [LawfulCRing P] in
theorem set_other (p : Proc P R) {t u : ℕ} (hu : u ≠ t) (w : World P) (s : HVars R) (d : Doing P R) : (p.set t w s d).threads u = p.threads u := by
  simp [Proc.set, hu]

/-- A thread that does something while the others wait. -/
theorem fine_set [Build] {l l' : List (Entry P R)} {p : Proc P R} {t : ℕ} {w : World P} {s : HVars R} {d : Doing P R}
    (h : ∀ u, ∃ S, Fine gen (callsOf u l) (Alone u l) p.st (p.threads u) S)
    (hw : ∀ u, u ≠ t → Waits gen (p.world u) ⟨w.st, (p.threads u).nums, (p.threads u).mods⟩) (hb : w.st.base.next ≤ 2 ^ 64)
    (hl : ∀ u, u ≠ t → callsOf u l' = callsOf u l ∧ (Alone u l' → Alone u l)) (ht : ∃ S, Fine gen (callsOf t l') (Alone t l') w.st ⟨s, d, w.nums, w.mods⟩ S) (u : ℕ) :
    ∃ S, Fine gen (callsOf u l') (Alone u l') (p.set t w s d).st ((p.set t w s d).threads u) S := by
  by_cases hu : u = t
  · subst hu; rw [set_self]; exact ht
  · rw [set_other p hu]
    obtain ⟨S, hS⟩ := h u
    obtain ⟨h1, h2⟩ := hl u hu
    rw [h1]
    have := (hS.wait (hw u hu) hb).1
    exact ⟨S, this.good, this.vars, this.wf, this.regular, fun hi => ⟨(this.idle hi).1, (this.idle hi).2.1, fun ha => (this.idle hi).2.2 (h2 ha)⟩,
      fun c a hc => by obtain ⟨st, hp, b⟩ := this.calling c a hc; exact ⟨st, hp, b.good, b.vars, b.regular, fun ha => b.run (h2 ha), b.follows, b.rest⟩,
      fun α q a hc => by obtain ⟨hq, st, b⟩ := this.asking α q a hc; exact ⟨hq, st, b.good, b.vars, b.regular, fun ha => b.run (h2 ha), b.follows, b.rest⟩⟩

theorem value_set [Build] {l : List (Entry P R)} {p : Proc P R} {t : ℕ} {w : World P} {s : HVars R} {d : Doing P R}
    (h : ∀ u, ∃ S, Fine gen (callsOf u l) (Alone u l) p.st (p.threads u) S)
    (hw : ∀ u, u ≠ t → Waits gen (p.world u) ⟨w.st, (p.threads u).nums, (p.threads u).mods⟩) (hb : w.st.base.next ≤ 2 ^ 64) (val : AtomDesc → ℝ) :
    (p.set t w s d).value val = Function.update (p.value val) t (s.value val w.st) := by
  funext u
  by_cases hu : u = t
  · subst hu; simp [Proc.value, Proc.set]
  · obtain ⟨S, hS⟩ := h u
    rw [Function.update_of_ne hu, Proc.value, set_other p hu]
    exact (hS.wait (hw u hu) hb).2 val

/-- The variables of a thread, when it is done with a call. -/
theorem fine_idle [Build] {l : List (HCmd P R × Out Bool)} {alone : Prop} {w : World P} (g : Good gen w) {s : HVars R} {S : Vars P R} (hs : IsVars w s S)
    (hw : (∀ i, (S.num i).WF) ∧ ∀ i, (S.elt i).WF) (hg : Vars.NumsIn (regularNums w.st.base) S) (hr : alone → HRun gen l s w.st) : Fine gen l alone w.st ⟨s, .idle, s.numSet, s.modSet⟩ S :=
  ⟨hs.good g, hs.restrict, hw, hg, fun _ => ⟨rfl, rfl, hr⟩, fun _ _ h => (by cases h), fun _ _ _ h => (by cases h)⟩

/-- The state of a process. -/
theorem prun_inv [Build] [LawfulScalar P] [LawfulFail P] {l : List (Entry P R)} {p : Proc P R} (h : PRun gen l p) (hb : p.st.base.next ≤ 2 ^ 64) :
    (∀ t, ∃ S, Fine gen (callsOf t l) (Alone t l) p.st (p.threads t) S) ∧ ∀ val : AtomDesc → ℝ, PComputes gen val l (p.value val) := by
  induction h with
  | @start st w s h hs =>
    have r := HRun.start h hs
    obtain ⟨g, S, h1, h2, h3, -⟩ := run_inv r hb
    refine ⟨fun t => ⟨S, fine_idle (w := s.world w.st) g h1 h2 (run_regular r hb S h1) fun _ => r⟩, fun val => ?_⟩
    have : s.value val w.st = Reals.init := by
      have := h3 val
      generalize s.value val w.st = σ at this
      cases this
      rfl
    rw [show (Proc.value val ⟨w.st, fun _ => ⟨s, .idle, s.numSet, s.modSet⟩⟩ : ℕ → Reals) = fun _ => Reals.init from funext fun _ => this]
    exact .init
  | @other l p st h he hn hm ih =>
    obtain ⟨h1, h2⟩ := ih ((next_of_mevolves he).trans hb)
    have key := fun t => (h1 t).imp fun S hS => hS.wait ⟨he, rfl, rfl, hn t, hm t⟩ hb
    refine ⟨fun t => (key t).imp fun S hS => hS.1, fun val => ?_⟩
    rw [show Proc.value val ⟨st, p.threads⟩ = p.value val from funext fun t => (key t).elim fun S hS => hS.2 val]
    exact h2 val
  | @call l p t c h hd hp ih =>
    obtain ⟨h1, h2⟩ := ih hb
    have hw : ∀ u, u ≠ t → Waits gen (p.world u) ⟨(p.world t).st, (p.threads u).nums, (p.threads u).mods⟩ := fun u _ => (h1 u).elim fun S hS => hS.good.stay
    refine ⟨fine_set h1 hw hb (fun _ _ => ⟨rfl, id⟩) ?_, fun val => ?_⟩
    · obtain ⟨S, hS⟩ := h1 t
      obtain ⟨e1, e2, e3⟩ := hS.idle hd
      have e : p.world t = (p.threads t).vars.world p.st := by rw [Proc.world, e1, e2]; rfl
      refine ⟨S, hS.good, hS.vars, hS.wf, hS.regular, fun h => (by cases h), fun c' a' h => ?_, fun _ _ _ h => (by cases h)⟩
      cases h
      refine ⟨p.st, hp, ?_, ?_, hS.regular, e3, ?_, p.world t, hS.good.stay, fun w' x he => by rwa [e] at he⟩
      · rw [← e]; exact hS.good
      · rw [← e]; exact hS.vars
      · rw [← e]; exact hS.good.follows
    · rw [value_set h1 hw hb val, show (p.threads t).vars.value val (p.world t).st = p.value val t from rfl, Function.update_eq_self]
      exact h2 val
  | @move l p t c a a' w h hd hm ih =>
    obtain ⟨h1, h2⟩ := ih ((moves_next hm).trans hb)
    obtain ⟨S, hS⟩ := h1 t
    have hw : ∀ u, u ≠ t → Waits gen (p.world u) ⟨w.st, (p.threads u).nums, (p.threads u).mods⟩ := fun u _ =>
      (h1 u).elim fun T hT => moves_waits hS.good hm hb hT.good rfl
    have f := moves_follows hS.good hm hb
    refine ⟨fine_set h1 hw hb (fun _ _ => ⟨rfl, id⟩) ?_, fun val => ?_⟩
    · obtain ⟨st₀, hp, b⟩ := hS.calling c a hd
      refine ⟨S, f.good, hS.vars.follows hS.good f, hS.wf, numsIn_follows hS.good f hS.vars hS.regular, fun h => (by cases h), fun c' a' h => ?_, fun _ _ _ h => (by cases h)⟩
      cases h
      exact ⟨st₀, hp, b.move hS.good hm hb⟩
    · rw [value_set h1 hw hb val, IsVars.value_follows hS.good f val hS.vars]
      rw [show (p.threads t).vars.value val p.st = p.value val t from rfl, Function.update_eq_self]
      exact h2 val
  | @done l p t c o s h hd ho ih =>
    obtain ⟨h1, h2⟩ := ih hb
    obtain ⟨S, hS⟩ := h1 t
    obtain ⟨st₀, hp, b⟩ := hS.calling c _ hd
    obtain ⟨w, hw, he⟩ := b.rest
    have hx := he _ _ Exec.ret
    have hbw : w.st.base.next ≤ 2 ^ 64 := (waits_next hw).trans hb
    obtain ⟨f, ⟨S', i1, i2, i4⟩, hv⟩ := call_ok b.good b.vars hS.wf b.regular hp hx ho hbw
    have f2 := f.good.waits hw hb
    have i3 := i1.follows f.good f2
    have hw' : ∀ u, u ≠ t → Waits gen (p.world u) ⟨(s.world p.st).st, (p.threads u).nums, (p.threads u).mods⟩ := fun u _ => (h1 u).elim fun S hS => hS.good.stay
    have gs := i3.good f2.good
    refine ⟨fine_set h1 hw' hb (fun u hu => ⟨by simp [callsOf, hu.symm], fun ha d v e => ?_⟩) ?_, fun val => ?_⟩
    · have := ha d v e; simpa using this
    · refine ⟨S', fine_idle (w := s.world p.st) gs i3.restrict i2 (numsIn_follows f.good f2 i1 i4) fun ha => ?_⟩
      rw [show callsOf t (.call t c o :: l) = (c, o) :: callsOf t l by simp [callsOf]]
      have r := (b.run fun d v e => by have := ha d v e; simpa using this).step hp hx ho
      exact r.wait (w := s.world p.st) ⟨hw.1, rfl, rfl, gs.nums, gs.mods⟩
    · have e1 : (p.threads t).vars.value val st₀ = p.value val t := (IsVars.value_follows b.good b.follows val b.vars).symm
      have e2 : s.value val p.st = s.value val w.st := IsVars.value_follows f.good f2 val i1
      rw [Proc.assign, value_set h1 hw' hb val, show (s.world p.st).st = p.st from rfl, e2]
      have hv := hv val
      rw [show ((p.threads t).vars.world st₀).st = st₀ from rfl, e1] at hv
      rcases hv with ⟨rfl, hm⟩ | ⟨rfl, hm⟩ | ⟨e, rfl, hm⟩
      · exact .assigned (h2 val) hm
      · rw [hm, Function.update_eq_self]; exact .skipped (h2 val)
      · exact .failed (h2 val) hm
  | @ask l p t α q h hd hq ih =>
    obtain ⟨h1, h2⟩ := ih hb
    have hw : ∀ u, u ≠ t → Waits gen (p.world u) ⟨(p.world t).st, (p.threads u).nums, (p.threads u).mods⟩ := fun u _ => (h1 u).elim fun S hS => hS.good.stay
    refine ⟨fine_set h1 hw hb (fun _ _ => ⟨rfl, id⟩) ?_, fun val => ?_⟩
    · obtain ⟨S, hS⟩ := h1 t
      obtain ⟨e1, e2, e3⟩ := hS.idle hd
      have e : p.world t = (p.threads t).vars.world p.st := by rw [Proc.world, e1, e2]; rfl
      refine ⟨S, hS.good, hS.vars, hS.wf, hS.regular, fun h => (by cases h), fun _ _ h => (by cases h), fun α' q' a' h => ?_⟩
      cases h
      refine ⟨hq, p.st, ?_, ?_, hS.regular, e3, ?_, p.world t, hS.good.stay, fun w' x he => by rwa [e] at he⟩
      · rw [← e]; exact hS.good
      · rw [← e]; exact hS.vars
      · rw [← e]; exact hS.good.follows
    · rw [value_set h1 hw hb val, show (p.threads t).vars.value val (p.world t).st = p.value val t from rfl, Function.update_eq_self]
      exact h2 val
  | @moveAsk l p t α q a a' w h hd hm ih =>
    obtain ⟨h1, h2⟩ := ih ((moves_next hm).trans hb)
    obtain ⟨S, hS⟩ := h1 t
    have hw : ∀ u, u ≠ t → Waits gen (p.world u) ⟨w.st, (p.threads u).nums, (p.threads u).mods⟩ := fun u _ =>
      (h1 u).elim fun T hT => moves_waits hS.good hm hb hT.good rfl
    have f := moves_follows hS.good hm hb
    refine ⟨fine_set h1 hw hb (fun _ _ => ⟨rfl, id⟩) ?_, fun val => ?_⟩
    · obtain ⟨hq, st₀, b⟩ := hS.asking α q a hd
      refine ⟨S, f.good, hS.vars.follows hS.good f, hS.wf, numsIn_follows hS.good f hS.vars hS.regular, fun h => (by cases h), fun _ _ h => (by cases h), fun α' q' a' h => ?_⟩
      cases h
      exact ⟨hq, st₀, b.move hS.good hm hb⟩
    · rw [value_set h1 hw hb val, IsVars.value_follows hS.good f val hS.vars]
      rw [show (p.threads t).vars.value val p.st = p.value val t from rfl, Function.update_eq_self]
      exact h2 val
  | @answered l p t α q r h hd ih =>
    obtain ⟨h1, h2⟩ := ih hb
    obtain ⟨S, hS⟩ := h1 t
    have hw : ∀ u, u ≠ t → Waits gen (p.world u) ⟨((p.threads t).vars.world p.st).st, (p.threads u).nums, (p.threads u).mods⟩ := fun u _ =>
      (h1 u).elim fun S hS => hS.good.stay
    refine ⟨fine_set h1 hw hb (fun _ _ => ⟨rfl, id⟩) ?_, fun val => ?_⟩
    · obtain ⟨hq, st₀, b⟩ := hS.asking α q _ hd
      have gs := hS.vars.good hS.good
      refine ⟨S, fine_idle (w := (p.threads t).vars.world p.st) gs hS.vars.restrict hS.wf hS.regular fun ha => ?_⟩
      exact (b.run ha).wait (w := (p.threads t).vars.world p.st) ⟨b.follows.evolves, rfl, rfl, gs.nums, gs.mods⟩
    · rw [Proc.assign, value_set h1 hw hb val, show (p.threads t).vars.value val ((p.threads t).vars.world p.st).st = p.value val t from rfl, Function.update_eq_self]
      exact h2 val
  | @number l p t d u e h hd hd' ih =>
    obtain ⟨h1, h2⟩ := ih hb
    obtain ⟨S, hS⟩ := h1 t
    obtain ⟨U, hU⟩ := h1 u
    generalize hs : (p.threads t).vars.setNum d ((p.threads u).vars.num e) = s
    have hw : ∀ v, v ≠ t → Waits gen (p.world v) ⟨(s.world p.st).st, (p.threads v).nums, (p.threads v).mods⟩ := fun v _ =>
      (h1 v).elim fun S hS => hS.good.stay
    let w : World P := ⟨p.st, (p.threads t).nums ∪ (p.threads u).nums, (p.threads t).mods ∪ (p.threads u).mods⟩
    have gw : Good gen w := ⟨hS.good.reach, hb, fun p hp => hp.elim (hS.good.nums p) (hU.good.nums p), fun p hp => hp.elim (hS.good.mods p) (hU.good.mods p)⟩
    have ht : IsVars w (p.threads t).vars S := ⟨fun d => ⟨held_mono (w := p.world t) (w' := w) rfl Set.subset_union_left Set.subset_union_left (hS.vars.num d).held, (hS.vars.num d).rn⟩,
      fun d => ⟨⟨.inl (hS.vars.elt d).mod.held, (hS.vars.elt d).mod.obj⟩, (hS.vars.elt d).coeffs⟩⟩
    have hu : IsNum w ((p.threads u).vars.num e) (U.num e) := ⟨held_mono (w := p.world u) (w' := w) rfl Set.subset_union_right Set.subset_union_right (hU.vars.num e).held, (hU.vars.num e).rn⟩
    have hn := ht.setNum d hu
    rw [hs] at hn
    refine ⟨fine_set h1 hw hb (fun v hv => ⟨rfl, fun ha d' u' e' => ?_⟩) ⟨S.setNum d (U.num e), fine_idle (w := s.world p.st) (hn.good gw) hn.restrict ?_ ?_ fun ha => ?_⟩, fun val => ?_⟩
    · have := ha d' u' e'
      simp only [List.mem_cons, not_or] at this
      exact ⟨this.1.2, this.2.2⟩
    · refine ⟨fun i => ?_, hS.wf.2⟩
      by_cases hi : i = d
      · subst hi; simpa [Vars.setNum] using hU.wf.1 e
      · simpa [Vars.setNum, hi] using hS.wf.1 i
    · refine ⟨fun i => ?_, hS.regular.2⟩
      by_cases hi : i = d
      · subst hi; change _ ∈ regularNums p.st.base; simpa [Vars.setNum] using hU.regular.1 e
      · change _ ∈ regularNums p.st.base; simpa [Vars.setNum, hi] using hS.regular.1 i
    · exact absurd List.mem_cons_self (ha d u e).1
    · rw [Proc.assign, value_set h1 hw hb val]
      have : s.value val (s.world p.st).st = (p.value val t).setNum d ((p.value val u).num e) := by
        subst hs
        simp only [HVars.value, Reals.setNum, Proc.value, HVars.world, HVars.setNum]
        congr 1
        funext i
        by_cases hi : i = d <;> simp [hi]
      rw [this]
      exact .number (h2 val)
  | @element l p t d u e h hd hd' ih =>
    obtain ⟨h1, h2⟩ := ih hb
    obtain ⟨S, hS⟩ := h1 t
    obtain ⟨U, hU⟩ := h1 u
    generalize hs : (p.threads t).vars.setElt d ((p.threads u).vars.elt e) = s
    have hw : ∀ v, v ≠ t → Waits gen (p.world v) ⟨(s.world p.st).st, (p.threads v).nums, (p.threads v).mods⟩ := fun v _ =>
      (h1 v).elim fun S hS => hS.good.stay
    let w : World P := ⟨p.st, (p.threads t).nums ∪ (p.threads u).nums, (p.threads t).mods ∪ (p.threads u).mods⟩
    have gw : Good gen w := ⟨hS.good.reach, hb, fun p hp => hp.elim (hS.good.nums p) (hU.good.nums p), fun p hp => hp.elim (hS.good.mods p) (hU.good.mods p)⟩
    have ht : IsVars w (p.threads t).vars S := ⟨fun d => ⟨held_mono (w := p.world t) (w' := w) rfl Set.subset_union_left Set.subset_union_left (hS.vars.num d).held, (hS.vars.num d).rn⟩,
      fun d => ⟨⟨.inl (hS.vars.elt d).mod.held, (hS.vars.elt d).mod.obj⟩, (hS.vars.elt d).coeffs⟩⟩
    have hu : IsElt w ((p.threads u).vars.elt e) (U.elt e) := ⟨⟨.inr (hU.vars.elt e).mod.held, (hU.vars.elt e).mod.obj⟩, (hU.vars.elt e).coeffs⟩
    have hn := ht.setElt d hu
    rw [hs] at hn
    refine ⟨fine_set h1 hw hb (fun v hv => ⟨rfl, fun ha d' u' e' => ?_⟩) ⟨S.setElt d (U.elt e), fine_idle (w := s.world p.st) (hn.good gw) hn.restrict ?_ ?_ fun ha => ?_⟩, fun val => ?_⟩
    · have := ha d' u' e'
      simp only [List.mem_cons, not_or] at this
      exact ⟨this.1.2, this.2.2⟩
    · refine ⟨hS.wf.1, fun i => ?_⟩
      by_cases hi : i = d
      · subst hi; simpa [Vars.setElt] using hU.wf.2 e
      · simpa [Vars.setElt, hi] using hS.wf.2 i
    · refine ⟨hS.regular.1, fun i => ?_⟩
      by_cases hi : i = d
      · subst hi; change BasisIn (regularNums p.st.base) _; simpa [Vars.setElt] using hU.regular.2 e
      · change BasisIn (regularNums p.st.base) _; simpa [Vars.setElt, hi] using hS.regular.2 i
    · exact absurd List.mem_cons_self (ha d u e).2
    · rw [Proc.assign, value_set h1 hw hb val]
      have : s.value val (s.world p.st).st = (p.value val t).setElt d ((p.value val u).elt e) := by
        subst hs
        simp only [HVars.value, Reals.setElt, Proc.value, HVars.world, HVars.setElt]
        congr 1
        funext i
        by_cases hi : i = d <;> simp [hi]
      rw [this]
      exact .element (h2 val)

/-! ### C85 -/

section
variable [Build] [LawfulScalar P] [LawfulFail P] {l : List (Entry P R)} {p : Proc P R}

/-- **C85.**  Every thread of a process computes what its program says: at any time, and for every schedule, the variables of all threads stand for the real
numbers that the calls that have returned so far, and the copies between threads, say; calls in progress have changed nothing yet. -/
theorem threads_compute (h : PRun gen l p) (hb : p.st.base.next ≤ 2 ^ 64) (val : AtomDesc → ℝ) : PComputes gen val l (p.value val) := (prun_inv h hb).2 val

/-- **C85.**  For a thread that does not use variables of other threads, the process is a process in the sense of C82 and C84 in which the calls of this
thread have been made; so everything that has been proved there holds for this thread. -/
theorem thread_run (h : PRun gen l p) (hb : p.st.base.next ≤ 2 ^ 64) {t : ℕ} (ht : (p.threads t).doing = .idle) (ha : Alone t l) :
    HRun gen (callsOf t l) (p.threads t).vars p.st := by
  obtain ⟨S, hS⟩ := (prun_inv h hb).1 t
  exact (hS.idle ht).2.2 ha

theorem known_of [Build] {l : List (HCmd P R × Out Bool)} {alone : Prop} {s : HVars R} {S : Vars P R} {now : World P} {α : Type} {q a : Act P α} {st : MState P}
    (b : Begun gen l alone s S now q a st) (hw : (∀ i, (S.num i).WF) ∧ ∀ i, (S.elt i).WF) : Known gen s st S := known_of_regular b.good b.vars hw b.regular

/-- **C86.**  The answers that threads get are right, as in C84: the answer to a question is an answer for the values that the variables of the thread have had
since the question was asked, it does not depend on the schedule, signs are exact and everything else is right up to the error bounds of C84.  Missing: the
answers are not exact (C22). -/
theorem threads_answer_partial (h : PRun gen l p) (hb : p.st.base.next ≤ 2 ^ 64) {t : ℕ} {α : Type} {q : Act P α} {r : Out α} (ht : (p.threads t).doing = .asking q (.ret r)) :
    ∃ st, Asked gen st (p.threads t).vars q r ∧ (∀ r', Asked gen st (p.threads t).vars q r' → r' = r) ∧
      (∀ val : AtomDesc → ℝ, (p.threads t).vars.value val st = p.value val t) ∧
      ∀ F coeff fuel, F.Lawful → CoeffLawful P coeff →
        ElementsRight gen F coeff st (p.threads t).vars (p.value (AtomDesc.value gen) t) fuel ∧ ArbRight gen F coeff st (p.threads t).vars (p.value (AtomDesc.value gen) t) fuel ∧
        NumbersRight gen F st (p.threads t).vars (p.value (AtomDesc.value gen) t) fuel ∧ AnswersReturn gen F coeff st (p.threads t).vars (p.value (AtomDesc.value gen) t) := by
  obtain ⟨S, hS⟩ := (prun_inv h hb).1 t
  obtain ⟨⟨F, coeff, fuel, hq⟩, st, b⟩ := hS.asking _ _ _ ht
  obtain ⟨w, h1, h2⟩ := b.rest
  have k := known_of b hS.wf
  have e : ∀ val : AtomDesc → ℝ, (p.threads t).vars.value val st = p.value val t := fun val => (IsVars.value_follows b.good b.follows val b.vars).symm
  have ha : Asked gen st (p.threads t).vars q r := ⟨w, h2 _ _ .ret, (waits_next h1).trans hb⟩
  obtain ⟨o, ho⟩ := question_sim k hq
  refine ⟨st, ha, fun r' h' => (asked_eq ho h').trans (asked_eq ho ha).symm, e, fun F coeff fuel hF hco => ?_⟩
  rw [← e]
  exact ⟨k.elementsRight hF hco fuel, k.arbRight hF hco fuel, k.numbersRight hF fuel, k.answersReturn hF hco⟩

/-- **C85.**  Threads do not get stuck: a thread that is in a call or asks a question can take its next step, or is done.  A call that is done has returned or
thrown, but for the two exceptions of C30 and C66: `truediv` that runs out of fuel, and `one()` in a module with a generator that is zero or negative. -/
theorem threads_progress (h : PRun gen l p) (hb : p.st.base.next ≤ 2 ^ 64) (t : ℕ) :
    (p.threads t).doing = .idle ∨
    (∃ c a w a', (p.threads t).doing = .calling c a ∧ a.Moves gen (p.world t) w a') ∨
    (∃ c o s, (p.threads t).doing = .calling c (.ret (.ok (o, s))) ∧ (((∃ b, o = .ok b) ∨ ∃ e, o = .throws e) ∨
      (∃ d a e fuel, c = .call (.truediv d a e fuel) ∧ o = .pending) ∨
      (∃ d a m q x, c = .call (.one d a) ∧ o = .ub ∧ p.st.live ((p.threads t).vars.elt a).mod = some m ∧ x ∈ m.basis ∧ p.st.base.desc x = .rational q ∧ q ≤ 0))) ∨
    (∃ (α : Type) (q a : Act P α) (w : World P) (a' : Act P α), (p.threads t).doing = .asking q a ∧ a.Moves gen (p.world t) w a') ∨
    ∃ (α : Type) (q : Act P α) (r : Out α), (p.threads t).doing = .asking q (.ret r) := by
  obtain ⟨alloc, ha⟩ := exists_alloc
  obtain ⟨malloc, hm⟩ := exists_malloc (P := P)
  have move : ∀ {α : Type} (a : Act P α), (∃ x, a = .ret x) ∨ ∃ w a', a.Moves gen (p.world t) w a' := by
    intro α a
    cases a with
    | ret x => exact .inl ⟨x, rfl⟩
    | read k => exact .inr ⟨_, _, .read⟩
    | num op k =>
      by_cases hh : ∀ x ∈ op.args, Held (p.world t) x
      · exact .inr ⟨_, _, .num ha hh⟩
      · exact .inr ⟨_, _, .numUndefined hh⟩
    | div x y k =>
      by_cases hh : Held (p.world t) x ∧ Held (p.world t) y
      · exact .inr ⟨_, _, .div ha hh⟩
      · exact .inr ⟨_, _, .divUndefined hh⟩
    | make ring basis k =>
      by_cases hh : ∀ x ∈ basis, Held (p.world t) x
      · exact .inr ⟨_, _, .make hm hh⟩
      · exact .inr ⟨_, _, .makeUndefined hh⟩
  obtain ⟨S, hS⟩ := (prun_inv h hb).1 t
  cases hd : (p.threads t).doing with
  | idle => exact .inl rfl
  | calling c a =>
    rcases move a with ⟨x, rfl⟩ | ⟨w, a', hw⟩
    · obtain ⟨st, hp, b⟩ := hS.calling c _ hd
      obtain ⟨w, h1, h2⟩ := b.rest
      obtain ⟨o, s', rfl, ho⟩ := call_progress b.good b.vars hS.wf hp (h2 _ _ .ret) ((waits_next h1).trans hb)
      refine .inr (.inr (.inl ⟨c, o, s', rfl, ?_⟩))
      rcases ho with ho | ho | ⟨d, a, m, q, x, h3, h4, h5, h6, h7, h8⟩
      · exact .inl ho
      · exact .inr (.inl ho)
      · have hx : Held ((p.threads t).vars.world st) x := .inr ⟨_, ⟨a, rfl⟩, m, h5, h6⟩
        refine .inr (.inr ⟨d, a, m, q, x, h3, h4, b.follows.module b.good ⟨a, rfl⟩ h5, h6, ?_, h8⟩)
        rw [← h7]
        exact (desc_later b.good.inv.base b.follows.good.inv.base b.follows.later.base (hx.live b.good) ((hx.follows b.good b.follows).live b.follows.good)).2
    · exact .inr (.inl ⟨c, a, w, a', rfl, hw⟩)
  | asking q a =>
    rcases move a with ⟨x, rfl⟩ | ⟨w, a', hw⟩
    · exact .inr (.inr (.inr (.inr ⟨_, q, x, rfl⟩)))
    · exact .inr (.inr (.inr (.inl ⟨_, q, a, w, a', rfl, hw⟩)))

/-- A thread that is scheduled alone comes to the end of what it is doing. -/
theorem moves_end {α : Type} (a : Act P α) : ∀ w : World P, ∃ w' r, Relation.ReflTransGen (fun x y : World P × Act P α => x.2.Moves gen x.1 y.1 y.2) (w, a) (w', .ret r) ∧
    ∀ n, a.AtMost n → w'.st.base.next ≤ w.st.base.next + 2 * n := by
  obtain ⟨alloc, ha⟩ := exists_alloc
  obtain ⟨malloc, hm⟩ := exists_malloc (P := P)
  induction a with
  | ret x => exact fun w => ⟨w, x, .refl, fun n _ => Nat.le_add_right _ _⟩
  | read k ih =>
    intro w
    obtain ⟨w', r, h1, h2⟩ := ih w.st w
    exact ⟨w', r, .head (by exact .read) h1, fun n hn => by cases hn with | read hn => exact h2 n (hn _)⟩
  | num op k ih =>
    intro w
    by_cases hh : ∀ x ∈ op.args, Held w x
    · obtain ⟨w', r, h1, h2⟩ := ih (op.run gen alloc w.st.base).2 (w.afterNum (op.run gen alloc w.st.base))
      refine ⟨w', r, .head (by exact .num ha hh) h1, fun n hn => ?_⟩
      cases hn with
      | @num n _ _ hn =>
        have h3 := h2 n (hn _)
        rw [afterNum_base] at h3
        have h3 : w'.st.base.next ≤ (op.run gen alloc w.st.base).1.next + 2 * n := h3
        have h4 := (hands_run gen alloc w.st.base op).1
        omega
    · obtain ⟨w', r, h1, h2⟩ := ih .ub w
      refine ⟨w', r, .head (by exact .numUndefined hh) h1, fun n hn => ?_⟩
      cases hn with
      | @num n _ _ hn =>
        have h3 := h2 n (hn _)
        omega
  | div x y k ih =>
    intro w
    by_cases hh : Held w x ∧ Held w y
    · obtain ⟨w', r, h1, -⟩ := ih (w.st.base.div alloc x y).2 (w.afterDiv (w.st.base.div alloc x y))
      exact ⟨w', r, .head (by exact .div ha hh) h1, fun n hn => by cases hn⟩
    · obtain ⟨w', r, h1, -⟩ := ih .ub w
      exact ⟨w', r, .head (by exact .divUndefined hh) h1, fun n hn => by cases hn⟩
  | make ring basis k ih =>
    intro w
    by_cases hh : ∀ x ∈ basis, Held w x
    · obtain ⟨w', r, h1, h2⟩ := ih (w.st.make malloc ring basis).2 (w.afterMake (w.st.make malloc ring basis))
      refine ⟨w', r, .head (by exact .make hm hh) h1, fun n hn => ?_⟩
      cases hn with
      | make hn =>
        have h3 := h2 n (hn _)
        rwa [afterMake_base, next_make] at h3
    · obtain ⟨w', r, h1, h2⟩ := ih .ub w
      exact ⟨w', r, .head (by exact .makeUndefined hh) h1, fun n hn => by cases hn with | make hn => exact h2 n (hn _)⟩

omit [LawfulScalar P] [LawfulFail P] in
/-- **C85.**  No thread waits for another one: wherever the other threads have been stopped, a thread that is scheduled alone comes to the end of its call after
finitely many steps, and the other threads are left as they are. -/
theorem threads_finish (h : PRun gen l p) {t : ℕ} {c : HCmd P R} {a : Act P (Out Bool × HVars R)} (hd : (p.threads t).doing = .calling c a) :
    ∃ p' r, PRun gen l p' ∧ (p'.threads t).doing = .calling c (.ret r) ∧ (p'.threads t).vars = (p.threads t).vars ∧ (∀ u, u ≠ t → p'.threads u = p.threads u) ∧
      ∀ n, a.AtMost n → p'.st.base.next ≤ p.st.base.next + 2 * n := by
  obtain ⟨w, r, h1, h2⟩ := moves_end (gen := gen) a (p.world t)
  suffices ∃ p', PRun gen l p' ∧ (p'.threads t).doing = .calling c (.ret r) ∧ (p'.threads t).vars = (p.threads t).vars ∧ (∀ u, u ≠ t → p'.threads u = p.threads u) ∧
      p'.world t = w by
    obtain ⟨p', h3, h4, h5, h6, rfl⟩ := this
    exact ⟨p', r, h3, h4, h5, h6, h2⟩
  suffices ∀ y : World P × Act P (Out Bool × HVars R), Relation.ReflTransGen (fun x y : World P × Act P _ => x.2.Moves gen x.1 y.1 y.2) (p.world t, a) y →
      ∃ p', PRun gen l p' ∧ (p'.threads t).doing = .calling c y.2 ∧ (p'.threads t).vars = (p.threads t).vars ∧ (∀ u, u ≠ t → p'.threads u = p.threads u) ∧
      p'.world t = y.1 from this _ h1
  intro y hy
  induction hy with
  | refl => exact ⟨p, h, hd, rfl, fun _ _ => rfl, rfl⟩
  | @tail y z _ hz ih =>
    obtain ⟨p', h3, h4, h5, h6, h7⟩ := ih
    rw [← h7] at hz
    refine ⟨_, h3.move t h4 hz, by simp [Proc.set], by simp [Proc.set, h5], fun u hu => ?_, by simp [Proc.set, Proc.world]⟩
    rw [← h6 u hu]
    simp [Proc.set, hu]

omit [LawfulScalar P] [LawfulFail P] in
/-- **C85**, **C86.**  The same for questions. -/
theorem threads_finish_asking (h : PRun gen l p) {t : ℕ} {α : Type} {q a : Act P α} (hd : (p.threads t).doing = .asking q a) :
    ∃ p' r, PRun gen l p' ∧ (p'.threads t).doing = .asking q (.ret r) ∧ (p'.threads t).vars = (p.threads t).vars ∧ (∀ u, u ≠ t → p'.threads u = p.threads u) ∧
      ∀ n, a.AtMost n → p'.st.base.next ≤ p.st.base.next + 2 * n := by
  obtain ⟨w, r, h1, h2⟩ := moves_end (gen := gen) a (p.world t)
  suffices ∃ p', PRun gen l p' ∧ (p'.threads t).doing = .asking q (.ret r) ∧ (p'.threads t).vars = (p.threads t).vars ∧ (∀ u, u ≠ t → p'.threads u = p.threads u) ∧
      p'.world t = w by
    obtain ⟨p', h3, h4, h5, h6, rfl⟩ := this
    exact ⟨p', r, h3, h4, h5, h6, h2⟩
  suffices ∀ y : World P × Act P α, Relation.ReflTransGen (fun x y : World P × Act P _ => x.2.Moves gen x.1 y.1 y.2) (p.world t, a) y →
      ∃ p', PRun gen l p' ∧ (p'.threads t).doing = .asking q y.2 ∧ (p'.threads t).vars = (p.threads t).vars ∧ (∀ u, u ≠ t → p'.threads u = p.threads u) ∧
      p'.world t = y.1 from this _ h1
  intro y hy
  induction hy with
  | refl => exact ⟨p, h, hd, rfl, fun _ _ => rfl, rfl⟩
  | @tail y z _ hz ih =>
    obtain ⟨p', h3, h4, h5, h6, h7⟩ := ih
    rw [← h7] at hz
    refine ⟨_, h3.moveAsk t h4 hz, by simp [Proc.set], by simp [Proc.set, h5], fun u hu => ?_, by simp [Proc.set, Proc.world]⟩
    rw [← h6 u hu]
    simp [Proc.set, hu]

end

/-! ### an example -/

/-- A thread draws a random number. -/
theorem random_moves [Build] {l : List (Entry P R)} {p : Proc P R} (h : PRun gen l p) {t d : ℕ} {seed : UInt32}
    (hd : (p.threads t).doing = .calling (.random d seed) ((HCmd.random d seed).exec (p.threads t).vars)) :
    ∃ p' s', PRun gen l p' ∧ (p'.threads t).doing = .calling (.random d seed) (.ret (.ok (.ok true, s'))) ∧ (∀ u, u ≠ t → p'.threads u = p.threads u) ∧
      p'.st.base.next ≤ p.st.base.next + 2 := by
  obtain ⟨alloc, ha⟩ := exists_alloc
  have hm := h.move t hd (Act.Moves.num (gen := gen) (op := .random seed) ha (by simp [NumOp.args]))
  refine ⟨_, _, hm, by simp only [Proc.set, Function.update_self]; rfl, fun u hu => by simp [Proc.set, hu], ?_⟩
  show ((p.world t).afterNum _).st.base.next ≤ _
  rw [afterNum_base]
  exact (hands_run gen alloc p.st.base (.random seed)).1

attribute [local instance] sampleBuild in
/-- Two threads are in the middle of a call at the same time; the one that has called last returns first.  Then one of them copies the number of the other one,
and asks whether it is larger than its own. -/
example : ∃ (p : Proc IntegerRing ℤ) (r : Out Bool), PRun gen [.number 0 1 1 0, .call 0 (.random 0 5) (.ok true), .call 1 (.random 0 7) (.ok true)] p ∧ p.st.base.next ≤ 2 ^ 64 ∧
    (p.threads 0).doing = .asking (Num.lt gen 9 ((p.threads 0).vars.num 0) ((p.threads 0).vars.num 1)) (.ret r) := by
  obtain ⟨alloc, ha⟩ := exists_alloc
  obtain ⟨malloc, hm⟩ := exists_malloc (P := IntegerRing)
  have ns : (HVars.start : Act IntegerRing (HVars ℤ)).AtMost 1 := .bind .call (m := 0) fun _ => .bind0 .makeModule fun _ => .pure
  obtain ⟨w, r, h1, h2, -⟩ := can_run (gen := gen) ha hm ns (w := ⟨minit IntegerRing, ∅, ∅⟩) ⟨by simp, by simp⟩
  have h2 : w.st.base.next ≤ 2147483659 + 2 * 1 := h2
  have g0 : Good gen (⟨minit IntegerRing, ∅, ∅⟩ : World IntegerRing) := ⟨.init, by show 2147483659 ≤ 2 ^ 64; norm_num, by simp, by simp⟩
  obtain ⟨f, d⟩ := sim_start (R := ℤ) g0 w r h1 (by omega)
  cases r with
  | ok s =>
    have r0 := PRun.start (R := ℤ) .init h1
    have r1 := r0.call 0 (c := .random 0 5) rfl trivial
    have r2 := r1.call 1 (c := .random 0 7) (by simp [Proc.set]) trivial
    obtain ⟨p3, s3, r3, d3, e3, n3⟩ := random_moves r2 (t := 0) (d := 0) (seed := 5) (by simp [Proc.set])
    obtain ⟨p4, s4, r4, d4, e4, n4⟩ := random_moves r3 (t := 1) (d := 0) (seed := 7) (by rw [e3 1 (by decide)]; simp [Proc.set])
    have r5 := r4.done 1 d4 (.inl ⟨_, rfl⟩)
    have r6 := r5.done 0 (c := .random 0 5) (o := .ok true) (s := s3) (by simp [Proc.assign, Proc.set, e4, d3]) (.inl ⟨_, rfl⟩)
    have r7 := r6.number 0 1 1 0 (by simp [Proc.assign, Proc.set]) (by simp [Proc.assign, Proc.set])
    have r8 := r7.ask 0 (q := Num.lt gen 9 _ _) (by simp [Proc.assign, Proc.set]) ⟨FlintLike.arith, IntegerRing.arb, 9, .numLt 0 1⟩
    obtain ⟨p9, r, r9, d9, v9, -, n9⟩ := threads_finish_asking r8 (t := 0) (a := Num.lt gen 9 _ _) (by simp only [Proc.set, Function.update_self]; rfl)
    refine ⟨p9, r, r9, ?_, ?_⟩
    · have n9 : p9.st.base.next ≤ p4.st.base.next + 2 * 0 := n9 0 .numLt
      have n3 : p3.st.base.next ≤ w.st.base.next + 2 := n3
      omega
    · rw [d9, v9]
      simp [Proc.set]
  | _ => exact d.elim

end ExactReal.Props
