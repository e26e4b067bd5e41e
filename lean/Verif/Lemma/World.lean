import Verif.Spec.ProgramHeap
import Verif.Lemma.ArchiveStream
import Verif.Props.ModuleHeap

/-! # Threads: worlds, simulations -/

namespace ExactReal.Heap
open State MState

variable {P : Type} [DecidableEq P] {gen : Generators}

/-- A world that can occur. -/
structure Good (gen : Generators) (w : World P) : Prop where
  reach : MReach gen w.st
  bound : w.st.base.next ≤ 2 ^ 64
  nums : ∀ p ∈ w.nums, p ∈ w.st.base.roots
  mods : ∀ m ∈ w.mods, m ∈ w.st.mroots

theorem Good.inv {w : World P} (h : Good gen w) : MInv w.st := minv_of_mreach h.reach h.bound

theorem Good.live {w : World P} (h : Good gen w) {m : Ptr} (hm : m ∈ w.mods) : ∃ o, w.st.live m = some o :=
  (Props.module_alive h.reach h.bound).1 m (h.mods m hm)

/-- A world that can follow another one. -/
structure Follows (gen : Generators) (w w' : World P) : Prop where
  good : Good gen w'
  later : MLater w.st w'.st
  nums : w.nums ⊆ w'.nums
  mods : w.mods ⊆ w'.mods
  evolves : MEvolves gen w.st w'.st

theorem _root_.ExactReal.Heap.MEvolves.trans {a b c : MState P} (h : MEvolves gen a b) (h' : MEvolves gen b c) : MEvolves gen a c := by
  induction h' with
  | refl => exact h
  | step _ ha hm he ih => exact .step ih ha hm he
  | load _ ha hm hr hb he ih => exact .load ih ha hm hr hb he
  | read _ ha hm hd ih => exact .read ih ha hm hd

theorem Good.follows {w : World P} (h : Good gen w) : Follows gen w w := ⟨h, MLater.rfl, fun _ h => h, fun _ h => h, .refl⟩
theorem Follows.trans {a b c : World P} (h : Follows gen a b) (h' : Follows gen b c) : Follows gen a c :=
  ⟨h'.good, h.later.trans h'.later, h.nums.trans h'.nums, h.mods.trans h'.mods, h.evolves.trans h'.evolves⟩

theorem Held.root {w : World P} (h : Good gen w) {p : Ptr} (hp : Held w p) : p ∈ w.st.base.roots := by
  rcases hp with hp | ⟨m, hm, o, ho, hp⟩
  · exact h.nums p hp
  · exact h.inv.basis_root ho hp

theorem Held.live {w : World P} (h : Good gen w) {p : Ptr} (hp : Held w p) : (w.st.base.live p).isSome := h.inv.base.roots_live p (hp.root h)

theorem Follows.module {w w' : World P} (h : Good gen w) (hf : Follows gen w w') {m : Ptr} (hm : m ∈ w.mods) {o : MObj P} (ho : w.st.live m = some o) :
    w'.st.live m = some o := by
  obtain ⟨o', ho'⟩ := hf.good.live (hf.mods hm)
  have := hf.later.live m o' ho' (h.inv.bound m o ho)
  rw [ho'] at *
  rw [← this, ho]

theorem Held.follows {w w' : World P} (h : Good gen w) (hf : Follows gen w w') {p : Ptr} (hp : Held w p) : Held w' p := by
  rcases hp with hp | ⟨m, hm, o, ho, hp⟩
  · exact .inl (hf.nums hp)
  · exact .inr ⟨m, hf.mods hm, o, hf.module h hm ho, hp⟩

theorem Held.rn {w w' : World P} (h : Good gen w) (hf : Follows gen w w') {p : Ptr} (hp : Held w p) : w'.st.base.rn p = w.st.base.rn p :=
  (rn_later h.inv.base hf.good.inv.base hf.later.base (hp.live h) ((hp.follows h hf).live hf.good)).1

/-- The number that a pointer stands for. -/
structure IsNum (w : World P) (p : Ptr) (x : RN) : Prop where
  held : Held w p
  rn : w.st.base.rn p = x

/-- The numbers that pointers stand for. -/
structure IsNums (w : World P) (l : List Ptr) (L : List RN) : Prop where
  held : ∀ p ∈ l, Held w p
  rn : l.map w.st.base.rn = L

/-- The terms that pointers and coefficients stand for. -/
structure IsTerms {R : Type} (w : World P) (l : List (Ptr × R)) (L : List (RN × R)) : Prop where
  held : ∀ t ∈ l, Held w t.1
  rn : l.map (fun t => (w.st.base.rn t.1, t.2)) = L

/-- The module that an object stands for. -/
structure IsObj (w : World P) (o : MObj P) (M : Mod P) : Prop where
  ring : o.ring = M.par
  basis : IsNums w o.basis M.basis

/-- The module that a pointer stands for. -/
structure IsMod (w : World P) (m : Ptr) (M : Mod P) : Prop where
  held : m ∈ w.mods
  obj : ∃ o, w.st.live m = some o ∧ o.ring = M.par ∧ o.basis.map w.st.base.rn = M.basis

theorem IsNum.follows {w w' : World P} (h : Good gen w) (hf : Follows gen w w') {p : Ptr} {x : RN} (hp : IsNum w p x) : IsNum w' p x :=
  ⟨hp.held.follows h hf, by rw [hp.held.rn h hf, hp.rn]⟩

theorem IsNums.follows {w w' : World P} (h : Good gen w) (hf : Follows gen w w') {l : List Ptr} {L : List RN} (hp : IsNums w l L) : IsNums w' l L :=
  ⟨fun p hl => (hp.held p hl).follows h hf, by rw [← hp.rn]; exact List.map_congr_left fun p hl => (hp.held p hl).rn h hf⟩

theorem IsTerms.follows {R : Type} {w w' : World P} (h : Good gen w) (hf : Follows gen w w') {l : List (Ptr × R)} {L : List (RN × R)} (hp : IsTerms w l L) :
    IsTerms w' l L :=
  ⟨fun p hl => (hp.held p hl).follows h hf, by rw [← hp.rn]; exact List.map_congr_left fun p hl => by rw [(hp.held p hl).rn h hf]⟩

theorem IsMod.isObj {w : World P} {m : Ptr} {M : Mod P} (hm : IsMod w m M) {o : MObj P} (ho : w.st.live m = some o) : IsObj w o M := by
  obtain ⟨o', h1, h2, h3⟩ := hm.obj
  obtain rfl : o' = o := by rw [h1] at ho; exact Option.some.inj ho
  exact ⟨h2, fun p hp => .inr ⟨m, hm.held, o', h1, hp⟩, h3⟩

theorem IsObj.follows {w w' : World P} (h : Good gen w) (hf : Follows gen w w') {o : MObj P} {M : Mod P} (ho : IsObj w o M) : IsObj w' o M :=
  ⟨ho.ring, ho.basis.follows h hf⟩

theorem IsMod.follows {w w' : World P} (h : Good gen w) (hf : Follows gen w w') {m : Ptr} {M : Mod P} (hm : IsMod w m M) : IsMod w' m M := by
  obtain ⟨o, h1, h2, h3⟩ := hm.obj
  exact ⟨hf.mods hm.held, o, hf.module h hm.held h1, h2, ((hm.isObj h1).basis.follows h hf).rn⟩

theorem IsObj.terms {R : Type} {w : World P} {o : MObj P} {M : Mod P} (ho : IsObj w o M) (cs : List R) : IsTerms w (o.basis.zip cs) (M.basis.zip cs) := by
  refine ⟨fun t ht => ho.basis.held _ (List.of_mem_zip ht).1, ?_⟩
  rw [← ho.basis.rn, List.zip_map_left]
  exact List.map_congr_left fun t _ => rfl

/-! ### simulations -/

/-- Two outcomes agree. -/
def OutRel {α β : Type} (D : α → β → Prop) : Out α → Out β → Prop
  | .ok a, .ok b => D a b
  | .throws e, .throws f => e = f
  | .abort, .abort => True
  | .ub, .ub => True
  | .pending, .pending => True
  | _, _ => False

/-- Whatever happens in the process, the thread computes something that stands for `v`. -/
def Sim (gen : Generators) {α β : Type} (D : World P → α → β → Prop) (w : World P) (a : Act P α) (v : Out β) : Prop :=
  ∀ w' r, Exec gen w a w' r → w'.st.base.next ≤ 2 ^ 64 → Follows gen w w' ∧ OutRel (D w') r v

theorem waits_next {w w' : World P} (h : Waits gen w w') : w.st.base.next ≤ w'.st.base.next := next_of_mevolves h.1

theorem next_run (op : NumOp) (alloc : Alloc) (s : State) : s.next ≤ (op.run gen alloc s).1.next := by
  cases op with
  | rational q => exact next_rational _ _ _
  | random t => exact next_random _ _ _
  | randomIn l u t => exact next_randomIn _ _ _ _ _ _
  | mul p q => exact next_mul _ _ _ _

@[simp] theorem afterNum_base (w : World P) (r : State × Out Ptr) : (w.afterNum r).st = { w.st with base := r.1 } := by
  rcases r with ⟨s, x⟩; cases x <;> rfl
@[simp] theorem afterDiv_base (w : World P) (r : State × Out (Option Ptr)) : (w.afterDiv r).st = { w.st with base := r.1 } := by
  rcases r with ⟨s, x⟩
  cases x with
  | ok x => cases x <;> rfl
  | _ => rfl
@[simp] theorem afterMake_base (w : World P) (r : MState P × Out Ptr) : (w.afterMake r).st = r.1 := by
  rcases r with ⟨s, x⟩; cases x <;> rfl

theorem exec_next {α : Type} {w w' : World P} {a : Act P α} {x : Out α} (h : Exec gen w a w' x) : w.st.base.next ≤ w'.st.base.next := by
  induction h with
  | ret => exact le_rfl
  | read hw _ ih => exact (waits_next hw).trans ih
  | num hw ha _ _ ih =>
    rw [afterNum_base] at ih
    exact (waits_next hw).trans ((next_run _ _ _).trans ih)
  | div hw ha _ _ ih =>
    rw [afterDiv_base] at ih
    exact (waits_next hw).trans ((next_div _ _ _ _).trans ih)
  | make hw ha _ _ ih =>
    rw [afterMake_base, next_make] at ih
    exact (waits_next hw).trans ih
  | numUndefined hw _ _ ih => exact (waits_next hw).trans ih
  | divUndefined hw _ _ ih => exact (waits_next hw).trans ih
  | makeUndefined hw _ _ ih => exact (waits_next hw).trans ih

theorem exec_andThen {α β : Type} {f : Out α → Act P β} {a : Act P α} : ∀ {w w' : World P} {x : Out β}, Exec gen w (a.andThen f) w' x →
    ∃ w₁ r, Exec gen w a w₁ r ∧ Exec gen w₁ (f r) w' x := by
  induction a with
  | ret y => intro w w' x h; exact ⟨w, y, .ret, h⟩
  | read k ih =>
    intro w w' x h
    cases h with
    | read hw h => obtain ⟨w₁, r, h1, h2⟩ := ih _ h; exact ⟨w₁, r, .read hw h1, h2⟩
  | num op k ih =>
    intro w w' x h
    cases h with
    | num hw ha hh h => obtain ⟨w₁, r, h1, h2⟩ := ih _ h; exact ⟨w₁, r, .num hw ha hh h1, h2⟩
    | numUndefined hw hh h => obtain ⟨w₁, r, h1, h2⟩ := ih _ h; exact ⟨w₁, r, .numUndefined hw hh h1, h2⟩
  | div p q k ih =>
    intro w w' x h
    cases h with
    | div hw ha hh h => obtain ⟨w₁, r, h1, h2⟩ := ih _ h; exact ⟨w₁, r, .div hw ha hh h1, h2⟩
    | divUndefined hw hh h => obtain ⟨w₁, r, h1, h2⟩ := ih _ h; exact ⟨w₁, r, .divUndefined hw hh h1, h2⟩
  | make ring basis k ih =>
    intro w w' x h
    cases h with
    | make hw ha hh h => obtain ⟨w₁, r, h1, h2⟩ := ih _ h; exact ⟨w₁, r, .make hw ha hh h1, h2⟩
    | makeUndefined hw hh h => obtain ⟨w₁, r, h1, h2⟩ := ih _ h; exact ⟨w₁, r, .makeUndefined hw hh h1, h2⟩

theorem Good.waits {w w' : World P} (h : Good gen w) (hw : Waits gen w w') (hb : w'.st.base.next ≤ 2 ^ 64) : Follows gen w w' := by
  obtain ⟨h1, h2, h3, h4, h5⟩ := hw
  exact ⟨⟨mreach_of_mevolves h.reach h1, hb, by rw [h2]; exact h4, by rw [h3]; exact h5⟩, (mlater_of_mevolves h.reach h1 hb).1, h2.ge, h3.ge, h1⟩

variable {α β γ δ : Type} {D : World P → α → β → Prop} {E : World P → γ → δ → Prop} {w : World P}

theorem sim_andThen {a : Act P α} {v : Out β} {f : Out α → Act P γ} {u : Out δ} (ha : Sim gen D w a v)
    (hf : ∀ w' r, Follows gen w w' → OutRel (D w') r v → Sim gen E w' (f r) u) : Sim gen E w (a.andThen f) u := by
  intro w' r h hb
  obtain ⟨w₁, r₁, h1, h2⟩ := exec_andThen h
  obtain ⟨f1, d1⟩ := ha w₁ r₁ h1 ((exec_next h2).trans hb)
  obtain ⟨f2, d2⟩ := hf w₁ r₁ f1 d1 w' r h2 hb
  exact ⟨f1.trans f2, d2⟩

theorem sim_ret (h : Good gen w) {x : Out α} {v : Out β} (hd : OutRel (D w) x v) : Sim gen D w (.ret x) v := by
  intro w' r he _
  cases he
  exact ⟨h.follows, hd⟩

theorem sim_pure (h : Good gen w) {a : α} {b : β} (hd : D w a b) : Sim gen D w (pure a) (.ok b) := sim_ret h hd

theorem sim_bind {a : Act P α} {v : Out β} {f : α → Act P γ} {g : β → Out δ} (ha : Sim gen D w a v)
    (hf : ∀ w' x y, Follows gen w w' → D w' x y → v = .ok y → Sim gen E w' (f x) (g y)) : Sim gen E w (a >>= f) (v >>= g) := by
  refine sim_andThen ha fun w' r h1 h2 => ?_
  cases r <;> cases v <;> simp only [OutRel] at h2
  · exact hf w' _ _ h1 h2 rfl
  · subst h2; exact sim_ret h1.good rfl
  · exact sim_ret h1.good trivial
  · exact sim_ret h1.good trivial
  · exact sim_ret h1.good trivial

theorem sim_read (h : Good gen w) {k : MState P → Act P γ} {u : Out δ} (hk : ∀ w', Follows gen w w' → Sim gen E w' (k w'.st) u) :
    Sim gen E w (.read k) u := by
  intro w' r he hb
  cases he with
  | read hw he =>
    have f1 := h.waits hw ((exec_next he).trans hb)
    obtain ⟨f2, d⟩ := hk _ f1 w' r he hb
    exact ⟨f1.trans f2, d⟩

/-- Read something and go on. -/
theorem sim_look (h : Good gen w) {g : MState P → α} {f : α → Act P γ} {u : Out δ} (hk : ∀ w', Follows gen w w' → Sim gen E w' (f (g w'.st)) u) :
    Sim gen E w (Act.look (fun st => .ok (g st)) >>= f) u :=
  sim_read h hk

theorem sim_lookOut (h : Good gen w) {g : MState P → Out α} {v : Out β} (hk : ∀ w', Follows gen w w' → OutRel (D w') (g w'.st) v) :
    Sim gen D w (Act.look g) v :=
  sim_read h fun w' f => sim_ret f.good (hk w' f)

theorem sim_deref (h : Good gen w) {m : Ptr} {M : Mod P} (hm : IsMod w m M) {f : MObj P → Act P γ} {u : Out δ}
    (hk : ∀ w' o, Follows gen w w' → IsObj w' o M → Sim gen E w' (f o) u) : Sim gen E w (Act.deref m >>= f) u := by
  refine sim_read h fun w' hf => ?_
  obtain ⟨o, ho, -, -⟩ := (hm.follows h hf).obj
  have := hk w' o hf ((hm.follows h hf).isObj ho)
  show Sim gen E w' (Act.bind (.ret (match w'.st.live m with | some o => Out.ok o | none => .ub)) f) u
  rw [ho]
  exact this

theorem sim_out (h : Good gen w) {x : Out α} {f : α → Act P γ} {g : α → Out δ} (hf : ∀ y, x = .ok y → Sim gen E w (f y) (g y)) :
    Sim gen E w (Act.ret x >>= f) (x >>= g) := by
  cases x with
  | ok y => exact hf y rfl
  | throws e => exact sim_ret h rfl
  | abort => exact sim_ret h trivial
  | ub => exact sim_ret h trivial
  | pending => exact sim_ret h trivial

/-! ### calls of factories -/

theorem Follows.addNum {s : State} (hf : Follows gen w ⟨{ w.st with base := s }, w.nums, w.mods⟩) {p : Ptr} (hp : p ∈ s.roots) :
    Follows gen w (w.addNum s p) :=
  ⟨⟨hf.good.reach, hf.good.bound, fun q hq => by
      rcases Set.mem_insert_iff.1 hq with rfl | hq
      · exact hp
      · exact hf.good.nums q hq, hf.good.mods⟩, hf.later, fun _ h => Set.mem_insert_of_mem _ h, fun _ h => h, hf.evolves⟩

/-- A step of the real numbers. -/
theorem step_follows (h : Good gen w) {alloc : Alloc} (ha : alloc.Valid) {e : Event} (hd : ∀ p, e ≠ .drop p) {s : State} {r : Res}
    (hs : step gen alloc w.st.base e = some (s, r)) (hb : s.next ≤ 2 ^ 64) (hroots : ∀ p ∈ w.st.base.roots, p ∈ s.roots) :
    Follows gen w ⟨{ w.st with base := s }, w.nums, w.mods⟩ := by
  have malloc : ∃ malloc : MAlloc P, malloc.Valid := by
    refine ⟨fun st => (st.mods.map fun m => m.2.addr).sum + 1, fun st m o ho heq => ?_⟩
    have h1 := MState.mem_of_live ho
    have h2 : o.addr ≤ (st.mods.map fun m => m.2.addr).sum := List.single_le_sum (fun _ _ => Nat.zero_le _) _ (List.mem_map.2 ⟨(m, o), h1, rfl⟩)
    rw [← heq] at h2
    exact Nat.not_succ_le_self _ h2
  obtain ⟨malloc, hv⟩ := malloc
  have hm' : mstep gen alloc malloc w.st (.base e) = some ({ w.st with base := s }, r) := by
    cases e with
    | drop p => exact absurd rfl (hd p)
    | _ => simp only [mstep]; rw [hs]; rfl
  exact ⟨⟨h.reach.step ha hv hm', hb, fun p hp => hroots p (h.nums p hp), h.mods⟩, (minv_step ha hv h.inv hm' hb).2, fun _ h => h, fun _ h => h, .step .refl ha hv hm'⟩

/-- The random number that a thread has got. -/
structure IsRandom (a : AtomDesc) (w : World P) (p : Ptr) : Prop where
  held : Held w p
  rn : w.st.base.rn p = .atom (w.st.base.idOf p)
  desc : w.st.base.desc p = .monomial (Finsupp.single a 1)

theorem sim_mul (h : Good gen w) {p q : Ptr} {x y : RN} (hp : IsNum w p x) (hq : IsNum w q y) :
    Sim gen IsNum w (Act.call (.mul p q)) (x.mul y) := by
  intro w' r he hb
  cases he with
  | numUndefined hw hh he =>
    refine absurd ?_ hh
    have f1 := h.waits hw ((exec_next he).trans hb)
    simpa [NumOp.args] using ⟨(hp.follows h f1).held, (hq.follows h f1).held⟩
  | @num _ w₁ _ _ _ _ alloc hw ha hh he =>
    cases he
    rw [afterNum_base] at hb
    have f1 := h.waits hw ((next_mul _ _ _ _).trans hb)
    have hp1 := hp.follows h f1
    have hq1 := hq.follows h f1
    have href := mul_refines f1.good.inv.base ha (hp1.held.live f1.good) (hq1.held.live f1.good) hb
    rw [hp1.rn, hq1.rn] at href
    have hs : ∀ hroots : (∀ z ∈ w₁.st.base.roots, z ∈ (w₁.st.base.mul alloc p q).1.roots), Follows gen w₁ ⟨{ w₁.st with base := (w₁.st.base.mul alloc p q).1 }, w₁.nums, w₁.mods⟩ :=
      fun hroots => step_follows f1.good ha (e := .mul p q) (fun _ h => by cases h)
        (by rw [step, if_pos (by simp [hp1.held.root f1.good, hq1.held.root f1.good])]) hb hroots
    show Follows gen w (w₁.afterNum (w₁.st.base.mul alloc p q)) ∧ OutRel (IsNum (w₁.afterNum (w₁.st.base.mul alloc p q))) (w₁.st.base.mul alloc p q).2 (x.mul y)
    generalize hm : w₁.st.base.mul alloc p q = m at href hs ⊢
    obtain ⟨s, x⟩ := m
    cases x with
    | ok r =>
      obtain ⟨z, hz, hr⟩ := href
      have f2 := (hs hr.ext.roots).addNum hr.root
      exact ⟨f1.trans f2, by rw [hz]; exact ⟨.inl (Set.mem_insert _ _), hr.rn⟩⟩
    | throws e =>
      obtain ⟨hz, h2⟩ := href
      exact ⟨f1.trans (hs fun p hp => by rw [show s = w₁.st.base from h2]; exact hp), by rw [hz]; rfl⟩
    | abort => exact href.elim
    | ub => exact href.elim
    | pending => exact href.elim

/-- Optional results. -/
def OptRel (D : World P → α → β → Prop) (w : World P) : Option α → Option β → Prop
  | some a, some b => D w a b
  | none, none => True
  | _, _ => False

theorem sim_quotient (h : Good gen w) {p q : Ptr} {x y : RN} (hp : IsNum w p x) (hq : IsNum w q y) :
    Sim gen (OptRel IsNum) w (Act.quotient p q) (x.div y) := by
  intro w' r he hb
  cases he with
  | divUndefined hw hh he =>
    have f1 := h.waits hw ((exec_next he).trans hb)
    exact absurd ⟨(hp.follows h f1).held, (hq.follows h f1).held⟩ hh
  | @div _ w₁ _ _ _ _ _ alloc hw ha hh he =>
    cases he
    rw [afterDiv_base] at hb
    have f1 := h.waits hw ((next_div _ _ _ _).trans hb)
    have hp1 := hp.follows h f1
    have hq1 := hq.follows h f1
    have href := div_refines f1.good.inv.base ha (hp1.held.live f1.good) (hq1.held.live f1.good) hb
    rw [hp1.rn, hq1.rn] at href
    have hs : ∀ hroots : (∀ z ∈ w₁.st.base.roots, z ∈ (w₁.st.base.div alloc p q).1.roots), Follows gen w₁ ⟨{ w₁.st with base := (w₁.st.base.div alloc p q).1 }, w₁.nums, w₁.mods⟩ :=
      fun hroots => step_follows f1.good ha (e := .div p q) (fun _ h => by cases h)
        (by rw [step, if_pos (by simp [hp1.held.root f1.good, hq1.held.root f1.good])]) hb hroots
    generalize hm : w₁.st.base.div alloc p q = m at href hs ⊢
    obtain ⟨s, x⟩ := m
    cases x with
    | ok r =>
      cases r with
      | none =>
        obtain ⟨hz, h2⟩ := href
        exact ⟨f1.trans (hs fun p hp => by rw [show s = w₁.st.base from h2]; exact hp), by rw [hz]; trivial⟩
      | some r =>
        obtain ⟨z, hz, hr⟩ := href
        have f2 := (hs hr.ext.roots).addNum hr.root
        exact ⟨f1.trans f2, by rw [hz]; exact ⟨.inl (Set.mem_insert _ _), hr.rn⟩⟩
    | throws e =>
      obtain ⟨hz, h2⟩ := href
      exact ⟨f1.trans (hs fun p hp => by rw [show s = w₁.st.base from h2]; exact hp), by rw [hz]; rfl⟩
    | abort => exact href.elim
    | ub => exact href.elim
    | pending => exact href.elim

theorem sim_rational (h : Good gen w) (q : ℚ) : Sim gen IsNum w (Act.call (.rational q)) (.ok (.rat q)) := by
  intro w' r he hb
  cases he with
  | numUndefined hw hh he => exact absurd (by simp [NumOp.args]) hh
  | @num _ w₁ _ _ _ _ alloc hw ha hh he =>
    cases he
    rw [afterNum_base] at hb
    have f1 := h.waits hw ((next_rational _ _ _).trans hb)
    have hr := rational_returns f1.good.inv.base ha q hb
    have f2 := (step_follows f1.good ha (e := .rational q) (fun _ h => by cases h) rfl hb hr.ext.roots).addNum hr.root
    exact ⟨f1.trans f2, .inl (Set.mem_insert _ _), hr.rn⟩

theorem isRandom_of {a : AtomDesc} {p : Ptr} (h : Held w p) {o : Obj} (ho : w.st.base.live p = some o) (hd : o.data.isAtom)
    (ha : w.st.base.atomDesc p = a) : IsRandom a w p := by
  refine ⟨h, ?_, ?_⟩
  · rw [rn_atom ho hd]; simp [State.idOf, ho]
  · rw [← ha]
    rcases o with ⟨x, i, d⟩
    cases d <;> simp_all [State.desc, Data.isAtom]

theorem sim_random (h : Good gen w) (seed : UInt32) :
    Sim gen (fun w p (a : AtomDesc) => IsRandom a w p) w (Act.call (.random seed)) (.ok (.random seed)) := by
  intro w' r he hb
  cases he with
  | numUndefined hw hh he => exact absurd (by simp [NumOp.args]) hh
  | @num _ w₁ _ _ _ _ alloc hw ha hh he =>
    cases he
    rw [afterNum_base] at hb
    have f1 := h.waits hw ((next_random _ _ _).trans hb)
    have hr := random_spec f1.good.inv.base ha seed hb
    have f2 := (step_follows f1.good ha (e := .random seed) (fun _ h => by cases h) rfl hb hr.ext.roots).addNum hr.root
    obtain ⟨o, ho, hd⟩ := hr.data
    exact ⟨f1.trans f2, isRandom_of (.inl (Set.mem_insert _ _)) ho (by rw [hd]; trivial) (atomDesc_random ho hd)⟩

theorem sim_randomIn (h : Good gen w) (l u : ℚ) (seed : UInt32) :
    Sim gen (fun w p (a : Atom) => IsRandom (.of seed a) w p) w (Act.call (.randomIn l u seed)) (ExactReal.randomIn gen l u seed) := by
  intro w' r he hb
  cases he with
  | numUndefined hw hh he => exact absurd (by simp [NumOp.args]) hh
  | @num _ w₁ _ _ _ _ alloc hw ha hh he =>
    cases he
    rw [afterNum_base] at hb
    have f1 := h.waits hw ((next_randomIn _ _ _ _ _ _).trans hb)
    obtain ⟨hi, hx, hr⟩ := randomIn_inv f1.good.inv.base ha l u seed hb
    have f2 : Follows gen w₁ ⟨{ w₁.st with base := (w₁.st.base.randomIn gen alloc l u seed).1 }, w₁.nums, w₁.mods⟩ :=
      step_follows f1.good ha (e := .randomIn l u seed) (fun _ h => by cases h) rfl hb hx.roots
    show Follows gen w (w₁.afterNum (w₁.st.base.randomIn gen alloc l u seed)) ∧
      OutRel (fun p a => IsRandom (.of seed a) (w₁.afterNum (w₁.st.base.randomIn gen alloc l u seed)) p) (w₁.st.base.randomIn gen alloc l u seed).2 _
    clear hb hi hx
    revert f2 hr
    generalize w₁.st.base.randomIn gen alloc l u seed = m
    obtain ⟨s, x⟩ := m
    intro hr f2
    cases hx : ExactReal.randomIn gen l u seed with
    | ok a =>
      rw [hx] at hr
      obtain ⟨p, h1, h2, o, ho, h3⟩ := hr
      simp only at h1
      subst h1
      refine ⟨f1.trans (f2.addNum h2), ?_⟩
      cases a with
      | random d => exact isRandom_of (.inl (Set.mem_insert _ _)) ho (by rw [h3]; trivial) (atomDesc_random ho h3)
      | constrained m e d =>
        obtain ⟨inner, oi, h4, h5, h6⟩ := h3
        exact isRandom_of (.inl (Set.mem_insert _ _)) ho (by rw [h4]; trivial) ((atomDesc_constrained ho h4).trans (by rw [seedOf_random h5 h6]; rfl))
    | throws e => rw [hx] at hr; cases hr; exact ⟨f1.trans f2, rfl⟩
    | abort => rw [hx] at hr; cases hr; exact ⟨f1.trans f2, trivial⟩
    | ub => rw [hx] at hr; cases hr; exact ⟨f1.trans f2, trivial⟩
    | pending => rw [hx] at hr; cases hr; exact ⟨f1.trans f2, trivial⟩

theorem sim_make (h : Good gen w) (ring : P) {l : List Ptr} {L : List RN} (hl : IsNums w l L) :
    Sim gen IsMod w (Act.makeModule ring l) (Mod.make ring L) := by
  intro w' r he hb
  cases he with
  | makeUndefined hw hh he =>
    have f1 := h.waits hw ((exec_next he).trans hb)
    exact absurd (hl.follows h f1).held hh
  | @make _ w₁ _ _ _ _ _ malloc hw ha hh he =>
    cases he
    rw [afterMake_base, next_make] at hb
    have f1 := h.waits hw hb
    have hl1 := hl.follows h f1
    have hm := make_spec f1.good.inv ha ring l fun p hp => (hl1.held p hp).live f1.good
    have alloc : ∃ alloc : Alloc, alloc.Valid := by
      refine ⟨fun s => (s.heap.map fun m => m.2.addr).sum + 1, fun s p o ho heq => ?_⟩
      have h1 : (p, o) ∈ s.heap := by
        have key : ∀ l : List (Ptr × Obj), l.lookup p = some o → (p, o) ∈ l := by
          intro l
          induction l with
          | nil => intro h; simp at h
          | cons a l ih =>
            intro h
            rw [List.lookup_cons] at h
            split at h
            · rename_i hc
              simp only [beq_iff_eq] at hc
              cases h
              subst hc
              exact List.mem_cons_self
            · exact List.mem_cons_of_mem _ (ih h)
        exact key _ ho
      have h2 : o.addr ≤ (s.heap.map fun m => m.2.addr).sum := List.single_le_sum (fun _ _ => Nat.zero_le _) _ (List.mem_map.2 ⟨(p, o), h1, rfl⟩)
      rw [← heq] at h2
      exact Nat.not_succ_le_self _ h2
    obtain ⟨alloc, hv⟩ := alloc
    have hstep : mstep gen alloc malloc w₁.st (.make ring l) = some ((w₁.st.make malloc ring l).1, Res.ofOut (w₁.st.make malloc ring l).2) := by
      rw [mstep, if_pos (by simpa using fun p hp => (hl1.held p hp).root f1.good)]
    have hroots : ∀ p ∈ w₁.st.base.roots, p ∈ (w₁.st.make malloc ring l).1.base.roots := (ext_of_heap hm.heap hm.next hm.grows).roots
    have hmroots : ∀ p ∈ w₁.st.mroots, p ∈ (w₁.st.make malloc ring l).1.mroots := by
      intro p hp
      unfold MState.make
      dsimp only
      split
      · exact List.mem_cons_of_mem _ hp
      · split
        · exact List.mem_cons_of_mem _ hp
        · exact hp
    have f2 : Follows gen w₁ ⟨(w₁.st.make malloc ring l).1, w₁.nums, w₁.mods⟩ :=
      ⟨⟨f1.good.reach.step hv ha hstep, by rw [next_make]; exact hb, fun p hp => hroots p (f1.good.nums p hp), fun p hp => hmroots p (f1.good.mods p hp)⟩,
        (minv_step hv ha f1.good.inv hstep (by rw [next_make]; exact hb)).2, fun _ h => h, fun _ h => h, .step .refl hv ha hstep⟩
    rcases hm.result with ⟨m, o, h1, h2, h3, h4, h5, h6⟩ | ⟨h1, h2⟩
    · have hrn := (rn_of_heap hm.heap).1
      generalize w₁.st.make malloc ring l = x at h1 h2 h3 f2 hrn ⊢
      obtain ⟨s, x⟩ := x
      simp only at h1
      subst h1
      have f3 : Follows gen w₁ (w₁.afterMake (s, .ok m)) :=
        ⟨⟨f2.good.reach, f2.good.bound, f2.good.nums, fun q hq => by
            rcases Set.mem_insert_iff.1 hq with rfl | hq
            · exact h3
            · exact f2.good.mods q hq⟩, f2.later, fun _ h => h, fun _ h => Set.mem_insert_of_mem _ h, f2.evolves⟩
      refine ⟨f1.trans f3, ?_⟩
      rw [← hl1.rn, h6]
      exact ⟨Set.mem_insert _ _, o, h2, h4, by rw [← hrn]; rfl⟩
    · rw [← hl1.rn, h2]
      have e : (w₁.st.make malloc ring l) = (w₁.st, .throws .logicError) := h1
      rw [e] at f2 ⊢
      exact ⟨f1.trans f2, rfl⟩

end ExactReal.Heap
