import Verif.Spec.OrderHeap

/-!
# Several threads in one process

Any number of threads run programs in one process, each with its own variables, and a scheduler decides who takes the next atomic step (`Act`).  Numbers and
modules are shared: all threads use the same factories, and a thread may copy the variable of another one when none of the two is in a call.  Besides, anything
may happen in the process that does not take away the references of a thread.
-/

namespace ExactReal.Heap

variable {P : Type} [DecidableEq P] {R : Type} [CommRing R] [DecidableEq R] [CRing P R] [LawfulCRing P]

/-- A thread takes one atomic step. -/
inductive Act.Moves (gen : Generators) {α : Type} : World P → Act P α → World P → Act P α → Prop
  | read {w : World P} {k : MState P → Act P α} : Moves gen w (.read k) w (k w.st)
  | num {w : World P} {op : NumOp} {k : Out Ptr → Act P α} {alloc : Alloc} (ha : alloc.Valid) (hp : ∀ p ∈ op.args, Held w p) :
      Moves gen w (.num op k) (w.afterNum (op.run gen alloc w.st.base)) (k (op.run gen alloc w.st.base).2)
  | div {w : World P} {p q : Ptr} {k : Out (Option Ptr) → Act P α} {alloc : Alloc} (ha : alloc.Valid) (hp : Held w p ∧ Held w q) :
      Moves gen w (.div p q k) (w.afterDiv (w.st.base.div alloc p q)) (k (w.st.base.div alloc p q).2)
  | make {w : World P} {ring : P} {basis : List Ptr} {k : Out Ptr → Act P α} {malloc : MAlloc P} (hm : malloc.Valid) (hp : ∀ p ∈ basis, Held w p) :
      Moves gen w (.make ring basis k) (w.afterMake (w.st.make malloc ring basis)) (k (w.st.make malloc ring basis).2)
  | numUndefined {w : World P} {op : NumOp} {k : Out Ptr → Act P α} (hp : ¬ ∀ p ∈ op.args, Held w p) : Moves gen w (.num op k) w (k .ub)
  | divUndefined {w : World P} {p q : Ptr} {k : Out (Option Ptr) → Act P α} (hp : ¬ (Held w p ∧ Held w q)) : Moves gen w (.div p q k) w (k .ub)
  | makeUndefined {w : World P} {ring : P} {basis : List Ptr} {k : Out Ptr → Act P α} (hp : ¬ ∀ p ∈ basis, Held w p) :
      Moves gen w (.make ring basis k) w (k .ub)

/-- What a thread is doing: nothing, a call of its program, or a question (`q`), of which `a` remains to be done. -/
inductive Doing (P R : Type) : Type 1
  | idle
  | calling (c : HCmd P R) (a : Act P (Out Bool × HVars R))
  | asking {α : Type} (q a : Act P α)

/-- A thread: its variables, what it is doing, and the numbers and modules that it refers to. -/
structure Worker (P R : Type) : Type 1 where
  vars : HVars R
  doing : Doing P R
  nums : Set Ptr
  mods : Set Ptr

/-- A process. -/
structure Proc (P R : Type) : Type 1 where
  st : MState P
  threads : ℕ → Worker P R

/-- What has happened: a call of a thread has returned or thrown; a thread has copied a variable of another one. -/
inductive Entry (P R : Type)
  | call (t : ℕ) (c : HCmd P R) (o : Out Bool)
  | number (t d u e : ℕ)
  | element (t d u e : ℕ)

namespace Proc

/-- The process as a thread sees it. -/
def world (p : Proc P R) (t : ℕ) : World P := ⟨p.st, (p.threads t).nums, (p.threads t).mods⟩

/-- The thread `t` has done something. -/
def set (p : Proc P R) (t : ℕ) (w : World P) (s : HVars R) (d : Doing P R) : Proc P R := ⟨w.st, Function.update p.threads t ⟨s, d, w.nums, w.mods⟩⟩

/-- The thread `t` has got new variables; it keeps the references that it needs. -/
def assign (p : Proc P R) (t : ℕ) (s : HVars R) : Proc P R := p.set t (s.world p.st) s .idle

end Proc

/-- The histories of a process (the last entry first). -/
inductive PRun [Build] (gen : Generators) : List (Entry P R) → Proc P R → Prop
  /-- All threads start with variables for the number one and the zero element. -/
  | start {st : MState P} {w : World P} {s : HVars R} (h : MReach gen st) (hs : Exec gen ⟨st, ∅, ∅⟩ HVars.start w (.ok s)) :
      PRun gen [] ⟨w.st, fun _ => ⟨s, .idle, s.numSet, s.modSet⟩⟩
  /-- Anything else that happens in the process. -/
  | other {l : List (Entry P R)} {p : Proc P R} {st : MState P} (h : PRun gen l p) (he : MEvolves gen p.st st)
      (hn : ∀ t, ∀ x ∈ (p.threads t).nums, x ∈ st.base.roots) (hm : ∀ t, ∀ m ∈ (p.threads t).mods, m ∈ st.mroots) : PRun gen l ⟨st, p.threads⟩
  | call {l : List (Entry P R)} {p : Proc P R} (t : ℕ) {c : HCmd P R} (h : PRun gen l p) (hd : (p.threads t).doing = .idle) (hp : c.Pre p.st (p.threads t).vars) :
      PRun gen l (p.set t (p.world t) (p.threads t).vars (.calling c (c.exec (p.threads t).vars)))
  | move {l : List (Entry P R)} {p : Proc P R} (t : ℕ) {c : HCmd P R} {a a' : Act P (Out Bool × HVars R)} {w : World P} (h : PRun gen l p)
      (hd : (p.threads t).doing = .calling c a) (hw : a.Moves gen (p.world t) w a') : PRun gen l (p.set t w (p.threads t).vars (.calling c a'))
  | done {l : List (Entry P R)} {p : Proc P R} (t : ℕ) {c : HCmd P R} {o : Out Bool} {s : HVars R} (h : PRun gen l p)
      (hd : (p.threads t).doing = .calling c (.ret (.ok (o, s)))) (ho : (∃ b, o = .ok b) ∨ ∃ e, o = .throws e) : PRun gen (.call t c o :: l) (p.assign t s)
  | ask {l : List (Entry P R)} {p : Proc P R} (t : ℕ) {α : Type} {q : Act P α} (h : PRun gen l p) (hd : (p.threads t).doing = .idle)
      (hq : ∃ F coeff fuel, IsQuestion gen F coeff fuel (p.threads t).vars q) : PRun gen l (p.set t (p.world t) (p.threads t).vars (.asking q q))
  | moveAsk {l : List (Entry P R)} {p : Proc P R} (t : ℕ) {α : Type} {q a a' : Act P α} {w : World P} (h : PRun gen l p)
      (hd : (p.threads t).doing = .asking q a) (hw : a.Moves gen (p.world t) w a') : PRun gen l (p.set t w (p.threads t).vars (.asking q a'))
  | answered {l : List (Entry P R)} {p : Proc P R} (t : ℕ) {α : Type} {q : Act P α} {r : Out α} (h : PRun gen l p)
      (hd : (p.threads t).doing = .asking q (.ret r)) : PRun gen l (p.assign t (p.threads t).vars)
  | number {l : List (Entry P R)} {p : Proc P R} (t d u e : ℕ) (h : PRun gen l p) (hd : (p.threads t).doing = .idle) (hd' : (p.threads u).doing = .idle) :
      PRun gen (.number t d u e :: l) (p.assign t ((p.threads t).vars.setNum d ((p.threads u).vars.num e)))
  | element {l : List (Entry P R)} {p : Proc P R} (t d u e : ℕ) (h : PRun gen l p) (hd : (p.threads t).doing = .idle) (hd' : (p.threads u).doing = .idle) :
      PRun gen (.element t d u e :: l) (p.assign t ((p.threads t).vars.setElt d ((p.threads u).vars.elt e)))

/-- The real numbers that the variables of the threads stand for, after a history. -/
inductive PComputes (gen : Generators) (val : AtomDesc → ℝ) : List (Entry P R) → (ℕ → Reals) → Prop
  | init : PComputes gen val [] fun _ => Reals.init
  | assigned {l t c σ τ} (h : PComputes gen val l σ) (hc : c.Means gen val (σ t) τ) : PComputes gen val (.call t c (.ok true) :: l) (Function.update σ t τ)
  | skipped {l t c σ} (h : PComputes gen val l σ) : PComputes gen val (.call t c (.ok false) :: l) σ
  | failed {l t c e σ τ} (h : PComputes gen val l σ) (hc : c.Failed (σ t) τ) : PComputes gen val (.call t c (.throws e) :: l) (Function.update σ t τ)
  | number {l t d u e σ} (h : PComputes gen val l σ) : PComputes gen val (.number t d u e :: l) (Function.update σ t ((σ t).setNum d ((σ u).num e)))
  | element {l t d u e σ} (h : PComputes gen val l σ) : PComputes gen val (.element t d u e :: l) (Function.update σ t ((σ t).setElt d ((σ u).elt e)))

/-- The values of the variables of all threads. -/
noncomputable def Proc.value (val : AtomDesc → ℝ) (p : Proc P R) (t : ℕ) : Reals := (p.threads t).vars.value val p.st

/-- The calls of a thread. -/
def callsOf (t : ℕ) : List (Entry P R) → List (HCmd P R × Out Bool)
  | [] => []
  | .call u c o :: l => if u = t then (c, o) :: callsOf t l else callsOf t l
  | _ :: l => callsOf t l

/-- The thread has not copied anything from other threads. -/
def Alone (t : ℕ) (l : List (Entry P R)) : Prop := ∀ d u e, Entry.number t d u e ∉ l ∧ Entry.element t d u e ∉ l

end ExactReal.Heap
