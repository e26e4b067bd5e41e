import Verif.Spec.PyExpr
import Mathlib.Tactic.Common
import Mathlib.Tactic.Linarith

/-!
# C74: expressions of balls and floating point numbers in Python keep their operands alive

Whatever the order of statements, deletions and runs of the garbage collector and whichever addresses new objects get, an expression that a variable of the
program holds evaluates to the value that it was built for; C++ never follows a reference to an object that has been collected.

This fails for `-a` of a number `a`: see `py_neg_dangles`.
-/

namespace ExactReal.Props
open ExactReal.PyExpr

variable {T : Type}

namespace PyExprLemma

/-- The object at `o` represents the expression and everything that C++ needs to evaluate it can be reached by Python. -/
inductive Held (h : ℕ → Option (Obj T)) : ℕ → Expr T → Prop
  | num {o : ℕ} {v : T} (ho : h o = some (.num v)) : Held h o (.num v)
  | ynum {o p : ℕ} {L : List ℕ} {v : T} (ho : h o = some (.yap p L)) (hp : h p = some (.num v)) : Held h o (.num v)
  | neg {o e s : ℕ} {L : List ℕ} {t : Expr T} (ho : h o = some (.yap e L)) (he : h e = some (.neg (value h s))) (hs : s ∈ L) (ht : Held h s t) :
      Held h o (.neg t)
  | bin {o e s r : ℕ} {L : List ℕ} {op : Op} {t u : Expr T} (ho : h o = some (.yap e L)) (he : h e = some (.bin op (value h s) (value h r)))
      (hs : s ∈ L) (hr : r ∈ L) (ht : Held h s t) (hu : Held h r u) : Held h o (.bin op t u)

theorem reach_trans {h : ℕ → Option (Obj T)} {a b c : ℕ} (hab : Reach h a b) (hbc : Reach h b c) : Reach h a c := by
  induction hbc with
  | refl => exact hab
  | step _ ho hj ih => exact ih.step ho hj

theorem reach_one {h : ℕ → Option (Obj T)} {a j : ℕ} {o : Obj T} (ho : h a = some o) (hj : j ∈ o.refs) : Reach h a j := Reach.refl.step ho hj

theorem Held.alive {h : ℕ → Option (Obj T)} {a : ℕ} {t : Expr T} (ht : Held h a t) : ∃ o, h a = some o := by
  cases ht <;> exact ⟨_, by assumption⟩

theorem value_congr {h h' : ℕ → Option (Obj T)} {a : ℕ} (hh : h' a = h a) : value h' a = value h a := by
  unfold value; rw [hh]

theorem Held.congr {h h' : ℕ → Option (Obj T)} {a : ℕ} {t : Expr T} (ht : Held h a t)
    (hh : ∀ i o, Reach h a i → h i = some o → h' i = some o) : Held h' a t := by
  induction ht with
  | num ho => exact .num (hh _ _ .refl ho)
  | ynum ho hp => exact .ynum (hh _ _ .refl ho) (hh _ _ (reach_one ho (by simp [Obj.refs])) hp)
  | @neg o e s L t ho he hs ht ih =>
    have rs : Reach h o s := reach_one ho (by simp [Obj.refs, hs])
    obtain ⟨b, hb⟩ := ht.alive
    have hv : value h' s = value h s := value_congr (by rw [hh _ _ rs hb, hb])
    exact .neg (hh _ _ .refl ho) (by rw [hv]; exact hh _ _ (reach_one ho (by simp [Obj.refs])) he) hs
      (ih fun i o hi ho => hh i o (reach_trans rs hi) ho)
  | @bin o e s r L op t u ho he hs hr ht hu iht ihu =>
    have rs : Reach h o s := reach_one ho (by simp [Obj.refs, hs])
    have rr : Reach h o r := reach_one ho (by simp [Obj.refs, hr])
    obtain ⟨b, hb⟩ := ht.alive
    obtain ⟨c, hc⟩ := hu.alive
    have hv : value h' s = value h s := value_congr (by rw [hh _ _ rs hb, hb])
    have hw : value h' r = value h r := value_congr (by rw [hh _ _ rr hc, hc])
    exact .bin (hh _ _ .refl ho) (by rw [hv, hw]; exact hh _ _ (reach_one ho (by simp [Obj.refs])) he) hs hr
      (iht fun i o hi ho => hh i o (reach_trans rs hi) ho) (ihu fun i o hi ho => hh i o (reach_trans rr hi) ho)

theorem Held.alloc {h : ℕ → Option (Obj T)} {a i : ℕ} {o : Obj T} {t : Expr T} (ht : Held h a t) (hi : h i = none) : Held (PyExpr.alloc h i o) a t := by
  refine ht.congr fun j b _ hb => ?_
  unfold PyExpr.alloc
  rw [if_neg (by rintro rfl; simp [hi] at hb)]
  exact hb

theorem Held.eval (K : Kernel T) {h : ℕ → Option (Obj T)} {a : ℕ} {t : Expr T} (ht : Held h a t) :
    ∃ N, ∀ fuel, N ≤ fuel → ∀ prec, PyExpr.eval K h prec fuel (value h a) = .ok (t.eval K prec) := by
  induction ht with
  | @num o v ho =>
    refine ⟨1, fun fuel hf prec => ?_⟩
    obtain ⟨f, rfl⟩ := Nat.exists_eq_add_of_le' hf
    simp [value, ho, PyExpr.eval, Expr.eval]
  | @ynum o p L v ho hp =>
    refine ⟨1, fun fuel hf prec => ?_⟩
    obtain ⟨f, rfl⟩ := Nat.exists_eq_add_of_le' hf
    simp [value, ho, PyExpr.eval, Expr.eval, hp]
  | @neg o e s L t ho he hs ht ih =>
    obtain ⟨N, hN⟩ := ih
    refine ⟨N + 1, fun fuel hf prec => ?_⟩
    obtain ⟨f, rfl⟩ := Nat.exists_eq_add_of_le' (Nat.le_trans (Nat.le_add_left 1 N) hf)
    have hv : value h o = e := by simp [value, ho]
    rw [hv]
    simp only [PyExpr.eval, he]
    rw [hN f (by omega)]
    rfl
  | @bin o e s r L op t u ho he hs hr ht hu iht ihu =>
    obtain ⟨N, hN⟩ := iht
    obtain ⟨M, hM⟩ := ihu
    refine ⟨N + M + 1, fun fuel hf prec => ?_⟩
    obtain ⟨f, rfl⟩ := Nat.exists_eq_add_of_le' (Nat.le_trans (Nat.le_add_left 1 (N + M)) hf)
    have hv : value h o = e := by simp [value, ho]
    rw [hv]
    simp only [PyExpr.eval, he]
    rw [hN f (by omega), hM f (by omega)]
    rfl

/-- A computation that has come to an end does not change with more fuel. -/
theorem eval_mono (K : Kernel T) (h : ℕ → Option (Obj T)) (prec : ℤ) : ∀ fuel p, PyExpr.eval K h prec fuel p ≠ .pending →
    PyExpr.eval K h prec (fuel + 1) p = PyExpr.eval K h prec fuel p := by
  intro fuel
  induction fuel with
  | zero => intro p hp; exact absurd rfl hp
  | succ fuel ih =>
    intro p hp
    rw [PyExpr.eval, PyExpr.eval]
    rw [PyExpr.eval] at hp
    cases hh : h p with
    | none => rfl
    | some o =>
      rw [hh] at hp
      cases o with
      | num v => rfl
      | yap v L => rfl
      | neg q =>
        have : PyExpr.eval K h prec fuel q ≠ .pending := by
          intro hq; apply hp; simp [hq]
        simp only [ih q this]
      | bin o q r =>
        have hq : PyExpr.eval K h prec fuel q ≠ .pending := by
          intro hq; apply hp; simp [hq]
        simp only [ih q hq]
        cases hv : PyExpr.eval K h prec fuel q with
        | ok v =>
          have hr : PyExpr.eval K h prec fuel r ≠ .pending := by
            intro hr; apply hp; simp [hv, hr]
          simp only [ih r hr]
        | _ => rfl

theorem eval_mono' (K : Kernel T) (h : ℕ → Option (Obj T)) (prec : ℤ) {fuel p : ℕ} (hp : PyExpr.eval K h prec fuel p ≠ .pending) (k : ℕ) :
    PyExpr.eval K h prec (fuel + k) p = PyExpr.eval K h prec fuel p := by
  induction k with
  | zero => rfl
  | succ k ih => rw [← Nat.add_assoc, eval_mono K h prec (fuel + k) p (by rw [ih]; exact hp), ih]

/-- Whatever the depth to which it is followed, the evaluation gives the value of the expression or is not finished yet. -/
theorem Held.sound (K : Kernel T) {h : ℕ → Option (Obj T)} {a : ℕ} {t : Expr T} (ht : Held h a t) (fuel : ℕ) (prec : ℤ) :
    PyExpr.eval K h prec fuel (value h a) = .pending ∨ PyExpr.eval K h prec fuel (value h a) = .ok (t.eval K prec) := by
  obtain ⟨N, hN⟩ := ht.eval K
  by_cases hp : PyExpr.eval K h prec fuel (value h a) = .pending
  · exact .inl hp
  · right
    rw [← eval_mono' K h prec hp N]
    exact hN _ (by omega) prec

/-- What holds in every state of a program. -/
structure Inv (σ : ℕ → Option (Expr T)) (s : State T) : Prop where
  held : ∀ x a, s.var x = some a → ∃ t, σ x = some t ∧ Held s.heap a t
  none : ∀ x, s.var x = none → σ x = none

theorem Held.isYap {h : ℕ → Option (Obj T)} {a : ℕ} {t : Expr T} (ht : Held h a t) (hn : t.isNum = false) : ∃ v L, h a = some (.yap v L) := by
  cases ht with
  | num => simp [Expr.isNum] at hn
  | ynum => simp [Expr.isNum] at hn
  | neg ho => exact ⟨_, _, ho⟩
  | bin ho => exact ⟨_, _, ho⟩

theorem Held.cases {h : ℕ → Option (Obj T)} {a : ℕ} {t : Expr T} (ht : Held h a t) : (∃ v, h a = some (.num v)) ∨ ∃ v L, h a = some (.yap v L) := by
  cases ht with
  | num ho => exact .inl ⟨_, ho⟩
  | ynum ho => exact .inr ⟨_, _, ho⟩
  | neg ho => exact .inr ⟨_, _, ho⟩
  | bin ho => exact .inr ⟨_, _, ho⟩

theorem value_alloc {h : ℕ → Option (Obj T)} {a i : ℕ} {o : Obj T} (ha : h a ≠ none) (hi : h i = none) : value (PyExpr.alloc h i o) a = value h a :=
  value_congr (by unfold PyExpr.alloc; rw [if_neg (by rintro rfl; exact ha hi)])

/-- `_op` with one right hand side. -/
theorem held_op_bin {h : ℕ → Option (Obj T)} {a b e u : ℕ} {t t' : Expr T} (o : Op) (ha : Held h a t) (hb : Held h b t') (he : h e = none) (hu : h u = none)
    (hne : e ≠ u) : Held (PyExpr.op h a (makeBin o) [b] e u) u (.bin o t t') ∧
      ∀ c t, Held h c t → Held (PyExpr.op h a (makeBin o) [b] e u) c t := by
  have hu' : PyExpr.alloc h e (makeBin o [value h a, value h b]) u = none := by
    unfold PyExpr.alloc; rw [if_neg hne.symm]; exact hu
  have keep : ∀ c t, Held h c t → Held (PyExpr.op h a (makeBin o) [b] e u) c t := fun c t hc => (hc.alloc he).alloc hu'
  refine ⟨?_, keep⟩
  obtain ⟨oa, hoa⟩ := ha.alive
  obtain ⟨ob, hob⟩ := hb.alive
  have val : ∀ c oc, h c = some oc → value (PyExpr.op h a (makeBin o) [b] e u) c = value h c := by
    intro c oc hc
    apply value_congr
    simp only [PyExpr.op, PyExpr.alloc]
    rw [if_neg (by rintro rfl; simp [hu] at hc), if_neg (by rintro rfl; simp [he] at hc)]
  refine Held.bin (e := e) (s := a) (r := b) (L := [value h a, value h b] ++ [a] ++ [b]) ?_ ?_ (by simp) (by simp) (keep _ _ ha) (keep _ _ hb)
  · simp [PyExpr.op, PyExpr.alloc]
  · rw [val a _ hoa, val b _ hob]
    simp [PyExpr.op, PyExpr.alloc, makeBin, hne]

theorem held_op_neg {h : ℕ → Option (Obj T)} {a e u : ℕ} {t : Expr T} (ha : Held h a t) (he : h e = none) (hu : h u = none)
    (hne : e ≠ u) : Held (PyExpr.op h a makeNeg [] e u) u (.neg t) ∧ ∀ c t, Held h c t → Held (PyExpr.op h a makeNeg [] e u) c t := by
  have hu' : PyExpr.alloc h e (makeNeg [value h a]) u = none := by
    unfold PyExpr.alloc; rw [if_neg hne.symm]; exact hu
  have keep : ∀ c t, Held h c t → Held (PyExpr.op h a makeNeg [] e u) c t := fun c t hc => (hc.alloc he).alloc hu'
  refine ⟨?_, keep⟩
  obtain ⟨oa, hoa⟩ := ha.alive
  have val : value (PyExpr.op h a makeNeg [] e u) a = value h a := by
    apply value_congr
    simp only [PyExpr.op, PyExpr.alloc]
    rw [if_neg (by rintro rfl; simp [hu] at hoa), if_neg (by rintro rfl; simp [he] at hoa)]
  refine Held.neg (e := e) (s := a) (L := [value h a] ++ [a] ++ []) ?_ ?_ (by simp) (keep _ _ ha)
  · simp [PyExpr.op, PyExpr.alloc]
  · rw [val]
    simp [PyExpr.op, PyExpr.alloc, makeNeg, hne]

/-- `x ∘ y` of objects that represent expressions. -/
theorem held_binary {h : ℕ → Option (Obj T)} {a b e u w : ℕ} {t t' : Expr T} (o : Op) (ha : Held h a t) (hb : Held h b t') (he : h e = none)
    (hu : h u = none) (hw : h w = none) (hne : e ≠ u ∧ e ≠ w ∧ u ≠ w) :
    ∃ h' r, binary h o a b e u w = some (h', r) ∧ Held h' r (.bin o t t') ∧ ∀ c t, Held h c t → Held h' c t := by
  obtain ⟨ob, hob⟩ := hb.alive
  rcases ha.cases with ⟨v, hv⟩ | ⟨v, L, hv⟩
  · have hwr : wrap h a w = (PyExpr.alloc h w (.yap a []), w) := by simp [wrap, hv]
    refine ⟨PyExpr.op (PyExpr.alloc h w (.yap a [])) w (makeBin o) [b] e u, u, ?_, ?_⟩
    · unfold binary
      rw [hv, hob]
      simp only [hwr]
    · have hn : t = .num v := by
        cases ha with
        | num ho => simp only [hv, Option.some.injEq, Obj.num.injEq] at ho; rw [ho]
        | ynum ho => simp [hv] at ho
        | neg ho => simp [hv] at ho
        | bin ho => simp [hv] at ho
      have haw : a ≠ w := by rintro rfl; simp [hw] at hv
      have hwh : Held (PyExpr.alloc h w (.yap a [])) w t := by
        rw [hn]
        exact .ynum (p := a) (L := []) (by simp [PyExpr.alloc]) (by simp [PyExpr.alloc, haw, hv])
      have := held_op_bin (e := e) (u := u) o hwh (hb.alloc hw) (by simp [PyExpr.alloc, hne.2.1, he]) (by simp [PyExpr.alloc, hne.2.2, hu]) hne.1
      exact ⟨this.1, fun c t hc => this.2 c t (hc.alloc hw)⟩
  · refine ⟨PyExpr.op h a (makeBin o) [b] e u, u, ?_, held_op_bin o ha hb he hu hne.1⟩
    unfold binary
    rw [hv, hob]

theorem held_neg {h : ℕ → Option (Obj T)} {a e u : ℕ} {t : Expr T} (ha : Held h a t) (hn : t.isNum = false) (he : h e = none) (hu : h u = none)
    (hne : e ≠ u) : ∃ h' r, PyExpr.neg h a e u = some (h', r) ∧ Held h' r (.neg t) ∧ ∀ c t, Held h c t → Held h' c t := by
  obtain ⟨v, L, hv⟩ := ha.isYap hn
  exact ⟨PyExpr.op h a makeNeg [] e u, u, by unfold PyExpr.neg; rw [hv], held_op_neg ha he hu hne⟩

theorem inv_assign {σ : ℕ → Option (Expr T)} {s : State T} (hs : Inv σ s) {h' : ℕ → Option (Obj T)} {x r : ℕ} {t : Expr T}
    (keep : ∀ c t, Held s.heap c t → Held h' c t) (hr : Held h' r t) : Inv (fun y => if y = x then some t else σ y) (s.assign h' x (some r)) := by
  constructor
  · intro y a hy
    simp only [State.assign] at hy ⊢
    split at hy
    · rename_i h; subst h; cases hy; exact ⟨t, by simp, hr⟩
    · rename_i h
      obtain ⟨t, ht, hh⟩ := hs.held y a hy
      exact ⟨t, by simp [h, ht], keep _ _ hh⟩
  · intro y hy
    simp only [State.assign] at hy
    split at hy
    · cases hy
    · rename_i h; simp [h, hs.none y hy]

theorem inv_step {K : Kernel T} {σ : ℕ → Option (Expr T)} {s s' : State T} {c : Cmd T} (hs : Inv σ s) (h : Step K s c s')
    (hn : ∀ x y e u t, c = .neg x y e u → σ y = some t → t.isNum = false) : Inv (specStep K σ c) s' := by
  cases h with
  | @new x i v hi => exact inv_assign hs (fun c t hc => hc.alloc hi) (.num (by simp [PyExpr.alloc]))
  | @bin x y z a b e u w r o h' hy hz he hu hw hne hr =>
    obtain ⟨t, ht, hta⟩ := hs.held y a hy
    obtain ⟨t', ht', htb⟩ := hs.held z b hz
    obtain ⟨h'', r', hb, hh, keep⟩ := held_binary o hta htb he hu hw hne
    rw [hr] at hb
    cases hb
    have := inv_assign (x := x) hs keep hh
    simpa [specStep, ht, ht'] using this
  | @neg x y a e u r h' hy he hu hne hr =>
    obtain ⟨t, ht, hta⟩ := hs.held y a hy
    obtain ⟨h'', r', hb, hh, keep⟩ := held_neg hta (hn x y e u t rfl ht) he hu hne
    rw [hr] at hb
    cases hb
    have := inv_assign (x := x) hs keep hh
    simpa [specStep, ht] using this
  | @call x y a i prec v fuel hy hi hv =>
    obtain ⟨t, ht, hta⟩ := hs.held y a hy
    have hv' : v = t.eval K prec := by
      rcases hta.sound K fuel prec with h | h
      · unfold PyExpr.call at hv; rw [h] at hv; cases hv
      · unfold PyExpr.call at hv; rw [h] at hv; cases hv; rfl
    have := inv_assign (h' := PyExpr.alloc s.heap i (.num v)) (x := x) (r := i) (t := .num v) hs (fun c t hc => hc.alloc hi) (.num (by simp [PyExpr.alloc]))
    simpa [specStep, ht, hv'] using this
  | @copy x y =>
    constructor
    · intro z a hz
      simp only [State.assign] at hz ⊢
      by_cases h : z = x
      · rw [if_pos h] at hz; simpa [specStep, h] using hs.held y a hz
      · rw [if_neg h] at hz; simpa [specStep, h] using hs.held z a hz
    · intro z hz
      simp only [State.assign] at hz
      by_cases h : z = x
      · rw [if_pos h] at hz; simpa [specStep, h] using hs.none y hz
      · rw [if_neg h] at hz; simpa [specStep, h] using hs.none z hz
  | @del x =>
    constructor
    · intro z a hz
      simp only [State.assign] at hz ⊢
      by_cases h : z = x
      · rw [if_pos h] at hz; cases hz
      · rw [if_neg h] at hz; simpa [specStep, h] using hs.held z a hz
    · intro z hz
      simp only [State.assign] at hz
      by_cases h : z = x
      · simp [specStep, h]
      · rw [if_neg h] at hz; simpa [specStep, h] using hs.none z hz
  | @collect i hi =>
    constructor
    · intro z a hz
      obtain ⟨t, ht, hta⟩ := hs.held z a hz
      refine ⟨t, ht, hta.congr fun j o hj ho => ?_⟩
      have : j ≠ i := by rintro rfl; exact hi z a hz hj
      simpa [this] using ho
    · exact hs.none

theorem inv_run {K : Kernel T} {cs : List (Cmd T)} : ∀ {σ : ℕ → Option (Expr T)} {s s' : State T}, Inv σ s → Run K s cs s' → NoPlainNeg K σ cs →
    Inv (specRun K σ cs) s' := by
  induction cs with
  | nil => intro σ s s' hs h _; cases h; exact hs
  | cons c cs ih =>
    intro σ s s' hs h hn
    cases h with
    | cons h hs' => exact ih (inv_step hs h hn.1) hs' hn.2

theorem inv_empty : Inv (fun _ => Option.none) (empty T) := ⟨fun _ _ h => by simp [empty] at h, fun _ _ => rfl⟩

end PyExprLemma
open PyExprLemma

/-- **C74.**  Run any program that never negates a number that is not part of an expression, with any interleaving of the garbage collector and any choice of
addresses.  A variable holds an object exactly if it should, and its evaluation is the value of the expression that the program built; it
never follows a reference to an object that has been collected. -/
theorem py_expression_partial (K : Kernel T) {cs : List (PyExpr.Cmd T)} {s : State T} (h : PyExpr.Run K (empty T) cs s) (hn : NoPlainNeg K (fun _ => none) cs) (x : ℕ) :
    match specRun K (fun _ => none) cs x with
    | none => s.var x = none
    | some t => ∃ a, s.var x = some a ∧
        (∃ N, ∀ fuel, N ≤ fuel → ∀ prec, PyExpr.call K s.heap fuel a prec = .ok (t.eval K prec)) ∧
        ∀ fuel prec, PyExpr.call K s.heap fuel a prec ≠ .ub := by
  have hi := inv_run inv_empty h hn
  cases hv : s.var x with
  | none => rw [hi.none x hv]
  | some a =>
    obtain ⟨t, ht, hh⟩ := hi.held x a hv
    rw [ht]
    refine ⟨a, rfl, hh.eval K, fun fuel prec => ?_⟩
    rcases hh.sound K fuel prec with h | h <;> (unfold PyExpr.call; rw [h]; simp)

/-- **C74.**  In such a program arithmetic never fails: any two variables can be added, subtracted, multiplied and divided, any variable that holds an
expression can be negated and any variable can be evaluated. -/
theorem py_expression_progress_partial (K : Kernel T) {cs : List (PyExpr.Cmd T)} {s : State T} (h : PyExpr.Run K (empty T) cs s)
    (hn : NoPlainNeg K (fun _ => none) cs) (x y z : ℕ) (t t' : Expr T) (hy : specRun K (fun _ => none) cs y = some t)
    (hz : specRun K (fun _ => none) cs z = some t') (e u w : ℕ) (he : s.heap e = none) (hu : s.heap u = none) (hw : s.heap w = none)
    (hne : e ≠ u ∧ e ≠ w ∧ u ≠ w) :
    (∀ o, ∃ s', PyExpr.Step K s (.bin x o y z e u w) s') ∧ (t.isNum = false → ∃ s', PyExpr.Step K s (.neg x y e u) s') ∧
      ∀ prec, ∃ s', PyExpr.Step K s (.call x y prec e) s' := by
  have hi := inv_run inv_empty h hn
  have look : ∀ x t, specRun K (fun _ => none) cs x = some t → ∃ a, s.var x = some a ∧ Held s.heap a t := by
    intro x t hx
    cases hv : s.var x with
    | none => rw [hi.none x hv] at hx; cases hx
    | some a =>
      obtain ⟨t', ht', hh⟩ := hi.held x a hv
      rw [hx] at ht'; cases ht'
      exact ⟨a, rfl, hh⟩
  obtain ⟨a, ha, hta⟩ := look y t hy
  obtain ⟨b, hb, htb⟩ := look z t' hz
  refine ⟨fun o => ?_, fun hnum => ?_, fun prec => ?_⟩
  · obtain ⟨h', r, hr, -⟩ := held_binary o hta htb he hu hw hne
    exact ⟨_, .bin ha hb he hu hw hne hr⟩
  · obtain ⟨h', r, hr, -⟩ := held_neg hta hnum he hu hne.1
    exact ⟨_, .neg ha he hu hne.1 hr⟩
  · obtain ⟨N, hN⟩ := hta.eval K
    exact ⟨_, .call ha he (hN N le_rfl prec)⟩

/-- **C74, finding F34.**  `b = -a; del a` and a run of the garbage collector: the evaluation of `b` is undefined behaviour. -/
theorem py_neg_dangles (K : Kernel T) (v : T) :
    ∃ (s : State T) (b : ℕ), PyExpr.Run K (empty T) [.new 0 v 0, .neg 1 0 1 2, .del 0, .collect 0] s ∧
      specRun K (fun _ => none) [.new 0 v 0, .neg 1 0 1 2, .del 0, .collect 0] 1 = some (.neg (.num v)) ∧
      s.var 1 = some b ∧ ∀ fuel prec, PyExpr.call K s.heap (fuel + 2) b prec = .ub := by
  refine ⟨_, 1, .cons (.new rfl) (.cons (.neg (a := 0) (e := 1) (u := 2) rfl rfl rfl (by decide) rfl) (.cons .del (.cons (.collect ?_) .nil))), rfl, rfl,
    fun fuel prec => rfl⟩
  intro x a hx hr
  have ha : a = 1 := by
    simp only [State.assign, empty] at hx
    grind
  subst ha
  have : ∀ j, Reach (PyExpr.alloc (PyExpr.alloc (empty T).heap 0 (.num v)) 1 (.neg 0)) 1 j → j = 1 := by
    intro j hj
    induction hj with
    | refl => rfl
    | step _ ho hj ih =>
      subst ih
      cases ho
      cases hj
  exact absurd (this 0 hr) (by decide)

/-! ### Programs during which nothing is collected -/

namespace PyExprLemma

/-- The object at `o` is a number or a C++ expression for `t`; nothing is said about what Python can reach. -/
inductive Den (h : ℕ → Option (Obj T)) : ℕ → Expr T → Prop
  | num {o : ℕ} {v : T} (ho : h o = some (.num v)) : Den h o (.num v)
  | neg {o p : ℕ} {t : Expr T} (ho : h o = some (.neg p)) (ht : Den h p t) : Den h o (.neg t)
  | bin {o p q : ℕ} {op : Op} {t u : Expr T} (ho : h o = some (.bin op p q)) (ht : Den h p t) (hu : Den h q u) : Den h o (.bin op t u)

theorem Den.mono {h h' : ℕ → Option (Obj T)} (hh : ∀ i o, h i = some o → h' i = some o) {a : ℕ} {t : Expr T} (ht : Den h a t) : Den h' a t := by
  induction ht with
  | num ho => exact .num (hh _ _ ho)
  | neg ho _ ih => exact .neg (hh _ _ ho) ih
  | bin ho _ _ ih ih' => exact .bin (hh _ _ ho) ih ih'

theorem Den.eval (K : Kernel T) {h : ℕ → Option (Obj T)} {a : ℕ} {t : Expr T} (ht : Den h a t) :
    ∃ N, ∀ fuel, N ≤ fuel → ∀ prec, PyExpr.eval K h prec fuel a = .ok (t.eval K prec) := by
  induction ht with
  | num ho =>
    refine ⟨1, fun fuel hf prec => ?_⟩
    obtain ⟨f, rfl⟩ := Nat.exists_eq_add_of_le' hf
    simp [PyExpr.eval, Expr.eval, ho]
  | neg ho _ ih =>
    obtain ⟨N, hN⟩ := ih
    refine ⟨N + 1, fun fuel hf prec => ?_⟩
    obtain ⟨f, rfl⟩ := Nat.exists_eq_add_of_le' hf
    rw [show f + (N + 1) = (f + N) + 1 by omega, PyExpr.eval, ho]
    simp only
    rw [hN (f + N) (by omega) prec]
    rfl
  | bin ho _ _ ih ih' =>
    obtain ⟨N, hN⟩ := ih
    obtain ⟨M, hM⟩ := ih'
    refine ⟨N + M + 1, fun fuel hf prec => ?_⟩
    obtain ⟨f, rfl⟩ := Nat.exists_eq_add_of_le' hf
    rw [show f + (N + M + 1) = (f + N + M) + 1 by omega, PyExpr.eval, ho]
    simp only
    rw [hN (f + N + M) (by omega) prec, hM (f + N + M) (by omega) prec]
    rfl

theorem Den.sound (K : Kernel T) {h : ℕ → Option (Obj T)} {a : ℕ} {t : Expr T} (ht : Den h a t) (fuel : ℕ) (prec : ℤ) :
    PyExpr.eval K h prec fuel a = .pending ∨ PyExpr.eval K h prec fuel a = .ok (t.eval K prec) := by
  obtain ⟨N, hN⟩ := ht.eval K
  by_cases hp : PyExpr.eval K h prec fuel a = .pending
  · exact .inl hp
  · right
    rw [← eval_mono' K h prec hp N]
    exact hN _ (by omega) prec

/-- What holds in every state of a program during which nothing is collected. -/
structure Inv' (σ : ℕ → Option (Expr T)) (s : State T) : Prop where
  den : ∀ x a, s.var x = some a → ∃ t, σ x = some t ∧ (∃ o, s.heap a = some o) ∧ Den s.heap (value s.heap a) t
  none : ∀ x, s.var x = none → σ x = none

theorem alloc_mono {h : ℕ → Option (Obj T)} {i : ℕ} {o : Obj T} (hi : h i = none) : ∀ j b, h j = some b → PyExpr.alloc h i o j = some b := by
  intro j b hb
  unfold PyExpr.alloc
  rw [if_neg (by rintro rfl; simp [hi] at hb)]
  exact hb

theorem inv'_assign {σ : ℕ → Option (Expr T)} {s : State T} (hs : Inv' σ s) {h' : ℕ → Option (Obj T)} {x r : ℕ} {t : Expr T}
    (keep : ∀ i o, s.heap i = some o → h' i = some o) (hr : (∃ o, h' r = some o) ∧ Den h' (value h' r) t) :
    Inv' (fun y => if y = x then some t else σ y) (s.assign h' x (some r)) := by
  constructor
  · intro y a hy
    simp only [State.assign] at hy ⊢
    split at hy
    · rename_i h; subst h; cases hy; exact ⟨t, by simp, hr⟩
    · rename_i h
      obtain ⟨t, ht, ⟨o, ho⟩, hh⟩ := hs.den y a hy
      refine ⟨t, by simp [h, ht], ⟨o, keep _ _ ho⟩, ?_⟩
      rw [value_congr (h := s.heap) (h' := h') (by rw [keep _ _ ho, ho])]
      exact hh.mono keep
  · intro y hy
    simp only [State.assign] at hy
    split at hy
    · cases hy
    · rename_i h; simp [h, hs.none y hy]

/-- `_op` for any heap. -/
theorem den_op_bin {h : ℕ → Option (Obj T)} {a b e u : ℕ} {t t' : Expr T} (o : Op) (ha : Den h (value h a) t) (hb : Den h (value h b) t')
    (he : h e = none) (hu : h u = none) (hne : e ≠ u) :
    (∀ i x, h i = some x → PyExpr.op h a (makeBin o) [b] e u i = some x) ∧ (∃ x, PyExpr.op h a (makeBin o) [b] e u u = some x) ∧
      Den (PyExpr.op h a (makeBin o) [b] e u) (value (PyExpr.op h a (makeBin o) [b] e u) u) (.bin o t t') := by
  have keep : ∀ i x, h i = some x → PyExpr.op h a (makeBin o) [b] e u i = some x := by
    intro i x hx
    refine alloc_mono ?_ i x (alloc_mono he i x hx)
    unfold PyExpr.alloc; rw [if_neg hne.symm]; exact hu
  refine ⟨keep, ⟨_, if_pos rfl⟩, ?_⟩
  have hv : value (PyExpr.op h a (makeBin o) [b] e u) u = e := by simp [value, PyExpr.op, PyExpr.alloc]
  rw [hv]
  exact .bin (p := value h a) (q := value h b) (by simp [PyExpr.op, PyExpr.alloc, hne, makeBin]) (ha.mono keep) (hb.mono keep)

theorem den_binary {h h' : ℕ → Option (Obj T)} {a b e u w r : ℕ} {t t' : Expr T} (o : Op) {oa ob : Obj T} (hoa : h a = some oa) (hob : h b = some ob)
    (ha : Den h (value h a) t) (hb : Den h (value h b) t') (he : h e = none)
    (hu : h u = none) (hw : h w = none) (hne : e ≠ u ∧ e ≠ w ∧ u ≠ w) (hr : binary h o a b e u w = some (h', r)) :
    (∀ i x, h i = some x → h' i = some x) ∧ (∃ x, h' r = some x) ∧ Den h' (value h' r) (.bin o t t') := by
  have raw : (∀ v L, oa ≠ .yap v L) → (∀ v L, ob ≠ .yap v L) → some (PyExpr.alloc h e (.bin o a b), e) = some (h', r) →
      (∀ i x, h i = some x → h' i = some x) ∧ (∃ x, h' r = some x) ∧ Den h' (value h' r) (.bin o t t') := by
    intro na nb hr
    simp only [Option.some.injEq, Prod.mk.injEq] at hr
    obtain ⟨rfl, rfl⟩ := hr
    have va : value h a = a := by
      unfold value; rw [hoa]; cases oa <;> first | rfl | exact absurd rfl (na _ _)
    have vb : value h b = b := by
      unfold value; rw [hob]; cases ob <;> first | rfl | exact absurd rfl (nb _ _)
    rw [va] at ha; rw [vb] at hb
    have keep := alloc_mono (o := .bin o a b) he
    refine ⟨keep, ⟨_, if_pos rfl⟩, ?_⟩
    have hv : value (PyExpr.alloc h e (.bin o a b)) e = e := by simp [value, PyExpr.alloc]
    rw [hv]
    exact .bin (by simp [PyExpr.alloc]) (ha.mono keep) (hb.mono keep)
  unfold binary at hr
  rw [hoa, hob] at hr
  cases oa with
  | num v =>
    simp only [wrap, hoa, Option.some.injEq, Prod.mk.injEq] at hr
    obtain ⟨rfl, rfl⟩ := hr
    have keep := alloc_mono (o := .yap a []) hw
    have hva : value (PyExpr.alloc h w (.yap a [])) w = a := by simp [value, PyExpr.alloc]
    have va : value h a = a := by unfold value; rw [hoa]
    have hvb : value (PyExpr.alloc h w (.yap a [])) b = value h b := value_congr (by rw [keep b ob hob, hob])
    have fresh : ∀ i, h i = none → i ≠ w → PyExpr.alloc h w (.yap a []) i = none := by
      intro i hi hne; unfold PyExpr.alloc; rw [if_neg hne]; exact hi
    obtain ⟨k, h1, h2⟩ := den_op_bin (a := w) (b := b) o (t := t) (t' := t') (by rw [hva]; rw [va] at ha; exact ha.mono keep)
      (by rw [hvb]; exact hb.mono keep) (fresh e he hne.2.1) (fresh u hu hne.2.2) hne.1
    exact ⟨fun i x hx => k i x (keep i x hx), h1, h2⟩
  | yap v L =>
    simp only [Option.some.injEq, Prod.mk.injEq] at hr
    obtain ⟨rfl, rfl⟩ := hr
    exact den_op_bin o ha hb he hu hne.1
  | neg p =>
    cases ob with
    | yap v L => simp at hr
    | _ => exact raw (by simp) (by simp) (by simpa using hr)
  | bin o' p q =>
    cases ob with
    | yap v L => simp at hr
    | _ => exact raw (by simp) (by simp) (by simpa using hr)

theorem inv'_step {K : Kernel T} {σ : ℕ → Option (Expr T)} {s s' : State T} {c : Cmd T} (hs : Inv' σ s) (h : Step K s c s')
    (hn : ∀ i, c ≠ .collect i) : Inv' (specStep K σ c) s' := by
  cases h with
  | @new x i v hi =>
    exact inv'_assign hs (alloc_mono hi) ⟨⟨_, if_pos rfl⟩, by
      rw [show value (PyExpr.alloc s.heap i (.num v)) i = i by simp [value, PyExpr.alloc]]
      exact .num (by simp [PyExpr.alloc])⟩
  | @bin x y z a b e u w r o h' hy hz he hu hw hne hr =>
    obtain ⟨t, ht, ⟨oa, hoa⟩, hta⟩ := hs.den y a hy
    obtain ⟨t', ht', ⟨ob, hob⟩, htb⟩ := hs.den z b hz
    obtain ⟨keep, hh⟩ := den_binary o hoa hob hta htb he hu hw hne hr
    have := inv'_assign (x := x) hs keep hh
    simpa [specStep, ht, ht'] using this
  | @neg x y a e u r h' hy he hu hne hr =>
    obtain ⟨t, ht, ⟨oa, hoa⟩, hta⟩ := hs.den y a hy
    unfold PyExpr.neg at hr
    rw [hoa] at hr
    have plain : (∀ v L, oa ≠ .yap v L) → some (PyExpr.alloc s.heap e (.neg a), e) = some (h', r) → Inv' (specStep K σ (.neg x y e u)) (s.assign h' x (some r)) := by
      intro na hr
      simp only [Option.some.injEq, Prod.mk.injEq] at hr
      obtain ⟨rfl, rfl⟩ := hr
      have va : value s.heap a = a := by
        unfold value; rw [hoa]; cases oa <;> first | rfl | exact absurd rfl (na _ _)
      rw [va] at hta
      have keep := alloc_mono (o := .neg a) he
      have := inv'_assign (x := x) (r := e) (t := .neg t) hs keep ⟨⟨_, if_pos rfl⟩, by
        rw [show value (PyExpr.alloc s.heap e (.neg a)) e = e by simp [value, PyExpr.alloc]]
        exact .neg (by simp [PyExpr.alloc]) (hta.mono keep)⟩
      simpa [specStep, ht] using this
    cases oa with
    | yap v L =>
      simp only [Option.some.injEq, Prod.mk.injEq] at hr
      obtain ⟨rfl, rfl⟩ := hr
      have keep : ∀ i x, s.heap i = some x → PyExpr.op s.heap a makeNeg [] e u i = some x := by
        intro i x hx
        refine alloc_mono ?_ i x (alloc_mono he i x hx)
        unfold PyExpr.alloc; rw [if_neg hne.symm]; exact hu
      have := inv'_assign (x := x) (r := u) (t := .neg t) hs keep ⟨⟨_, if_pos rfl⟩, by
        rw [show value (PyExpr.op s.heap a makeNeg [] e u) u = e by simp [value, PyExpr.op, PyExpr.alloc]]
        exact .neg (p := value s.heap a) (by simp [PyExpr.op, PyExpr.alloc, hne, makeNeg]) (hta.mono keep)⟩
      simpa [specStep, ht] using this
    | num v => exact plain (by simp) hr
    | neg p => exact plain (by simp) hr
    | bin o p q => exact plain (by simp) hr
  | @call x y a i prec v fuel hy hi hv =>
    obtain ⟨t, ht, -, hta⟩ := hs.den y a hy
    have hv' : v = t.eval K prec := by
      rcases hta.sound K fuel prec with h | h
      · unfold PyExpr.call at hv; rw [h] at hv; cases hv
      · unfold PyExpr.call at hv; rw [h] at hv; cases hv; rfl
    have := inv'_assign (x := x) (r := i) (t := .num v) hs (alloc_mono (o := .num v) hi) ⟨⟨_, if_pos rfl⟩, by
      rw [show value (PyExpr.alloc s.heap i (.num v)) i = i by simp [value, PyExpr.alloc]]
      exact .num (by simp [PyExpr.alloc])⟩
    simpa [specStep, ht, hv'] using this
  | @copy x y =>
    constructor
    · intro z a hz
      simp only [State.assign] at hz ⊢
      by_cases h : z = x
      · rw [if_pos h] at hz; simpa [specStep, h] using hs.den y a hz
      · rw [if_neg h] at hz; simpa [specStep, h] using hs.den z a hz
    · intro z hz
      simp only [State.assign] at hz
      by_cases h : z = x
      · rw [if_pos h] at hz; simpa [specStep, h] using hs.none y hz
      · rw [if_neg h] at hz; simpa [specStep, h] using hs.none z hz
  | @del x =>
    constructor
    · intro z a hz
      simp only [State.assign] at hz ⊢
      by_cases h : z = x
      · rw [if_pos h] at hz; cases hz
      · rw [if_neg h] at hz; simpa [specStep, h] using hs.den z a hz
    · intro z hz
      simp only [State.assign] at hz
      by_cases h : z = x
      · simp [specStep, h]
      · rw [if_neg h] at hz; simpa [specStep, h] using hs.none z hz
  | @collect i hi => exact absurd rfl (hn i)

theorem inv'_run {K : Kernel T} {cs : List (Cmd T)} : ∀ {σ : ℕ → Option (Expr T)} {s s' : State T}, Inv' σ s → Run K s cs s' →
    (∀ c ∈ cs, ∀ i, c ≠ .collect i) → Inv' (specRun K σ cs) s' := by
  induction cs with
  | nil => intro σ s s' hs h _; cases h; exact hs
  | cons c cs ih =>
    intro σ s s' hs h hn
    cases h with
    | cons h hs' => exact ih (inv'_step hs h (hn c (by simp))) hs' fun c hc => hn c (by simp [hc])

end PyExprLemma

/-- **C74.**  As long as nothing has been collected, all programs compute with the right expressions, also those that negate numbers. -/
theorem py_expression_alive (K : Kernel T) {cs : List (PyExpr.Cmd T)} {s : State T} (h : PyExpr.Run K (empty T) cs s)
    (hn : ∀ c ∈ cs, ∀ i, c ≠ .collect i) (x : ℕ) :
    match specRun K (fun _ => none) cs x with
    | none => s.var x = none
    | some t => ∃ a, s.var x = some a ∧
        (∃ N, ∀ fuel, N ≤ fuel → ∀ prec, PyExpr.call K s.heap fuel a prec = .ok (t.eval K prec)) ∧
        ∀ fuel prec, PyExpr.call K s.heap fuel a prec ≠ .ub := by
  have hi := inv'_run (σ := fun _ => none) ⟨fun _ _ h => by simp [empty] at h, fun _ _ => rfl⟩ h hn
  cases hv : s.var x with
  | none => rw [hi.none x hv]
  | some a =>
    obtain ⟨t, ht, -, hh⟩ := hi.den x a hv
    rw [ht]
    refine ⟨a, rfl, hh.eval K, fun fuel prec => ?_⟩
    rcases hh.sound K fuel prec with h | h <;> (unfold PyExpr.call; rw [h]; simp)

/-- **C74, finding F34.**  `b = -a; c = a + a`: then `b + c` is a `TypeError` while `c + b` is not. -/
theorem py_neg_type_error (K : Kernel T) (v : T) :
    ∃ s : State T, PyExpr.Run K (empty T) [.new 0 v 0, .neg 1 0 1 2, .bin 2 .add 0 0 2 3 4] s ∧
      (∀ x e u w s', ¬ PyExpr.Step K s (.bin x .add 1 2 e u w) s') ∧ ∃ s', PyExpr.Step K s (.bin 3 .add 2 1 5 6 7) s' := by
  refine ⟨_, .cons (.new rfl) (.cons (.neg (a := 0) (e := 1) (u := 2) rfl rfl rfl (by decide) rfl)
    (.cons (.bin (a := 0) (b := 0) rfl rfl rfl rfl rfl (by decide) rfl) .nil)), ?_, _, .bin (a := 3) (b := 1) rfl rfl rfl rfl rfl (by decide) rfl⟩
  intro x e u w s' hs
  cases hs with
  | bin hy hz _ _ _ _ hr =>
    cases hy; cases hz
    exact (Option.some_ne_none _ (show (none : Option ((ℕ → Option (Obj T)) × ℕ)) = some _ from hr).symm)

/-- The hypotheses of the theorems can be met: the addresses of collected objects are used again and the operands of an expression are deleted before it
is evaluated. -/
example (K : Kernel T) (v w : T) :
    let cs : List (PyExpr.Cmd T) :=
      [.new 0 v 0, .del 0, .collect 0, .new 1 w 0, .new 2 v 1, .bin 1 .add 1 2 2 3 4, .del 2, .neg 1 1 5 6, .bin 3 .mul 1 1 7 8 9, .del 1, .call 4 3 64 10]
    (∃ s, PyExpr.Run K (empty T) cs s) ∧ NoPlainNeg K (fun _ => none) cs ∧
      specRun K (fun _ => none) cs 3 = some (.bin .mul (.neg (.bin .add (.num w) (.num v))) (.neg (.bin .add (.num w) (.num v)))) := by
  refine ⟨?_, ?_, rfl⟩
  · refine ⟨_, .cons (.new rfl) (.cons .del (.cons (.collect fun x a hx => ?_) (.cons (.new rfl) (.cons (.new rfl)
      (.cons (.bin (a := 0) (b := 1) rfl rfl rfl rfl rfl (by decide) rfl) (.cons .del (.cons (.neg (a := 3) rfl rfl rfl (by decide) rfl)
        (.cons (.bin (a := 6) (b := 6) rfl rfl rfl rfl rfl (by decide) rfl) (.cons .del (.cons (.call (fuel := 4) (a := 8) rfl rfl rfl) .nil))))))))))⟩
    simp only [State.assign, empty] at hx
    grind
  · simp only [NoPlainNeg]
    refine ⟨?_, ?_, ?_, ?_, ?_, ?_, ?_, ?_, ?_, ?_, ?_, trivial⟩ <;> intro x y e u t hc ht <;> cases hc <;> cases ht <;> rfl

end ExactReal.Props
