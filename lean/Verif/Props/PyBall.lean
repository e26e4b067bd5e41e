import Verif.Spec.PyBall
import Verif.Props.BallSpecial

/-!
# Comparisons of balls in Python (C91)
-/

namespace ExactReal.Props

open XBall (Answers points)
open XBallAux

theorem right_of {r : PyAnswer} {R : EReal → EReal → Prop} {a b : Set EReal} (h1 : r = .returns true ↔ ∀ x ∈ a, ∀ y ∈ b, R x y)
    (h2 : r = .returns false ↔ ∀ x ∈ a, ∀ y ∈ b, ¬ R x y) : PyAnswer.Right r R a b := by
  refine ⟨h1, h2, ?_⟩
  have e : r = .precisionError ↔ r ≠ .returns true ∧ r ≠ .returns false := by rcases r with (_ | _) | _ <;> simp
  rw [e, Ne, Ne, h1, h2]
  push Not
  exact and_comm

theorem answers_rel (op : PyRel) {a b : XBall} (ha : a.WF) (hb : b.WF) (na : a.mid ≠ .nan) (nb : b.mid ≠ .nan) : Answers (op.cpp a b) op.Holds a b := by
  obtain ⟨h1, h2, h3, h4, h5, h6⟩ := xball_compare ha hb na nb
  cases op <;> assumption

theorem right_swap {r : PyAnswer} {op : PyRel} {a b : Set EReal} (h : PyAnswer.Right r op.reflected.Holds b a) : PyAnswer.Right r op.Holds a b := by
  have e : ∀ x y, op.reflected.Holds y x ↔ op.Holds x y := by
    intro x y; cases op <;> simp [PyRel.reflected, PyRel.Holds, eq_comm]
  obtain ⟨h1, h2, -⟩ := h
  simp only [e] at h1 h2
  exact right_of (h1.trans ⟨fun h x hx y hy => h y hy x hx, fun h x hx y hy => h y hy x hx⟩)
    (h2.trans ⟨fun h x hx y hy => h y hy x hx, fun h x hx y hy => h y hy x hx⟩)

theorem relation_right (op : PyRel) {a : XBall} {y : PyOperand} (ha : a.WF) (na : a.mid ≠ .nan) (hy : y.Valid) (ny : y.Determinate) :
    PyAnswer.Right (a.pyRelation op y) op.Holds a.points y.points := by
  have key (b : XBall) (hb : b.WF) (nb : b.mid ≠ .nan) : PyAnswer.Right (.unwrap (op.cpp a b)) op.Holds a.points b.points := by
    obtain ⟨h1, h2⟩ := answers_rel op ha hb na nb
    refine right_of ?_ ?_
    · rw [← h1]; rcases op.cpp a b with _ | _ | _ <;> simp [PyAnswer.unwrap]
    · rw [← h2]; rcases op.cpp a b with _ | _ | _ <;> simp [PyAnswer.unwrap]
  cases y with
  | ball b => exact key b hy ny
  | int t n =>
    have hp : (⟨.fin n, some 0⟩ : XBall).points = PyOperand.points (.int t n) := by
      rw [points_eq rfl]; simp [XBall.lower, XBall.upper, XArf.ereal, PyOperand.points]
    rw [XBall.pyRelation, XBall.cmpInt, (xball_of_int (by norm_num) t hy).1, ← hp]
    exact key _ (by simp [XBall.WF]) (by simp)

/-- **C91**: a comparison of balls and integers in Python returns `True` if the relation holds for all the numbers that the operands may stand for, `False` if
it holds for none, and raises `PrecisionError` if it holds for some but not for others. -/
theorem py_ball_compare (op : PyRel) {x y : PyOperand} (hx : x.Valid) (hy : y.Valid) (nx : x.Determinate) (ny : y.Determinate) :
    PyAnswer.Right (x.compare op y) op.Holds x.points y.points := by
  cases x with
  | ball a => exact relation_right op hx nx hy ny
  | int t m =>
    cases y with
    | ball b => exact right_swap (relation_right op.reflected hy ny (y := .int t m) hx trivial)
    | int t' n =>
      have c1 : ((m : ℝ) : EReal) < ((n : ℝ) : EReal) ↔ m < n := by norm_cast
      have c2 : ((m : ℝ) : EReal) ≤ ((n : ℝ) : EReal) ↔ m ≤ n := by norm_cast
      have c3 : ((m : ℝ) : EReal) = ((n : ℝ) : EReal) ↔ m = n := by norm_cast
      have c4 : ((n : ℝ) : EReal) < ((m : ℝ) : EReal) ↔ n < m := by norm_cast
      have c5 : ((n : ℝ) : EReal) ≤ ((m : ℝ) : EReal) ↔ n ≤ m := by norm_cast
      refine right_of ?_ ?_ <;> cases op <;>
        simp [PyOperand.compare, PyRel.int, PyOperand.points, PyRel.Holds, c1, c2, c3, c4, c5, -EReal.coe_lt_coe_iff, -EReal.coe_le_coe_iff, -EReal.coe_eq_coe_iff]

/-- **C91**: every comparison with an indeterminate raises `PrecisionError`. -/
theorem py_ball_compare_nan (op : PyRel) {x y : PyOperand} (h : ¬ x.Determinate ∨ ¬ y.Determinate) : x.compare op y = .precisionError := by
  have key (op : PyRel) {a b : XBall} (h : a.mid = .nan ∨ b.mid = .nan) : op.cpp a b = none := by
    obtain ⟨h1, h2, h3, h4, h5, h6⟩ := xball_compare_nan h
    cases op <;> assumption
  rcases x with a | ⟨t, m⟩ <;> rcases y with b | ⟨t', n⟩ <;> simp only [PyOperand.Determinate, not_not, not_true_eq_false, or_false, false_or] at h
  · simp [PyOperand.compare, XBall.pyRelation, key op h, PyAnswer.unwrap]
  · simp [PyOperand.compare, XBall.pyRelation, XBall.cmpInt, key op (.inl h), PyAnswer.unwrap]
  · simp [PyOperand.compare, XBall.pyRelation, XBall.cmpInt, key op.reflected (.inl h), PyAnswer.unwrap]

/-- An answer is right for any numbers that the operands may stand for. -/
theorem py_ball_answer {op : PyRel} {x y : PyOperand} (hx : x.Valid) (hy : y.Valid) {b : Bool} (h : x.compare op y = .returns b) {u v : EReal} (hu : u ∈ x.points)
    (hv : v ∈ y.points) : b = true ↔ op.Holds u v := by
  by_cases n : x.Determinate ∧ y.Determinate
  · obtain ⟨h1, h2, -⟩ := py_ball_compare op hx hy n.1 n.2
    cases b with
    | true => simpa using h1.1 h u hu v hv
    | false => simpa using h2.1 h u hu v hv
  · rw [not_and_or] at n
    rw [py_ball_compare_nan op n] at h; cases h

/-- **C91**: a program that looks at balls and integers only through comparisons and that does not raise `PrecisionError` returns what it would return for any
exact numbers in the balls (with handlers of `PrecisionError`: that took the handlers where it did). -/
theorem py_program {I α : Type} {input : I → PyOperand} (hv : ∀ i, (input i).Valid) {x : I → EReal} (hx : ∀ i, x i ∈ (input i).points) {p : PyProg I α} {a : α}
    (h : p.run input = some a) : p.Exact x a := by
  induction p with
  | ret b => cases h; exact .ret _
  | ask op i j next ih =>
    rw [PyProg.run] at h
    cases hc : (input i).compare op (input j) with
    | returns b =>
      rw [hc] at h
      exact .ask (py_ball_answer (hv i) (hv j) hc (hx i) (hx j)) (ih b h)
    | precisionError => rw [hc] at h; cases h
  | attempt op i j next handler ih ih' =>
    rw [PyProg.run] at h
    cases hc : (input i).compare op (input j) with
    | returns b =>
      rw [hc] at h
      exact .attempt (py_ball_answer (hv i) (hv j) hc (hx i) (hx j)) (ih b h)
    | precisionError => rw [hc] at h; exact .handler (ih' h)

open Classical in
theorem exact_plain {I α : Type} {x : I → EReal} {p : PyProg I α} {a : α} (hp : p.Plain) (h : p.Exact x a) : p.exact x = a := by
  induction h with
  | ret => rfl
  | @ask op i j next b a hb t ih =>
    rw [PyProg.exact]
    have : decide (op.Holds (x i) (x j)) = b := by cases b <;> simp_all
    rw [this]; exact ih (hp b)
  | attempt => exact hp.elim
  | handler => exact hp.elim

/-- **C91**: the same without handlers. -/
theorem py_program_plain {I α : Type} {input : I → PyOperand} (hv : ∀ i, (input i).Valid) {x : I → EReal} (hx : ∀ i, x i ∈ (input i).points) {p : PyProg I α}
    (hp : p.Plain) {a : α} (h : p.run input = some a) : p.exact x = a := exact_plain hp (py_program hv hx h)

/-- **C91**: a sorting algorithm (that is right for all exact numbers) sorts balls for all choices of numbers in them, or raises. -/
theorem py_sorted {n : ℕ} {p : PyProg (Fin n) (List (Fin n))} (hp : p.Plain)
    (sorts : ∀ x : Fin n → EReal, (p.exact x).Perm (List.finRange n) ∧ (p.exact x).Pairwise fun i j => x i ≤ x j)
    {input : Fin n → PyOperand} (hv : ∀ i, (input i).Valid) {l : List (Fin n)} (h : p.run input = some l) :
    l.Perm (List.finRange n) ∧ l.Pairwise fun i j => ∀ x ∈ (input i).points, ∀ y ∈ (input j).points, x ≤ y := by
  have ne : ∀ i, ∃ x, x ∈ (input i).points := by
    intro i
    have := hv i
    cases hi : input i with
    | ball a => rw [hi] at this; exact nonempty this
    | int t n => exact ⟨_, rfl⟩
  choose c hc using ne
  have perm : l.Perm (List.finRange n) := (py_program_plain hv hc hp h) ▸ (sorts c).1
  refine ⟨perm, ?_⟩
  rw [List.pairwise_iff_forall_sublist]
  intro i j hs u hu v hw
  have hij : i ≠ j := by simpa using hs.nodup (perm.nodup_iff.2 (List.nodup_finRange n))
  let x := Function.update (Function.update c i u) j v
  have hx : ∀ k, x k ∈ (input k).points := by
    intro k
    simp only [x, Function.update_apply]
    split_ifs with h1 h2
    · subst h1; exact hw
    · subst h2; exact hu
    · exact hc k
  have e := py_program_plain hv hx hp h
  have := (sorts x).2
  rw [e, List.pairwise_iff_forall_sublist] at this
  have := this hs
  simpa [x, Function.update_apply, hij] using this

/-- Sorting two numbers. -/
def sortTwo : PyProg (Fin 2) (List (Fin 2)) := .ask .lt 1 0 fun b => .ret (if b then [1, 0] else [0, 1])

example : sortTwo.Plain := fun _ => trivial

theorem sortTwo_sorts (x : Fin 2 → EReal) : (sortTwo.exact x).Perm (List.finRange 2) ∧ (sortTwo.exact x).Pairwise fun i j => x i ≤ x j := by
  simp only [sortTwo, PyProg.exact, PyRel.Holds]
  by_cases h : x 1 < x 0
  · simp only [h, decide_true, if_true]
    exact ⟨by decide, by simpa using h.le⟩
  · simp only [h, decide_false, Bool.false_eq_true, if_false]
    exact ⟨by decide, by simpa using h⟩

/-- The ball `[1 ± 1/2]` and the integer 2. -/
def twoInputs : Fin 2 → PyOperand := ![.int ⟨true, 32⟩ 2, .ball ⟨.fin 1, some (1 / 2)⟩]

example : sortTwo.run twoInputs = some [1, 0] ∧ (∀ i, (twoInputs i).Valid) ∧ (∀ i, (twoInputs i).Determinate) := by
  refine ⟨by decide +kernel, ?_, ?_⟩
  · intro i; fin_cases i
    · exact ⟨by decide, by decide⟩
    · simp [twoInputs, PyOperand.Valid, XBall.WF]
  · intro i; fin_cases i <;> simp [twoInputs, PyOperand.Determinate]

/-- A ball does not compare to itself unless it is exact (the example of `PrecisionError`), and `1 < a` is answered by the method `>` of the ball. -/
example : (PyOperand.ball ⟨.fin 1, some (1 / 2)⟩).compare .eq (.ball ⟨.fin 1, some (1 / 2)⟩) = .precisionError ∧
    (PyOperand.int ⟨true, 32⟩ 0).compare .lt (.ball ⟨.fin 1, some (1 / 2)⟩) = .returns true := by
  decide +kernel

end ExactReal.Props
