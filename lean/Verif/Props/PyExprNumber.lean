import Verif.Model.PyExprNumber
import Verif.Props.PyExpr

/-!
# C74: expressions with Python numbers as operands

Finding F40: the expression `a - 1` in Python refers to a C++ number that only exists while the expression is being built.  Its evaluation is undefined
behaviour, no matter what the garbage collector does.  `a - Arb(1)` is the way to write this (`py_expression_partial`).
-/

namespace ExactReal.Props
open ExactReal.PyExpr PyExprLemma

variable {T : Type}

namespace PyExprLemma

/-- Evaluation of an expression one of whose operands is gone. -/
theorem eval_gone (K : Kernel T) {h : ℕ → Option (Obj T)} {e p t : ℕ} {o : Op} {left : Bool} (he : h e = some (makeNumber o left p t)) (ht : h t = none)
    {v : ℤ → T} {N : ℕ} (hp : ∀ prec, (∀ fuel, N ≤ fuel → PyExpr.eval K h prec fuel p = .ok (v prec)) ∧
      ∀ fuel, PyExpr.eval K h prec fuel p = .pending ∨ PyExpr.eval K h prec fuel p = .ok (v prec)) (prec : ℤ) :
    (∀ fuel, N + 2 ≤ fuel → PyExpr.eval K h prec fuel e = .ub) ∧
      ∀ fuel, PyExpr.eval K h prec fuel e = .pending ∨ PyExpr.eval K h prec fuel e = .ub := by
  have gone : ∀ fuel, PyExpr.eval K h prec fuel t = .pending ∨ PyExpr.eval K h prec fuel t = .ub := by
    rintro (_ | fuel)
    · exact .inl rfl
    · right; simp [PyExpr.eval, ht]
  have gone' : ∀ fuel, 1 ≤ fuel → PyExpr.eval K h prec fuel t = .ub := by
    rintro (_ | fuel) hf
    · omega
    · simp [PyExpr.eval, ht]
  constructor
  · rintro (_ | fuel) hf
    · omega
    · cases left
      · rw [PyExpr.eval, he]
        simp only [makeNumber, Bool.false_eq_true, if_false]
        rw [(hp prec).1 fuel (by omega), gone' fuel (by omega)]; rfl
      · rw [PyExpr.eval, he]
        simp only [makeNumber, if_true]
        rw [gone' fuel (by omega)]; rfl
  · rintro (_ | fuel)
    · exact .inl rfl
    · cases left
      · rw [PyExpr.eval, he]
        simp only [makeNumber, Bool.false_eq_true, if_false]
        rcases (hp prec).2 fuel with h1 | h1 <;> rcases gone fuel with h2 | h2 <;> rw [h1] <;> try rw [h2]
        all_goals first | exact .inl rfl | exact .inr rfl
      · rw [PyExpr.eval, he]
        simp only [makeNumber, if_true]
        rcases gone fuel with h2 | h2 <;> rw [h2]
        · exact .inl rfl
        · exact .inr rfl

theorem Held.evals (K : Kernel T) {h : ℕ → Option (Obj T)} {a : ℕ} {t : Expr T} (ht : Held h a t) :
    ∃ N, ∀ prec, (∀ fuel, N ≤ fuel → PyExpr.eval K h prec fuel (value h a) = .ok (t.eval K prec)) ∧
      ∀ fuel, PyExpr.eval K h prec fuel (value h a) = .pending ∨ PyExpr.eval K h prec fuel (value h a) = .ok (t.eval K prec) := by
  obtain ⟨N, hN⟩ := ht.eval K
  exact ⟨N, fun prec => ⟨fun fuel hf => hN fuel hf prec, fun fuel => ht.sound K fuel prec⟩⟩

end PyExprLemma

namespace PyExprLemma

/-- What `x ∘ n` creates. -/
theorem buildNumber_spec {h : ℕ → Option (Obj T)} {a : ℕ} {x : Expr T} (hh : Held h a x) (o : Op) (left : Bool)
    (hl : left = true → ∃ v, h a = some (.num v)) (n : T) (t e u w : ℕ)
    (ht : h t = none) (he : h e = none) (hu : h u = none) (hw : h w = none) (hne : [t, e, u, w].Nodup) :
    ∃ h' L, buildNumber h o left a n t e u w = some (h', u) ∧ (∀ i b, h i = some b → h' i = some b ∧ expire h' t i = some b) ∧
      h' u = some (.yap e L) ∧ h' e = some (makeNumber o left (value h a) t) ∧ h' t = some (.num n) ∧ e ≠ t ∧ u ≠ t := by
  simp only [List.nodup_cons, List.mem_cons, List.not_mem_nil, or_false, not_or, List.nodup_nil, not_false_eq_true, and_true] at hne
  obtain ⟨⟨te, tu, tw⟩, ⟨eu, ew⟩, uw⟩ := hne
  have fresh : ∀ i b, h i = some b → i ≠ t ∧ i ≠ e ∧ i ≠ u ∧ i ≠ w := by
    intro i b hb
    refine ⟨?_, ?_, ?_, ?_⟩ <;> (rintro rfl; simp_all)
  rcases hh.cases with ⟨v, hv⟩ | ⟨v, L, hv⟩
  · have va : value h a = a := by simp [value, hv]
    refine ⟨_, [a, if left then a else w], by unfold buildNumber; rw [hv], ?_, ?_, ?_, ?_, Ne.symm te, Ne.symm tu⟩
    · intro i b hb
      obtain ⟨h1, h2, h3, h4⟩ := fresh i b hb
      cases left <;> simp [expire, PyExpr.alloc, wrap, hv, h1, h2, h3, h4, hb]
    · cases left <;> simp [PyExpr.alloc, wrap, hv]
    · simp [PyExpr.alloc, eu, va]
    · simp [PyExpr.alloc, te, tu]
  · have hleft : left = false := by
      cases left with
      | false => rfl
      | true => obtain ⟨v', h2⟩ := hl rfl; rw [hv] at h2; cases h2
    subst hleft
    have va : value h a = v := by simp [value, hv]
    refine ⟨_, [v, a], by unfold buildNumber; rw [hv]; rfl, ?_, ?_, ?_, ?_, Ne.symm te, Ne.symm tu⟩
    · intro i b hb
      obtain ⟨h1, h2, h3, h4⟩ := fresh i b hb
      simp [expire, PyExpr.alloc, h1, h2, h3, hb]
    · simp [PyExpr.alloc]
    · simp [PyExpr.alloc, eu, va]
    · simp [PyExpr.alloc, te, tu]

end PyExprLemma

/-- **C74, finding F40.**  In any program as in `py_expression_partial`, with any interleaving of the garbage collector and any addresses, let `y` be a variable that
holds a number or an expression.  `y ∘ n` with a Python number `n` is not an error (nor is `n ∘ y` for a number `y`), but the evaluation of the result, in whatever precision,
never gives a value: it is undefined behaviour.  All other variables keep their values. -/
theorem py_number_operand_fails (K : Kernel T) {cs : List (PyExpr.Cmd T)} {s : State T} (h : PyExpr.Run K (empty T) cs s)
    (hn : NoPlainNeg K (fun _ => none) cs) (y : ℕ) (x : Expr T) (hy : specRun K (fun _ => none) cs y = some x) (o : Op) (left : Bool)
    (hl : left = true → ∃ a v, s.var y = some a ∧ s.heap a = some (.num v)) (n : T) (t e u w : ℕ)
    (ht : s.heap t = none) (he : s.heap e = none) (hu : s.heap u = none) (hw : s.heap w = none) (hne : [t, e, u, w].Nodup) :
    ∃ a h' r, s.var y = some a ∧ binaryNumber s.heap o left a n t e u w = some (h', r) ∧
      (∃ N, ∀ fuel, N ≤ fuel → ∀ prec, PyExpr.call K h' fuel r prec = .ub) ∧
      (∀ fuel prec v, PyExpr.call K h' fuel r prec ≠ .ok v) ∧
      ∀ z b, s.var z = some b → ∃ x', specRun K (fun _ => none) cs z = some x' ∧
        ∃ N, ∀ fuel, N ≤ fuel → ∀ prec, PyExpr.call K h' fuel b prec = .ok (x'.eval K prec) := by
  have hi := inv_run inv_empty h hn
  obtain ⟨a, ha⟩ : ∃ a, s.var y = some a := by
    cases hv : s.var y with
    | none => rw [hi.none y hv] at hy; cases hy
    | some a => exact ⟨a, rfl⟩
  obtain ⟨x', hx', hh⟩ := hi.held y a ha
  rw [hy] at hx'; cases hx'
  obtain ⟨h', L, hb, keep, hu', he', ht', et, ut⟩ := buildNumber_spec hh o left (fun h => by
    obtain ⟨a', v, h1, h2⟩ := hl h; rw [ha] at h1; cases h1; exact ⟨v, h2⟩) n t e u w ht he hu hw hne
  have held : ∀ {b : ℕ} {x : Expr T}, Held s.heap b x → Held (expire h' t) b x := fun hb => hb.congr fun i b _ hb => (keep i b hb).2
  have hv : value (expire h' t) a = value s.heap a := by
    obtain ⟨oa, hoa⟩ := hh.alive
    exact value_congr (by rw [(keep _ _ hoa).2, hoa])
  have vu : value (expire h' t) u = e := by simp [value, expire, ut, hu']
  obtain ⟨N, hN⟩ := (held hh).evals K
  rw [hv] at hN
  have key := eval_gone K (h := expire h' t) (e := e) (t := t) (o := o) (left := left) (by simpa [expire, et] using he') (by simp [expire]) hN
  refine ⟨a, expire h' t, u, ha, by unfold binaryNumber; rw [hb]; rfl, ⟨N + 2, fun fuel hf prec => ?_⟩, fun fuel prec v => ?_, fun z b hz => ?_⟩
  · unfold PyExpr.call; rw [vu]; exact (key prec).1 fuel hf
  · unfold PyExpr.call; rw [vu]
    rcases (key prec).2 fuel with h1 | h1 <;> rw [h1] <;> simp
  · obtain ⟨x', hx', hz'⟩ := hi.held z b hz
    exact ⟨x', hx', (held hz').eval K⟩

/-- **C74.**  Only the lifetime of the number is at fault: as long as the C++ number exists, the expression that is built has the value of `y ∘ n`, respectively `n ∘ y`. -/
theorem py_number_operand_value_partial (K : Kernel T) {cs : List (PyExpr.Cmd T)} {s : State T} (h : PyExpr.Run K (empty T) cs s)
    (hn : NoPlainNeg K (fun _ => none) cs) (y : ℕ) (x : Expr T) (hy : specRun K (fun _ => none) cs y = some x) (o : Op) (left : Bool)
    (hl : left = true → ∃ a v, s.var y = some a ∧ s.heap a = some (.num v)) (n : T) (t e u w : ℕ)
    (ht : s.heap t = none) (he : s.heap e = none) (hu : s.heap u = none) (hw : s.heap w = none) (hne : [t, e, u, w].Nodup) :
    ∃ a h' r, s.var y = some a ∧ buildNumber s.heap o left a n t e u w = some (h', r) ∧
      ∃ N, ∀ fuel, N ≤ fuel → ∀ prec, PyExpr.call K h' fuel r prec =
        .ok (if left then K.bin o prec n (x.eval K prec) else K.bin o prec (x.eval K prec) n) := by
  have hi := inv_run inv_empty h hn
  obtain ⟨a, ha⟩ : ∃ a, s.var y = some a := by
    cases hv : s.var y with
    | none => rw [hi.none y hv] at hy; cases hy
    | some a => exact ⟨a, rfl⟩
  obtain ⟨x', hx', hh⟩ := hi.held y a ha
  rw [hy] at hx'; cases hx'
  obtain ⟨h', L, hb, keep, hu', he', ht', et, ut⟩ := buildNumber_spec hh o left (fun h => by
    obtain ⟨a', v, h1, h2⟩ := hl h; rw [ha] at h1; cases h1; exact ⟨v, h2⟩) n t e u w ht he hu hw hne
  have held : Held h' a x := hh.congr fun i b _ hb => (keep i b hb).1
  have hv : value h' a = value s.heap a := by
    obtain ⟨oa, hoa⟩ := hh.alive
    exact value_congr (by rw [(keep _ _ hoa).1, hoa])
  have vu : value h' u = e := by simp [value, hu']
  obtain ⟨N, hN⟩ := held.eval K
  rw [hv] at hN
  refine ⟨a, h', u, ha, hb, N + 2, ?_⟩
  rintro (_ | _ | fuel) hf prec
  · omega
  · omega
  · have ev : PyExpr.eval K h' prec (fuel + 1) t = .ok n := by simp [PyExpr.eval, ht']
    unfold PyExpr.call; rw [vu, PyExpr.eval, he']
    cases left
    · simp only [makeNumber, Bool.false_eq_true, if_false]
      rw [hN (fuel + 1) (by omega), ev]; rfl
    · simp only [makeNumber, if_true]
      rw [hN (fuel + 1) (by omega), ev]; rfl

/-- **C74.**  `n ∘ y` with a Python number `n` is an error when `y` is an expression. -/
theorem py_number_operand_left (h : ℕ → Option (Obj T)) (o : Op) (a v : ℕ) (L : List ℕ) (ha : h a = some (.yap v L)) (n : T) (t e u w : ℕ) :
    binaryNumber h o true a n t e u w = none := by
  unfold binaryNumber buildNumber; rw [ha]; rfl

/-- The hypotheses are met: `a = Arb(v); a - n` and `n - a`. -/
example (K : Kernel T) (v n : T) (left : Bool) : ∃ h' r, binaryNumber (PyExpr.alloc (empty T).heap 0 (.num v)) .sub left 0 n 1 2 3 4 = some (h', r) ∧
    ∃ N, ∀ fuel, N ≤ fuel → ∀ prec, PyExpr.call K h' fuel r prec = .ub := by
  obtain ⟨a, h', r, ha, hb, hub, -⟩ := py_number_operand_fails (T := T) K (cs := [.new 0 v 0]) (.cons (.new rfl) .nil) ⟨by simp, trivial⟩ 0 (.num v) rfl .sub left
    (fun _ => ⟨0, v, rfl, rfl⟩) n 1 2 3 4 rfl rfl rfl rfl (by decide)
  cases ha
  exact ⟨h', r, hb, hub⟩

end ExactReal.Props
