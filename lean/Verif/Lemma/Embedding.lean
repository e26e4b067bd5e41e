import Verif.Lemma.Effort
import Verif.Lemma.Interval
import Verif.Spec.Embedding

/-! # Approximations with the state of the embedding -/

namespace ExactReal

/-- The result of a call without the state it leaves behind. -/
def Out.value {α : Type} (o : Out (α × ℕ)) : Out α := o >>= fun p => .ok p.1

theorem Out.value_eq_ok {α : Type} {o : Out (α × ℕ)} {a : α} : o.value = .ok a ↔ ∃ l, o = .ok (a, l) := by
  rw [Out.value, Out.bind_eq_ok]
  constructor
  · rintro ⟨⟨a', l⟩, h1, h2⟩
    cases h2
    exact ⟨l, h1⟩
  · rintro ⟨l, h⟩
    exact ⟨_, h, rfl⟩

/-- The common shape of the loops, with a state. -/
def searchE {α : Type} (f : ℕ → ℕ → Out (Option α × ℕ)) : (fuel prec level : ℕ) → Out (α × ℕ)
  | 0, _, _ => .pending
  | fuel + 1, prec, level =>
    match f prec level with
    | .ok (some r, level) => .ok (r, level)
    | .ok (none, level) => searchE f fuel (prec * 2) level
    | .throws e => .throws e
    | .abort => .abort
    | .ub => .ub
    | .pending => .pending

theorem searchE_ok {α : Type} {f : ℕ → ℕ → Out (Option α × ℕ)} {fuel prec l l' : ℕ} {r : α} (h : searchE f fuel prec l = .ok (r, l')) :
    ∃ k l₁, f (prec * 2 ^ k) l₁ = .ok (some r, l') := by
  induction fuel generalizing prec l with
  | zero => simp [searchE] at h
  | succ fuel ih =>
    rw [searchE] at h
    split at h
    · next r' l'' he => exact ⟨0, l, by rw [pow_zero, mul_one, he]; cases h; rfl⟩
    · obtain ⟨k, l₁, hk⟩ := ih h
      exact ⟨k + 1, l₁, by rw [pow_succ']; rwa [mul_assoc] at hk⟩
    all_goals cases h

theorem searchE_within {α : Type} {f : ℕ → ℕ → Out (Option α × ℕ)} {prec : ℕ} (n : ℕ) (hf : ∀ k ≤ n, ∀ l, ∃ o, f (prec * 2 ^ k) l = .ok o)
    (hn : ∀ l, ∃ r l', f (prec * 2 ^ n) l = .ok (some r, l')) {fuel : ℕ} (hfuel : n < fuel) (l : ℕ) : ∃ o, searchE f fuel prec l = .ok o := by
  induction n generalizing prec fuel l with
  | zero =>
    obtain ⟨fuel, rfl⟩ := Nat.exists_eq_succ_of_ne_zero (by omega : fuel ≠ 0)
    obtain ⟨r, l', h⟩ := hn l
    rw [pow_zero, mul_one] at h
    exact ⟨_, by rw [searchE, h]⟩
  | succ n ih =>
    obtain ⟨fuel, rfl⟩ := Nat.exists_eq_succ_of_ne_zero (by omega : fuel ≠ 0)
    obtain ⟨⟨o, l'⟩, h⟩ := hf 0 (by omega) l
    rw [pow_zero, mul_one] at h
    rw [searchE, h]
    cases o with
    | some r => exact ⟨_, rfl⟩
    | none =>
      exact ih (prec := prec * 2) (fun k hk l => by have := hf (k + 1) (by omega) l; rwa [pow_succ', ← mul_assoc] at this)
        (fun l => by have := hn l; rwa [pow_succ', ← mul_assoc] at this) (by omega) l'

theorem coeffAt_max {R : Type} (coeff : ℕ → ℕ → R → Ball) (l p : ℕ) (c : R) : coeffAt coeff (max l p) p c = coeffAt coeff l p c := by
  unfold coeffAt
  rw [max_assoc, max_self]

namespace Elt
variable {P : Type} [DecidableEq P] {R : Type} [CommRing R] [DecidableEq R] [CRing P R]
variable (atoms : Atoms) (F : Arith) (coeff : ℕ → ℕ → R → Ball)

omit [CommRing R] [DecidableEq R] in
theorem arbSum_congr {coeff coeff' : ℕ → R → Ball} {p : ℕ} (h : ∀ c, coeff p c = coeff' p c) (ts : List (RN × R)) :
    ∀ b, arbSum atoms F coeff p b ts = arbSum atoms F coeff' p b ts := by
  induction ts with
  | nil => intro b; rfl
  | cons t ts ih =>
    obtain ⟨g, c⟩ := t
    intro b
    rw [arbSum, arbSum, ih, h]

omit [CommRing R] [DecidableEq R] in
theorem arbSumE_eq {p : ℕ} (ts : List (RN × R)) : ∀ b l, arbSumE atoms F coeff p b ts l =
    (arbSum atoms F (coeffAt coeff l) p b ts, if ts = [] then l else max l p) := by
  induction ts with
  | nil => intro b l; rfl
  | cons t ts ih =>
    obtain ⟨g, c⟩ := t
    intro b l
    rw [arbSumE, arbSum]
    change arbSumE atoms F coeff p (F.add p b (F.mul p (g.arb atoms p) (coeffAt coeff l p c))) ts (max l p) = _
    rw [ih, arbSum_congr atoms F (coeffAt_max coeff l p)]
    congr 1
    split_ifs with h1 h2 h2
    · exact absurd h2 (by simp)
    · rfl
    · exact absurd h2 (by simp)
    · rw [max_assoc, max_self]

theorem arbLoopE_value (A : ℕ) (ts : List (RN × R)) : ∀ (fuel prec l l₀ : ℕ), (∀ p ≥ prec, max l p = max l₀ p) →
    (arbLoopE atoms F coeff A ts fuel prec l).value = arbLoop atoms F (coeffAt coeff l₀) A ts fuel prec
  | 0, _, _, _, _ => rfl
  | fuel + 1, prec, l, l₀, h => by
    have e : arbSum atoms F (coeffAt coeff l) prec (Ball.exact 0) ts = arbSum atoms F (coeffAt coeff l₀) prec (Ball.exact 0) ts :=
      arbSum_congr atoms F (fun c => by unfold coeffAt; rw [h prec le_rfl]) ts _
    rw [arbLoopE, arbSumE_eq, arbLoop, e]
    simp only
    split_ifs with h1 h2
    · rfl
    · rfl
    · exact arbLoopE_value A ts fuel (prec * 2) l l₀ fun p hp => h p (by omega)
    · exact arbLoopE_value A ts fuel (prec * 2) _ l₀ fun p hp => by rw [← h p (by omega), max_assoc, max_eq_right (a := prec) (by omega)]

/-- Whatever was approximated before, `arb` is what it would be if the field had that level all the time (or was refined as asked for). -/
theorem arbE_value (fuel A : ℕ) (x : Elt P R) (l : ℕ) : (x.arbE atoms F coeff fuel A l).value = x.arb atoms F (coeffAt coeff l) fuel A := by
  rw [arbE, arb]
  split_ifs
  · rfl
  · exact arbLoopE_value atoms F coeff A x.terms fuel _ l l fun _ _ => rfl

variable {atoms F coeff}

theorem arbE_ok {fuel A : ℕ} {x : Elt P R} {l l' : ℕ} {b : Ball} (h : x.arbE atoms F coeff fuel A l = .ok (b, l')) :
    x.arb atoms F (coeffAt coeff l) fuel A = .ok b := by
  rw [← arbE_value]
  exact Out.value_eq_ok.2 ⟨_, h⟩

theorem arbE_of {fuel A : ℕ} {x : Elt P R} {l : ℕ} {b : Ball} (h : x.arb atoms F (coeffAt coeff l) fuel A = .ok b) :
    ∃ l', x.arbE atoms F coeff fuel A l = .ok (b, l') := by
  rw [← arbE_value] at h
  exact Out.value_eq_ok.1 h

omit [CommRing R] [DecidableEq R] [CRing P R] [DecidableEq P] in
theorem ltLoopE_eq_search (op : ℕ → Ball → ℕ → Out (Option Bool × ℕ)) (self : ℕ → ℕ → Out (Ball × ℕ)) : ∀ fuel prec l : ℕ,
    ltLoopE op self fuel prec l = searchE (fun p l => do let s ← self p l; op p s.1 s.2) fuel prec l
  | 0, _, _ => rfl
  | fuel + 1, prec, l => by
    rw [ltLoopE, searchE]
    cases h : self prec l with
    | ok s =>
      simp only [Out.ok_bind]
      cases h2 : op prec s.1 s.2 with
      | ok r =>
        obtain ⟨r, l'⟩ := r
        cases r with
        | some r => rfl
        | none => exact ltLoopE_eq_search op self fuel (prec * 2) l'
      | _ => rfl
    | _ => rfl

/-- The body of the loops that compare bounds. -/
def boundsBodyE {α : Type} [DecidableEq α] (g : ℚ → α) (self : ℕ → ℕ → Out (Ball × ℕ)) (p l : ℕ) : Out (Option α × ℕ) := do
  let s ← self p l
  let i ← s.1.interval
  .ok (if g i.1 = g i.2 then some (g i.1) else none, s.2)

theorem roundLoopE_eq_search (g : ℚ → ℤ) (self : ℕ → ℕ → Out (Ball × ℕ)) : ∀ fuel prec l : ℕ,
    roundLoopE g self fuel prec l = searchE (boundsBodyE g self) fuel prec l
  | 0, _, _ => rfl
  | fuel + 1, prec, l => by
    rw [roundLoopE, searchE, boundsBodyE]
    cases h : self prec l with
    | ok s =>
      obtain ⟨s, l'⟩ := s
      simp only [Out.ok_bind]
      cases h2 : s.interval with
      | ok i =>
        obtain ⟨lo, hi⟩ := i
        simp only [Out.ok_bind]
        by_cases h3 : g lo = g hi
        · rw [if_pos h3, if_pos h3]
        · rw [if_neg h3, if_neg h3]
          exact roundLoopE_eq_search g self fuel (prec * 2) l'
      | _ => rfl
    | _ => rfl

theorem doubleLoopE_eq_search (self : ℕ → ℕ → Out (Ball × ℕ)) : ∀ fuel prec l : ℕ,
    doubleLoopE self fuel prec l = searchE (boundsBodyE Double.ofArf self) fuel prec l
  | 0, _, _ => rfl
  | fuel + 1, prec, l => by
    rw [doubleLoopE, searchE, boundsBodyE]
    cases h : self prec l with
    | ok s =>
      obtain ⟨s, l'⟩ := s
      simp only [Out.ok_bind]
      cases h2 : s.interval with
      | ok i =>
        obtain ⟨lo, hi⟩ := i
        simp only [Out.ok_bind]
        by_cases h3 : Double.ofArf lo = Double.ofArf hi
        · rw [if_pos h3, if_pos h3]
        · rw [if_neg h3, if_neg h3]
          exact doubleLoopE_eq_search self fuel (prec * 2) l'
      | _ => rfl
    | _ => rfl

/-- The body of the loop of `floordiv`. -/
def floordivBodyE (F : Arith) (self rhs : ℕ → ℕ → Out (Ball × ℕ)) (p l : ℕ) : Out (Option ℤ × ℕ) := do
  let d ← rhs p l
  match d.1.ne (Ball.exact 0) with
  | none => .ok (none, d.2)
  | some false => .ub
  | some true => do
    let a ← self p d.2
    let i ← (F.div p a.1 d.1).interval
    .ok (if Arf.floor i.1 = Arf.floor i.2 then some (Arf.floor i.1) else none, a.2)

theorem floordivLoopE_eq_search (F : Arith) (self rhs : ℕ → ℕ → Out (Ball × ℕ)) : ∀ fuel prec l : ℕ,
    floordivLoopE F self rhs fuel prec l = searchE (floordivBodyE F self rhs) fuel prec l
  | 0, _, _ => rfl
  | fuel + 1, prec, l => by
    rw [floordivLoopE, searchE, floordivBodyE]
    cases h : rhs prec l with
    | ok d =>
      obtain ⟨d, l'⟩ := d
      rw [Out.ok_bind, Out.ok_bind]
      simp only
      cases hn : d.ne (Ball.exact 0) with
      | none => exact floordivLoopE_eq_search F self rhs fuel (prec * 2) l'
      | some b =>
        cases b with
        | false => rfl
        | true =>
          simp only
          cases ha : self prec l' with
          | ok a =>
            obtain ⟨a, l''⟩ := a
            rw [Out.ok_bind, Out.ok_bind]
            simp only
            cases hi : (F.div prec a d).interval with
            | ok i =>
              obtain ⟨lo, hi⟩ := i
              rw [Out.ok_bind, Out.ok_bind]
              simp only
              split_ifs with hf
              · rfl
              · exact floordivLoopE_eq_search F self rhs fuel (prec * 2) l''
            | _ => rfl
          | _ => rfl
    | _ => rfl

end Elt

end ExactReal
