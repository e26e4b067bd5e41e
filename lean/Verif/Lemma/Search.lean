import Verif.Model.ElementApprox
import Mathlib.Order.Filter.AtTopBot.Basic

/-! # Refinement loops -/

namespace ExactReal

variable {α : Type}

/-- The common shape of all refinement loops. -/
def search (f : ℕ → Out (Option α)) : (fuel prec : ℕ) → Out α
  | 0, _ => .pending
  | fuel + 1, prec =>
    match f prec with
    | .ok (some r) => .ok r
    | .ok none => search f fuel (prec * 2)
    | .throws e => .throws e
    | .abort => .abort
    | .ub => .ub
    | .pending => .pending

/-- A result was found with one of the precisions of the loop. -/
theorem search_ok {f : ℕ → Out (Option α)} {fuel prec : ℕ} {r : α} (h : search f fuel prec = .ok r) :
    ∃ k, f (prec * 2 ^ k) = .ok (some r) := by
  induction fuel generalizing prec with
  | zero => simp [search] at h
  | succ fuel ih =>
    rw [search] at h
    split at h
    · next r' he => exact ⟨0, by rw [pow_zero, mul_one, he]; cases h; rfl⟩
    · obtain ⟨k, hk⟩ := ih h
      exact ⟨k + 1, by rw [pow_succ']; rwa [mul_assoc] at hk⟩
    all_goals cases h

/-- What the loop computes if the body does not fail and eventually finds something. -/
theorem search_eq {f : ℕ → Out (Option α)} {g : ℕ → Option α} {prec : ℕ} (n : ℕ) (hf : ∀ k ≤ n, f (prec * 2 ^ k) = .ok (g k))
    (hn : (g n).isSome) {fuel : ℕ} (hfuel : n < fuel) : ∃ r k, k ≤ n ∧ g k = some r ∧ search f fuel prec = .ok r := by
  induction n generalizing prec fuel g with
  | zero =>
    obtain ⟨fuel, rfl⟩ := Nat.exists_eq_succ_of_ne_zero (by omega : fuel ≠ 0)
    obtain ⟨r, hr⟩ := Option.isSome_iff_exists.1 hn
    refine ⟨r, 0, le_rfl, hr, ?_⟩
    have := hf 0 le_rfl
    rw [pow_zero, mul_one, hr] at this
    rw [search, this]
  | succ n ih =>
    obtain ⟨fuel, rfl⟩ := Nat.exists_eq_succ_of_ne_zero (by omega : fuel ≠ 0)
    have h0 := hf 0 (by omega)
    rw [pow_zero, mul_one] at h0
    cases hg : g 0 with
    | some r => exact ⟨r, 0, by omega, hg, by rw [search, h0, hg]⟩
    | none =>
      obtain ⟨r, k, h1, h2, h3⟩ := ih (prec := prec * 2) (g := fun k => g (k + 1)) (fuel := fuel) (fun k hk => by
        have := hf (k + 1) (by omega); rwa [pow_succ', ← mul_assoc] at this) hn (by omega)
      exact ⟨r, k + 1, by omega, h2, by rw [search, h0, hg]; exact h3⟩

/-- Termination with nested loops: the body gets the same bound on its iterations as the loop. -/
theorem search_terminates {f : ℕ → ℕ → Out (Option α)} {g : ℕ → Option α} {prec : ℕ}
    (hf : ∀ k, ∃ N, ∀ fuel ≥ N, f fuel (prec * 2 ^ k) = .ok (g k)) (hg : ∃ k, (g k).isSome) :
    ∃ r N, ∀ fuel ≥ N, search (f fuel) fuel prec = .ok r := by
  classical
  obtain ⟨n, hn⟩ := hg
  choose N hN using hf
  -- first index with a result
  have hex : ∃ k, (g k).isSome := ⟨n, hn⟩
  set m := Nat.find hex
  obtain ⟨r, hr⟩ := Option.isSome_iff_exists.1 (Nat.find_spec hex)
  refine ⟨r, (Finset.range (m + 1)).sup N + m + 1, fun fuel hfuel => ?_⟩
  obtain ⟨r', k, h1, h2, h3⟩ := search_eq (f := f fuel) (g := g) (prec := prec) m (fun k hk => hN k fuel (by
    have := Finset.le_sup (f := N) (Finset.mem_range.2 (show k < m + 1 by omega)); omega)) (Nat.find_spec hex) (fuel := fuel) (by omega)
  have hk : k = m := by
    have := Nat.find_min' hex (m := k) (by rw [h2]; rfl)
    omega
  rw [h3]
  rw [hk] at h2
  rw [hr] at h2
  cases h2; rfl

/-- More iterations do not change the result. -/
theorem search_mono {f : ℕ → Out (Option α)} {fuel prec : ℕ} {r : α} (h : search f fuel prec = .ok r) {fuel' : ℕ} (hle : fuel ≤ fuel') :
    search f fuel' prec = .ok r := by
  induction fuel generalizing prec fuel' with
  | zero => simp [search] at h
  | succ fuel ih =>
    obtain ⟨m, rfl⟩ : ∃ m, fuel' = m + 1 := ⟨fuel' - 1, by omega⟩
    rw [search] at h ⊢
    split at h
    · exact h
    · exact ih h (by omega)
    all_goals cases h

/-- A result was found with one of the precisions of the loop, and none before. -/
theorem search_first {f : ℕ → Out (Option α)} {fuel prec : ℕ} {r : α} (h : search f fuel prec = .ok r) :
    ∃ k, f (prec * 2 ^ k) = .ok (some r) ∧ ∀ j < k, f (prec * 2 ^ j) = .ok none := by
  induction fuel generalizing prec with
  | zero => simp [search] at h
  | succ fuel ih =>
    rw [search] at h
    split at h
    · next r' hg =>
      cases h
      exact ⟨0, by rw [pow_zero, mul_one, hg], fun j hj => absurd hj (Nat.not_lt_zero j)⟩
    · next hg =>
      obtain ⟨k, h1, h2⟩ := ih h
      refine ⟨k + 1, by rw [pow_succ', ← mul_assoc]; exact h1, fun j hj => ?_⟩
      cases j with
      | zero => rw [pow_zero, mul_one, hg]
      | succ j => rw [pow_succ', ← mul_assoc]; exact h2 j (by omega)
    all_goals cases h

open Filter in
/-- The precisions of a loop grow without bound. -/
theorem tendsto_prec {prec : ℕ} (h : 0 < prec) : Tendsto (fun k => prec * 2 ^ k) atTop atTop :=
  tendsto_atTop_mono (fun k => (Nat.lt_two_pow_self (n := k)).le.trans (Nat.le_mul_of_pos_left _ h)) tendsto_id

end ExactReal
