import Verif.Spec.Ball

/-!
# Specification vocabulary for comparisons

The comparisons of the library are right up to a (relative) error, because the balls they look at may miss the number.
-/

namespace ExactReal

/-- The answer `r` to the question `x < y` is right up to `ε`: it is never wrong by more than `ε`. For `ε = 0` it is right. -/
def LtUpTo (ε : ℝ) (r : Bool) (x y : ℝ) : Prop := (r = true → x < y + ε) ∧ (r = false → y ≤ x + ε)

theorem LtUpTo.zero {r : Bool} {x y : ℝ} : LtUpTo 0 r x y ↔ (r = true ↔ x < y) := by
  unfold LtUpTo
  cases r <;> simp

/-- Numbers that are further apart than `ε` are compared correctly. -/
theorem LtUpTo.gap {ε : ℝ} {r : Bool} {x y : ℝ} (h : LtUpTo ε r x y) (hg : ε < |x - y|) : r = true ↔ x < y := by
  obtain ⟨h1, h2⟩ := h
  rcases abs_cases (x - y) with ⟨e, h0⟩ | ⟨e, h0⟩ <;> rw [e] at hg
  · exact ⟨fun hr => by have := h1 hr; linarith, fun hlt => by linarith⟩
  · refine ⟨fun _ => by linarith, fun _ => ?_⟩
    cases r with
    | true => rfl
    | false => have := h2 rfl; linarith

/-- The balls of the generators that `arb(accuracy)` computes contain the generators: it starts with `⌈log₂ rank⌉` bits more than asked for and then
doubles the precision.  This is what `Element::arb` and everything built on it assume; it holds, e.g., for the generator 1
(`Props.one_contained`), but not for all real numbers (`Props.arb_contains_fails`). -/
def Mod.Contained {P : Type} (atoms : Atoms) (accuracy : ℕ) (m : Mod P) : Prop :=
  ∀ g ∈ m.basis, ∀ j, (g.arb atoms ((accuracy + Nat.clog 2 m.basis.length) * 2 ^ j)).Contains (g.real atoms)

/-- The same for all accuracies that a loop asks for which starts with accuracy `start` and doubles it. -/
def Mod.ContainedFrom {P : Type} (atoms : Atoms) (start : ℕ) (m : Mod P) : Prop := ∀ k, m.Contained atoms (start * 2 ^ k)

end ExactReal
