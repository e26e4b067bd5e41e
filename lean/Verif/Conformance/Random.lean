import Verif.Lemma.GmpRandom
import Verif.Props.PrintReal

/-!
# Conformance: random numbers

The outputs that the documentation shows for random numbers (they are checked by the project's own test suite against the compiled library), computed from
the model.  These are tests of the model, not proofs of properties.
-/

namespace ExactReal.Conformance
open ExactReal Print Props

/-- `word` reproduces GMP's generator. -/
example : (List.range 4).map (GmpRandom.word 1339) = [1099659319, 897879644, 2723486281, 1338680717] := by decide +kernel

/-- The same when the state is recomputed. -/
example : [495, 496, 1119, 1120, 1299].map (GmpRandom.word 1339) = [1661380172, 1785053877, 2955587775, 2339427735, 1558148171] := by decide +kernel

/-- The digits of a random number, once the position of the first one is known. -/
theorem rand48_arf_eq {seed : UInt32} {n : ℕ} (h : Rand48.digit seed n = true ∧ ∀ i < n, Rand48.digit seed i = false) :
    (Rand48.digits seed).arf = fun prec => Digits.prefixValue (Rand48.digit seed) (n + prec + 1) := by
  funext prec
  have : (Rand48.digits seed).first = n := (Nat.find_eq_iff _).2 ⟨h.1, fun i hi => by
    show ¬Rand48.digit seed i = true
    simp [h.2 i hi]⟩
  rw [Digits.arf, this]
  rfl

theorem arf_1337 : (Rand48.digits 1337).arf = fun prec => Digits.prefixValue (Rand48.digit 1337) (1 + prec + 1) := rand48_arf_eq (by decide +kernel)
theorem arf_1338 : (Rand48.digits 1338).arf = fun prec => Digits.prefixValue (Rand48.digit 1338) (3 + prec + 1) := rand48_arf_eq (by decide +kernel)
theorem arf_1339 : (Rand48.digits 1339).arf = fun prec => Digits.prefixValue (Rand48.digit 1339) (2 + prec + 1) := rand48_arf_eq (by decide +kernel)
theorem arf_1340 : (Rand48.digits 1340).arf = fun prec => Digits.prefixValue (Rand48.digit 1340) (1 + prec + 1) := rand48_arf_eq (by decide +kernel)
theorem arf_1341 : (Rand48.digits 1341).arf = fun prec => Digits.prefixValue (Rand48.digit 1341) (0 + prec + 1) := rand48_arf_eq (by decide +kernel)

/-! `pyexactreal/src/pyexactreal/__init__.py:9,15,21,28,102`: the numbers that the default seeds 1337, ..., 1341 produce. -/

example : randomText Format.default (Rand48.digits 1337) = "ℝ(0.303644…)".toList := by rw [randomText, arf_1337]; decide +kernel
example : randomText Format.default (Rand48.digits 1338) = "ℝ(0.120809…)".toList := by rw [randomText, arf_1338]; decide +kernel
example : randomText Format.default (Rand48.digits 1339) = "ℝ(0.178808…)".toList := by rw [randomText, arf_1339]; decide +kernel
example : randomText Format.default (Rand48.digits 1340) = "ℝ(0.478968…)".toList := by rw [randomText, arf_1340]; decide +kernel
example : randomText Format.default (Rand48.digits 1341) = "ℝ(0.782515…)".toList := by rw [randomText, arf_1341]; decide +kernel

/-! `RealNumber::random(x, seed)` with GMP's generator. -/

/-- Mantissa and exponent of the initial segment. -/
def initial : Out Atom → Option (ℤ × ℤ)
  | .ok (.constrained m e _) => some (m, e)
  | _ => none

theorem of_initial {gen : Generators} {l u : ℚ} {seed : UInt32} {m e : ℤ} (h : initial (randomIn gen l u seed) = some (m, e)) :
    randomIn gen l u seed = .ok (.constrained m e (gen.digits seed)) := by
  unfold randomIn at h ⊢
  dsimp only at h ⊢
  split_ifs at h ⊢
  all_goals first | (injection h with h; injection h with h1 h2; rw [← h1, ← h2]) | (simp only [initial] at h; cases h)

/-- The double 13.37. -/
def d1337 : ℚ := 7526640877242941 / 2 ^ 49

theorem random_13_37 : randomDouble GmpRandom.generators (.fin d1337) 1339 = .ok (.constrained (3853640129148385635 * 4) (-60) (Rand48.digits 1339)) := by
  have h : initial (randomNear GmpRandom.generators d1337 1339) = some (3853640129148385635 * 4, -60) := by decide +kernel
  rw [randomDouble, if_neg (by decide +kernel)]
  exact of_initial h

/-- `pyexactreal/test/real_number.py:44`: `str(RealNumber.random(13.37, seed=1339))`. -/
example : ∃ a, randomDouble GmpRandom.generators (.fin d1337) 1339 = .ok a ∧
    atomText Format.default a = "ℝ(13.37=3853640129148385635p-58 + ℝ(0.178808…)p-60)".toList := by
  refine ⟨_, random_13_37, ?_⟩
  simp only [atomText, randomText, Atom.arf, Atom.arfConstrained, arf_1339]
  decide +kernel

theorem random_1 : randomDouble GmpRandom.generators (.fin 1) 1339 = .ok (.constrained (9223372036854776177 * 2) (-64) (Rand48.digits 1339)) := by
  have h : initial (randomNear GmpRandom.generators 1 1339) = some (9223372036854776177 * 2, -64) := by decide +kernel
  rw [randomDouble, if_neg (by decide +kernel)]
  exact of_initial h

/-- `pyexactreal/src/pyexactreal/__init__.py:21`: the third random number of a session is `RealNumber.random(1.0)`. -/
example : ∃ a, randomDouble GmpRandom.generators (.fin 1) 1339 = .ok a ∧
    atomText Format.default a = "ℝ(1=9223372036854776177p-63 + ℝ(0.178808…)p-64)".toList := by
  refine ⟨_, random_1, ?_⟩
  simp only [atomText, randomText, Atom.arf, Atom.arfConstrained, arf_1339]
  decide +kernel

/-! `pyexactreal/src/pyexactreal/exact_reals.py:847,853,859` (marked as random output, produced by an earlier version in which the digits had another seed than
the initial segments; the initial segments are those of the seeds 1359, 1360 and 1361). -/

example : initial (randomNear GmpRandom.generators (1768225803696341 / 2 ^ 49) 1359) = some (14485305783880426147, -62) := by decide +kernel
example : initial (randomNear GmpRandom.generators 0 1360) = some (-7703581330722908899, -1139) := by decide +kernel
example : initial (randomIn GmpRandom.generators (6368089873101881 / 2 ^ 52) (1768225803696341 / 2 ^ 49) 1361) = some (10559275352730893, -52) := by decide +kernel

end ExactReal.Conformance
