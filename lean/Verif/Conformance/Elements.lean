import Verif.Conformance.Numbers
import Verif.Lemma.FlintLike
import Verif.Model.ElementApprox
import Verif.Model.Print

/-!
# Conformance: modules and elements

The programs in the documentation of `exact-real/element.hpp` and `exact-real/module.hpp` and some of the Python tests, run in the model.  These are tests of
the model, not proofs of properties.  In these programs the random numbers have other seeds; here the first two are those of the seeds 1337 and 1338.
-/

namespace ExactReal.Conformance
open ExactReal Print Props

/-- A debug build with all checks. -/
@[instance_reducible] def debugBuild : Build := ⟨true, true⟩
attribute [local instance] debugBuild

abbrev F := FlintLike.arith
abbrev E := Elt RationalField ℚ
/-- `Ring::arb`. -/
abbrev coeff := RationalField.arb F

/-- Text for tokens; a minus sign at the beginning is written without blanks. -/
def render : Bool → List (Tok ℚ) → Text.Str
  | _, [] => []
  | _, .num c :: ts => Text.saveMpq c ++ render false ts
  | _, .gen g :: ts => realText Format.default A g ++ render false ts
  | _, .times :: ts => '*' :: render false ts
  | _, .plus :: ts => " + ".toList ++ render false ts
  | true, .minus :: ts => '-' :: render false ts
  | false, .minus :: ts => " - ".toList ++ render false ts

/-- `std::cout << x`. -/
def show' (x : E) : Out String := do
  let ts ← Print.element (fun x y => Elt.lt A F coeff 10 x y) (fun a b => decide (a < b)) x
  .ok (String.ofList (render true ts))

/-- `Module<RationalField>::make(...)` and `Element(M, coefficients)`. -/
def elt (basis : List RN) (coefficients : List ℚ) : Out E := do
  let m ← Mod.make (⟨⟩ : RationalField) basis
  Elt.ofCoefficients m coefficients

def M : List RN := [.rat 1, .atom 0]
def N : List RN := [.rat 1, .atom 1]

def a23 : Out E := elt M [2, 3]
def a12 : Out E := elt M [1, 2]
/-- The text of a module. -/
def showModule (x : E) : Out String := .ok (String.ofList (moduleText Format.default A .rationals x.mod.basis))

/-! ### `exact-real/element.hpp` -/

-- Element(M, {2, 3}) and Element(3)
example : (a23 >>= show') = .ok "3*ℝ(0.303644…) + 2" := by decide +kernel
example : (Elt.ofScalar (⟨⟩ : RationalField) 3 >>= show') = .ok "3" := by decide +kernel
example : (Elt.ofScalar (⟨⟩ : RationalField) 3 >>= showModule) = .ok "ℚ-Module(1)" := by decide +kernel
-- Element<RationalField>(a) for a over the integers
example : (do
    let m ← Mod.make (⟨⟩ : IntegerRing) M
    let a : Elt IntegerRing ℤ ← Elt.ofCoefficients m [2, 3]
    let b : E ← Elt.convert (fun n : ℤ => (n : ℚ)) a
    showModule b) = .ok "ℚ-Module(1, ℝ(0.303644…))" := by decide +kernel
-- a[0], a[1]
example : (a23 >>= fun a => .ok (a.coefficient? 0, a.coefficient? 1, a.coeffs)) = .ok (some 2, some 3, [2, 3]) := by decide +kernel
-- a += b, a + b
example : (do let a ← a12; let b ← a23; a.add b) >>= show' = .ok "5*ℝ(0.303644…) + 3" := by decide +kernel
example : (do let a ← a12; let b ← a23; (← a.add b).add b) >>= show' = .ok "8*ℝ(0.303644…) + 5" := by decide +kernel
-- c += b with c in another module
example : (do let c ← elt N [3, 4]; let b ← a23; c.add b) >>= show' = .ok "4*ℝ(0.120809…) + 3*ℝ(0.303644…) + 5" := by decide +kernel
example : (do let c ← elt N [3, 4]; let b ← a23; c.add b) >>= showModule = .ok "ℚ-Module(1, ℝ(0.303644…), ℝ(0.120809…))" := by decide +kernel
-- a -= b
example : (do let a ← a12; let b ← a23; a.sub b) >>= show' = .ok "-ℝ(0.303644…) - 1" := by decide +kernel
-- a *= a, a *= b, a *= b
example : (do let a ← elt [.rat 1] [2]; a.mul a) >>= show' = .ok "4" := by decide +kernel
example : (do let a ← elt [.rat 1] [2]; a.mul a) >>= showModule = .ok "ℚ-Module(1)" := by decide +kernel
example : (do let a ← elt [.rat 1] [4]; let b ← a23; a.mul b) >>= show' = .ok "12*ℝ(0.303644…) + 8" := by decide +kernel
example : (do let a ← elt [.rat 1] [4]; let b ← a23; (← a.mul b).mul b) >>= show' = .ok "36*ℝ(0.303644…)^2 + 48*ℝ(0.303644…) + 16" := by decide +kernel
example : (do let a ← elt [.rat 1] [4]; let b ← a23; (← a.mul b).mul b) >>= showModule = .ok "ℚ-Module(1, ℝ(0.303644…), ℝ(0.303644…)^2)" := by decide +kernel
-- (a * a).truediv(a), (a * a).truediv(c)
example : (do
    let a ← a23
    match ← (← a.mul a).truediv 10 a with
    | some b => show' b
    | none => .ok "") = .ok "3*ℝ(0.303644…) + 2" := by decide +kernel
example : (do let a ← a23; let c ← a12; let q ← (← a.mul a).truediv 10 c; .ok q.isSome) = .ok false := by decide +kernel
-- a.floordiv(b)
example : (do let a ← elt M [1, 1]; let b ← a12; Elt.floordiv A F coeff 10 a b) = .ok 0 := by decide +kernel
-- a * *gen
example : (do let a ← a23; (a.mulRNAssign (.atom 1)).result) >>= show' = .ok "3*ℝ(0.303644…)*ℝ(0.120809…) + 2*ℝ(0.120809…)" := by decide +kernel
-- 3 * a / 12
example : (do let a ← a23; let b ← (a.imulZ 3).result; (b.idivZ 12).result) >>= show' = .ok "3/4*ℝ(0.303644…) + 1/2" := by decide +kernel
-- a + Element(1)
example : (do let a ← a23; let b ← Elt.ofScalar (⟨⟩ : RationalField) 1; a.add b) >>= show' = .ok "3*ℝ(0.303644…) + 3" := by decide +kernel
-- -a
example : (do let a ← a23; .ok a.neg) >>= show' = .ok "-3*ℝ(0.303644…) - 2" := by decide +kernel
-- floor, ceil
example : (elt M [3, 1] >>= fun a => Elt.floor A F coeff 10 a) = .ok 3 := by decide +kernel
example : (elt M [3, 1] >>= fun a => Elt.ceil A F coeff 10 a) = .ok 4 := by decide +kernel
-- unit
example : (a23 >>= fun a => .ok a.unit) = .ok false ∧ (elt M [2, 0] >>= fun b => .ok b.unit) = .ok true := by decide +kernel
-- a == b, a < b || a > b, a > 2, a < 5
example : (do let a ← a23; let b ← elt N [2, 3]; a.eq b) = .ok false := by decide +kernel
example : (do let a ← a23; let b ← elt N [2, 3]; Elt.lt A F coeff 10 a b) = .ok false ∧
    (do let a ← a23; let b ← elt N [2, 3]; Elt.lt A F coeff 10 b a) = .ok true := by decide +kernel
example : (a23 >>= fun a => Elt.gtZ A F coeff 10 a 2) = .ok true ∧ (a23 >>= fun a => Elt.ltZ A F coeff 10 a 5) = .ok true := by decide +kernel
-- bool, double, mpz_class, mpq_class
example : (a23 >>= fun a => .ok a.toBool) = .ok true := by decide +kernel
example : (elt M [2, 0] >>= fun a => Elt.toDouble A F coeff 10 a) = .ok (.fin 2) := by decide +kernel
example : (a23 >>= fun a => .ok (a.integer?, a.rational?)) = .ok (none, none) := by decide +kernel
example : (elt M [2, 0] >>= fun a => .ok (a.integer?, a.rational?)) = .ok (some 2, some 2) := by decide +kernel

-- simplify
example : (do let a ← a23; (← a.mul a).sub (← Elt.ofScalar (⟨⟩ : RationalField) 4)) >>= show' = .ok "9*ℝ(0.303644…)^2 + 12*ℝ(0.303644…)" := by decide +kernel
example : (do let a ← a23; (← a.mul a).sub (← Elt.ofScalar (⟨⟩ : RationalField) 4)) >>= showModule = .ok "ℚ-Module(1, ℝ(0.303644…), ℝ(0.303644…)^2)" := by
  decide +kernel
example : (do let a ← a23; (← (← a.mul a).sub (← Elt.ofScalar (⟨⟩ : RationalField) 4)).simplify) >>= showModule = .ok "ℚ-Module(ℝ(0.303644…), ℝ(0.303644…)^2)" := by
  decide +kernel

/-! ### `pyexactreal/test/binder.py:34-45`, `pyexactreal/test/element.py:34` -/

example : (do let x ← elt M [0, 1]; let y ← (x.imulZ 3).result; let z ← (← x.mul x).add y; show' z) = .ok "ℝ(0.303644…)^2 + 3*ℝ(0.303644…)" := by decide +kernel

end ExactReal.Conformance
