import Verif.Spec.Yap
import Verif.Model.Arf

/-!
# Expression templates evaluate like plain arithmetic even under aliasing (C47)
-/

namespace ExactReal.Props
open Yap

variable {T Mode : Type} (k : Kernel T Mode)

/-- The value of an expression only depends on variables that occur in it. -/
theorem value_congr {σ τ : ℕ → T} {n : ℕ} (h : ∀ l < n, σ l = τ l) (e : Expr T Mode) (he : e.Below n) (p : Option ℤ) (r : Option Mode) :
    e.value k σ p r = e.value k τ p r := by
  induction e generalizing p r with
  | var l => simp only [Expr.value, h l he]
  | const c => rfl
  | neg e ih => simp only [Expr.value, ih he]
  | bin op a b iha ihb => simp only [Expr.value, iha he.1, ihb he.2]
  | call e q ih => cases q <;> simp only [Expr.value] <;> exact ih he _ _

theorem below_mono {n m : ℕ} (h : n ≤ m) (e : Expr T Mode) (he : e.Below n) : e.Below m := by
  induction e with
  | var l => exact lt_of_lt_of_le he h
  | const c => trivial
  | neg e ih => exact ih he
  | bin op a b iha ihb => exact ⟨iha he.1, ihb he.2⟩
  | call e q ih => exact ih he

/-- Evaluation into a variable is evaluation on the old values, for every expression, even if the variable occurs in the expression. -/
theorem assign_spec (d : Bool) (b : Bound Mode) (x : ℕ) (e : Expr T Mode) (m : Mem T) (hx : x < m.free) (he : e.Below m.free) :
    (∀ m', assign k d b x e m = some m' →
      e.value k m.val b.prec b.round = some (m'.val x) ∧ m'.free = m.free ∧ ∀ l < m.free, l ≠ x → m'.val l = m.val l) ∧
    (e.Plain d → e.value k m.val b.prec b.round ≠ none → assign k d b x e m ≠ none) := by
  induction e generalizing d b x m with
  | var l =>
    refine ⟨?_, fun _ _ => by cases d <;> simp [assign]⟩
    intro m' h
    have : m' = m.set x (m.val l) := by cases d <;> simpa [assign] using h.symm
    subst this
    exact ⟨by simp [Expr.value, Mem.set], rfl, fun j _ hj => by simp [Mem.set, hj]⟩
  | const c =>
    refine ⟨?_, fun _ _ => by cases d <;> simp [assign]⟩
    intro m' h
    have : m' = m.set x c := by cases d <;> simpa [assign] using h.symm
    subst this
    exact ⟨by simp [Expr.value, Mem.set], rfl, fun j _ hj => by simp [Mem.set, hj]⟩
  | neg e ih =>
    have hd : assign k d b x (.neg e) m = (match assign k false b x e m with
      | none => none
      | some m => some (m.set x (k.neg (m.val x)))) := by cases d <;> rw [assign] <;> rfl
    rw [hd]
    obtain ⟨i1, i2⟩ := ih false b x m hx he
    constructor
    · intro m' h
      cases ha : assign k false b x e m with
      | none => rw [ha] at h; cases h
      | some m₁ =>
        rw [ha] at h
        simp only [Option.some.injEq] at h
        subst h
        obtain ⟨h1, h2, h3⟩ := i1 m₁ ha
        refine ⟨by simp [Expr.value, h1, Mem.set], h2, fun j hj hjx => ?_⟩
        simp only [Mem.set, if_neg hjx]
        exact h3 j hj hjx
    · intro hp hv
      have : assign k false b x e m ≠ none := i2 hp (by rintro h; simp [Expr.value, h] at hv)
      cases ha : assign k false b x e m with
      | none => exact absurd ha this
      | some m₁ => simp
  | bin op a c iha ihc =>
    have hd : assign k d b x (.bin op a c) m = (match assign k true b m.free c { m with free := m.free + 1 } with
      | none => none
      | some m' => match assign k false b x a { m' with free := m.free } with
        | none => none
        | some m₂ => binary k b op x (m'.val m.free) m₂) := by cases d <;> rw [assign] <;> rfl
    rw [hd]
    obtain ⟨c1, c2⟩ := ihc true b m.free { m with free := m.free + 1 } (Nat.lt_succ_self _) (below_mono (Nat.le_succ _) _ he.2)
    constructor
    · intro m' h
      cases hc : assign k true b m.free c { m with free := m.free + 1 } with
      | none => rw [hc] at h; cases h
      | some m₁ =>
        rw [hc] at h
        simp only at h
        obtain ⟨f1, f2, f3⟩ := c1 m₁ hc
        simp only at f1 f2 f3
        obtain ⟨a1, -⟩ := iha false b x { m₁ with free := m.free } hx he.1
        cases ha : assign k false b x a { m₁ with free := m.free } with
        | none => rw [ha] at h; cases h
        | some m₂ =>
          rw [ha] at h
          obtain ⟨g1, g2, g3⟩ := a1 m₂ ha
          simp only at g1 g2 g3
          have hold : ∀ l < m.free, m₁.val l = m.val l := fun l hl => f3 l (hl.trans (Nat.lt_succ_self _)) (Nat.ne_of_lt hl)
          rw [value_congr k hold a he.1] at g1
          unfold binary at h
          cases hp : b.prec with
          | none => rw [hp] at h; cases h
          | some p =>
            rw [hp] at h
            simp only at h
            split_ifs at h with hr
            injection h with h
            subst h
            refine ⟨?_, g2, fun j hj hjx => ?_⟩
            · rw [hp] at f1 g1
              simp only [Expr.value, g1, f1, if_neg hr, Mem.set, if_true]
            · simp only [Mem.set, if_neg hjx]
              rw [g3 j hj hjx, hold j hj]
    · intro hpl hv
      have v1 : a.value k m.val b.prec b.round ≠ none := by intro h; simp [Expr.value, h] at hv
      have v2 : c.value k m.val b.prec b.round ≠ none := by intro h; simp [Expr.value, h] at hv
      have v3 : b.prec ≠ none := by intro h; simp [Expr.value, h] at hv
      have v4 : ¬ (k.needsRound && b.round.isNone) = true := by intro h; simp only [Expr.value, h, if_true] at hv; exact hv (by split <;> rfl)
      have hc' := c2 hpl.2 v2
      cases hc : assign k true b m.free c { m with free := m.free + 1 } with
      | none => exact absurd hc hc'
      | some m₁ =>
        simp only
        obtain ⟨f1, f2, f3⟩ := c1 m₁ hc
        simp only at f1 f2 f3
        obtain ⟨a1, a2⟩ := iha false b x { m₁ with free := m.free } hx he.1
        have hold : ∀ l < m.free, m₁.val l = m.val l := fun l hl => f3 l (hl.trans (Nat.lt_succ_self _)) (Nat.ne_of_lt hl)
        have ha' := a2 hpl.1 (by rw [value_congr k hold a he.1]; exact v1)
        cases ha : assign k false b x a { m₁ with free := m.free } with
        | none => exact absurd ha ha'
        | some m₂ =>
          simp only [binary]
          cases hp : b.prec with
          | none => exact absurd hp v3
          | some p => simp only [if_neg v4]; simp
  | call e q ih =>
    cases d with
    | false =>
      refine ⟨fun m' h => ?_, fun hp => ?_⟩
      · simp [assign] at h
      · exact absurd hp.1 (by decide)
    | true =>
      obtain ⟨i1, i2⟩ := ih true (b.bind q) x m hx he
      simp only [assign]
      cases q with
      | prec p => exact ⟨i1, fun hp => i2 hp.2⟩
      | round r => exact ⟨i1, fun hp => i2 hp.2⟩

/-- C47. After `x = e`, the variable `x` has the value of `e` on the old values of the variables, and no other variable has changed; `x` may
occur in `e` any number of times. -/
theorem assign_sound {x : ℕ} {e : Expr T Mode} {m m' : Mem T} (hx : x < m.free) (he : e.Below m.free) (h : assignTo k x e m = some m') :
    e.value k m.val none none = some (m'.val x) ∧ ∀ l < m.free, l ≠ x → m'.val l = m.val l :=
  let h := (assign_spec k true ⟨none, none⟩ x e m hx he).1 m' h
  ⟨h.1, h.2.2⟩

/-- C47. `x = e` compiles when every operation in `e` has a precision (and rounding mode) and left operands are not calls. -/
theorem assign_defined {x : ℕ} {e : Expr T Mode} {m : Mem T} (hx : x < m.free) (he : e.Below m.free) (hp : e.Plain true)
    (hv : e.value k m.val none none ≠ none) : ∃ m', assignTo k x e m = some m' :=
  Option.ne_none_iff_exists'.1 ((assign_spec k true ⟨none, none⟩ x e m hx he).2 hp hv)

/-- The parameters of an expression hide those of enclosing calls. -/
theorem value_bound {σ : ℕ → T} (e : Expr T Mode) :
    (∀ (_ : (precOf e).isSome) p p' r, e.value k σ p r = e.value k σ p' r) ∧
    (∀ (_ : (roundOf e).isSome) p r r', e.value k σ p r = e.value k σ p r') := by
  induction e with
  | var l => exact ⟨fun h => by simp [precOf] at h, fun h => by simp [roundOf] at h⟩
  | const c => exact ⟨fun h => by simp [precOf] at h, fun h => by simp [roundOf] at h⟩
  | neg e ih => exact ⟨fun h => by simp [precOf] at h, fun h => by simp [roundOf] at h⟩
  | bin op a b => exact ⟨fun h => by simp [precOf] at h, fun h => by simp [roundOf] at h⟩
  | call e q ih =>
    cases q with
    | prec p => exact ⟨fun _ _ _ _ => rfl, fun h p r r' => by simp only [Expr.value]; exact ih.2 h _ r r'⟩
    | round r => exact ⟨fun h p p' _ => by simp only [Expr.value]; exact ih.1 h p p' _, fun _ _ _ _ => rfl⟩

/-- C47. After `x op= e`, the variable `x` has the value `x op e` of the old values of `x` and `e`, rounded to the outermost precision (and with the
outermost rounding mode) of `e`; no other variable has changed. -/
theorem inplace_sound {op : Op} {x : ℕ} {e : Expr T Mode} {m m' : Mem T} (hx : x < m.free) (he : e.Below m.free)
    (h : inplaceBinop k op x e m = some m') :
    ∃ p y, precOf e = some p ∧ e.value k m.val none none = some y ∧ (k.needsRound = true → (roundOf e).isSome) ∧
      m'.val x = k.bin op (m.val x) y p (if k.needsRound then roundOf e else none) ∧ ∀ l < m.free, l ≠ x → m'.val l = m.val l := by
  unfold inplaceBinop at h
  cases hp : precOf e with
  | none => rw [hp] at h; cases h
  | some p =>
    rw [hp] at h
    simp only at h
    by_cases hr : k.needsRound = true
    · rw [if_pos hr] at h
      cases hro : roundOf e with
      | none => rw [hro] at h; cases h
      | some r =>
        rw [hro] at h
        simp only at h
        obtain ⟨h1, h2, h3⟩ := (assign_spec k true ⟨none, none⟩ x (.call (.call (.bin op (.var x) e) (.prec p)) (.round r)) m hx ⟨hx, he⟩).1 m' h
        have e1 := (value_bound k (σ := m.val) e).1 (by rw [hp]; rfl) (some p) none (some r)
        have e2 := (value_bound k (σ := m.val) e).2 (by rw [hro]; rfl) none (some r) none
        simp only [Expr.value, e1, e2, hr] at h1
        cases hv : e.value k m.val none none with
        | none => rw [hv] at h1; simp at h1
        | some y =>
          rw [hv] at h1
          simp only [Option.isNone_some, Bool.and_false, Bool.false_eq_true, if_false, Option.some.injEq] at h1
          exact ⟨p, y, rfl, rfl, fun _ => rfl, by rw [← h1, hr]; rfl, h3⟩
    · rw [if_neg hr] at h
      obtain ⟨h1, h2, h3⟩ := (assign_spec k true ⟨none, none⟩ x (.call (.bin op (.var x) e) (.prec p)) m hx ⟨hx, he⟩).1 m' h
      have e1 := (value_bound k (σ := m.val) e).1 (by rw [hp]; rfl) (some p) none none
      simp only [Expr.value, e1] at h1
      cases hv : e.value k m.val none none with
      | none => rw [hv] at h1; simp at h1
      | some y =>
        rw [hv] at h1
        have hr' : k.needsRound = false := by simpa using hr
        simp only [hr', Bool.false_and, Bool.false_eq_true, if_false, Option.some.injEq] at h1
        exact ⟨p, y, rfl, rfl, fun h => absurd h hr, by rw [← h1, hr']; rfl, h3⟩

/-- C47. `x op= e` compiles when `e` has a precision (and rounding mode), so does every operation in `e`, and left operands are not calls. -/
theorem inplace_defined {op : Op} {x : ℕ} {e : Expr T Mode} {m : Mem T} (hx : x < m.free) (he : e.Below m.free) (hp : e.Plain true)
    (hv : e.value k m.val none none ≠ none) (h1 : (precOf e).isSome) (h2 : k.needsRound = true → (roundOf e).isSome) :
    ∃ m', inplaceBinop k op x e m = some m' := by
  obtain ⟨p, h1'⟩ := Option.isSome_iff_exists.1 h1
  obtain ⟨y, hy⟩ := Option.ne_none_iff_exists'.1 hv
  unfold inplaceBinop
  rw [h1']
  by_cases hr : k.needsRound = true
  · obtain ⟨r, h2'⟩ := Option.isSome_iff_exists.1 (h2 hr)
    simp only [if_pos hr, h2']
    refine Option.ne_none_iff_exists'.1 ((assign_spec k true ⟨none, none⟩ x (.call (.call (.bin op (.var x) e) (.prec p)) (.round r)) m hx
      ⟨hx, he⟩).2 (by simp only [Expr.Plain]; exact ⟨trivial, trivial, trivial, hp⟩) ?_)
    have e1 := (value_bound k (σ := m.val) e).1 h1 (some p) none (some r)
    have e2 := (value_bound k (σ := m.val) e).2 (h2 hr) none (some r) none
    simp [Expr.value, e1, e2, hy]
  · simp only [if_neg hr]
    refine Option.ne_none_iff_exists'.1 ((assign_spec k true ⟨none, none⟩ x (.call (.bin op (.var x) e) (.prec p)) m hx
      ⟨hx, he⟩).2 (by simp only [Expr.Plain]; exact ⟨trivial, trivial, hp⟩) ?_)
    have e1 := (value_bound k (σ := m.val) e).1 h1 (some p) none none
    simp [Expr.value, e1, hy, hr]

/-- The operations on `Arf`, `exact-real/yap/arf_assign_transformation.hpp:90-103` (division by zero, which yields NaN or an infinity, is not
modelled). -/
def arfKernel : Kernel ℚ Rnd where
  needsRound := true
  neg x := -x
  bin op x y p r := match r with
    | none => 0
    | some r => Arf.round r p (match op with | .plus => x + y | .minus => x - y | .multiplies => x * y | .divides => x / y)

/-- C47 for `Arf`: what `ret *= a(w, NEAR)` computes (`src/real_number_product.cc:537`); this is what `ExactReal.mulLoop` uses. -/
theorem inplace_mul_arf (m : Mem ℚ) (x y : ℕ) (hx : x < m.free) (hy : y < m.free) (w : ℤ) :
    ∃ m', inplaceBinop arfKernel .multiplies x (.call (.call (.var y) (.prec w)) (.round .near)) m = some m' ∧
      m'.val x = Arf.round .near w (m.val x * m.val y) ∧ ∀ l < m.free, l ≠ x → m'.val l = m.val l := by
  obtain ⟨m', hm⟩ := assign_defined arfKernel (x := x)
    (e := .call (.call (.bin .multiplies (.var x) (.call (.call (.var y) (.prec w)) (.round .near))) (.prec w)) (.round .near)) (m := m) hx
    ⟨hx, hy⟩ (by simp [Expr.Plain]) (by simp [Expr.value])
  have hi : inplaceBinop arfKernel .multiplies x (.call (.call (.var y) (.prec w)) (.round .near)) m = some m' := hm
  obtain ⟨p, z, h1, h2, -, h3, h4⟩ := inplace_sound arfKernel (e := .call (.call (.var y) (.prec w)) (.round .near)) hx hy hi
  refine ⟨m', hi, ?_, h4⟩
  simp only [precOf, Option.some.injEq] at h1
  simp only [Expr.value, Option.some.injEq] at h2
  rw [h3, ← h1, ← h2]
  rfl

/-- An expression in which the assigned variable occurs three times, once in a nested call with a precision of its own:
`x = (x - (y * x)(8) / x)(64, NEAR)`. -/
example (m : Mem ℚ) (h : m.free = 2) : ∃ m', assignTo arfKernel 0 (.call (.call (.bin .minus (.var 0) (.bin .divides (.var 1)
    (.call (.bin .multiplies (.var 1) (.var 0)) (.prec 8)))) (.prec 64)) (.round .near)) m = some m' ∧
    m'.val 0 = Arf.round .near 64 (m.val 0 - Arf.round .near 64 (m.val 1 / Arf.round .near 8 (m.val 1 * m.val 0))) ∧ m'.val 1 = m.val 1 := by
  obtain ⟨m', hm⟩ := assign_defined arfKernel (x := 0) (m := m) (e := .call (.call (.bin .minus (.var 0) (.bin .divides (.var 1)
    (.call (.bin .multiplies (.var 1) (.var 0)) (.prec 8)))) (.prec 64)) (.round .near)) (by omega) (by simp [Expr.Below, h])
    (by simp [Expr.Plain]) (by simp [Expr.value])
  refine ⟨m', hm, ?_⟩
  obtain ⟨h1, h2⟩ := assign_sound arfKernel (by omega) (by simp [Expr.Below, h]) hm
  refine ⟨?_, h2 1 (by omega) (by omega)⟩
  simp [Expr.value, arfKernel] at h1
  rw [← h1]

end ExactReal.Props
