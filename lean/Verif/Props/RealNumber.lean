import Verif.Lemma.Hash

/-!
# C01–C07: multiplication, quotients and ordering of real numbers

The vocabulary (`RN.WF`, `RN.value`, `RN.mult`, `Precedes`) is in `Verif/Spec/RealNumber.lean`.
`RN.WF` holds of everything the library can build: rationals and atoms satisfy it trivially, and `*`, `/` preserve it
(`mul_value`, `div_sound`).
-/

namespace ExactReal.Props
open ExactReal Finsupp

/-! ### non-vacuity: concrete numbers used below -/

/-- `x₃² · x₅` for atoms with ids 3 and 5. -/
def sample1 : RN := .prod [(3, 2), (5, 1)]
/-- `x₃ · x₄³`. -/
def sample2 : RN := .prod [(3, 1), (4, 3)]

theorem sample1_WF : sample1.WF := ⟨⟨by simp, by simp⟩, by simp⟩
theorem sample2_WF : sample2.WF := ⟨⟨by simp, by simp⟩, by simp⟩

/-! ### C01 -/

/-- C01. If `x * y` returns `z` then `z` denotes the product of the two numbers, for any real numbers the atoms stand for
(more generally in any commutative ℚ-algebra), and `z` is again in canonical form. -/
theorem mul_value {x y z : RN} (hx : x.WF) (hy : y.WF) (h : x.mul y = .ok z) :
    z.WF ∧ ∀ v : ℕ → ℝ, z.value v = x.value v * y.value v := by
  obtain ⟨h1, h2, h3⟩ := RN.mul_eq_ok hx hy h
  refine ⟨h1, fun v => ?_⟩
  rw [RN.value_eq, RN.value_eq v x, RN.value_eq v y, h2, h3, map_mul, Finsupp.prod_add_index']
  · ring
  · simp
  · intros; rw [pow_add]

/-- C01, multiplicities: the atoms of the product are those of the factors, with added multiplicities. -/
theorem mul_mult {x y z : RN} (hx : x.WF) (hy : y.WF) (h : x.mul y = .ok z) : z.mult = x.mult + y.mult :=
  (RN.mul_eq_ok hx hy h).2.1

/-- C01, the exceptional inputs: `x * y` returns or throws `logic_error`, and it throws exactly if one operand is a rational different from
1 and the other is not rational. -/
theorem mul_throws_iff (x y : RN) :
    ((∃ z, x.mul y = .ok z) ∨ x.mul y = .throws .logicError) ∧
    (x.mul y = .throws .logicError ↔
      (∃ q : ℚ, q ≠ 1 ∧ x = .rat q ∧ y.rational? = none) ∨ (∃ q : ℚ, q ≠ 1 ∧ y = .rat q ∧ x.rational? = none)) := by
  refine ⟨RN.mul_ok_or_throws x y, ?_⟩
  cases x with
  | rat p =>
    by_cases hp : p = 1
    · subst hp; cases y <;> simp [RN.mul, RN.ratMul, RN.rational?]
    · cases y <;> simp [RN.mul, RN.ratMul, RN.rational?, hp]
  | atom i => cases y with
    | rat q => by_cases hq : q = 1 <;> simp [RN.mul, RN.ratMul, RN.rational?, hq]
    | atom j => simp [RN.mul]
    | prod j => simp [RN.mul]
  | prod i => cases y with
    | rat q => by_cases hq : q = 1 <;> simp [RN.mul, RN.ratMul, RN.rational?, hq]
    | atom j => simp [RN.mul]
    | prod j => simp [RN.mul]

/-- C01 is not vacuous: a product of two products with a common atom. -/
example : sample1.mul sample2 = .ok (.prod [(3, 3), (4, 3), (5, 1)]) := by
  simp [sample1, sample2, RN.mul, RN.persist, RN.factors, Mono.merge]
/-- … and a square of a product. -/
example : sample1.mul sample1 = .ok (.prod [(3, 4), (5, 2)]) := by
  simp [sample1, RN.mul, RN.persist, Mono.square]

/-! ### C02 -/

/-- C02. `*` is commutative up to identity of the resulting object (including the cases where it throws). -/
theorem mul_comm {x y : RN} (hx : x.WF) (hy : y.WF) : x.mul y = y.mul x := by
  rcases RN.mul_ok_or_throws x y with ⟨z, hz⟩ | h
  · rw [hz]
    obtain ⟨h1, h2, h3⟩ := RN.mul_eq_ok hx hy hz
    symm
    rw [RN.mul_eq_ok_iff hy hx h1]
    exact ⟨RN.mulDefined_comm.1 ((RN.mul_isOk_iff x y).1 ⟨z, hz⟩), by rw [h2, add_comm], by rw [h3, _root_.mul_comm]⟩
  · rcases RN.mul_ok_or_throws y x with ⟨z, hz⟩ | h'
    · exfalso
      have := (RN.mul_isOk_iff x y).2 (RN.mulDefined_comm.1 ((RN.mul_isOk_iff y x).1 ⟨z, hz⟩))
      rw [h] at this; simp at this
    · rw [h, h']

/-- C02. `*` is associative up to identity whenever both bracketings are defined. -/
theorem mul_assoc {x y z u v s t : RN} (hx : x.WF) (hy : y.WF) (hz : z.WF)
    (h1 : x.mul y = .ok u) (h2 : u.mul z = .ok s) (h3 : y.mul z = .ok v) (h4 : x.mul v = .ok t) : s = t := by
  obtain ⟨wu, mu, cu⟩ := RN.mul_eq_ok hx hy h1
  obtain ⟨ws, ms, cs⟩ := RN.mul_eq_ok wu hz h2
  obtain ⟨wv, mv, cv⟩ := RN.mul_eq_ok hy hz h3
  obtain ⟨wt, mt, ct⟩ := RN.mul_eq_ok hx wv h4
  rw [RN.ext_iff' ws wt, ms, mt, mu, mv, cs, ct, cu, cv, add_assoc, _root_.mul_assoc]
  exact ⟨rfl, rfl⟩

/-- C02. For numbers without rational factors (and for 1) both bracketings are always defined. -/
theorem mul_assoc_defined {x y z : RN} (hx : x.WF) (hy : y.WF) (hz : z.WF)
    (nx : x.rational? = none ∨ x = .rat 1) (ny : y.rational? = none ∨ y = .rat 1) (nz : z.rational? = none ∨ z = .rat 1) :
    ∃ r, (x.mul y >>= fun u => u.mul z) = .ok r ∧ (y.mul z >>= fun v => x.mul v) = .ok r := by
  have c : ∀ w : RN, (w.rational? = none ∨ w = .rat 1) → w.coef = 1 := by
    rintro w (h | rfl)
    · cases w <;> simp_all [RN.coef, RN.rational?]
    · rfl
  obtain ⟨u, hu⟩ := (RN.mul_isOk_iff x y).2 (Or.inr ⟨c x nx, c y ny⟩)
  obtain ⟨v, hv⟩ := (RN.mul_isOk_iff y z).2 (Or.inr ⟨c y ny, c z nz⟩)
  obtain ⟨wu, mu, cu⟩ := RN.mul_eq_ok hx hy hu
  obtain ⟨wv, mv, cv⟩ := RN.mul_eq_ok hy hz hv
  obtain ⟨s, hs⟩ := (RN.mul_isOk_iff u z).2 (Or.inr ⟨by rw [cu, c x nx, c y ny]; norm_num, c z nz⟩)
  obtain ⟨t, ht⟩ := (RN.mul_isOk_iff x v).2 (Or.inr ⟨c x nx, by rw [cv, c z nz, c y ny]; norm_num⟩)
  refine ⟨s, by rw [hu]; exact hs, ?_⟩
  rw [hv, mul_assoc hx hy hz hu hs hv ht]; exact ht

/-- C02. `1 * x` and `x * 1` are `x`. -/
theorem one_mul (x : RN) : (RN.rat 1).mul x = .ok x ∧ x.mul (RN.rat 1) = .ok x := by
  cases x with
  | rat p => by_cases h : p = 1 <;> simp [RN.mul, RN.ratMul, h]
  | _ => simp [RN.mul, RN.ratMul]

example : ∃ r, (sample1.mul sample2 >>= fun u => u.mul (.atom 4)) = .ok r ∧
    (sample2.mul (.atom 4) >>= fun v => sample1.mul v) = .ok r :=
  mul_assoc_defined sample1_WF sample2_WF trivial (Or.inl rfl) (Or.inl rfl) (Or.inl rfl)

/-! ### C03 -/

/-- C03. Looking up the product of two non-rational factors matches a stored product if and only if the stored product is the
product of these factors. -/
theorem cache_lookup_exact {x y : RN} {stored : Mono} (hx : x.WF) (hy : y.WF) (rx : x.rational? = none) (ry : y.rational? = none)
    (hs : (RN.prod stored).WF) : RN.keyMatches x y stored = true ↔ x.mul y = .ok (.prod stored) := by
  have fx : x.isRat = false := by simp [RN.isRat, rx]
  have fy : y.isRat = false := by simp [RN.isRat, ry]
  rw [RN.keyMatches, Mono.keyEq_iff (RN.factors_canon hx) (RN.factors_canon hy) hs.1, RN.mul_eq_ok_iff hx hy hs]
  constructor
  · rintro rfl
    refine ⟨Or.inr ⟨RN.coef_of_not_rat fx, RN.coef_of_not_rat fy⟩, ?_, ?_⟩
    · simp [Mono.mult_merge, RN.factors_mult]
    · rw [RN.coef_of_not_rat fx, RN.coef_of_not_rat fy]; simp [RN.coef]
  · rintro ⟨-, h, -⟩
    apply hs.1.mult_injective (Mono.canon_merge (RN.factors_canon hx) (RN.factors_canon hy))
    rw [Mono.mult_merge, RN.factors_mult, RN.factors_mult]; exact h

/-- C03, stated on the atoms: the lookup matches exactly if the multiplicities add up. -/
theorem cache_lookup_mult {x y : RN} {stored : Mono} (hx : x.WF) (hy : y.WF) (rx : x.rational? = none) (ry : y.rational? = none)
    (hs : (RN.prod stored).WF) : RN.keyMatches x y stored = true ↔ ∀ i, stored.mult i = x.mult i + y.mult i := by
  have fx : x.isRat = false := by simp [RN.isRat, rx]
  have fy : y.isRat = false := by simp [RN.isRat, ry]
  rw [cache_lookup_exact hx hy rx ry hs, RN.mul_eq_ok_iff hx hy hs]
  constructor
  · rintro ⟨-, h, -⟩ i
    have := DFunLike.congr_fun h i
    simpa using this
  · intro h
    refine ⟨Or.inr ⟨RN.coef_of_not_rat fx, RN.coef_of_not_rat fy⟩, Finsupp.ext (by simpa using h), ?_⟩
    rw [RN.coef_of_not_rat fx, RN.coef_of_not_rat fy]; simp [RN.coef]

example : RN.keyMatches sample1 sample2 [(3, 3), (4, 3), (5, 1)] = true ∧
    RN.keyMatches sample1 sample2 [(3, 3), (4, 3), (5, 2)] = false := by
  constructor <;> simp [sample1, sample2, RN.keyMatches, RN.factors, Mono.keyEq]

/-! ### C04 -/

/-- C04. The hash under which a product of two factors is looked up, the hash stored when the product is created (generic case and
both square shortcuts), and the hash recomputed from the list of the resulting product all agree modulo 2^64. -/
theorem hash_consistent {x y : RN} {m : Mono} (rx : x.rational? = none) (ry : y.rational? = none)
    (h : x.mul y = .ok (.prod m)) : RN.factorsHash x y = m.hash ∧ RN.persistHash x y = m.hash := by
  have fx : x.isRat = false := by simp [RN.isRat, rx]
  have fy : y.isRat = false := by simp [RN.isRat, ry]
  have hp : RN.persist x y = .prod m := by
    cases x <;> cases y <;> simp_all [RN.mul, RN.rational?]
  have := RN.factorsHash_eq x y fx fy
  rw [hp] at this
  exact ⟨this.symm, by rw [RN.persistHash_eq x y fx]; exact this.symm⟩

/-- C04, specification of the hash: it is the product of `id ^ exponent` in 64 bit arithmetic, in whatever order. -/
theorem hash_spec (m : Mono) : m.hash = (m.map fun p => UInt64.ofNat p.1 ^ p.2).prod := Mono.hash_eq m

example : (Mono.hash [(2147483659, 3), (2147483660, 2)]) =
    UInt64.ofNat 2147483659 ^ 3 * (UInt64.ofNat 2147483660 ^ 2 * 1) := by simp [hash_spec]

/-! ### C05 -/

/-- C05, soundness. If `x / y` returns a number `q` then `q * y` is `x`. -/
theorem div_sound {x y q : RN} (hx : x.WF) (hy : y.WF) (h : x.div y = .ok (some q)) : q.WF ∧ q.mul y = .ok x :=
  RN.div_eq_some hx hy h

/-- C05, soundness for values. -/
theorem div_value {x y q : RN} (hx : x.WF) (hy : y.WF) (h : x.div y = .ok (some q)) (v : ℕ → ℝ) :
    x.value v = q.value v * y.value v := by
  obtain ⟨hq, hm⟩ := RN.div_eq_some hx hy h
  exact (mul_value hq hy hm).2 v

/-- C05, completeness. If `x / y` returns nothing then no real number times `y` is `x`. -/
theorem div_complete {x y : RN} (hx : x.WF) (hy : y.WF) (h : x.div y = .ok none) : ∀ q : RN, q.WF → q.mul y ≠ .ok x :=
  fun q hq => RN.div_eq_none hx hy h q hq

/-- C05, exceptions: `x / y` always returns or throws `logic_error`, the latter exactly for a rational divisor other than 1 that is not
`x` itself. -/
theorem div_throws_iff (x y : RN) : ((∃ r, x.div y = .ok r) ∨ x.div y = .throws .logicError) ∧
    (x.div y = .throws .logicError ↔ x ≠ y ∧ ∃ q, y = .rat q ∧ q ≠ 1) :=
  ⟨RN.div_outcomes x y, RN.div_throws_iff x y⟩

/-- C05, dividing undoes multiplying for non-rational divisors. -/
theorem mul_div_cancel {x y z : RN} (hx : x.WF) (hy : y.WF) (ry : y.rational? = none) (h : x.mul y = .ok z) :
    z.div y = .ok (some x) := by
  obtain ⟨hz, -, -⟩ := RN.mul_eq_ok hx hy h
  rcases RN.div_outcomes z y with ⟨r, hr⟩ | ht
  · cases r with
    | none => exact absurd h (div_complete hz hy hr x hx)
    | some q =>
      obtain ⟨hq, hm⟩ := div_sound hz hy hr
      have fy : y.coef = 1 := RN.coef_of_not_rat (by simp [RN.isRat, ry])
      have h1 := RN.mul_eq_ok hx hy h
      have h2 := RN.mul_eq_ok hq hy hm
      have : q = x := by
        rw [RN.ext_iff' hq hx]
        refine ⟨?_, ?_⟩
        · have := h2.2.1.symm.trans h1.2.1
          exact add_right_cancel this
        · have := h2.2.2.symm.trans h1.2.2
          simpa [fy] using this
      rw [hr, this]
  · obtain ⟨-, q, rfl, -⟩ := (RN.div_throws_iff z y).1 ht
    simp [RN.rational?] at ry

example : sample1.div (.atom 3) = .ok (some (.prod [(3, 1), (5, 1)])) ∧ sample1.div sample2 = .ok none ∧
    (RN.prod [(3, 1), (5, 1)]).div (.atom 5) = .ok (some (.atom 3)) := by
  refine ⟨?_, ?_, ?_⟩ <;>
    simp [sample1, sample2, RN.div, Mono.divAtom, Mono.divLoop, RN.rebuild, Mono.dropZeros]

/-! ### C06 -/

/-- C06. `deglex` never throws: the statements marked unreachable are unreachable. -/
theorem deglex_never_throws {x y : RN} (hx : x.WF) (hy : y.WF) : ∃ b, x.deglex y = .ok b := by
  obtain ⟨b, hb, -⟩ := RN.deglex_spec hx hy
  exact ⟨b, hb⟩

/-- C06. `deglex` is the documented order on the atoms: by total degree, then by the smallest atom on which the products differ. -/
theorem deglex_iff {x y : RN} (hx : x.WF) (hy : y.WF) : x.deglex y = .ok true ↔ Precedes x.mult y.mult := by
  obtain ⟨b, hb, h⟩ := RN.deglex_spec hx hy
  rw [hb, ← h]; simp

/-- C06. `deglex` is irreflexive, transitive, and total on numbers that are not both rational. -/
theorem deglex_strict_total :
    (∀ x : RN, x.deglex x = .ok false) ∧
    (∀ x y z : RN, x.WF → y.WF → z.WF → x.deglex y = .ok true → y.deglex z = .ok true → x.deglex z = .ok true) ∧
    (∀ x y : RN, x.WF → y.WF → x ≠ y → (x.rational? = none ∨ y.rational? = none) →
      (x.deglex y = .ok true ∧ y.deglex x = .ok false) ∨ (x.deglex y = .ok false ∧ y.deglex x = .ok true)) ∧
    (∀ p q : ℚ, (RN.rat p).deglex (.rat q) = .ok false) := by
  refine ⟨fun x => by simp [RN.deglex], ?_, ?_, ?_⟩
  · intro x y z hx hy hz h1 h2
    rw [deglex_iff hx hy] at h1; rw [deglex_iff hy hz] at h2; rw [deglex_iff hx hz]
    exact h1.trans h2
  · intro x y hx hy hne hr
    obtain ⟨b, hb, h⟩ := RN.deglex_spec hx hy
    obtain ⟨c, hc, h'⟩ := RN.deglex_spec hy hx
    rw [hb, hc]
    rcases Precedes.trichotomy x.mult y.mult with hp | hp | hp
    · left; exact ⟨by rw [h.2 hp], by rw [Out.ok.injEq, ← Bool.not_eq_true, h']; exact hp.asymm⟩
    · exfalso
      rcases hr with hr | hr
      · exact hne (RN.mult_injective hx hy hp (by simp [RN.isRat, hr]))
      · exact hne (RN.mult_injective hy hx hp.symm (by simp [RN.isRat, hr])).symm
    · right; exact ⟨by rw [Out.ok.injEq, ← Bool.not_eq_true, h]; exact hp.asymm, by rw [h'.2 hp]⟩
  · intro p q
    simp [RN.deglex, RN.isRat, RN.rational?]

example : sample1.deglex sample2 = .ok true ∧ (RN.atom 9).deglex sample1 = .ok true ∧
    (RN.prod [(3, 2)]).deglex (.prod [(3, 1), (4, 1)]) = .ok true := by
  refine ⟨?_, ?_, ?_⟩ <;>
    simp [sample1, sample2, RN.deglex, Mono.deglex, Mono.totalDegree, Mono.deglexLoop]

/-! ### C07 -/

/-- C07. `deglex` is compatible with multiplication, in both directions. -/
theorem deglex_mul {x y z u w : RN} (hx : x.WF) (hy : y.WF) (hz : z.WF) (hu : x.mul z = .ok u) (hw : y.mul z = .ok w) :
    x.deglex y = .ok true ↔ u.deglex w = .ok true := by
  obtain ⟨wu, mu, -⟩ := RN.mul_eq_ok hx hz hu
  obtain ⟨ww, mw, -⟩ := RN.mul_eq_ok hy hz hw
  rw [deglex_iff hx hy, deglex_iff wu ww, mu, mw]
  exact ⟨fun h => h.add_right _, fun h => h.of_add_right⟩

/-- C07. Rationals, in particular 1, precede everything else. -/
theorem rational_deglex {x : RN} (hx : x.WF) (hr : x.rational? = none) (q : ℚ) : (RN.rat q).deglex x = .ok true := by
  rw [deglex_iff (show (RN.rat q).WF from trivial) hx]
  exact Precedes.zero_of_ne (RN.mult_ne_zero hx (by simp [RN.isRat, hr]))

/-- C07. There is no infinite strictly descending sequence of real numbers in deglex, even though there are infinitely many atoms. -/
theorem deglex_wellFounded : ¬ ∃ f : ℕ → RN, (∀ n, (f n).WF) ∧ ∀ n, (f (n + 1)).deglex (f n) = .ok true := by
  rintro ⟨f, hf, h⟩
  have : ∀ n, Precedes (f (n + 1)).mult (f n).mult := fun n => (deglex_iff (hf _) (hf _)).1 (h n)
  obtain ⟨a, ⟨n, rfl⟩, ha⟩ := precedes_wf.has_min (Set.range fun n => (f n).mult) ⟨_, 0, rfl⟩
  exact ha _ ⟨n + 1, rfl⟩ (this n)

example : ∃ u w, sample1.mul (.atom 4) = .ok u ∧ sample2.mul (.atom 4) = .ok w ∧ u.deglex w = .ok true := by
  refine ⟨.prod [(3, 2), (4, 1), (5, 1)], .prod [(3, 1), (4, 4)], ?_, ?_, ?_⟩ <;>
    simp [sample1, sample2, RN.mul, RN.persist, RN.factors, Mono.merge, RN.deglex, Mono.deglex, Mono.totalDegree]

end ExactReal.Props
