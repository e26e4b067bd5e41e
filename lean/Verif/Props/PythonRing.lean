import Verif.Spec.PythonRing
import Verif.Props.Python

/-!
# C94: the Python ring is a domain of characteristic zero in which all identities of commutative rings hold
-/

namespace ExactReal.Props

variable {P : Type} [DecidableEq P] {R : Type} [CommRing R] [DecidableEq R] [CRing P R] [LawfulCRing P] [LawfulScalar P]
variable [build : Build]

open PyLemma Py

namespace PyLemma

theorem eq_true {atoms : Atoms} {F : Arith} {coeff : ℕ → R → Ball} {ring : P} {x y : Elt P R} (hx : In ring x) (hy : In ring y) (h : Py.poly x = Py.poly y)
    (fuel : ℕ) : Py.eq atoms F coeff fuel x y = .ok true := by
  obtain ⟨e, he, hp⟩ := eq_spec hx hy
  rw [hp.2 h] at he
  have : Py.richcmp atoms F coeff fuel x y = .ok .eq := by
    have h1 : Elt.lt atoms F coeff fuel x y = .ok false := by rw [Elt.lt, he]; rfl
    rw [Py.richcmp, h1]
    show (if false = true then Out.ok Ordering.lt else x.eq y >>= fun e => if e = true then .ok .eq else .ok .gt) = _
    rw [he]; rfl
  exact (operators_ok atoms F coeff).2.2.1.2 ⟨.eq, this, rfl⟩

theorem eval_spec {ring : P} {x : ℕ → Elt P R} (hx : ∀ i, Made ring (x i)) : ∀ t : RExpr,
    ∃ z, t.eval ring x = .ok z ∧ Made ring z ∧ Py.poly z = t.value fun i => Py.poly (x i)
  | .var i => ⟨x i, rfl, hx i, rfl⟩
  | .int n => by
    obtain ⟨z, hz, -, pz⟩ := coerce_spec (P := P) (ring := ring) (c := (n : R)) (intCast_mem _ n)
    exact ⟨z, hz, .coerce (intCast_mem _ n) hz, by rw [pz, map_intCast, map_intCast, RExpr.value]⟩
  | .add a b => by
    obtain ⟨y, hy, my, py⟩ := eval_spec hx a
    obtain ⟨z, hz, mz, pz⟩ := eval_spec hx b
    obtain ⟨w, hw, -, pw⟩ := add_spec (made_in my) (made_in mz)
    exact ⟨w, by rw [RExpr.eval, hy, Out.ok_bind, hz, Out.ok_bind, hw], .add my mz hw, by rw [pw, py, pz, RExpr.value]⟩
  | .sub a b => by
    obtain ⟨y, hy, my, py⟩ := eval_spec hx a
    obtain ⟨z, hz, mz, pz⟩ := eval_spec hx b
    obtain ⟨w, hw, -, pw⟩ := sub_spec (made_in my) (made_in mz)
    exact ⟨w, by rw [RExpr.eval, hy, Out.ok_bind, hz, Out.ok_bind, hw], .sub my mz hw, by rw [pw, py, pz, RExpr.value]⟩
  | .mul a b => by
    obtain ⟨y, hy, my, py⟩ := eval_spec hx a
    obtain ⟨z, hz, mz, pz⟩ := eval_spec hx b
    obtain ⟨w, hw, -, pw⟩ := mul_spec (made_in my) (made_in mz)
    exact ⟨w, by rw [RExpr.eval, hy, Out.ok_bind, hz, Out.ok_bind, hw], .mul my mz hw, by rw [pw, py, pz, RExpr.value]⟩
  | .neg a => by
    obtain ⟨y, hy, my, py⟩ := eval_spec hx a
    obtain ⟨w, hw, -, pw⟩ := neg_spec (made_in my)
    exact ⟨w, by rw [RExpr.eval, hy, Out.ok_bind, hw], .neg my hw, by rw [pw, py, RExpr.value]⟩
  | .scale n a => by
    obtain ⟨y, hy, my, py⟩ := eval_spec hx a
    obtain ⟨w, hw, -, pw⟩ := lmul_spec (intCast_mem _ n) (made_in my)
    exact ⟨w, by rw [RExpr.eval, hy, Out.ok_bind, hw], .lmul my (intCast_mem _ n) hw, by rw [pw, py, RExpr.value, map_intCast, map_intCast]⟩

end PyLemma

variable {atoms : Atoms} {F : Arith} {coeff : ℕ → R → Ball}

/-- C94. Expressions never raise, and two expressions that are equal in all commutative rings compare equal in Python, whatever elements the variables are. -/
theorem py_identity {ring : P} {x : ℕ → Elt P R} (hx : ∀ i, Made ring (x i)) {s t : RExpr} (h : s.Identity t) :
    ∃ a b, s.eval ring x = .ok a ∧ t.eval ring x = .ok b ∧ ∀ fuel, Py.eq atoms F coeff fuel a b = .ok true := by
  obtain ⟨a, ha, ma, pa⟩ := eval_spec hx s
  obtain ⟨b, hb, mb, pb⟩ := eval_spec hx t
  exact ⟨a, b, ha, hb, eq_true (made_in ma) (made_in mb) (by rw [pa, pb, h])⟩

theorem value_hom {A B : Type} [CommRing A] [CommRing B] (f : A →+* B) (a : ℕ → A) : ∀ t : RExpr, t.value (fun i => f (a i)) = f (t.value a)
  | .var i => rfl
  | .int n => by simp [RExpr.value]
  | .add s t => by simp [RExpr.value, value_hom f a s, value_hom f a t]
  | .sub s t => by simp [RExpr.value, value_hom f a s, value_hom f a t]
  | .mul s t => by simp [RExpr.value, value_hom f a s, value_hom f a t]
  | .neg s => by simp [RExpr.value, value_hom f a s]
  | .scale n s => by simp [RExpr.value, value_hom f a s]

/-- C94. Conversely, random elements satisfy no other identities: `==` of two expressions in random elements returns True only if they are equal in all
commutative rings. -/
theorem py_identity_complete {ring : P} {x : ℕ → Elt P R} (hx : ∀ i, Py.random ring i = .ok (x i)) {s t : RExpr} {a b : Elt P R}
    (ha : s.eval ring x = .ok a) (hb : t.eval ring x = .ok b) {fuel : ℕ} (h : Py.eq atoms F coeff fuel a b = .ok true) : s.Identity t := by
  have mx : ∀ i, Made ring (x i) := fun i => .random (hx i)
  have px : (fun i => Py.poly (x i)) = MvPolynomial.X := by
    funext i
    obtain ⟨z, hz, -, pz⟩ := random_spec (P := P) (R := R) ring i
    rw [hx i] at hz; cases hz; exact pz
  obtain ⟨a', ha', ma, pa⟩ := eval_spec mx s
  obtain ⟨b', hb', mb, pb⟩ := eval_spec mx t
  rw [ha] at ha'; cases ha'
  rw [hb] at hb'; cases hb'
  have e : s.value (MvPolynomial.X : ℕ → MvPolynomial ℕ AlgReal) = t.value MvPolynomial.X := by
    rw [px] at pa pb
    rw [← pa, ← pb]; exact ((py_eq ma mb).1 h).1 rfl
  have e' : s.value (MvPolynomial.X : ℕ → MvPolynomial ℕ ℤ) = t.value MvPolynomial.X := by
    apply MvPolynomial.map_injective (Int.castRingHom AlgReal) (Int.cast_injective (α := AlgReal))
    rw [← value_hom, ← value_hom]
    simpa only [MvPolynomial.map_X] using e
  intro A _ v
  have := congrArg (MvPolynomial.eval₂Hom (Int.castRingHom A) v) e'
  rw [← value_hom, ← value_hom] at this
  simpa only [MvPolynomial.coe_eval₂Hom, MvPolynomial.eval₂_X] using this

/-- C94. `is_integral_domain()` is right: a product is zero only if a factor is, and factors can be cancelled, by comparing products or by dividing. -/
theorem py_domain {ring : P} {x y : Elt P R} (hx : Made ring x) (hy : Made ring y) :
    Py.isIntegralDomain = true ∧
    (∀ z, Py.mul x y = .ok z → z.toBool = false → x.toBool = false ∨ y.toBool = false) ∧
    (x.toBool = true → ∀ z, Made ring z → ∀ a b, Py.mul x y = .ok a → Py.mul x z = .ok b → ∀ fuel, Py.eq atoms F coeff fuel a b = .ok true →
      ∀ fuel, Py.eq atoms F coeff fuel y z = .ok true) ∧
    (y.toBool = true → ∀ z, Py.mul x y = .ok z → ∃ N w, ∀ fuel ≥ N, Py.div fuel z y = .ok (some w) ∧ ∀ fuel, Py.eq atoms F coeff fuel w x = .ok true) := by
  have ix := made_in hx
  have iy := made_in hy
  have hm : ∀ {y : Elt P R}, Made ring y → ∀ z, Py.mul x y = .ok z → Made ring z ∧ Py.poly z = Py.poly x * Py.poly y := fun hy z hz => by
    obtain ⟨z', hz', -, pz⟩ := mul_spec ix (made_in hy)
    rw [hz] at hz'; cases hz'
    exact ⟨.mul hx hy hz, pz⟩
  have nz : ∀ {x : Elt P R}, Made ring x → x.toBool = true → Py.poly x ≠ 0 := fun hx h h0 => by
    rw [(bool_poly (made_in hx)).2 h0] at h; cases h
  refine ⟨rfl, fun z hz h => ?_, fun x0 z mz a b ha hb fuel h fuel' => ?_, fun y0 z hz => ?_⟩
  · obtain ⟨mz, pz⟩ := hm hy z hz
    rw [bool_poly ix, bool_poly iy]
    rw [bool_poly (made_in mz), pz] at h
    exact mul_eq_zero.1 h
  · obtain ⟨ma, pa⟩ := hm hy a ha
    obtain ⟨mb, pb⟩ := hm mz b hb
    have := ((py_eq ma mb).1 h).1 rfl
    rw [pa, pb] at this
    exact eq_true iy (made_in mz) (mul_left_cancel₀ (nz hx x0) this) fuel'
  · obtain ⟨mz, pz⟩ := hm hy z hz
    have y0 := nz hy y0
    obtain ⟨⟨N, r, h1⟩, h2⟩ := py_div mz hy y0
    cases r with
    | none => exact absurd ⟨x, hx, pz.symm⟩ ((h2 N none (h1 N le_rfl)).2.1 rfl)
    | some w =>
      obtain ⟨mw, pw⟩ := (h2 N _ (h1 N le_rfl)).1 w rfl
      exact ⟨N, w, fun fuel hf => ⟨h1 fuel hf, eq_true (made_in mw) ix (mul_right_cancel₀ y0 (pw.trans pz))⟩⟩

/-- C94. `characteristic()` is right: `n` is zero in the ring if and only if it is a multiple of the characteristic. -/
theorem py_characteristic (ring : P) (n : ℤ) : ∃ z : Elt P R, Py.coerce ring (n : R) = .ok z ∧ (z.toBool = false ↔ (Py.characteristic : ℤ) ∣ n) := by
  obtain ⟨z, hz, iz, pz⟩ := coerce_spec (P := P) (ring := ring) (c := (n : R)) (intCast_mem _ n)
  refine ⟨z, hz, ?_⟩
  rw [bool_poly iz, pz, map_intCast, map_intCast, Int.cast_eq_zero]
  simp [Py.characteristic]

/-- C94. `is_field()` is right: random elements are not zero and have no inverse; `is_unit()` returns False and `~x` raises `NotRepresentableError`. -/
theorem py_not_field (ring : P) (i : ℕ) : Py.isField = false ∧ ∃ x : Elt P R, Py.random ring i = .ok x ∧ x.toBool = true ∧ Py.isUnit x = false ∧
    (∃ N, ∀ fuel ≥ N, Py.invert ring fuel x = .ok none) ∧ ∀ y z, Made ring y → Py.mul x y = .ok z → Py.poly z ≠ 1 := by
  obtain ⟨x, hx, ix, px⟩ := random_spec (P := P) (R := R) ring i
  have mx : Made ring x := .random hx
  have x0 : Py.poly x ≠ 0 := by rw [px]; exact MvPolynomial.X_ne_zero i
  have nu : ∀ p : MvPolynomial ℕ AlgReal, p * Py.poly x ≠ 1 := by
    intro p hp
    have := congrArg (MvPolynomial.aeval (0 : ℕ → AlgReal)) hp
    rw [px, map_mul, MvPolynomial.aeval_X, map_one] at this
    simp at this
  have hu : Py.isUnit x = false := by
    rw [← Bool.not_eq_true, py_unit mx]
    rintro ⟨z, -, hz⟩
    exact nu _ hz
  refine ⟨rfl, x, hx, ?_, hu, ?_, fun y z my hz h => ?_⟩
  · rw [← Bool.not_eq_false, bool_poly ix]; exact x0
  · obtain ⟨⟨N, r, h1⟩, h2⟩ := py_invert mx x0
    cases r with
    | none => exact ⟨N, h1⟩
    | some z => exact absurd ((h2 N _ (h1 N le_rfl)).2.1 rfl) (by simp [hu])
  · obtain ⟨z', hz', -, pz⟩ := mul_spec ix (made_in my)
    rw [hz] at hz'; cases hz'
    exact nu (Py.poly y) (by rw [← h, pz, _root_.mul_comm])

/-- C94. `some_elements()` returns what its documentation shows. -/
theorem py_some_elements {ring : P} {gen : R} (hg : gen ∈ LawfulCRing.mem ring) (i : Fin 8 → ℕ) :
    ∃ l : List (Elt P R), Py.someElements ring gen i = .ok l ∧ (∀ x ∈ l, Made ring x) ∧
      l.map Py.poly = [0, 1, MvPolynomial.C (LawfulCRing.emb P gen), .X (i 0), .X (i 1) + 1, .X (i 2) + MvPolynomial.C (LawfulCRing.emb P gen),
        .X (i 3) + .X (i 4), .X (i 5) * .X (i 6), .X (i 7) ^ 2] := by
  have co : ∀ {c : R}, c ∈ LawfulCRing.mem ring → ∃ z : Elt P R, Py.coerce ring c = .ok z ∧ Made ring z ∧ Py.poly z = MvPolynomial.C (LawfulCRing.emb P c) := by
    intro c hc
    obtain ⟨z, hz, -, pz⟩ := coerce_spec (P := P) (ring := ring) (c := c) hc
    exact ⟨z, hz, .coerce hc hz, pz⟩
  have ra : ∀ i, ∃ z : Elt P R, Py.random ring i = .ok z ∧ Made ring z ∧ Py.poly z = MvPolynomial.X i := by
    intro i
    obtain ⟨z, hz, -, pz⟩ := random_spec (P := P) (R := R) ring i
    exact ⟨z, hz, .random hz, pz⟩
  have ad : ∀ {x y : Elt P R}, Made ring x → Made ring y → ∃ z, Py.add x y = .ok z ∧ Made ring z ∧ Py.poly z = Py.poly x + Py.poly y := by
    intro x y hx hy
    obtain ⟨z, hz, -, pz⟩ := add_spec (made_in hx) (made_in hy)
    exact ⟨z, hz, .add hx hy hz, pz⟩
  have mu : ∀ {x y : Elt P R}, Made ring x → Made ring y → ∃ z, Py.mul x y = .ok z ∧ Made ring z ∧ Py.poly z = Py.poly x * Py.poly y := by
    intro x y hx hy
    obtain ⟨z, hz, -, pz⟩ := mul_spec (made_in hx) (made_in hy)
    exact ⟨z, hz, .mul hx hy hz, pz⟩
  obtain ⟨zero, hz, mz, pz⟩ := co (Subring.zero_mem _)
  obtain ⟨one, ho, mo, po⟩ := co (Subring.one_mem _)
  obtain ⟨g, hgz, mg, pg⟩ := co hg
  obtain ⟨r0, h0, m0, p0⟩ := ra (i 0)
  obtain ⟨r1, h1, m1, p1⟩ := ra (i 1)
  obtain ⟨r2, h2, m2, p2⟩ := ra (i 2)
  obtain ⟨r3, h3, m3, p3⟩ := ra (i 3)
  obtain ⟨r4, h4, m4, p4⟩ := ra (i 4)
  obtain ⟨r5, h5, m5, p5⟩ := ra (i 5)
  obtain ⟨r6, h6, m6, p6⟩ := ra (i 6)
  obtain ⟨r7, h7, m7, p7⟩ := ra (i 7)
  obtain ⟨s1, hs1, ms1, ps1⟩ := ad m1 mo
  obtain ⟨s2, hs2, ms2, ps2⟩ := ad m2 mg
  obtain ⟨s3, hs3, ms3, ps3⟩ := ad m3 m4
  obtain ⟨p, hp, mp, pp⟩ := mu m5 m6
  obtain ⟨q, hq, mq, pq⟩ := mu m7 m7
  refine ⟨[zero, one, g, r0, s1, s2, s3, p, q], ?_, ?_, ?_⟩
  · simp only [Py.someElements, hz, ho, hgz, h0, h1, h2, h3, h4, h5, h6, h7, hs1, hs2, hs3, hp, hq, Out.ok_bind]
  · simp only [List.mem_cons, List.not_mem_nil, or_false]
    rintro x (rfl | rfl | rfl | rfl | rfl | rfl | rfl | rfl | rfl) <;> assumption
  · simp only [List.map_cons, List.map_nil, pz, po, pg, p0, ps1, ps2, ps3, pp, pq, p1, p2, p3, p4, p5, p6, p7, map_zero, map_one, pow_two]

/-- The binomial formula for elements over the integers, and a formula that only holds in some rings. -/
example {x : ℕ → Elt IntegerRing ℤ} (hx : ∀ i, Made .mk (x i)) {atoms : Atoms} {F : Arith} :
    ∃ a b, (RExpr.mul (.add (.var 0) (.var 1)) (.sub (.var 0) (.var 1))).eval .mk x = .ok a ∧
      (RExpr.sub (.mul (.var 0) (.var 0)) (.mul (.var 1) (.var 1))).eval .mk x = .ok b ∧ ∀ fuel, Py.eq atoms F IntegerRing.arb fuel a b = .ok true :=
  py_identity hx fun A _ a => by simp only [RExpr.value]; ring

example : ¬(RExpr.add (.var 0) (.var 0)).Identity (.int 0) := fun h => by
  have := h ℤ fun _ => 1
  simp [RExpr.value] at this

end ExactReal.Props
