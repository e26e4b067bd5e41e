import Verif.Lemma.Promote
import Verif.Lemma.Compat
import Verif.Props.RealNumber

/-!
# C11–C14, C16, C17: exact arithmetic and comparison of elements

Vocabulary (`Verif/Spec/Element.lean`): `x.WF` is the representation invariant, `x.real v` is the real number `x` stands for if atom `i`
stands for the real number `v i`; a theorem about `x.real v` for all `v` is a statement for whatever reals the atoms are.  All theorems hold
for the three coefficient rings of the library and for every build configuration (`[Build]`: assertions and argument checks on or off).
-/

namespace ExactReal.Props
open ExactReal

/-! ### A sample element: `3 + 2·a - b` over ℤ with the basis `1 < a < b < a·b`, `a`, `b` the atoms 5 and 7 -/

def sampleModule : Mod IntegerRing := ⟨.mk, [.rat 1, .atom 5, .atom 7, .prod [(5, 1), (7, 1)]]⟩
def sample : Elt IntegerRing ℤ := ⟨sampleModule, [3, 2, -1, 0]⟩

theorem sampleModule_WF : sampleModule.WF := by
  have h : Mod.make IntegerRing.mk [.rat 1, .atom 5, .atom 7, .prod [(5, 1), (7, 1)]] = .ok sampleModule := by
    simp [Mod.make, Mod.sort, RN.lt, RN.deglex, Mod.check, Mod.compatible, RN.isRat, RN.rational?, sampleModule]
  refine (Mod.make_ok ?_ h).2.2
  simp only [List.mem_cons, List.not_mem_nil, or_false, forall_eq_or_imp, forall_eq, RN.WF, true_and]
  exact ⟨⟨by simp, by simp⟩, by simp⟩

theorem sample_WF : sample.WF := ⟨sampleModule_WF, rfl, fun _ _ => trivial⟩
theorem sample_real (v : ℕ → ℝ) : sample.real v = 3 + 2 * v 5 - v 7 := by
  simp [sample, sampleModule, Elt.real, Elt.value, Elt.terms, RN.value]
  ring
theorem sample_unital : sampleModule.Unital := by simp [Mod.Unital, sampleModule]

def sampleB : Elt IntegerRing ℤ := ⟨⟨.mk, [.rat 1, .atom 3]⟩, [1, 4]⟩
theorem sampleB_WF : sampleB.WF := by
  have h : Mod.make IntegerRing.mk [.rat 1, .atom 3] = .ok sampleB.mod := by
    simp [Mod.make, Mod.sort, RN.lt, RN.deglex, Mod.check, Mod.compatible, RN.isRat, RN.rational?, sampleB]
  exact ⟨(Mod.make_ok (by simp [RN.WF]) h).2.2, rfl, fun _ _ => trivial⟩
theorem sampleB_unital : sampleB.mod.Unital := by simp [Mod.Unital, sampleB]

variable {P : Type} [DecidableEq P] {R : Type} [CommRing R] [DecidableEq R] [CRing P R] [LawfulCRing P] [b : Build]

/-! ### C11 -/

/-- C11, full statement for targets that contain all generators with a non-zero coefficient.  Missing: for other targets `promote` may
silently drop terms, see `promote_drops`; what it does exactly is `promote_general`. -/
theorem promote_partial {x : Elt P R} {m : Mod P} (hx : x.WF) (hm : m.WF) (hsub : ∀ t ∈ x.terms, t.2 ≠ 0 → t.1 ∈ m.basis) :
    (∀ y, x.promote m = .ok y → y.WF ∧ y.mod = m ∧ ∀ v : ℕ → ℝ, y.real v = x.real v) ∧
    ((∃ y, x.promote m = .ok y) ∨ x.promote m = .throws .logicError) ∧
    ((∀ c ∈ x.coeffs, ∃ d, CRing.coerce m.par x.mod.par c = .ok d) → ∃ y, x.promote m = .ok y) := by
  have hs : ∀ g ∈ x.mod.basis, x.fs g ≠ 0 → g ∈ m.basis := by
    intro g hg hn
    rw [← Elt.terms_fst hx.length] at hg
    obtain ⟨t, ht, rfl⟩ := List.mem_map.1 hg
    exact hsub t ht (by rwa [← hx.fs_apply (g := t.1) (c := t.2) ht])
  refine ⟨fun y h => ?_, Elt.promote_outcomes x m, Elt.promote_isOk hx hm hs⟩
  obtain ⟨h1, h2, h3⟩ := Elt.promote_ok hx hm hs h
  exact ⟨h1, h2, fun v => by rw [Elt.real_eq_evalF, Elt.real_eq_evalF, h3]⟩

/-- C11. What `promote` does in general: it throws, or it returns the part of the combination on generators that exist in the target
module. If assertions are enabled it throws if a generator with a non-zero coefficient comes after all generators of the target. -/
theorem promote_general {x : Elt P R} {m : Mod P} (hx : x.WF) (hm : m.WF) :
    ((∃ y, x.promote m = .ok y) ∨ x.promote m = .throws .logicError) ∧
    ∀ y, x.promote m = .ok y → y.WF ∧ y.mod = m ∧
      (∀ v : ℕ → ℝ, y.real v = ((x.terms.filter fun t => t.1 ∈ m.basis).map fun t => Elt.num P t.2 * t.1.value v).sum) ∧
      (b.asserts = true → ¬ ∃ t ∈ x.terms, t.2 ≠ 0 ∧ ∀ g ∈ m.basis, g.deglex t.1 = .ok true) := by
  refine ⟨Elt.promote_outcomes x m, fun y h => ?_⟩
  obtain ⟨h1, h2, h3, h4⟩ := Elt.promote_general hx hm h
  refine ⟨h1, h2, fun v => by rw [Elt.real_eq_evalF, h3, Elt.evalF_combo], ?_⟩
  rintro hb ⟨t, ht, hn, hall⟩
  obtain ⟨g, hg, hng⟩ := h4 hb t ht hn
  refine hng ((RN.lt_iff (hm.gens g hg) (hx.mod.gens _ (Elt.terms_mem_fst ht))).1 ?_)
  simp [RN.lt, hall g hg]

/-- C11 fails: promoting `a + b` to the module generated by `b` returns `b` (in all build configurations). -/
theorem promote_drops : (⟨⟨.mk, [.atom 5, .atom 7]⟩, [1, 1]⟩ : Elt IntegerRing ℤ).promote ⟨.mk, [.atom 7]⟩ = .ok ⟨⟨.mk, [.atom 7]⟩, [1]⟩ := by
  simp [Elt.promote, Elt.toBool, Elt.terms, Elt.promoteLoop, RN.lt, RN.deglex, CRing.coerce, Elt.ofCoefficients, assertThat]

/-- Non-vacuity of `promote_partial`: a proper enlargement that interleaves generators. -/
example : (⟨⟨.mk, [.atom 5]⟩, [4]⟩ : Elt IntegerRing ℤ).promote sampleModule = .ok ⟨sampleModule, [0, 4, 0, 0]⟩ := by
  simp [Elt.promote, Elt.toBool, Elt.terms, Elt.promoteLoop, RN.lt, RN.deglex, CRing.coerce, Elt.ofCoefficients, assertThat, sampleModule]

/-! ### C12 -/

/-- C12. The sum has the sum of the values. -/
theorem add_value {x y z : Elt P R} (hx : x.WF) (hy : y.WF) (h : x.add y = .ok z) :
    z.WF ∧ ∀ v : ℕ → ℝ, z.real v = x.real v + y.real v := by
  obtain ⟨h1, h2⟩ := Elt.add_ok hx hy h
  exact ⟨h1, fun v => by rw [Elt.real_eq_evalF, Elt.real_eq_evalF, Elt.real_eq_evalF, h2, Elt.evalF_add]⟩

/-- C12. `x += y` returns, or throws a `logic_error` and leaves `x` unchanged; it throws exactly if the operands live in different modules
which have no common module (`span_throws_iff`). -/
theorem add_fails_iff {x y : Elt P R} (hx : x.WF) (hy : y.WF) :
    ((∃ z, x.addAssign y = .done z) ∨ x.addAssign y = .fail .logicError x) ∧
    (x.addAssign y = .fail .logicError x ↔ x.mod ≠ y.mod ∧ Mod.span x.mod y.mod = .throws .logicError) := by
  rcases Elt.add_cases hx hy with ⟨s, z, hs, h, -⟩ | ⟨h1, h2, h⟩
  · refine ⟨.inl ⟨z, h⟩, fun hf => ?_, fun ⟨h1, h2⟩ => ?_⟩
    · rw [h] at hf; exact absurd hf.symm Step.fail_ne_done
    · rcases hs with ⟨he, -⟩ | hs
      · exact absurd he h1
      · rw [h2] at hs; cases hs
  · exact ⟨.inr h, fun _ => ⟨h1, h2⟩, fun _ => h⟩

/-- C12. The module of the sum is the span of the modules: it has exactly the generators of the operands. -/
theorem add_module {x y z : Elt P R} (hx : x.WF) (hy : y.WF) (h : x.add y = .ok z) (g : RN) :
    g ∈ z.mod.basis ↔ g ∈ x.mod.basis ∨ g ∈ y.mod.basis := (Elt.add_mod hx hy h).1 g

/-- C12. `x + y == y + x`, and one is defined if the other one is. -/
theorem add_comm_eq {x y z : Elt P R} (hx : x.WF) (hy : y.WF) (h : x.add y = .ok z) :
    ∃ z', y.add x = .ok z' ∧ z.eq z' = .ok true := by
  obtain ⟨hz, fz⟩ := Elt.add_ok hx hy h
  obtain ⟨bz, jz, rz, sz⟩ := Elt.add_mod hx hy h
  have hd : ∃ z', y.add x = .ok z' := by
    rcases Elt.add_cases hy hx with ⟨s, z', -, h', -⟩ | ⟨h1, h2, -⟩
    · exact ⟨z', by rw [Elt.add, h']; rfl⟩
    · exfalso
      obtain ⟨t, ht⟩ := Mod.span_isOk (R := R) hy.mod hx.mod jz.symm fun p q hp hq => (rz q p hq hp).symm
      rw [h2] at ht; cases ht
  obtain ⟨z', h'⟩ := hd
  obtain ⟨hz', fz'⟩ := Elt.add_ok hy hx h'
  obtain ⟨bz', jz', rz', sz'⟩ := Elt.add_mod hy hx h'
  refine ⟨z', h', Elt.eq_true_of_fs hz hz' ?_ ?_ (by rw [fz, fz', add_comm])⟩
  · rw [sz']
    exact ⟨((sz _).2 ⟨jz.symm, .refl _⟩).symm, ((sz _).2 ⟨.refl _, jz⟩).symm⟩
  · intro p q hp hq
    refine hz.mod.ratAgree p q hp ((bz _).2 (Or.symm ((bz' _).1 hq)))

/-- C12. `(x + y) + z == x + (y + z)` if both are defined. -/
theorem add_assoc_eq {x y z xy yz l r : Elt P R} (hx : x.WF) (hy : y.WF) (hz : z.WF) (h1 : x.add y = .ok xy) (h2 : xy.add z = .ok l)
    (h3 : y.add z = .ok yz) (h4 : x.add yz = .ok r) : l.eq r = .ok true := by
  obtain ⟨w1, f1⟩ := Elt.add_ok hx hy h1
  obtain ⟨w2, f2⟩ := Elt.add_ok w1 hz h2
  obtain ⟨w3, f3⟩ := Elt.add_ok hy hz h3
  obtain ⟨w4, f4⟩ := Elt.add_ok hx w3 h4
  obtain ⟨b1, j1, r1, s1⟩ := Elt.add_mod hx hy h1
  obtain ⟨b2, j2, r2, s2⟩ := Elt.add_mod w1 hz h2
  obtain ⟨b3, j3, r3, s3⟩ := Elt.add_mod hy hz h3
  obtain ⟨b4, j4, r4, s4⟩ := Elt.add_mod hx w3 h4
  have hxz : Mod.Joinable x.mod z.mod := ((s3 _).1 j4).2
  refine Elt.eq_true_of_fs w2 w4 ?_ ?_ (by rw [f2, f1, f4, f3, add_assoc])
  · rw [s4, s3]
    exact ⟨((s2 _).2 ⟨(s1 _).2 ⟨.refl _, j1⟩, hxz⟩).symm, ((s2 _).2 ⟨(s1 _).2 ⟨j1.symm, .refl _⟩, j3⟩).symm,
      ((s2 _).2 ⟨(s1 _).2 ⟨hxz.symm, j3.symm⟩, .refl _⟩).symm⟩
  · intro p q hp hq
    refine w2.mod.ratAgree p q hp ?_
    rw [b2, b1]; rw [b4, b3] at hq
    tauto

/-- Non-vacuity: a sum across modules neither of which contains the other. -/
example : sample.add sampleB =
    .ok ⟨⟨.mk, [.rat 1, .atom 3, .atom 5, .atom 7, .prod [(5, 1), (7, 1)]]⟩, [4, 4, 2, -1, 0]⟩ := by
  simp [sample, sampleB, sampleModule, Elt.add, Elt.addAssign, Mod.span, Mod.spanSame, Mod.submodule, Mod.extend, Mod.make, Mod.sort, RN.lt,
    RN.deglex, Mod.check, Mod.compatible, RN.isRat, RN.rational?, Elt.promote, Elt.toBool, Elt.terms, Elt.promoteLoop, CRing.coerce,
    Elt.ofCoefficients, assertThat, Elt.addSame, Step.result, Step.done]

/-! ### C13 -/

omit b in
/-- C13. `-x` has the negative value, in the same module. -/
theorem neg_value {x : Elt P R} (hx : x.WF) : x.neg.WF ∧ x.neg.mod = x.mod ∧ ∀ v : ℕ → ℝ, x.neg.real v = - x.real v := by
  obtain ⟨h1, h2, h3⟩ := Elt.neg_spec hx
  exact ⟨h1, h2, fun v => by rw [Elt.real_eq_evalF, Elt.real_eq_evalF, h3, Elt.evalF_neg]⟩

/-- C13. `x - y` has the difference of the values. -/
theorem sub_value {x y z : Elt P R} (hx : x.WF) (hy : y.WF) (h : x.sub y = .ok z) :
    z.WF ∧ ∀ v : ℕ → ℝ, z.real v = x.real v - y.real v := by
  obtain ⟨h1, h2⟩ := add_value hx (neg_value hy).1 h
  exact ⟨h1, fun v => by rw [h2, (neg_value hy).2.2]; ring⟩

/-- C13. `x -= y` returns exactly when `x += y` does; otherwise it throws a `logic_error` and leaves `x` unchanged. -/
theorem sub_defined_iff {x y : Elt P R} (hx : x.WF) (hy : y.WF) :
    ((∃ z, x.subAssign y = .done z) ∨ x.subAssign y = .fail .logicError x) ∧
    ((∃ z, x.subAssign y = .done z) ↔ ∃ z, x.addAssign y = .done z) := by
  obtain ⟨w, hm, -⟩ := Elt.neg_spec hy
  refine ⟨(add_fails_iff hx w).1, ?_⟩
  have key : ∀ {z : Elt P R}, z.WF → ((∃ t, x.addAssign z = .done t) ↔ ¬ (x.mod ≠ z.mod ∧ Mod.span x.mod z.mod = .throws .logicError)) := by
    intro z hz
    rw [← (add_fails_iff hx hz).2]
    constructor
    · rintro ⟨t, ht⟩ hf; rw [ht] at hf; exact absurd hf.symm Step.fail_ne_done
    · intro h; exact (add_fails_iff hx hz).1.resolve_right h
  show (∃ z, x.addAssign y.neg = .done z) ↔ _
  rw [key w, key hy, hm]

/-- C13. `x - x` is the zero of the module of `x`. -/
theorem sub_self_eq {x : Elt P R} (hx : x.WF) : x.sub x = .ok x.mod.zero := by
  obtain ⟨w, hm, hf⟩ := Elt.neg_spec hx
  rcases Elt.add_cases hx w with ⟨s, z, hs, h, wz, mz, fz⟩ | ⟨h1, -⟩
  · have hs : s = x.mod := by
      rcases hs with ⟨-, hs⟩ | hs
      · exact hs
      · rw [hm] at hs
        have h1 := Mod.span_ok (R := R) hx.mod hx.mod hs
        refine Mod.WF.ext h1.1 hx.mod ?_ (by simpa using h1.2.1)
        rcases h1.2.2 with ⟨-, h⟩ | ⟨-, h⟩ | ⟨-, -, h⟩
        · rw [h]
        · rw [h]
        · rw [LawfulCRing.compositum_self] at h; exact (Out.ok.inj h).symm
    rw [Elt.sub, Elt.subAssign, h, Elt.result_done]
    congr 1
    exact Elt.ext_fs wz (Elt.zero_WF hx.mod) (by rw [mz, hs]; rfl) (by rw [fz, hf, Elt.zero_fs, add_neg_cancel])
  · exact absurd hm.symm h1

example : sample.sub sample = .ok ⟨sampleModule, [0, 0, 0, 0]⟩ := sub_self_eq sample_WF

/-! ### C14 -/

/-- C14. The product has the product of the values. -/
theorem elt_mul_value {x y z : Elt P R} (hx : x.WF) (hy : y.WF) (h : x.mul y = .ok z) :
    z.WF ∧ ∀ v : ℕ → ℝ, z.real v = x.real v * y.real v :=
  ⟨(Elt.mul_ok hx hy h).1, fun v => Elt.mul_value _ v hx hy h⟩

/-- C14. The generators of the product are the products of the generators (each once, in deglex order since the result is `WF`), and the ring
is the compositum. -/
theorem elt_mul_module {x y z : Elt P R} (hx : x.WF) (hy : y.WF) (x0 : x.toBool = true) (y0 : y.toBool = true) (h : x.mul y = .ok z) :
    CRing.compositum x.mod.par y.mod.par = .ok z.mod.par ∧
    (∀ k, k ∈ z.mod.basis ↔ ∃ g ∈ x.mod.basis, ∃ h ∈ y.mod.basis, g.mul h = .ok k) ∧
    z.mod.basis.Pairwise fun g h => g.deglex h = .ok true := by
  have hz := (Elt.mul_ok hx hy h).1
  unfold Elt.mul at h
  rcases Elt.mul_cases hx hy with ⟨z', h', -, -, hc⟩ | ⟨x', h', -⟩
  · rw [h', Elt.result_done] at h; cases h
    rcases hc with ⟨hc, -⟩ | ⟨-, hc, -⟩ | ⟨-, -, hc, -, hk⟩
    · rw [hc] at x0; cases x0
    · rw [hc] at y0; cases y0
    · refine ⟨hc, hk, ?_⟩
      have := hz.mod.sorted
      rw [List.pairwise_iff_getElem] at *
      intro i j hi hj hij
      have hh := (RN.lt_iff (hz.mod.gens _ (List.getElem_mem hi)) (hz.mod.gens _ (List.getElem_mem hj))).2 (this i j hi hj hij)
      simpa [RN.lt] using hh
  · rw [h', Elt.result_fail] at h; cases h

/-- C14. `x *= y` returns or throws a `logic_error`, and in the second case `x` keeps its value; it throws exactly if both operands are
non-zero and the rings have no compositum or a product of generators is not defined (`mul_throws_iff`). -/
theorem elt_mul_fails_iff {x y : Elt P R} (hx : x.WF) (hy : y.WF) :
    ((∃ z, x.mulAssign y = .done z) ∨
      ∃ x', x.mulAssign y = .fail .logicError x' ∧ x'.WF ∧ ∀ v : ℕ → ℝ, x'.real v = x.real v) ∧
    ((∃ x', x.mulAssign y = .fail .logicError x') ↔ x.toBool = true ∧ y.toBool = true ∧
      (CRing.compositum x.mod.par y.mod.par = .throws .logicError ∨
        ∃ g ∈ x.mod.basis, ∃ h ∈ y.mod.basis, g.mul h = .throws .logicError)) := by
  rcases Elt.mul_cases hx hy with ⟨z, h, -, -, hc⟩ | ⟨x', h, w, hf, x0, y0, hc⟩
  · refine ⟨.inl ⟨z, h⟩, ?_, ?_⟩
    · rintro ⟨x', h'⟩; rw [h] at h'; exact absurd h'.symm Step.fail_ne_done
    · rintro ⟨x0, y0, h1⟩
      exfalso
      rcases hc with ⟨hc, -⟩ | ⟨-, hc, -⟩ | ⟨-, -, hc, hk, -⟩
      · rw [hc] at x0; cases x0
      · rw [hc] at y0; cases y0
      · rcases h1 with h1 | ⟨g, hg, k, hk', h1⟩
        · rw [h1] at hc; cases hc
        · obtain ⟨_, h2⟩ := hk g hg k hk'
          rw [h1] at h2; cases h2
  · refine ⟨.inr ⟨x', h, w, fun v => by rw [Elt.real_eq_evalF, Elt.real_eq_evalF, hf]⟩, fun _ => ⟨x0, y0, hc⟩, fun _ => ⟨x', h⟩⟩

omit [LawfulCRing P] b [DecidableEq P] [CRing P R] [CommRing R] [DecidableEq R] in
theorem unital_of_mul {m n : Mod P} (hm : m.WF) (hn : n.WF) (um : m.Unital) (un : n.Unital) {g h : RN} (hg : g ∈ m.basis) (hh : h ∈ n.basis)
    {q : ℚ} (hk : g.mul h = .ok (.rat q)) : q = 1 := by
  obtain ⟨rg, rh⟩ := Elt.rat_of_mul (hm.gens g hg) (hn.gens h hh) hk rfl
  obtain ⟨p, rfl⟩ := Mod.exists_rat rg
  obtain ⟨r, rfl⟩ := Mod.exists_rat rh
  have := um p hg
  have := un r hh
  subst_vars
  simpa [RN.mul, RN.ratMul] using hk.symm

/-- The product of elements of modules whose rational generator is one again has this property. -/
theorem elt_mul_unital {x y z : Elt P R} (hx : x.WF) (hy : y.WF) (ux : x.mod.Unital) (uy : y.mod.Unital) (h : x.mul y = .ok z) :
    z.mod.Unital := by
  unfold Elt.mul at h
  rcases Elt.mul_cases hx hy with ⟨z', h', -, -, hc⟩ | ⟨x', h', -⟩
  · rw [h', Elt.result_done] at h; cases h
    rcases hc with ⟨-, rfl⟩ | ⟨-, -, rfl⟩ | ⟨-, -, hc, -, hk⟩
    · exact ux
    · exact uy
    · intro q hq
      obtain ⟨g, hg, k, hk', hm⟩ := (hk _).1 hq
      exact unital_of_mul hx.mod hy.mod ux uy hg hk' hm
  · rw [h', Elt.result_fail] at h; cases h

omit [LawfulCRing P] b in
theorem unital_noZeroGen {x : Elt P R} (h : x.mod.Unital) : x.NoZeroGen := fun h0 => by simpa using h 0 h0

/-- C14. Products are defined if the rings are compatible and rational generators are one. -/
theorem elt_mul_defined {x y : Elt P R} (hx : x.WF) (hy : y.WF) (ux : x.mod.Unital) (uy : y.mod.Unital)
    (hc : (CRing.compositum x.mod.par y.mod.par).isOk = true) : ∃ z, x.mul y = .ok z := by
  unfold Elt.mul
  rcases Elt.mul_cases hx hy with ⟨z, h, -⟩ | ⟨x', -, -, -, -, -, hcc | ⟨g, hg, h, hh, ht⟩⟩
  · exact ⟨z, by rw [h]; rfl⟩
  · rw [hcc] at hc; cases hc
  · exfalso
    rcases (mul_throws_iff g h).2.1 ht with ⟨q, hq, rfl, -⟩ | ⟨q, hq, rfl, -⟩
    · exact hq (ux q hg)
    · exact hq (uy q hh)

theorem elt_mul_ring {x y z : Elt P R} (hx : x.WF) (hy : y.WF) (h : x.mul y = .ok z) {s : P}
    (h1 : (CRing.compositum s x.mod.par).isOk = true) (h2 : (CRing.compositum s y.mod.par).isOk = true) :
    (CRing.compositum s z.mod.par).isOk = true := by
  unfold Elt.mul at h
  rcases Elt.mul_cases hx hy with ⟨z', h', -, -, hc⟩ | ⟨x', h', -⟩
  · rw [h', Elt.result_done] at h; cases h
    rcases hc with ⟨-, rfl⟩ | ⟨-, -, rfl⟩ | ⟨-, -, hc, -, hk⟩
    · exact h1
    · exact h2
    · exact (LawfulCRing.compositum_join hc s).2 ⟨h1, h2⟩
  · rw [h', Elt.result_fail] at h; cases h

theorem elt_add_unital {x y z : Elt P R} (hx : x.WF) (hy : y.WF) (ux : x.mod.Unital) (uy : y.mod.Unital) (h : x.add y = .ok z) :
    z.mod.Unital := fun q hq => ((add_module hx hy h _).1 hq).elim (ux q) (uy q)

theorem elt_add_defined {x y : Elt P R} (hx : x.WF) (hy : y.WF) (ux : x.mod.Unital) (uy : y.mod.Unital)
    (hc : (CRing.compositum x.mod.par y.mod.par).isOk = true) : ∃ z, x.add y = .ok z := by
  rcases (add_fails_iff hx hy).1 with ⟨z, hz⟩ | h
  · exact ⟨z, by rw [Elt.add, hz]; rfl⟩
  · exfalso
    obtain ⟨t, ht⟩ := Mod.span_isOk (R := R) hx.mod hy.mod (.inr (.inr hc)) fun p q hp hq => by rw [ux p hp, uy q hq]
    rw [((add_fails_iff hx hy).2.1 h).2] at ht; cases ht

theorem elt_eq_of_real {x y : Elt P R} (hx : x.WF) (hy : y.WF) (ux : x.mod.Unital) (uy : y.mod.Unital)
    (hc : Mod.Joinable x.mod y.mod) (h : ∀ v : ℕ → ℝ, x.real v = y.real v) : x.eq y = .ok true := by
  obtain ⟨b, hb⟩ := Elt.eq_isOk hx hy hc fun p q hp hq => by rw [ux p hp, uy q hq]
  rw [hb, (Elt.eq_iff_forall hx hy (unital_noZeroGen ux) (unital_noZeroGen uy) hb).2 h]

/-- C14. `x * y == y * x` (for modules without the rational generators other than one and compatible rings: always defined). -/
theorem elt_mul_comm_eq {x y : Elt P R} (hx : x.WF) (hy : y.WF) (ux : x.mod.Unital) (uy : y.mod.Unital)
    (hc : (CRing.compositum x.mod.par y.mod.par).isOk = true) :
    ∃ z z', x.mul y = .ok z ∧ y.mul x = .ok z' ∧ z.eq z' = .ok true := by
  obtain ⟨z, h⟩ := elt_mul_defined hx hy ux uy hc
  obtain ⟨z', h'⟩ := elt_mul_defined hy hx uy ux (Mod.compositum_isOk_symm hc)
  refine ⟨z, z', h, h', elt_eq_of_real (elt_mul_value hx hy h).1 (elt_mul_value hy hx h').1 (elt_mul_unital hx hy ux uy h)
    (elt_mul_unital hy hx uy ux h') (.inr (.inr ?_)) fun v => ?_⟩
  · have hs := fun s h1 h2 => elt_mul_ring hx hy h (s := s) h1 h2
    refine elt_mul_ring hy hx h' (Mod.compositum_isOk_symm (hs _ (Mod.compositum_isOk_symm hc) ?_))
      (Mod.compositum_isOk_symm (hs _ ?_ hc)) <;> exact Mod.isOk_of (LawfulCRing.compositum_self _)
  · rw [(elt_mul_value hx hy h).2, (elt_mul_value hy hx h').2, _root_.mul_comm]

/-- C14. `(x * y) * z == x * (y * z)` (always defined under the same hypotheses). -/
theorem elt_mul_assoc_eq {x y z : Elt P R} (hx : x.WF) (hy : y.WF) (hz : z.WF) (ux : x.mod.Unital) (uy : y.mod.Unital) (uz : z.mod.Unital)
    (hxy : (CRing.compositum x.mod.par y.mod.par).isOk = true) (hxz : (CRing.compositum x.mod.par z.mod.par).isOk = true)
    (hyz : (CRing.compositum y.mod.par z.mod.par).isOk = true) :
    ∃ xy yz l r, x.mul y = .ok xy ∧ xy.mul z = .ok l ∧ y.mul z = .ok yz ∧ x.mul yz = .ok r ∧ l.eq r = .ok true := by
  have self : ∀ p : P, (CRing.compositum p p).isOk = true := fun p => Mod.isOk_of (LawfulCRing.compositum_self _)
  obtain ⟨xy, h1⟩ := elt_mul_defined hx hy ux uy hxy
  obtain ⟨yz, h3⟩ := elt_mul_defined hy hz uy uz hyz
  obtain ⟨w1, v1⟩ := elt_mul_value hx hy h1
  obtain ⟨w3, v3⟩ := elt_mul_value hy hz h3
  have u1 := elt_mul_unital hx hy ux uy h1
  have u3 := elt_mul_unital hy hz uy uz h3
  have s1 := fun s h h' => elt_mul_ring hx hy h1 (s := s) h h'
  have s3 := fun s h h' => elt_mul_ring hy hz h3 (s := s) h h'
  obtain ⟨l, h2⟩ := elt_mul_defined w1 hz u1 uz
    (Mod.compositum_isOk_symm (s1 _ (Mod.compositum_isOk_symm hxz) (Mod.compositum_isOk_symm hyz)))
  obtain ⟨r, h4⟩ := elt_mul_defined hx w3 ux u3 (s3 _ hxy hxz)
  obtain ⟨w2, v2⟩ := elt_mul_value w1 hz h2
  obtain ⟨w4, v4⟩ := elt_mul_value hx w3 h4
  have s2 := fun s h h' => elt_mul_ring w1 hz h2 (s := s) h h'
  have s4 := fun s h h' => elt_mul_ring hx w3 h4 (s := s) h h'
  refine ⟨xy, yz, l, r, h1, h2, h3, h4, elt_eq_of_real w2 w4 (elt_mul_unital w1 hz u1 uz h2) (elt_mul_unital hx w3 ux u3 h4)
    (.inr (.inr (s4 _ ?_ (s3 _ ?_ ?_)))) fun v => by rw [v2, v1, v4, v3, _root_.mul_assoc]⟩
  · exact Mod.compositum_isOk_symm (s2 _ (s1 _ (self _) hxy) hxz)
  · exact Mod.compositum_isOk_symm (s2 _ (s1 _ (Mod.compositum_isOk_symm hxy) (self _)) hyz)
  · exact Mod.compositum_isOk_symm (s2 _ (s1 _ (Mod.compositum_isOk_symm hxz) (Mod.compositum_isOk_symm hyz)) (self _))

/-- C14. `x * (y + z) == x * y + x * z` (always defined under the same hypotheses). -/
theorem elt_mul_add_eq {x y z : Elt P R} (hx : x.WF) (hy : y.WF) (hz : z.WF) (ux : x.mod.Unital) (uy : y.mod.Unital) (uz : z.mod.Unital)
    (hxy : (CRing.compositum x.mod.par y.mod.par).isOk = true) (hxz : (CRing.compositum x.mod.par z.mod.par).isOk = true)
    (hyz : (CRing.compositum y.mod.par z.mod.par).isOk = true) :
    ∃ yz l xy xz r, y.add z = .ok yz ∧ x.mul yz = .ok l ∧ x.mul y = .ok xy ∧ x.mul z = .ok xz ∧ xy.add xz = .ok r ∧
      l.eq r = .ok true := by
  have self : ∀ p : P, (CRing.compositum p p).isOk = true := fun p => Mod.isOk_of (LawfulCRing.compositum_self _)
  obtain ⟨yz, h1⟩ := elt_add_defined hy hz uy uz hyz
  obtain ⟨xy, h3⟩ := elt_mul_defined hx hy ux uy hxy
  obtain ⟨xz, h4⟩ := elt_mul_defined hx hz ux uz hxz
  obtain ⟨w1, v1⟩ := add_value hy hz h1
  obtain ⟨w3, v3⟩ := elt_mul_value hx hy h3
  obtain ⟨w4, v4⟩ := elt_mul_value hx hz h4
  have u1 := elt_add_unital hy hz uy uz h1
  have u3 := elt_mul_unital hx hy ux uy h3
  have u4 := elt_mul_unital hx hz ux uz h4
  have s3 := fun s h h' => elt_mul_ring hx hy h3 (s := s) h h'
  have s4 := fun s h h' => elt_mul_ring hx hz h4 (s := s) h h'
  -- the ring of `y + z` is the ring of `y`, of `z`, or their compositum
  have p1 : ∀ s : P, (CRing.compositum s y.mod.par).isOk = true → (CRing.compositum s z.mod.par).isOk = true →
      (CRing.compositum s yz.mod.par).isOk = true := by
    intro s hs1 hs2
    rcases Elt.add_cases hy hz with ⟨t, z', ht, h', -, hm, -⟩ | ⟨-, -, h'⟩
    · rw [Elt.add, h', Elt.result_done] at h1
      cases h1
      rw [hm]
      rcases ht with ⟨-, rfl⟩ | ht
      · exact hs1
      · obtain ⟨-, -, ⟨-, rfl⟩ | ⟨-, rfl⟩ | ⟨-, -, h⟩⟩ := Mod.span_ok (R := R) hy.mod hz.mod ht
        · exact hs2
        · exact hs1
        · exact (LawfulCRing.compositum_join h s).2 ⟨hs1, hs2⟩
    · rw [Elt.add, h', Elt.result_fail] at h1; cases h1
  obtain ⟨l, h2⟩ := elt_mul_defined hx w1 ux u1 (p1 _ hxy hxz)
  obtain ⟨r, h5⟩ := elt_add_defined w3 w4 u3 u4 (s4 _ (Mod.compositum_isOk_symm (s3 _ (self _) hxy))
    (Mod.compositum_isOk_symm (s3 _ (Mod.compositum_isOk_symm hxz) (Mod.compositum_isOk_symm hyz))))
  obtain ⟨w2, v2⟩ := elt_mul_value hx w1 h2
  obtain ⟨w5, v5⟩ := add_value w3 w4 h5
  have hv : ∀ v : ℕ → ℝ, l.real v = r.real v := fun v => by rw [v2, v1, v5, v3, v4, mul_add]
  have u2 := elt_mul_unital hx w1 ux u1 h2
  have u5 := elt_add_unital w3 w4 u3 u4 h5
  refine ⟨yz, l, xy, xz, r, h1, h2, h3, h4, h5, elt_eq_of_real w2 w5 u2 u5 ?_ hv⟩
  have s2 := fun s h h' => elt_mul_ring hx w1 h2 (s := s) h h'
  have lx := Mod.compositum_isOk_symm (s2 _ (self x.mod.par) (p1 _ hxy hxz))
  have ly := Mod.compositum_isOk_symm (s2 y.mod.par (Mod.compositum_isOk_symm hxy) (p1 _ (self _) hyz))
  have lz := Mod.compositum_isOk_symm (s2 z.mod.par (Mod.compositum_isOk_symm hxz) (p1 _ (Mod.compositum_isOk_symm hyz) (self _)))
  obtain ⟨-, -, -, j5⟩ := Elt.add_mod w3 w4 h5
  rw [j5]
  exact ⟨.inr (.inr (s3 _ lx ly)), .inr (.inr (s4 _ lx lz))⟩

/-- Non-vacuity, also of `elt_mul_comm_eq`: `(3 + 2·a - b)·(1 + 4·c)` is computed. -/
example : ∃ z, sample.mul sampleB = .ok z ∧ ∀ v : ℕ → ℝ, z.real v = (3 + 2 * v 5 - v 7) * (1 + 4 * v 3) := by
  obtain ⟨z, -, h, -⟩ := elt_mul_comm_eq sample_WF sampleB_WF sample_unital sampleB_unital rfl
  refine ⟨z, h, fun v => ?_⟩
  rw [(elt_mul_value sample_WF sampleB_WF h).2, sample_real]
  simp [sampleB, Elt.real, Elt.value, Elt.terms, RN.value]

/-! ### C16 -/

/-- C16. If the atoms stand for algebraically independent reals then `x == y`, when it returns, says whether the reals are equal. (No
generator may be the rational number zero.) -/
theorem eq_iff {v : ℕ → ℝ} (hv : AlgebraicIndependent ℚ v) {x y : Elt P R} {r : Bool} (hx : x.WF) (hy : y.WF)
    (zx : x.NoZeroGen) (zy : y.NoZeroGen) (h : x.eq y = .ok r) : r = true ↔ x.real v = y.real v := by
  rcases Elt.eq_cases hx hy with ⟨b', h', hb, hs⟩ | ⟨-, -, h'⟩
  · rw [h] at h'; cases h'
    rw [hb, Elt.real_eq_iff hv hx hy zx zy hs]
  · rw [h] at h'; cases h'

/-- C16. `x == y`, when it returns true, implies equal reals for whatever the atoms stand for (no hypothesis on atoms or generators). -/
theorem eq_sound {x y : Elt P R} (hx : x.WF) (hy : y.WF) (h : x.eq y = .ok true) (v : ℕ → ℝ) : x.real v = y.real v := by
  rcases Elt.eq_cases hx hy with ⟨b', h', hb, hs⟩ | ⟨-, -, h'⟩
  · rw [h] at h'; cases h'
    rw [Elt.real_eq_evalF, Elt.real_eq_evalF, hb.1 rfl]
  · rw [h] at h'; cases h'

/-- C16. `x == y` returns or throws a `logic_error`, the latter exactly if the two live in different modules without a common module. -/
theorem eq_throws_iff {x y : Elt P R} (hx : x.WF) (hy : y.WF) :
    ((∃ r, x.eq y = .ok r) ∨ x.eq y = .throws .logicError) ∧
    (x.eq y = .throws .logicError ↔ x.mod ≠ y.mod ∧ Mod.span x.mod y.mod = .throws .logicError) := by
  refine ⟨Elt.eq_outcomes hx hy, ?_⟩
  rcases Elt.eq_cases hx hy with ⟨b', h', hb, hs⟩ | ⟨h1, h2, h'⟩
  · rw [h']
    constructor
    · intro h; cases h
    rintro ⟨h1, h2⟩
    rcases hs with hs | ⟨s, hs⟩
    · exact absurd hs h1
    · rw [h2] at hs; cases hs
  · exact ⟨fun _ => ⟨h1, h2⟩, fun _ => h'⟩

/-- C16. `==` is an equivalence relation: reflexive, symmetric (also in throwing), and transitive unless the outer comparison throws. -/
theorem eq_equivalence :
    (∀ x : Elt P R, x.eq x = .ok true) ∧
    (∀ x y : Elt P R, x.WF → y.WF → x.eq y = y.eq x) ∧
    (∀ x y z : Elt P R, x.WF → y.WF → z.WF → x.eq y = .ok true → y.eq z = .ok true →
      x.eq z = .ok true ∨ x.eq z = .throws .logicError) := by
  refine ⟨fun x => by simp [Elt.eq], fun x y hx hy => ?_, fun x y z hx hy hz h1 h2 => ?_⟩
  · rcases Elt.eq_cases hx hy with ⟨r, h, hr, hs⟩ | ⟨hne, hs, h⟩ <;> rcases Elt.eq_cases hy hx with ⟨r', h', hr', hs'⟩ | ⟨hne', hs', h'⟩
    · rw [h, h']
      congr 1
      rw [Bool.eq_iff_iff, hr, hr']
      exact eq_comm
    · exfalso
      rcases hs with hs | ⟨s, hs⟩
      · exact hne' hs.symm
      · obtain ⟨t, ht⟩ := Elt.span_symm_ok (R := R) hx.mod hy.mod hs
        rw [ht] at hs'; cases hs'
    · exfalso
      rcases hs' with hs' | ⟨s, hs'⟩
      · exact hne hs'.symm
      · obtain ⟨t, ht⟩ := Elt.span_symm_ok (R := R) hy.mod hx.mod hs'
        rw [ht] at hs; cases hs
    · rw [h, h']
  · have f1 : x.fs = y.fs := by
      rcases Elt.eq_cases hx hy with ⟨r, h, hr, -⟩ | ⟨-, -, h⟩
      · rw [h1] at h; cases h; exact hr.1 rfl
      · rw [h1] at h; cases h
    have f2 : y.fs = z.fs := by
      rcases Elt.eq_cases hy hz with ⟨r, h, hr, -⟩ | ⟨-, -, h⟩
      · rw [h2] at h; cases h; exact hr.1 rfl
      · rw [h2] at h; cases h
    rcases Elt.eq_cases hx hz with ⟨r, h, hr, -⟩ | ⟨-, -, h⟩
    · left; rw [h, hr.2 (f1.trans f2)]
    · exact .inr h

/-- Non-vacuity: independent reals exist, and the sample elements are compared across modules. -/
example : ∃ v : ℕ → ℝ, AlgebraicIndependent ℚ v ∧ sample.real v ≠ sampleB.real v := by
  obtain ⟨v, hv⟩ := exists_independent
  obtain ⟨r, hr⟩ := (eq_throws_iff sample_WF sampleB_WF).1.resolve_right (by
    rw [(eq_throws_iff sample_WF sampleB_WF).2]
    rintro ⟨-, h⟩
    obtain ⟨t, ht⟩ := Mod.span_isOk (R := ℤ) sample_WF.mod sampleB_WF.mod (.inr (.inr rfl)) fun p q hp hq => by
      rw [sample_unital p hp, sampleB_unital q hq]
    rw [h] at ht; cases ht)
  refine ⟨v, hv, fun h => ?_⟩
  have := (Elt.eq_iff_forall sample_WF sampleB_WF (unital_noZeroGen sample_unital) (unital_noZeroGen sampleB_unital) hr).1
    ((eq_iff hv sample_WF sampleB_WF (unital_noZeroGen sample_unital) (unital_noZeroGen sampleB_unital) hr).2 h) 0
  simp [sample, sampleB, sampleModule, Elt.real, Elt.value, Elt.terms, RN.value, Mono.value] at this

/-! ### C17 -/

/-- C17. `simplify` returns an element with the same value, over the same ring, with exactly the generators that have a non-zero coefficient,
each with its old coefficient. -/
theorem simplify_spec {x : Elt P R} (hx : x.WF) :
    ∃ y, x.simplify = .ok y ∧ y.WF ∧ y.mod.par = x.mod.par ∧ (∀ v : ℕ → ℝ, y.real v = x.real v) ∧
    (∀ g, g ∈ y.mod.basis ↔ ∃ c, c ≠ 0 ∧ (g, c) ∈ x.terms) ∧ y.terms = x.terms.filter fun t => t.2 ≠ 0 := by
  obtain ⟨y, h, wy, fy, py, by_⟩ := Elt.simplify_spec hx
  have hterm : ∀ g c, c ≠ 0 → ((g, c) ∈ x.terms ↔ x.fs g = c) := by
    intro g c hc
    refine ⟨fun h => hx.fs_apply h, fun h => ?_⟩
    have hg := (Elt.fs_support_WF hx (a := g) (by rw [h]; exact hc)).1
    rw [← Elt.terms_fst hx.length] at hg
    obtain ⟨t, ht, rfl⟩ := List.mem_map.1 hg
    have := hx.fs_apply (g := t.1) (c := t.2) ht
    rw [← h, this]; exact ht
  have hterm' : ∀ g c, ((g, c) ∈ y.terms ↔ c ≠ 0 ∧ x.fs g = c) := by
    intro g c
    constructor
    · intro h
      have h1 := wy.fs_apply h
      rw [fy] at h1
      exact ⟨h1 ▸ (by_ g).1 (Elt.terms_mem_fst h), h1⟩
    · rintro ⟨hc, he⟩
      have hg := (by_ g).2 (he ▸ hc)
      rw [← Elt.terms_fst wy.length] at hg
      obtain ⟨t, ht, rfl⟩ := List.mem_map.1 hg
      have := wy.fs_apply (g := t.1) (c := t.2) ht
      rw [← he, ← fy, this]; exact ht
  refine ⟨y, h, wy, py, fun v => by rw [Elt.real_eq_evalF, Elt.real_eq_evalF, fy], fun g => ?_, ?_⟩
  · rw [by_]
    constructor
    · intro h; exact ⟨x.fs g, h, (hterm g _ h).2 rfl⟩
    · rintro ⟨c, hc, h⟩; rw [(hterm g c hc).1 h]; exact hc
  · have hs : (y.terms.map Prod.fst).Pairwise fun g h => Precedes g.mult h.mult := by rw [Elt.terms_fst wy.length]; exact wy.mod.sorted
    have hs' : ((x.terms.filter fun t => t.2 ≠ 0).map Prod.fst).Pairwise fun g h => Precedes g.mult h.mult := by
      refine List.Pairwise.sublist (l₂ := x.terms.map Prod.fst) (List.Sublist.map _ List.filter_sublist) ?_
      rw [Elt.terms_fst hx.length]; exact hx.mod.sorted
    rw [List.pairwise_map] at hs hs'
    refine List.Perm.eq_of_pairwise (le := fun s t => Precedes s.1.mult t.1.mult) ?_ hs hs' ?_
    · intro s t _ _ h1 h2; exact absurd h2 h1.asymm
    · refine (List.perm_ext_iff_of_nodup (hs.imp fun h => ?_) (hs'.imp fun h => ?_)).2 ?_
      · rintro rfl; exact Precedes.irrefl _ h
      · rintro rfl; exact Precedes.irrefl _ h
      · rintro ⟨g, c⟩
        rw [hterm', List.mem_filter]
        constructor
        · rintro ⟨h1, h2⟩; exact ⟨(hterm g c h1).2 h2, by simpa using h1⟩
        · rintro ⟨h1, h2⟩
          have h2 : c ≠ 0 := by simpa using h2
          exact ⟨h2, (hterm g c h2).1 h1⟩

/-- C17. `simplify` is idempotent. -/
theorem simplify_idempotent {x y : Elt P R} (hx : x.WF) (h : x.simplify = .ok y) : y.simplify = .ok y := by
  obtain ⟨y', h', wy, fy, py, by_⟩ := Elt.simplify_spec hx
  rw [h] at h'; cases h'
  unfold Elt.simplify
  rw [if_pos]
  rw [List.all_eq_true]
  intro c hc
  rw [← Elt.terms_snd wy.length] at hc
  obtain ⟨t, ht, rfl⟩ := List.mem_map.1 hc
  have h1 := wy.fs_apply (g := t.1) (c := t.2) ht
  rw [fy] at h1
  simpa [← h1] using (by_ t.1).1 (Elt.terms_mem_fst ht)

/-- C17. Elements over the same ring that compare equal simplify to the same representation. -/
theorem simplify_canonical {x y : Elt P R} (hx : x.WF) (hy : y.WF) (hp : x.mod.par = y.mod.par) (h : x.eq y = .ok true) :
    x.simplify = y.simplify := by
  obtain ⟨x', h1, w1, f1, p1, b1⟩ := Elt.simplify_spec hx
  obtain ⟨y', h2, w2, f2, p2, b2⟩ := Elt.simplify_spec hy
  have hf : x.fs = y.fs := by
    rcases Elt.eq_cases hx hy with ⟨r, h', hr, -⟩ | ⟨-, -, h'⟩
    · rw [h] at h'; cases h'; exact hr.1 rfl
    · rw [h] at h'; cases h'
  rw [h1, h2]
  congr 1
  refine Elt.ext_fs w1 w2 ?_ (by rw [f1, f2, hf])
  exact Mod.WF.ext w1.mod w2.mod (by rw [p1, p2, hp]) fun g => by rw [b1, b2, hf]

/-- Non-vacuity: `simplify` really drops a generator. -/
example : ∃ y, sample.simplify = .ok y ∧ y.terms = [(.rat 1, 3), (.atom 5, 2), (.atom 7, -1)] := by
  obtain ⟨y, h, -, -, -, -, ht⟩ := simplify_spec sample_WF
  exact ⟨y, h, by rw [ht]; simp [sample, sampleModule, Elt.terms]⟩

end ExactReal.Props
