import Verif.Lemma.BuildDiv
import Verif.Props.ProgramQuery
import Verif.Model.ElementApprox
import Verif.Model.DerivedOrder

/-!
# C67: a build without assertions gives the same results
-/

namespace ExactReal.Props
open ExactReal

variable {P : Type} [DecidableEq P] {R : Type} [CommRing R] [DecidableEq R] [CRing P R] [LawfulCRing P] [LawfulScalar P]
variable {s : Vars P R}

omit [CRing P R] [LawfulCRing P] [LawfulScalar P] [DecidableEq R] [CommRing R] [DecidableEq P] in
theorem linear_length (b b' : Build) {m : Mod P} (F : RN → R) :
    @Elt.ofCoefficients P R b m (m.basis.map F) = @Elt.ofCoefficients P R b' m (m.basis.map F) :=
  Elt.ofCoefficients_build b b' (by simp)

omit [LawfulScalar P] [LawfulCRing P] in
theorem ofScalar_build (b b' : Build) (ring : P) (c : R) : @Elt.ofScalar P _ R _ _ _ b ring c = @Elt.ofScalar P _ R _ _ _ b' ring c := by
  unfold Elt.ofScalar
  rw [Elt.make_singleton, Out.ok_bind, Out.ok_bind]
  exact Elt.ofCoefficients_build b b' rfl

omit [LawfulScalar P] in
theorem mulRNAssign_build (b b' : Build) {x : Elt P R} (hx : x.WF) {r : RN} (hr : r.WF) :
    @Elt.mulRNAssign P _ R _ _ _ b x r = @Elt.mulRNAssign P _ R _ _ _ b' x r := by
  obtain ⟨g, h1, h2, -⟩ := gen_value (R := R) (single_WF x.mod.par hr) (j := 0) (g := r) rfl
  unfold Elt.mulRNAssign
  rw [Elt.make_singleton, Out.ok_bind, h1]
  exact Elt.mulAssign_build b b' hx h2

omit [LawfulScalar P] in
theorem exec_build_of (b b' : Build) (hn : ∀ i, (s.num i).WF) (hw : ∀ i, (s.elt i).WF) (c : Cmd P R)
    (hd : ∀ d a e fuel, c = .truediv d a e fuel → @Elt.truediv P _ R _ _ _ b fuel (s.elt a) (s.elt e) = @Elt.truediv P _ R _ _ _ b' fuel (s.elt a) (s.elt e)) :
    @Cmd.exec P _ R _ _ _ b s c = @Cmd.exec P _ R _ _ _ b' s c := by
  cases c with
  | linear d ring terms =>
    simp only [Cmd.exec]
    congr 1
    exact Out.bind_congr_ok _ fun m _ => linear_length b b' _
  | scalar d ring c => simp only [Cmd.exec, ofScalar_build b b']
  | add d a => simp only [Cmd.exec, Elt.addAssign_build b b' (hw d) (hw a)]
  | sub d a => simp only [Cmd.exec, Elt.subAssign_build b b' (hw d) (hw a)]
  | mul d a => simp only [Cmd.exec, Elt.mulAssign_build b b' (hw d) (hw a)]
  | mulNum d r => simp only [Cmd.exec, mulRNAssign_build b b' (hw d) (hn r)]
  | promote d a =>
    simp only [Cmd.exec]
    by_cases hs : (s.elt d).mod.submodule (s.elt a).mod = true
    · rw [if_pos hs, if_pos hs, Elt.promote_build b b' (hw d) (hw a).mod fun g hg _ => (submodule_iff _ _).1 hs g hg]
    · rw [if_neg hs, if_neg hs]
  | simplify d => simp only [Cmd.exec, Elt.simplify_build b b' (hw d)]
  | truediv d a e fuel => simp only [Cmd.exec, hd d a e fuel rfl]
  | _ => rfl

/-- One call, on well-formed variables, has the same outcome and the same effect with and without assertions. -/
theorem exec_build {b b' : Build} (hb : b.checks = b'.checks) (hn : ∀ i, (s.num i).WF) (hw : ∀ i, (s.elt i).WF) (c : Cmd P R) :
    @Cmd.exec P _ R _ _ _ b s c = @Cmd.exec P _ R _ _ _ b' s c :=
  exec_build_of b b' hn hw c fun _ a e fuel _ => Elt.truediv_build hb (hw a) (hw e) fuel

/-- C67. A program runs the same in a build with assertions and in one without: same outcome of every call, same variables after every call.
(In particular no assertion fails in a run.) -/
theorem program_builds [LawfulFail P] {b b' : Build} (hb : b.checks = b'.checks) {l : List (Cmd P R × Out Bool)} (h : @Run P _ R _ _ _ _ b l s) :
    @Run P _ R _ _ _ _ b' l s := by
  induction h with
  | init => exact @Run.init P _ R _ _ _ _ b'
  | step h c hp hc ho ih =>
    obtain ⟨w1, w2⟩ := @program_wf P _ R _ _ _ _ _ _ b _ _ h
    exact @Run.step P _ R _ _ _ _ b' _ _ ih c hp _ _ (by rw [← exec_build hb w1 w2 c]; exact hc) ho

/-- C67. The queries give the same results in builds with and without assertions: equality and comparison of elements, equality and comparison with a real number,
`floordiv`, `truediv`; for all variables of a program. -/
theorem queries_builds [LawfulFail P] {b b' : Build} (hb : b.checks = b'.checks) {l : List (Cmd P R × Out Bool)} (h : @Run P _ R _ _ _ _ b l s)
    (atoms : Atoms) (F : Arith) (coeff : ℕ → R → Ball) (fuel : ℕ) (i j : ℕ) :
    @Elt.eq P _ R _ _ _ b (s.elt i) (s.elt j) = @Elt.eq P _ R _ _ _ b' (s.elt i) (s.elt j) ∧
    @Elt.lt P _ R _ _ _ atoms F coeff b fuel (s.elt i) (s.elt j) = @Elt.lt P _ R _ _ _ atoms F coeff b' fuel (s.elt i) (s.elt j) ∧
    @Elt.floordiv P _ R _ _ _ atoms F coeff b fuel (s.elt i) (s.elt j) = @Elt.floordiv P _ R _ _ _ atoms F coeff b' fuel (s.elt i) (s.elt j) ∧
    @Elt.truediv P _ R _ _ _ b fuel (s.elt i) (s.elt j) = @Elt.truediv P _ R _ _ _ b' fuel (s.elt i) (s.elt j) ∧
    @Elt.eqRN P R _ _ b (s.elt i) (s.num j) = @Elt.eqRN P R _ _ b' (s.elt i) (s.num j) ∧
    @Elt.ltRN P R _ _ atoms F coeff b fuel (s.elt i) (s.num j) = @Elt.ltRN P R _ _ atoms F coeff b' fuel (s.elt i) (s.num j) := by
  obtain ⟨-, w⟩ := @program_wf P _ R _ _ _ _ _ _ b _ _ h
  have he := Elt.eq_build b b' (w i) (w j)
  have hr : @Elt.eqRN P R _ _ b (s.elt i) (s.num j) = @Elt.eqRN P R _ _ b' (s.elt i) (s.num j) := by
    unfold Elt.eqRN; rw [checkArgument_build hb]
  refine ⟨he, ?_, ?_, Elt.truediv_build hb (w i) (w j) fuel, hr, ?_⟩
  · unfold Elt.lt; rw [he]
  · unfold Elt.floordiv
    refine if_congr Iff.rfl rfl ?_
    by_cases hm : (s.elt i).mod = (s.elt j).mod
    · simp only [ne_eq, hm, not_true_eq_false, if_false]
    · simp only [ne_eq, hm, not_false_eq_true, if_true]
      refine Out.bind_congr_ok _ fun m hs => ?_
      obtain ⟨h1, h2⟩ := Elt.promote_span_build b b' (w i) (w j) hs
      simp only [h1, h2]
  · unfold Elt.ltRN; rw [hr]

/-! ### without argument checks -/

theorem checkArgument_bind {α : Type} {b b' : Build} (hb : b.checks = true) {c : Bool} {f f' : Unit → Out α} (h : (@checkArgument b c >>= f) ≠ .throws .invalidArgument)
    (hf : f () ≠ .throws .invalidArgument → f () = f' ()) : (@checkArgument b c >>= f) = (@checkArgument b' c >>= f') := by
  cases c with
  | true =>
    have e : ∀ b : Build, @checkArgument b true = .ok () := fun b => by unfold checkArgument; simp
    rw [e, Out.ok_bind] at h
    rw [e, e, Out.ok_bind, Out.ok_bind]
    exact hf h
  | false =>
    have e : @checkArgument b false = .throws .invalidArgument := by unfold checkArgument; simp [hb]
    rw [e] at h
    exact absurd rfl h

/-- Division that does not report an invalid argument does not depend on argument checks. -/
theorem truediv_nocheck {b : Build} (b' : Build) (hb : b.checks = true) {x y : Elt P R} (hx : x.WF) (hy : y.WF) (fuel : ℕ)
    (h : @Elt.truediv P _ R _ _ _ b fuel x y ≠ .throws .invalidArgument) : @Elt.truediv P _ R _ _ _ b fuel x y = @Elt.truediv P _ R _ _ _ b' fuel x y := by
  have loop : ∀ {x y : Elt P R}, x.WF → y.WF → x.mod = y.mod →
      @Elt.truedivLoop P _ R _ _ _ b x.mod.par y fuel x x.mod.zero = @Elt.truedivLoop P _ R _ _ _ b' x.mod.par y fuel x x.mod.zero := fun hx hy hm =>
    Elt.truedivLoop_build b b' hy (by rw [hm]) fuel hx rfl (Elt.zero_WF hx.mod) rfl
  unfold Elt.truediv at h ⊢
  refine checkArgument_bind hb h fun h => ?_
  by_cases h1 : y.eqZ 1 = true
  · rw [if_pos h1, if_pos h1]
  rw [if_neg h1] at h ⊢
  rw [if_neg h1]
  by_cases hm : x.mod = y.mod
  · rw [if_neg (not_not.2 hm)] at h ⊢
    rw [if_neg (not_not.2 hm), loop hx hy hm]
  · rw [if_pos hm] at h ⊢
    rw [if_pos hm]
    refine Out.bind_congr_ok _ fun m hs => ?_
    obtain ⟨e1, e2⟩ := Elt.promote_span_build b b' hx hy hs
    obtain ⟨x', f1, wx', mx', -⟩ := @Elt.promote_span_left P _ R _ _ _ _ b' _ _ _ hx hy.mod hs
    obtain ⟨y', f2, wy', my', -⟩ := @Elt.promote_span_right P _ R _ _ _ _ b' _ _ _ hx.mod hy hs
    rw [hs, Out.ok_bind, e1, f1, Out.ok_bind, e2, f2, Out.ok_bind] at h
    rw [e1, f1, Out.ok_bind, Out.ok_bind, e2, f2, Out.ok_bind, Out.ok_bind]
    unfold Elt.truedivSame at h ⊢
    exact checkArgument_bind hb h fun _ => by rw [loop wx' wy' (by rw [mx', my'])]

/-- C67. A program that runs without an exception about an invalid argument of a division runs the same in all builds, with and without assertions, with and without
argument checks (`LIBEXACTREAL_NOCHECK`). -/
theorem program_nocheck [LawfulFail P] {b : Build} (b' : Build) (hb : b.checks = true) {l : List (Cmd P R × Out Bool)} (h : @Run P _ R _ _ _ _ b l s)
    (hd : ∀ d a e fuel, (Cmd.truediv d a e fuel, .throws .invalidArgument) ∉ l) : @Run P _ R _ _ _ _ b' l s := by
  induction h with
  | init => exact @Run.init P _ R _ _ _ _ b'
  | @step l s h c hp s' o hc ho ih =>
    obtain ⟨w1, w2⟩ := @program_wf P _ R _ _ _ _ _ _ b _ _ h
    refine @Run.step P _ R _ _ _ _ b' _ _ (ih fun d a e fuel hm => hd d a e fuel (by simp [hm])) c hp _ _ ?_ ho
    rw [← hc]
    refine (exec_build_of b b' w1 w2 c ?_).symm
    rintro d a e fuel rfl
    refine truediv_nocheck b' hb (w2 a) (w2 e) fuel fun ht => hd d a e fuel ?_
    simp only [Cmd.exec, ht, Vars.assign?] at hc
    cases hc
    exact List.mem_cons_self

/-! ### the assertions are not vacuous -/

/-- Outside of programs, assertions do make a difference: `Element::promote` to a module that misses a generator throws with assertions and drops the
generator's term without them (so the value changes). -/
theorem promote_depends_on_build : ∃ (x : Elt IntegerRing ℤ) (m : Mod IntegerRing), x.WF ∧ m.WF ∧
    @Elt.promote _ _ _ _ _ _ ⟨true, true⟩ x m = .throws .logicError ∧ ∃ y, @Elt.promote _ _ _ _ _ _ ⟨false, true⟩ x m = .ok y ∧ y.real (fun _ => 2) ≠ x.real (fun _ => 2) := by
  refine ⟨⟨⟨⟨⟩, [.atom 0]⟩, [1]⟩, ⟨⟨⟩, [.rat 1]⟩, ?_, ?_, ?_, ⟨⟨⟨⟩, [.rat 1]⟩, [0]⟩, ?_, ?_⟩
  · exact ⟨⟨by simp [RN.WF], by simp⟩, rfl, fun _ _ => trivial⟩
  · exact ⟨by simp [RN.WF], by simp⟩
  · simp [Elt.promote, Elt.toBool, Elt.terms, Elt.promoteLoop, RN.lt, RN.deglex, Elt.ofCoefficients, assertThat]
  · simp [Elt.promote, Elt.toBool, Elt.terms, Elt.promoteLoop, RN.lt, RN.deglex, Elt.ofCoefficients, assertThat]
  · simp [Elt.real, Elt.value, Elt.terms, RN.value]

/-- A program with sums, products and quotients that runs in all builds. -/
example (b' : Build) : ∃ (l : List (Cmd IntegerRing ℤ × Out Bool)) (s : Vars IntegerRing ℤ), @Run _ _ _ _ _ _ _ b' l s ∧ l.map Prod.fst = sampleProgram.reverse := by
  obtain ⟨l, s, h, h1, h2, -⟩ := sample_run
  refine ⟨l, s, program_nocheck b' rfl h fun d a e fuel hm => ?_, h1⟩
  have hl : l = (l.map Prod.fst).zip (l.map Prod.snd) := by
    clear hm h h1 h2
    induction l with
    | nil => rfl
    | cons a l ih => rw [List.map_cons, List.map_cons, List.zip_cons_cons, ← ih]
  rw [hl, h1, h2] at hm
  simp [sampleProgram, sampleOutcomes] at hm

end ExactReal.Props
