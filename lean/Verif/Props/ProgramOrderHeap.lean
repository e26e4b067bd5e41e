import Verif.Spec.OrderHeap
import Verif.Lemma.OrderHeap
import Verif.Props.ProgramHeap
import Verif.Props.ProgramOrder
import Verif.Props.RealOrder

/-!
# C84: programs that ask for the order of numbers, in a running process
-/

namespace ExactReal.Props
open ExactReal Heap

variable {P : Type} [DecidableEq P] {R : Type} [CommRing R] [DecidableEq R] [CRing P R] [LawfulCRing P] {gen : Generators}

/-! ### the random numbers of a program are those that the library makes -/

/-- The numbers whose random numbers have their leading digits before the digits of the generator. -/
def regularNums (s : State) : Set RN := {g | ∀ i, g.mult i ≠ 0 → (descOfId s i).Regular}

theorem regularNums_closed (s : State) : NumClosed (regularNums s) where
  one := by intro i hi; simp [RN.mult] at hi
  mul hx hy x0 y0 h := by
    intro i hi
    rw [(RN.mul_eq_ok hx hy h).2.1, Finsupp.add_apply] at hi
    by_contra hc
    exact hi (by rw [not_not.1 (mt (x0 i) hc), not_not.1 (mt (y0 i) hc)])
  div hx hy x0 y0 h := by
    obtain ⟨h1, h2⟩ := RN.div_eq_some hx hy h
    intro i hi
    refine x0 i ?_
    rw [(RN.mul_eq_ok h1 hy h2).2.1, Finsupp.add_apply]
    omega

theorem regular_follows {w w' : World P} (h : Good gen w) (hf : Follows gen w w') {p : Ptr} {g : RN} (hp : Heap.IsNum w p g) (hr : g ∈ regularNums w.st.base) :
    g ∈ regularNums w'.st.base := by
  intro i hi
  rw [descOfId_later h.inv.base hf.good.inv.base hf.later.base (hp.held.live h) ((hp.held.follows h hf).live hf.good) (by rw [hp.rn]; exact hi)]
  exact hr i hi

theorem gen_isNum {w : World P} {x : HElt R} {X : Elt P R} (hx : IsElt w x X) {g : RN} (hg : g ∈ X.mod.basis) : ∃ p, Heap.IsNum w p g := by
  obtain ⟨o, ho, -, hb⟩ := hx.mod.obj
  rw [← hb] at hg
  obtain ⟨p, hp, rfl⟩ := List.mem_map.1 hg
  exact ⟨p, ((hx.mod.isObj ho).basis.held p hp), rfl⟩

theorem numsIn_follows {w w' : World P} (h : Good gen w) (hf : Follows gen w w') {s : HVars R} {S : Vars P R} (hs : IsVars w s S)
    (hr : Vars.NumsIn (regularNums w.st.base) S) : Vars.NumsIn (regularNums w'.st.base) S :=
  ⟨fun i => regular_follows h hf (hs.num i) (hr.1 i), fun i g hg => by
    obtain ⟨p, hp⟩ := gen_isNum (hs.elt i) hg
    exact regular_follows h hf hp (hr.2 i g hg)⟩

/-- The variables determine the numbers that they stand for. -/
theorem isVars_unique {w w' : World P} (hw : w.st = w'.st) {s : HVars R} {S T : Vars P R} (h : IsVars w s S) (h' : IsVars w' s T) : S = T := by
  cases S with | mk n e => cases T with | mk n' e' =>
  congr 1 <;> funext d
  · have h1 := (h.num d).rn
    have h2 := (h'.num d).rn
    rw [hw] at h1
    exact h1.symm.trans h2
  · obtain ⟨o, ho, h1, h2⟩ := (h.elt d).mod.obj
    obtain ⟨o', ho', h1', h2'⟩ := (h'.elt d).mod.obj
    have hc := (h.elt d).coeffs
    have hc' := (h'.elt d).coeffs
    rw [hw] at ho h2
    rw [ho] at ho'
    cases ho'
    simp only at *
    rcases hx : e d with ⟨⟨p, b⟩, c⟩
    rcases hy : e' d with ⟨⟨p', b'⟩, c'⟩
    rw [hx] at h1 h2 hc
    rw [hy] at h1' h2' hc'
    simp only at *
    rw [← h1, ← h2, ← hc, ← h1', ← h2', ← hc']

/-- All random numbers in the variables of a program are regular, even if other threads read archives with other numbers. -/
theorem run_regular [Build] [LawfulScalar P] [LawfulFail P] {l : List (HCmd P R × Out Bool)} {s : HVars R} {st : MState P} (h : HRun gen l s st)
    (hb : st.base.next ≤ 2 ^ 64) : ∀ S : Vars P R, IsVars (s.world st) s S → Vars.NumsIn (regularNums st.base) S := by
  induction h with
  | @start st w s h hs =>
    have h0 : Good gen (⟨st, ∅, ∅⟩ : World P) := ⟨h, (exec_next hs).trans hb, by simp, by simp⟩
    obtain ⟨f, d⟩ := sim_start (R := R) h0 w _ hs hb
    intro S hS
    rw [isVars_unique (w := s.world w.st) (w' := w) rfl hS d]
    exact ⟨fun i => (regularNums_closed _).one, fun i => by simp [Vars.init, BasisIn, Elt.default]⟩
  | @wait l s st w h hw ih =>
    obtain ⟨g, S, h1, -⟩ := run_inv h ((waits_next hw).trans hb)
    have f := g.waits hw hb
    intro S' hS
    rw [isVars_unique (w := s.world w.st) (w' := w) rfl hS (h1.follows g f)]
    exact numsIn_follows g f h1 (ih ((waits_next hw).trans hb) S h1)
  | @step l s s' st w c o h hp hc ho ih =>
    obtain ⟨g, S, h1, h2, -⟩ := run_inv h ((exec_next hc).trans hb)
    obtain ⟨f, o', s'', hr, hx⟩ := exec_sim g h1 c hp hc hb
    cases hr
    have h3 := numsIn_follows g f h1 (ih ((exec_next hc).trans hb) S h1)
    intro S' hS
    rcases hx with ⟨C, hp, hC, h4, -, -, -, -, h9⟩ | ⟨d, lo, up, seed, e, rfl, rfl, rfl, -⟩
    · rw [isVars_unique (w := s'.world w.st) (w' := w) rfl hS h4]
      refine exec_basisIn (regularNums_closed _) h2.1 h2.2 h3 C (fun d q _ i hi => absurd rfl hi) (fun d i e j hj => ?_) hp rfl
      have : j = i := by
        by_contra hne
        exact hj (by simp [RN.mult, Finsupp.single_apply, Ne.symm hne])
      rw [this]
      exact h9 d i e
    · rw [isVars_unique (w := s'.world w.st) (w' := w) rfl hS (h1.follows g f)]
      exact h3

/-! ### the digits of a process -/

/-- The digits of the random numbers of a process. -/
noncomputable def digitsOf (gen : Generators) (s : State) : Atoms := fun i => (descOfId s i).atom gen

/-- The variables of a program, with their digits. -/
structure Known (gen : Generators) (s : HVars R) (st : MState P) (S : Vars P R) : Prop where
  good : Good gen (s.world st)
  num : ∀ i, Heap.IsNum (s.world st) (s.num i) (S.num i) ∧ Reg gen (digitsOf gen st.base) (s.world st) (S.num i)
  elt : ∀ i, KElt gen (digitsOf gen st.base) (s.world st) (s.elt i) (S.elt i)
  numWF : ∀ i, (S.num i).WF
  eltWF : ∀ i, (S.elt i).WF
  numVal : ∀ i, (st.base.desc (s.num i)).value (AtomDesc.value gen) = (S.num i).real (digitsOf gen st.base)
  eltVal : ∀ i, (s.elt i).value (AtomDesc.value gen) st = (S.elt i).real (digitsOf gen st.base).vals

theorem value_digits {s : State} {g : RN} (h : g ∈ regularNums s) : g.value (idVal (AtomDesc.value gen) s) = g.value (digitsOf gen s).vals :=
  value_agree g fun i hi => (AtomDesc.value_atom gen (h i hi)).symm

theorem known_of_regular {s : HVars R} {st : MState P} {S : Vars P R} (g : Good gen (s.world st)) (h1 : IsVars (s.world st) s S)
    (h2 : (∀ i, (S.num i).WF) ∧ ∀ i, (S.elt i).WF) (hr : Vars.NumsIn (regularNums st.base) S) : Known gen s st S := by
  refine ⟨g, fun i => ⟨h1.num i, fun j hj => ⟨hr.1 i j hj, rfl⟩⟩, fun i => ⟨h1.elt i, fun g hg j hj => ⟨hr.2 i g hg j hj, rfl⟩⟩, h2.1, h2.2, fun i => ?_, fun i => ?_⟩
  · rw [← RN.value_vals, ← value_digits (hr.1 i)]
    exact IsNum.value_desc g _ (h1.num i)
  · refine (IsElt.value_real g _ (h1.elt i)).trans ?_
    show Elt.real (idVal (AtomDesc.value gen) st.base) _ = _
    rw [Elt.real, Elt.real, Elt.value, Elt.value]
    congr 1
    refine List.map_congr_left fun t ht => ?_
    rw [value_digits (hr.2 i t.1 (Elt.terms_mem_fst ht))]

theorem run_known [Build] [LawfulScalar P] [LawfulFail P] {l : List (HCmd P R × Out Bool)} {s : HVars R} {st : MState P} (h : HRun gen l s st)
    (hb : st.base.next ≤ 2 ^ 64) : ∃ S : Vars P R, Known gen s st S := by
  obtain ⟨g, S, h1, h2, -⟩ := run_inv h hb
  exact ⟨S, known_of_regular g h1 h2 (run_regular h hb S h1)⟩

/-- What a simulated question answers. -/
theorem asked_eq {st : MState P} {s : HVars R} {α : Type} {a : Act P α} {o r : Out α} (hs : Sim gen Agree (s.world st) a o) (h : Asked gen st s a r) : r = o := by
  obtain ⟨w, h1, h2⟩ := h
  have := (hs w r h1 h2).2
  cases r <;> cases o <;> first | exact this.elim | rfl | skip
  · exact congrArg _ this
  · exact congrArg _ this

/-! ### answers -/

section Answers

variable {F : Arith} {coeff : ℕ → R → Ball} {l : List (HCmd P R × Out Bool)} {s : HVars R} {st : MState P}

theorem Known.elementsRight [Build] {S : Vars P R} (k : Known gen s st S) (hF : F.Lawful) (hco : CoeffLawful P coeff) (fuel : ℕ) :
    ElementsRight gen F coeff st s (s.value (AtomDesc.value gen) st) fuel := by
  have g := k.good
  refine ⟨fun i r hr => ?_, fun i r h0 hr => ?_, fun i j r hr => ?_, fun i q r hr => ?_, fun i n r hr => ?_, fun i j r hr => ?_, fun i n hr => ?_, fun i n hr => ?_,
    fun i d hr => ?_, fun i j n hj hr => ?_⟩
  · simp only [HVars.value, k.eltVal, k.numVal] at *
    exact elt_sign _ hF hco (k.eltWF i) (asked_eq (sim_ltZ F coeff fuel g (k.elt i) 0) hr).symm
  · simp only [HVars.value, k.eltVal, k.numVal] at *
    have hr := (asked_eq (sim_gtZ F coeff fuel g (k.elt i) 0) hr).symm
    refine elt_sign_pos _ hF hco (k.eltWF i) ⟨fun h => absurd ?_ h0, fun h => absurd h h0⟩ hr
    rw [Elt.eqZ, Elt.eqQ, decide_eq_true_iff] at h
    simpa using rational_sound h (digitsOf gen st.base).vals
  · simp only [HVars.value, k.eltVal, k.numVal] at *
    exact (elt_lt_partial _ hF hco (k.eltWF i)).1 _ (k.eltWF j) (asked_eq (sim_lt F coeff fuel g (k.elt i) (k.elt j)) hr).symm
  · simp only [HVars.value, k.eltVal, k.numVal] at *
    exact (elt_lt_partial _ hF hco (k.eltWF i)).2.2.1 q (asked_eq (sim_ltQ F coeff fuel g (k.elt i) q) hr).symm
  · simp only [HVars.value, k.eltVal, k.numVal] at *
    exact (elt_lt_partial _ hF hco (k.eltWF i)).2.2.2 n (asked_eq (sim_ltZ F coeff fuel g (k.elt i) n) hr).symm
  · simp only [HVars.value, k.eltVal, k.numVal] at *
    exact (elt_lt_partial _ hF hco (k.eltWF i)).2.1 _ (k.numWF j) (asked_eq (sim_ltRN F coeff fuel g (k.elt i) (k.num j).1 (k.num j).2) hr).symm
  · simp only [HVars.value, k.eltVal, k.numVal] at *
    exact (elt_floor_partial _ hF hco (k.eltWF i)).1 (asked_eq (sim_floor F coeff fuel g (k.elt i)).1 hr).symm
  · simp only [HVars.value, k.eltVal, k.numVal] at *
    exact (elt_floor_partial _ hF hco (k.eltWF i)).2 (asked_eq (sim_floor F coeff fuel g (k.elt i)).2 hr).symm
  · simp only [HVars.value, k.eltVal, k.numVal] at *
    exact elt_double_partial _ hF hco (k.eltWF i) (asked_eq (sim_toDouble F coeff fuel g (k.elt i)) hr).symm
  · simp only [HVars.value, k.eltVal, k.numVal] at *
    exact floordiv_partial _ hF hco (k.eltWF i) (k.eltWF j) hj (asked_eq (sim_floordiv F coeff fuel g (k.elt i) (k.elt j) (k.eltWF i) (k.eltWF j)) hr).symm

theorem Known.arbRight {S : Vars P R} (k : Known gen s st S) (hF : F.Lawful) (hco : CoeffLawful P coeff) (fuel : ℕ) :
    ArbRight gen F coeff st s (s.value (AtomDesc.value gen) st) fuel := by
  intro accuracy i b ha hr
  simp only [HVars.value, k.eltVal]
  exact elt_arb_partial _ hF hco (k.eltWF i) ha (asked_eq (sim_eltArb F coeff fuel accuracy k.good (k.elt i)) hr).symm

theorem Known.numbersRight {S : Vars P R} (k : Known gen s st S) (hF : F.Lawful) (fuel : ℕ) :
    NumbersRight gen F st s (s.value (AtomDesc.value gen) st) fuel := by
  have g := k.good
  refine ⟨fun i j r hr hg => ?_, fun i q r hg => ⟨fun hr => ?_, fun hr => ?_⟩⟩
  · simp only [HVars.value, k.eltVal, k.numVal] at *
    have hr := (asked_eq (sim_numLt fuel g (k.num i).1 (k.num i).2 (k.num j).1 (k.num j).2) hr).symm
    rcases hg with hg | hg
    · exact real_lt_partial _ (k.numWF i) (k.numWF j) hr (.inl hg)
    · exact real_lt_opposite_signs _ (k.numWF i) (k.numWF j) hr hg
  · simp only [HVars.value, k.eltVal, k.numVal] at *
    exact (real_lt_rational_partial _ hF (k.numWF i) (.inr hg)).1 (asked_eq (sim_numLtQ F fuel g (k.num i).1 (k.num i).2 q).1 hr).symm
  · simp only [HVars.value, k.eltVal, k.numVal] at *
    exact (real_lt_rational_partial _ hF (k.numWF i) (.inr hg)).2 (asked_eq (sim_numLtQ F fuel g (k.num i).1 (k.num i).2 q).2 hr).symm

theorem Known.answersReturn [Build] {S : Vars P R} (k : Known gen s st S) (hF : F.Lawful) (hco : CoeffLawful P coeff) :
    AnswersReturn gen F coeff st s (s.value (AtomDesc.value gen) st) := by
  have g := k.good
  refine ⟨fun i n h0 hn => ?_, fun i q h0 hn => ?_, fun i j hi hj hn => ?_, fun i hn => ?_, fun i hn => ?_, fun i hn => ?_, fun i j hj hn => ?_, fun i j hn => ?_, fun i q hn => ⟨?_, ?_⟩⟩
  · simp only [HVars.value, k.eltVal, k.numVal] at *
    obtain ⟨r, N, hN⟩ := (elt_lt_returns _ hF hco (k.eltWF i) (.inr h0)).2.2.2 n hn
    exact ⟨r, N, fun fuel hf o ho => (asked_eq (sim_ltZ F coeff fuel g (k.elt i) n) ho).trans (hN fuel hf)⟩
  · simp only [HVars.value, k.eltVal, k.numVal] at *
    obtain ⟨r, N, hN⟩ := (elt_lt_returns _ hF hco (k.eltWF i) (.inr h0)).2.2.1 q hn
    exact ⟨r, N, fun fuel hf o ho => (asked_eq (sim_ltQ F coeff fuel g (k.elt i) q) ho).trans (hN fuel hf)⟩
  · simp only [HVars.value, k.eltVal, k.numVal] at *
    rcases Elt.eq_outcomes (k.eltWF i) (k.eltWF j) with ⟨e, he⟩ | he
    · obtain ⟨r, N, hN⟩ := (elt_lt_returns _ hF hco (k.eltWF i) (.inr hi)).1 _ (k.eltWF j) (.inr hj) hn e he
      exact ⟨.ok r, N, .inr ⟨r, rfl⟩, fun fuel hf o ho => (asked_eq (sim_lt F coeff fuel g (k.elt i) (k.elt j)) ho).trans (hN fuel hf)⟩
    · refine ⟨.throws .logicError, 0, .inl rfl, fun fuel hf o ho => (asked_eq (sim_lt F coeff fuel g (k.elt i) (k.elt j)) ho).trans ?_⟩
      rw [Elt.lt, he]; rfl
  · simp only [HVars.value, k.eltVal, k.numVal] at *
    obtain ⟨r, N, hN⟩ := (elt_floor_returns _ hF hco (k.eltWF i) fun _ => hn).1
    exact ⟨r, N, fun fuel hf o ho => (asked_eq (sim_floor F coeff fuel g (k.elt i)).1 ho).trans (hN fuel hf)⟩
  · simp only [HVars.value, k.eltVal, k.numVal] at *
    obtain ⟨r, N, hN⟩ := (elt_floor_returns _ hF hco (k.eltWF i) fun _ => hn).2
    exact ⟨r, N, fun fuel hf o ho => (asked_eq (sim_floor F coeff fuel g (k.elt i)).2 ho).trans (hN fuel hf)⟩
  · simp only [HVars.value, k.eltVal, k.numVal] at *
    obtain ⟨r, N, hN⟩ := elt_double_returns _ hF hco (k.eltWF i) fun _ q ⟨m, e, hq⟩ h => hn m e (by rw [h, hq]; push_cast; rfl)
    exact ⟨r, N, fun fuel hf o ho => (asked_eq (sim_toDouble F coeff fuel g (k.elt i)) ho).trans (hN fuel hf)⟩
  · simp only [HVars.value, k.eltVal, k.numVal] at *
    have sim := fun fuel => sim_floordiv F coeff fuel g (k.elt i) (k.elt j) (k.eltWF i) (k.eltWF j)
    rcases floordiv_reduce (digitsOf gen st.base) (k.eltWF i) (k.eltWF j) (F := F) (coeff := coeff) with ⟨-, he⟩ | ⟨-, -, he⟩ | ⟨-, m, -, -, hs, -⟩
    · exact ⟨.ok 0, 0, .inr ⟨0, rfl⟩, fun fuel _ o ho => (asked_eq (sim fuel) ho).trans (he fuel)⟩
    · exact ⟨.throws .logicError, 0, .inl rfl, fun fuel _ o ho => (asked_eq (sim fuel) ho).trans (he fuel)⟩
    · obtain ⟨n, N, hN⟩ := floordiv_returns (digitsOf gen st.base) hF hco (k.eltWF i) (k.eltWF j) hj (fun ⟨n, hn'⟩ => hn n hn') hs
      exact ⟨.ok n, N, .inr ⟨n, rfl⟩, fun fuel hf o ho => (asked_eq (sim fuel) ho).trans (hN fuel hf)⟩
  · simp only [HVars.value, k.eltVal, k.numVal] at *
    obtain ⟨r, N, hN⟩ := real_lt_terminates (digitsOf gen st.base) (k.numWF i) (k.numWF j) (.inr hn)
    exact ⟨r, N, fun fuel hf o ho => (asked_eq (sim_numLt fuel g (k.num i).1 (k.num i).2 (k.num j).1 (k.num j).2) ho).trans (hN fuel hf)⟩
  · simp only [HVars.value, k.eltVal, k.numVal] at *
    obtain ⟨r, N, hN⟩ := (real_lt_rational_terminates (digitsOf gen st.base) hF (k.numWF i) (.inr hn)).1
    exact ⟨r, N, fun fuel hf o ho => (asked_eq (sim_numLtQ F fuel g (k.num i).1 (k.num i).2 q).1 ho).trans (hN fuel hf)⟩
  · simp only [HVars.value, k.eltVal, k.numVal] at *
    obtain ⟨r, N, hN⟩ := (real_lt_rational_terminates (digitsOf gen st.base) hF (k.numWF i) (.inr hn)).2
    exact ⟨r, N, fun fuel hf o ho => (asked_eq (sim_numLtQ F fuel g (k.num i).1 (k.num i).2 q).2 ho).trans (hN fuel hf)⟩

/-- **C84.**  Elements, in any process: the signs are always right; the comparisons of elements with each other, with numbers, with rational numbers and with
integers, `floor`, `ceil`, the conversion to `double` and `floordiv` are right up to an error that is small compared to the numbers in question, whatever other
threads do while the question is answered.  The numbers are those that the program has computed (C82) with the digits of the generators.  Missing: the
comparisons are not exactly right (C22). -/
theorem order_in_process_partial [Build] [LawfulScalar P] [LawfulFail P] (hF : F.Lawful) (hco : CoeffLawful P coeff) (h : HRun gen l s st)
    (hb : st.base.next ≤ 2 ^ 64) (fuel : ℕ) : ElementsRight gen F coeff st s (s.value (AtomDesc.value gen) st) fuel :=
  (run_known h hb).elim fun _ k => k.elementsRight hF hco fuel

/-- **C84.**  Approximations, in any process: the approximation of an element has the accuracy asked for, and the number that the program has computed is at most
five radii away from its midpoint.  Missing: the number need not be in the ball (C26). -/
theorem arb_in_process_partial [Build] [LawfulScalar P] [LawfulFail P] (hF : F.Lawful) (hco : CoeffLawful P coeff) (h : HRun gen l s st)
    (hb : st.base.next ≤ 2 ^ 64) (fuel : ℕ) : ArbRight gen F coeff st s (s.value (AtomDesc.value gen) st) fuel :=
  (run_known h hb).elim fun _ k => k.arbRight hF hco fuel

/-- **C84.**  Real numbers, in any process: `x < y` is right if the numbers have different signs or are far enough from each other; the comparisons with a
rational number are right up to a small error.  Missing: numbers that are close to each other (C23). -/
theorem num_order_in_process_partial [Build] [LawfulScalar P] [LawfulFail P] (hF : F.Lawful) (h : HRun gen l s st) (hb : st.base.next ≤ 2 ^ 64) (fuel : ℕ) :
    NumbersRight gen F st s (s.value (AtomDesc.value gen) st) fuel :=
  (run_known h hb).elim fun _ k => k.numbersRight hF fuel

/-- **C84.**  Questions come to an end whatever other threads do. -/
theorem order_returns_in_process [Build] [LawfulScalar P] [LawfulFail P] (hF : F.Lawful) (hco : CoeffLawful P coeff) (h : HRun gen l s st)
    (hb : st.base.next ≤ 2 ^ 64) : AnswersReturn gen F coeff st s (s.value (AtomDesc.value gen) st) :=
  (run_known h hb).elim fun _ k => k.answersReturn hF hco

/-- Every question is answered as in the value-level model. -/
theorem question_sim [Build] {S : Vars P R} (k : Known gen s st S) {fuel : ℕ} {α : Type} {a : Act P α} (ha : IsQuestion gen F coeff fuel s a) :
    ∃ o, Sim gen Agree (s.world st) a o := by
  have g := k.good
  have e := k.elt
  have n := k.num
  cases ha with
  | eq i j => exact ⟨_, sim_eq g (e i).elt (e j).elt⟩
  | rational i => exact ⟨_, sim_eltRational? g (e i).elt⟩
  | integer i => exact ⟨_, sim_eltInteger? g (e i).elt⟩
  | eqNum i j => exact ⟨_, sim_eqRN g (e i).elt (n j).1⟩
  | lt i j => exact ⟨_, sim_lt F coeff fuel g (e i) (e j)⟩
  | ltNum i j => exact ⟨_, sim_ltRN F coeff fuel g (e i) (n j).1 (n j).2⟩
  | ltQ i q => exact ⟨_, sim_ltQ F coeff fuel g (e i) q⟩
  | ltZ i z => exact ⟨_, sim_ltZ F coeff fuel g (e i) z⟩
  | gtZ i z => exact ⟨_, sim_gtZ F coeff fuel g (e i) z⟩
  | floor i => exact ⟨_, (sim_floor F coeff fuel g (e i)).1⟩
  | ceil i => exact ⟨_, (sim_floor F coeff fuel g (e i)).2⟩
  | toDouble i => exact ⟨_, sim_toDouble F coeff fuel g (e i)⟩
  | floordiv i j => exact ⟨_, sim_floordiv F coeff fuel g (e i) (e j) (k.eltWF i) (k.eltWF j)⟩
  | arb i m => exact ⟨_, sim_eltArb F coeff fuel m g (e i)⟩
  | numLt i j => exact ⟨_, sim_numLt fuel g (n i).1 (n i).2 (n j).1 (n j).2⟩
  | numLtQ i q => exact ⟨_, (sim_numLtQ F fuel g (n i).1 (n i).2 q).1⟩
  | numGtQ i q => exact ⟨_, (sim_numLtQ F fuel g (n i).1 (n i).2 q).2⟩
  | numArb i p => exact ⟨_, sim_arb g (n i).1 (n i).2 p⟩

theorem question_atMost [Build] {fuel : ℕ} {α : Type} {a : Act P α} (ha : IsQuestion gen F coeff fuel s a) : a.AtMost 0 := by
  cases ha with
  | eq i j => exact .eq'
  | rational i => exact .eltRational
  | integer i => exact .eltInteger
  | eqNum i j => exact .eqRN
  | lt i j => exact .lt'
  | ltNum i j => exact .ltRN
  | ltQ i q => exact .ltQ
  | ltZ i z => exact .ltZ
  | gtZ i z => exact .gtZ
  | floor i => exact .floor
  | ceil i => exact .ceil
  | toDouble i => exact .toDouble
  | floordiv i j => exact .floordiv
  | arb i m => exact .eltArb
  | numLt i j => exact .numLt
  | numLtQ i q => exact .numLtQ _
  | numGtQ i q => exact .numGtQ _
  | numArb i p => exact .refine'

/-- **C84.**  Every question can be asked and has an outcome. -/
theorem question_possible [Build] [LawfulScalar P] [LawfulFail P] (h : HRun gen l s st) (hb : st.base.next ≤ 2 ^ 64) {fuel : ℕ} {α : Type} {a : Act P α}
    (ha : IsQuestion gen F coeff fuel s a) : ∃ r, Asked gen st s a r := by
  obtain ⟨alloc, hv⟩ := exists_alloc
  obtain ⟨malloc, hm⟩ := exists_malloc (P := P)
  obtain ⟨g, -⟩ := run_inv h hb
  obtain ⟨w, r, h1, h2, -⟩ := can_run (gen := gen) hv hm (question_atMost ha) (w := s.world st) ⟨g.nums, g.mods⟩
  exact ⟨r, w, h1, h2.trans (show st.base.next + 2 * 0 ≤ 2 ^ 64 from hb)⟩

/-- **C84.**  The answer to a question does not depend on what other threads do, nor on the addresses of objects. -/
theorem question_deterministic [Build] [LawfulScalar P] [LawfulFail P] (h : HRun gen l s st) {fuel : ℕ} {α : Type} {a : Act P α}
    (ha : IsQuestion gen F coeff fuel s a) {r r' : Out α} (hr : Asked gen st s a r) (hr' : Asked gen st s a r') : r = r' := by
  obtain ⟨w, h1, h2⟩ := hr
  obtain ⟨S, k⟩ := run_known h ((exec_next h1).trans h2)
  obtain ⟨o, ho⟩ := question_sim k ha
  exact (asked_eq ho ⟨w, h1, h2⟩).trans (asked_eq ho hr').symm

/-- **C84.**  Questions change nothing: the program can go on, with the same values of its variables. -/
theorem question_keeps [Build] [LawfulScalar P] [LawfulFail P] (h : HRun gen l s st) {fuel : ℕ} {α : Type} {a : Act P α}
    (ha : IsQuestion gen F coeff fuel s a) {w : World P} {r : Out α} (hr : Exec gen (s.world st) a w r) (hb : w.st.base.next ≤ 2 ^ 64) :
    HRun gen l s w.st ∧ ∀ val : AtomDesc → ℝ, s.value val w.st = s.value val st := by
  obtain ⟨S, k⟩ := run_known h ((exec_next hr).trans hb)
  obtain ⟨o, ho⟩ := question_sim k ha
  obtain ⟨f, -⟩ := ho w r hr hb
  exact ⟨h.wait (w := s.world w.st) ⟨f.evolves, rfl, rfl, fun p hp => f.good.nums p (f.nums hp), fun m hm => f.good.mods m (f.mods hm)⟩,
    fun val => IsVars.value_follows k.good f val ⟨fun d => (k.num d).1, fun d => (k.elt d).elt⟩⟩

end Answers

/-! ### a program -/

attribute [local instance] sampleBuild

/-- A program that makes a random number between two and three and asks whether it is less than zero; the process has been running before. -/
example : ∃ (F : Arith) (l : List (HCmd IntegerRing ℤ × Out Bool)) (s : HVars ℤ) (st : MState IntegerRing) (fuel : ℕ), F.Lawful ∧ HRun gen l s st ∧
    l.map Prod.fst = [.call (.gen 0 .mk [0] 0), .randomIn 0 2 3 4] ∧ st.base.next ≤ 2 ^ 64 ∧
    Asked gen st s ((s.elt 0).ltZ (P := IntegerRing) gen F IntegerRing.arb fuel 0) (.ok false) := by
  obtain ⟨alloc, ha⟩ := exists_alloc
  obtain ⟨malloc, hm⟩ := exists_malloc (P := IntegerRing)
  have ns : (HVars.start : Act IntegerRing (HVars ℤ)).AtMost 1 := .bind .call (m := 0) fun _ => .bind0 .makeModule fun _ => .pure
  obtain ⟨w, r, h1, h2, -⟩ := can_run (gen := gen) ha hm ns (w := ⟨minit IntegerRing, ∅, ∅⟩) ⟨by simp, by simp⟩
  have h2 : w.st.base.next ≤ 2147483659 + 2 * 1 := h2
  have g0 : Good gen (⟨minit IntegerRing, ∅, ∅⟩ : World IntegerRing) := ⟨.init, by show 2147483659 ≤ 2 ^ 64; norm_num, by simp, by simp⟩
  obtain ⟨f, d⟩ := sim_start (R := ℤ) g0 w r h1 (by omega)
  cases r with
  | ok s =>
    have r0 := HRun.start (R := ℤ) .init h1
    obtain ⟨g1, -⟩ := run_inv r0 (by omega)
    -- the number
    obtain ⟨w1, x1, e1, n1, -⟩ := can_run (gen := gen) ha hm (a := (HCmd.randomIn 0 2 3 4 : HCmd IntegerRing ℤ).exec s) (n := 1) (.assignNum .call) (w := s.world w.st) ⟨g1.nums, g1.mods⟩
    have n1 : w1.st.base.next ≤ w.st.base.next + 2 * 1 := n1
    obtain ⟨s1, rfl, lo, -⟩ := random_in_process r0 (d := 0) (lower := 2) (upper := 3) (seed := 4) ⟨2, 0, by norm_num⟩ ⟨3, 0, by norm_num⟩ (by norm_num) e1 (by omega)
    have r1 := r0.step (by simp [HCmd.Pre]) e1 (.inl ⟨_, rfl⟩)
    -- the element
    obtain ⟨g2, S, hS, hwf, -⟩ := run_inv r1 (by omega)
    have ng : ((HCmd.call (.gen 0 .mk [0] 0) : HCmd IntegerRing ℤ).exec s1).AtMost 0 :=
      .assign (.bind0 .makeModule fun _ => .bind0 .deref fun _ => .bind0 .look fun _ => .gen')
    obtain ⟨w2, x2, e2, n2, -⟩ := can_run (gen := gen) ha hm ng (w := s1.world w1.st) ⟨g2.nums, g2.mods⟩
    have n2 : w2.st.base.next ≤ w1.st.base.next + 2 * 0 := n2
    obtain ⟨f2, d2⟩ := sim_exec g2 hS (.gen 0 .mk [0] 0) trivial w2 x2 e2 (by omega)
    cases x2 with
    | ok x =>
      obtain ⟨o, s2⟩ := x
      obtain ⟨y, hy, -, -, hy2⟩ := gen_value (P := IntegerRing) (R := ℤ) (m := ⟨.mk, [S.num 0]⟩) (single_WF _ (hwf.1 0)) (j := 0) (g := S.num 0) rfl
      have hexec : (Cmd.gen 0 .mk [0] 0 : Cmd IntegerRing ℤ).exec S = (.ok true, S.setElt 0 y) := by
        simp only [Cmd.exec, List.map_cons, List.map_nil]
        rw [Elt.make_singleton, Out.ok_bind]
        rw [show [S.num 0].idxOf (S.num 0) = 0 by simp, hy]
        rfl
      have ho : o = .ok true := d2.out.trans (by rw [hexec])
      subst ho
      have r2 := r1.step (by simp [HCmd.Pre]) e2 (.inl ⟨_, rfl⟩)
      have hb2 : w2.st.base.next ≤ 2 ^ 64 := by omega
      have hval : (2 : ℝ) < (s2.value (AtomDesc.value gen) w2.st).elt 0 := by
        have e1 := congrArg (fun v => v.num 0) (IsVars.value_follows g2 f2 (AtomDesc.value gen) hS)
        have e3 := congrArg (fun v => v.num 0) (IsVars.value f2.good (AtomDesc.value gen) (hS.follows g2 f2))
        have e4 := congrArg (fun v => v.elt 0) (IsVars.value f2.good (AtomDesc.value gen) d2.vars)
        simp only at e1 e3 e4
        rw [e4, hexec]
        rw [show (S.setElt 0 y).elt 0 = y by simp [Vars.setElt], hy2, ← e3, e1]
        exact lo
      obtain ⟨b, N, hN⟩ := (order_returns_in_process FlintLike.lawful coeffLawful_int r2 hb2).ltZ 0 0 (by linarith) (by push_cast; linarith)
      obtain ⟨o, ho⟩ := question_possible r2 hb2 (.ltZ (F := FlintLike.arith) (coeff := IntegerRing.arb) (fuel := N) 0 0)
      have e := hN N le_rfl o ho
      subst e
      have := (order_in_process_partial FlintLike.lawful coeffLawful_int r2 hb2 N).sign 0 b ho
      cases b with
      | true => exact absurd (this.1 rfl) (by linarith)
      | false => exact ⟨_, _, s2, w2.st, N, FlintLike.lawful, r2, rfl, hb2, ho⟩
    | _ => exact d2.elim
  | _ => exact d.elim

end ExactReal.Props
