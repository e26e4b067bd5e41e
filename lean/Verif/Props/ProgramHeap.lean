import Verif.Lemma.CanRun
import Verif.Lemma.OrderHeap
import Verif.Spec.ProgramHeap
import Verif.Props.Progress
import Verif.Props.Random
import Verif.Props.ProgramQuery

/-!
# C82: programs in a running process
-/

namespace ExactReal.Props
open ExactReal Heap

variable {P : Type} [DecidableEq P] {R : Type} [CommRing R] [DecidableEq R] [CRing P R] [LawfulCRing P] {gen : Generators}

/-! ### values -/

/-- The values of atoms by their identity. -/
noncomputable def idVal (val : AtomDesc → ℝ) (s : State) (i : ℕ) : ℝ := val (descOfId s i)

theorem value_desc {s : State} (h : Inv s) (val : AtomDesc → ℝ) {p : Ptr} (hp : (s.live p).isSome) :
    (s.desc p).value val = (s.rn p).value (idVal val s) := by
  have key : ∀ f : ℕ →₀ ℕ, (Desc.monomial (Finsupp.mapDomain (descOfId s) f)).value val = f.prod fun i e => idVal val s i ^ e := by
    intro f
    rw [Desc.value, Finsupp.prod_mapDomain_index (fun _ => pow_zero _) fun _ _ _ => pow_add _ _ _]
    rfl
  rw [desc_eq h hp]
  cases hx : s.rn p with
  | rat q => simp [Desc.value, RN.value]
  | atom i => rw [key]; simp [RN.mult, RN.value]
  | prod m => rw [key]; exact (Mono.value_eq_mult _ _).symm

theorem IsNum.value_desc {w : World P} (h : Good gen w) (val : AtomDesc → ℝ) {p : Ptr} {x : RN} (hp : Heap.IsNum w p x) :
    (w.st.base.desc p).value val = x.value (idVal val w.st.base) := by
  rw [Props.value_desc h.inv.base val (hp.held.live h), hp.rn]

theorem IsElt.value_real {w : World P} (h : Good gen w) (val : AtomDesc → ℝ) {x : HElt R} {X : Elt P R} (hx : IsElt w x X) :
    x.value val w.st = X.real (idVal val w.st.base) := by
  obtain ⟨o, ho, h1, h2⟩ := hx.mod.obj
  have hb := (hx.mod.isObj ho).basis
  rw [HElt.value, ho, Elt.real, Elt.value, Elt.terms, ← hb.rn, hx.coeffs]
  simp only
  rw [List.zip_map_left, List.map_map]
  congr 1
  refine List.map_congr_left fun t ht => ?_
  simp only [Function.comp, Prod.map]
  rw [Props.value_desc h.inv.base val ((hb.held _ (List.of_mem_zip ht).1).live h)]
  rfl

/-- The values of the variables are those of the value-level variables. -/
theorem IsVars.value {w : World P} (h : Good gen w) (val : AtomDesc → ℝ) {s : HVars R} {S : Vars P R} (hs : IsVars w s S) :
    s.value val w.st = ⟨fun d => (S.num d).value (idVal val w.st.base), fun d => (S.elt d).real (idVal val w.st.base)⟩ := by
  rw [HVars.value]
  congr 1 <;> funext d
  · exact IsNum.value_desc h val (hs.num d)
  · exact IsElt.value_real h val (hs.elt d)

/-- Values do not change while the thread waits. -/
theorem IsVars.value_follows {w w' : World P} (h : Good gen w) (hf : Follows gen w w') (val : AtomDesc → ℝ) {s : HVars R} {S : Vars P R} (hs : IsVars w s S) :
    s.value val w'.st = s.value val w.st := by
  have hd : ∀ p, Held w p → w'.st.base.desc p = w.st.base.desc p := fun p hp =>
    (desc_later h.inv.base hf.good.inv.base hf.later.base (hp.live h) ((hp.follows h hf).live hf.good)).2
  rw [HVars.value, HVars.value]
  congr 1 <;> funext d
  · rw [hd _ (hs.num d).held]
  · obtain ⟨o, ho, -, -⟩ := (hs.elt d).mod.obj
    have hb := ((hs.elt d).mod.isObj ho).basis
    rw [HElt.value, HElt.value, ho, hf.module h (hs.elt d).mod.held ho]
    simp only
    congr 1
    refine List.map_congr_left fun t ht => ?_
    rw [hd _ (hb.held _ (List.of_mem_zip ht).1)]

theorem stands_iff {w : World P} (h : Good gen w) (val : AtomDesc → ℝ) {s : HVars R} {S : Vars P R} (hs : IsVars w s S) {σ : Reals} :
    Stands (idVal val w.st.base) S σ ↔ ((∀ i, (S.num i).WF) ∧ ∀ i, (S.elt i).WF) ∧ s.value val w.st = σ := by
  rw [IsVars.value h val hs]
  constructor
  · rintro ⟨h1, h2⟩
    refine ⟨⟨fun i => (h1 i).1, fun i => (h2 i).1⟩, ?_⟩
    cases σ
    congr 1 <;> funext i
    · exact (h1 i).2
    · exact (h2 i).2
  · rintro ⟨⟨h1, h2⟩, rfl⟩
    exact ⟨fun i => ⟨h1 i, rfl⟩, fun i => ⟨h2 i, rfl⟩⟩

/-! ### the world of the variables -/

theorem _root_.ExactReal.Heap.IsVars.restrict {w : World P} {s : HVars R} {S : Vars P R} (hs : IsVars w s S) : IsVars (s.world w.st) s S :=
  ⟨fun d => ⟨.inl ⟨d, rfl⟩, (hs.num d).rn⟩, fun d => ⟨⟨⟨d, rfl⟩, (hs.elt d).mod.obj⟩, (hs.elt d).coeffs⟩⟩

theorem _root_.ExactReal.Heap.IsVars.good {w : World P} (h : Good gen w) {s : HVars R} {S : Vars P R} (hs : IsVars w s S) : Good gen (s.world w.st) :=
  ⟨h.reach, h.bound, by rintro _ ⟨d, rfl⟩; exact (hs.num d).held.root h, by rintro _ ⟨d, rfl⟩; exact h.mods _ (hs.elt d).mod.held⟩

theorem _root_.ExactReal.Heap.IsRandom.atom {a : AtomDesc} {w : World P} (h : Good gen w) {p : Ptr} (hp : IsRandom a w p) : descOfId w.st.base (w.st.base.idOf p) = a := by
  have := desc_eq h.inv.base (hp.held.live h)
  rw [hp.desc, hp.rn] at this
  simp only [RN.mult, Finsupp.mapDomain_single] at this
  injection this with this
  exact ((Finsupp.single_left_inj one_ne_zero).1 this).symm

theorem IsRandom.value {a : AtomDesc} {w : World P} (h : Good gen w) {p : Ptr} (hp : IsRandom a w p) (val : AtomDesc → ℝ) :
    idVal val w.st.base (w.st.base.idOf p) = val a := by
  have := Props.value_desc h.inv.base val (hp.held.live h)
  rw [hp.desc, hp.rn] at this
  rw [RN.value] at this
  rw [← this, Desc.value]
  simp

theorem means_call {c : Cmd P R} (hc : HCmd.IsCall c) {v v' : ℕ → ℝ} {σ σ' : Reals} (h : c.Means v σ σ') : c.Means v' σ σ' := by
  cases c <;> first | exact hc.elim | exact h

theorem pre_call [Build] {w : World P} {s : HVars R} {S : Vars P R} (hs : IsVars w s S) {c : Cmd P R} (hp : (HCmd.call c).Pre w.st s) :
    HCmd.IsCall c ∧ c.Pre S := by
  have ring : ∀ d (c : R), (∀ o, w.st.live (s.elt d).mod = some o → c ∈ LawfulCRing.mem o.ring) → c ∈ LawfulCRing.mem (S.elt d).mod.par := by
    intro d c hc
    obtain ⟨o, ho, h1, -⟩ := (hs.elt d).mod.obj
    rw [← h1]
    exact hc o ho
  cases c <;> first | exact hp.elim | exact ⟨trivial, hp⟩ | exact ⟨trivial, ring _ _ hp⟩

/-- Every call of the thread has the effect of a call of the value-level model. -/
theorem exec_sim [Build] {w w' : World P} (h : Good gen w) {s : HVars R} {S : Vars P R} (hs : IsVars w s S) (c : HCmd P R) (hp : c.Pre w.st s) {r : Out (Out Bool × HVars R)}
    (he : Exec gen w (c.exec s) w' r) (hb : w'.st.base.next ≤ 2 ^ 64) :
    Follows gen w w' ∧ ∃ o s', r = .ok (o, s') ∧
      ((∃ C : Cmd P R, C.Pre S ∧ (C.exec S).1 = o ∧ IsVars w' s' (C.exec S).2 ∧ (∀ val σ σ', C.Means (idVal val w'.st.base) σ σ' → c.Means gen val σ σ') ∧
          (∀ σ σ', C.Failed σ σ' → c.Failed σ σ') ∧ (∀ d q, C = .rational d q → c = .call C) ∧ (HCmd.IsCall C → c = .call C) ∧
          (∀ d i, C = .random d i → (descOfId w'.st.base i).Regular)) ∨
        (∃ d l u seed e, c = .randomIn d l u seed ∧ o = .throws e ∧ s' = s ∧ ExactReal.randomIn gen l u seed = .throws e)) := by
  cases c with
  | random d seed =>
    obtain ⟨w₁, r₁, h1, h2⟩ := exec_andThen he
    have hb1 := (exec_next h2).trans hb
    obtain ⟨f, d1⟩ := sim_random h seed w₁ r₁ h1 hb1
    cases r₁ with
    | ok p =>
      cases h2
      refine ⟨f, _, _, rfl, .inl ⟨.random d (w'.st.base.idOf p), trivial, rfl, (hs.follows h f).setNum d ⟨d1.held, d1.rn⟩, fun val σ σ' hm => ?_, fun σ σ' hf => hf, fun _ _ h => (by cases h), fun h => (by cases h),
        fun _ _ h => by cases h; rw [d1.atom f.good]; trivial⟩⟩
      rw [Cmd.Means, IsRandom.value f.good d1] at hm
      exact hm
    | _ => exact d1.elim
  | randomIn d l u seed =>
    obtain ⟨w₁, r₁, h1, h2⟩ := exec_andThen he
    have hb1 := (exec_next h2).trans hb
    obtain ⟨f, d1⟩ := sim_randomIn h l u seed w₁ r₁ h1 hb1
    have plain : Plain (ExactReal.randomIn gen l u seed) := by
      unfold ExactReal.randomIn
      split
      · exact plain_ok _
      · split
        · exact plain_throws _
        · exact plain_ok _
    rcases plain with ⟨a, ha⟩ | ⟨e, hx⟩
    · rw [ha] at d1
      cases r₁ with
      | ok p =>
        cases h2
        refine ⟨f, _, _, rfl, .inl ⟨.random d (w'.st.base.idOf p), trivial, rfl, (hs.follows h f).setNum d ⟨d1.held, d1.rn⟩, fun val σ σ' hm => ?_, fun σ σ' hf => hf, fun _ _ h => (by cases h), fun h => (by cases h),
          fun _ _ h => by cases h; rw [d1.atom f.good]; exact AtomDesc.regular_of _ _⟩⟩
        rw [Cmd.Means, IsRandom.value f.good d1] at hm
        exact ⟨a, ha, hm⟩
      | _ => exact d1.elim
    · rw [hx] at d1
      cases r₁ with
      | throws e' =>
        obtain rfl : e' = e := d1
        cases h2
        exact ⟨f, _, _, rfl, .inr ⟨d, l, u, seed, e', rfl, rfl, rfl, hx⟩⟩
      | _ => exact d1.elim
  | call c =>
    obtain ⟨hc, hpc⟩ := pre_call hs hp
    obtain ⟨f, d⟩ := sim_exec h hs c hc w' r he hb
    cases r with
    | ok x =>
      obtain ⟨o, s'⟩ := x
      exact ⟨f, o, s', rfl, .inl ⟨c, hpc, d.out.symm, d.vars, fun val σ σ' hm => means_call hc hm, fun σ σ' hf => hf, fun _ _ _ => rfl, fun _ => rfl, fun d i h => by subst h; exact hc.elim⟩⟩
    | _ => exact d.elim

/-! ### runs -/

/-- The state of a run. -/
theorem run_inv [Build] [LawfulScalar P] [LawfulFail P] {l : List (HCmd P R × Out Bool)} {s : HVars R} {st : MState P} (h : HRun gen l s st)
    (hb : st.base.next ≤ 2 ^ 64) : Good gen (s.world st) ∧ ∃ S : Vars P R, IsVars (s.world st) s S ∧ ((∀ i, (S.num i).WF) ∧ ∀ i, (S.elt i).WF) ∧
      (∀ val : AtomDesc → ℝ, HComputes gen val l (s.value val st)) ∧
      ∀ T, Closed T → (∀ d q o, (HCmd.call (.rational d q), o) ∈ l → q ∈ T) → Vars.In T S := by
  induction h with
  | @start st w s h hs =>
    have h0 : Good gen (⟨st, ∅, ∅⟩ : World P) := ⟨h, (exec_next hs).trans hb, by simp, by simp⟩
    obtain ⟨f, d⟩ := sim_start (R := R) h0 w _ hs hb
    refine ⟨d.good f.good, Vars.init, d.restrict, ⟨fun _ => trivial, fun _ => (default_value (P := P)).1⟩, fun val => ?_,
      fun T hT _ => ⟨fun i => hT.one, fun i => by simp [Vars.init, GensIn, Elt.default]⟩⟩
    have e : s.value val w.st = Reals.init := by
      rw [IsVars.value f.good val d]
      simp only [Vars.init, RN.value, Reals.init]
      congr 1
      funext i; exact map_one _
    rw [e]
    exact .init
  | @wait l s st w h hw ih =>
    obtain ⟨g, S, h1, h2, h3, h8⟩ := ih ((waits_next hw).trans hb)
    have f := g.waits hw hb
    refine ⟨(h1.follows g f).good f.good, S, (h1.follows g f).restrict, h2, fun val => ?_, h8⟩
    rw [IsVars.value_follows g f val h1]
    exact h3 val
  | @step l s s' st w c o h hp hc ho ih =>
    obtain ⟨g, S, h1, h2, h3, h8⟩ := ih ((exec_next hc).trans hb)
    obtain ⟨f, o', s'', hr, hx⟩ := exec_sim g h1 c hp hc hb
    cases hr
    rcases hx with ⟨C, hp, hC, h4, h5, h6, h7, -, -⟩ | ⟨d, lo, up, seed, e, rfl, rfl, rfl, -⟩
    · have key : ∀ val, StepOk (idVal val w.st.base) C (s.value val st) o (C.exec S).2 := fun val =>
        exec_ok ((stands_iff f.good val (h1.follows g f)).2 ⟨h2, IsVars.value_follows g f val h1⟩) C hp (by rw [← hC]) ho
      refine ⟨h4.good f.good, (C.exec S).2, h4.restrict, ?_, fun val => ?_, fun T hT h0 => ?_⟩
      · rcases key fun _ => 0 with ⟨-, σ', -, hs⟩ | ⟨-, hs⟩ | ⟨e, -, σ', -, hs⟩
        all_goals exact ((stands_iff f.good _ h4).1 hs).1
      · rcases key val with ⟨rfl, σ', hm, hs⟩ | ⟨rfl, hs⟩ | ⟨e, rfl, σ', hf, hs⟩
        · rw [((stands_iff f.good _ h4).1 hs).2]
          exact .assigned (h3 val) (h5 _ _ _ hm)
        · rw [((stands_iff f.good _ h4).1 hs).2]
          exact .skipped (h3 val)
        · rw [((stands_iff f.good _ h4).1 hs).2]
          exact .failed (h3 val) (h6 _ _ hf)
      · refine exec_gensIn hT h2.1 h2.2 (h8 T hT fun d q o hm => h0 d q o (List.mem_cons_of_mem _ hm)) C (fun d q e => ?_) hp rfl
        exact h0 d q o (by rw [h7 d q e, e]; exact List.mem_cons_self)
    · have h4 := h1.follows g f
      refine ⟨h4.good f.good, S, h4.restrict, h2, fun val => ?_, fun T hT h0 => h8 T hT fun d q o hm => h0 d q o (List.mem_cons_of_mem _ hm)⟩
      rw [IsVars.value_follows g f val h1]
      exact .failed (h3 val) rfl

/-- C82. A program computes with the right numbers in any process: whatever other threads do before, between and during its calls, and wherever objects
are placed in memory, the values of its variables are those that the program computes, for all values of the random numbers. -/
theorem program_in_process [Build] [LawfulScalar P] [LawfulFail P] {l : List (HCmd P R × Out Bool)} {s : HVars R} {st : MState P} (h : HRun gen l s st)
    (hb : st.base.next ≤ 2 ^ 64) (val : AtomDesc → ℝ) : HComputes gen val l (s.value val st) := by
  obtain ⟨-, S, -, -, h3, -⟩ := run_inv h hb
  exact h3 val

/-- How calls end. -/
theorem call_progress [Build] [LawfulScalar P] [LawfulFail P] {w₀ : World P} (g : Good gen w₀) {s : HVars R} {S : Vars P R} (h1 : IsVars w₀ s S)
    (h2 : (∀ i, (S.num i).WF) ∧ ∀ i, (S.elt i).WF) {c : HCmd P R} (hp : c.Pre w₀.st s) {w : World P} {r : Out (Out Bool × HVars R)} (hc : Exec gen w₀ (c.exec s) w r)
    (hb : w.st.base.next ≤ 2 ^ 64) : ∃ o s', r = .ok (o, s') ∧ (((∃ b, o = .ok b) ∨ ∃ e, o = .throws e) ∨
      (∃ d a e fuel, c = .call (.truediv d a e fuel) ∧ o = .pending) ∨
      (∃ d a m q p, c = .call (.one d a) ∧ o = .ub ∧ w₀.st.live (s.elt a).mod = some m ∧ p ∈ m.basis ∧ w₀.st.base.desc p = .rational q ∧ q ≤ 0)) := by
  obtain ⟨f, o, s', hr, hx⟩ := exec_sim g h1 c hp hc hb
  refine ⟨o, s', hr, ?_⟩
  rcases hx with ⟨C, hp, hC, -, -, -, -, h8, -⟩ | ⟨d, lo, up, seed, e, -, h9, -⟩
  · rcases exec_outcomes h2.1 h2.2 C hp with h' | ⟨d, a, rfl, h', -, q, hq, hm⟩ | ⟨d, a, e, fuel, rfl, h'⟩
    · rw [hC] at h'; exact .inl h'
    · obtain ⟨m, hm1, -, hm2⟩ := (h1.elt a).mod.obj
      rw [← hm2] at hm
      obtain ⟨p, hp1, hp2⟩ := List.mem_map.1 hm
      refine .inr (.inr ⟨d, a, m, q, p, h8 (by simp [HCmd.IsCall]) , hC ▸ h', hm1, hp1, ?_, hq⟩)
      have hl := (((h1.elt a).mod.isObj hm1).basis.held p hp1).live g
      have hd := desc_eq g.inv.base hl
      rw [hp2] at hd
      exact hd
    · exact .inr (.inl ⟨d, a, e, fuel, h8 (by simp [HCmd.IsCall]), hC ▸ h'⟩)
  · exact .inl (.inr ⟨e, h9⟩)

/-- C82. No call of a program uses an object that has been destroyed, whatever happens while it runs: it returns or throws, except that a division may go on
for longer than the given number of iterations, and that `one()` of a module with a nonpositive rational generator is undefined (C30). -/
theorem process_progress [Build] [LawfulScalar P] [LawfulFail P] {l : List (HCmd P R × Out Bool)} {s : HVars R} {st : MState P} (h : HRun gen l s st)
    {c : HCmd P R} (hp : c.Pre st s) {w : World P} {r : Out (Out Bool × HVars R)} (hc : Exec gen (s.world st) (c.exec s) w r) (hb : w.st.base.next ≤ 2 ^ 64) :
    ∃ o s', r = .ok (o, s') ∧ (((∃ b, o = .ok b) ∨ ∃ e, o = .throws e) ∨
      (∃ d a e fuel, c = .call (.truediv d a e fuel) ∧ o = .pending) ∨
      (∃ d a m q p, c = .call (.one d a) ∧ o = .ub ∧ st.live (s.elt a).mod = some m ∧ p ∈ m.basis ∧ st.base.desc p = .rational q ∧ q ≤ 0)) := by
  obtain ⟨g, S, h1, h2, -⟩ := run_inv h ((exec_next hc).trans hb)
  exact call_progress g h1 h2 hp hc hb

/-! ### questions -/

theorem value_agree {v v' : ℕ → ℝ} (g : RN) (h : ∀ i, g.mult i ≠ 0 → v i = v' i) : g.value v = g.value v' := by
  cases g with
  | rat q => rfl
  | atom i => exact h i (by simp [RN.mult])
  | prod m =>
    rw [RN.value, RN.value, Mono.value_eq_mult, Mono.value_eq_mult]
    exact Finsupp.prod_congr fun i hi => by rw [h i (Finsupp.mem_support_iff.1 hi)]

/-- Algebraically independent values of random numbers give algebraically independent values of their identities. -/
theorem independent_ids {s : State} (hs : Inv s) {val : AtomDesc → ℝ} (hv : AlgebraicIndependent ℚ val) :
    ∃ v : ℕ → ℝ, AlgebraicIndependent ℚ v ∧ ∀ p, (s.live p).isSome → (s.rn p).value v = (s.rn p).value (idVal val s) := by
  classical
  let F : Set ℕ := {i | ∃ q o, s.live q = some o ∧ o.data.isAtom ∧ i = s.idOf q}
  have hF : F.Finite := by
    refine ((s.heap.map fun x => s.idOf x.1).toFinset.finite_toSet).subset ?_
    rintro i ⟨q, o, hq, -, rfl⟩
    have : (q, o) ∈ s.heap := mem_of_lookup' hq
    simpa using ⟨q, ⟨o, this⟩, rfl⟩
  have hinj : ∀ i ∈ F, ∀ j ∈ F, descOfId s i = descOfId s j → i = j := by
    rintro i ⟨p, o, hp, ho, rfl⟩ j ⟨q, o', hq, ho', rfl⟩ he
    rw [descOfId_idOf hs (by simp [hp]), descOfId_idOf hs (by simp [hq])] at he
    rw [atomDesc_inj hs hp hq ho ho' he]
  have inf : Infinite AtomDesc := Infinite.of_injective (fun q : ℚ => AtomDesc.constrained q 0 0) fun a b h => by cases h; rfl
  have : Infinite ↥(descOfId s '' F)ᶜ := (hF.image _).infinite_compl.to_subtype
  let e := Infinite.natEmbedding ↥(descOfId s '' F)ᶜ
  let g : ℕ → AtomDesc := fun i => if i ∈ F then descOfId s i else e i
  have hg : Function.Injective g := by
    intro i j h
    simp only [g] at h
    split_ifs at h with hi hj hj
    · exact hinj i hi j hj h
    · exact absurd (h ▸ Set.mem_image_of_mem _ hi) (e j).2
    · exact absurd (h ▸ Set.mem_image_of_mem _ hj) (e i).2
    · exact e.injective (Subtype.ext h)
  refine ⟨val ∘ g, hv.comp g hg, fun p hp => value_agree _ fun i hi => ?_⟩
  have : i ∈ F := idOf_live hs hp i hi
  simp only [Function.comp, g, if_pos this, idVal]

theorem IsElt.value_ids {w : World P} (g : Good gen w) {val : AtomDesc → ℝ} {v : ℕ → ℝ}
    (hg : ∀ p, (w.st.base.live p).isSome → (w.st.base.rn p).value v = (w.st.base.rn p).value (idVal val w.st.base)) {x : HElt R} {X : Elt P R}
    (hx : IsElt w x X) : x.value val w.st = X.real v := by
  rw [IsElt.value_real g val hx]
  obtain ⟨o, ho, -, hm⟩ := hx.mod.obj
  have hbas := (hx.mod.isObj ho).basis
  rw [Elt.real, Elt.real, Elt.value, Elt.value]
  congr 1
  refine List.map_congr_left fun t ht => ?_
  have := Elt.terms_mem_fst ht
  rw [← hbas.rn] at this
  obtain ⟨p, hp, hp'⟩ := List.mem_map.1 this
  rw [← hp', hg p ((hbas.held p hp).live g)]

/-- C82. In a program that does not call `RealNumber::rational(0)`, the comparison of two elements, in any process, never uses an object that has been
destroyed, and returns whether the values are equal (if the random numbers are algebraically independent), or throws a `logic_error`. -/
theorem eq_in_process [Build] [LawfulScalar P] [LawfulFail P] {l : List (HCmd P R × Out Bool)} {s : HVars R} {st : MState P} (h : HRun gen l s st)
    (h0 : ∀ d o, (HCmd.call (.rational d 0), o) ∉ l) {val : AtomDesc → ℝ} (hv : AlgebraicIndependent ℚ val) (i j : ℕ) {w : World P} {r : Out Bool}
    (hc : Exec gen (s.world st) ((s.elt i).eq (P := P) (s.elt j)) w r) (hb : w.st.base.next ≤ 2 ^ 64) :
    (∃ b, r = .ok b ∧ (b = true ↔ (s.elt i).value val st = (s.elt j).value val st)) ∨ r = .throws .logicError := by
  obtain ⟨g, S, h1, h2, -, h4⟩ := run_inv h ((exec_next hc).trans hb)
  obtain ⟨-, d⟩ := sim_eq g (h1.elt i) (h1.elt j) w r hc hb
  obtain ⟨v, hi, hg⟩ := independent_ids g.inv.base hv
  have hz := h4 _ closed_ne_zero fun d q o hm hq => h0 d o (by rwa [hq] at hm)
  have hr : ∀ k, (s.elt k).value val st = (S.elt k).real v := fun k => IsElt.value_ids g hg (h1.elt k)
  rw [hr, hr]
  rcases Elt.eq_outcomes (h2.2 i) (h2.2 j) with ⟨b, hb'⟩ | hb'
  · rw [hb'] at d
    cases r with
    | ok b' =>
      obtain rfl : b' = b := d
      exact .inl ⟨b', rfl, eq_iff hi (h2.2 i) (h2.2 j) (noZeroGen_of (hz.2 i)) (noZeroGen_of (hz.2 j)) hb'⟩
    | _ => exact d.elim
  · rw [hb'] at d
    cases r with
    | throws e => obtain rfl : e = .logicError := d; exact .inr rfl
    | _ => exact d.elim

/-- C82. Two real numbers of a program that does not call `RealNumber::rational(0)` are the same object if and only if their values are equal; `operator bool` of
an element returns whether its value is not zero. -/
theorem questions_in_process [Build] [LawfulScalar P] [LawfulFail P] {l : List (HCmd P R × Out Bool)} {s : HVars R} {st : MState P} (h : HRun gen l s st)
    (hb : st.base.next ≤ 2 ^ 64) (h0 : ∀ d o, (HCmd.call (.rational d 0), o) ∉ l) {val : AtomDesc → ℝ} (hv : AlgebraicIndependent ℚ val) :
    (∀ i j, st.base.same (s.num i) (s.num j) = true ↔ (st.base.desc (s.num i)).value val = (st.base.desc (s.num j)).value val) ∧
    (∀ i, (s.elt i).toBool = true ↔ (s.elt i).value val st ≠ 0) := by
  obtain ⟨g, S, h1, h2, -, h4⟩ := run_inv h hb
  obtain ⟨v, hi, hg⟩ := independent_ids g.inv.base hv
  have hz := h4 _ closed_ne_zero fun d q o hm hq => h0 d o (by rwa [hq] at hm)
  refine ⟨fun i j => ?_, fun i => ?_⟩
  · have e : ∀ k, (st.base.desc (s.num k)).value val = (S.num k).value v := by
      intro k
      rw [show (st.base.desc (s.num k)).value val = _ from IsNum.value_desc g val (h1.num k), ← (h1.num k).rn]
      exact (hg _ ((h1.num k).held.live g)).symm
    rw [show st.base.same (s.num i) (s.num j) = _ from same_eq g (h1.num i).held (h1.num j).held, (h1.num i).rn, (h1.num j).rn, e, e, decide_eq_true_iff]
    exact ⟨fun h => by rw [h], rn_value_injective hi (h2.1 i) (h2.1 j)⟩
  · rw [show (s.elt i).value val st = _ from IsElt.value_ids g hg (h1.elt i), ← not_iff_not, Bool.not_eq_true, not_not,
      ← bool_iff hi (h2.2 i) (noZeroGen_of (hz.2 i)), Elt.toBool, HElt.toBool, (h1.elt i).coeffs]

/-! ### the digits of random numbers -/

/-- C82. The random numbers in intervals have the values of their digits. -/
theorem of_value {lower upper : ℚ} {seed : UInt32} {a : Atom} (h : ExactReal.randomIn gen lower upper seed = .ok a) :
    (AtomDesc.of seed a).value gen = a.value := by
  unfold ExactReal.randomIn at h
  split at h
  · cases h; rfl
  · split at h
    · cases h
    · cases h
      simp [AtomDesc.of, AtomDesc.value, Atom.value, Arf.ofMantissaExponent]

/-- C82. A program that calls `num[d] = RealNumber::random(lower, upper, seed)` gets a number in that interval, whether such a number exists in the process already
or not. -/
theorem random_in_process [Build] [LawfulScalar P] [LawfulFail P] {l : List (HCmd P R × Out Bool)} {s : HVars R} {st : MState P} (h : HRun gen l s st)
    {d : ℕ} {lower upper : ℚ} {seed : UInt32} {w : World P} (hl : Arf.Dyadic lower) (hu : Arf.Dyadic upper) (hlt : lower < upper) {r : Out (Out Bool × HVars R)}
    (hc : Exec gen (s.world st) ((HCmd.randomIn d lower upper seed : HCmd P R).exec s) w r) (hb : w.st.base.next ≤ 2 ^ 64) :
    ∃ s', r = .ok (.ok true, s') ∧ (lower : ℝ) < (s'.value (AtomDesc.value gen) w.st).num d ∧ (s'.value (AtomDesc.value gen) w.st).num d ≤ upper := by
  obtain ⟨a, ha, h1, h2, -⟩ := randomIn_mem gen hl hu hlt seed
  obtain ⟨g, S, -⟩ := run_inv h ((exec_next hc).trans hb)
  obtain ⟨w₁, r₁, e1, e2⟩ := exec_andThen hc
  obtain ⟨f, d1⟩ := sim_randomIn g lower upper seed w₁ r₁ e1 ((exec_next e2).trans hb)
  rw [ha] at d1
  cases r₁ with
  | ok p =>
    cases e2
    refine ⟨_, rfl, ?_⟩
    have e : ((s.setNum d p).value (AtomDesc.value gen) w.st).num d = a.value := by
      rw [HVars.value, HVars.setNum]
      simp only [Function.update_self]
      rw [d1.desc, Desc.value, Finsupp.prod_single_index (h := fun a n => AtomDesc.value gen a ^ n) (pow_zero _), pow_one, of_value ha]
    rw [e]
    exact ⟨h1, h2⟩
  | _ => exact d1.elim

/-! ### a program -/

theorem exists_alloc : ∃ alloc : Alloc, alloc.Valid := by
  refine ⟨fun s => (s.heap.map fun m => m.2.addr).sum + 1, fun s p o ho heq => ?_⟩
  have h2 : o.addr ≤ (s.heap.map fun m => m.2.addr).sum := List.single_le_sum (fun _ _ => Nat.zero_le _) _ (List.mem_map.2 ⟨(p, o), mem_of_lookup' ho, rfl⟩)
  rw [← heq] at h2
  exact Nat.not_succ_le_self _ h2

theorem exists_malloc : ∃ malloc : MAlloc P, malloc.Valid := by
  refine ⟨fun st => (st.mods.map fun m => m.2.addr).sum + 1, fun st m o ho heq => ?_⟩
  have h2 : o.addr ≤ (st.mods.map fun m => m.2.addr).sum := List.single_le_sum (fun _ _ => Nat.zero_le _) _ (List.mem_map.2 ⟨(m, o), MState.mem_of_live ho, rfl⟩)
  rw [← heq] at h2
  exact Nat.not_succ_le_self _ h2

/-- A program can go on. -/
theorem extend_run [Build] [LawfulScalar P] [LawfulFail P] {l : List (HCmd P R × Out Bool)} {s : HVars R} {st : MState P} (h : HRun gen l s st)
    {c : HCmd P R} (hp : c.Pre st s) (h1 : ∀ d a, c ≠ .call (.one d a)) (h2 : ∀ d a b fuel, c ≠ .call (.truediv d a b fuel)) {n : ℕ} (hn : (c.exec s).AtMost n)
    (hb : st.base.next + 2 * n ≤ 2 ^ 64) : ∃ o s' st', HRun gen ((c, o) :: l) s' st' ∧ st'.base.next ≤ st.base.next + 2 * n := by
  obtain ⟨alloc, ha⟩ := exists_alloc
  obtain ⟨malloc, hm⟩ := exists_malloc (P := P)
  obtain ⟨g, -⟩ := run_inv h (by omega)
  obtain ⟨w, r, h3, h4, -⟩ := can_run (gen := gen) ha hm hn (w := s.world st) ⟨g.nums, g.mods⟩
  have h4 : w.st.base.next ≤ st.base.next + 2 * n := h4
  obtain ⟨o, s', rfl, ho⟩ := process_progress h hp h3 (h4.trans hb)
  refine ⟨o, s', w.st, h.step hp h3 ?_, h4⟩
  rcases ho with ho | ⟨d, a, b, fuel, hc, -⟩ | ⟨d, a, -, -, -, hc, -⟩
  · exact ho
  · exact absurd hc (h2 d a b fuel)
  · exact absurd hc (h1 d a)

attribute [local instance] sampleBuild

/-- The sum of two random numbers, in a process that has just been started; when the numbers have been made, another thread makes the number 3. -/
example : ∃ (l : List (HCmd IntegerRing ℤ × Out Bool)) (s : HVars ℤ) (st : MState IntegerRing), HRun gen l s st ∧
    l.map Prod.fst = [.call (.add 0 1), .call (.gen 1 .mk [1] 1), .call (.gen 0 .mk [0] 0), .random 1 5, .random 0 4] ∧ st.base.next ≤ 2 ^ 64 := by
  obtain ⟨alloc, ha⟩ := exists_alloc
  obtain ⟨malloc, hm⟩ := exists_malloc (P := IntegerRing)
  have ns : (HVars.start : Act IntegerRing (HVars ℤ)).AtMost 1 := .bind .call (m := 0) fun _ => .bind0 .makeModule fun _ => .pure
  obtain ⟨w, r, h1, h2, -⟩ := can_run (gen := gen) ha hm ns (w := ⟨minit IntegerRing, ∅, ∅⟩) ⟨by simp, by simp⟩
  have h2 : w.st.base.next ≤ 2147483659 + 2 * 1 := h2
  have g0 : Good gen (⟨minit IntegerRing, ∅, ∅⟩ : World IntegerRing) := ⟨.init, by show 2147483659 ≤ 2 ^ 64; norm_num, by simp, by simp⟩
  obtain ⟨f, d⟩ := sim_start (R := ℤ) g0 w r h1 (by omega)
  cases r with
  | ok s =>
    have r0 := HRun.start (R := ℤ) .init h1
    have ng : ∀ (s : HVars ℤ) d l g, ((HCmd.call (.gen d .mk l g) : HCmd IntegerRing ℤ).exec s).AtMost 0 := fun s d l g =>
      .assign (.bind0 .makeModule fun _ => .bind0 .deref fun _ => .bind0 .look fun _ => .gen')
    obtain ⟨o1, s1, st1, r1, n1⟩ := extend_run r0 (c := .random 0 4) trivial (by simp) (by simp) (n := 1) (.assignNum .call) (by omega)
    obtain ⟨o2, s2, st2, r2, n2⟩ := extend_run r1 (c := .random 1 5) trivial (by simp) (by simp) (n := 1) (.assignNum .call) (by omega)
    -- another thread makes the number 3
    obtain ⟨g2, -⟩ := run_inv r2 (by omega)
    have hr := hands_run gen alloc st2.base (.rational 3)
    have r3 := r2.wait (w := ⟨{ st2 with base := (st2.base.rational alloc 3).1 }, s2.numSet, s2.modSet⟩)
      ⟨.step .refl ha hm (e := .base (.rational 3)) rfl, rfl, rfl, fun p hp => hr.2.1 p (g2.nums p hp), fun m hm => g2.mods m hm⟩
    have n3 : (st2.base.rational alloc 3).1.next ≤ st2.base.next + 2 := hr.1
    obtain ⟨o4, s4, st4, r4, n4⟩ := extend_run r3 (c := .call (.gen 0 .mk [0] 0)) (by simp [HCmd.Pre]) (by simp) (by simp) (n := 0) (ng _ _ _ _) (by
      show (st2.base.rational alloc 3).1.next + _ ≤ _; omega)
    have n4 : st4.base.next ≤ (st2.base.rational alloc 3).1.next + 2 * 0 := n4
    obtain ⟨o5, s5, st5, r5, n5⟩ := extend_run r4 (c := .call (.gen 1 .mk [1] 1)) (by simp [HCmd.Pre]) (by simp) (by simp) (n := 0) (ng _ _ _ _) (by omega)
    obtain ⟨o6, s6, st6, r6, n6⟩ := extend_run r5 (c := .call (.add 0 1)) trivial (by simp) (by simp) (n := 0) (.bind0 .addAssign fun _ => .pure) (by omega)
    exact ⟨_, s6, st6, r6, rfl, by omega⟩
  | _ => exact d.elim

end ExactReal.Props
