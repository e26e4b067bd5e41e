import Verif.Model.OrderHeap
import Verif.Lemma.ProgramHeap
import Verif.Lemma.CanRun
import Verif.Lemma.Element
import Verif.Lemma.Span

/-! # Approximations and the order in a running process -/

namespace ExactReal.Heap
open State MState

/-- The digits of a random number. -/
def AtomDesc.atom (gen : Generators) : AtomDesc → Atom
  | .random seed => .random (gen.digits seed)
  | .constrained initial e seed => .constrained (initial / 2 ^ e).num e (gen.digits seed)

/-- The leading digits are a multiple of `2^e`, which is so for the numbers that the library makes. -/
def AtomDesc.Regular : AtomDesc → Prop
  | .random _ => True
  | .constrained initial e _ => ∃ m : ℤ, initial = Arf.ofMantissaExponent m e

theorem AtomDesc.regular_of (seed : UInt32) (a : Atom) : (AtomDesc.of seed a).Regular := by
  cases a with
  | random d => trivial
  | constrained m e d => exact ⟨m, rfl⟩

theorem mantissa_num (m e : ℤ) : (Arf.ofMantissaExponent m e / 2 ^ e).num = m := by
  rw [Arf.ofMantissaExponent, mul_div_assoc, div_self (zpow_ne_zero _ (by norm_num)), mul_one, Rat.num_intCast]

theorem AtomDesc.value_atom (gen : Generators) {a : AtomDesc} (h : a.Regular) : (a.atom gen).value = a.value gen := by
  cases a with
  | random seed => rfl
  | constrained initial e seed =>
    obtain ⟨m, rfl⟩ := h
    simp only [AtomDesc.atom, AtomDesc.value, Atom.value, mantissa_num]
    simp [Arf.ofMantissaExponent]

variable {P : Type} [DecidableEq P] {gen : Generators}

/-- The atoms of a number are regular, and their digits are given by `A`. -/
def Reg (gen : Generators) (A : Atoms) (w : World P) (g : RN) : Prop :=
  ∀ i, g.mult i ≠ 0 → (descOfId w.st.base i).Regular ∧ A i = (descOfId w.st.base i).atom gen

theorem descOfId_later {s s' : State} (h : Inv s) (h' : Inv s') (hl : Later s s') {p : Ptr} (hp : (s.live p).isSome) (hp' : (s'.live p).isSome) {i : ℕ}
    (hi : (s.rn p).mult i ≠ 0) : descOfId s' i = descOfId s i := by
  obtain ⟨q, o, ho, hd, rfl⟩ := idOf_live h hp i hi
  have hr := (rn_later h h' hl hp hp').1
  obtain ⟨q', o', ho', hd', he⟩ := idOf_live h' hp' (s.idOf q) (by rw [hr]; exact hi)
  have e : q = q' := by
    rw [idOf_eq h (by simp [ho]), idOf_eq h' (by simp [ho'])] at he
    exact Nat.add_left_cancel he
  subst e
  have hdesc := (desc_later h h' hl (p := q) (by simp [ho]) (by simp [ho'])).2
  rw [desc_of_atom ho hd, desc_of_atom ho' hd'] at hdesc
  rw [he, descOfId_idOf h' (by simp [ho']), ← he, descOfId_idOf h (by simp [ho])]
  injection hdesc with hdesc
  exact (Finsupp.single_left_inj one_ne_zero).1 hdesc

theorem Reg.follows {A : Atoms} {w w' : World P} (h : Good gen w) (hf : Follows gen w w') {p : Ptr} {g : RN} (hp : IsNum w p g) (hr : Reg gen A w g) : Reg gen A w' g := by
  intro i hi
  rw [descOfId_later h.inv.base hf.good.inv.base hf.later.base (hp.held.live h) ((hp.held.follows h hf).live hf.good) (by rw [hp.rn]; exact hi)]
  exact hr i hi

/-! ### approximations of numbers -/

theorem arfFrom_eq (m e : ℤ) (d : Digits) (prec : ℕ) : arfFrom (Arf.ofMantissaExponent m e) e d prec = Atom.arfConstrained m e d prec := rfl

variable {A : Atoms} {w : World P}

theorem innerDigits_eq {s : State} {p : Ptr} {o : Obj} (ho : s.live p = some o) {seed : UInt32} (hd : o.data = .random seed) :
    s.innerDigits gen p = .ok (gen.digits seed) := by
  obtain ⟨a, i, d⟩ := o
  simp only at hd
  subst hd
  simp [State.innerDigits, ho]

theorem arfAtom_eq {s : State} (h : Inv s) {p : Ptr} {o : Obj} (ho : s.live p = some o) (hd : o.data.isAtom) (hr : (s.atomDesc p).Regular) (prec : ℕ) :
    s.arfAtom gen prec p = .ok (((s.atomDesc p).atom gen).arf prec) := by
  have hok := h.data_ok p o ho
  obtain ⟨a, i, d⟩ := o
  cases d with
  | rational q => exact hd.elim
  | product f hh => exact hd.elim
  | random seed => rw [atomDesc_random ho rfl]; simp [State.arfAtom, State.arfRandom, ho, AtomDesc.atom, Atom.arf]
  | constrained x e n =>
    obtain ⟨on, hn, t, ht⟩ := hok
    rw [atomDesc_constrained ho rfl, seedOf_random hn ht] at hr ⊢
    obtain ⟨m, rfl⟩ := hr
    simp only [State.arfAtom, ho, AtomDesc.atom, Atom.arf, mantissa_num]
    rw [innerDigits_eq hn ht]
    rfl

theorem prodLoop_eq {s : State} (h : Inv s) (v : ℕ) : ∀ (f : List (Ptr × ℕ)) (ret : ℚ), (∀ x ∈ f, ∃ o, s.live x.1 = some o ∧ o.data.isAtom) →
    (∀ x ∈ f, (s.atomDesc x.1).Regular ∧ A (s.idOf x.1) = (s.atomDesc x.1).atom gen) →
    s.prodLoop gen v ret f = .ok (ExactReal.prodLoop A v ret (s.toMono f)) := by
  intro f
  induction f with
  | nil => intro ret _ _; rfl
  | cons x f ih =>
    intro ret hl hr
    obtain ⟨p, n⟩ := x
    obtain ⟨o, ho, hd⟩ := hl (p, n) (by simp)
    obtain ⟨h1, h2⟩ := hr (p, n) (by simp)
    rw [State.prodLoop, arfAtom_eq h ho hd h1, Out.ok_bind, ih _ (fun x hx => hl x (by simp [hx])) fun x hx => hr x (by simp [hx])]
    simp only [ExactReal.prodLoop, State.toMono, List.map_cons, List.foldl_cons]
    rw [h2]

theorem mult_factor {s : State} {f : List (Ptr × ℕ)} (hw : (RN.prod (s.toMono f)).WF) {x : Ptr × ℕ} (hx : x ∈ f) : (s.toMono f).mult (s.idOf x.1) ≠ 0 := by
  have hm : (s.idOf x.1, x.2) ∈ s.toMono f := List.mem_map.2 ⟨x, hx, rfl⟩
  have hpos : x.2 ≠ 0 := by
    have := hw
    simp only [RN.WF] at this
    exact Nat.pos_iff_ne_zero.1 (this.1.pos (s.idOf x.1, x.2) hm)
  clear hx hw
  generalize s.toMono f = m at *
  induction m with
  | nil => simp at hm
  | cons a m ih =>
    rw [Mono.mult_cons, Finsupp.add_apply]
    rcases List.mem_cons.1 hm with h | h
    · subst h; simp [hpos]
    · have := ih h; omega

theorem arf_eq (h : Good gen w) {p : Ptr} {x : RN} (hp : IsNum w p x) (hr : Reg gen A w x) (prec : ℕ) : w.st.base.arf gen prec p = .ok (x.arf A prec) := by
  have hi := h.inv.base
  obtain ⟨o, ho⟩ := Option.isSome_iff_exists.1 (hp.held.live h)
  have hok := hi.data_ok p o ho
  have hrn := hp.rn
  obtain ⟨a, i, d⟩ := o
  have atomCase : d.isAtom → w.st.base.arfAtom gen prec p = .ok (x.arf A prec) := by
    intro hd
    rw [rn_atom ho hd] at hrn
    have hid : w.st.base.idOf p = i := by simp [State.idOf, ho]
    have hk := descOfId_idOf hi (hp.held.live h)
    rw [hid] at hk
    obtain ⟨h1, h2⟩ := hr i (by rw [← hrn]; simp [RN.mult])
    rw [hk] at h1 h2
    rw [arfAtom_eq hi ho hd h1, ← hrn, RN.arf, RN.arf_]
    show Out.ok _ = Out.ok ((A i).arf _)
    rw [h2]
    rfl
  cases d with
  | rational q =>
    rw [rn_rational ho rfl] at hrn
    simp only [State.arf, ho, ← hrn, RN.arf, RN.arf_]
    rfl
  | product f hh =>
    rw [rn_product ho rfl] at hrn
    simp only [State.arf, ho]
    rw [prodLoop_eq (A := A) hi _ f 1 hok.2.2 fun y hy => ?_, Out.ok_bind, ← hrn, RN.arf, RN.arf_]
    · simp only [State.toMono, List.map_map, Function.comp_def]
      rfl
    · obtain ⟨o', ho', -⟩ := hok.2.2 y hy
      have := hr (w.st.base.idOf y.1) (by rw [← hrn, RN.mult_prod]; exact mult_factor hok.2.1 hy)
      rwa [descOfId_idOf hi (by simp [ho'])] at this
  | random t => simpa [State.arf, ho] using atomCase trivial
  | constrained y e n => simpa [State.arf, ho] using atomCase trivial

theorem refine_eq (h : Good gen w) {p : Ptr} {x : RN} (hp : IsNum w p x) (hr : Reg gen A w x) (b : Ball) (prec : ℕ) :
    w.st.base.refine gen p b prec = .ok (x.refine A b prec) := by
  rw [State.refine, RN.refine]
  split
  · rfl
  · rw [arf_eq h hp hr, Out.ok_bind]

/-! ### simulations -/

/-- Equal results. -/
def Agree {α : Type} (_ : World P) (a b : α) : Prop := a = b

variable {γ δ : Type} {E : World P → γ → δ → Prop}

/-- Compute something and go on. -/
theorem sim_val {α : Type} {a : Act P α} {b : α} {f : α → Act P γ} {u : Out δ} (ha : Sim gen Agree w a (.ok b)) (hf : ∀ w', Follows gen w w' → Sim gen E w' (f b) u) :
    Sim gen E w (a >>= f) u := by
  refine sim_andThen ha fun w' r h1 h2 => ?_
  cases r with
  | ok c => obtain rfl : c = b := h2; exact hf w' h1
  | _ => exact h2.elim

theorem sim_refine (h : Good gen w) {p : Ptr} {x : RN} (hp : IsNum w p x) (hr : Reg gen A w x) (b : Ball) (prec : ℕ) :
    Sim gen Agree w (Num.refine gen p b prec) (.ok (x.refine A b prec)) :=
  sim_lookOut h fun w' f => by rw [refine_eq f.good (hp.follows h f) (hr.follows h f hp)]; rfl

theorem sim_arb (h : Good gen w) {p : Ptr} {x : RN} (hp : IsNum w p x) (hr : Reg gen A w x) (prec : ℕ) :
    Sim gen Agree w (Num.refine gen p Ball.zeroPmInf prec) (.ok (x.arb A prec)) := sim_refine h hp hr _ _

theorem sim_rational? (h : Good gen w) {p : Ptr} {x : RN} (hp : IsNum w p x) : Sim gen Agree w (Num.rational? p) (.ok x.rational?) := by
  refine sim_lookOut h fun w' f => ?_
  have hp' := hp.follows h f
  obtain ⟨⟨a, i, d⟩, ho⟩ := Option.isSome_iff_exists.1 (hp'.held.live f.good)
  rw [ho, ← hp'.rn]
  cases d with
  | rational q => rw [rn_rational ho rfl]; rfl
  | product g hh => rw [rn_product ho rfl]; rfl
  | random t => rw [rn_atom ho trivial]; rfl
  | constrained y e n => rw [rn_atom ho trivial]; rfl

theorem sim_numLtLoop {p q : Ptr} {x y : RN} : ∀ (fuel : ℕ) {w : World P} (prec : ℕ) (a b : Ball), Good gen w → IsNum w p x → Reg gen A w x → IsNum w q y → Reg gen A w y →
    Sim gen Agree w (Num.ltLoop gen p q fuel prec a b) (RN.ltLoop A x y fuel prec a b) := by
  intro fuel
  induction fuel with
  | zero => intro w prec a b h _ _ _ _; exact sim_ret h trivial
  | succ fuel ih =>
    intro w prec a b h hp hr hq hs
    rw [Num.ltLoop, RN.ltLoop]
    refine sim_val (sim_refine h hp hr a prec) fun w1 f1 => ?_
    refine sim_val (sim_refine f1.good (hq.follows h f1) (hs.follows h f1 hq) b prec) fun w2 f2 => ?_
    have f := f1.trans f2
    cases (x.refine A a prec).lt (y.refine A b prec) with
    | some r => exact sim_pure f.good rfl
    | none => exact ih _ _ _ f.good (hp.follows h f) (hr.follows h f hp) (hq.follows h f) (hs.follows h f hq)

theorem sim_numLt (fuel : ℕ) (h : Good gen w) {p q : Ptr} {x y : RN} (hp : IsNum w p x) (hr : Reg gen A w x) (hq : IsNum w q y) (hs : Reg gen A w y) :
    Sim gen Agree w (Num.lt gen fuel p q) (RN.ltRN A fuel x y) := by
  rw [Num.lt]
  refine sim_look h fun w' f => ?_
  rw [same_eq f.good (hp.held.follows h f) (hq.held.follows h f), (hp.follows h f).rn, (hq.follows h f).rn, RN.ltRN]
  by_cases hxy : x = y
  · simp only [hxy, decide_true, if_true]; exact sim_pure f.good rfl
  · simp only [hxy, decide_false, Bool.false_eq_true, if_false]
    exact sim_numLtLoop fuel 2 _ _ f.good (hp.follows h f) (hr.follows h f hp) (hq.follows h f) (hs.follows h f hq)

theorem sim_cmpQLoop (op : Ball → Option Bool) {p : Ptr} {x : RN} : ∀ (fuel : ℕ) {w : World P} (prec : ℕ), Good gen w → IsNum w p x → Reg gen A w x →
    Sim gen Agree w (Num.cmpQLoop gen p op fuel prec) (RN.cmpQLoop A x op fuel prec) := by
  intro fuel
  induction fuel with
  | zero => intro w prec h _ _; exact sim_ret h trivial
  | succ fuel ih =>
    intro w prec h hp hr
    rw [Num.cmpQLoop, RN.cmpQLoop]
    refine sim_val (sim_arb h hp hr prec) fun w1 f1 => ?_
    cases op (x.arb A prec) with
    | some r => exact sim_pure f1.good rfl
    | none => exact ih _ f1.good (hp.follows h f1) (hr.follows h f1 hp)

theorem sim_numLtQ (F : Arith) (fuel : ℕ) (h : Good gen w) {p : Ptr} {x : RN} (hp : IsNum w p x) (hr : Reg gen A w x) (q : ℚ) :
    Sim gen Agree w (Num.ltQ gen F fuel p q) (RN.ltQ A F fuel x q) ∧ Sim gen Agree w (Num.gtQ gen F fuel p q) (RN.gtQ A F fuel x q) := by
  constructor
  all_goals
    first | rw [Num.ltQ, RN.ltQ] | rw [Num.gtQ, RN.gtQ]
    refine sim_val (sim_rational? h hp) fun w1 f1 => ?_
    cases x.rational? with
    | some r => exact sim_pure f1.good rfl
    | none => exact sim_cmpQLoop _ fuel 64 f1.good (hp.follows h f1) (hr.follows h f1 hp)

/-! ### elements -/

variable {R : Type} [CommRing R] [DecidableEq R] [CRing P R] (F : Arith) (coeff : ℕ → R → Ball)

theorem sim_arbSum (prec : ℕ) : ∀ {w : World P} {l : List (Ptr × R)} {L : List (RN × R)} (ret : Ball), Good gen w → IsTerms w l L → (∀ t ∈ L, Reg gen A w t.1) →
    Sim gen Agree w (HElt.arbSum gen F coeff prec ret l) (.ok (Elt.arbSum A F coeff prec ret L)) := by
  intro w l
  induction l generalizing w with
  | nil => intro L ret h hl _; rw [hl.nil]; exact sim_pure h rfl
  | cons t l ih =>
    intro L ret h hl hr
    obtain ⟨g, c⟩ := t
    obtain ⟨x, L', rfl, hg, hl'⟩ : ∃ x L', L = (x, c) :: L' ∧ IsNum w g x ∧ IsTerms w l L' := by
      refine ⟨_, _, hl.rn.symm, ⟨hl.held (g, c) (by simp), rfl⟩, fun t ht => hl.held t (by simp [ht]), rfl⟩
    rw [HElt.arbSum, Elt.arbSum]
    refine sim_val (sim_arb h hg (hr (x, c) (by simp)) prec) fun w1 f1 => ?_
    refine ih _ f1.good (hl'.follows h f1) fun t ht => ?_
    have : t ∈ l.map fun t => (w.st.base.rn t.1, t.2) := by rw [hl'.rn]; exact ht
    obtain ⟨u, hu, rfl⟩ := List.mem_map.1 this
    exact (hr _ (List.mem_cons_of_mem _ ht)).follows h f1 ⟨hl'.held u hu, rfl⟩

/-- The terms of an element have digits given by `A`. -/
structure KTerms (gen : Generators) (A : Atoms) (w : World P) (l : List (Ptr × R)) (L : List (RN × R)) : Prop where
  terms : IsTerms w l L
  reg : ∀ t ∈ L, Reg gen A w t.1

theorem KTerms.follows {w w' : World P} (h : Good gen w) (f : Follows gen w w') {l : List (Ptr × R)} {L : List (RN × R)} (hl : KTerms gen A w l L) : KTerms gen A w' l L := by
  refine ⟨hl.terms.follows h f, fun t ht => ?_⟩
  have : t ∈ l.map fun t => (w.st.base.rn t.1, t.2) := by rw [hl.terms.rn]; exact ht
  obtain ⟨u, hu, rfl⟩ := List.mem_map.1 this
  exact (hl.reg _ ht).follows h f ⟨hl.terms.held u hu, rfl⟩

theorem sim_arbLoop (accuracy : ℕ) {l : List (Ptr × R)} {L : List (RN × R)} : ∀ (fuel : ℕ) {w : World P} (prec : ℕ), Good gen w → KTerms gen A w l L →
    Sim gen Agree w (HElt.arbLoop gen F coeff accuracy l fuel prec) (Elt.arbLoop A F coeff accuracy L fuel prec) := by
  intro fuel
  induction fuel with
  | zero => intro w prec h _; exact sim_ret h trivial
  | succ fuel ih =>
    intro w prec h hl
    rw [HElt.arbLoop, Elt.arbLoop]
    refine sim_val (sim_arbSum F coeff prec (Ball.exact 0) h hl.terms hl.reg) fun w1 f1 => ?_
    split
    · exact sim_pure f1.good rfl
    · exact ih _ f1.good (hl.follows h f1)

/-- An element whose generators have digits given by `A`. -/
structure KElt (gen : Generators) (A : Atoms) (w : World P) (x : HElt R) (X : Elt P R) : Prop where
  elt : IsElt w x X
  reg : ∀ g ∈ X.mod.basis, Reg gen A w g

theorem KElt.gen_num {x : HElt R} {X : Elt P R} (hx : KElt gen A w x X) {g : RN} (hg : g ∈ X.mod.basis) : ∃ p, IsNum w p g := by
  obtain ⟨o, ho, -, hb⟩ := hx.elt.mod.obj
  rw [← hb] at hg
  obtain ⟨p, hp, rfl⟩ := List.mem_map.1 hg
  exact ⟨p, ((hx.elt.mod.isObj ho).basis.held p hp), rfl⟩

theorem KElt.follows {w w' : World P} (h : Good gen w) (f : Follows gen w w') {x : HElt R} {X : Elt P R} (hx : KElt gen A w x X) : KElt gen A w' x X := by
  refine ⟨hx.elt.follows h f, fun g hg => ?_⟩
  obtain ⟨p, hp⟩ := hx.gen_num hg
  exact (hx.reg g hg).follows h f hp

theorem sim_eltArb (fuel accuracy : ℕ) (h : Good gen w) {x : HElt R} {X : Elt P R} (hx : KElt gen A w x X) :
    Sim gen Agree w (x.arb gen F coeff fuel accuracy) (X.arb A F coeff fuel accuracy) := by
  rw [HElt.arb, Elt.arb, hx.elt.toBool]
  split
  · exact sim_pure h rfl
  · refine sim_deref h hx.elt.mod fun w' o f ho => ?_
    have hl : o.basis.length = X.mod.basis.length := by rw [← ho.basis.rn, List.length_map]
    have ht := ho.terms X.coeffs
    rw [hl, hx.elt.coeffs]
    refine sim_arbLoop F coeff accuracy fuel _ f.good ⟨ht, fun t ht => ?_⟩
    exact (hx.follows h f).reg _ (List.of_mem_zip ht).1

theorem sim_eltRational? (h : Good gen w) {x : HElt R} {X : Elt P R} (hx : IsElt w x X) : Sim gen Agree w (x.rational? (P := P)) (.ok X.rational?) := by
  rw [HElt.rational?]
  refine sim_deref h hx.mod fun w' o f ho => ?_
  refine sim_lookOut f.good fun w'' f' => ?_
  show _ = _
  rw [Elt.rational?, Elt.terms, ← (ho.basis.follows f.good f').rn, hx.coeffs]

theorem sim_eltInteger? (h : Good gen w) {x : HElt R} {X : Elt P R} (hx : IsElt w x X) : Sim gen Agree w (x.integer? (P := P)) (.ok X.integer?) := by
  rw [HElt.integer?, Elt.integer?]
  refine sim_val (sim_eltRational? h hx) fun w1 f1 => ?_
  cases X.rational? with
  | some q => exact sim_pure f1.good rfl
  | none => exact sim_pure f1.good rfl

theorem eqRNLoop_eq (h : Good gen w) {p : Ptr} {y : RN} (hp : IsNum w p y) : ∀ {l : List (Ptr × R)} {L : List (RN × R)}, IsTerms w l L →
    HElt.eqRNLoop w.st.base p l = Elt.eqRNLoop y L := by
  intro l
  induction l with
  | nil => intro L hl; rw [hl.nil]; rfl
  | cons t l ih =>
    intro L hl
    obtain ⟨g, c⟩ := t
    obtain ⟨L', rfl, hl'⟩ : ∃ L', L = (w.st.base.rn g, c) :: L' ∧ IsTerms w l L' :=
      ⟨_, hl.rn.symm, fun t ht => hl.held t (by simp [ht]), rfl⟩
    rw [HElt.eqRNLoop, Elt.eqRNLoop, same_eq h (hl.held (g, c) (by simp)) hp.held, hp.rn, ih hl']
    by_cases hg : w.st.base.rn g = y <;> simp [hg]

theorem sim_eqRN [Build] (h : Good gen w) {x : HElt R} {X : Elt P R} (hx : IsElt w x X) {p : Ptr} {y : RN} (hp : IsNum w p y) :
    Sim gen Agree w (x.eqRN (P := P) p) (X.eqRN y) := by
  rw [HElt.eqRN, Elt.eqRN, hx.toBool]
  split
  · refine sim_val (sim_rational? h hp) fun w1 f1 => ?_
    refine sim_pure f1.good ?_
    show _ = _
    rw [RN.toBool]
    cases y.rational? <;> simp
  · refine sim_deref h hx.mod fun w' o f ho => ?_
    refine sim_look f.good fun w'' f' => ?_
    have ho' := ho.follows f.good f'
    have hp' := hp.follows h (f.trans f')
    have e : (o.basis.any fun g => w''.st.base.same g p) = X.mod.basis.any fun g => g = y := by
      rw [any_same f'.good ho'.basis hp'.held, hp'.rn]
    rw [e]
    refine sim_out f'.good fun _ _ => ?_
    refine sim_lookOut f'.good fun w3 f3 => ?_
    show _ = _
    rw [hx.coeffs, eqRNLoop_eq f3.good (hp'.follows f'.good f3) ((ho'.follows f'.good f3).terms X.coeffs)]
    rfl

theorem sim_ltLoop {op : ℕ → Ball → Act P (Option Bool)} {op' : ℕ → Ball → Out (Option Bool)} {self : ℕ → Act P Ball} {self' : ℕ → Out Ball} {C : World P → Prop}
    (hC : ∀ w w', Good gen w → C w → Follows gen w w' → C w')
    (hop : ∀ w prec b, Good gen w → C w → Sim gen Agree w (op prec b) (op' prec b)) (hself : ∀ w prec, Good gen w → C w → Sim gen Agree w (self prec) (self' prec)) :
    ∀ (fuel : ℕ) {w : World P} (prec : ℕ), Good gen w → C w → Sim gen Agree w (HElt.ltLoop op self fuel prec) (Elt.ltLoop op' self' fuel prec) := by
  intro fuel
  induction fuel with
  | zero => intro w prec h _; exact sim_ret h trivial
  | succ fuel ih =>
    intro w prec h hc
    rw [HElt.ltLoop, Elt.ltLoop]
    refine sim_bind (hself w prec h hc) fun w1 a1 b1 f1 e1 _ => ?_
    obtain rfl := e1
    refine sim_bind (hop w1 prec a1 f1.good (hC w w1 h hc f1)) fun w2 a2 b2 f2 e2 _ => ?_
    obtain rfl := e2
    cases a2 with
    | some r => exact sim_pure f2.good rfl
    | none => exact ih _ f2.good (hC w w2 h hc (f1.trans f2))

theorem sim_lt [Build] (fuel : ℕ) (h : Good gen w) {x y : HElt R} {X Y : Elt P R} (hx : KElt gen A w x X) (hy : KElt gen A w y Y) :
    Sim gen Agree w (x.lt (P := P) gen F coeff fuel y) (Elt.lt A F coeff fuel X Y) := by
  rw [HElt.lt, Elt.lt]
  refine sim_bind (sim_eq h hx.elt hy.elt) fun w1 a1 b1 f1 e1 _ => ?_
  obtain rfl := e1
  cases a1 with
  | true => exact sim_pure f1.good rfl
  | false =>
    simp only [Bool.false_eq_true, if_false]
    refine sim_ltLoop (C := fun w => KElt gen A w x X ∧ KElt gen A w y Y) (fun w w' g hc f => ⟨hc.1.follows g f, hc.2.follows g f⟩) (fun w prec b g hc => ?_)
      (fun w prec g hc => sim_eltArb F coeff fuel prec g hc.1) fuel 64 f1.good ⟨hx.follows h f1, hy.follows h f1⟩
    refine sim_bind (sim_eltArb F coeff fuel prec g hc.2) fun w2 a2 b2 f2 e2 _ => ?_
    obtain rfl := e2
    exact sim_pure f2.good rfl

theorem sim_ltRN [Build] (fuel : ℕ) (h : Good gen w) {x : HElt R} {X : Elt P R} (hx : KElt gen A w x X) {p : Ptr} {y : RN} (hp : IsNum w p y) (hr : Reg gen A w y) :
    Sim gen Agree w (x.ltRN (P := P) gen F coeff fuel p) (Elt.ltRN A F coeff fuel X y) := by
  rw [HElt.ltRN, Elt.ltRN]
  refine sim_bind (sim_eqRN h hx.elt hp) fun w1 a1 b1 f1 e1 _ => ?_
  obtain rfl := e1
  cases a1 with
  | true => exact sim_pure f1.good rfl
  | false =>
    simp only [Bool.false_eq_true, if_false]
    refine sim_ltLoop (C := fun w => KElt gen A w x X ∧ IsNum w p y ∧ Reg gen A w y)
      (fun w w' g hc f => ⟨hc.1.follows g f, hc.2.1.follows g f, hc.2.2.follows g f hc.2.1⟩) (fun w prec b g hc => ?_)
      (fun w prec g hc => sim_eltArb F coeff fuel prec g hc.1) fuel 64 f1.good ⟨hx.follows h f1, hp.follows h f1, hr.follows h f1 hp⟩
    refine sim_val (sim_arb g hc.2.1 hc.2.2 prec) fun w2 f2 => ?_
    exact sim_pure f2.good rfl

theorem sim_ltQ (fuel : ℕ) (h : Good gen w) {x : HElt R} {X : Elt P R} (hx : KElt gen A w x X) (q : ℚ) :
    Sim gen Agree w (x.ltQ (P := P) gen F coeff fuel q) (Elt.ltQ A F coeff fuel X q) := by
  rw [HElt.ltQ, Elt.ltQ, Elt.eqQ]
  refine sim_val (sim_eltRational? h hx.elt) fun w1 f1 => ?_
  by_cases hq : X.rational? = some q
  · simp only [hq, decide_true, if_true]; exact sim_pure f1.good rfl
  · simp only [hq, decide_false, Bool.false_eq_true, if_false]
    exact sim_ltLoop (C := fun w => KElt gen A w x X) (fun w w' g hc f => hc.follows g f) (fun w prec b g hc => sim_pure g rfl)
      (fun w prec g hc => sim_eltArb F coeff fuel prec g hc) fuel 64 f1.good (hx.follows h f1)

theorem sim_ltZ (fuel : ℕ) (h : Good gen w) {x : HElt R} {X : Elt P R} (hx : KElt gen A w x X) (n : ℤ) :
    Sim gen Agree w (x.ltZ (P := P) gen F coeff fuel n) (Elt.ltZ A F coeff fuel X n) := by
  rw [HElt.ltZ, Elt.ltZ, Elt.eqZ, Elt.eqQ]
  refine sim_val (sim_eltRational? h hx.elt) fun w1 f1 => ?_
  by_cases hq : X.rational? = some (n : ℚ)
  · simp only [hq, decide_true, if_true]; exact sim_pure f1.good rfl
  · simp only [hq, decide_false, Bool.false_eq_true, if_false]
    exact sim_ltLoop (C := fun w => KElt gen A w x X) (fun w w' g hc f => hc.follows g f) (fun w prec b g hc => sim_pure g rfl)
      (fun w prec g hc => sim_eltArb F coeff fuel prec g hc) fuel 64 f1.good (hx.follows h f1)

theorem sim_gtZ (fuel : ℕ) (h : Good gen w) {x : HElt R} {X : Elt P R} (hx : KElt gen A w x X) (n : ℤ) :
    Sim gen Agree w (x.gtZ (P := P) gen F coeff fuel n) (Elt.gtZ A F coeff fuel X n) := by
  rw [HElt.gtZ, Elt.gtZ, Elt.gtOf, Elt.eqZ, Elt.eqQ, Out.ok_bind]
  refine sim_val (sim_eltRational? h hx.elt) fun w1 f1 => ?_
  by_cases hq : X.rational? = some (n : ℚ)
  · simp only [hq, decide_true, if_true]; exact sim_pure f1.good rfl
  · simp only [hq, decide_false, Bool.false_eq_true, if_false]
    refine sim_bind (sim_ltZ F coeff fuel f1.good (hx.follows h f1) n) fun w2 a2 b2 f2 e2 _ => ?_
    obtain rfl := e2
    exact sim_pure f2.good rfl

theorem sim_roundLoop (round : ℚ → ℤ) {self : ℕ → Act P Ball} {self' : ℕ → Out Ball} {C : World P → Prop} (hC : ∀ w w', Good gen w → C w → Follows gen w w' → C w')
    (hself : ∀ w prec, Good gen w → C w → Sim gen Agree w (self prec) (self' prec)) :
    ∀ (fuel : ℕ) {w : World P} (prec : ℕ), Good gen w → C w → Sim gen Agree w (HElt.roundLoop round self fuel prec) (Elt.roundLoop round self' fuel prec) := by
  intro fuel
  induction fuel with
  | zero => intro w prec h _; exact sim_ret h trivial
  | succ fuel ih =>
    intro w prec h hc
    rw [HElt.roundLoop, Elt.roundLoop]
    refine sim_bind (hself w prec h hc) fun w1 a1 b1 f1 e1 _ => ?_
    obtain rfl := e1
    refine sim_out f1.good fun y _ => ?_
    dsimp only
    split
    · exact sim_pure f1.good rfl
    · exact ih _ f1.good (hC w w1 h hc f1)

theorem sim_floor (fuel : ℕ) (h : Good gen w) {x : HElt R} {X : Elt P R} (hx : KElt gen A w x X) :
    Sim gen Agree w (x.floor (P := P) gen F coeff fuel) (X.floor A F coeff fuel) ∧ Sim gen Agree w (x.ceil (P := P) gen F coeff fuel) (X.ceil A F coeff fuel) := by
  constructor
  all_goals
    first | rw [HElt.floor, Elt.floor] | rw [HElt.ceil, Elt.ceil]
    refine sim_val (sim_eltInteger? h hx.elt) fun w1 f1 => ?_
    cases X.integer? with
    | some n => exact sim_pure f1.good rfl
    | none => exact sim_roundLoop _ (C := fun w => KElt gen A w x X) (fun w w' g hc f => hc.follows g f) (fun w prec g hc => sim_eltArb F coeff fuel prec g hc) fuel 64 f1.good (hx.follows h f1)

theorem sim_doubleLoop {self : ℕ → Act P Ball} {self' : ℕ → Out Ball} {C : World P → Prop} (hC : ∀ w w', Good gen w → C w → Follows gen w w' → C w')
    (hself : ∀ w prec, Good gen w → C w → Sim gen Agree w (self prec) (self' prec)) :
    ∀ (fuel : ℕ) {w : World P} (prec : ℕ), Good gen w → C w → Sim gen Agree w (HElt.doubleLoop self fuel prec) (Elt.doubleLoop self' fuel prec) := by
  intro fuel
  induction fuel with
  | zero => intro w prec h _; exact sim_ret h trivial
  | succ fuel ih =>
    intro w prec h hc
    rw [HElt.doubleLoop, Elt.doubleLoop]
    refine sim_bind (hself w prec h hc) fun w1 a1 b1 f1 e1 _ => ?_
    obtain rfl := e1
    refine sim_out f1.good fun y _ => ?_
    dsimp only
    split
    · exact sim_pure f1.good rfl
    · exact ih _ f1.good (hC w w1 h hc f1)

theorem sim_toDouble (fuel : ℕ) (h : Good gen w) {x : HElt R} {X : Elt P R} (hx : KElt gen A w x X) :
    Sim gen Agree w (x.toDouble (P := P) gen F coeff fuel) (X.toDouble A F coeff fuel) := by
  rw [HElt.toDouble, Elt.toDouble]
  refine sim_val (sim_eltRational? h hx.elt) fun w1 f1 => ?_
  cases X.rational? with
  | some n => exact sim_pure f1.good rfl
  | none => exact sim_doubleLoop (C := fun w => KElt gen A w x X) (fun w w' g hc f => hc.follows g f) (fun w prec g hc => sim_eltArb F coeff fuel prec g hc) fuel 55 f1.good (hx.follows h f1)

theorem sim_floordivLoop {self rhs : ℕ → Act P Ball} {self' rhs' : ℕ → Out Ball} {C : World P → Prop} (hC : ∀ w w', Good gen w → C w → Follows gen w w' → C w')
    (hself : ∀ w prec, Good gen w → C w → Sim gen Agree w (self prec) (self' prec)) (hrhs : ∀ w prec, Good gen w → C w → Sim gen Agree w (rhs prec) (rhs' prec)) :
    ∀ (fuel : ℕ) {w : World P} (prec : ℕ), Good gen w → C w → Sim gen Agree w (HElt.floordivLoop F self rhs fuel prec) (Elt.floordivLoop F self' rhs' fuel prec) := by
  intro fuel
  induction fuel with
  | zero => intro w prec h _; exact sim_ret h trivial
  | succ fuel ih =>
    intro w prec h hc
    rw [HElt.floordivLoop, Elt.floordivLoop]
    refine sim_bind (hrhs w prec h hc) fun w1 a1 b1 f1 e1 _ => ?_
    obtain rfl := e1
    rcases a1.ne (Ball.exact 0) with _ | _ | _
    · exact ih _ f1.good (hC w w1 h hc f1)
    · exact sim_ret f1.good trivial
    · refine sim_bind (hself w1 prec f1.good (hC w w1 h hc f1)) fun w2 a2 b2 f2 e2 _ => ?_
      obtain rfl := e2
      refine sim_out f2.good fun y _ => ?_
      dsimp only
      split
      · exact sim_pure f2.good rfl
      · exact ih _ f2.good (hC w w2 h hc (f1.trans f2))

theorem sim_floordivSame (fuel : ℕ) (h : Good gen w) {x y : HElt R} {X Y : Elt P R} (hx : KElt gen A w x X) (hy : KElt gen A w y Y) :
    Sim gen Agree w (x.floordivSame (P := P) gen F coeff fuel y) (X.floordivSame A F coeff fuel Y) := by
  rw [HElt.floordivSame, Elt.floordivSame, hx.elt.toBool, hx.elt.coeffs, hy.elt.coeffs]
  by_cases hb : (!X.toBool) = true
  · rw [if_pos hb, if_pos hb]; exact sim_pure h rfl
  · rw [if_neg hb, if_neg hb]
    cases Elt.exactLoop P none (X.coeffs.zip Y.coeffs) with
    | some n => exact sim_pure h rfl
    | none => exact sim_floordivLoop F (C := fun w => KElt gen A w x X ∧ KElt gen A w y Y) (fun w w' g hc f => ⟨hc.1.follows g f, hc.2.follows g f⟩) (fun w prec g hc => sim_eltArb F coeff fuel prec g hc.1) (fun w prec g hc => sim_eltArb F coeff fuel prec g hc.2) fuel 64 h ⟨hx, hy⟩

theorem sim_floordiv [LawfulCRing P] [Build] (fuel : ℕ) (h : Good gen w) {x y : HElt R} {X Y : Elt P R} (hx : KElt gen A w x X) (hy : KElt gen A w y Y) (wx : X.WF) (wy : Y.WF) :
    Sim gen Agree w (x.floordiv (P := P) gen F coeff fuel y) (X.floordiv A F coeff fuel Y) := by
  rw [HElt.floordiv, Elt.floordiv, hx.elt.toBool]
  split
  · exact sim_pure h rfl
  · refine sim_look h fun w' f => ?_
    have hx' := hx.follows h f
    have hy' := hy.follows h f
    rw [sameModule_eq f.good hx'.elt.mod hy'.elt.mod]
    by_cases hm : X.mod = Y.mod
    · simp only [hm, decide_true, if_true, ne_eq, not_true, if_false]
      exact sim_floordivSame F coeff fuel f.good hx' hy'
    · simp only [hm, decide_false, Bool.false_eq_true, if_false, ne_eq, not_false_eq_true, if_true]
      refine sim_bind (sim_span f.good hx'.elt.mod hy'.elt.mod) fun w2 m M f2 e2 v2 => ?_
      have hreg : ∀ w3, Follows gen w2 w3 → ∀ g ∈ M.basis, Reg gen A w3 g := by
        intro w3 f3 g hg
        have f4 := f2.trans f3
        rcases ((Mod.span_ok (R := R) wx.mod wy.mod v2).2.1 g).1 hg with hg | hg
        · exact (hx'.follows f.good f4).reg g hg
        · exact (hy'.follows f.good f4).reg g hg
      refine sim_bind (sim_promote f2.good (hx'.elt.follows f.good f2) e2) fun w3 x1 X1 f3 e3 v3 => ?_
      refine sim_bind (sim_promote f3.good (hy'.elt.follows f.good (f2.trans f3)) (e2.follows f2.good f3)) fun w4 y1 Y1 f4 e4 v4 => ?_
      obtain ⟨X2, h1, -, mX, -⟩ := Elt.promote_span_left wx wy.mod v2
      obtain ⟨Y2, h2, -, mY, -⟩ := Elt.promote_span_right wx.mod wy v2
      rw [v3] at h1; cases h1
      rw [v4] at h2; cases h2
      exact sim_floordivSame F coeff fuel f4.good ⟨e3.follows f3.good f4, fun g hg => hreg w4 (f3.trans f4) g (mX ▸ hg)⟩ ⟨e4, fun g hg => hreg w4 (f3.trans f4) g (mY ▸ hg)⟩

/-! ### questions do not make numbers -/

namespace Act.AtMost
theorem refine' {p : Ptr} {b : Ball} {prec : ℕ} : (Num.refine gen p b prec : Act P _).AtMost 0 := look

theorem numLtLoop {p q : Ptr} (fuel : ℕ) : ∀ (prec : ℕ) (a b : Ball), (Num.ltLoop gen p q fuel prec a b : Act P _).AtMost 0 := by
  induction fuel with
  | zero => intro _ _ _; exact .ret
  | succ n ih => intro _ _ _; exact bind0 refine' fun _ => bind0 refine' fun _ => (by split <;> first | exact pure | exact (ih _ _ _))

theorem numLt {p q : Ptr} {fuel : ℕ} : (Num.lt gen fuel p q : Act P _).AtMost 0 := bind0 look fun _ => ite pure (numLtLoop fuel _ _ _)

theorem cmpQLoop {p : Ptr} {op : Ball → Option Bool} (fuel : ℕ) : ∀ prec : ℕ, (Num.cmpQLoop gen p op fuel prec : Act P _).AtMost 0 := by
  induction fuel with
  | zero => intro _; exact .ret
  | succ n ih => intro _; exact bind0 refine' fun _ => (by split <;> first | exact pure | exact (ih _))

theorem numLtQ {p : Ptr} {q : ℚ} {fuel : ℕ} : (Num.ltQ gen F fuel p q : Act P _).AtMost 0 := bind0 look fun _ => (by split <;> first | exact pure | exact (cmpQLoop fuel _))
theorem numGtQ {p : Ptr} {q : ℚ} {fuel : ℕ} : (Num.gtQ gen F fuel p q : Act P _).AtMost 0 := bind0 look fun _ => (by split <;> first | exact pure | exact (cmpQLoop fuel _))

variable {F coeff} {x y : HElt R}

theorem arbSum {prec : ℕ} : ∀ (l : List (Ptr × R)) (ret : Ball), (HElt.arbSum gen F coeff prec ret l : Act P _).AtMost 0 := by
  intro l
  induction l with
  | nil => intro _; exact pure
  | cons t l ih => intro _; exact bind0 refine' fun _ => ih _

theorem arbLoop {accuracy : ℕ} {l : List (Ptr × R)} (fuel : ℕ) : ∀ prec : ℕ, (HElt.arbLoop gen F coeff accuracy l fuel prec : Act P _).AtMost 0 := by
  induction fuel with
  | zero => intro _; exact .ret
  | succ n ih => intro _; exact bind0 (arbSum _ _) fun _ => ite pure (ih _)

theorem eltArb {fuel accuracy : ℕ} : (x.arb gen F coeff fuel accuracy : Act P _).AtMost 0 := ite pure (bind0 deref fun _ => arbLoop fuel _)

theorem ltLoop {op : ℕ → Ball → Act P (Option Bool)} {self : ℕ → Act P Ball} (hop : ∀ n b, (op n b).AtMost 0) (hs : ∀ n, (self n).AtMost 0) (fuel : ℕ) :
    ∀ prec : ℕ, (HElt.ltLoop op self fuel prec).AtMost 0 := by
  induction fuel with
  | zero => intro _; exact .ret
  | succ n ih => intro _; exact bind0 (hs _) fun _ => bind0 (hop _ _) fun _ => (by split <;> first | exact pure | exact (ih _))

theorem eltRational : (x.rational? : Act P _).AtMost 0 := bind0 deref fun _ => look
theorem eltInteger : (x.integer? : Act P _).AtMost 0 := bind0 eltRational fun _ => (by split <;> first | exact pure | exact pure)
theorem eqRN [Build] {p : Ptr} : (x.eqRN p : Act P _).AtMost 0 :=
  ite (bind0 look fun _ => pure) (bind0 deref fun _ => bind0 look fun _ => bind0 .ret fun _ => look)
theorem eq' [Build] : (x.eq y : Act P _).AtMost 0 :=
  bind0 look fun _ => ite pure (bind0 span fun _ => bind0 promote fun _ => bind0 promote fun _ => pure)
theorem lt' [Build] {fuel : ℕ} : (x.lt gen F coeff fuel y : Act P _).AtMost 0 :=
  bind0 eq' fun _ => ite pure (ltLoop (fun _ _ => bind0 eltArb fun _ => pure) (fun _ => eltArb) _ _)
theorem ltRN [Build] {fuel : ℕ} {p : Ptr} : (x.ltRN gen F coeff fuel p : Act P _).AtMost 0 :=
  bind0 eqRN fun _ => ite pure (ltLoop (fun _ _ => bind0 refine' fun _ => pure) (fun _ => eltArb) _ _)
theorem ltQ {fuel : ℕ} {q : ℚ} : (x.ltQ gen F coeff fuel q : Act P _).AtMost 0 :=
  bind0 eltRational fun _ => ite pure (ltLoop (fun _ _ => pure) (fun _ => eltArb) _ _)
theorem ltZ {fuel : ℕ} {n : ℤ} : (x.ltZ gen F coeff fuel n : Act P _).AtMost 0 :=
  bind0 eltRational fun _ => ite pure (ltLoop (fun _ _ => pure) (fun _ => eltArb) _ _)
theorem gtZ {fuel : ℕ} {n : ℤ} : (x.gtZ gen F coeff fuel n : Act P _).AtMost 0 :=
  bind0 eltRational fun _ => ite pure (bind0 ltZ fun _ => pure)

theorem roundLoop {round : ℚ → ℤ} {self : ℕ → Act P Ball} (hs : ∀ n, (self n).AtMost 0) (fuel : ℕ) : ∀ prec : ℕ, (HElt.roundLoop round self fuel prec).AtMost 0 := by
  induction fuel with
  | zero => intro _; exact .ret
  | succ n ih => intro _; exact bind0 (hs _) fun _ => bind0 .ret fun _ => ite pure (ih _)

theorem floor {fuel : ℕ} : (x.floor gen F coeff fuel : Act P _).AtMost 0 := bind0 eltInteger fun _ => (by split <;> first | exact pure | exact (roundLoop (fun _ => eltArb) _ _))
theorem ceil {fuel : ℕ} : (x.ceil gen F coeff fuel : Act P _).AtMost 0 := bind0 eltInteger fun _ => (by split <;> first | exact pure | exact (roundLoop (fun _ => eltArb) _ _))

theorem doubleLoop {self : ℕ → Act P Ball} (hs : ∀ n, (self n).AtMost 0) (fuel : ℕ) : ∀ prec : ℕ, (HElt.doubleLoop self fuel prec).AtMost 0 := by
  induction fuel with
  | zero => intro _; exact .ret
  | succ n ih => intro _; exact bind0 (hs _) fun _ => bind0 .ret fun _ => ite pure (ih _)

theorem toDouble {fuel : ℕ} : (x.toDouble gen F coeff fuel : Act P _).AtMost 0 := bind0 eltRational fun _ => (by split <;> first | exact pure | exact (doubleLoop (fun _ => eltArb) _ _))

theorem floordivLoop {self rhs : ℕ → Act P Ball} (hs : ∀ n, (self n).AtMost 0) (hr : ∀ n, (rhs n).AtMost 0) (fuel : ℕ) :
    ∀ prec : ℕ, (HElt.floordivLoop F self rhs fuel prec).AtMost 0 := by
  induction fuel with
  | zero => intro _; exact .ret
  | succ n ih =>
    intro _
    refine bind0 (hr _) fun b => ?_
    rcases b.ne (Ball.exact 0) with _ | _ | _
    · exact ih _
    · exact .ret
    · exact bind0 (hs _) fun _ => bind0 .ret fun _ => ite pure (ih _)

theorem floordivSame {fuel : ℕ} : (x.floordivSame gen F coeff fuel y : Act P _).AtMost 0 :=
  ite pure ((by split <;> first | exact pure | exact (floordivLoop (fun _ => eltArb) (fun _ => eltArb) _ _)))
theorem floordiv [Build] {fuel : ℕ} : (x.floordiv gen F coeff fuel y : Act P _).AtMost 0 :=
  ite pure (bind0 look fun _ => ite floordivSame (bind0 span fun _ => bind0 promote fun _ => bind0 promote fun _ => floordivSame))

end Act.AtMost

end ExactReal.Heap
