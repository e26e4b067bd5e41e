import Verif.Lemma.World

/-! # The functions on objects do what the functions on values do -/

namespace ExactReal.Heap
open State MState

variable {P : Type} [DecidableEq P] {gen : Generators} {w : World P}

/-! ### comparisons -/

theorem same_eq (h : Good gen w) {p q : Ptr} (hp : Held w p) (hq : Held w q) : w.st.base.same p q = decide (w.st.base.rn p = w.st.base.rn q) := by
  rw [State.same]
  congr 1
  rw [addrOf_eq_iff h.inv.base (hp.live h) (hq.live h)]
  exact propext ⟨fun e => by rw [e], fun e => rn_inj h.inv.base (hp.live h) (hq.live h) e⟩

theorem map_rn_inj (h : Good gen w) {l l' : List Ptr} (hl : ∀ p ∈ l, Held w p) (hl' : ∀ p ∈ l', Held w p)
    (he : l.map w.st.base.rn = l'.map w.st.base.rn) : l = l' := by
  induction l generalizing l' with
  | nil => cases l' with
    | nil => rfl
    | cons a l' => simp at he
  | cons a l ih => cases l' with
    | nil => simp at he
    | cons b l' =>
      simp only [List.map_cons, List.cons.injEq] at he
      rw [rn_inj h.inv.base ((hl a (by simp)).live h) ((hl' b (by simp)).live h) he.1,
        ih (fun p hp => hl p (by simp [hp])) (fun p hp => hl' p (by simp [hp])) he.2]

theorem sameModule_eq (h : Good gen w) {m n : Ptr} {M N : Mod P} (hm : IsMod w m M) (hn : IsMod w n N) :
    w.st.sameModule m n = decide (M = N) := by
  rw [MState.sameModule]
  congr 1
  obtain ⟨o, h1, h2, h3⟩ := hm.obj
  obtain ⟨o', h1', h2', h3'⟩ := hn.obj
  rw [h1, h1']
  simp only [Option.map_some, Option.some.injEq, eq_iff_iff]
  constructor
  · intro e
    obtain rfl := h.inv.addr_inj m o n o' h1 h1' e
    rw [h1] at h1'
    obtain rfl := Option.some.inj h1'
    cases M; cases N
    simp_all
  · rintro rfl
    obtain rfl := h.inv.data_inj m o n o' h1 h1' (h2.trans h2'.symm)
      (map_rn_inj h (hm.isObj h1).basis.held (hn.isObj h1').basis.held (h3.trans h3'.symm))
    rw [h1] at h1'
    obtain rfl := Option.some.inj h1'
    rfl

theorem any_congr' {α : Type} {l : List α} {f g : α → Bool} (h : ∀ a ∈ l, f a = g a) : l.any f = l.any g := by
  induction l with
  | nil => rfl
  | cons a l ih => rw [List.any_cons, List.any_cons, h a (by simp), ih fun b hb => h b (by simp [hb])]

theorem all_congr' {α : Type} {l : List α} {f g : α → Bool} (h : ∀ a ∈ l, f a = g a) : l.all f = l.all g := by
  induction l with
  | nil => rfl
  | cons a l ih => rw [List.all_cons, List.all_cons, h a (by simp), ih fun b hb => h b (by simp [hb])]

theorem any_same (h : Good gen w) {l : List Ptr} {L : List RN} (hl : IsNums w l L) {p : Ptr} (hp : Held w p) :
    (l.any fun q => w.st.base.same q p) = L.any fun y => y = w.st.base.rn p := by
  rw [← hl.rn, List.any_map]
  refine any_congr' fun q hq => ?_
  rw [same_eq h (hl.held q hq) hp]
  rfl

theorem same_comm (s : State) (p q : Ptr) : s.same p q = s.same q p := by
  rw [State.same, State.same]; congr 1; exact propext eq_comm

theorem submodule_eq (h : Good gen w) {l l' : List Ptr} {L L' : List RN} (hl : IsNums w l L) (hl' : IsNums w l' L') :
    submodule w.st.base l l' = L.all fun g => L'.any fun s => g = s := by
  rw [submodule, ← hl.rn, List.all_map]
  refine all_congr' fun q hq => ?_
  simp only [same_comm _ q]
  rw [any_same h hl' (hl.held q hq)]
  simp [eq_comm]

theorem extend_spec (h : Good gen w) {l' : List Ptr} : ∀ {l : List Ptr} {L L' : List RN}, IsNums w l L → IsNums w l' L' →
    IsNums w (extend w.st.base l l') (Mod.extend L L') := by
  induction l' with
  | nil => intro l L L' hl hl'; obtain rfl := hl'.rn; exact hl
  | cons a l' ih =>
    intro l L L' hl hl'
    obtain rfl := hl'.rn
    rw [extend, List.map_cons, Mod.extend, any_same h hl (hl'.held a (by simp))]
    refine ih ?_ ⟨fun p hp => hl'.held p (by simp [hp]), rfl⟩
    split
    · exact hl
    · refine ⟨fun p hp => ?_, by rw [List.map_append, hl.rn]; rfl⟩
      rcases List.mem_append.1 hp with hp | hp
      · exact hl.held p hp
      · simp only [List.mem_singleton] at hp
        rw [hp]
        exact hl'.held a (by simp)

variable {R : Type} [CommRing R] [DecidableEq R] [CRing P R]

/-! ### modules -/

theorem sim_spanSame (h : Good gen w) {m n : Ptr} {M N : Mod P} (hm : IsMod w m M) (hn : IsMod w n N) :
    Sim gen IsMod w (spanSame m n) (Mod.spanSame M N) := by
  rw [spanSame, Mod.spanSame]
  refine sim_deref h hm fun w₁ a f1 ha => ?_
  have hm := hm.follows h f1
  have hn := hn.follows h f1
  refine sim_deref f1.good hn fun w₂ b f2 hb => ?_
  have hm := hm.follows f1.good f2
  have hn := hn.follows f1.good f2
  have ha := ha.follows f1.good f2
  refine sim_look f2.good fun w₃ f3 => ?_
  have hm := hm.follows f2.good f3
  have hn := hn.follows f2.good f3
  have ha := ha.follows f2.good f3
  have hb := hb.follows f2.good f3
  rw [submodule_eq f3.good hb.basis ha.basis]
  rw [show (N.basis.all fun g => M.basis.any fun s => g = s) = N.submodule M from rfl]
  split
  · exact sim_pure f3.good hm
  refine sim_look f3.good fun w₄ f4 => ?_
  have hn := hn.follows f3.good f4
  have ha := ha.follows f3.good f4
  have hb := hb.follows f3.good f4
  rw [submodule_eq f4.good ha.basis hb.basis]
  rw [show (M.basis.all fun g => N.basis.any fun s => g = s) = M.submodule N from rfl]
  split
  · exact sim_pure f4.good hn
  refine sim_look f4.good fun w₅ f5 => ?_
  have ha := ha.follows f4.good f5
  have hb := hb.follows f4.good f5
  rw [ha.ring]
  exact sim_make f5.good _ (extend_spec f5.good ha.basis hb.basis)

theorem IsObj.basis_nil {o : MObj P} {M : Mod P} (ho : IsObj w o M) : o.basis = [] ↔ M.basis = [] := by
  rw [← ho.basis.rn]; simp

theorem sim_span (h : Good gen w) {m n : Ptr} {M N : Mod P} (hm : IsMod w m M) (hn : IsMod w n N) :
    Sim gen IsMod w (span m n) (Mod.span M N) := by
  rw [span, Mod.span]
  refine sim_deref h hm fun w₁ a f1 ha => ?_
  have hm := hm.follows h f1
  have hn := hn.follows h f1
  refine sim_deref f1.good hn fun w₂ b f2 hb => ?_
  have hm := hm.follows f1.good f2
  have hn := hn.follows f1.good f2
  have ha := ha.follows f1.good f2
  simp only [ha.basis_nil, hb.basis_nil, ha.ring, hb.ring]
  split
  · exact sim_pure f2.good hn
  split
  · exact sim_pure f2.good hm
  split
  · refine sim_out f2.good fun par _ => ?_
    refine sim_bind (sim_make f2.good par ha.basis) fun w₃ m' M' f3 hm' _ => ?_
    refine sim_bind (sim_make f3.good par (hb.basis.follows f2.good f3)) fun w₄ n' N' f4 hn' _ => ?_
    exact sim_spanSame f4.good (hm'.follows f3.good f4) hn'
  · exact sim_spanSame f2.good hm hn

/-! ### elements -/

/-- The element that an object stands for. -/
structure IsElt (w : World P) (x : HElt R) (X : Elt P R) : Prop where
  mod : IsMod w x.mod X.mod
  coeffs : x.coeffs = X.coeffs

theorem IsElt.follows {w w' : World P} (h : Good gen w) (hf : Follows gen w w') {x : HElt R} {X : Elt P R} (hx : IsElt w x X) : IsElt w' x X :=
  ⟨hx.mod.follows h hf, hx.coeffs⟩

theorem IsElt.toBool {x : HElt R} {X : Elt P R} (hx : IsElt w x X) : x.toBool = X.toBool := by
  rw [HElt.toBool, Elt.toBool, hx.coeffs]

theorem sim_ofCoefficients [Build] (h : Good gen w) {m : Ptr} {M : Mod P} (hm : IsMod w m M) (cs : List R) :
    Sim gen IsElt w (HElt.ofCoefficients m cs) (Elt.ofCoefficients M cs) := by
  rw [HElt.ofCoefficients, Elt.ofCoefficients]
  refine sim_deref h hm fun w₁ o f1 ho => ?_
  have e : o.basis.length = M.basis.length := by rw [← ho.basis.rn, List.length_map]
  rw [e]
  exact sim_out f1.good fun _ _ => sim_pure f1.good ⟨hm.follows h f1, rfl⟩

theorem sim_zero (h : Good gen w) {m : Ptr} {M : Mod P} (hm : IsMod w m M) :
    Sim gen IsElt w (HElt.zero m) (.ok (M.zero : Elt P R)) := by
  rw [HElt.zero]
  refine sim_deref h hm fun w₁ o f1 ho => ?_
  refine sim_pure f1.good ⟨hm.follows h f1, ?_⟩
  rw [Mod.zero, ← ho.basis.rn, List.length_map]

theorem sim_gen (h : Good gen w) {m : Ptr} {M : Mod P} (hm : IsMod w m M) (j : ℕ) :
    Sim gen IsElt w (HElt.gen m j) (M.gen j : Out (Elt P R)) := by
  rw [HElt.gen, Mod.gen]
  refine sim_deref h hm fun w₁ o f1 ho => ?_
  have e : o.basis.length = M.basis.length := by rw [← ho.basis.rn, List.length_map]
  rw [e]
  split
  · exact sim_pure f1.good ⟨hm.follows h f1, rfl⟩
  · exact sim_ret f1.good trivial

theorem sim_ofScalar [Build] (h : Good gen w) (par : P) (c : R) : Sim gen IsElt w (HElt.ofScalar par c) (Elt.ofScalar par c) := by
  rw [HElt.ofScalar, Elt.ofScalar]
  rw [show (Mod.make (CRing.ofValue par c) [RN.rat 1] >>= fun m => Elt.ofCoefficients m [c]) =
    (Out.ok (RN.rat 1) >>= fun g => Mod.make (CRing.ofValue par c) [g] >>= fun m => (Elt.ofCoefficients m [c] : Out (Elt P R))) from rfl]
  refine sim_bind (sim_rational h 1) fun w₁ p g f1 hp _ => ?_
  refine sim_bind (sim_make f1.good _ ⟨by simpa using hp.held, by simp [hp.rn]⟩) fun w₂ m M f2 hm _ => ?_
  exact sim_ofCoefficients f2.good hm _

theorem promoteLoop_eq [Build] (h : Good gen w) (ring src : P) : ∀ {ours : List (Ptr × R)} {theirs : List Ptr},
    (∀ t ∈ ours, Held w t.1) → (∀ p ∈ theirs, Held w p) → HElt.promoteLoop w.st.base ring src ours theirs =
      Elt.promoteLoop ring src (ours.map fun t => (w.st.base.rn t.1, t.2)) (theirs.map w.st.base.rn) := by
  intro ours theirs
  fun_induction HElt.promoteLoop w.st.base ring src ours theirs with
  | case1 => intro _ _; simp [Elt.promoteLoop]
  | case2 _ theirs ih => intro h1 h2; rw [ih h1 fun p hp => h2 p (by simp [hp])]; simp [Elt.promoteLoop]
  | case3 g c ours ih =>
    intro h1 h2
    rw [ih (fun p hp => h1 p (by simp [hp])) h2]
    simp [Elt.promoteLoop]
  | case4 g c ours t theirs hs ih =>
    intro h1 h2
    rw [same_eq h (h1 (g, c) (by simp)) (h2 t (by simp))] at hs
    rw [ih (fun p hp => h1 p (by simp [hp])) fun p hp => h2 p (by simp [hp])]
    simp only [List.map_cons, Elt.promoteLoop]
    rw [if_pos (by simpa using hs)]
  | case5 g c ours t theirs hs hl ih =>
    intro h1 h2
    rw [same_eq h (h1 (g, c) (by simp)) (h2 t (by simp))] at hs
    rw [ih (fun p hp => h1 p (by simp [hp])) h2]
    simp only [List.map_cons, Elt.promoteLoop]
    rw [if_neg (by simpa using hs), if_pos hl]
  | case6 g c ours t theirs hs hl ih =>
    intro h1 h2
    rw [same_eq h (h1 (g, c) (by simp)) (h2 t (by simp))] at hs
    rw [ih h1 fun p hp => h2 p (by simp [hp])]
    simp only [List.map_cons, Elt.promoteLoop]
    rw [if_neg (by simpa using hs), if_neg hl]

theorem sim_promote [Build] (h : Good gen w) {x : HElt R} {X : Elt P R} (hx : IsElt w x X) {m : Ptr} {M : Mod P} (hm : IsMod w m M) :
    Sim gen IsElt w (x.promote m) (X.promote M) := by
  rw [HElt.promote, Elt.promote]
  refine sim_look h fun w₁ f1 => ?_
  have hx := hx.follows h f1
  have hm := hm.follows h f1
  rw [sameModule_eq f1.good hx.mod hm, hx.toBool]
  simp only [decide_eq_true_eq]
  split
  · exact sim_pure f1.good hx
  split
  · exact sim_zero f1.good hm
  refine sim_deref f1.good hm fun w₂ a f2 ha => ?_
  have hx := hx.follows f1.good f2
  have hm := hm.follows f1.good f2
  refine sim_deref f2.good hx.mod fun w₃ b f3 hb => ?_
  have hx := hx.follows f2.good f3
  have hm := hm.follows f2.good f3
  have ha := ha.follows f2.good f3
  refine sim_bind (D := fun _ (a b : List R) => a = b) (sim_lookOut f3.good fun w₄ f4 => ?_) fun w₄ cs cs' f4 e _ => ?_
  · have ha := ha.follows f3.good f4
    have hb := hb.follows f3.good f4
    have ht := hb.terms X.coeffs
    rw [hx.coeffs, promoteLoop_eq f4.good _ _ ht.held ha.basis.held, ht.rn, ha.basis.rn, ha.ring, hb.ring]
    rw [show M.basis = M.basis from rfl, Elt.terms]
    generalize Elt.promoteLoop M.par X.mod.par (X.mod.basis.zip X.coeffs) M.basis = o
    cases o <;> simp [OutRel]
  · rw [← e]
    exact sim_ofCoefficients f4.good (hm.follows f3.good f4) cs

/-- In-place operations. -/
structure IsStep (w : World P) (x : Step (HElt R)) (X : Step (Elt P R)) : Prop where
  out : x.out = X.out
  self : IsElt w x.self X.self

theorem IsStep.done {x : HElt R} {X : Elt P R} (hx : IsElt w x X) : IsStep w (.done x) (.done X) := ⟨rfl, hx⟩

theorem outRel_error {α β : Type} {D : α → β → Prop} {r : Out α} {v : Out β} (h : OutRel D r v) (hr : ∀ a, r ≠ .ok a) :
    (r >>= fun _ => Out.ok ()) = (v >>= fun _ => Out.ok ()) := by
  cases r <;> cases v <;> simp_all [OutRel]

theorem sim_inplace {α β : Type} {D : World P → α → β → Prop} (h : Good gen w) {x : HElt R} {X : Elt P R} (hx : IsElt w x X) {a : Act P α} {v : Out β}
    (ha : Sim gen D w a v) {f : α → Act P (Step (HElt R))} {F : β → Step (Elt P R)}
    (hf : ∀ w' a b, Follows gen w w' → D w' a b → v = .ok b → Sim gen IsStep w' (f a) (.ok (F b))) :
    Sim gen IsStep w (x.inplace a f) (.ok (match (generalizing := false) v with | .ok b => F b | e => ⟨e >>= fun _ => .ok (), X⟩)) := by
  refine sim_andThen ha fun w' r h1 h2 => ?_
  have hx := hx.follows h h1
  cases r <;> cases v <;> simp only [OutRel] at h2
  · exact hf w' _ _ h1 h2 rfl
  · subst h2; exact sim_ret h1.good ⟨rfl, hx⟩
  · exact sim_ret h1.good ⟨rfl, hx⟩
  · exact sim_ret h1.good ⟨rfl, hx⟩
  · exact sim_ret h1.good ⟨rfl, hx⟩

/-! ### addition -/

/-- `match` on an outcome of an in-place operation. -/
def orKeep {β : Type} (X : Elt P R) (v : Out β) (F : β → Step (Elt P R)) : Step (Elt P R) :=
  match v with
  | .ok b => F b
  | e => ⟨e >>= fun _ => .ok (), X⟩

omit [DecidableEq P] [CommRing R] [DecidableEq R] [CRing P R] in
theorem orKeep_bind {α β : Type} (X : Elt P R) (v : Out α) (f : α → Out β) (F : β → Step (Elt P R)) :
    orKeep X (v >>= f) F = orKeep X v fun a => orKeep X (f a) F := by
  cases v <;> rfl

theorem addAssign_eq [Build] (X Y : Elt P R) : X.addAssign Y = if X.mod = Y.mod then .done (X.addSame Y) else
    orKeep X (Mod.span X.mod Y.mod >>= fun parent => Y.promote parent >>= fun y' => X.promote parent >>= fun x' => .ok (x'.addSame y')) .done := by
  rw [Elt.addAssign]
  by_cases h : X.mod = Y.mod
  · rw [if_neg (by simpa using h), if_pos h]
  · rw [if_pos h, if_neg h]
    cases Mod.span X.mod Y.mod with
    | ok parent =>
      rw [Out.ok_bind]
      show (match Y.promote parent with | .ok y' => _ | e => _) = _
      cases Y.promote parent with
      | ok y' =>
        rw [Out.ok_bind]
        show (match X.promote parent with | .ok x' => _ | e => _) = _
        cases X.promote parent <;> rfl
      | _ => rfl
    | _ => rfl

theorem sim_keep {α β : Type} {D : World P → α → β → Prop} (h : Good gen w) {x : HElt R} {X : Elt P R} (hx : IsElt w x X) {a : Act P α} {v : Out β}
    (ha : Sim gen D w a v) {f : α → Act P (Step (HElt R))} {F : β → Step (Elt P R)}
    (hf : ∀ w' a b, Follows gen w w' → D w' a b → v = .ok b → Sim gen IsStep w' (f a) (.ok (F b))) :
    Sim gen IsStep w (x.inplace a f) (.ok (orKeep X v F)) := sim_inplace h hx ha hf

theorem sim_addAssign [Build] (h : Good gen w) {x y : HElt R} {X Y : Elt P R} (hx : IsElt w x X) (hy : IsElt w y Y) :
    Sim gen IsStep w (x.addAssign y) (.ok (X.addAssign Y)) := by
  rw [HElt.addAssign, addAssign_eq]
  refine sim_look h fun w₁ f1 => ?_
  have hx := hx.follows h f1
  have hy := hy.follows h f1
  rw [sameModule_eq f1.good hx.mod hy.mod]
  simp only [decide_eq_true_eq]
  split
  · refine sim_pure f1.good (.done ⟨hx.mod, ?_⟩)
    rw [Elt.addSame, hx.coeffs, hy.coeffs]
  refine sim_keep f1.good hx (D := IsElt) ?_ fun w' a b f ha _ => sim_pure f.good (.done ha)
  refine sim_bind (sim_span f1.good hx.mod hy.mod) fun w₂ m M f2 hm _ => ?_
  refine sim_bind (sim_promote f2.good (hy.follows f1.good f2) hm) fun w₃ y' Y' f3 hy' _ => ?_
  refine sim_bind (sim_promote f3.good ((hx.follows f1.good f2).follows f2.good f3) (hm.follows f2.good f3)) fun w₄ x' X' f4 hx' _ => ?_
  refine sim_pure f4.good ⟨hx'.mod, ?_⟩
  rw [Elt.addSame, hx'.coeffs, hy'.coeffs]

theorem IsElt.neg {x : HElt R} {X : Elt P R} (hx : IsElt w x X) : IsElt w x.neg X.neg := ⟨hx.mod, by rw [HElt.neg, Elt.neg, hx.coeffs]⟩

theorem sim_subAssign [Build] (h : Good gen w) {x y : HElt R} {X Y : Elt P R} (hx : IsElt w x X) (hy : IsElt w y Y) :
    Sim gen IsStep w (x.subAssign y) (.ok (X.subAssign Y)) := sim_addAssign h hx hy.neg

/-! ### multiplication -/

theorem IsTerms.cons {g : Ptr} {x : RN} {c : R} {l : List (Ptr × R)} {L : List (RN × R)} (hg : IsNum w g x) (hl : IsTerms w l L) :
    IsTerms w ((g, c) :: l) ((x, c) :: L) := by
  refine ⟨fun t ht => ?_, by rw [List.map_cons, hl.rn, hg.rn]⟩
  rcases List.mem_cons.1 ht with rfl | ht
  · exact hg.held
  · exact hl.held t ht

theorem IsTerms.uncons {g : Ptr} {c : R} {l : List (Ptr × R)} {L : List (RN × R)} (hl : IsTerms w ((g, c) :: l) L) :
    ∃ L', L = (w.st.base.rn g, c) :: L' ∧ IsNum w g (w.st.base.rn g) ∧ IsTerms w l L' :=
  ⟨_, hl.rn.symm, ⟨hl.held (g, c) (by simp), rfl⟩, fun t ht => hl.held t (by simp [ht]), rfl⟩

theorem IsTerms.nil {L : List (RN × R)} (hl : IsTerms w [] L) : L = [] := hl.rn.symm

theorem accumulate_spec (h : Good gen w) {g : Ptr} {x : RN} (hg : IsNum w g x) (c : R) : ∀ {l : List (Ptr × R)} {L : List (RN × R)}, IsTerms w l L →
    IsTerms w (HElt.accumulate w.st.base g c l) (Elt.accumulate x c L) := by
  intro l
  induction l with
  | nil =>
    intro L hl
    rw [hl.nil, HElt.accumulate, Elt.accumulate]
    exact .cons hg ⟨by simp, rfl⟩
  | cons a l ih =>
    intro L hl
    obtain ⟨k, d⟩ := a
    obtain ⟨L', rfl, hk, hl'⟩ := hl.uncons
    rw [HElt.accumulate, Elt.accumulate, same_eq h hk.held hg.held, hg.rn]
    simp only [decide_eq_true_eq]
    split
    · exact .cons hk hl'
    · exact .cons hk (ih hl')

theorem sim_mulRow (c : R) {g : Ptr} {x : RN} : ∀ {w : World P} {l : List (Ptr × R)} {L : List (RN × R)} {a : List (Ptr × R)} {A : List (RN × R)},
    Good gen w → IsNum w g x → IsTerms w l L → IsTerms w a A → Sim gen IsTerms w (HElt.mulRow g c l a) (Elt.mulRow x c L A) := by
  intro w l
  induction l generalizing w with
  | nil =>
    intro L a A h hg hl ha
    rw [hl.nil, HElt.mulRow, Elt.mulRow]
    exact sim_pure h ha
  | cons t l ih =>
    intro L a A h hg hl ha
    obtain ⟨k, d⟩ := t
    obtain ⟨L', rfl, hk, hl'⟩ := hl.uncons
    rw [HElt.mulRow, Elt.mulRow]
    refine sim_bind (sim_mul h hg hk) fun w₁ p z f1 hp _ => ?_
    refine sim_look f1.good fun w₂ f2 => ?_
    have f := f1.trans f2
    exact ih f2.good (hg.follows h f) (hl'.follows h f) (accumulate_spec f2.good (hp.follows f1.good f2) _ (ha.follows h f))

theorem sim_mulRows : ∀ {w : World P} {l : List (Ptr × R)} {L : List (RN × R)} {r : List (Ptr × R)} {Q : List (RN × R)} {a : List (Ptr × R)} {A : List (RN × R)},
    Good gen w → IsTerms w l L → IsTerms w r Q → IsTerms w a A → Sim gen IsTerms w (HElt.mulRows l r a) (Elt.mulRows L Q A) := by
  intro w l
  induction l generalizing w with
  | nil =>
    intro L r Q a A h hl hr ha
    rw [hl.nil, HElt.mulRows, Elt.mulRows]
    exact sim_pure h ha
  | cons t l ih =>
    intro L r Q a A h hl hr ha
    obtain ⟨k, d⟩ := t
    obtain ⟨L', rfl, hk, hl'⟩ := hl.uncons
    rw [HElt.mulRows, Elt.mulRows]
    refine sim_bind (sim_mulRow d h hk hr ha) fun w₁ b B f1 hb _ => ?_
    exact ih f1.good (hl'.follows h f1) (hr.follows h f1) hb

theorem sort_spec {l : List (Ptr × R)} {L : List (RN × R)} (hl : IsTerms w l L) :
    IsTerms w (l.insertionSort fun a b => RN.lt (w.st.base.rn b.1) (w.st.base.rn a.1) = false) (L.insertionSort fun a b => RN.lt b.1 a.1 = false) := by
  refine ⟨fun t ht => hl.held t ((List.mem_insertionSort _).1 ht), ?_⟩
  rw [← hl.rn]
  exact List.map_insertionSort _ _ _ _ (fun a _ b _ => Iff.rfl)

theorem IsTerms.fst {l : List (Ptr × R)} {L : List (RN × R)} (hl : IsTerms w l L) : IsNums w (l.map Prod.fst) (L.map Prod.fst) := by
  refine ⟨fun p hp => ?_, ?_⟩
  · obtain ⟨t, ht, rfl⟩ := List.mem_map.1 hp
    exact hl.held t ht
  · rw [← hl.rn, List.map_map, List.map_map]
    rfl

theorem IsTerms.snd {l : List (Ptr × R)} {L : List (RN × R)} (hl : IsTerms w l L) : l.map Prod.snd = L.map Prod.snd := by
  rw [← hl.rn, List.map_map]
  rfl

theorem map_addr_eq (h : Good gen w) {l l' : List Ptr} {L L' : List RN} (hl : IsNums w l L) (hl' : IsNums w l' L') :
    (l.map w.st.base.addrOf = l'.map w.st.base.addrOf) ↔ L = L' := by
  rw [← hl.rn, ← hl'.rn]
  have hh := hl.held
  have hh' := hl'.held
  clear hl hl'
  induction l generalizing l' with
  | nil => cases l' <;> simp
  | cons a l ih => cases l' with
    | nil => simp
    | cons b l' =>
      simp only [List.map_cons, List.cons.injEq]
      have i := ih (l' := l') (fun p hp => hh p (by simp [hp])) fun p hp => hh' p (by simp [hp])
      have e := same_eq h (hh a (by simp)) (hh' b (by simp))
      rw [State.same] at e
      exact and_congr (decide_eq_decide.1 e) i

/-- The end of the multiplication of values. -/
def assembleValue [Build] (X : Elt P R) (ring : P) (products : List (RN × R)) : Step (Elt P R) :=
  orKeep X (Mod.make ring ((products.insertionSort fun a b => (RN.lt b.1 a.1) = false).map Prod.fst)) fun parent =>
    ⟨assertThat (parent.basis = (products.insertionSort fun a b => (RN.lt b.1 a.1) = false).map Prod.fst),
      ⟨parent, (products.insertionSort fun a b => (RN.lt b.1 a.1) = false).map Prod.snd⟩⟩

theorem mulSame_eq [Build] (X Y : Elt P R) : X.mulSame Y = orKeep X (Elt.mulRows X.terms Y.terms []) (assembleValue X X.mod.par) := by
  rw [Elt.mulSame]
  cases Elt.mulRows X.terms Y.terms [] with
  | ok products =>
    simp only [orKeep, assembleValue]
    cases Mod.make X.mod.par (List.map Prod.fst (List.insertionSort (fun a b => b.1.lt a.1 = false) products)) <;> rfl
  | _ => rfl

theorem sim_assemble [Build] (h : Good gen w) {x : HElt R} {X : Elt P R} (hx : IsElt w x X) (ring : P) {l : List (Ptr × R)} {L : List (RN × R)}
    (hl : IsTerms w l L) : Sim gen IsStep w (x.assemble ring l) (.ok (assembleValue X ring L)) := by
  rw [HElt.assemble, assembleValue]
  refine sim_look h fun w₁ f1 => ?_
  have hs := sort_spec (hl.follows h f1)
  refine sim_keep f1.good (hx.follows h f1) (sim_make f1.good ring hs.fst) fun w₂ m M f2 hm _ => ?_
  refine sim_deref f2.good hm fun w₃ o f3 ho => ?_
  refine sim_look f3.good fun w₄ f4 => ?_
  have hs := ((hs.follows f1.good f2).follows f2.good f3).follows f3.good f4
  have ho := ho.follows f3.good f4
  have hm := (hm.follows f2.good f3).follows f3.good f4
  refine sim_pure f4.good ⟨?_, hm, hs.snd⟩
  simp only [map_addr_eq f4.good ho.basis hs.fst]

theorem sim_mulSame [Build] (h : Good gen w) {x y : HElt R} {X Y : Elt P R} (hx : IsElt w x X) (hy : IsElt w y Y) :
    Sim gen IsStep w (x.mulSame y) (.ok (X.mulSame Y)) := by
  rw [HElt.mulSame, mulSame_eq]
  refine sim_deref h hx.mod fun w₁ a f1 ha => ?_
  have hx := hx.follows h f1
  have hy := hy.follows h f1
  refine sim_deref f1.good hy.mod fun w₂ b f2 hb => ?_
  have hx := hx.follows f1.good f2
  have hy := hy.follows f1.good f2
  have ha := ha.follows f1.good f2
  rw [hx.coeffs, hy.coeffs, ha.ring]
  refine sim_keep f2.good hx (sim_mulRows f2.good (ha.terms _) (hb.terms _) ⟨by simp, rfl⟩) fun w₃ l L f3 hl _ => ?_
  exact sim_assemble f3.good (hx.follows f2.good f3) _ hl

theorem mulAssign_eq [Build] (X Y : Elt P R) : X.mulAssign Y = if !X.toBool then .done X else if !Y.toBool then .done Y else
    if X.mod.par ≠ Y.mod.par then
      orKeep X (CRing.compositum X.mod.par Y.mod.par >>= fun c => Mod.make c Y.mod.basis >>= fun my => Y.promote my >>= fun y' =>
        Mod.make c X.mod.basis >>= fun mx => X.promote mx >>= fun x' => .ok (x', y')) fun xy => xy.1.mulSame xy.2
    else X.mulSame Y := by
  rw [Elt.mulAssign]
  congr 2
  split
  · generalize (do
      let compositum ← CRing.compositum X.mod.par Y.mod.par
      let my ← Mod.make compositum Y.mod.basis
      let y' ← Y.promote my
      let mx ← Mod.make compositum X.mod.basis
      let x' ← X.promote mx
      .ok (x', y') : Out (Elt P R × Elt P R)) = o
    cases o <;> rfl
  · rfl

theorem sim_mulAssign [Build] (h : Good gen w) {x y : HElt R} {X Y : Elt P R} (hx : IsElt w x X) (hy : IsElt w y Y) :
    Sim gen IsStep w (x.mulAssign y) (.ok (X.mulAssign Y)) := by
  rw [HElt.mulAssign, mulAssign_eq, hx.toBool, hy.toBool]
  split
  · exact sim_pure h (.done hx)
  split
  · exact sim_pure h (.done hy)
  refine sim_deref h hx.mod fun w₁ a f1 ha => ?_
  have hx := hx.follows h f1
  have hy := hy.follows h f1
  refine sim_deref f1.good hy.mod fun w₂ b f2 hb => ?_
  have hx := hx.follows f1.good f2
  have hy := hy.follows f1.good f2
  have ha := ha.follows f1.good f2
  rw [ha.ring, hb.ring]
  split
  · refine sim_keep f2.good hx (D := fun w a b => IsElt w a.1 b.1 ∧ IsElt w a.2 b.2) ?_ fun w' a b f hab _ => sim_mulSame f.good hab.1 hab.2
    refine sim_out f2.good fun c _ => ?_
    refine sim_bind (sim_make f2.good c hb.basis) fun w₃ my My f3 hmy _ => ?_
    refine sim_bind (sim_promote f3.good (hy.follows f2.good f3) hmy) fun w₄ y' Y' f4 hy' _ => ?_
    have f24 := f3.trans f4
    refine sim_bind (sim_make f4.good c (ha.basis.follows f2.good f24)) fun w₅ mx Mx f5 hmx _ => ?_
    have f25 := f24.trans f5
    refine sim_bind (sim_promote f5.good (hx.follows f2.good f25) hmx) fun w₆ x' X' f6 hx' _ => ?_
    exact sim_pure f6.good ⟨hx', (hy'.follows f4.good f5).follows f5.good f6⟩
  · exact sim_mulSame f2.good hx hy

theorem mulRNAssign_eq [Build] (X : Elt P R) (r : RN) : X.mulRNAssign r =
    orKeep X (Mod.make X.mod.par [r] >>= fun m => (m.gen 0 : Out (Elt P R))) fun Y => X.mulAssign Y := by
  rw [Elt.mulRNAssign]
  generalize (Mod.make X.mod.par [r] >>= fun m => (m.gen 0 : Out (Elt P R))) = o
  cases o <;> rfl

theorem sim_mulRNAssign [Build] (h : Good gen w) {x : HElt R} {X : Elt P R} (hx : IsElt w x X) {p : Ptr} {r : RN} (hp : IsNum w p r) :
    Sim gen IsStep w (x.mulRNAssign p) (.ok (X.mulRNAssign r)) := by
  rw [HElt.mulRNAssign, mulRNAssign_eq]
  refine sim_deref h hx.mod fun w₁ a f1 ha => ?_
  have hx := hx.follows h f1
  have hp := hp.follows h f1
  rw [ha.ring]
  refine sim_keep f1.good hx (D := IsElt) ?_ fun w' y Y f hy _ => sim_mulAssign f.good (hx.follows f1.good f) hy
  refine sim_bind (sim_make f1.good _ ⟨by simpa using hp.held, by simp [hp.rn]⟩) fun w₂ m M f2 hm _ => ?_
  exact sim_gen f2.good hm 0

/-! ### other functions -/

theorem IsElt.scale (f : R → Step R) {x : HElt R} {X : Elt P R} (hx : IsElt w x X) : IsStep w (x.scale f) (X.scale f) := by
  rw [HElt.scale, Elt.scale, hx.coeffs]
  exact ⟨rfl, hx.mod, rfl⟩

theorem IsStep.result {x : Step (HElt R)} {X : Step (Elt P R)} (hx : IsStep w x X) : OutRel (IsElt w) x.result X.result := by
  rw [Step.result, Step.result, hx.out]
  cases X.out with
  | ok u => exact hx.self
  | throws e => rfl
  | abort => trivial
  | ub => trivial
  | pending => trivial

theorem sim_result {a : Act P (Step (HElt R))} {X : Step (Elt P R)} (ha : Sim gen IsStep w a (.ok X)) :
    Sim gen IsElt w (HElt.result a) X.result := by
  rw [HElt.result]
  rw [show X.result = (Out.ok X >>= fun X => X.result) from rfl]
  exact sim_bind ha fun w' x X f hx _ => sim_ret f.good hx.result

theorem eqQ_eq {o : MObj P} {X : Elt P R} (ho : IsObj w o X.mod) (q : ℚ) : HElt.eqQ w.st.base o X.coeffs q = X.eqQ q := by
  rw [HElt.eqQ, Elt.eqQ, Elt.rational?, Elt.terms, ho.basis.rn]

theorem sim_eq [Build] (h : Good gen w) {x y : HElt R} {X Y : Elt P R} (hx : IsElt w x X) (hy : IsElt w y Y) :
    Sim gen (fun _ a b => a = b) w (x.eq y) (X.eq Y) := by
  rw [HElt.eq, Elt.eq]
  refine sim_look h fun w₁ f1 => ?_
  have hx := hx.follows h f1
  have hy := hy.follows h f1
  rw [sameModule_eq f1.good hx.mod hy.mod]
  simp only [decide_eq_true_eq]
  by_cases e : X.mod = Y.mod
  · rw [if_pos e, if_neg (by simpa using e), hx.coeffs, hy.coeffs]
    exact sim_pure f1.good rfl
  · rw [if_neg e, if_pos (by simpa using e)]
    refine sim_bind (sim_span f1.good hx.mod hy.mod) fun w₂ m M f2 hm _ => ?_
    refine sim_bind (sim_promote f2.good (hx.follows f1.good f2) hm) fun w₃ x' X' f3 hx' _ => ?_
    refine sim_bind (sim_promote f3.good ((hy.follows f1.good f2).follows f2.good f3) (hm.follows f2.good f3)) fun w₄ y' Y' f4 hy' _ => ?_
    rw [hx'.coeffs, hy'.coeffs]
    exact sim_pure f4.good rfl

theorem sim_simplify [Build] (h : Good gen w) {x : HElt R} {X : Elt P R} (hx : IsElt w x X) : Sim gen IsElt w x.simplify X.simplify := by
  rw [HElt.simplify, Elt.simplify, hx.coeffs]
  split
  · exact sim_pure h hx
  refine sim_deref h hx.mod fun w₁ o f1 ho => ?_
  have hx := hx.follows h f1
  have ht : IsTerms w₁ ((o.basis.zip X.coeffs).filter fun t => t.2 ≠ 0) (X.terms.filter fun t => t.2 ≠ 0) := by
    have := ho.terms X.coeffs
    refine ⟨fun t ht => this.held t (List.mem_of_mem_filter ht), ?_⟩
    rw [Elt.terms, ← this.rn, List.filter_map]
    rfl
  have e : o.basis.length = X.mod.basis.length := by rw [← ho.basis.rn, List.length_map]
  have e' : (((o.basis.zip X.coeffs).filter fun t => t.2 ≠ 0).map Prod.fst).length = ((X.terms.filter fun t => t.2 ≠ 0).map Prod.fst).length := by
    rw [← ht.rn]; simp only [List.length_map]
  simp only [e, e']
  split
  · exact sim_pure f1.good hx
  rw [ho.ring]
  refine sim_bind (sim_make f1.good _ ht.fst) fun w₂ m M f2 hm _ => ?_
  exact sim_promote f2.good (hx.follows f1.good f2) hm

end ExactReal.Heap
