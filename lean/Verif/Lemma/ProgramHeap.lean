import Verif.Lemma.ElementHeap

/-! # Divisions and programs on objects -/

namespace ExactReal.Heap
open State MState

variable {P : Type} [DecidableEq P] {gen : Generators} {w : World P} {R : Type} [CommRing R] [DecidableEq R] [CRing P R]

theorem findIdx_agree {α : Type*} {p q : α → Bool} : ∀ {l : List α}, (∀ x ∈ l, p x = q x) →
    l.findIdx p = l.findIdx q
  | [], _ => rfl
  | x :: l, h => by
    rw [List.findIdx_cons, List.findIdx_cons, h x (by simp),
      findIdx_agree fun y hy => h y (List.mem_cons_of_mem _ hy)]

theorem sim_leading (h : Good gen w) {x : HElt R} {X : Elt P R} (hx : IsElt w x X) :
    Sim gen (fun w a b => a.1 = b.1 ∧ IsNum w a.2 b.2) w x.leading X.leading := by
  rw [HElt.leading, Elt.leading]
  refine sim_deref h hx.mod fun w₁ o f1 ho => ?_
  have ht := ho.terms X.coeffs
  rw [hx.coeffs, Elt.terms, ← ht.rn, ← List.map_reverse, List.find?_map]
  cases hf : (o.basis.zip X.coeffs).reverse.find? fun t => t.2 ≠ 0 with
  | none =>
    rw [show ((o.basis.zip X.coeffs).reverse.find? ((fun t : RN × R => decide (t.2 ≠ 0)) ∘ fun t => (w₁.st.base.rn t.1, t.2))) = none from hf]
    exact sim_ret f1.good rfl
  | some t =>
    rw [show ((o.basis.zip X.coeffs).reverse.find? ((fun t : RN × R => decide (t.2 ≠ 0)) ∘ fun t => (w₁.st.base.rn t.1, t.2))) = some t from hf]
    have hm := List.mem_reverse.1 (List.mem_of_find?_eq_some hf)
    exact sim_pure f1.good ⟨rfl, ht.held t hm, rfl⟩

theorem sim_truedivLoop [Build] (ring : P) : ∀ (fuel : ℕ) {w : World P} {r x q : HElt R} {A X Q : Elt P R}, Good gen w → IsElt w r A → IsElt w x X →
    IsElt w q Q → Sim gen (OptRel IsElt) w (HElt.truedivLoop ring r fuel x q) (Elt.truedivLoop ring A fuel X Q) := by
  intro fuel
  induction fuel with
  | zero =>
    intro w r x q A X Q h hr hx hq
    rw [HElt.truedivLoop, Elt.truedivLoop]
    exact sim_ret h trivial
  | succ fuel ih =>
    intro w r x q A X Q h hr hx hq
    rw [HElt.truedivLoop, Elt.truedivLoop, hx.toBool]
    split
    · exact sim_pure h hq
    refine sim_bind (sim_leading h hx) fun w₁ a a' f1 ha _ => ?_
    obtain ⟨c, g⟩ := a
    obtain ⟨c', g'⟩ := a'
    obtain ⟨rfl, hg⟩ := ha
    refine sim_bind (sim_leading f1.good (hr.follows h f1)) fun w₂ b b' f2 hb _ => ?_
    obtain ⟨d, k⟩ := b
    obtain ⟨d', k'⟩ := b'
    obtain ⟨rfl, hk⟩ := hb
    have f02 := f1.trans f2
    refine sim_bind (sim_quotient f2.good (hg.follows f1.good f2) hk) fun w₃ s s' f3 hs _ => ?_
    have f03 := f02.trans f3
    cases s with
    | none =>
      cases s' with
      | none => exact sim_pure f3.good trivial
      | some s' => exact hs.elim
    | some s =>
      cases s' with
      | none => exact hs.elim
      | some s' =>
        dsimp only
        split
        · exact sim_out f3.good fun _ _ => sim_pure f3.good trivial
        · have hs : IsNum w₃ s s' := hs
          refine sim_bind (sim_make f3.good ring ⟨by simpa using hs.held, by simp [hs.rn]⟩) fun w₄ m M f4 hm _ => ?_
          refine sim_bind (sim_gen f4.good hm 0) fun w₅ y Y f5 hy _ => ?_
          have f05 := (f03.trans f4).trans f5
          refine sim_bind (D := IsElt) (sim_ret f5.good (hy.scale fun e => CRing.imulR P e (CRing.quo P c d)).result) fun w₆ p p' f6 hp _ => ?_
          have f06 := f05.trans f6
          refine sim_bind (v := Q.add p') (sim_result (sim_addAssign f6.good (hq.follows h f06) hp)) fun w₇ q' Q' f7 hq' _ => ?_
          have f07 := f06.trans f7
          refine sim_bind (v := p'.mul A) (sim_result (sim_mulAssign f7.good (hp.follows f6.good f7) (hr.follows h f07))) fun w₈ t t' f8 ht _ => ?_
          have f08 := f07.trans f8
          refine sim_bind (v := X.sub t') (sim_result (sim_subAssign f8.good (hx.follows h f08) ht)) fun w₉ x' X' f9 hx' _ => ?_
          have f09 := f08.trans f9
          exact ih f9.good (hr.follows h f09) hx' ((hq'.follows f7.good f8).follows f8.good f9)

theorem truedivSame_eq [Build] (fuel : ℕ) (X A : Elt P R) : X.truedivSame fuel A = (checkArgument (!A.eqQ 0) >>= fun _ =>
    if A.eqQ 1 then .ok (some X) else Out.ok X.mod.zero >>= fun z => Elt.truedivLoop X.mod.par A fuel X z) := by
  rw [Elt.truedivSame, Elt.eqZ, Elt.eqZ]; norm_cast

theorem sim_truedivSame [Build] (fuel : ℕ) (h : Good gen w) {x r : HElt R} {X A : Elt P R} (hx : IsElt w x X) (hr : IsElt w r A) :
    Sim gen (OptRel IsElt) w (HElt.truedivSame fuel x r) (Elt.truedivSame fuel X A) := by
  rw [HElt.truedivSame, truedivSame_eq]
  refine sim_deref h hr.mod fun w₁ b f1 hb => ?_
  refine sim_look f1.good fun w₂ f2 => ?_
  have hb := hb.follows f1.good f2
  rw [hr.coeffs, eqQ_eq hb]
  refine sim_out f2.good fun _ _ => ?_
  refine sim_look f2.good fun w₃ f3 => ?_
  have hb := hb.follows f2.good f3
  have f03 := (f1.trans f2).trans f3
  have hx := hx.follows h f03
  have hr := hr.follows h f03
  rw [eqQ_eq hb]
  split
  · exact sim_pure f3.good hx
  refine sim_deref f3.good hx.mod fun w₄ a f4 ha => ?_
  have hx := hx.follows f3.good f4
  have hr := hr.follows f3.good f4
  refine sim_bind (sim_zero f4.good hx.mod) fun w₅ z Z f5 hz _ => ?_
  rw [ha.ring]
  exact sim_truedivLoop _ fuel f5.good (hr.follows f4.good f5) (hx.follows f4.good f5) hz

theorem truediv_eq [Build] (fuel : ℕ) (X A : Elt P R) : X.truediv fuel A = (checkArgument (!A.eqQ 0) >>= fun _ =>
    if A.eqQ 1 then .ok (some X) else if X.mod = A.mod then Out.ok X.mod.zero >>= fun z => Elt.truedivLoop X.mod.par A fuel X z
      else Mod.span X.mod A.mod >>= fun parent => X.promote parent >>= fun x' => A.promote parent >>= fun a' => Elt.truedivSame fuel x' a') := by
  rw [Elt.truediv, Elt.eqZ, Elt.eqZ]
  norm_cast
  congr 1
  funext _
  congr 1
  by_cases e : X.mod = A.mod
  · rw [if_pos e, if_neg (by simpa using e), Out.ok_bind]
  · rw [if_neg e, if_pos (by simpa using e)]

theorem sim_truediv [Build] (fuel : ℕ) (h : Good gen w) {x r : HElt R} {X A : Elt P R} (hx : IsElt w x X) (hr : IsElt w r A) :
    Sim gen (OptRel IsElt) w (HElt.truediv fuel x r) (Elt.truediv fuel X A) := by
  rw [HElt.truediv, truediv_eq]
  refine sim_deref h hr.mod fun w₁ b f1 hb => ?_
  refine sim_look f1.good fun w₂ f2 => ?_
  have hb := hb.follows f1.good f2
  rw [hr.coeffs, eqQ_eq hb]
  refine sim_out f2.good fun _ _ => ?_
  refine sim_look f2.good fun w₃ f3 => ?_
  have hb := hb.follows f2.good f3
  have f03 := (f1.trans f2).trans f3
  have hx := hx.follows h f03
  have hr := hr.follows h f03
  rw [eqQ_eq hb]
  split
  · exact sim_pure f3.good hx
  refine sim_look f3.good fun w₄ f4 => ?_
  have hx := hx.follows f3.good f4
  have hr := hr.follows f3.good f4
  rw [sameModule_eq f4.good hx.mod hr.mod]
  simp only [decide_eq_true_eq]
  split
  · refine sim_deref f4.good hx.mod fun w₅ a f5 ha => ?_
    have hx := hx.follows f4.good f5
    have hr := hr.follows f4.good f5
    refine sim_bind (sim_zero f5.good hx.mod) fun w₆ z Z f6 hz _ => ?_
    rw [ha.ring]
    exact sim_truedivLoop _ fuel f6.good (hr.follows f5.good f6) (hx.follows f5.good f6) hz
  · refine sim_bind (sim_span f4.good hx.mod hr.mod) fun w₅ m M f5 hm _ => ?_
    refine sim_bind (sim_promote f5.good (hx.follows f4.good f5) hm) fun w₆ x' X' f6 hx' _ => ?_
    have f46 := f5.trans f6
    refine sim_bind (sim_promote f6.good (hr.follows f4.good f46) (hm.follows f5.good f6)) fun w₇ r' A' f7 hr' _ => ?_
    exact sim_truedivSame fuel f7.good (hx'.follows f6.good f7) hr'

theorem sim_one (h : Good gen w) {m : Ptr} {M : Mod P} (hm : IsMod w m M) : Sim gen IsElt w (HElt.one m) (M.one : Out (Elt P R)) := by
  rw [HElt.one, Mod.one]
  refine sim_deref h hm fun w₁ o f1 ho => ?_
  refine sim_look f1.good fun w₂ f2 => ?_
  have ho := ho.follows f1.good f2
  have f02 := f1.trans f2
  rw [ho.basis.rn]
  cases M.basis.findIdx? RN.isRat with
  | none => exact sim_ret f2.good rfl
  | some g =>
    dsimp only
    refine sim_look f2.good fun w₃ f3 => ?_
    have ho := ho.follows f2.good f3
    have f03 := f02.trans f3
    have hm := hm.follows h f03
    rw [ho.basis.rn]
    cases (M.basis[g]?).bind RN.rational? with
    | none => exact sim_ret f3.good rfl
    | some q =>
      dsimp only
      split
      · split
        · refine sim_bind (sim_gen f3.good hm g) fun w₄ x X f4 hx _ => ?_
          exact sim_ret f4.good (hx.scale _).result
        · exact sim_ret f3.good rfl
      · split
        · exact sim_ret f3.good trivial
        · refine sim_bind (sim_gen f3.good hm g) fun w₄ x X f4 hx _ => ?_
          exact sim_ret f4.good (hx.scale _).result

/-! ### programs -/

/-- The values that the variables stand for. -/
structure IsVars (w : World P) (s : HVars R) (S : Vars P R) : Prop where
  num : ∀ d, IsNum w (s.num d) (S.num d)
  elt : ∀ d, IsElt w (s.elt d) (S.elt d)

theorem IsVars.follows {w w' : World P} (h : Good gen w) (hf : Follows gen w w') {s : HVars R} {S : Vars P R} (hs : IsVars w s S) : IsVars w' s S :=
  ⟨fun d => (hs.num d).follows h hf, fun d => (hs.elt d).follows h hf⟩

theorem IsVars.setNum {s : HVars R} {S : Vars P R} (hs : IsVars w s S) (d : ℕ) {p : Ptr} {x : RN} (hp : IsNum w p x) : IsVars w (s.setNum d p) (S.setNum d x) := by
  refine ⟨fun i => ?_, hs.elt⟩
  by_cases hi : i = d
  · subst hi; simpa [HVars.setNum, Vars.setNum] using hp
  · simpa [HVars.setNum, Vars.setNum, hi] using hs.num i

theorem IsVars.setElt {s : HVars R} {S : Vars P R} (hs : IsVars w s S) (d : ℕ) {p : HElt R} {x : Elt P R} (hp : IsElt w p x) : IsVars w (s.setElt d p) (S.setElt d x) := by
  refine ⟨hs.num, fun i => ?_⟩
  by_cases hi : i = d
  · subst hi; simpa [HVars.setElt, Vars.setElt] using hp
  · simpa [HVars.setElt, Vars.setElt, hi] using hs.elt i

/-- The result of a call. -/
structure IsCall (w : World P) (r : Out Bool × HVars R) (v : Out Bool × Vars P R) : Prop where
  out : r.1 = v.1
  vars : IsVars w r.2 v.2

theorem sim_assignNum (h : Good gen w) {s : HVars R} {S : Vars P R} (hs : IsVars w s S) (d : ℕ) {a : Act P Ptr} {v : Out RN} (ha : Sim gen IsNum w a v) :
    Sim gen IsCall w (s.assignNum d a) (.ok (S.assignNum d v)) := by
  refine sim_andThen ha fun w' r h1 h2 => ?_
  have hs := hs.follows h h1
  cases r <;> cases v <;> simp only [OutRel] at h2
  · exact sim_ret h1.good ⟨rfl, hs.setNum d h2⟩
  · subst h2; exact sim_ret h1.good ⟨rfl, hs⟩
  · exact sim_ret h1.good ⟨rfl, hs⟩
  · exact sim_ret h1.good ⟨rfl, hs⟩
  · exact sim_ret h1.good ⟨rfl, hs⟩

theorem sim_assignNum? (h : Good gen w) {s : HVars R} {S : Vars P R} (hs : IsVars w s S) (d : ℕ) {a : Act P (Option Ptr)} {v : Out (Option RN)}
    (ha : Sim gen (OptRel IsNum) w a v) : Sim gen IsCall w (s.assignNum? d a) (.ok (S.assignNum? d v)) := by
  refine sim_andThen ha fun w' r h1 h2 => ?_
  have hs := hs.follows h h1
  cases r <;> cases v <;> simp only [OutRel] at h2
  · rename_i a b
    cases a <;> cases b <;> simp only [OptRel] at h2
    · exact sim_ret h1.good ⟨rfl, hs⟩
    · exact sim_ret h1.good ⟨rfl, hs.setNum d h2⟩
  · subst h2; exact sim_ret h1.good ⟨rfl, hs⟩
  · exact sim_ret h1.good ⟨rfl, hs⟩
  · exact sim_ret h1.good ⟨rfl, hs⟩
  · exact sim_ret h1.good ⟨rfl, hs⟩

theorem sim_assign (h : Good gen w) {s : HVars R} {S : Vars P R} (hs : IsVars w s S) (d : ℕ) {a : Act P (HElt R)} {v : Out (Elt P R)} (ha : Sim gen IsElt w a v) :
    Sim gen IsCall w (s.assign d a) (.ok (S.assign d v)) := by
  refine sim_andThen ha fun w' r h1 h2 => ?_
  have hs := hs.follows h h1
  cases r <;> cases v <;> simp only [OutRel] at h2
  · exact sim_ret h1.good ⟨rfl, hs.setElt d h2⟩
  · subst h2; exact sim_ret h1.good ⟨rfl, hs⟩
  · exact sim_ret h1.good ⟨rfl, hs⟩
  · exact sim_ret h1.good ⟨rfl, hs⟩
  · exact sim_ret h1.good ⟨rfl, hs⟩

theorem sim_assign? (h : Good gen w) {s : HVars R} {S : Vars P R} (hs : IsVars w s S) (d : ℕ) {a : Act P (Option (HElt R))} {v : Out (Option (Elt P R))}
    (ha : Sim gen (OptRel IsElt) w a v) : Sim gen IsCall w (s.assign? d a) (.ok (S.assign? d v)) := by
  refine sim_andThen ha fun w' r h1 h2 => ?_
  have hs := hs.follows h h1
  cases r <;> cases v <;> simp only [OutRel] at h2
  · rename_i a b
    cases a <;> cases b <;> simp only [OptRel] at h2
    · exact sim_ret h1.good ⟨rfl, hs⟩
    · exact sim_ret h1.good ⟨rfl, hs.setElt d h2⟩
  · subst h2; exact sim_ret h1.good ⟨rfl, hs⟩
  · exact sim_ret h1.good ⟨rfl, hs⟩
  · exact sim_ret h1.good ⟨rfl, hs⟩
  · exact sim_ret h1.good ⟨rfl, hs⟩

theorem sim_step (h : Good gen w) {s : HVars R} {S : Vars P R} (hs : IsVars w s S) (d : ℕ) {a : Act P (Step (HElt R))} {X : Step (Elt P R)}
    (ha : Sim gen IsStep w a (.ok X)) : Sim gen IsCall w (s.inplace d a) (.ok (S.inplace d X)) := by
  rw [HVars.inplace]
  rw [show Out.ok (S.inplace d X) = (Out.ok X >>= fun X => .ok (S.inplace d X)) from rfl]
  refine sim_bind ha fun w' x X f hx _ => ?_
  exact sim_pure f.good ⟨by rw [hx.out]; rfl, (hs.follows h f).setElt d hx.self⟩

theorem sim_scale (h : Good gen w) {s : HVars R} {S : Vars P R} (hs : IsVars w s S) (d : ℕ) (f : R → Step R) :
    Sim gen IsCall w (s.scale d ((s.elt d).scale f)) (.ok (S.inplace d ((S.elt d).scale f))) := by
  have hx := (hs.elt d).scale f
  exact sim_pure h ⟨by rw [hx.out]; rfl, hs.setElt d hx.self⟩

/-- The calls that are functions of the library. -/
def HCmd.IsCall : Cmd P R → Prop
  | .random _ _ => False
  | _ => True

theorem sim_exec [Build] (h : Good gen w) {s : HVars R} {S : Vars P R} (hs : IsVars w s S) (c : Cmd P R) (hc : HCmd.IsCall c) :
    Sim gen IsCall w ((HCmd.call c).exec s) (.ok (c.exec S)) := by
  cases c with
  | random d i => exact hc.elim
  | rational d q => exact sim_assignNum h hs d (sim_rational h q)
  | numMul d a b => exact sim_assignNum h hs d (sim_mul h (hs.num a) (hs.num b))
  | numDiv d a b => exact sim_assignNum? h hs d (sim_quotient h (hs.num a) (hs.num b))
  | gen d ring gens g =>
    refine sim_assign h hs d ?_
    refine sim_bind (sim_make h ring ⟨fun p hp => ?_, ?_⟩) fun w₁ m M f1 hm _ => ?_
    · obtain ⟨i, -, rfl⟩ := List.mem_map.1 hp
      exact (hs.num i).held
    · rw [List.map_map]; exact List.map_congr_left fun i _ => (hs.num i).rn
    refine sim_deref f1.good hm fun w₂ o f2 ho => ?_
    have hm := hm.follows f1.good f2
    refine sim_look f2.good fun w₃ f3 => ?_
    have hm := hm.follows f2.good f3
    have ho := ho.follows f2.good f3
    have hg := (hs.num g).follows h ((f1.trans f2).trans f3)
    have e : (o.basis.findIdx fun p => w₃.st.base.same p (s.num g)) = M.basis.idxOf (S.num g) := by
      rw [← ho.basis.rn, List.idxOf, List.findIdx_map]
      refine findIdx_agree fun p hp => ?_
      rw [same_eq f3.good (ho.basis.held p hp) hg.held, hg.rn]
      rfl
    rw [e]
    exact sim_gen f3.good hm _
  | linear d ring terms =>
    refine sim_assign h hs d ?_
    refine sim_bind (sim_make h ring ⟨fun p hp => ?_, ?_⟩) fun w₁ m M f1 hm _ => ?_
    · obtain ⟨i, -, rfl⟩ := List.mem_map.1 hp
      exact (hs.num _).held
    · rw [List.map_map]; exact List.map_congr_left fun i _ => (hs.num _).rn
    refine sim_deref f1.good hm fun w₂ o f2 ho => ?_
    have hm := hm.follows f1.good f2
    refine sim_look f2.good fun w₃ f3 => ?_
    have hm := hm.follows f2.good f3
    have ho := ho.follows f2.good f3
    have hs := hs.follows h ((f1.trans f2).trans f3)
    have e : (o.basis.map fun p => ((terms.find? fun t => w₃.st.base.same (s.num t.1) p).map Prod.snd).getD 0) =
        M.basis.map fun g => ((terms.find? fun t => S.num t.1 = g).map Prod.snd).getD 0 := by
      rw [← ho.basis.rn, List.map_map]
      refine List.map_congr_left fun p hp => ?_
      simp only [Function.comp]
      congr 3
      funext t
      rw [same_eq f3.good (hs.num t.1).held (ho.basis.held p hp), (hs.num t.1).rn]
    rw [e]
    exact sim_ofCoefficients f3.good hm _
  | scalar d ring c => exact sim_assign h hs d (sim_ofScalar h ring c)
  | copy d a => exact sim_pure h ⟨rfl, hs.setElt d (hs.elt a)⟩
  | zero d a => exact sim_assign h hs d (sim_zero h (hs.elt a).mod)
  | one d a => exact sim_assign h hs d (sim_one h (hs.elt a).mod)
  | neg d a => exact sim_pure h ⟨rfl, hs.setElt d (hs.elt a).neg⟩
  | add d a => exact sim_step h hs d (sim_addAssign h (hs.elt d) (hs.elt a))
  | sub d a => exact sim_step h hs d (sim_subAssign h (hs.elt d) (hs.elt a))
  | mul d a => exact sim_step h hs d (sim_mulAssign h (hs.elt d) (hs.elt a))
  | mulNum d r => exact sim_step h hs d (sim_mulRNAssign h (hs.elt d) (hs.num r))
  | mulZ d n => exact sim_scale h hs d _
  | mulQ d n => exact sim_scale h hs d _
  | mulR d n => exact sim_scale h hs d _
  | divZ d n => exact sim_scale h hs d _
  | divQ d n => exact sim_scale h hs d _
  | divR d n => exact sim_scale h hs d _
  | promote d a =>
    rw [HCmd.exec, Cmd.exec]
    refine sim_deref h (hs.elt d).mod fun w₁ o f1 ho => ?_
    have hs := hs.follows h f1
    refine sim_deref f1.good (hs.elt a).mod fun w₂ o' f2 ho' => ?_
    have hs := hs.follows f1.good f2
    have ho := ho.follows f1.good f2
    refine sim_look f2.good fun w₃ f3 => ?_
    have hs := hs.follows f2.good f3
    have ho := ho.follows f2.good f3
    have ho' := ho'.follows f2.good f3
    rw [submodule_eq f3.good ho.basis ho'.basis]
    rw [show ((S.elt d).mod.basis.all fun g => (S.elt a).mod.basis.any fun s => g = s) = (S.elt d).mod.submodule (S.elt a).mod from rfl]
    split
    · exact sim_assign f3.good hs d (sim_promote f3.good (hs.elt d) (hs.elt a).mod)
    · exact sim_pure f3.good ⟨rfl, hs⟩
  | simplify d => exact sim_assign h hs d (sim_simplify h (hs.elt d))
  | truediv d a b fuel => exact sim_assign? h hs d (sim_truediv fuel h (hs.elt a) (hs.elt b))

theorem sim_start (h : Good gen w) : Sim gen IsVars w (HVars.start : Act P (HVars R)) (.ok (Vars.init : Vars P R)) := by
  rw [HVars.start]
  have e : (Out.ok (Vars.init : Vars P R)) = (Out.ok (RN.rat 1) >>= fun _ => Mod.make (CRing.default : P) [] >>= fun _ => Out.ok (Vars.init : Vars P R)) := rfl
  rw [e]
  refine sim_bind (sim_rational h 1) fun w₁ p x f1 hp hx => ?_
  refine sim_bind (sim_make f1.good _ ⟨by simp, rfl⟩) fun w₂ m M f2 hm hM => ?_
  cases hx
  have hM : M = ⟨CRing.default, []⟩ := by cases hM; rfl
  subst hM
  exact sim_pure f2.good ⟨fun _ => hp.follows f1.good f2, fun _ => ⟨hm, rfl⟩⟩

end ExactReal.Heap
