import Verif.Lemma.BuildIndep

/-!
# Division in builds with and without assertions
-/

namespace ExactReal

theorem Out.bind_congr_ok {α β : Type} (x : Out α) {f g : α → Out β} (h : ∀ a, x = .ok a → f a = g a) : (x >>= f) = (x >>= g) := by
  cases x with
  | ok a => exact h a rfl
  | _ => rfl

namespace Elt

variable {P : Type} [DecidableEq P] {R : Type} [CommRing R] [DecidableEq R] [CRing P R] [LawfulCRing P]
variable [LawfulScalar P]


omit [LawfulCRing P] [LawfulScalar P] in
theorem truedivLoop_zero (b : Build) {p : P} {y r q : Elt P R} (n : ℕ) (r0 : r.toBool = false) :
    @truedivLoop P _ R _ _ _ b p y (n + 1) r q = .ok (some q) := by
  rw [truedivLoop]
  simp only [r0, Bool.not_false, if_true]

omit [LawfulCRing P] [LawfulScalar P] in
theorem truedivLoop_throws (b : Build) {p : P} {y r q : Elt P R} (n : ℕ) (r0 : r.toBool = true) {t : R × RN} (hl : r.leading = .ok t) {e : Exc}
    (hl' : y.leading = .throws e) : @truedivLoop P _ R _ _ _ b p y (n + 1) r q = .throws e := by
  rw [truedivLoop]
  simp only [r0, Bool.not_true, Bool.false_eq_true, if_false, hl, hl', Out.ok_bind]
  rfl

theorem truedivLoop_eq (b : Build) {p : P} {y r q : Elt P R} (n : ℕ) (r0 : r.toBool = true) {a c : R} {g k : RN} (hl : r.leading = .ok (a, g))
    (hl' : y.leading = .ok (c, k)) :
    @truedivLoop P _ R _ _ _ b p y (n + 1) r q = (g.div k >>= fun generatorQuotient => match generatorQuotient with
        | none => .ok none
        | Option.some gq =>
          if CRing.quo P a c * c ≠ a then @assertThat b (!CRing.isField P) >>= fun _ => .ok none
          else @add P _ R _ _ _ b q (term p gq (CRing.quo P a c)) >>= fun quotient =>
            @mul P _ R _ _ _ b (term p gq (CRing.quo P a c)) y >>= fun product =>
            @sub P _ R _ _ _ b r product >>= fun remainder => @truedivLoop P _ R _ _ _ b p y n remainder quotient) := by
  rw [truedivLoop]
  simp only [r0, Bool.not_true, Bool.false_eq_true, if_false, hl, hl', Out.ok_bind]
  congr 1
  funext gq
  cases gq with
  | none => rfl
  | some gq =>
    dsimp only
    have hmul : CRing.imulR P (1 : R) (CRing.quo P a c) = .done (CRing.quo P a c) := (LawfulScalar.imulR_iff _ _ _).2 (one_mul _).symm
    simp only [make_singleton, Out.ok_bind, Mod.gen, List.length_singleton, Nat.lt_one_iff, if_true]
    have : (imulR (⟨⟨p, [gq]⟩, (List.replicate 1 0).set 0 1⟩ : Elt P R) (CRing.quo P a c)).result = .ok (term p gq (CRing.quo P a c)) := by
      simp [imulR, scale, scaleLoop, hmul, Step.done, Step.result, term]
    rw [this]
    simp only [Out.ok_bind]

theorem truedivLoop_build (b b' : Build) {p : P} {y : Elt P R} (wy : y.WF) (py : y.mod.par = p) (n : ℕ) {r q : Elt P R}
    (wr : r.WF) (pr : r.mod.par = p) (wq : q.WF) (pq : q.mod.par = p) :
    @truedivLoop P _ R _ _ _ b p y n r q = @truedivLoop P _ R _ _ _ b' p y n r q := by
  induction n generalizing r q with
  | zero => simp only [truedivLoop]
  | succ n ih =>
    by_cases r0 : r.toBool = true
    swap
    · rw [truedivLoop_zero b n (by simpa using r0), truedivLoop_zero b' n (by simpa using r0)]
    obtain ⟨a, g, hl, -, ha, hg, -⟩ := leading_spec wr r0
    by_cases y0 : y.toBool = true
    swap
    · have hy' : y.leading = .throws .logicError := by
        unfold leading
        rw [List.find?_eq_none.2]
        intro t ht
        have := (toBool_eq_false_iff y).1 (by simpa using y0) _ (terms_mem_snd (List.mem_reverse.1 ht))
        simp [this]
      rw [truedivLoop_throws b n r0 hl hy', truedivLoop_throws b' n r0 hl hy']
    obtain ⟨c, k, hl', -, hc, hk, -⟩ := leading_spec wy y0
    rw [truedivLoop_eq b n r0 hl hl', truedivLoop_eq b' n r0 hl hl']
    obtain ⟨-, wg⟩ := fs_support_WF wr (by rw [hg]; exact ha : r.fs g ≠ 0)
    obtain ⟨-, wk⟩ := fs_support_WF wy (by rw [hk]; exact hc : y.fs k ≠ 0)
    refine Out.bind_congr_ok _ fun gq hgq => ?_
    cases gq with
    | none => rfl
    | some gq =>
      dsimp only
      by_cases hne : CRing.quo P a c * c ≠ a
      · have hf : CRing.isField P = false := by
          by_contra h
          exact hne (LawfulCRing.quo_field (by simpa using h) hc)
        rw [if_pos hne, if_pos hne, assertThat_true (c := !CRing.isField P) (by simp [hf]) b b']
      · rw [if_neg hne, if_neg hne]
        have hquo := not_not.1 hne
        have gmem : a ∈ LawfulCRing.mem p := by rw [← pr, ← hg]; exact coeff_mem_of_fs wr g
        have kmem : c ∈ LawfulCRing.mem p := by rw [← py, ← hk]; exact coeff_mem_of_fs wy k
        obtain ⟨wgq, -⟩ := RN.div_eq_some wg wk hgq
        have wt : (term p gq (CRing.quo P a c)).WF := term_WF wgq (LawfulCRing.quo_mem gmem kmem hquo hc)
        rw [add_build b b' wq wt]
        refine Out.bind_congr_ok _ fun q' hq' => ?_
        rw [mul_build b b' wt wy]
        refine Out.bind_congr_ok _ fun m hm => ?_
        have wm := (@mul_ok R _ _ P _ _ _ b' _ _ _ wt wy hm).1
        have pm := @mul_par P _ R _ _ _ _ b' _ _ _ wt wy p rfl py hm
        rw [sub_build b b' wr wm]
        refine Out.bind_congr_ok _ fun r' hr' => ?_
        exact ih (@sub_ok P _ R _ _ _ _ b' _ _ _ wr wm hr').1 (@add_par P _ R _ _ _ _ b' _ _ _ wr (neg_spec wm).1 p pr (by rw [(neg_spec wm).2.1]; exact pm) hr')
          (@add_ok P _ R _ _ _ _ b' _ _ _ wq wt hq').1 (@add_par P _ R _ _ _ _ b' _ _ _ wq wt p pq rfl hq')

theorem truedivSame_build {b b' : Build} (hb : b.checks = b'.checks) {x y : Elt P R} (hx : x.WF) (hy : y.WF) (hm : x.mod = y.mod) (fuel : ℕ) :
    @truedivSame P _ R _ _ _ b fuel x y = @truedivSame P _ R _ _ _ b' fuel x y := by
  unfold truedivSame
  rw [checkArgument_build hb, truedivLoop_build b b' hy (by rw [hm]) fuel hx rfl (zero_WF hx.mod) rfl]

theorem truediv_build {b b' : Build} (hb : b.checks = b'.checks) {x y : Elt P R} (hx : x.WF) (hy : y.WF) (fuel : ℕ) :
    @truediv P _ R _ _ _ b fuel x y = @truediv P _ R _ _ _ b' fuel x y := by
  by_cases hm : x.mod = y.mod
  · unfold truediv
    rw [checkArgument_build hb, truedivLoop_build b b' hy (by rw [hm]) fuel hx rfl (zero_WF hx.mod) rfl]
    simp only [hm, ne_eq, not_true_eq_false, if_false]
  · unfold truediv
    simp only [ne_eq, hm, not_false_eq_true, if_true]
    rw [checkArgument_build hb]
    refine Out.bind_congr_ok _ fun _ _ => ?_
    refine if_congr Iff.rfl rfl ?_
    refine Out.bind_congr_ok _ fun s hs => ?_
    obtain ⟨h1, h2⟩ := promote_span_build b b' hx hy hs
    obtain ⟨x', e1, wx', mx', -⟩ := @promote_span_left P _ R _ _ _ _ b' _ _ _ hx hy.mod hs
    obtain ⟨y', e2, wy', my', -⟩ := @promote_span_right P _ R _ _ _ _ b' _ _ _ hx.mod hy hs
    simp only [Out.ok_bind, h1, h2, e1, e2]
    exact truedivSame_build hb wx' wy' (by rw [mx', my']) fuel

end Elt
end ExactReal
