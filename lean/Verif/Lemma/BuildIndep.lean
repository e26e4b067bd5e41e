import Verif.Props.TrueDiv
import Verif.Model.Program

/-!
# Builds with and without assertions

Operations on well-formed elements do not depend on whether assertions are compiled in.
-/

namespace ExactReal

variable {P : Type} [DecidableEq P] {R : Type} [CommRing R] [DecidableEq R] [CRing P R] [LawfulCRing P]

theorem assertThat_true {c : Bool} (h : c = true) (b b' : Build) : @assertThat b c = @assertThat b' c := by
  rw [@Elt.assertThat_eq_ok b c h, @Elt.assertThat_eq_ok b' c h]

theorem checkArgument_build {b b' : Build} (hb : b.checks = b'.checks) (c : Bool) : @checkArgument b c = @checkArgument b' c := by
  unfold checkArgument; rw [hb]

namespace Elt

omit [LawfulCRing P] in
theorem promoteLoop_build (b b' : Build) {ring src : P} {ours : List (RN × R)} {theirs : List RN}
    (h1 : (ours.map Prod.fst).Pairwise fun g h => Precedes g.mult h.mult) (h2 : theirs.Pairwise fun g h => Precedes g.mult h.mult)
    (w1 : ∀ t ∈ ours, t.1.WF) (w2 : ∀ t ∈ theirs, t.WF) (hsub : ∀ t ∈ ours, t.2 ≠ 0 → t.1 ∈ theirs) :
    @promoteLoop P _ R _ _ _ b ring src ours theirs = @promoteLoop P _ R _ _ _ b' ring src ours theirs := by
  induction ours, theirs using promoteLoop.induct with
  | case1 => simp only [promoteLoop]
  | case2 t theirs ih =>
    have := ih h1 (List.pairwise_cons.1 h2).2 w1 (fun t ht => w2 t (by simp [ht])) (by simp)
    simp only [promoteLoop, this]
  | case3 g c ours ih =>
    have hc0 : c = 0 := by
      by_contra hc
      have := hsub (g, c) (by simp) hc
      simp at this
    have := ih (by simp only [List.map_cons, List.pairwise_cons] at h1; exact h1.2) h2 (fun t ht => w1 t (by simp [ht])) w2
      (fun t ht => hsub t (by simp [ht]))
    simp only [promoteLoop, this, assertThat_true (c := decide (c = 0)) (by simpa using hc0) b b']
  | case4 c ours g theirs ih =>
    simp only [List.map_cons, List.pairwise_cons] at h1
    rw [List.pairwise_cons] at h2
    have := ih h1.2 h2.2 (fun t ht => w1 t (by simp [ht])) (fun t ht => w2 t (by simp [ht]))
      (by
        intro t ht htn
        rcases List.mem_cons.1 (hsub t (by simp [ht]) htn) with he | hm
        · exfalso
          have := h1.1 t.1 (List.mem_map.2 ⟨t, ht, rfl⟩)
          rw [he] at this; exact Precedes.irrefl _ this
        · exact hm)
    simp only [promoteLoop, if_true, this]
  | case5 g c ours t theirs hgt hlt ih =>
    simp only [List.map_cons, List.pairwise_cons] at h1
    have := ih h1.2 h2 (fun t ht => w1 t (by simp [ht])) w2 (fun t ht => hsub t (by simp [ht]))
    simp only [promoteLoop, if_neg hgt, if_pos hlt, this]
  | case6 g c ours t theirs hgt hlt ih =>
    have hnp : ¬ Precedes g.mult t.mult := by
      rw [← RN.lt_iff (w1 (g, c) (by simp)) (w2 t (by simp))]; exact hlt
    have h1' := h1
    simp only [List.map_cons, List.pairwise_cons] at h1'
    have := ih h1 (List.pairwise_cons.1 h2).2 w1 (fun t ht => w2 t (by simp [ht]))
      (by
        intro s hs hsn
        rcases List.mem_cons.1 (hsub s hs hsn) with he | hm
        · exfalso
          rcases List.mem_cons.1 hs with rfl | hs'
          · exact hgt he
          · have := h1'.1 s.1 (List.mem_map.2 ⟨s, hs', rfl⟩)
            rw [he] at this; exact hnp this
        · exact hm)
    simp only [promoteLoop, if_neg hgt, if_neg hlt, this]

omit [DecidableEq P] [CRing P R] [LawfulCRing P] [DecidableEq R] [CommRing R] in
theorem ofCoefficients_build (b b' : Build) {m : Mod P} {cs : List R} (h : cs.length = m.basis.length) :
    @ofCoefficients P R b m cs = @ofCoefficients P R b' m cs := by
  unfold ofCoefficients
  rw [assertThat_true (by simpa using h) b b']

theorem promote_build (b b' : Build) {x : Elt P R} {m : Mod P} (hx : x.WF) (hm : m.WF)
    (hsub : ∀ g ∈ x.mod.basis, x.fs g ≠ 0 → g ∈ m.basis) : @promote P _ R _ _ _ b x m = @promote P _ R _ _ _ b' x m := by
  unfold promote
  split
  · rfl
  split
  · rfl
  have h1 : (x.terms.map Prod.fst).Pairwise fun g h => Precedes g.mult h.mult := by rw [terms_fst hx.length]; exact hx.mod.sorted
  have hs : ∀ t ∈ x.terms, t.2 ≠ 0 → t.1 ∈ m.basis := fun t ht hn =>
    hsub t.1 (terms_mem_fst ht) (by rw [hx.fs_apply (g := t.1) (c := t.2) ht]; exact hn)
  have hw : ∀ t ∈ x.terms, t.1.WF := fun t ht => hx.mod.gens _ (terms_mem_fst ht)
  rw [promoteLoop_build b b' h1 hm.sorted hw hm.gens hs]
  rcases @promoteLoop_outcomes P _ R _ _ _ _ b' m.par x.mod.par x.terms m.basis with ⟨cs, hcs⟩ | hcs
  · rw [hcs, Out.ok_bind, Out.ok_bind]
    obtain ⟨hl, -, -⟩ := @promoteLoop_spec P _ R _ _ _ _ b' _ _ _ _ _ h1 hm.sorted hw hm.gens hs hcs
    exact ofCoefficients_build b b' hl
  · rw [hcs]; rfl

theorem promote_span_build (b b' : Build) {x y : Elt P R} (hx : x.WF) (hy : y.WF) {s : Mod P} (hs : Mod.span x.mod y.mod = .ok s) :
    @promote P _ R _ _ _ b x s = @promote P _ R _ _ _ b' x s ∧ @promote P _ R _ _ _ b y s = @promote P _ R _ _ _ b' y s := by
  obtain ⟨ws, hmem, -⟩ := Mod.span_ok (R := R) hx.mod hy.mod hs
  exact ⟨promote_build b b' hx ws fun g hg _ => (hmem g).2 (.inl hg), promote_build b b' hy ws fun g hg _ => (hmem g).2 (.inr hg)⟩

theorem addAssign_build (b b' : Build) {x y : Elt P R} (hx : x.WF) (hy : y.WF) : @addAssign P _ R _ _ _ b x y = @addAssign P _ R _ _ _ b' x y := by
  unfold addAssign
  split
  · cases hs : Mod.span x.mod y.mod with
    | ok s =>
      obtain ⟨h1, h2⟩ := promote_span_build b b' hx hy hs
      simp only [h1, h2]
    | _ => rfl
  · rfl

theorem add_build (b b' : Build) {x y : Elt P R} (hx : x.WF) (hy : y.WF) : @add P _ R _ _ _ b x y = @add P _ R _ _ _ b' x y := by
  unfold add; rw [addAssign_build b b' hx hy]

theorem subAssign_build (b b' : Build) {x y : Elt P R} (hx : x.WF) (hy : y.WF) : @subAssign P _ R _ _ _ b x y = @subAssign P _ R _ _ _ b' x y :=
  addAssign_build b b' hx (neg_spec hy).1

theorem sub_build (b b' : Build) {x y : Elt P R} (hx : x.WF) (hy : y.WF) : @sub P _ R _ _ _ b x y = @sub P _ R _ _ _ b' x y := by
  unfold sub; rw [subAssign_build b b' hx hy]

omit [LawfulCRing P] [DecidableEq P] [DecidableEq R] [CRing P R] in
theorem mulSame_self (b b' : Build) (x y : Elt P R) : (@mulSame P R _ b x y).self = (@mulSame P R _ b' x y).self := by
  unfold mulSame
  split
  · dsimp only
    split <;> rfl
  · rfl

theorem mulSame_build (b b' : Build) {x y : Elt P R} (hx : x.WF) (hy : y.WF) (hp : x.mod.par = y.mod.par) :
    @mulSame P R _ b x y = @mulSame P R _ b' x y := by
  have hself := mulSame_self b b' x y
  rcases @mulSame_cases R _ _ P _ _ _ b _ _ hx hy hp with ⟨z, h1, -, -, -, h2, -⟩ | ⟨h1, g, hg, h, hh, h2⟩ <;>
    rcases @mulSame_cases R _ _ P _ _ _ b' _ _ hx hy hp with ⟨z', h1', -, -, -, h2', -⟩ | ⟨h1', g', hg', h', hh', h2'⟩
  · rw [h1, h1'] at hself
    rw [h1, h1']
    have : z = z' := hself
    rw [this]
  · obtain ⟨k, hk⟩ := h2 g' hg' h' hh'
    rw [hk] at h2'; cases h2'
  · obtain ⟨k, hk⟩ := h2' g hg h hh
    rw [hk] at h2; cases h2
  · rw [h1, h1']

theorem mulAssign_build (b b' : Build) {x y : Elt P R} (hx : x.WF) (hy : y.WF) : @mulAssign P _ R _ _ _ b x y = @mulAssign P _ R _ _ _ b' x y := by
  unfold mulAssign
  split
  · rfl
  split
  · rfl
  split
  · rcases LawfulCRing.compositum_outcomes (P := P) x.mod.par y.mod.par with ⟨r, hr⟩ | hr
    · obtain ⟨u, hu, wu, mu, -⟩ := @promote_ring R _ _ P _ _ _ b x hx r fun c hc => (LawfulCRing.compositum_left hr (hx.mem c hc)).1
      obtain ⟨w, hw, ww, mw, -⟩ := @promote_ring R _ _ P _ _ _ b y hy r fun c hc => (LawfulCRing.compositum_right hr (hy.mem c hc)).1
      have hu' : @promote P _ R _ _ _ b' x ⟨r, x.mod.basis⟩ = .ok u := by
        rw [← hu]; exact promote_build b' b hx ⟨hx.mod.gens, hx.mod.sorted⟩ fun g hg _ => hg
      have hw' : @promote P _ R _ _ _ b' y ⟨r, y.mod.basis⟩ = .ok w := by
        rw [← hw]; exact promote_build b' b hy ⟨hy.mod.gens, hy.mod.sorted⟩ fun g hg _ => hg
      simp only [hr, Out.ok_bind, Mod.make_self hy.mod, hw, hw', Mod.make_self hx.mod, hu, hu']
      exact mulSame_build b b' wu ww (by rw [mu, mw])
    · rw [hr]; rfl
  · rename_i hp
    exact mulSame_build b b' hx hy (not_not.1 hp)

theorem mul_build (b b' : Build) {x y : Elt P R} (hx : x.WF) (hy : y.WF) : @mul P _ R _ _ _ b x y = @mul P _ R _ _ _ b' x y := by
  unfold mul; rw [mulAssign_build b b' hx hy]

theorem eq_build (b b' : Build) {x y : Elt P R} (hx : x.WF) (hy : y.WF) : @eq P _ R _ _ _ b x y = @eq P _ R _ _ _ b' x y := by
  unfold eq
  split
  · cases hs : Mod.span x.mod y.mod with
    | ok s =>
      obtain ⟨h1, h2⟩ := promote_span_build b b' hx hy hs
      simp only [Out.ok_bind, h1, h2]
    | _ => rfl
  · rfl

theorem simplify_build (b b' : Build) {x : Elt P R} (hx : x.WF) : @simplify P _ R _ _ _ b x = @simplify P _ R _ _ _ b' x := by
  unfold simplify
  split
  · rfl
  dsimp only
  split
  · rfl
  rcases Mod.make_outcomes x.mod.par ((x.terms.filter fun t => t.2 ≠ 0).map Prod.fst) with ⟨m, hm⟩ | hm
  · rw [hm, Out.ok_bind, Out.ok_bind]
    have hw : ∀ g ∈ (x.terms.filter fun t => t.2 ≠ 0).map Prod.fst, g.WF := by
      intro g hg
      obtain ⟨t, ht, rfl⟩ := List.mem_map.1 hg
      exact hx.mod.gens _ (terms_mem_fst (List.mem_filter.1 ht).1)
    obtain ⟨-, h2, h3⟩ := Mod.make_ok hw hm
    refine promote_build b b' hx h3 fun g hg hn => h2.mem_iff.2 ?_
    rw [← terms_fst hx.length] at hg
    obtain ⟨t, ht, rfl⟩ := List.mem_map.1 hg
    refine List.mem_map_of_mem (List.mem_filter.2 ⟨ht, ?_⟩)
    rw [hx.fs_apply (g := t.1) (c := t.2) ht] at hn
    simpa using hn
  · rw [hm]; rfl

end Elt
end ExactReal
