import Verif.Props.Program
import Verif.Spec.Provenance

/-!
# C97: results involve no other random numbers than their operands
-/

namespace ExactReal
open Finsupp

namespace RN

theorem mul_involved {x y z : RN} (hx : x.WF) (hy : y.WF) (h : x.mul y = .ok z) : z.involved = x.involved ∪ y.involved := by
  ext i
  simp only [involved, Set.mem_setOf_eq, Set.mem_union, Props.mul_mult hx hy h, Finsupp.add_apply]
  omega

theorem div_involved {x y z : RN} (hx : x.WF) (hy : y.WF) (h : x.div y = .ok (some z)) : z.involved ⊆ x.involved := by
  obtain ⟨hz, hm⟩ := Props.div_sound hx hy h
  rw [mul_involved hz hy hm]
  exact Set.subset_union_left

end RN

namespace Elt
variable {P : Type} [DecidableEq P] {R : Type} [CommRing R] [DecidableEq R] [CRing P R] [LawfulCRing P]

omit [DecidableEq P] [CommRing R] [DecidableEq R] [CRing P R] [LawfulCRing P] in
theorem involved_congr {x y : Elt P R} (h : x.mod.basis = y.mod.basis) : x.involved = y.involved := by rw [involved, involved, h]

omit [DecidableEq P] [CommRing R] [DecidableEq R] [CRing P R] [LawfulCRing P] in
theorem involved_subset {x y : Elt P R} (h : ∀ g ∈ x.mod.basis, g ∈ y.mod.basis) : x.involved ⊆ y.involved :=
  fun _ ⟨g, hg, hi⟩ => ⟨g, h g hg, hi⟩

variable [build : Build]

theorem add_involved {x y z : Elt P R} (hx : x.WF) (hy : y.WF) (h : x.add y = .ok z) : z.involved = x.involved ∪ y.involved := by
  ext i
  simp only [involved, Set.mem_setOf_eq, Set.mem_union, (add_mod hx hy h).1]
  constructor
  · rintro ⟨g, hg | hg, hi⟩
    · exact .inl ⟨g, hg, hi⟩
    · exact .inr ⟨g, hg, hi⟩
  · rintro (⟨g, hg, hi⟩ | ⟨g, hg, hi⟩)
    · exact ⟨g, .inl hg, hi⟩
    · exact ⟨g, .inr hg, hi⟩

theorem sub_involved {x y z : Elt P R} (hx : x.WF) (hy : y.WF) (h : x.sub y = .ok z) : z.involved = x.involved ∪ y.involved := by
  obtain ⟨h1, h2, -⟩ := neg_spec hy
  rw [add_involved hx h1 h, involved_congr (x := y.neg) (y := y) (by rw [h2])]

theorem mul_involved {x y z : Elt P R} (hx : x.WF) (hy : y.WF) (h : x.mul y = .ok z) : z.involved ⊆ x.involved ∪ y.involved := by
  rcases mul_cases hx hy with ⟨z', h1, -, -, h2⟩ | ⟨x', h1, -⟩
  · have e : z' = z := by rw [mul, h1] at h; cases h; rfl
    subst e
    rcases h2 with ⟨-, rfl⟩ | ⟨-, -, rfl⟩ | ⟨-, -, -, -, hk⟩
    · exact Set.subset_union_left
    · exact Set.subset_union_right
    · rintro i ⟨k, hk', hi⟩
      obtain ⟨g, hg, g', hg', e⟩ := (hk k).1 hk'
      rw [RN.mul_involved (hx.mod.gens g hg) (hy.mod.gens g' hg') e] at hi
      exact hi.imp (fun h => ⟨g, hg, h⟩) fun h => ⟨g', hg', h⟩
  · rw [mul, h1] at h; cases h

theorem truedivLoop_involved {p : P} {y : Elt P R} (wy : y.WF) (py : y.mod.par = p) (y0 : y.toBool = true) [LawfulScalar P] (n : ℕ) {r q z : Elt P R}
    (wr : r.WF) (pr : r.mod.par = p) (wq : q.WF) (h : truedivLoop p y n r q = .ok (some z)) :
    z.involved ⊆ r.involved ∪ y.involved ∪ q.involved := by
  induction n generalizing r q with
  | zero => rw [truedivLoop] at h; cases h
  | succ n ih =>
    by_cases r0 : r.toBool = true
    · obtain ⟨a, g, b, k, ⟨ha, hg, -⟩, ⟨hb, hk, -⟩, he⟩ := truedivLoop_succ (p := p) (q := q) n wr r0 wy y0
      rw [he, Out.bind_eq_ok] at h
      obtain ⟨gq, hgq, h⟩ := h
      cases gq with
      | none => cases h
      | some gq =>
        dsimp only at h
        split at h
        · rw [Out.bind_eq_ok] at h; obtain ⟨-, -, h⟩ := h; cases h
        · rename_i hquo
          rw [not_not] at hquo
          simp only [Out.bind_eq_ok] at h
          obtain ⟨q', hq', m, hm, r', hr', h⟩ := h
          have mem : ∀ {w : Elt P R}, w.WF → w.mod.par = p → ∀ g, w.fs g ≠ 0 → w.fs g ∈ LawfulCRing.mem p := by
            intro w ww pw g hg
            rw [← pw]
            have hgb : g ∈ w.mod.basis := (fs_support_WF ww hg).1
            rw [← terms_fst ww.length, List.mem_map] at hgb
            obtain ⟨⟨g', c⟩, ht, rfl⟩ := hgb
            rw [ww.fs_apply ht]
            exact ww.mem c (terms_mem_snd ht)
          have gmem : a ∈ LawfulCRing.mem p := hg ▸ mem wr pr g (by rw [hg]; exact ha)
          have kmem : b ∈ LawfulCRing.mem p := hk ▸ mem wy py k (by rw [hk]; exact hb)
          obtain ⟨gb, wg⟩ := fs_support_WF wr (by rw [hg]; exact ha : r.fs g ≠ 0)
          obtain ⟨kb, wk⟩ := fs_support_WF wy (by rw [hk]; exact hb : y.fs k ≠ 0)
          obtain ⟨wgq, -⟩ := RN.div_eq_some wg wk hgq
          have wt : (term p gq (CRing.quo P a b)).WF := term_WF wgq (LawfulCRing.quo_mem gmem kmem hquo hb)
          have wm := (mul_ok wt wy hm).1
          have pm := mul_par wt wy (p := p) rfl py hm
          have pr' : r'.mod.par = p := add_par wr (neg_spec wm).1 pr (by rw [(neg_spec wm).2.1]; exact pm) hr'
          have it : (term p gq (CRing.quo P a b)).involved ⊆ r.involved := by
            rintro i ⟨k, hk, hi⟩
            rw [term, List.mem_singleton] at hk
            subst hk
            exact ⟨g, gb, RN.div_involved wg wk hgq hi⟩
          have im := mul_involved wt wy hm
          refine (ih (sub_ok wr wm hr').1 pr' (add_ok wq wt hq').1 h).trans ?_
          rw [sub_involved wr wm hr', add_involved wq wt hq']
          intro i
          simp only [Set.mem_union]
          have := @it i
          have := @im i
          simp only [Set.mem_union] at this
          tauto
    · rw [truedivLoop, if_pos (by simpa using r0)] at h
      cases h
      exact Set.subset_union_right

theorem truedivLoop_start_involved [LawfulScalar P] {x y z : Elt P R} (wx : x.WF) (wy : y.WF) (py : y.mod.par = x.mod.par) {n : ℕ}
    (h : truedivLoop x.mod.par y n x x.mod.zero = .ok (some z)) : z.involved ⊆ x.involved ∪ y.involved := by
  have hz : (x.mod.zero : Elt P R).involved = x.involved := involved_congr rfl
  by_cases y0 : y.toBool = true
  · have := truedivLoop_involved wy py y0 n wx rfl (zero_WF wx.mod) h
    rw [hz] at this
    intro i hi
    have := this hi
    simp only [Set.mem_union] at this ⊢
    tauto
  · have y0 : y.toBool = false := by simpa using y0
    obtain ⟨rfl, -⟩ := Props.truedivLoop_zero wy y0 wx h
    rw [hz]; exact Set.subset_union_left

theorem truediv_involved [LawfulScalar P] {x y z : Elt P R} (hx : x.WF) (hy : y.WF) {fuel : ℕ} (h : x.truediv fuel y = .ok (some z)) :
    z.involved ⊆ x.involved ∪ y.involved := by
  unfold truediv at h
  rw [Out.bind_eq_ok] at h
  obtain ⟨-, -, h⟩ := h
  split at h
  · cases h; exact Set.subset_union_left
  · split at h
    · simp only [Out.bind_eq_ok] at h
      obtain ⟨s, hs, x', hx', y', hy', h⟩ := h
      obtain ⟨x'', e1, wx', mx', -⟩ := promote_span_left hx hy.mod hs
      obtain ⟨y'', e2, wy', my', -⟩ := promote_span_right hx.mod hy hs
      rw [hx'] at e1; cases e1
      rw [hy'] at e2; cases e2
      obtain ⟨-, hmem, -⟩ := Mod.span_ok (R := R) hx.mod hy.mod hs
      have key : ∀ w : Elt P R, w.mod = s → w.involved ⊆ x.involved ∪ y.involved := by
        rintro w rfl i ⟨g, hg, hi⟩
        exact ((hmem g).1 hg).imp (fun h => ⟨g, h, hi⟩) fun h => ⟨g, h, hi⟩
      unfold truedivSame at h
      rw [Out.bind_eq_ok] at h
      obtain ⟨-, -, h⟩ := h
      split at h
      · cases h; exact key _ mx'
      · exact (truedivLoop_start_involved wx' wy' (by rw [mx', my']) h).trans (Set.union_subset (key _ mx') (key _ my'))
    · rename_i hm
      rw [not_not] at hm
      exact truedivLoop_start_involved hx hy (by rw [hm]) h

/-- A multiplication that fails keeps the generators. -/
theorem mul_fail_basis {x y x' : Elt P R} (hx : x.WF) (hy : y.WF) {e : Exc} (h : x.mulAssign y = .fail e x') : x'.mod.basis = x.mod.basis := by
  have hs : ∀ {x y : Elt P R}, x.WF → y.WF → x.mod.par = y.mod.par → mulSame x y = .fail e x' → x' = x := by
    intro x y hx hy hp h
    rcases mulSame_cases hx hy hp with ⟨z, h1, -⟩ | ⟨h1, -⟩
    · rw [h1] at h; cases h
    · rw [h1] at h; cases h; rfl
  unfold mulAssign at h
  split at h
  · cases h
  · split at h
    · cases h
    · split at h
      · rcases LawfulCRing.compositum_outcomes (P := P) x.mod.par y.mod.par with ⟨r, hr⟩ | hr
        · obtain ⟨x', hx', wx, mx, fx⟩ := promote_ring hx (r := r) fun c hc => (LawfulCRing.compositum_left hr (hx.mem c hc)).1
          obtain ⟨y', hy', wy, my, fy⟩ := promote_ring hy (r := r) fun c hc => (LawfulCRing.compositum_right hr (hy.mem c hc)).1
          simp only [hr, Out.ok_bind, Mod.make_self hy.mod, hy', Mod.make_self hx.mod, hx'] at h
          rw [hs wx wy (by rw [mx, my]) h, mx]
        · rw [hr] at h
          have := congrArg Step.self h
          simp only [Step.fail] at this
          rw [← this]
          rfl
      · rename_i hp
        rw [not_not] at hp
        rw [hs hx hy hp h]

end Elt

namespace Props
variable {P : Type} [DecidableEq P] {R : Type} [CommRing R] [DecidableEq R] [CRing P R] [LawfulCRing P]

/-- The variables involve at most the given random numbers. -/
def Within (s : Vars P R) (τ : Sources) : Prop := (∀ i, (s.num i).involved ⊆ τ.num i) ∧ ∀ i, (s.elt i).involved ⊆ τ.elt i

variable {s s' : Vars P R} {τ : Sources}

omit [DecidableEq P] [CommRing R] [DecidableEq R] [CRing P R] [LawfulCRing P] in
theorem Within.setNum (h : Within s τ) (d : ℕ) {x : RN} {S : Set ℕ} (hx : x.involved ⊆ S) : Within (s.setNum d x) (τ.setNum d S) := by
  refine ⟨fun i => ?_, h.2⟩
  by_cases hi : i = d
  · subst hi; simpa [Vars.setNum, Sources.setNum] using hx
  · simpa [Vars.setNum, Sources.setNum, hi] using h.1 i

omit [DecidableEq P] [CommRing R] [DecidableEq R] [CRing P R] [LawfulCRing P] in
theorem Within.setElt (h : Within s τ) (d : ℕ) {x : Elt P R} {S : Set ℕ} (hx : x.involved ⊆ S) : Within (s.setElt d x) (τ.setElt d S) := by
  refine ⟨h.1, fun i => ?_⟩
  by_cases hi : i = d
  · subst hi; simpa [Vars.setElt, Sources.setElt] using hx
  · simpa [Vars.setElt, Sources.setElt, hi] using h.2 i

omit [DecidableEq P] [CommRing R] [DecidableEq R] [CRing P R] [LawfulCRing P] in
theorem Within.keepElt (h : Within s τ) (d : ℕ) {x : Elt P R} (hx : x.involved ⊆ τ.elt d) : Within (s.setElt d x) τ := by
  refine ⟨h.1, fun i => ?_⟩
  by_cases hi : i = d
  · subst hi; simpa [Vars.setElt] using hx
  · simpa [Vars.setElt, hi] using h.2 i

/-- The variables after a call that assigns depend on what it reads; after any other call they depend on what they did before. -/
def After (c : Cmd P R) (τ : Sources) (o : Out Bool) : Sources := match o with
  | .ok true => c.flow τ
  | _ => τ

theorem assign_within (h : Within s τ) {c : Cmd P R} {d : ℕ} {x : Out (Elt P R)} {o : Out Bool} {S : Set ℕ} (hc : s.assign d x = (o, s'))
    (hf : c.flow τ = τ.setElt d S) (hx : ∀ y, x = .ok y → y.involved ⊆ S) : Within s' (After c τ o) := by
  cases x with
  | ok y => cases hc; rw [After, hf]; exact h.setElt d (hx y rfl)
  | _ => cases hc; exact h

theorem inplace_within (h : Within s τ) {c : Cmd P R} {d : ℕ} {x : Step (Elt P R)} {o : Out Bool} {S : Set ℕ} (hc : s.inplace d x = (o, s'))
    (hf : c.flow τ = τ.setElt d S ∨ c.flow τ = τ ∧ S = τ.elt d)
    (hx : (∃ y, x = .done y ∧ y.involved ⊆ S) ∨ ∃ e y, x = .fail e y ∧ y.involved ⊆ τ.elt d) : Within s' (After c τ o) := by
  rcases hx with ⟨y, rfl, hy⟩ | ⟨e, y, rfl, hy⟩
  · cases hc
    rcases hf with hf | ⟨hf, rfl⟩
    · show Within _ (c.flow τ); rw [hf]; exact h.setElt d hy
    · show Within _ (c.flow τ); rw [hf]; exact h.keepElt d hy
  · cases hc; exact h.keepElt d hy

omit [LawfulCRing P] in
theorem scale_within (h : Within s τ) {c : Cmd P R} {d : ℕ} {f : R → Step R} {o : Out Bool} (hc : s.inplace d ((s.elt d).scale f) = (o, s'))
    (hf : c.flow τ = τ) : Within s' (After c τ o) := by
  have hs : s' = s.setElt d ((s.elt d).scale f).self := (congrArg Prod.snd hc).symm
  have hw : Within s' τ := by
    rw [hs]
    exact h.keepElt d (by rw [Elt.involved_congr (y := s.elt d) (by rw [(scale_keeps_module f _).1])]; exact h.2 d)
  unfold After
  split
  · rw [hf]; exact hw
  · exact hw

/-- One call. -/
theorem exec_within [Build] [LawfulScalar P] (hnw : ∀ i, (s.num i).WF) (hw : ∀ i, (s.elt i).WF) (h : Within s τ) (c : Cmd P R) (hp : c.Pre s)
    {o : Out Bool} (hc : c.exec s = (o, s')) : Within s' (After c τ o) := by
  have h1 := h.1
  have h2 := h.2
  cases c with
  | rational d q => cases hc; exact h.setNum d (by simp [RN.involved])
  | random d i => cases hc; exact h.setNum d (by simp [RN.involved, Finsupp.single_apply])
  | numMul d a b =>
    rw [Cmd.exec] at hc
    rcases (mul_throws_iff (s.num a) (s.num b)).1 with ⟨z, hz⟩ | hz
    · rw [hz] at hc
      cases hc
      exact h.setNum d (by rw [RN.mul_involved (hnw a) (hnw b) hz]; exact Set.union_subset_union (h1 a) (h1 b))
    · rw [hz] at hc; cases hc; exact h
  | numDiv d a b =>
    rw [Cmd.exec] at hc
    rcases (div_throws_iff (s.num a) (s.num b)).1 with ⟨z, hz⟩ | hz
    · rw [hz] at hc
      cases z with
      | none => cases hc; exact h
      | some z => cases hc; exact h.setNum d ((RN.div_involved (hnw a) (hnw b) hz).trans (h1 a))
    · rw [hz] at hc; cases hc; exact h
  | gen d ring gens g =>
    rw [Cmd.exec] at hc
    refine assign_within h hc rfl fun y hy => ?_
    obtain ⟨m, hm, hy⟩ := Out.bind_eq_ok.1 hy
    obtain ⟨-, h3, h4, -⟩ := make_spec (fun g hg => by obtain ⟨t, -, rfl⟩ := List.mem_map.1 hg; exact hnw _) hm
    have hg : s.num g ∈ m.basis := h3.mem_iff.2 (List.mem_map_of_mem hp)
    obtain ⟨x, h5, -, h6, -⟩ := gen_value (R := R) h4 (j := m.basis.idxOf (s.num g)) (g := s.num g) (by
      rw [List.getElem?_eq_getElem (List.idxOf_lt_length_of_mem hg), List.getElem_idxOf])
    rw [h5] at hy
    cases hy
    rintro i ⟨k, hk, hi⟩
    rw [h6] at hk
    obtain ⟨t, ht, rfl⟩ := List.mem_map.1 (h3.mem_iff.1 hk)
    exact ⟨t, ht, h1 t hi⟩
  | linear d ring terms =>
    rw [Cmd.exec] at hc
    refine assign_within h hc rfl fun y hy => ?_
    obtain ⟨m, hm, hy⟩ := Out.bind_eq_ok.1 hy
    obtain ⟨-, h3, -, -⟩ := make_spec (fun g hg => by obtain ⟨t, -, rfl⟩ := List.mem_map.1 hg; exact hnw _) hm
    unfold Elt.ofCoefficients at hy
    obtain ⟨-, -, hy⟩ := Out.bind_eq_ok.1 hy
    cases hy
    rintro i ⟨k, hk, hi⟩
    obtain ⟨t, ht, rfl⟩ := List.mem_map.1 (h3.mem_iff.1 hk)
    exact ⟨t, ht, h1 t.1 hi⟩
  | scalar d ring c =>
    rw [Cmd.exec] at hc
    refine assign_within h hc rfl fun y hy => ?_
    obtain ⟨x, h3, -, h4, -⟩ := ofScalar_value hp
    rw [h3] at hy
    cases hy
    rintro i ⟨k, hk, hi⟩
    rw [h4, List.mem_singleton] at hk
    subst hk
    simp [RN.involved] at hi
  | copy d a => cases hc; exact h.setElt d (h2 a)
  | zero d a => cases hc; exact h.setElt d (h2 a : (s.elt a).involved ⊆ _)
  | one d a =>
    rw [Cmd.exec] at hc
    refine assign_within h hc rfl fun y hy => ?_
    obtain ⟨-, h3, -⟩ := one_sound (hw a).mod hy
    rw [Elt.involved_congr (y := s.elt a) (by rw [h3])]; exact h2 a
  | neg d a => cases hc; exact h.setElt d (h2 a : (s.elt a).involved ⊆ _)
  | add d a =>
    rw [Cmd.exec] at hc
    refine inplace_within h hc (.inl rfl) ?_
    rcases (add_fails_iff (hw d) (hw a)).1 with ⟨z, hz⟩ | hz
    · refine .inl ⟨z, hz, ?_⟩
      rw [Elt.add_involved (hw d) (hw a) (z := z) (by rw [Elt.add, hz]; rfl)]
      exact Set.union_subset_union (h2 d) (h2 a)
    · exact .inr ⟨_, _, hz, h2 d⟩
  | sub d a =>
    rw [Cmd.exec] at hc
    refine inplace_within h hc (.inl rfl) ?_
    obtain ⟨w, -, -⟩ := neg_value (hw a)
    rcases (add_fails_iff (hw d) w).1 with ⟨z, hz⟩ | hz
    · refine .inl ⟨z, hz, ?_⟩
      rw [Elt.add_involved (hw d) w (z := z) (by rw [Elt.add, hz]; rfl), Elt.involved_congr (x := (s.elt a).neg) (y := s.elt a) rfl]
      exact Set.union_subset_union (h2 d) (h2 a)
    · exact .inr ⟨_, _, hz, h2 d⟩
  | mul d a =>
    rw [Cmd.exec] at hc
    refine inplace_within h hc (.inl rfl) ?_
    rcases (elt_mul_fails_iff (hw d) (hw a)).1 with ⟨z, hz⟩ | ⟨z, hz, -⟩
    · exact .inl ⟨z, hz, (Elt.mul_involved (hw d) (hw a) (z := z) (by rw [Elt.mul, hz]; rfl)).trans (Set.union_subset_union (h2 d) (h2 a))⟩
    · exact .inr ⟨_, _, hz, by rw [Elt.involved_congr (Elt.mul_fail_basis (hw d) (hw a) hz)]; exact h2 d⟩
  | mulNum d r =>
    rw [Cmd.exec] at hc
    refine inplace_within h hc (.inl rfl) ?_
    obtain ⟨g, e1, wg, mg, -⟩ := gen_value (R := R) (single_WF (s.elt d).mod.par (hnw r)) (j := 0) (g := s.num r) rfl
    have e : (s.elt d).mulRNAssign (s.num r) = (s.elt d).mulAssign g := by
      unfold Elt.mulRNAssign
      rw [Elt.make_singleton, Out.ok_bind, e1]
    have hg : g.involved = (s.num r).involved := by
      ext i; simp [Elt.involved, mg]
    rw [e]
    rcases (elt_mul_fails_iff (hw d) wg).1 with ⟨z, hz⟩ | ⟨z, hz, -⟩
    · refine .inl ⟨z, hz, (Elt.mul_involved (hw d) wg (z := z) (by rw [Elt.mul, hz]; rfl)).trans ?_⟩
      rw [hg]
      exact Set.union_subset_union (h2 d) (h1 r)
    · exact .inr ⟨_, _, hz, by rw [Elt.involved_congr (Elt.mul_fail_basis (hw d) wg hz)]; exact h2 d⟩
  | mulZ d n => exact scale_within h hc rfl
  | mulQ d q => exact scale_within h hc rfl
  | mulR d c => exact scale_within h hc rfl
  | divZ d n => exact scale_within h hc rfl
  | divQ d q => exact scale_within h hc rfl
  | divR d c => exact scale_within h hc rfl
  | promote d a =>
    rw [Cmd.exec] at hc
    split at hc
    · next hsub =>
      refine assign_within h hc rfl fun y hy => ?_
      obtain ⟨h3, -⟩ := promote_partial (hw d) (hw a).mod fun t ht _ => (submodule_iff _ _).1 hsub _ (Elt.terms_mem_fst ht)
      obtain ⟨-, h4, -⟩ := h3 y hy
      rw [Elt.involved_congr (y := s.elt a) (by rw [h4])]; exact h2 a
    · cases hc; exact h
  | simplify d =>
    rw [Cmd.exec] at hc
    obtain ⟨z, h3, -, -, -, h4⟩ := Elt.simplify_spec (hw d)
    rw [h3] at hc
    cases hc
    refine h.keepElt d (Set.Subset.trans ?_ (h2 d))
    exact Elt.involved_subset fun g hg => (Elt.fs_support_WF (hw d) ((h4 g).1 hg)).1
  | truediv d a b fuel =>
    rw [Cmd.exec] at hc
    cases hx : Elt.truediv fuel (s.elt a) (s.elt b) with
    | ok q =>
      rw [hx] at hc
      cases q with
      | none => cases hc; exact h
      | some q => cases hc; exact h.setElt d ((Elt.truediv_involved (hw a) (hw b) hx).trans (Set.union_subset_union (h2 a) (h2 b)))
    | _ => rw [hx] at hc; cases hc; exact h

/-- C97. After any program, the real numbers and the generators of the elements in its variables involve only random numbers from which their
contents have been computed. -/
theorem program_provenance [Build] [LawfulScalar P] [LawfulFail P] {l : List (Cmd P R × Out Bool)} {s : Vars P R} (h : Run l s) :
    (∀ i, (s.num i).involved ⊆ (flow l).num i) ∧ ∀ i, (s.elt i).involved ⊆ (flow l).elt i := by
  induction h with
  | init => exact ⟨fun i => by simp [Vars.init, RN.involved], fun i => by simp [Vars.init, Elt.involved, Elt.default]⟩
  | @step l s h c hp s' o hc ho ih =>
    obtain ⟨σ, -, hs⟩ := program_stands h fun _ => 0
    have := exec_within (fun i => (hs.1 i).1) (fun i => (hs.2 i).1) ih c hp hc
    rcases ho with ⟨b, rfl⟩ | ⟨e, rfl⟩
    · cases b
      · exact this
      · exact this
    · exact this

end Props

/-! ### approximations -/

variable {atoms atoms' : Atoms}

namespace RN

theorem mem_involved_of_mem {m : Mono} (h : m.Canon) {p : ℕ × ℕ} (hp : p ∈ m) : p.1 ∈ (prod m).involved := by
  show m.mult p.1 ≠ 0
  have h2 := h.pos p hp
  clear h
  induction m with
  | nil => cases hp
  | cons q m ih =>
    rw [Mono.mult_cons, Finsupp.add_apply]
    rcases List.mem_cons.1 hp with rfl | hp
    · rw [Finsupp.single_eq_same]; omega
    · have := ih hp; omega

theorem arf_agree {x : RN} (hx : x.WF) (h : atoms.AgreeOn x.involved atoms') (p : ℕ) : x.arf_ atoms p = x.arf_ atoms' p := by
  cases x with
  | rat q => rfl
  | atom i =>
    have := h i (by simp [involved])
    simp only [arf_, this]
  | prod m =>
    simp only [arf_]
    congr 1
    unfold prodLoop
    have : ∀ p ∈ m, atoms p.1 = atoms' p.1 := fun p hp => h p.1 (mem_involved_of_mem hx.1 hp)
    generalize workingPrec p (m.map Prod.snd).sum = w
    generalize (1 : ℚ) = r
    clear h hx
    induction m generalizing r with
    | nil => rfl
    | cons q m ih =>
      simp only [List.foldl_cons]
      rw [this q (by simp)]
      exact ih (fun p hp => this p (by simp [hp])) _

theorem refine_agree {x : RN} (hx : x.WF) (h : atoms.AgreeOn x.involved atoms') : x.refine atoms = x.refine atoms' := by
  funext b p
  unfold refine arf
  rw [arf_agree hx h]

theorem arb_agree {x : RN} (hx : x.WF) (h : atoms.AgreeOn x.involved atoms') : x.arb atoms = x.arb atoms' := by
  funext p
  unfold arb
  rw [refine_agree hx h]

end RN

namespace Elt
variable {P : Type} [DecidableEq P] {R : Type} [CommRing R] [DecidableEq R] [CRing P R] [LawfulCRing P]
variable {F : Arith} {coeff : ℕ → R → Ball}

theorem arb_agree {x : Elt P R} (hx : x.WF) (h : atoms.AgreeOn x.involved atoms') (fuel accuracy : ℕ) :
    x.arb atoms F coeff fuel accuracy = x.arb atoms' F coeff fuel accuracy := by
  have hsum : ∀ (prec : ℕ) (ret : Ball) (ts : List (RN × R)), (∀ t ∈ ts, t.1 ∈ x.mod.basis) → arbSum atoms F coeff prec ret ts = arbSum atoms' F coeff prec ret ts := by
    intro prec ret ts
    induction ts generalizing ret with
    | nil => intro; rfl
    | cons t ts ih =>
      intro ht
      have hb := ht t (by simp)
      rw [arbSum, arbSum, RN.arb_agree (hx.mod.gens _ hb) fun i hi => h i ⟨t.1, hb, hi⟩]
      exact ih _ fun t h => ht t (by simp [h])
  have hloop : ∀ fuel prec, arbLoop atoms F coeff accuracy x.terms fuel prec = arbLoop atoms' F coeff accuracy x.terms fuel prec := by
    intro fuel
    induction fuel with
    | zero => intro; rfl
    | succ n ih =>
      intro prec
      rw [arbLoop, arbLoop, hsum _ _ _ fun t ht => terms_mem_fst ht, ih]
  unfold arb
  rw [hloop]

end Elt

namespace Props
variable {P : Type} [DecidableEq P] {R : Type} [CommRing R] [DecidableEq R] [CRing P R] [LawfulCRing P]
variable {F : Arith} {coeff : ℕ → R → Ball}

/-- C97. Approximations, comparisons and conversions of real numbers depend only on the random numbers that occur in them. -/
theorem real_observations {x y : RN} (hx : x.WF) (hy : y.WF) (h : atoms.AgreeOn (x.involved ∪ y.involved) atoms') (fuel : ℕ) :
    (∀ p, x.arf atoms p = x.arf atoms' p) ∧ x.arb atoms = x.arb atoms' ∧ x.refine atoms = x.refine atoms' ∧ x.toDouble atoms = x.toDouble atoms' ∧
    RN.ltRN atoms fuel x y = RN.ltRN atoms' fuel x y ∧ (∀ a, RN.ltArf atoms fuel x a = RN.ltArf atoms' fuel x a) ∧
    (∀ a, RN.gtArf atoms fuel x a = RN.gtArf atoms' fuel x a) ∧ (∀ q, RN.ltQ atoms F fuel x q = RN.ltQ atoms' F fuel x q) ∧
    (∀ q, RN.gtQ atoms F fuel x q = RN.gtQ atoms' F fuel x q) := by
  have ax : atoms.AgreeOn x.involved atoms' := fun i hi => h i (.inl hi)
  have ay : atoms.AgreeOn y.involved atoms' := fun i hi => h i (.inr hi)
  have rx := RN.refine_agree hx ax
  have ry := RN.refine_agree hy ay
  have bx := RN.arb_agree hx ax
  have fx : ∀ p, x.arf atoms p = x.arf atoms' p := fun p => RN.arf_agree hx ax _
  have h1 : ∀ fuel prec b c, RN.ltLoop atoms x y fuel prec b c = RN.ltLoop atoms' x y fuel prec b c := by
    intro fuel
    induction fuel with
    | zero => intros; rfl
    | succ n ih => intro prec b c; simp only [RN.ltLoop, rx, ry, ih]
  have h2 : ∀ c fuel prec b, RN.ltArfLoop atoms x c fuel prec b = RN.ltArfLoop atoms' x c fuel prec b := by
    intro c fuel
    induction fuel with
    | zero => intros; rfl
    | succ n ih => intro prec b; simp only [RN.ltArfLoop, rx, ih]
  have h3 : ∀ op fuel prec, RN.cmpQLoop atoms x op fuel prec = RN.cmpQLoop atoms' x op fuel prec := by
    intro c fuel
    induction fuel with
    | zero => intros; rfl
    | succ n ih => intro prec; simp only [RN.cmpQLoop, bx, ih]
  have h4 : ∀ a, RN.ltArf atoms fuel x a = RN.ltArf atoms' fuel x a := fun a => by unfold RN.ltArf; rw [h2]
  refine ⟨fx, bx, rx, by unfold RN.toDouble; rw [fx], by unfold RN.ltRN; rw [h1], h4, fun a => by unfold RN.gtArf; rw [h4], fun q => ?_, fun q => ?_⟩
  · unfold RN.ltQ; rw [h3]
  · unfold RN.gtQ; rw [h3]

theorem floordiv_agree [Build] {x y : Elt P R} (hx : x.WF) (hy : y.WF) (h : atoms.AgreeOn (x.involved ∪ y.involved) atoms') (fuel : ℕ) :
    Elt.floordiv atoms F coeff fuel x y = Elt.floordiv atoms' F coeff fuel x y := by
  have bx := Elt.arb_agree (F := F) (coeff := coeff) hx fun i hi => h i (.inl hi)
  have by' := Elt.arb_agree (F := F) (coeff := coeff) hy fun i hi => h i (.inr hi)
  unfold Elt.floordiv
  split
  · rfl
  · split
    · rcases Mod.span_throws (R := R) hx.mod hy.mod with ⟨s, hs⟩ | ⟨hs, -⟩
      · obtain ⟨x', e1, wx', mx', -⟩ := Elt.promote_span_left hx hy.mod hs
        obtain ⟨y', e2, wy', my', -⟩ := Elt.promote_span_right hx.mod hy hs
        obtain ⟨-, hmem, -⟩ := Mod.span_ok (R := R) hx.mod hy.mod hs
        have key : ∀ w : Elt P R, w.WF → w.mod = s → ∀ fuel p, w.arb atoms F coeff fuel p = w.arb atoms' F coeff fuel p := by
          rintro w ww rfl
          refine Elt.arb_agree ww fun i ⟨g, hg, hi⟩ => h i ?_
          exact ((hmem g).1 hg).imp (fun h => ⟨g, h, hi⟩) fun h => ⟨g, h, hi⟩
        simp only [hs, Out.ok_bind, e1, e2]
        unfold Elt.floordivSame
        simp only [key _ wx' mx', key _ wy' my']
      · simp only [hs, Out.throws_bind]
    · unfold Elt.floordivSame; simp only [bx, by']

/-- C97. Approximations, comparisons, rounding, conversion and hashes of elements depend only on the random numbers that occur in their generators,
down to the number of iterations they need, whatever all other random numbers are. -/
theorem elt_observations [Build] {x y : Elt P R} (hx : x.WF) (hy : y.WF) (h : atoms.AgreeOn (x.involved ∪ y.involved) atoms') (fuel : ℕ) :
    (∀ p, x.arb atoms F coeff fuel p = x.arb atoms' F coeff fuel p) ∧ Elt.lt atoms F coeff fuel x y = Elt.lt atoms' F coeff fuel x y ∧
    (∀ q, Elt.ltQ atoms F coeff fuel x q = Elt.ltQ atoms' F coeff fuel x q) ∧ (∀ n, Elt.ltZ atoms F coeff fuel x n = Elt.ltZ atoms' F coeff fuel x n) ∧
    (∀ q, Elt.gtQ atoms F coeff fuel x q = Elt.gtQ atoms' F coeff fuel x q) ∧ (∀ n, Elt.gtZ atoms F coeff fuel x n = Elt.gtZ atoms' F coeff fuel x n) ∧
    Elt.floor atoms F coeff fuel x = Elt.floor atoms' F coeff fuel x ∧ Elt.ceil atoms F coeff fuel x = Elt.ceil atoms' F coeff fuel x ∧
    Elt.floordiv atoms F coeff fuel x y = Elt.floordiv atoms' F coeff fuel x y ∧ x.toDouble atoms F coeff fuel = x.toDouble atoms' F coeff fuel ∧
    (∀ f, Elt.hash atoms F coeff f fuel x = Elt.hash atoms' F coeff f fuel x) := by
  have bx := Elt.arb_agree (F := F) (coeff := coeff) hx fun i hi => h i (.inl hi)
  have by' := Elt.arb_agree (F := F) (coeff := coeff) hy fun i hi => h i (.inr hi)
  have hd : x.toDouble atoms F coeff fuel = x.toDouble atoms' F coeff fuel := by unfold Elt.toDouble; simp only [bx]
  have hq : ∀ q, Elt.ltQ atoms F coeff fuel x q = Elt.ltQ atoms' F coeff fuel x q := fun q => by unfold Elt.ltQ; simp only [bx]
  have hz : ∀ n, Elt.ltZ atoms F coeff fuel x n = Elt.ltZ atoms' F coeff fuel x n := fun n => by unfold Elt.ltZ; simp only [bx]
  refine ⟨fun p => bx fuel p, by unfold Elt.lt; simp only [bx, by'], hq, hz, fun q => by unfold Elt.gtQ; rw [hq], fun n => by unfold Elt.gtZ; rw [hz],
    by unfold Elt.floor; simp only [bx], by unfold Elt.ceil; simp only [bx], floordiv_agree hx hy h fuel, hd, fun f => by unfold Elt.hash; rw [hd]⟩

/-- C97. What a program sees of its variables depends only on the random numbers from which their contents have been computed: if these are the
same in two worlds then so are all comparisons, floors, conversions and hashes. -/
theorem program_observations [Build] [LawfulScalar P] [LawfulFail P] {l : List (Cmd P R × Out Bool)} {s : Vars P R} (hr : Run l s) (a b : ℕ)
    (h : atoms.AgreeOn ((flow l).elt a ∪ (flow l).elt b) atoms') (fuel : ℕ) :
    Elt.lt atoms F coeff fuel (s.elt a) (s.elt b) = Elt.lt atoms' F coeff fuel (s.elt a) (s.elt b) ∧
    Elt.floordiv atoms F coeff fuel (s.elt a) (s.elt b) = Elt.floordiv atoms' F coeff fuel (s.elt a) (s.elt b) ∧
    Elt.floor atoms F coeff fuel (s.elt a) = Elt.floor atoms' F coeff fuel (s.elt a) ∧
    (s.elt a).toDouble atoms F coeff fuel = (s.elt a).toDouble atoms' F coeff fuel ∧
    (∀ p, (s.elt a).arb atoms F coeff fuel p = (s.elt a).arb atoms' F coeff fuel p) ∧
    ∀ f, Elt.hash atoms F coeff f fuel (s.elt a) = Elt.hash atoms' F coeff f fuel (s.elt a) := by
  obtain ⟨-, h1⟩ := program_provenance hr
  obtain ⟨σ, -, hs⟩ := program_stands hr fun _ => 0
  have hw := fun i => (hs.2 i).1
  obtain ⟨e1, e2, -, -, -, -, e3, -, e4, e5, e6⟩ := elt_observations (F := F) (coeff := coeff) (hw a) (hw b)
    (fun i hi => h i (hi.imp (fun k => h1 a k) fun k => h1 b k)) fuel
  exact ⟨e2, e4, e3, e5, e1, e6⟩

/-- A program draws the random numbers 5 and 7, makes an element of each, and doubles the first one: its floor does not depend on the random number 7. -/
example [Build] : ∃ (s : Vars IntegerRing ℤ) (l : List (Cmd IntegerRing ℤ × Out Bool)), Run l s ∧ (flow l).elt 0 = {5} ∧ (flow l).elt 1 = {7} ∧
    l.map Prod.snd = List.replicate 5 (.ok true) := by
  have step : ∀ {l : List (Cmd IntegerRing ℤ × Out Bool)} {s : Vars IntegerRing ℤ} (h : Run l s) (c : Cmd IntegerRing ℤ), c.Pre s →
      (c.exec s).1 = .ok true → Run ((c, .ok true) :: l) (c.exec s).2 := fun h c hp hc => h.step c hp (by rw [← hc]) (.inl ⟨_, rfl⟩)
  have h1 := step .init (.random 0 5) trivial rfl
  have h2 := step h1 (.random 1 7) trivial rfl
  have h3 := step h2 (.gen 0 .mk [0] 0) (by simp [Cmd.Pre]) rfl
  have h4 := step h3 (.gen 1 .mk [1] 1) (by simp [Cmd.Pre]) rfl
  have h5 := step h4 (.add 0 0) trivial rfl
  refine ⟨_, _, h5, ?_, ?_, rfl⟩
  · simp [flow, Cmd.flow, Sources.setElt, Sources.setNum, Sources.init]
  · simp [flow, Cmd.flow, Sources.setElt, Sources.setNum, Sources.init]

end Props
end ExactReal
