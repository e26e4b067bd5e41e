import Verif.Lemma.Poly

namespace ExactReal.Elt
open Finsupp
variable {P : Type} [DecidableEq P] {R : Type} [CommRing R] [DecidableEq R] [CRing P R] [LawfulCRing P]

/-! ### equality -/

section
variable [Build]

theorem coeffs_eq_iff {x y : Elt P R} (hx : x.WF) (hy : y.WF) (hm : x.mod = y.mod) : x.coeffs = y.coeffs ↔ x.fs = y.fs := by
  constructor
  · intro h
    unfold fs terms; rw [h, hm]
  · intro h
    rw [ext_fs hx hy hm h]

theorem eq_cases {x y : Elt P R} (hx : x.WF) (hy : y.WF) :
    (∃ b, x.eq y = .ok b ∧ (b = true ↔ x.fs = y.fs) ∧ (x.mod = y.mod ∨ ∃ s, Mod.span x.mod y.mod = .ok s)) ∨
    (x.mod ≠ y.mod ∧ Mod.span x.mod y.mod = .throws .logicError ∧ x.eq y = .throws .logicError) := by
  unfold eq
  split
  · rename_i hne
    rcases Mod.span_throws (R := R) hx.mod hy.mod with ⟨s, hs⟩ | ⟨hs, -⟩
    · left
      obtain ⟨x', hx', wx', mx', fx'⟩ := promote_span_left hx hy.mod hs
      obtain ⟨y', hy', wy', my', fy'⟩ := promote_span_right hx.mod hy hs
      refine ⟨decide (x'.coeffs = y'.coeffs), by simp [hs, hx', hy'], ?_, .inr ⟨s, hs⟩⟩
      rw [decide_eq_true_iff, coeffs_eq_iff wx' wy' (mx'.trans my'.symm), fx', fy']
    · right
      exact ⟨hne, hs, by simp [hs]⟩
  · rename_i he
    rw [not_not] at he
    left
    refine ⟨decide (x.coeffs = y.coeffs), rfl, ?_, .inl he⟩
    rw [decide_eq_true_iff, coeffs_eq_iff hx hy he]

theorem span_symm_ok {m n s : Mod P} (hm : m.WF) (hn : n.WF) (h : Mod.span m n = .ok s) : ∃ t, Mod.span n m = .ok t := by
  rcases Mod.span_throws (R := R) hn hm with ht | ⟨-, hne, hme, hc | ⟨g, hg, k, hk, rg, rk, hgk⟩⟩
  · exact ht
  · exfalso
    obtain ⟨-, -, ⟨h3, -⟩ | ⟨h3, -⟩ | ⟨-, -, h3⟩⟩ := Mod.span_ok (R := R) hm hn h
    · exact hme h3
    · exact hne h3
    · obtain ⟨r', hr'⟩ := LawfulCRing.compositum_symm h3
      rw [hc] at hr'; cases hr'
  · exfalso
    rw [Mod.span_throws_of_rat (R := R) hm hn hk hg rk rg fun e => hgk e.symm] at h
    cases h

theorem real_eq_iff {v : ℕ → ℝ} (hv : AlgebraicIndependent ℚ v) {x y : Elt P R} (hx : x.WF) (hy : y.WF)
    (zx : x.NoZeroGen) (zy : y.NoZeroGen) (h : x.mod = y.mod ∨ ∃ s, Mod.span x.mod y.mod = .ok s) :
    x.real v = y.real v ↔ x.fs = y.fs := by
  rcases h with h | ⟨s, hs⟩
  · exact real_eq_iff_same hv hx hy h zx
  · obtain ⟨x', hx', wx', mx', fx'⟩ := promote_span_left hx hy.mod hs
    obtain ⟨y', hy', wy', my', fy'⟩ := promote_span_right hx.mod hy hs
    have hmem := (Mod.span_ok (R := R) hx.mod hy.mod hs).2.1
    have := real_eq_iff_same hv wx' wy' (mx'.trans my'.symm) (by
      unfold NoZeroGen; rw [mx', hmem]; exact fun h => h.elim zx zy)
    rw [fx', fy', real_eq_evalF, real_eq_evalF, fx', fy'] at this
    rw [real_eq_evalF, real_eq_evalF]; exact this

/-! ### simplify -/

theorem simplify_spec {x : Elt P R} (hx : x.WF) :
    ∃ y, x.simplify = .ok y ∧ y.WF ∧ y.fs = x.fs ∧ y.mod.par = x.mod.par ∧ ∀ g, g ∈ y.mod.basis ↔ x.fs g ≠ 0 := by
  have hmem : ∀ g, g ∈ ((x.terms.filter fun t => t.2 ≠ 0).map Prod.fst) ↔ x.fs g ≠ 0 := by
    intro g
    simp only [List.mem_map, List.mem_filter, decide_eq_true_eq]
    constructor
    · rintro ⟨t, ⟨ht, hn⟩, rfl⟩
      rw [hx.fs_apply (g := t.1) (c := t.2) ht]; exact hn
    · intro hg
      have hgb := (fs_support_WF hx hg).1
      rw [← terms_fst hx.length, List.mem_map] at hgb
      obtain ⟨t, ht, rfl⟩ := hgb
      refine ⟨t, ⟨ht, ?_⟩, rfl⟩
      rw [hx.fs_apply (g := t.1) (c := t.2) ht] at hg; exact hg
  unfold simplify
  split
  · rename_i hall
    simp only [List.all_eq_true, decide_eq_true_eq] at hall
    refine ⟨x, rfl, hx, rfl, rfl, fun g => ⟨fun hg => ?_, fun hg => (fs_support_WF hx hg).1⟩⟩
    rw [← terms_fst hx.length, List.mem_map] at hg
    obtain ⟨t, ht, rfl⟩ := hg
    rw [hx.fs_apply (g := t.1) (c := t.2) ht]
    exact hall _ (terms_mem_snd ht)
  · rename_i hall
    simp only
    split
    · rename_i hlen
      exfalso
      apply hall
      rw [List.length_map] at hlen
      have hl : x.terms.length = x.mod.basis.length := by
        rw [← terms_fst hx.length, List.length_map]
      rw [← hl, List.length_filter_eq_length_iff] at hlen
      rw [List.all_eq_true]
      intro c hc
      rw [← terms_snd hx.length, List.mem_map] at hc
      obtain ⟨t, ht, rfl⟩ := hc
      exact hlen t ht
    · have hsub : ((x.terms.filter fun t => t.2 ≠ 0).map Prod.fst).Sublist x.mod.basis := by
        rw [← terms_fst hx.length]
        exact List.filter_sublist.map _
      have hs := hx.mod.sorted.sublist hsub
      have hw : ∀ g ∈ ((x.terms.filter fun t => t.2 ≠ 0).map Prod.fst), g.WF := fun g hg => hx.mod.gens g (hsub.subset hg)
      have hmake := Mod.make_eq_of_perm (r := x.mod.par) hw (List.Perm.refl _) hs
      rw [hmake]
      simp only [Out.ok_bind]
      have wm : (⟨x.mod.par, (x.terms.filter fun t => t.2 ≠ 0).map Prod.fst⟩ : Mod P).WF := ⟨hw, hs⟩
      have hsub' : ∀ g ∈ x.mod.basis, x.fs g ≠ 0 → g ∈ (x.terms.filter fun t => t.2 ≠ 0).map Prod.fst := fun g _ hg => (hmem g).2 hg
      obtain ⟨y, hy⟩ := promote_isOk hx wm hsub' fun c _ => ⟨c, LawfulCRing.coerce_self _ _⟩
      obtain ⟨wy, my, fy⟩ := promote_ok hx wm hsub' hy
      exact ⟨y, hy, wy, fy, by rw [my], fun g => by rw [my]; exact hmem g⟩

end

/-! ### conversion to rationals -/

theorem rationalLoop_some {ret q : ℚ} {l : List (RN × R)} (h : rationalLoop P ret l = some q) :
    (∀ (v : ℕ → ℝ), (q : ℝ) = ret + evalF (num P) v (combo l)) ∧
    ∀ t ∈ l, t.2 ≠ 0 → t.1.isRat = true ∧ (CRing.rational P t.2).isSome = true := by
  induction l generalizing ret with
  | nil => simp only [rationalLoop, Option.some.injEq] at h; subst h; simp
  | cons t l ih =>
    obtain ⟨g, c⟩ := t
    simp only [rationalLoop] at h
    split at h
    · rename_i hc
      split at h
      · rename_i r hr
        split at h
        · rename_i s hs
          obtain ⟨h1, h2⟩ := ih h
          have hg : g = .rat r := by cases g <;> simp_all [RN.rational?]
          refine ⟨fun v => ?_, ?_⟩
          · rw [h1 v, combo_cons, evalF_add, evalF_single, hg]
            have : num P c = (s : ℝ) := by
              have := (LawfulCRing.rational_iff (P := P) c s).1 hs
              unfold num
              rw [RingHom.comp_apply, this, ← IsScalarTower.algebraMap_apply ℚ AlgReal ℝ]
              simp
            rw [this]
            simp only [RN.value]
            push_cast
            simp only [eq_ratCast]
            ring
          · intro t ht hn
            rcases List.mem_cons.1 ht with rfl | ht
            · exact ⟨by simp [RN.isRat, hr], by simp [hs]⟩
            · exact h2 t ht hn
        · cases h
      · cases h
    · rename_i hc
      rw [not_not] at hc
      obtain ⟨h1, h2⟩ := ih h
      refine ⟨fun v => ?_, ?_⟩
      · rw [h1 v, combo_cons, hc]; simp
      · intro t ht hn
        rcases List.mem_cons.1 ht with rfl | ht
        · exact absurd hc hn
        · exact h2 t ht hn

theorem rationalLoop_none {ret : ℚ} {l : List (RN × R)} (h : rationalLoop P ret l = none) :
    ∃ t ∈ l, t.2 ≠ 0 ∧ (t.1.isRat = false ∨ (t.1.isRat = true ∧ CRing.rational P t.2 = none)) := by
  induction l generalizing ret with
  | nil => simp [rationalLoop] at h
  | cons t l ih =>
    obtain ⟨g, c⟩ := t
    simp only [rationalLoop] at h
    split at h
    · rename_i hc
      split at h
      · rename_i r hr
        split at h
        · obtain ⟨t, ht, h1⟩ := ih h
          exact ⟨t, by simp [ht], h1⟩
        · rename_i hs
          exact ⟨(g, c), by simp, hc, .inr ⟨by simp [RN.isRat, hr], hs⟩⟩
      · rename_i hr
        exact ⟨(g, c), by simp, hc, .inl (by simp [RN.isRat, hr])⟩
    · obtain ⟨t, ht, h1⟩ := ih h
      exact ⟨t, by simp [ht], h1⟩

theorem rational?_some {x : Elt P R} {q : ℚ} (h : x.rational? = some q) (v : ℕ → ℝ) : x.real v = q := by
  rw [real_eq_evalF, fs]
  have := (rationalLoop_some h).1 v
  simpa using this.symm

/-- If only the rational generator occurs, the polynomial is constant. -/
theorem polyF_of_rat {x : Elt P R} (hx : x.WF) {r : ℚ} (hr : x.fs (.rat r) ≠ 0) (hall : ∀ g, x.fs g ≠ 0 → g.isRat = true) :
    x.fs = single (.rat r) (x.fs (.rat r)) := by
  ext g
  by_cases hg : x.fs g = 0
  · rw [hg, Finsupp.single_apply, if_neg]
    rintro rfl; exact hr hg
  · have : g = .rat r := hx.mod.rat_unique (fs_support_WF hx hg).1 (fs_support_WF hx hr).1 (hall g hg) rfl
    subst this; simp

theorem rational?_of_real {v : ℕ → ℝ} (hv : AlgebraicIndependent ℚ v) {x : Elt P R} (hx : x.WF)
    (hz : x.NoZeroGen ∨ ∀ c : R, (CRing.rational P c).isSome = true) {q : ℚ} (h : x.real v = q) : x.rational? = some q := by
  have halg : x.real v = algebraMap AlgReal ℝ (algebraMap ℚ AlgReal q) := by
    rw [h, ← IsScalarTower.algebraMap_apply ℚ AlgReal ℝ]; simp
  have hrat : ∀ g, x.fs g ≠ 0 → g.isRat = true := fun g hg => rat_of_real_alg hv hx halg hg
  cases hc : x.rational? with
  | some p =>
    have := rational?_some hc v
    rw [h] at this
    rw [Rat.cast_inj.1 this]
  | none =>
    exfalso
    obtain ⟨t, ht, hn, h1⟩ := rationalLoop_none hc
    have ht' : x.fs t.1 = t.2 := hx.fs_apply (g := t.1) (c := t.2) ht
    have htn : x.fs t.1 ≠ 0 := by rw [ht']; exact hn
    rcases h1 with h1 | ⟨h1, h2⟩
    · rw [hrat _ htn] at h1; cases h1
    · rcases hz with hz | hz
      · obtain ⟨r, hr⟩ : ∃ r, t.1 = .rat r := by
          cases hh : t.1 <;> simp_all [RN.isRat, RN.rational?]
        have hfs := polyF_of_rat hx (r := r) (by rw [← hr]; exact htn) hrat
        have hr0 : r ≠ 0 := by
          rintro rfl
          exact hz (by rw [← hr]; exact terms_mem_fst ht)
        rw [real_eq_evalF, hfs, evalF_single, ← hr, ht', hr] at h
        simp only [RN.value, eq_ratCast] at h
        have hq : LawfulCRing.emb P t.2 = algebraMap ℚ AlgReal (q / r) := by
          apply (algebraMap AlgReal ℝ).injective
          rw [← IsScalarTower.algebraMap_apply ℚ AlgReal ℝ]
          have hr' : (r : ℝ) ≠ 0 := by exact_mod_cast hr0
          simp only [eq_ratCast, Rat.cast_div]
          rw [eq_div_iff hr']
          exact h
        rw [← LawfulCRing.rational_iff] at hq
        rw [h2] at hq; cases hq
      · have := hz t.2
        rw [h2] at this; simp at this

/-! ### scalars -/

theorem scaleLoop_done {f : R → Step R} {l l' : List R} (h : scaleLoop f l = .done l') :
    l'.length = l.length ∧ ∀ i (hi : i < l.length) (hi' : i < l'.length), f l[i] = .done l'[i] := by
  induction l generalizing l' with
  | nil => simp only [scaleLoop, Step.done_inj] at h; subst h; simp
  | cons c l ih =>
    simp only [scaleLoop] at h
    split at h
    · rename_i c' hc
      simp only [Step.done, Step.mk.injEq] at h
      obtain ⟨h1, rfl⟩ := h
      have hr : scaleLoop f l = .done (scaleLoop f l).self := by
        cases hh : scaleLoop f l; simp_all [Step.done]
      obtain ⟨h2, h3⟩ := ih hr
      refine ⟨by simp [h2], ?_⟩
      intro i hi hi'
      cases i with
      | zero => simpa [Step.done] using hc
      | succ i => simpa using h3 i (by simpa using hi) (by simpa using hi')
    · rename_i e c' hne hc
      simp only [Step.done, Step.mk.injEq] at h
      exact absurd h.1 (fun he => hne (he ▸ rfl))

theorem scaleLoop_fail {f : R → Step R} (hf : ∀ c, (∃ d, f c = .done d) ∨ ∃ d, f c = .fail .invalidArgument d) (l : List R) :
    (∃ l', scaleLoop f l = .done l') ∨
    ((∃ l', scaleLoop f l = .fail .invalidArgument l') ∧ ∃ c ∈ l, ∃ d, f c = .fail .invalidArgument d) := by
  induction l with
  | nil => exact .inl ⟨[], rfl⟩
  | cons c l ih =>
    rcases hf c with ⟨d, hd⟩ | ⟨d, hd⟩
    · rcases ih with ⟨l', hl⟩ | ⟨⟨l', hl⟩, c', hc', d', hd'⟩
      · exact .inl ⟨d :: l', by simp only [scaleLoop, hd, hl, Step.done]⟩
      · exact .inr ⟨⟨d :: l', by simp only [scaleLoop, hd, hl, Step.done, Step.fail]⟩, c', by simp [hc'], d', hd'⟩
    · exact .inr ⟨⟨d :: l, by simp only [scaleLoop, hd, Step.fail]⟩, c, by simp, d, hd⟩

theorem combo_scale (m : List RN) (f : R → Step R) {A : Type*} [CommRing A] [Algebra ℚ A] (ι : R →+* A) (v : ℕ → A) (s t : A)
    {l l' : List R} (hl : l'.length = l.length)
    (h : ∀ i (hi : i < l.length) (hi' : i < l'.length), ι l'[i] * s = ι l[i] * t) :
    evalF ι v (combo (m.zip l')) * s = evalF ι v (combo (m.zip l)) * t := by
  induction m generalizing l l' with
  | nil => simp
  | cons g m ih =>
    cases l with
    | nil => cases l' <;> simp_all
    | cons c l => cases l' with
      | nil => simp at hl
      | cons c' l' =>
        simp only [List.zip_cons_cons, combo_cons, evalF_add, evalF_single, add_mul]
        have h0 := h 0 (by simp) (by simp)
        simp only [List.getElem_cons_zero] at h0
        rw [ih (by simpa using hl) fun i hi hi' => by
          have := h (i + 1) (by simpa using hi) (by simpa using hi')
          simpa using this]
        rw [mul_right_comm, h0]; ring

/-- Generic statement about scaling: if the scalar operation on coefficients relates `ι d * s = ι c * t` then so does scaling for values. -/
theorem scale_done {f : R → Step R} {x y : Elt P R} (hx : x.WF) (h : x.scale f = .done y) {A : Type*} [CommRing A] [Algebra ℚ A] (ι : R →+* A)
    (v : ℕ → A) (s t : A) (hf : ∀ c d, f c = .done d → ι d * s = ι c * t)
    (hmem : ∀ c d, f c = .done d → c ∈ LawfulCRing.mem x.mod.par → d ∈ LawfulCRing.mem x.mod.par) :
    y.WF ∧ y.mod = x.mod ∧ y.value ι v * s = x.value ι v * t := by
  unfold scale at h
  simp only [Step.done, Step.mk.injEq] at h
  obtain ⟨h1, rfl⟩ := h
  have hr : scaleLoop f x.coeffs = .done (scaleLoop f x.coeffs).self := by
    cases hh : scaleLoop f x.coeffs; simp_all [Step.done]
  obtain ⟨hl, hi⟩ := scaleLoop_done hr
  refine ⟨⟨hx.mod, by simp [hl, hx.length], ?_⟩, rfl, ?_⟩
  · intro d hd
    simp only at hd ⊢
    obtain ⟨i, hi', rfl⟩ := List.getElem_of_mem hd
    exact hmem _ _ (hi i (by omega) hi') (hx.mem _ (List.getElem_mem _))
  · rw [value_eq_evalF, value_eq_evalF]
    exact combo_scale x.mod.basis f ι v s t hl fun i h1 h2 => hf _ _ (hi i h1 h2)

theorem scale_fail {f : R → Step R} (hf : ∀ c, (∃ d, f c = .done d) ∨ ∃ d, f c = .fail .invalidArgument d) (x : Elt P R) :
    (∃ y, x.scale f = .done y) ∨
    ((∃ y, x.scale f = .fail .invalidArgument y) ∧ ∃ c ∈ x.coeffs, ∃ d, f c = .fail .invalidArgument d) := by
  unfold scale
  rcases scaleLoop_fail hf x.coeffs with ⟨l', hl⟩ | ⟨⟨l', hl⟩, h⟩
  · exact .inl ⟨⟨x.mod, l'⟩, by simp [hl, Step.done]⟩
  · exact .inr ⟨⟨⟨x.mod, l'⟩, by simp [hl, Step.fail]⟩, h⟩

theorem scale_isDone {f : R → Step R} (x : Elt P R) (h : ∃ y, x.scale f = .done y) : ∀ c ∈ x.coeffs, ∃ d, f c = .done d := by
  obtain ⟨y, h⟩ := h
  unfold scale at h
  simp only [Step.done, Step.mk.injEq] at h
  obtain ⟨h1, rfl⟩ := h
  have hr : scaleLoop f x.coeffs = .done (scaleLoop f x.coeffs).self := by
    cases hh : scaleLoop f x.coeffs; simp_all [Step.done]
  obtain ⟨hl, hi⟩ := scaleLoop_done hr
  intro c hc
  obtain ⟨i, hi', rfl⟩ := List.getElem_of_mem hc
  exact ⟨_, hi i hi' (by omega)⟩

end ExactReal.Elt
