import Verif.Lemma.Span
import Verif.Spec.Element
import Mathlib.Data.Finsupp.Basic
import Mathlib.Algebra.BigOperators.Finsupp.Basic

namespace ExactReal.Elt
open Finsupp
variable {P : Type} [DecidableEq P] {R : Type} [CommRing R] [DecidableEq R] [CRing P R]

/-- The combination described by a list of terms. -/
noncomputable def combo (l : List (RN × R)) : RN →₀ R := (l.map fun t => single t.1 t.2).sum

@[simp] theorem combo_nil : combo ([] : List (RN × R)) = 0 := rfl
@[simp] theorem combo_cons (t : RN × R) (l : List (RN × R)) : combo (t :: l) = single t.1 t.2 + combo l := by simp [combo]
theorem combo_append (l l' : List (RN × R)) : combo (l ++ l') = combo l + combo l' := by simp [combo]
theorem combo_perm {l l' : List (RN × R)} (h : l.Perm l') : combo l = combo l' := (h.map _).sum_eq

noncomputable def fs (x : Elt P R) : RN →₀ R := combo x.terms

/-- Evaluate a combination. -/
noncomputable def evalF {A : Type*} [CommRing A] [Algebra ℚ A] (ι : R →+* A) (v : ℕ → A) (f : RN →₀ R) : A :=
  f.sum fun g c => ι c * g.value v

section
variable {A : Type*} [CommRing A] [Algebra ℚ A] (ι : R →+* A) (v : ℕ → A)

@[simp] theorem evalF_zero : evalF ι v (0 : RN →₀ R) = 0 := by simp [evalF]
theorem evalF_add (f g : RN →₀ R) : evalF ι v (f + g) = evalF ι v f + evalF ι v g := by
  unfold evalF
  rw [Finsupp.sum_add_index']
  · simp
  · intros; rw [map_add, add_mul]
theorem evalF_single (g : RN) (c : R) : evalF ι v (single g c) = ι c * g.value v := by
  unfold evalF
  rw [Finsupp.sum_single_index]; simp
theorem evalF_neg (f : RN →₀ R) : evalF ι v (-f) = - evalF ι v f := by
  have := evalF_add ι v f (-f)
  rw [add_neg_cancel, evalF_zero] at this
  exact (neg_eq_of_add_eq_zero_right this.symm).symm
theorem evalF_smul (c : R) (f : RN →₀ R) : evalF ι v (c • f) = ι c * evalF ι v f := by
  induction f using Finsupp.induction_linear with
  | zero => simp
  | add f g hf hg => rw [smul_add, evalF_add, evalF_add, hf, hg, mul_add]
  | single g d => rw [Finsupp.smul_single, evalF_single, evalF_single, smul_eq_mul, map_mul, mul_assoc]

theorem evalF_combo (l : List (RN × R)) : evalF ι v (combo l) = (l.map fun t => ι t.2 * t.1.value v).sum := by
  induction l with
  | nil => simp
  | cons t l ih => rw [combo_cons, evalF_add, evalF_single, ih]; simp

theorem value_eq_evalF (x : Elt P R) : x.value ι v = evalF ι v x.fs := by
  rw [fs, evalF_combo]; rfl
end

theorem combo_apply_of_not_mem {l : List (RN × R)} {g : RN} (h : g ∉ l.map Prod.fst) : combo l g = 0 := by
  induction l with
  | nil => simp
  | cons t l ih =>
    simp only [List.map_cons, List.mem_cons, not_or] at h
    rw [combo_cons, Finsupp.add_apply, ih h.2, Finsupp.single_apply, if_neg (Ne.symm h.1), add_zero]

theorem combo_apply_of_mem {l : List (RN × R)} (hn : (l.map Prod.fst).Nodup) {g : RN} {c : R} (h : (g, c) ∈ l) : combo l g = c := by
  induction l with
  | nil => simp at h
  | cons t l ih =>
    rw [List.map_cons, List.nodup_cons] at hn
    rw [combo_cons, Finsupp.add_apply]
    rcases List.mem_cons.1 h with rfl | h
    · rw [combo_apply_of_not_mem hn.1]; simp
    · rw [ih hn.2 h, Finsupp.single_apply, if_neg, zero_add]
      rintro rfl
      exact hn.1 (List.mem_map.2 ⟨_, h, rfl⟩)

theorem combo_injective {l l' : List (RN × R)} (hn : (l.map Prod.fst).Nodup) (h : l.map Prod.fst = l'.map Prod.fst)
    (hc : combo l = combo l') : l = l' := by
  have hn' : (l'.map Prod.fst).Nodup := h ▸ hn
  have hlen : l.length = l'.length := by simpa using congrArg List.length h
  apply List.ext_getElem hlen
  intro i hi hi'
  have hf : (l[i]).1 = (l'[i]).1 := by
    have := List.getElem_of_eq h (i := i) (by simpa using hi)
    simpa using this
  have h1 := combo_apply_of_mem hn (g := (l[i]).1) (c := (l[i]).2) (List.getElem_mem hi)
  have h2 := combo_apply_of_mem hn' (g := (l'[i]).1) (c := (l'[i]).2) (List.getElem_mem hi')
  rw [hc, hf, h2] at h1
  exact Prod.ext hf h1.symm

/-! ### promoteLoop -/

section
variable [LawfulCRing P] [Build]

theorem assertThat_eq_ok {b : Bool} (h : b = true) : assertThat b = .ok () := by simp [assertThat, h]

/-- When all terms with non-zero coefficient have their generator among `theirs`, the loop keeps the combination. -/
theorem promoteLoop_spec {ring src : P} {ours : List (RN × R)} {theirs : List RN} {cs : List R}
    (h1 : (ours.map Prod.fst).Pairwise fun g h => Precedes g.mult h.mult)
    (h2 : theirs.Pairwise fun g h => Precedes g.mult h.mult)
    (w1 : ∀ t ∈ ours, t.1.WF) (w2 : ∀ t ∈ theirs, t.WF)
    (hsub : ∀ t ∈ ours, t.2 ≠ 0 → t.1 ∈ theirs)
    (h : promoteLoop ring src ours theirs = .ok cs) :
    cs.length = theirs.length ∧ combo (theirs.zip cs) = combo ours ∧
      ((∀ t ∈ ours, t.2 ∈ LawfulCRing.mem src) → ∀ c ∈ cs, c ∈ LawfulCRing.mem ring) := by
  induction ours, theirs using promoteLoop.induct generalizing cs with
  | case1 => simp only [promoteLoop, Out.ok.injEq] at h; subst h; simp
  | case2 t theirs ih =>
    simp only [promoteLoop, Out.bind_eq_ok, Out.ok.injEq] at h
    obtain ⟨rest, hr, rfl⟩ := h
    obtain ⟨hl, hc, hm⟩ := ih h1 (List.pairwise_cons.1 h2).2 w1 (fun t ht => w2 t (by simp [ht])) (by simp) hr
    refine ⟨by simp [hl], by simp [hc], fun _ => ?_⟩
    intro c hcm
    rcases List.mem_cons.1 hcm with rfl | hcm
    · exact Subring.zero_mem _
    · exact hm (by simp) c hcm
  | case3 g c ours ih =>
    have hc0 : c = 0 := by
      by_contra hc
      have := hsub (g, c) (by simp) hc
      simp at this
    simp only [promoteLoop] at h
    rw [assertThat_eq_ok (by simpa using hc0)] at h
    simp only [Out.ok_bind] at h
    obtain ⟨hl, hc, hm⟩ := ih (by simp only [List.map_cons, List.pairwise_cons] at h1; exact h1.2) h2 (fun t ht => w1 t (by simp [ht])) w2
      (fun t ht => hsub t (by simp [ht])) h
    refine ⟨hl, by rw [hc, combo_cons, hc0]; simp, fun hmm => hm fun t ht => hmm t (by simp [ht])⟩
  | case4 c ours g theirs ih =>
    simp only [promoteLoop, if_true, Out.bind_eq_ok, Out.ok.injEq] at h
    obtain ⟨c', hc', rest, hr, rfl⟩ := h
    simp only [List.map_cons, List.pairwise_cons] at h1
    rw [List.pairwise_cons] at h2
    obtain ⟨hl, hc, hm⟩ := ih h1.2 h2.2 (fun t ht => w1 t (by simp [ht])) (fun t ht => w2 t (by simp [ht]))
      (by
        intro t ht htn
        rcases List.mem_cons.1 (hsub t (by simp [ht]) htn) with he | hm
        · exfalso
          have := h1.1 t.1 (List.mem_map.2 ⟨t, ht, rfl⟩)
          rw [he] at this; exact Precedes.irrefl _ this
        · exact hm) hr
    have hd := LawfulCRing.coerce_ok hc'
    refine ⟨by simp [hl], by simp [hc, hd], ?_⟩
    intro hmm e he
    rcases List.mem_cons.1 he with rfl | he
    · exact LawfulCRing.coerce_mem hc' (hmm (g, c) (by simp))
    · exact hm (fun t ht => hmm t (by simp [ht])) e he
  | case5 g c ours t theirs hgt hlt ih =>
    have hp : Precedes g.mult t.mult := (RN.lt_iff (w1 (g, c) (by simp)) (w2 t (by simp))).1 hlt
    have hc0 : c = 0 := by
      by_contra hc
      rcases List.mem_cons.1 (hsub (g, c) (by simp) hc) with he | hm
      · exact hgt he
      · have := (List.pairwise_cons.1 h2).1 g hm
        exact hp.asymm this
    rw [promoteLoop, if_neg hgt, if_pos hlt] at h
    simp only [List.map_cons, List.pairwise_cons] at h1
    obtain ⟨hl, hc, hm⟩ := ih h1.2 h2 (fun t ht => w1 t (by simp [ht])) w2 (fun t ht => hsub t (by simp [ht])) h
    refine ⟨hl, by rw [hc, combo_cons, hc0]; simp, fun hmm => hm fun t ht => hmm t (by simp [ht])⟩
  | case6 g c ours t theirs hgt hlt ih =>
    rw [promoteLoop, if_neg hgt, if_neg hlt] at h
    simp only [Out.bind_eq_ok, Out.ok.injEq] at h
    obtain ⟨rest, hr, rfl⟩ := h
    have hnp : ¬ Precedes g.mult t.mult := by
      rw [← RN.lt_iff (w1 (g, c) (by simp)) (w2 t (by simp))]; exact hlt
    have h1' := h1
    simp only [List.map_cons, List.pairwise_cons] at h1'
    obtain ⟨hl, hc, hm⟩ := ih h1 (List.pairwise_cons.1 h2).2 w1 (fun t ht => w2 t (by simp [ht]))
      (by
        intro s hs hsn
        rcases List.mem_cons.1 (hsub s hs hsn) with he | hm
        · exfalso
          rcases List.mem_cons.1 hs with rfl | hs'
          · exact hgt he
          · have := h1'.1 s.1 (List.mem_map.2 ⟨s, hs', rfl⟩)
            rw [he] at this; exact hnp this
        · exact hm) hr
    refine ⟨by simp [hl], by simp [hc], ?_⟩
    intro hmm e he
    rcases List.mem_cons.1 he with rfl | he
    · exact Subring.zero_mem _
    · exact hm hmm e he

/-- … and it returns if all coercions do. -/
theorem promoteLoop_isOk {ring src : P} {ours : List (RN × R)} {theirs : List RN}
    (h1 : (ours.map Prod.fst).Pairwise fun g h => Precedes g.mult h.mult)
    (h2 : theirs.Pairwise fun g h => Precedes g.mult h.mult)
    (w1 : ∀ t ∈ ours, t.1.WF) (w2 : ∀ t ∈ theirs, t.WF)
    (hsub : ∀ t ∈ ours, t.2 ≠ 0 → t.1 ∈ theirs)
    (hco : ∀ t ∈ ours, ∃ d, CRing.coerce ring src t.2 = .ok d) :
    ∃ cs, promoteLoop ring src ours theirs = .ok cs := by
  induction ours, theirs using promoteLoop.induct with
  | case1 => exact ⟨[], by simp [promoteLoop]⟩
  | case2 t theirs ih =>
    obtain ⟨cs, hcs⟩ := ih h1 (List.pairwise_cons.1 h2).2 w1 (fun t ht => w2 t (by simp [ht])) (by simp) hco
    exact ⟨0 :: cs, by simp [promoteLoop, hcs]⟩
  | case3 g c ours ih =>
    have hc0 : c = 0 := by
      by_contra hc
      have := hsub (g, c) (by simp) hc
      simp at this
    obtain ⟨cs, hcs⟩ := ih (by simp only [List.map_cons, List.pairwise_cons] at h1; exact h1.2) h2 (fun t ht => w1 t (by simp [ht])) w2
      (fun t ht => hsub t (by simp [ht])) (fun t ht => hco t (by simp [ht]))
    exact ⟨cs, by rw [promoteLoop, assertThat_eq_ok (by simpa using hc0)]; exact hcs⟩
  | case4 c ours g theirs ih =>
    simp only [List.map_cons, List.pairwise_cons] at h1
    rw [List.pairwise_cons] at h2
    obtain ⟨cs, hcs⟩ := ih h1.2 h2.2 (fun t ht => w1 t (by simp [ht])) (fun t ht => w2 t (by simp [ht]))
      (by
        intro t ht htn
        rcases List.mem_cons.1 (hsub t (by simp [ht]) htn) with he | hm
        · exfalso
          have := h1.1 t.1 (List.mem_map.2 ⟨t, ht, rfl⟩)
          rw [he] at this; exact Precedes.irrefl _ this
        · exact hm) (fun t ht => hco t (by simp [ht]))
    obtain ⟨d, hd⟩ := hco (g, c) (by simp)
    exact ⟨d :: cs, by simp only [promoteLoop, if_true]; simp [hd, hcs]⟩
  | case5 g c ours t theirs hgt hlt ih =>
    simp only [List.map_cons, List.pairwise_cons] at h1
    obtain ⟨cs, hcs⟩ := ih h1.2 h2 (fun t ht => w1 t (by simp [ht])) w2 (fun t ht => hsub t (by simp [ht])) (fun t ht => hco t (by simp [ht]))
    exact ⟨cs, by rw [promoteLoop, if_neg hgt, if_pos hlt]; exact hcs⟩
  | case6 g c ours t theirs hgt hlt ih =>
    have hnp : ¬ Precedes g.mult t.mult := by
      rw [← RN.lt_iff (w1 (g, c) (by simp)) (w2 t (by simp))]; exact hlt
    have h1' := h1
    simp only [List.map_cons, List.pairwise_cons] at h1'
    obtain ⟨cs, hcs⟩ := ih h1 (List.pairwise_cons.1 h2).2 w1 (fun t ht => w2 t (by simp [ht]))
      (by
        intro s hs hsn
        rcases List.mem_cons.1 (hsub s hs hsn) with he | hm
        · exfalso
          rcases List.mem_cons.1 hs with rfl | hs'
          · exact hgt he
          · have := h1'.1 s.1 (List.mem_map.2 ⟨s, hs', rfl⟩)
            rw [he] at this; exact hnp this
        · exact hm) hco
    exact ⟨0 :: cs, by rw [promoteLoop, if_neg hgt, if_neg hlt]; simp [hcs]⟩

theorem promoteLoop_outcomes (ring src : P) (ours : List (RN × R)) (theirs : List RN) :
    (∃ cs, promoteLoop ring src ours theirs = .ok cs) ∨ promoteLoop ring src ours theirs = .throws .logicError := by
  induction ours, theirs using promoteLoop.induct with
  | case1 => exact .inl ⟨[], by simp [promoteLoop]⟩
  | case2 t theirs ih =>
    rcases ih with ⟨cs, h⟩ | h
    · exact .inl ⟨0 :: cs, by simp [promoteLoop, h]⟩
    · exact .inr (by simp [promoteLoop, h])
  | case3 g c ours ih =>
    rw [promoteLoop]
    unfold assertThat
    split
    · exact .inr rfl
    · exact ih
  | case4 c ours g theirs ih =>
    simp only [promoteLoop, if_true]
    rcases LawfulCRing.coerce_outcomes (P := P) src ring c with ⟨d, hd⟩ | hd
    · rw [hd]
      rcases ih with ⟨cs, h⟩ | h
      · exact .inl ⟨d :: cs, by simp [h]⟩
      · exact .inr (by simp [h])
    · exact .inr (by simp [hd])
  | case5 g c ours t theirs hgt hlt ih => rw [promoteLoop, if_neg hgt, if_pos hlt]; exact ih
  | case6 g c ours t theirs hgt hlt ih =>
    rw [promoteLoop, if_neg hgt, if_neg hlt]
    rcases ih with ⟨cs, h⟩ | h
    · exact .inl ⟨0 :: cs, by simp [h]⟩
    · exact .inr (by simp [h])

end

/-! ### elements -/

theorem terms_fst {x : Elt P R} (h : x.coeffs.length = x.mod.basis.length) : x.terms.map Prod.fst = x.mod.basis := by
  rw [terms, List.map_fst_zip]; omega

theorem terms_snd {x : Elt P R} (h : x.coeffs.length = x.mod.basis.length) : x.terms.map Prod.snd = x.coeffs := by
  rw [terms, List.map_snd_zip]; omega

theorem toBool_eq_false_iff (x : Elt P R) : x.toBool = false ↔ ∀ c ∈ x.coeffs, c = 0 := by simp [toBool]

theorem combo_eq_zero {l : List (RN × R)} (h : ∀ t ∈ l, t.2 = 0) : combo l = 0 := by
  induction l with
  | nil => simp
  | cons t l ih => rw [combo_cons, h t (by simp), ih fun t ht => h t (by simp [ht])]; simp

theorem terms_mem_snd {x : Elt P R} {t : RN × R} (h : t ∈ x.terms) : t.2 ∈ x.coeffs := (List.of_mem_zip h).2
theorem terms_mem_fst {x : Elt P R} {t : RN × R} (h : t ∈ x.terms) : t.1 ∈ x.mod.basis := (List.of_mem_zip h).1

theorem fs_eq_zero_of_toBool {x : Elt P R} (h : x.toBool = false) : x.fs = 0 :=
  combo_eq_zero fun _ ht => (toBool_eq_false_iff x).1 h _ (terms_mem_snd ht)

theorem zero_fs (m : Mod P) : (m.zero : Elt P R).fs = 0 :=
  fs_eq_zero_of_toBool ((toBool_eq_false_iff _).2 fun c hc => by
    rw [Mod.zero, List.mem_replicate] at hc; exact hc.2)

section
variable [LawfulCRing P]

theorem WF.nodup {x : Elt P R} (h : x.WF) : (x.terms.map Prod.fst).Nodup := by
  rw [terms_fst h.length]; exact Mod.nodup_of_sorted h.mod.sorted

theorem WF.fs_apply {x : Elt P R} (h : x.WF) {g : RN} {c : R} (hm : (g, c) ∈ x.terms) : x.fs g = c := combo_apply_of_mem h.nodup hm

theorem fs_apply_of_not_mem {x : Elt P R} (h : x.WF) {g : RN} (hg : g ∉ x.mod.basis) : x.fs g = 0 := by
  apply combo_apply_of_not_mem; rw [terms_fst h.length]; exact hg

theorem fs_eq_zero_iff {x : Elt P R} (h : x.WF) : x.fs = 0 ↔ x.toBool = false := by
  refine ⟨fun hz => ?_, fs_eq_zero_of_toBool⟩
  rw [toBool_eq_false_iff, ← terms_snd h.length]
  intro c hc
  obtain ⟨t, ht, rfl⟩ := List.mem_map.1 hc
  have := h.fs_apply (g := t.1) (c := t.2) ht
  rw [← this, hz]; rfl

theorem zero_WF {m : Mod P} (h : m.WF) : (m.zero : Elt P R).WF :=
  ⟨h, by simp [Mod.zero], fun c hc => by
    simp only [Mod.zero, List.mem_replicate] at hc
    rw [hc.2]; exact Subring.zero_mem _⟩

/-- Elements of the same module are determined by their combination. -/
theorem ext_fs {x y : Elt P R} (hx : x.WF) (hy : y.WF) (hm : x.mod = y.mod) (h : x.fs = y.fs) : x = y := by
  have := combo_injective hx.nodup (by rw [terms_fst hx.length, terms_fst hy.length, hm]) h
  have hc : x.coeffs = y.coeffs := by rw [← terms_snd hx.length, ← terms_snd hy.length, this]
  cases x; cases y; simp_all

variable [Build]

theorem promote_ok {x y : Elt P R} {m : Mod P} (hx : x.WF) (hm : m.WF)
    (hsub : ∀ g ∈ x.mod.basis, x.fs g ≠ 0 → g ∈ m.basis) (h : x.promote m = .ok y) :
    y.WF ∧ y.mod = m ∧ y.fs = x.fs := by
  unfold promote at h
  split at h
  · rename_i he; cases h; exact ⟨hx, he, rfl⟩
  · split at h
    · rename_i hb
      cases h
      refine ⟨zero_WF hm, rfl, ?_⟩
      rw [zero_fs, fs_eq_zero_of_toBool (by simpa using hb)]
    · rw [Out.bind_eq_ok] at h
      obtain ⟨cs, hcs, h⟩ := h
      obtain ⟨hl, hc, hmem⟩ := promoteLoop_spec (by rw [terms_fst hx.length]; exact hx.mod.sorted) hm.sorted
        (fun t ht => hx.mod.gens _ (terms_mem_fst ht)) hm.gens
        (fun t ht hn => hsub t.1 (terms_mem_fst ht) (by rw [hx.fs_apply (g := t.1) (c := t.2) ht]; exact hn)) hcs
      unfold ofCoefficients at h
      rw [assertThat_eq_ok (by simpa using hl)] at h
      simp only [Out.ok_bind, Out.ok.injEq] at h
      subst h
      exact ⟨⟨hm, hl, hmem fun t ht => hx.mem _ (terms_mem_snd ht)⟩, rfl, hc⟩

theorem promote_isOk {x : Elt P R} {m : Mod P} (hx : x.WF) (hm : m.WF)
    (hsub : ∀ g ∈ x.mod.basis, x.fs g ≠ 0 → g ∈ m.basis)
    (hco : ∀ c ∈ x.coeffs, ∃ d, CRing.coerce m.par x.mod.par c = .ok d) : ∃ y, x.promote m = .ok y := by
  unfold promote
  split
  · exact ⟨_, rfl⟩
  · split
    · exact ⟨_, rfl⟩
    · have h1 : (x.terms.map Prod.fst).Pairwise fun g h => Precedes g.mult h.mult := by rw [terms_fst hx.length]; exact hx.mod.sorted
      have hs : ∀ t ∈ x.terms, t.2 ≠ 0 → t.1 ∈ m.basis := fun t ht hn =>
        hsub t.1 (terms_mem_fst ht) (by rw [hx.fs_apply (g := t.1) (c := t.2) ht]; exact hn)
      have hw : ∀ t ∈ x.terms, t.1.WF := fun t ht => hx.mod.gens _ (terms_mem_fst ht)
      obtain ⟨cs, hcs⟩ := promoteLoop_isOk (ring := m.par) (src := x.mod.par) h1 hm.sorted hw hm.gens hs
        (fun t ht => hco _ (terms_mem_snd ht))
      obtain ⟨hl, -, -⟩ := promoteLoop_spec h1 hm.sorted hw hm.gens hs hcs
      rw [hcs]
      exact ⟨⟨m, cs⟩, by simp [ofCoefficients, assertThat_eq_ok, hl]⟩

theorem promote_outcomes (x : Elt P R) (m : Mod P) : (∃ y, x.promote m = .ok y) ∨ x.promote m = .throws .logicError := by
  unfold promote
  split
  · exact .inl ⟨_, rfl⟩
  · split
    · exact .inl ⟨_, rfl⟩
    · rcases promoteLoop_outcomes m.par x.mod.par x.terms m.basis with ⟨cs, h⟩ | h
      · rw [h]
        simp only [Out.ok_bind, ofCoefficients, assertThat]
        split
        · exact .inr rfl
        · exact .inl ⟨_, rfl⟩
      · exact .inr (by rw [h]; rfl)

/-- Promotion to a span of the module with another one. -/
theorem promote_span_left {x : Elt P R} {n s : Mod P} (hx : x.WF) (hn : n.WF) (h : Mod.span x.mod n = .ok s) :
    ∃ y, x.promote s = .ok y ∧ y.WF ∧ y.mod = s ∧ y.fs = x.fs := by
  obtain ⟨ws, hmem, hpar⟩ := Mod.span_ok (R := R) hx.mod hn h
  have hsub : ∀ g ∈ x.mod.basis, x.fs g ≠ 0 → g ∈ s.basis := fun g hg _ => (hmem g).2 (.inl hg)
  have hex : ∃ y, x.promote s = .ok y := by
    rcases hpar with ⟨he, rfl⟩ | ⟨he, rfl⟩ | ⟨-, -, hc⟩
    · have hc0 : x.coeffs = [] := by
        have := hx.length; rw [he] at this; simpa using this
      unfold promote
      split
      · exact ⟨_, rfl⟩
      · rw [if_pos (by simp [toBool, hc0])]
        exact ⟨_, rfl⟩
    · exact ⟨x, by simp [promote]⟩
    · exact promote_isOk hx ws hsub fun c hcm => ⟨c, (LawfulCRing.compositum_left hc (hx.mem c hcm)).1⟩
  obtain ⟨y, hy⟩ := hex
  exact ⟨y, hy, promote_ok hx ws hsub hy⟩

theorem promote_span_right {y : Elt P R} {m s : Mod P} (hm : m.WF) (hy : y.WF) (h : Mod.span m y.mod = .ok s) :
    ∃ z, y.promote s = .ok z ∧ z.WF ∧ z.mod = s ∧ z.fs = y.fs := by
  obtain ⟨ws, hmem, hpar⟩ := Mod.span_ok (R := R) hm hy.mod h
  have hsub : ∀ g ∈ y.mod.basis, y.fs g ≠ 0 → g ∈ s.basis := fun g hg _ => (hmem g).2 (.inr hg)
  have hex : ∃ z, y.promote s = .ok z := by
    rcases hpar with ⟨he, rfl⟩ | ⟨he, rfl⟩ | ⟨-, -, hc⟩
    · exact ⟨y, by simp [promote]⟩
    · have hc0 : y.coeffs = [] := by
        have := hy.length; rw [he] at this; simpa using this
      unfold promote
      split
      · exact ⟨_, rfl⟩
      · rw [if_pos (by simp [toBool, hc0])]
        exact ⟨_, rfl⟩
    · exact promote_isOk hy ws hsub fun c hcm => ⟨c, (LawfulCRing.compositum_right hc (hy.mem c hcm)).1⟩
  obtain ⟨z, hz⟩ := hex
  exact ⟨z, hz, promote_ok hy ws hsub hz⟩

omit [DecidableEq P] [CRing P R] [LawfulCRing P] [Build] in
theorem combo_zipWith_add (l : List RN) (a b : List R) (h : a.length = b.length) :
    combo (l.zip (List.zipWith (· + ·) a b)) = combo (l.zip a) + combo (l.zip b) := by
  induction l generalizing a b with
  | nil => simp
  | cons g l ih =>
    cases a with
    | nil => cases b <;> simp_all
    | cons c a => cases b with
      | nil => simp at h
      | cons d b =>
        simp only [List.zipWith_cons_cons, List.zip_cons_cons, combo_cons]
        rw [ih a b (by simpa using h), Finsupp.single_add]
        abel

omit [Build] in
theorem addSame_spec {x y : Elt P R} (hx : x.WF) (hy : y.WF) (hm : x.mod = y.mod) :
    (addSame x y).WF ∧ (addSame x y).mod = x.mod ∧ (addSame x y).fs = x.fs + y.fs := by
  have hl : x.coeffs.length = y.coeffs.length := by rw [hx.length, hy.length, hm]
  refine ⟨⟨hx.mod, by simp [addSame, ← hl, hx.length], ?_⟩, rfl, ?_⟩
  · intro c hc
    simp only [addSame] at hc ⊢
    rw [List.zipWith_eq_zipWith_take_min, List.mem_iff_getElem] at hc
    obtain ⟨i, hi, rfl⟩ := hc
    rw [List.getElem_zipWith]
    refine Subring.add_mem _ (hx.mem _ ?_) (hm ▸ hy.mem _ ?_) <;>
      exact List.mem_of_mem_take (List.getElem_mem _)
  · have := combo_zipWith_add x.mod.basis x.coeffs y.coeffs hl
    unfold fs terms addSame
    rw [this, hm]

theorem add_cases {x y : Elt P R} (hx : x.WF) (hy : y.WF) :
    (∃ s z, (x.mod = y.mod ∧ s = x.mod ∨ Mod.span x.mod y.mod = .ok s) ∧ x.addAssign y = .done z ∧ z.WF ∧ z.mod = s ∧ z.fs = x.fs + y.fs) ∨
    (x.mod ≠ y.mod ∧ Mod.span x.mod y.mod = .throws .logicError ∧ x.addAssign y = .fail .logicError x) := by
  unfold addAssign
  split
  · rename_i hne
    rcases Mod.span_throws (R := R) hx.mod hy.mod with ⟨s, hs⟩ | ⟨hs, -⟩
    · left
      obtain ⟨x', hx', wx', mx', fx'⟩ := promote_span_left hx hy.mod hs
      obtain ⟨y', hy', wy', my', fy'⟩ := promote_span_right hx.mod hy hs
      obtain ⟨h1, h2, h3⟩ := addSame_spec wx' wy' (mx'.trans my'.symm)
      refine ⟨s, addSame x' y', .inr hs, ?_, h1, h2.trans mx', by rw [h3, fx', fy']⟩
      simp only [hs, hx', hy']
    · right
      rw [hs]
      exact ⟨hne, rfl, rfl⟩
  · rename_i he
    rw [not_not] at he
    left
    obtain ⟨h1, h2, h3⟩ := addSame_spec hx hy he
    exact ⟨x.mod, addSame x y, .inl ⟨he, rfl⟩, rfl, h1, h2, h3⟩

omit [DecidableEq P] [DecidableEq R] [CRing P R] [LawfulCRing P] [Build] in
theorem result_done {S : Type} (s : S) : (Step.done s).result = .ok s := rfl
omit [DecidableEq P] [DecidableEq R] [CRing P R] [LawfulCRing P] [Build] in
theorem result_fail {S : Type} (e : Exc) (s : S) : (Step.fail e s).result = .throws e := rfl

theorem add_ok {x y z : Elt P R} (hx : x.WF) (hy : y.WF) (h : x.add y = .ok z) : z.WF ∧ z.fs = x.fs + y.fs := by
  unfold add at h
  rcases add_cases hx hy with ⟨s, z', -, h', hz, -, hf⟩ | ⟨-, -, h'⟩
  · rw [h', result_done] at h; cases h; exact ⟨hz, hf⟩
  · rw [h', result_fail] at h; cases h

omit [Build] in
theorem neg_spec {x : Elt P R} (hx : x.WF) : x.neg.WF ∧ x.neg.mod = x.mod ∧ x.neg.fs = - x.fs := by
  refine ⟨⟨hx.mod, by simp [neg, hx.length], ?_⟩, rfl, ?_⟩
  · intro c hc
    simp only [neg, List.mem_map] at hc
    obtain ⟨d, hd, rfl⟩ := hc
    exact Subring.neg_mem _ (hx.mem d hd)
  · unfold fs terms neg
    generalize x.mod.basis = l
    generalize x.coeffs = a
    induction l generalizing a with
    | nil => simp
    | cons g l ih => cases a with
      | nil => simp
      | cons c a => simp only [List.map_cons, List.zip_cons_cons, combo_cons, ih, Finsupp.single_neg]; abel

theorem sub_ok {x y z : Elt P R} (hx : x.WF) (hy : y.WF) (h : x.sub y = .ok z) : z.WF ∧ z.fs = x.fs - y.fs := by
  obtain ⟨h1, -, h3⟩ := neg_spec hy
  obtain ⟨h4, h5⟩ := add_ok hx h1 h
  exact ⟨h4, by rw [h5, h3, sub_eq_add_neg]⟩

end

end ExactReal.Elt
