import Verif.Lemma.Element

/-! What `promote` does in general, also when it drops generators. -/

namespace ExactReal.Elt
open Finsupp
variable {P : Type} [DecidableEq P] {R : Type} [CommRing R] [DecidableEq R] [CRing P R] [LawfulCRing P] [b : Build]

theorem promoteLoop_general {ring src : P} {ours : List (RN × R)} {theirs : List RN} {cs : List R}
    (h1 : (ours.map Prod.fst).Pairwise fun g h => Precedes g.mult h.mult)
    (h2 : theirs.Pairwise fun g h => Precedes g.mult h.mult)
    (w1 : ∀ t ∈ ours, t.1.WF) (w2 : ∀ t ∈ theirs, t.WF)
    (h : promoteLoop ring src ours theirs = .ok cs) :
    cs.length = theirs.length ∧ combo (theirs.zip cs) = combo (ours.filter fun t => t.1 ∈ theirs) ∧
      ((∀ t ∈ ours, t.2 ∈ LawfulCRing.mem src) → ∀ c ∈ cs, c ∈ LawfulCRing.mem ring) ∧
      (b.asserts = true → ∀ t ∈ ours, t.2 ≠ 0 → (∀ g ∈ theirs, Precedes g.mult t.1.mult) → False) := by
  induction ours, theirs using promoteLoop.induct generalizing cs with
  | case1 => simp only [promoteLoop, Out.ok.injEq] at h; subst h; simp
  | case2 t theirs ih =>
    simp only [promoteLoop, Out.bind_eq_ok, Out.ok.injEq] at h
    obtain ⟨rest, hr, rfl⟩ := h
    obtain ⟨hl, hc, hm, -⟩ := ih h1 (List.pairwise_cons.1 h2).2 w1 (fun t ht => w2 t (by simp [ht])) hr
    refine ⟨by simp [hl], by simpa using hc, fun _ => ?_, by simp⟩
    intro c hcm
    rcases List.mem_cons.1 hcm with rfl | hcm
    · exact Subring.zero_mem _
    · exact hm (by simp) c hcm
  | case3 g c ours ih =>
    simp only [promoteLoop, Out.bind_eq_ok] at h
    obtain ⟨_, ha, h⟩ := h
    obtain ⟨hl, hc, hm, hd⟩ := ih (by simp only [List.map_cons, List.pairwise_cons] at h1; exact h1.2) h2 (fun t ht => w1 t (by simp [ht])) w2
      h
    refine ⟨hl, by simp, fun hmm => hm fun t ht => hmm t (by simp [ht]), ?_⟩
    intro hb t ht htn _
    rcases List.mem_cons.1 ht with rfl | ht
    · simp only [assertThat, hb, Bool.true_and] at ha
      simp_all
    · exact hd hb t ht htn (by simp)
  | case4 c ours g theirs ih =>
    simp only [promoteLoop, if_true, Out.bind_eq_ok, Out.ok.injEq] at h
    obtain ⟨c', hc', rest, hr, rfl⟩ := h
    simp only [List.map_cons, List.pairwise_cons] at h1
    rw [List.pairwise_cons] at h2
    obtain ⟨hl, hc, hm, hdr⟩ := ih h1.2 h2.2 (fun t ht => w1 t (by simp [ht])) (fun t ht => w2 t (by simp [ht])) hr
    have hd := LawfulCRing.coerce_ok hc'
    have hf : (ours.filter fun t => t.1 ∈ g :: theirs) = ours.filter fun t => t.1 ∈ theirs := by
      refine List.filter_congr fun t ht => ?_
      have : t.1 ≠ g := by
        intro he
        have := h1.1 t.1 (List.mem_map.2 ⟨t, ht, rfl⟩)
        rw [he] at this; exact Precedes.irrefl _ this
      simp [this]
    refine ⟨by simp [hl], ?_, ?_, ?_⟩
    · rw [List.filter_cons_of_pos (by simp), hf]; simp [hc, hd]
    · intro hmm e he
      rcases List.mem_cons.1 he with rfl | he
      · exact LawfulCRing.coerce_mem hc' (hmm (g, c) (by simp))
      · exact hm (fun t ht => hmm t (by simp [ht])) e he
    · intro hb t ht htn hall
      rcases List.mem_cons.1 ht with rfl | ht
      · exact Precedes.irrefl _ (hall g (by simp))
      · exact hdr hb t ht htn fun k hk => hall k (by simp [hk])
  | case5 g c ours t theirs hgt hlt ih =>
    have hp : Precedes g.mult t.mult := (RN.lt_iff (w1 (g, c) (by simp)) (w2 t (by simp))).1 hlt
    have hng : g ∉ t :: theirs := by
      intro hm
      rcases List.mem_cons.1 hm with he | hm
      · exact hgt he
      · have := (List.pairwise_cons.1 h2).1 g hm
        exact hp.asymm this
    rw [promoteLoop, if_neg hgt, if_pos hlt] at h
    simp only [List.map_cons, List.pairwise_cons] at h1
    obtain ⟨hl, hc, hm, hdr⟩ := ih h1.2 h2 (fun t ht => w1 t (by simp [ht])) w2 h
    refine ⟨hl, by rw [List.filter_cons_of_neg (by simpa using hng)]; exact hc, fun hmm => hm fun t ht => hmm t (by simp [ht]), ?_⟩
    intro hb s hs hsn hall
    rcases List.mem_cons.1 hs with rfl | hs
    · exact hp.asymm (hall t (by simp))
    · exact hdr hb s hs hsn hall
  | case6 g c ours t theirs hgt hlt ih =>
    rw [promoteLoop, if_neg hgt, if_neg hlt] at h
    simp only [Out.bind_eq_ok, Out.ok.injEq] at h
    obtain ⟨rest, hr, rfl⟩ := h
    have hnp : ¬ Precedes g.mult t.mult := by
      rw [← RN.lt_iff (w1 (g, c) (by simp)) (w2 t (by simp))]; exact hlt
    have h1' := h1
    simp only [List.map_cons, List.pairwise_cons] at h1'
    obtain ⟨hl, hc, hm, hdr⟩ := ih h1 (List.pairwise_cons.1 h2).2 w1 (fun t ht => w2 t (by simp [ht])) hr
    have hf : (((g, c) :: ours).filter fun s => s.1 ∈ t :: theirs) = ((g, c) :: ours).filter fun s => s.1 ∈ theirs := by
      refine List.filter_congr fun s hs => ?_
      have : s.1 ≠ t := by
        intro he
        rcases List.mem_cons.1 hs with rfl | hs'
        · exact hgt he
        · have := h1'.1 s.1 (List.mem_map.2 ⟨s, hs', rfl⟩)
          rw [he] at this; exact hnp this
      simp [this]
    refine ⟨by simp [hl], by rw [hf]; simpa using hc, ?_, ?_⟩
    · intro hmm e he
      rcases List.mem_cons.1 he with rfl | he
      · exact Subring.zero_mem _
      · exact hm hmm e he
    · intro hb s hs hsn hall
      exact hdr hb s hs hsn fun k hk => hall k (by simp [hk])

theorem promote_general {x y : Elt P R} {m : Mod P} (hx : x.WF) (hm : m.WF) (h : x.promote m = .ok y) :
    y.WF ∧ y.mod = m ∧ y.fs = combo (x.terms.filter fun t => t.1 ∈ m.basis) ∧
      (b.asserts = true → ∀ t ∈ x.terms, t.2 ≠ 0 → ∃ g ∈ m.basis, ¬ Precedes g.mult t.1.mult) := by
  unfold promote at h
  split at h
  · rename_i he; cases h
    refine ⟨hx, he, ?_, fun _ t ht _ => ⟨t.1, he ▸ terms_mem_fst ht, Precedes.irrefl _⟩⟩
    rw [List.filter_eq_self.2 (fun t ht => by simpa [← he] using terms_mem_fst ht)]; rfl
  · split at h
    · rename_i hb
      cases h
      have h0 : ∀ t ∈ x.terms, t.2 = 0 := fun t ht => (toBool_eq_false_iff x).1 (by simpa using hb) _ (terms_mem_snd ht)
      refine ⟨zero_WF hm, rfl, ?_, fun _ t ht hn => absurd (h0 t ht) hn⟩
      rw [zero_fs, combo_eq_zero fun t ht => h0 t (List.mem_filter.1 ht).1]
    · rw [Out.bind_eq_ok] at h
      obtain ⟨cs, hcs, h⟩ := h
      obtain ⟨hl, hc, hmem, hd⟩ := promoteLoop_general (by rw [terms_fst hx.length]; exact hx.mod.sorted) hm.sorted
        (fun t ht => hx.mod.gens _ (terms_mem_fst ht)) hm.gens hcs
      unfold ofCoefficients at h
      rw [assertThat_eq_ok (by simpa using hl)] at h
      simp only [Out.ok_bind, Out.ok.injEq] at h
      subst h
      refine ⟨⟨hm, hl, hmem fun t ht => hx.mem _ (terms_mem_snd ht)⟩, rfl, hc, fun hb t ht hn => ?_⟩
      by_contra hcon
      push Not at hcon
      exact hd hb t ht hn hcon

end ExactReal.Elt
