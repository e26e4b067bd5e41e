import Verif.Lemma.Compat
import Verif.Lemma.Single

/-! # Multivariate division: leading terms and the loop of `truediv` -/

namespace ExactReal

section
variable {K : Type*} [CommRing K]

/-- `d` is the leading exponent of `f`. -/
def Lead (f : MvPolynomial ℕ K) (d : ℕ →₀ ℕ) : Prop :=
  f.coeff d ≠ 0 ∧ ∀ e, f.coeff e ≠ 0 → e = d ∨ Precedes e d

theorem Lead.unique {f : MvPolynomial ℕ K} {d e : ℕ →₀ ℕ} (hd : Lead f d) (he : Lead f e) : d = e := by
  rcases hd.2 e he.1 with h | h
  · exact h.symm
  · rcases he.2 d hd.1 with h' | h'
    · exact h'
    · exact absurd h h'.asymm

theorem exists_lead {f : MvPolynomial ℕ K} (hf : f ≠ 0) : ∃ d, Lead f d := by
  have key : ∀ s : Finset (ℕ →₀ ℕ), s.Nonempty → ∃ d ∈ s, ∀ e ∈ s, e = d ∨ Precedes e d := by
    intro s hs
    induction s using Finset.induction_on with
    | empty => exact absurd hs (by simp)
    | insert a s ha ih =>
      by_cases hs' : s.Nonempty
      · obtain ⟨d, hd, hm⟩ := ih hs'
        rcases Precedes.trichotomy a d with h | h | h
        · refine ⟨d, Finset.mem_insert_of_mem hd, fun e he => ?_⟩
          rcases Finset.mem_insert.1 he with rfl | he
          · exact .inr h
          · exact hm e he
        · subst h; exact absurd hd ha
        · refine ⟨a, Finset.mem_insert_self _ _, fun e he => ?_⟩
          rcases Finset.mem_insert.1 he with rfl | he
          · exact .inl rfl
          · rcases hm e he with rfl | h'
            · exact .inr h
            · exact .inr (h'.trans h)
      · rw [Finset.not_nonempty_iff_eq_empty] at hs'
        subst hs'
        exact ⟨a, by simp, by simp⟩
  obtain ⟨d, hd, h⟩ := key f.support (by rwa [Finset.nonempty_iff_ne_empty, Ne, MvPolynomial.support_eq_empty])
  exact ⟨d, MvPolynomial.mem_support_iff.1 hd, fun e he => h e (MvPolynomial.mem_support_iff.2 he)⟩

theorem Precedes.add_left {f g : ℕ →₀ ℕ} (h : Precedes f g) (k : ℕ →₀ ℕ) : Precedes (k + f) (k + g) := by
  rw [add_comm k, add_comm k]; exact h.add_right k

theorem Lead.mul [IsDomain K] {f g : MvPolynomial ℕ K} {d e : ℕ →₀ ℕ} (hf : Lead f d) (hg : Lead g e) :
    Lead (f * g) (d + e) ∧ (f * g).coeff (d + e) = f.coeff d * g.coeff e := by
  have prec : ∀ a b, f.coeff a ≠ 0 → g.coeff b ≠ 0 → (a = d ∧ b = e) ∨ Precedes (a + b) (d + e) := by
    intro a b ha hb
    rcases hf.2 a ha with rfl | h1
    · rcases hg.2 b hb with rfl | h2
      · exact .inl ⟨rfl, rfl⟩
      · exact .inr (h2.add_left _)
    · rcases hg.2 b hb with rfl | h2
      · exact .inr (h1.add_right _)
      · exact .inr ((h1.add_right _).trans (h2.add_left _))
  have hc : (f * g).coeff (d + e) = f.coeff d * g.coeff e := by
    classical
    rw [MvPolynomial.coeff_mul]
    rw [Finset.sum_eq_single (d, e)]
    · rintro ⟨a, b⟩ hab hne
      rw [Finset.mem_antidiagonal] at hab
      by_contra h0
      rcases prec a b (left_ne_zero_of_mul h0) (right_ne_zero_of_mul h0) with ⟨rfl, rfl⟩ | h
      · exact hne rfl
      · simp only at hab; rw [hab] at h; exact h.irrefl
    · intro h; rw [Finset.mem_antidiagonal] at h; simp at h
  refine ⟨⟨by rw [hc]; exact mul_ne_zero hf.1 hg.1, fun k hk => ?_⟩, hc⟩
  classical
  rw [MvPolynomial.coeff_mul] at hk
  obtain ⟨⟨a, b⟩, hab, h⟩ := Finset.exists_ne_zero_of_sum_ne_zero hk
  rw [Finset.mem_antidiagonal] at hab
  simp only at hab h
  rcases prec a b (left_ne_zero_of_mul h) (right_ne_zero_of_mul h) with ⟨rfl, rfl⟩ | h'
  · exact .inl hab.symm
  · rw [hab] at h'; exact .inr h'

/-- Subtracting a polynomial with the same leading term makes the leading exponent smaller. -/
theorem Lead.sub {f g : MvPolynomial ℕ K} {d e : ℕ →₀ ℕ} (hf : Lead f d) (hg : Lead g d) (h : f.coeff d = g.coeff d)
    (he : Lead (f - g) e) : Precedes e d := by
  have h1 := he.1
  rw [MvPolynomial.coeff_sub] at h1
  by_cases hfe : f.coeff e = 0
  · have : g.coeff e ≠ 0 := by intro h0; apply h1; rw [hfe, h0, sub_zero]
    rcases hg.2 e this with rfl | h'
    · exact absurd (sub_eq_zero.2 h) h1
    · exact h'
  · rcases hf.2 e hfe with rfl | h'
    · exact absurd (sub_eq_zero.2 h) h1
    · exact h'

end

namespace Elt
open Finsupp
variable {P : Type} [DecidableEq P] {R : Type} [CommRing R] [DecidableEq R] [CRing P R] [LawfulCRing P]

/-- What `leading` returns. -/
theorem leading_spec {x : Elt P R} (hx : x.WF) (h0 : x.toBool = true) :
    ∃ c g, x.leading = .ok (c, g) ∧ (g, c) ∈ x.terms ∧ c ≠ 0 ∧ x.fs g = c ∧ ∀ h, x.fs h ≠ 0 → h = g ∨ Precedes h.mult g.mult := by
  unfold leading
  cases hf : x.terms.reverse.find? fun t => t.2 ≠ 0 with
  | none =>
    exfalso
    rw [List.find?_eq_none] at hf
    have : x.toBool = false := by
      rw [toBool_eq_false_iff]
      intro c hc
      rw [← terms_snd hx.length, List.mem_map] at hc
      obtain ⟨t, ht, rfl⟩ := hc
      simpa using hf t (List.mem_reverse.2 ht)
    rw [this] at h0; cases h0
  | some t =>
    obtain ⟨g, c⟩ := t
    rw [List.find?_eq_some_iff_append] at hf
    obtain ⟨hc, as, bs, he, has⟩ := hf
    have hc : c ≠ 0 := by simpa using hc
    have he' : x.terms = bs.reverse ++ (g, c) :: as.reverse := by
      have := congrArg List.reverse he
      simpa using this
    have hm : (g, c) ∈ x.terms := by rw [he']; simp
    refine ⟨c, g, rfl, hm, hc, hx.fs_apply hm, fun h hh => ?_⟩
    have hb := (fs_support_WF hx hh).1
    rw [← terms_fst hx.length, List.mem_map] at hb
    obtain ⟨⟨h', d⟩, ht, rfl⟩ := hb
    have hd : x.fs h' = d := hx.fs_apply ht
    have hs := hx.mod.sorted
    rw [← terms_fst hx.length, he', List.map_append, List.pairwise_append] at hs
    rw [he', List.mem_append, List.mem_cons] at ht
    rcases ht with ht | ht | ht
    · exact .inr (hs.2.2 h' (List.mem_map.2 ⟨_, ht, rfl⟩) g (by simp))
    · left; simpa using congrArg Prod.fst ht
    · exfalso
      have := has _ (List.mem_reverse.1 ht)
      simp at this
      exact hh (hd.trans this)

/-- The polynomial of an element of a module whose rational generator is one. -/
noncomputable def poly (x : Elt P R) : MvPolynomial ℕ AlgReal := polyF P x.fs

omit [DecidableEq P] [DecidableEq R] [CRing P R] [LawfulCRing P] [CommRing R] in
theorem coef_one {m : Mod P} (u : m.Unital) {g : RN} (h : g ∈ m.basis) : g.coef = 1 := by
  cases g with
  | rat q => have := u q h; subst this; rfl
  | atom i => rfl
  | prod l => rfl

theorem coeff_poly_mem {x : Elt P R} (hx : x.WF) (u : x.mod.Unital) (e : ℕ →₀ ℕ) :
    (x.poly.coeff e = 0 ∨ ∃ g, x.fs g ≠ 0 ∧ g.mult = e ∧ x.poly.coeff e = LawfulCRing.emb P (x.fs g)) := by
  by_cases h : ∃ g, x.fs g ≠ 0 ∧ g.mult = e
  · obtain ⟨g, hg, rfl⟩ := h
    refine .inr ⟨g, hg, rfl, ?_⟩
    rw [poly, coeff_polyF_self hx.multInj hg, coef_one u (fs_support_WF hx hg).1, map_one, mul_one]
  · left
    rw [poly, coeff_polyF]
    refine Finset.sum_eq_zero fun g hg => ?_
    rw [if_neg]
    exact fun he => h ⟨g, Finsupp.mem_support_iff.1 hg, he⟩

theorem coeff_poly_range {x : Elt P R} (hx : x.WF) (u : x.mod.Unital) (e : ℕ →₀ ℕ) :
    x.poly.coeff e ∈ (LawfulCRing.emb P : R →+* AlgReal).range := by
  rcases coeff_poly_mem hx u e with h | ⟨g, -, -, h⟩
  · rw [h]; exact Subring.zero_mem _
  · rw [h]; exact ⟨_, rfl⟩

theorem lead_poly {x : Elt P R} (hx : x.WF) (u : x.mod.Unital) {c : R} {g : RN} (hc : c ≠ 0) (hg : x.fs g = c)
    (h : ∀ h, x.fs h ≠ 0 → h = g ∨ Precedes h.mult g.mult) : Lead x.poly g.mult ∧ x.poly.coeff g.mult = LawfulCRing.emb P c := by
  have hg' : x.fs g ≠ 0 := by rwa [hg]
  have hco : x.poly.coeff g.mult = LawfulCRing.emb P c := by
    rw [poly, coeff_polyF_self hx.multInj hg', coef_one u (fs_support_WF hx hg').1, map_one, mul_one, hg]
  refine ⟨⟨?_, fun e he => ?_⟩, hco⟩
  · rw [hco, Ne, map_eq_zero_iff _ LawfulCRing.emb_injective]; exact hc
  · rcases coeff_poly_mem hx u e with h' | ⟨k, hk, rfl, -⟩
    · exact absurd h' he
    · rcases h k hk with rfl | h'
      · exact .inl rfl
      · exact .inr h'

theorem poly_eq_zero_iff {x : Elt P R} (hx : x.WF) (u : x.mod.Unital) : x.poly = 0 ↔ x.toBool = false := by
  rw [← fs_eq_zero_iff hx]
  constructor
  · exact polyF_eq_zero hx.multInj (fs_apply_of_not_mem hx fun h => by simpa using u 0 h)
  · intro h; rw [poly, h, polyF_zero]

/-- The partial quotient `coefficient_quotient * Module::make({gq}, ring)->gen(0)`. -/
def term (ring : P) (gq : RN) (c : R) : Elt P R := ⟨⟨ring, [gq]⟩, [c]⟩

theorem term_WF {ring : P} {gq : RN} {c : R} (hg : gq.WF) (hc : c ∈ LawfulCRing.mem ring) : (term ring gq c).WF :=
  ⟨⟨by simpa [term] using hg, by simp [term]⟩, rfl, by simpa [term] using hc⟩

omit [LawfulCRing P] in
theorem term_fs (ring : P) (gq : RN) (c : R) : (term ring gq c).fs = single gq c := by
  simp [term, fs, combo, terms]

omit [LawfulCRing P] [CommRing R] [DecidableEq R] [CRing P R] [DecidableEq P] in
theorem make_singleton (ring : P) (gq : RN) : Mod.make ring [gq] = .ok ⟨ring, [gq]⟩ := by
  simp [Mod.make, Mod.sort, Mod.check]

theorem add_par [Build] {x y z : Elt P R} (hx : x.WF) (hy : y.WF) {p : P} (px : x.mod.par = p) (py : y.mod.par = p) (h : x.add y = .ok z) :
    z.mod.par = p := by
  unfold add at h
  rcases add_cases hx hy with ⟨s, z', hs, h', -, hm, -⟩ | ⟨-, -, h'⟩
  · rw [h', result_done] at h
    cases h
    rw [hm]
    rcases hs with ⟨-, rfl⟩ | hs
    · exact px
    · rcases (Mod.span_ok (R := R) hx.mod hy.mod hs).2.2 with ⟨-, rfl⟩ | ⟨-, rfl⟩ | ⟨-, -, h⟩
      · exact py
      · exact px
      · rw [px, py, LawfulCRing.compositum_self] at h; cases h; rfl
  · rw [h', result_fail] at h; cases h

theorem mul_par [Build] {x y z : Elt P R} (hx : x.WF) (hy : y.WF) {p : P} (px : x.mod.par = p) (py : y.mod.par = p) (h : x.mul y = .ok z) :
    z.mod.par = p := by
  unfold mul at h
  rcases mul_cases hx hy with ⟨z', h', -, -, ⟨-, rfl⟩ | ⟨-, -, rfl⟩ | ⟨-, -, hc, -⟩⟩ | ⟨x', h', -⟩
  · rw [h', result_done] at h; cases h; exact px
  · rw [h', result_done] at h; cases h; exact py
  · rw [h', result_done] at h; cases h; rw [px, py, LawfulCRing.compositum_self] at hc; cases hc; rfl
  · rw [h', result_fail] at h; cases h

theorem add_unital [Build] {x y z : Elt P R} (hx : x.WF) (hy : y.WF) (ux : x.mod.Unital) (uy : y.mod.Unital) (h : x.add y = .ok z) :
    z.mod.Unital := fun q hq => ((add_mod hx hy h).1 _).1 hq |>.elim (ux q) (uy q)

theorem add_defined [Build] {x y : Elt P R} (hx : x.WF) (hy : y.WF) {p : P} (px : x.mod.par = p) (py : y.mod.par = p)
    (ux : x.mod.Unital) (uy : y.mod.Unital) : ∃ z, x.add y = .ok z := by
  obtain ⟨t, ht⟩ := Mod.span_isOk (R := R) hx.mod hy.mod (.inr (.inr (by rw [px, py]; exact Mod.isOk_of (LawfulCRing.compositum_self _))))
    fun a b ha hb => (ux a ha).trans (uy b hb).symm
  unfold add
  rcases add_cases hx hy with ⟨s, z', hs, h', -, hm, -⟩ | ⟨-, h', -⟩
  · exact ⟨z', by rw [h']; rfl⟩
  · rw [ht] at h'; cases h'

theorem mul_defined [Build] {x y : Elt P R} (hx : x.WF) (hy : y.WF) {p : P} (px : x.mod.par = p) (py : y.mod.par = p)
    (ux : x.mod.Unital) (uy : y.mod.Unital) : ∃ z, x.mul y = .ok z := by
  unfold mul
  rcases mul_cases hx hy with ⟨z, h, -⟩ | ⟨x', -, -, -, -, -, hcc | ⟨g, hg, h, hh, ht⟩⟩
  · exact ⟨z, by rw [h]; rfl⟩
  · rw [px, py, LawfulCRing.compositum_self] at hcc; cases hcc
  · exfalso
    have := (RN.mul_isOk_iff g h).2 (.inr ⟨coef_one ux hg, coef_one uy hh⟩)
    rw [ht] at this
    obtain ⟨_, h⟩ := this
    cases h

theorem mul_unital [Build] {x y z : Elt P R} (hx : x.WF) (hy : y.WF) (ux : x.mod.Unital) (uy : y.mod.Unital) (h : x.mul y = .ok z) :
    z.mod.Unital := by
  unfold mul at h
  rcases mul_cases hx hy with ⟨z', h', -, -, ⟨-, rfl⟩ | ⟨-, -, rfl⟩ | ⟨-, -, hc, -, hk⟩⟩ | ⟨x', h', -⟩
  · rw [h', result_done] at h; cases h; exact ux
  · rw [h', result_done] at h; cases h; exact uy
  · rw [h', result_done] at h; cases h
    intro q hq
    obtain ⟨g, hg, k, hk', hm⟩ := (hk _).1 hq
    have := (RN.mul_eq_ok (hx.mod.gens g hg) (hy.mod.gens k hk') hm).2.2
    rw [coef_one ux hg, coef_one uy hk', mul_one] at this
    exact this
  · rw [h', result_fail] at h; cases h

theorem poly_add [Build] {x y z : Elt P R} (hx : x.WF) (hy : y.WF) (h : x.add y = .ok z) : z.poly = x.poly + y.poly := by
  rw [poly, (add_ok hx hy h).2, polyF_add]; rfl

theorem poly_sub [Build] {x y z : Elt P R} (hx : x.WF) (hy : y.WF) (h : x.sub y = .ok z) : z.poly = x.poly - y.poly := by
  rw [poly, (sub_ok hx hy h).2, polyF_sub]; rfl

theorem poly_mul [Build] {x y z : Elt P R} (hx : x.WF) (hy : y.WF) (h : x.mul y = .ok z) : z.poly = x.poly * y.poly := by
  have := mul_value ((MvPolynomial.C).comp (LawfulCRing.emb P)) (MvPolynomial.X : ℕ → MvPolynomial ℕ AlgReal) hx hy h
  rw [value_eq_evalF, value_eq_evalF, value_eq_evalF] at this
  exact this

variable [LawfulScalar P]

/-- One iteration of the loop of `truediv`. -/
theorem truedivLoop_succ [Build] {p : P} {y r q : Elt P R} (n : ℕ) (wr : r.WF) (r0 : r.toBool = true) (wy : y.WF) (y0 : y.toBool = true) :
    ∃ a g b h, (a ≠ 0 ∧ r.fs g = a ∧ ∀ k, r.fs k ≠ 0 → k = g ∨ Precedes k.mult g.mult) ∧
      (b ≠ 0 ∧ y.fs h = b ∧ ∀ k, y.fs k ≠ 0 → k = h ∨ Precedes k.mult h.mult) ∧
      truedivLoop p y (n + 1) r q = (g.div h >>= fun generatorQuotient => match generatorQuotient with
        | none => .ok none
        | Option.some gq =>
          if CRing.quo P a b * b ≠ a then assertThat (!CRing.isField P) >>= fun _ => .ok none
          else q.add (term p gq (CRing.quo P a b)) >>= fun quotient => (term p gq (CRing.quo P a b)).mul y >>= fun product =>
            r.sub product >>= fun remainder => truedivLoop p y n remainder quotient) := by
  obtain ⟨a, g, hl, -, ha, hg, hm⟩ := leading_spec wr r0
  obtain ⟨b, h, hl', -, hb, hh, hm'⟩ := leading_spec wy y0
  refine ⟨a, g, b, h, ⟨ha, hg, hm⟩, ⟨hb, hh, hm'⟩, ?_⟩
  rw [truedivLoop]
  simp only [r0, Bool.not_true, Bool.false_eq_true, if_false, hl, hl', Out.ok_bind]
  congr 1
  funext gq
  cases gq with
  | none => rfl
  | some gq =>
    dsimp only
    have hmul : CRing.imulR P (1 : R) (CRing.quo P a b) = .done (CRing.quo P a b) := (LawfulScalar.imulR_iff _ _ _).2 (one_mul _).symm
    simp only [make_singleton, Out.ok_bind, Mod.gen, List.length_singleton, Nat.lt_one_iff, if_true]
    have : (imulR (⟨⟨p, [gq]⟩, (List.replicate 1 0).set 0 1⟩ : Elt P R) (CRing.quo P a b)).result = .ok (term p gq (CRing.quo P a b)) := by
      simp [imulR, scale, scaleLoop, hmul, Step.done, Step.result, term]
    rw [this]
    simp only [Out.ok_bind]

/-- Soundness of the loop, for arbitrary modules over the same ring. -/
theorem truedivLoop_sound [Build] {p : P} {y : Elt P R} (wy : y.WF) (py : y.mod.par = p) (y0 : y.toBool = true) (n : ℕ) {r q z : Elt P R}
    (wr : r.WF) (pr : r.mod.par = p) (wq : q.WF) (pq : q.mod.par = p) (h : truedivLoop p y n r q = .ok (some z)) :
    z.WF ∧ z.mod.par = p ∧ (∀ v : ℕ → ℝ, z.real v * y.real v = r.real v + q.real v * y.real v) ∧
    (r.mod.Unital → q.mod.Unital → y.mod.Unital → z.mod.Unital) := by
  induction n generalizing r q with
  | zero => rw [truedivLoop] at h; cases h
  | succ n ih =>
    by_cases r0 : r.toBool = true
    · obtain ⟨a, g, b, k, ⟨ha, hg, -⟩, ⟨hb, hk, -⟩, he⟩ := truedivLoop_succ (p := p) (q := q) n wr r0 wy y0
      rw [he] at h
      rw [Out.bind_eq_ok] at h
      obtain ⟨gq, hgq, h⟩ := h
      cases gq with
      | none => cases h
      | some gq =>
        dsimp only at h
        split at h
        · rw [Out.bind_eq_ok] at h; obtain ⟨-, -, h⟩ := h; cases h
        · rename_i hquo
          rw [not_not] at hquo
          simp only [Out.bind_eq_ok] at h
          obtain ⟨q', hq', m, hm, r', hr', h⟩ := h
          have gmem : a ∈ LawfulCRing.mem p := by
            rw [← pr]
            have hgb : g ∈ r.mod.basis := (fs_support_WF wr (by rw [hg]; exact ha)).1
            rw [← terms_fst wr.length, List.mem_map] at hgb
            obtain ⟨⟨g', c⟩, ht, rfl⟩ := hgb
            rw [← hg, wr.fs_apply ht]
            exact wr.mem c (terms_mem_snd ht)
          have kmem : b ∈ LawfulCRing.mem p := by
            rw [← py]
            have hgb : k ∈ y.mod.basis := (fs_support_WF wy (by rw [hk]; exact hb)).1
            rw [← terms_fst wy.length, List.mem_map] at hgb
            obtain ⟨⟨g', c⟩, ht, rfl⟩ := hgb
            rw [← hk, wy.fs_apply ht]
            exact wy.mem c (terms_mem_snd ht)
          have wg := (fs_support_WF wr (by rw [hg]; exact ha : r.fs g ≠ 0)).2
          have wk := (fs_support_WF wy (by rw [hk]; exact hb : y.fs k ≠ 0)).2
          obtain ⟨wgq, hgqm⟩ := RN.div_eq_some wg wk hgq
          have wt : (term p gq (CRing.quo P a b)).WF := term_WF wgq (LawfulCRing.quo_mem gmem kmem hquo hb)
          have wq' := (add_ok wq wt hq').1
          have wm := (mul_ok wt wy hm).1
          have wr' := (sub_ok wr wm hr').1
          have pq' := add_par wq wt pq rfl hq'
          have pm := mul_par wt wy (p := p) rfl py hm
          have pr' : r'.mod.par = p := add_par wr (neg_spec wm).1 pr (by rw [(neg_spec wm).2.1]; exact pm) hr'
          obtain ⟨wz, pz, vz, uz⟩ := ih wr' pr' wq' pq' h
          refine ⟨wz, pz, fun v => ?_, fun ur uq uy => uz ?_ ?_ uy⟩
          · rw [vz v, real_eq_evalF, (sub_ok wr wm hr').2, sub_eq_add_neg, evalF_add, evalF_neg, ← real_eq_evalF, ← real_eq_evalF,
              real_eq_evalF v q', (add_ok wq wt hq').2, evalF_add, ← real_eq_evalF, ← real_eq_evalF]
            have : m.real v = _ := mul_value (num P) v wt wy hm
            rw [this]
            simp only [real]
            ring
          · intro s hs
            rcases ((add_mod wr (neg_spec wm).1 hr').1 _).1 hs with hs | hs
            · exact ur s hs
            · rw [(neg_spec wm).2.1] at hs
              refine mul_unital wt wy ?_ uy hm s hs
              intro s hs
              have : gq = .rat s := by simpa [term, eq_comm] using hs
              subst this
              have h3 := (RN.mul_eq_ok wgq wk hgqm).2.2
              rw [coef_one ur (fs_support_WF wr (by rw [hg]; exact ha : r.fs g ≠ 0)).1,
                coef_one uy (fs_support_WF wy (by rw [hk]; exact hb : y.fs k ≠ 0)).1, mul_one] at h3
              exact h3.symm
          · intro s hs
            rcases ((add_mod wq wt hq').1 _).1 hs with hs | hs
            · exact uq s hs
            · have : gq = .rat s := by simpa [term, eq_comm] using hs
              subst this
              have h3 := (RN.mul_eq_ok wgq wk hgqm).2.2
              rw [coef_one ur (fs_support_WF wr (by rw [hg]; exact ha : r.fs g ≠ 0)).1,
                coef_one uy (fs_support_WF wy (by rw [hk]; exact hb : y.fs k ≠ 0)).1, mul_one] at h3
              exact h3.symm
    · rw [truedivLoop] at h
      simp only [r0, Bool.not_eq_true] at h
      simp at h
      cases h
      refine ⟨wq, pq, fun v => ?_, fun _ uq _ => uq⟩
      rw [real_eq_evalF v r, fs_eq_zero_of_toBool (by simpa using r0), evalF_zero, zero_add]

omit [LawfulScalar P] in
theorem coeff_mem_of_fs {x : Elt P R} (hx : x.WF) (g : RN) : x.fs g ∈ LawfulCRing.mem x.mod.par := by
  by_cases h : x.fs g = 0
  · rw [h]; exact Subring.zero_mem _
  · have hgb : g ∈ x.mod.basis := (fs_support_WF hx h).1
    rw [← terms_fst hx.length, List.mem_map] at hgb
    obtain ⟨⟨g', c⟩, ht, rfl⟩ := hgb
    rw [hx.fs_apply ht]
    exact hx.mem c (terms_mem_snd ht)

/-- Termination and completeness of the loop for modules whose rational generator is one. -/
theorem truedivLoop_total [Build] {p : P} {y : Elt P R} (wy : y.WF) (py : y.mod.par = p) (uy : y.mod.Unital) (y0 : y.toBool = true)
    (d : ℕ →₀ ℕ) : ∀ (r q : Elt P R), r.WF → r.mod.par = p → r.mod.Unital → q.WF → q.mod.par = p → q.mod.Unital →
    (r.toBool = true → Lead r.poly d) →
    ∃ N res, (∀ n ≥ N, truedivLoop p y n r q = .ok res) ∧
      (res = none → ¬ ∃ T : MvPolynomial ℕ AlgReal, (∀ e, T.coeff e ∈ (LawfulCRing.emb P : R →+* AlgReal).range) ∧ T * y.poly = r.poly) := by
  induction d using precedes_wf.induction with
  | _ d ih =>
  intro r q wr pr ur wq pq uq hd
  by_cases r0 : r.toBool = true
  swap
  · refine ⟨1, Option.some q, fun n hn => ?_, by simp⟩
    obtain ⟨n, rfl⟩ : ∃ k, n = k + 1 := ⟨n - 1, by omega⟩
    simp only [truedivLoop, r0, Bool.not_eq_true]
    simp
  have hd := hd r0
  obtain ⟨a, g, b, k, ⟨ha, hg, hgm⟩, ⟨hb, hk, hkm⟩, -⟩ := truedivLoop_succ (p := p) (q := q) 0 wr r0 wy y0
  obtain ⟨lr, cr⟩ := lead_poly wr ur ha hg hgm
  obtain ⟨ly, cy⟩ := lead_poly wy uy hb hk hkm
  have hgd : d = g.mult := hd.unique lr
  subst hgd
  have gb := fs_support_WF wr (by rw [hg]; exact ha : r.fs g ≠ 0)
  have kb := fs_support_WF wy (by rw [hk]; exact hb : y.fs k ≠ 0)
  have gc := coef_one ur gb.1
  have kc := coef_one uy kb.1
  -- the loop unfolds in the same way for any budget
  have step : ∀ n, truedivLoop p y (n + 1) r q = (g.div k >>= fun generatorQuotient => match generatorQuotient with
        | none => .ok none
        | Option.some gq =>
          if CRing.quo P a b * b ≠ a then assertThat (!CRing.isField P) >>= fun _ => .ok none
          else q.add (term p gq (CRing.quo P a b)) >>= fun quotient => (term p gq (CRing.quo P a b)).mul y >>= fun product =>
            r.sub product >>= fun remainder => truedivLoop p y n remainder quotient) := by
    intro n
    obtain ⟨a', g', b', k', ⟨ha', hg', hgm'⟩, ⟨hb', hk', hkm'⟩, he⟩ := truedivLoop_succ (p := p) (q := q) n wr r0 wy y0
    have hgg : g' = g := by
      rcases hgm g' (by rw [hg']; exact ha') with h | h
      · exact h
      · rcases hgm' g (by rw [hg]; exact ha) with h' | h'
        · exact h'.symm
        · exact absurd h h'.asymm
    have hkk : k' = k := by
      rcases hkm k' (by rw [hk']; exact hb') with h | h
      · exact h
      · rcases hkm' k (by rw [hk]; exact hb) with h' | h'
        · exact h'.symm
        · exact absurd h h'.asymm
    subst hgg hkk
    have haa : a' = a := by rw [← hg', hg]
    have hbb : b' = b := by rw [← hk', hk]
    subst haa hbb
    exact he
  have lt : ∀ T : MvPolynomial ℕ AlgReal, T * y.poly = r.poly → ∃ e, Lead T e ∧ e + k.mult = g.mult ∧
      T.coeff e * LawfulCRing.emb P b = LawfulCRing.emb P a := by
    intro T hT
    have hT0 : T ≠ 0 := by
      rintro rfl
      rw [zero_mul] at hT
      exact lr.1 (by rw [← hT]; simp)
    obtain ⟨e, he⟩ := exists_lead hT0
    obtain ⟨h1, h2⟩ := he.mul ly
    rw [hT] at h1 h2
    have hek : e + k.mult = g.mult := h1.unique lr
    exact ⟨e, he, hek, by rw [hek, cr, cy] at h2; exact h2.symm⟩
  rcases RN.div_outcomes g k with ⟨gq, hgq⟩ | hth
  swap
  · exfalso
    obtain ⟨-, s, rfl, hs⟩ := (RN.div_throws_iff g k).1 hth
    exact hs (uy s kb.1)
  cases gq with
  | none =>
    refine ⟨1, none, fun n hn => ?_, fun _ => ?_⟩
    · obtain ⟨n, rfl⟩ : ∃ k, n = k + 1 := ⟨n - 1, by omega⟩
      rw [step, hgq]; rfl
    · rintro ⟨T, -, hT⟩
      obtain ⟨e, -, hek, -⟩ := lt T hT
      obtain ⟨w1, w2, w3⟩ := RN.rebuild_spec (Mono.canon_ofMult e).sorted
      rw [Mono.mult_ofMult] at w2
      refine RN.div_eq_none gb.2 kb.2 hgq _ w1 ((RN.mul_eq_ok_iff w1 kb.2 gb.2).2 ⟨.inr ⟨w3, kc⟩, ?_, ?_⟩)
      · rw [w2, hek]
      · rw [w3, kc, gc, mul_one]
  | some gq =>
    obtain ⟨wgq, hgqm⟩ := RN.div_eq_some gb.2 kb.2 hgq
    obtain ⟨-, hmult, hcoef⟩ := RN.mul_eq_ok wgq kb.2 hgqm
    have gqc : gq.coef = 1 := by rw [gc, kc, mul_one] at hcoef; exact hcoef.symm
    by_cases hquo : CRing.quo P a b * b = a
    swap
    · have hf : CRing.isField P = false := by
        by_contra hf
        exact hquo (LawfulCRing.quo_field (by simpa using hf) hb)
      refine ⟨1, none, fun n hn => ?_, fun _ => ?_⟩
      · obtain ⟨n, rfl⟩ : ∃ k, n = k + 1 := ⟨n - 1, by omega⟩
        rw [step, hgq]
        simp [hquo, hf, assertThat]
      · rintro ⟨T, hTr, hT⟩
        obtain ⟨e, -, -, hc⟩ := lt T hT
        obtain ⟨c, hc'⟩ := hTr e
        rw [← hc', ← map_mul] at hc
        have := LawfulCRing.emb_injective (P := P) hc
        exact hquo (by rw [LawfulCRing.quo_exact hb this, this])
    · have wt : (term p gq (CRing.quo P a b)).WF := term_WF wgq (LawfulCRing.quo_mem (by rw [← hg, ← pr]; exact coeff_mem_of_fs wr g)
        (by rw [← hk, ← py]; exact coeff_mem_of_fs wy k) hquo hb)
      have ut : (term p gq (CRing.quo P a b)).mod.Unital := by
        intro s hs
        have : gq = .rat s := by simpa [term, eq_comm] using hs
        subst this; exact gqc
      obtain ⟨q', hq'⟩ := add_defined wq wt pq rfl uq ut
      obtain ⟨m, hm⟩ := mul_defined wt wy (p := p) rfl py ut uy
      have wq' := (add_ok wq wt hq').1
      have wm := (mul_ok wt wy hm).1
      have pm := mul_par wt wy (p := p) rfl py hm
      have um := mul_unital wt wy ut uy hm
      have wn := (neg_spec wm).1
      have en := (neg_spec wm).2.1
      obtain ⟨r', hr'⟩ : ∃ r', r.sub m = .ok r' := add_defined wr wn pr (by rw [en]; exact pm) ur (by rw [en]; exact um)
      have wr' := (sub_ok wr wm hr').1
      have pr' : r'.mod.par = p := add_par wr wn pr (by rw [en]; exact pm) hr'
      have ur' : r'.mod.Unital := add_unital wr wn ur (by rw [en]; exact um) hr'
      -- the leading term cancels
      have tp : (term p gq (CRing.quo P a b)).poly = MvPolynomial.monomial gq.mult (LawfulCRing.emb P (CRing.quo P a b)) := by
        rw [poly, term_fs, polyF_single, gqc, map_one, mul_one]
      have hq0 : CRing.quo P a b ≠ 0 := by
        intro h0; rw [h0, zero_mul] at hquo; exact ha hquo.symm
      have tl : Lead (term p gq (CRing.quo P a b)).poly gq.mult := by
        rw [tp]
        refine ⟨?_, fun e he => ?_⟩
        · rw [MvPolynomial.coeff_monomial, if_pos rfl, Ne, map_eq_zero_iff _ LawfulCRing.emb_injective]; exact hq0
        · rw [MvPolynomial.coeff_monomial] at he
          split at he
          · rename_i h; exact .inl h.symm
          · exact absurd rfl he
      obtain ⟨ml, mc⟩ := tl.mul ly
      rw [← poly_mul wt wy hm, ← hmult] at ml mc
      have mc' : m.poly.coeff g.mult = LawfulCRing.emb P a := by
        rw [mc, cy, tp, MvPolynomial.coeff_monomial, if_pos rfl, ← map_mul, hquo]
      have dec : ∀ e, Lead r'.poly e → Precedes e g.mult := by
        intro e he
        rw [poly_sub wr wm hr'] at he
        exact lr.sub ml (by rw [cr, mc']) he
      obtain ⟨N, res, hN, hres⟩ : ∃ N res, (∀ n ≥ N, truedivLoop p y n r' q' = .ok res) ∧
          (res = none → ¬ ∃ T : MvPolynomial ℕ AlgReal, (∀ e, T.coeff e ∈ (LawfulCRing.emb P : R →+* AlgReal).range) ∧
            T * y.poly = r'.poly) := by
        by_cases r0' : r'.toBool = true
        · have : r'.poly ≠ 0 := by rw [Ne, poly_eq_zero_iff wr' ur', r0']; simp
          obtain ⟨e, he⟩ := exists_lead this
          exact ih e (dec e he) r' q' wr' pr' ur' wq' (add_par wq wt pq rfl hq') (add_unital wq wt uq ut hq') fun _ => he
        · refine ⟨1, Option.some q', fun n hn => ?_, by simp⟩
          obtain ⟨n, rfl⟩ : ∃ k, n = k + 1 := ⟨n - 1, by omega⟩
          simp only [truedivLoop, r0', Bool.not_eq_true]
          simp
      refine ⟨N + 1, res, fun n hn => ?_, fun hnone => ?_⟩
      · obtain ⟨n, rfl⟩ : ∃ k, n = k + 1 := ⟨n - 1, by omega⟩
        rw [step, hgq]
        simp only [Out.ok_bind, hquo, ne_eq, not_true_eq_false, if_false, hq', hm, hr']
        exact hN n (by omega)
      · rintro ⟨T, hTr, hT⟩
        refine hres hnone ⟨T - (term p gq (CRing.quo P a b)).poly, fun e => ?_, ?_⟩
        · rw [MvPolynomial.coeff_sub]
          exact Subring.sub_mem _ (hTr e) (coeff_poly_range wt ut e)
        · rw [sub_mul, hT, ← poly_mul wt wy hm, poly_sub wr wm hr']

end Elt
end ExactReal
