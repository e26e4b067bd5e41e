import Verif.Lemma.Element

namespace ExactReal
open Finsupp

namespace RN
/-- `*`, with a dummy value where it throws. -/
def mulD (a b : RN) : RN := match mul a b with | .ok z => z | _ => rat 0

theorem mulD_of_ok {a b z : RN} (h : mul a b = .ok z) : mulD a b = z := by simp [mulD, h]

theorem value_mul {A : Type*} [CommRing A] [Algebra ℚ A] (v : ℕ → A) {x y z : RN} (hx : x.WF) (hy : y.WF) (h : mul x y = .ok z) :
    z.value v = x.value v * y.value v := by
  obtain ⟨h1, h2, h3⟩ := mul_eq_ok hx hy h
  rw [value_eq, value_eq v x, value_eq v y, h2, h3, map_mul, Finsupp.prod_add_index']
  · ring
  · simp
  · intros; rw [pow_add]
end RN

namespace Elt
variable {R : Type} [CommRing R] [DecidableEq R]

/-- Product of combinations. -/
noncomputable def mulF (f g : RN →₀ R) : RN →₀ R := f.sum fun a c => g.sum fun b d => single (RN.mulD a b) (c * d)

omit [DecidableEq R] in
theorem mulF_add_left (f f' g : RN →₀ R) : mulF (f + f') g = mulF f g + mulF f' g := by
  unfold mulF
  rw [Finsupp.sum_add_index']
  · simp [Finsupp.sum]
  · intro a c d
    simp [Finsupp.sum, add_mul, Finset.sum_add_distrib]

omit [DecidableEq R] in
theorem mulF_add_right (f g g' : RN →₀ R) : mulF f (g + g') = mulF f g + mulF f g' := by
  unfold mulF
  rw [← Finsupp.sum_add]
  congr 1
  funext a c
  rw [Finsupp.sum_add_index']
  · simp
  · simp [mul_add]

omit [DecidableEq R] in
@[simp] theorem mulF_zero_left (g : RN →₀ R) : mulF 0 g = 0 := by simp [mulF]
omit [DecidableEq R] in
@[simp] theorem mulF_zero_right (f : RN →₀ R) : mulF f 0 = 0 := by simp [mulF]
omit [DecidableEq R] in
theorem mulF_single (a b : RN) (c d : R) : mulF (single a c) (single b d) = single (RN.mulD a b) (c * d) := by
  unfold mulF
  rw [Finsupp.sum_single_index, Finsupp.sum_single_index] <;> simp

theorem combo_accumulate (gen : RN) (c : R) (l : List (RN × R)) : combo (accumulate gen c l) = combo l + single gen c := by
  induction l with
  | nil => simp [accumulate]
  | cons t l ih =>
    obtain ⟨g, d⟩ := t
    simp only [accumulate]
    split
    · rename_i h; subst h
      simp only [combo_cons, Finsupp.single_add]; abel
    · simp only [combo_cons, ih]; abel

theorem mem_accumulate_keys (gen : RN) (c : R) (l : List (RN × R)) (g : RN) :
    g ∈ (accumulate gen c l).map Prod.fst ↔ g = gen ∨ g ∈ l.map Prod.fst := by
  induction l with
  | nil => simp [accumulate]
  | cons t l ih =>
    obtain ⟨k, d⟩ := t
    simp only [accumulate]
    split
    · rename_i h; subst h; simp
    · simp only [List.map_cons, List.mem_cons, ih]; tauto

theorem nodup_accumulate (gen : RN) (c : R) {l : List (RN × R)} (h : (l.map Prod.fst).Nodup) :
    ((accumulate gen c l).map Prod.fst).Nodup := by
  induction l with
  | nil => simp [accumulate]
  | cons t l ih =>
    obtain ⟨k, d⟩ := t
    simp only [accumulate]
    simp only [List.map_cons, List.nodup_cons] at h
    split
    · simpa using h
    · rename_i hk
      simp only [List.map_cons, List.nodup_cons, mem_accumulate_keys, not_or]
      exact ⟨⟨hk, h.1⟩, ih h.2⟩

theorem mem_accumulate_snd {S : Subring R} {gen : RN} {c : R} {l : List (RN × R)} (hc : c ∈ S) (h : ∀ t ∈ l, t.2 ∈ S) :
    ∀ t ∈ accumulate gen c l, t.2 ∈ S := by
  induction l with
  | nil => simpa [accumulate]
  | cons t l ih =>
    obtain ⟨k, d⟩ := t
    simp only [accumulate]
    split
    · intro t ht
      rcases List.mem_cons.1 ht with rfl | ht
      · exact S.add_mem (h (k, d) (by simp)) hc
      · exact h t (by simp [ht])
    · intro t ht
      rcases List.mem_cons.1 ht with rfl | ht
      · exact h (k, d) (by simp)
      · exact ih (fun t ht => h t (by simp [ht])) t ht

theorem mulRow_spec {g : RN} {c : R} {ys acc out : List (RN × R)} (h : mulRow g c ys acc = .ok out) :
    combo out = combo acc + mulF (single g c) (combo ys) ∧
    (∀ t ∈ ys, ∃ z, g.mul t.1 = .ok z) ∧
    (∀ k, k ∈ out.map Prod.fst ↔ k ∈ acc.map Prod.fst ∨ ∃ t ∈ ys, g.mul t.1 = .ok k) ∧
    ((acc.map Prod.fst).Nodup → (out.map Prod.fst).Nodup) ∧
    (∀ S : Subring R, c ∈ S → (∀ t ∈ ys, t.2 ∈ S) → (∀ t ∈ acc, t.2 ∈ S) → ∀ t ∈ out, t.2 ∈ S) := by
  induction ys generalizing acc with
  | nil =>
    simp only [mulRow, Out.ok.injEq] at h; subst h
    refine ⟨by simp, by simp, by simp, id, fun _ _ _ h => h⟩
  | cons t ys ih =>
    obtain ⟨b, d⟩ := t
    simp only [mulRow, Out.bind_eq_ok] at h
    obtain ⟨z, hz, h⟩ := h
    obtain ⟨h1, h2, h3, h4, h5⟩ := ih h
    refine ⟨?_, ?_, ?_, fun hn => h4 (nodup_accumulate _ _ hn), ?_⟩
    · rw [h1, combo_accumulate, combo_cons, mulF_add_right, mulF_single, RN.mulD_of_ok hz]; abel
    · intro t ht
      rcases List.mem_cons.1 ht with rfl | ht
      · exact ⟨z, hz⟩
      · exact h2 t ht
    · intro k
      rw [h3, mem_accumulate_keys]
      simp only [List.mem_cons, exists_eq_or_imp, hz, Out.ok.injEq]
      constructor
      · rintro ((rfl | h) | h)
        · exact .inr (.inl rfl)
        · exact .inl h
        · exact .inr (.inr h)
      · rintro (h | rfl | h)
        · exact .inl (.inr h)
        · exact .inl (.inl rfl)
        · exact .inr h
    · intro S hc hy ha
      exact h5 S hc (fun t ht => hy t (by simp [ht])) (mem_accumulate_snd (S.mul_mem hc (hy (b, d) (by simp))) ha)

theorem mulRows_spec {xs ys acc out : List (RN × R)} (h : mulRows xs ys acc = .ok out) :
    combo out = combo acc + mulF (combo xs) (combo ys) ∧
    (∀ s ∈ xs, ∀ t ∈ ys, ∃ z, s.1.mul t.1 = .ok z) ∧
    (∀ k, k ∈ out.map Prod.fst ↔ k ∈ acc.map Prod.fst ∨ ∃ s ∈ xs, ∃ t ∈ ys, s.1.mul t.1 = .ok k) ∧
    ((acc.map Prod.fst).Nodup → (out.map Prod.fst).Nodup) ∧
    (∀ S : Subring R, (∀ t ∈ xs, t.2 ∈ S) → (∀ t ∈ ys, t.2 ∈ S) → (∀ t ∈ acc, t.2 ∈ S) → ∀ t ∈ out, t.2 ∈ S) := by
  induction xs generalizing acc with
  | nil =>
    simp only [mulRows, Out.ok.injEq] at h; subst h
    refine ⟨by simp, by simp, by simp, id, fun _ _ _ h => h⟩
  | cons t xs ih =>
    obtain ⟨a, c⟩ := t
    simp only [mulRows, Out.bind_eq_ok] at h
    obtain ⟨p, hp, h⟩ := h
    obtain ⟨h1, h2, h3, h4, h5⟩ := ih h
    obtain ⟨k1, k2, k3, k4, k5⟩ := mulRow_spec hp
    refine ⟨?_, ?_, ?_, fun hn => h4 (k4 hn), ?_⟩
    · rw [h1, k1, combo_cons, mulF_add_left]; abel
    · intro s hs
      rcases List.mem_cons.1 hs with rfl | hs
      · exact k2
      · exact h2 s hs
    · intro k
      rw [h3, k3]
      simp only [List.mem_cons, exists_eq_or_imp]
      rw [or_assoc]
    · intro S hx hy ha
      exact h5 S (fun t ht => hx t (by simp [ht])) hy (k5 S (hx (a, c) (by simp)) hy ha)

theorem mulRow_outcomes (g : RN) (c : R) (ys acc : List (RN × R)) :
    ((∃ out, mulRow g c ys acc = .ok out) ∧ ∀ t ∈ ys, ∃ z, g.mul t.1 = .ok z) ∨
    (mulRow g c ys acc = .throws .logicError ∧ ∃ t ∈ ys, g.mul t.1 = .throws .logicError) := by
  induction ys generalizing acc with
  | nil => exact .inl ⟨⟨acc, rfl⟩, by simp⟩
  | cons t ys ih =>
    obtain ⟨b, d⟩ := t
    rcases RN.mul_ok_or_throws g b with ⟨z, hz⟩ | hz
    · rcases ih (accumulate z (c * d) acc) with ⟨⟨o, ho⟩, h⟩ | ⟨h, t, ht, ht'⟩
      · left
        refine ⟨⟨o, by simp [mulRow, hz, ho]⟩, ?_⟩
        intro t ht
        rcases List.mem_cons.1 ht with rfl | ht
        · exact ⟨z, hz⟩
        · exact h t ht
      · right
        exact ⟨by simp [mulRow, hz, h], t, by simp [ht], ht'⟩
    · right
      exact ⟨by simp [mulRow, hz], (b, d), by simp, hz⟩

theorem mulRows_outcomes (xs ys acc : List (RN × R)) :
    ((∃ out, mulRows xs ys acc = .ok out) ∧ ∀ s ∈ xs, ∀ t ∈ ys, ∃ z, s.1.mul t.1 = .ok z) ∨
    (mulRows xs ys acc = .throws .logicError ∧ ∃ s ∈ xs, ∃ t ∈ ys, s.1.mul t.1 = .throws .logicError) := by
  induction xs generalizing acc with
  | nil => exact .inl ⟨⟨acc, rfl⟩, by simp⟩
  | cons t xs ih =>
    obtain ⟨a, c⟩ := t
    rcases mulRow_outcomes a c ys acc with ⟨⟨o, ho⟩, h⟩ | ⟨h, t, ht, ht'⟩
    · rcases ih o with ⟨⟨o', ho'⟩, h'⟩ | ⟨h', s, hs, t, ht, ht'⟩
      · left
        refine ⟨⟨o', by simp [mulRows, ho, ho']⟩, ?_⟩
        intro s hs
        rcases List.mem_cons.1 hs with rfl | hs
        · exact h
        · exact h' s hs
      · right
        exact ⟨by simp [mulRows, ho, h'], s, by simp [hs], t, ht, ht'⟩
    · right
      exact ⟨by simp [mulRows, h], (a, c), by simp, t, ht, ht'⟩

variable {P : Type} [DecidableEq P] [CRing P R] [LawfulCRing P] [Build]

omit [CommRing R] [DecidableEq R] [DecidableEq P] [CRing P R] [LawfulCRing P] [Build] in
theorem rat_of_mul {x y z : RN} (hx : x.WF) (hy : y.WF) (h : x.mul y = .ok z) (hz : z.isRat = true) : x.isRat = true ∧ y.isRat = true := by
  obtain ⟨wz, hm, -⟩ := RN.mul_eq_ok hx hy h
  rw [RN.isRat_iff wz, hm] at hz
  rw [RN.isRat_iff hx, RN.isRat_iff hy]
  exact add_eq_zero.1 hz

/-- Multiplication over a common ring. -/
theorem mulSame_cases {x y : Elt P R} (hx : x.WF) (hy : y.WF) (hp : x.mod.par = y.mod.par) :
    (∃ z, mulSame x y = .done z ∧ z.WF ∧ z.mod.par = x.mod.par ∧ z.fs = mulF x.fs y.fs ∧
      (∀ g ∈ x.mod.basis, ∀ h ∈ y.mod.basis, ∃ k, g.mul h = .ok k) ∧
      (∀ k, k ∈ z.mod.basis ↔ ∃ g ∈ x.mod.basis, ∃ h ∈ y.mod.basis, g.mul h = .ok k)) ∨
    (mulSame x y = .fail .logicError x ∧ ∃ g ∈ x.mod.basis, ∃ h ∈ y.mod.basis, g.mul h = .throws .logicError) := by
  have memx : ∀ g, (∃ t ∈ x.terms, t.1 = g) ↔ g ∈ x.mod.basis := by
    intro g; rw [← List.mem_map (f := Prod.fst), terms_fst hx.length]
  have memy : ∀ g, (∃ t ∈ y.terms, t.1 = g) ↔ g ∈ y.mod.basis := by
    intro g; rw [← List.mem_map (f := Prod.fst), terms_fst hy.length]
  rcases mulRows_outcomes x.terms y.terms [] with ⟨⟨products, hpr⟩, hall⟩ | ⟨h, s, hs, t, ht, hst⟩
  · left
    obtain ⟨h1, h2, h3, h4, h5⟩ := mulRows_spec hpr
    have hkeys : ∀ k, k ∈ products.map Prod.fst ↔ ∃ g ∈ x.mod.basis, ∃ h ∈ y.mod.basis, g.mul h = .ok k := by
      intro k
      rw [h3]
      simp only [List.map_nil, List.not_mem_nil, false_or]
      constructor
      · rintro ⟨s, hs, t, ht, h⟩
        exact ⟨s.1, terms_mem_fst hs, t.1, terms_mem_fst ht, h⟩
      · rintro ⟨g, hg, k, hk, h⟩
        obtain ⟨s, hs, rfl⟩ := (memx g).2 hg
        obtain ⟨t, ht, rfl⟩ := (memy k).2 hk
        exact ⟨s, hs, t, ht, h⟩
    have hw : ∀ k ∈ products.map Prod.fst, k.WF := by
      intro k hk
      obtain ⟨g, hg, h, hh, hm⟩ := (hkeys k).1 hk
      exact (RN.mul_eq_ok (hx.mod.gens g hg) (hy.mod.gens h hh) hm).1
    have hnd : (products.map Prod.fst).Nodup := h4 (by simp)
    have hcheck : Mod.check (products.map Prod.fst) = true := by
      apply Mod.check_of_rat hnd
      intro k hk k' hk' rk rk'
      obtain ⟨g, hg, h, hh, hm⟩ := (hkeys k).1 hk
      obtain ⟨g', hg', h', hh', hm'⟩ := (hkeys k').1 hk'
      obtain ⟨r1, r2⟩ := rat_of_mul (hx.mod.gens g hg) (hy.mod.gens h hh) hm rk
      obtain ⟨r3, r4⟩ := rat_of_mul (hx.mod.gens g' hg') (hy.mod.gens h' hh') hm' rk'
      have e1 := hx.mod.rat_unique hg hg' r1 r3
      have e2 := hy.mod.rat_unique hh hh' r2 r4
      subst e1; subst e2
      rw [hm] at hm'; exact Out.ok.inj hm'
    let sorted := products.insertionSort fun a b => (RN.lt b.1 a.1) = false
    have hsort : sorted.map Prod.fst = Mod.sort (products.map Prod.fst) :=
      List.map_insertionSort _ _ _ _ fun a _ b _ => Iff.rfl
    have hperm : sorted.Perm products := List.perm_insertionSort _ _
    have hsperm := Mod.sort_perm (products.map Prod.fst)
    have hws : ∀ g ∈ Mod.sort (products.map Prod.fst), g.WF := fun g hg => hw g (hsperm.mem_iff.1 hg)
    have hsorted : (Mod.sort (products.map Prod.fst)).Pairwise fun g h => Precedes g.mult h.mult :=
      Mod.pairwise_precedes_of hws (Mod.sort_sorted hw) (by rw [Mod.check_perm hsperm]; exact hcheck)
    have hmake : Mod.make x.mod.par (sorted.map Prod.fst) = .ok ⟨x.mod.par, sorted.map Prod.fst⟩ := by
      rw [hsort]
      exact Mod.make_eq_of_perm hws (List.Perm.refl _) hsorted
    have hterms : (sorted.map Prod.fst).zip (sorted.map Prod.snd) = sorted := by
      rw [List.zip_map']; simp
    refine ⟨⟨⟨x.mod.par, sorted.map Prod.fst⟩, sorted.map Prod.snd⟩, ?_, ⟨⟨?_, ?_⟩, ?_, ?_⟩, rfl, ?_, ?_, ?_⟩
    · unfold mulSame
      rw [hpr]
      show (match Mod.make x.mod.par (sorted.map Prod.fst) with
        | .ok parent => (⟨assertThat (parent.basis = sorted.map Prod.fst), ⟨parent, sorted.map Prod.snd⟩⟩ : Step (Elt P R))
        | e => ⟨e >>= fun _ => .ok (), x⟩) = _
      rw [hmake]
      simp [assertThat, Step.done]
    · simp only; rw [hsort]; exact hws
    · simp only; rw [hsort]; exact hsorted
    · simp
    · intro c hc
      simp only [List.mem_map] at hc
      obtain ⟨t, ht, rfl⟩ := hc
      refine h5 (LawfulCRing.mem x.mod.par) (fun t ht => hx.mem _ (terms_mem_snd ht)) (fun t ht => hp ▸ hy.mem _ (terms_mem_snd ht))
        (by simp) t (hperm.mem_iff.1 ht)
    · show combo ((sorted.map Prod.fst).zip (sorted.map Prod.snd)) = _
      rw [hterms, combo_perm hperm, h1]; simp [fs]
    · intro g hg h hh
      obtain ⟨s, hs, rfl⟩ := (memx g).2 hg
      obtain ⟨t, ht, rfl⟩ := (memy h).2 hh
      exact h2 s hs t ht
    · intro k
      rw [← hkeys k]
      exact (hperm.map Prod.fst).mem_iff
  · right
    refine ⟨by unfold mulSame; rw [h]; rfl, s.1, terms_mem_fst hs, t.1, terms_mem_fst ht, hst⟩

theorem promote_ring {x : Elt P R} (hx : x.WF) {r : P} (hc : ∀ c ∈ x.coeffs, CRing.coerce r x.mod.par c = .ok c) :
    ∃ x', x.promote ⟨r, x.mod.basis⟩ = .ok x' ∧ x'.WF ∧ x'.mod = ⟨r, x.mod.basis⟩ ∧ x'.fs = x.fs := by
  have wm : (⟨r, x.mod.basis⟩ : Mod P).WF := ⟨hx.mod.gens, hx.mod.sorted⟩
  have hsub : ∀ g ∈ x.mod.basis, x.fs g ≠ 0 → g ∈ (⟨r, x.mod.basis⟩ : Mod P).basis := fun g hg _ => hg
  obtain ⟨x', hx'⟩ := promote_isOk hx wm hsub fun c hcm => ⟨c, hc c hcm⟩
  exact ⟨x', hx', promote_ok hx wm hsub hx'⟩

/-- The outcomes of `*=`. -/
theorem mul_cases {x y : Elt P R} (hx : x.WF) (hy : y.WF) :
    (∃ z, x.mulAssign y = .done z ∧ z.WF ∧ z.fs = mulF x.fs y.fs ∧
      ((x.toBool = false ∧ z = x) ∨ (x.toBool = true ∧ y.toBool = false ∧ z = y) ∨
      (x.toBool = true ∧ y.toBool = true ∧ CRing.compositum x.mod.par y.mod.par = .ok z.mod.par ∧
      (∀ g ∈ x.mod.basis, ∀ h ∈ y.mod.basis, ∃ k, g.mul h = .ok k) ∧
      (∀ k, k ∈ z.mod.basis ↔ ∃ g ∈ x.mod.basis, ∃ h ∈ y.mod.basis, g.mul h = .ok k)))) ∨
    (∃ x', x.mulAssign y = .fail .logicError x' ∧ x'.WF ∧ x'.fs = x.fs ∧ x.toBool = true ∧ y.toBool = true ∧
      (CRing.compositum x.mod.par y.mod.par = .throws .logicError ∨
        ∃ g ∈ x.mod.basis, ∃ h ∈ y.mod.basis, g.mul h = .throws .logicError)) := by
  unfold mulAssign
  split
  · rename_i hb
    left
    have hb : x.toBool = false := by simpa using hb
    exact ⟨x, rfl, hx, by rw [fs_eq_zero_of_toBool hb]; simp, .inl ⟨hb, rfl⟩⟩
  · rename_i hbx
    have hbx : x.toBool = true := by simpa using hbx
    split
    · rename_i hb
      left
      have hb : y.toBool = false := by simpa using hb
      exact ⟨y, rfl, hy, by rw [fs_eq_zero_of_toBool hb]; simp, .inr (.inl ⟨hbx, hb, rfl⟩)⟩
    · rename_i hby
      have hby : y.toBool = true := by simpa using hby
      split
      · rcases LawfulCRing.compositum_outcomes (P := P) x.mod.par y.mod.par with ⟨r, hr⟩ | hr
        · obtain ⟨x', hx', wx, mx, fx⟩ := promote_ring hx (r := r) fun c hc => (LawfulCRing.compositum_left hr (hx.mem c hc)).1
          obtain ⟨y', hy', wy, my, fy⟩ := promote_ring hy (r := r) fun c hc => (LawfulCRing.compositum_right hr (hy.mem c hc)).1
          have hb : x'.mod.basis = x.mod.basis := by rw [mx]
          have hb' : y'.mod.basis = y.mod.basis := by rw [my]
          have key := mulSame_cases wx wy (by rw [mx, my])
          simp only [hr, Out.ok_bind, Mod.make_self hy.mod, hy', Mod.make_self hx.mod, hx']
          rcases key with ⟨z, h1, h2, h3, h4, h5, h6⟩ | ⟨h1, h2⟩
          · left
            rw [hb, hb'] at h5 h6
            exact ⟨z, h1, h2, by rw [h4, fx, fy], .inr (.inr ⟨hbx, hby, by rw [h3, mx], h5, h6⟩)⟩
          · right
            rw [hb, hb'] at h2
            exact ⟨x', h1, wx, fx, hbx, hby, .inr h2⟩
        · right
          refine ⟨x, ?_, hx, rfl, hbx, hby, .inl hr⟩
          rw [hr]; rfl
      · rename_i hp
        rw [not_not] at hp
        rcases mulSame_cases hx hy hp with ⟨z, h1, h2, h3, h4, h5, h6⟩ | ⟨h1, h2⟩
        · left
          exact ⟨z, h1, h2, h4, .inr (.inr ⟨hbx, hby, by rw [h3, ← hp, LawfulCRing.compositum_self], h5, h6⟩)⟩
        · right
          exact ⟨x, h1, hx, rfl, hbx, hby, .inr h2⟩

theorem mul_ok {x y z : Elt P R} (hx : x.WF) (hy : y.WF) (h : x.mul y = .ok z) : z.WF ∧ z.fs = mulF x.fs y.fs := by
  unfold mul at h
  rcases mul_cases hx hy with ⟨z', h', w, f, -⟩ | ⟨x', h', -⟩
  · rw [h', result_done] at h; cases h; exact ⟨w, f⟩
  · rw [h', result_fail] at h; cases h

/-- When a product of elements is returned, products of generators that matter are defined. -/
theorem mul_gens {x y z : Elt P R} (hx : x.WF) (hy : y.WF) (h : x.mul y = .ok z) {a b : RN} (ha : x.fs a ≠ 0) (hb : y.fs b ≠ 0) :
    ∃ k, a.mul b = .ok k := by
  unfold mul at h
  have ma : a ∈ x.mod.basis := by by_contra hh; exact ha (fs_apply_of_not_mem hx hh)
  have mb : b ∈ y.mod.basis := by by_contra hh; exact hb (fs_apply_of_not_mem hy hh)
  rcases mul_cases hx hy with ⟨z', h', w, f, h1 | h1 | h1⟩ | ⟨x', h', -⟩
  · rw [fs_eq_zero_of_toBool h1.1] at ha; simp at ha
  · rw [fs_eq_zero_of_toBool h1.2.1] at hb; simp at hb
  · exact h1.2.2.2.1 a ma b mb
  · rw [h', result_fail] at h; cases h

omit [DecidableEq P] [CRing P R] [LawfulCRing P] [Build] in
theorem evalF_mulF {A : Type*} [CommRing A] [Algebra ℚ A] (ι : R →+* A) (v : ℕ → A) {f g : RN →₀ R}
    (h : ∀ a b, f a ≠ 0 → g b ≠ 0 → a.WF ∧ b.WF ∧ ∃ k, a.mul b = .ok k) :
    evalF ι v (mulF f g) = evalF ι v f * evalF ι v g := by
  have sum_hom : ∀ (s : Finset RN) (F : RN → RN →₀ R), evalF ι v (∑ i ∈ s, F i) = ∑ i ∈ s, evalF ι v (F i) := by
    intro s F
    induction s using Finset.induction_on with
    | empty => simp
    | insert a s ha ih => rw [Finset.sum_insert ha, Finset.sum_insert ha, evalF_add, ih]
  have : evalF ι v (mulF f g) = ∑ a ∈ f.support, ∑ b ∈ g.support, evalF ι v (single (RN.mulD a b) (f a * g b)) := by
    unfold mulF Finsupp.sum
    rw [sum_hom]
    exact Finset.sum_congr rfl fun a _ => sum_hom _ _
  rw [this]
  unfold evalF Finsupp.sum
  rw [Finset.sum_mul_sum]
  refine Finset.sum_congr rfl fun a ha => Finset.sum_congr rfl fun b hb => ?_
  rw [Finsupp.mem_support_iff] at ha hb
  obtain ⟨wa, wb, k, hk⟩ := h a b ha hb
  have := evalF_single ι v (RN.mulD a b) (f a * g b)
  unfold evalF Finsupp.sum at this
  rw [this, RN.mulD_of_ok hk, RN.value_mul v wa wb hk, map_mul]
  ring

omit [Build] in
theorem fs_support_WF {x : Elt P R} (hx : x.WF) {a : RN} (ha : x.fs a ≠ 0) : a ∈ x.mod.basis ∧ a.WF := by
  have ma : a ∈ x.mod.basis := by by_contra hh; exact ha (fs_apply_of_not_mem hx hh)
  exact ⟨ma, hx.mod.gens a ma⟩

theorem mul_value {A : Type*} [CommRing A] [Algebra ℚ A] (ι : R →+* A) (v : ℕ → A) {x y z : Elt P R} (hx : x.WF) (hy : y.WF)
    (h : x.mul y = .ok z) : z.value ι v = x.value ι v * y.value ι v := by
  rw [value_eq_evalF, value_eq_evalF, value_eq_evalF, (mul_ok hx hy h).2]
  exact evalF_mulF ι v fun a b ha hb => ⟨(fs_support_WF hx ha).2, (fs_support_WF hy hb).2, mul_gens hx hy h ha hb⟩

end Elt
end ExactReal
