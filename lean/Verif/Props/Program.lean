import Verif.Spec.Program
import Verif.Props.Construct
import Verif.Props.TrueDiv
import Verif.Props.Convert
import Verif.Props.Module

/-!
# C66: programs compute with the right numbers
-/

namespace ExactReal.Props
open ExactReal

variable {P : Type} [DecidableEq P] {R : Type} [CommRing R] [DecidableEq R] [CRing P R] [LawfulCRing P]

/-- C66. Multiplication by a real number. -/
theorem mulRN_value [Build] {x : Elt P R} (hx : x.WF) {r : RN} (hr : r.WF) :
    (∃ y, x.mulRNAssign r = .done y ∧ y.WF ∧ ∀ v : ℕ → ℝ, y.real v = x.real v * r.value v) ∨
      ∃ x', x.mulRNAssign r = .fail .logicError x' ∧ x'.WF ∧ ∀ v : ℕ → ℝ, x'.real v = x.real v := by
  obtain ⟨g, h1, h2, h3, h4⟩ := gen_value (R := R) (single_WF x.mod.par hr) (j := 0) (g := r) rfl
  have e : x.mulRNAssign r = x.mulAssign g := by
    rw [Elt.mulRNAssign, Elt.make_singleton, Out.ok_bind, h1]
  rw [e]
  rcases (elt_mul_fails_iff hx h2).1 with ⟨z, hz⟩ | ⟨z, hz, hw, hv⟩
  · obtain ⟨hw, hv⟩ := elt_mul_value hx h2 (z := z) (by rw [Elt.mul, hz]; rfl)
    exact .inl ⟨z, hz, hw, fun v => by rw [hv, h4]⟩
  · exact .inr ⟨z, hz, hw, hv⟩

/-! ### failing scalar operations keep the invariant -/

/-- A scalar operation that throws leaves a coefficient in its ring. -/
class LawfulFail (P : Type) {R : outParam Type} [outParam (CommRing R)] [outParam (DecidableEq R)] [DecidableEq P] [CRing P R]
    [LawfulCRing P] : Prop where
  imulQ {p : P} {c : R} (hc : c ∈ LawfulCRing.mem p) (q : ℚ) : (CRing.imulQ P c q).self ∈ LawfulCRing.mem p
  idivZ {p : P} {c : R} (hc : c ∈ LawfulCRing.mem p) (n : ℤ) : (CRing.idivZ P c n).self ∈ LawfulCRing.mem p
  idivQ {p : P} {c : R} (hc : c ∈ LawfulCRing.mem p) (q : ℚ) : (CRing.idivQ P c q).self ∈ LawfulCRing.mem p
  idivR {p : P} {c d : R} (hc : c ∈ LawfulCRing.mem p) (hd : d ∈ LawfulCRing.mem p) : (CRing.idivR P c d).self ∈ LawfulCRing.mem p

instance : LawfulFail IntegerRing := ⟨fun _ _ => trivial, fun _ _ => trivial, fun _ _ => trivial, fun _ _ => trivial⟩
instance : LawfulFail RationalField := ⟨fun _ _ => trivial, fun _ _ => trivial, fun _ _ => trivial, fun _ _ => trivial⟩

theorem nf_idiv_mem {p : NumberField} {c d : AlgReal} (hc : c ∈ p.subfield) (hd : d ∈ p.subfield) : (NumberField.idiv c d).self ∈ p.subfield := by
  unfold NumberField.idiv
  split
  · exact hc
  · exact p.subfield.div_mem hc hd

instance : LawfulFail NumberField where
  imulQ {p c} hc q := by
    show c * algebraMap ℚ AlgReal q ∈ p.subfield
    exact p.subfield.mul_mem hc (p.subfield.algebraMap_mem q)
  idivZ {p c} hc n := nf_idiv_mem (p := p) hc (intCast_mem _ n)
  idivQ {p c} hc q := nf_idiv_mem (p := p) hc (p.subfield.algebraMap_mem q)
  idivR {p c d} hc hd := nf_idiv_mem (p := p) hc hd

theorem scaleLoop_mem {f : R → Step R} {p : P} (hf : ∀ c ∈ LawfulCRing.mem p, (f c).self ∈ LawfulCRing.mem p) :
    ∀ {cs : List R}, (∀ c ∈ cs, c ∈ LawfulCRing.mem p) → ∀ c ∈ (Elt.scaleLoop f cs).self, c ∈ LawfulCRing.mem p
  | [], _, c, h => by simp [Elt.scaleLoop, Step.done] at h
  | a :: cs, ha, c, h => by
    have h1 := hf a (ha a (by simp))
    have h2 := scaleLoop_mem hf (cs := cs) fun c hc => ha c (by simp [hc])
    rw [Elt.scaleLoop] at h
    split at h
    · next a' he =>
      rw [he] at h1
      rcases List.mem_cons.1 h with rfl | h
      · exact h1
      · exact h2 c h
    · next e a' he hne =>
      rw [hne] at h1
      rcases List.mem_cons.1 h with rfl | h
      · exact h1
      · exact ha c (by simp [h])

theorem scale_WF {f : R → Step R} {x : Elt P R} (hx : x.WF) (hf : ∀ c ∈ LawfulCRing.mem x.mod.par, (f c).self ∈ LawfulCRing.mem x.mod.par) :
    (x.scale f).self.WF := by
  obtain ⟨h1, h2⟩ := scale_keeps_module f x
  refine ⟨by rw [h1]; exact hx.mod, by rw [h2, h1]; exact hx.length, ?_⟩
  rw [h1]
  exact scaleLoop_mem hf hx.mem

/-! ### the simulation -/

/-- The variables are well-formed and stand for the numbers `σ`. -/
def Stands (v : ℕ → ℝ) (s : Vars P R) (σ : Reals) : Prop :=
  (∀ i, (s.num i).WF ∧ (s.num i).value v = σ.num i) ∧ ∀ i, (s.elt i).WF ∧ (s.elt i).real v = σ.elt i

variable {v : ℕ → ℝ} {s s' : Vars P R} {σ : Reals}

theorem Stands.setNum (h : Stands v s σ) (d : ℕ) {x : RN} (hx : x.WF) {r : ℝ} (hr : x.value v = r) : Stands v (s.setNum d x) (σ.setNum d r) := by
  refine ⟨fun i => ?_, h.2⟩
  by_cases hi : i = d
  · subst hi; simpa [Vars.setNum, Reals.setNum] using ⟨hx, hr⟩
  · simpa [Vars.setNum, Reals.setNum, hi] using h.1 i

theorem Stands.setElt (h : Stands v s σ) (d : ℕ) {x : Elt P R} (hx : x.WF) {r : ℝ} (hr : x.real v = r) : Stands v (s.setElt d x) (σ.setElt d r) := by
  refine ⟨h.1, fun i => ?_⟩
  by_cases hi : i = d
  · subst hi; simpa [Vars.setElt, Reals.setElt] using ⟨hx, hr⟩
  · simpa [Vars.setElt, Reals.setElt, hi] using h.2 i

theorem Stands.keepElt (h : Stands v s σ) (d : ℕ) {x : Elt P R} (hx : x.WF) (hr : x.real v = σ.elt d) : Stands v (s.setElt d x) σ := by
  have := h.setElt d hx hr
  have e : σ.setElt d (σ.elt d) = σ := by cases σ; simp [Reals.setElt]
  rwa [e] at this

/-- The conclusion of a step. -/
def StepOk (v : ℕ → ℝ) (c : Cmd P R) (σ : Reals) (o : Out Bool) (s' : Vars P R) : Prop :=
  (o = .ok true ∧ ∃ σ', c.Means v σ σ' ∧ Stands v s' σ') ∨ (o = .ok false ∧ Stands v s' σ) ∨
    ∃ e, o = .throws e ∧ ∃ σ', c.Failed σ σ' ∧ Stands v s' σ'

theorem assign_ok (h : Stands v s σ) {c : Cmd P R} {d : ℕ} {x : Out (Elt P R)} {o : Out Bool} (hc : s.assign d x = (o, s'))
    (ho : (∃ b, o = .ok b) ∨ ∃ e, o = .throws e) (hf : c.Failed σ σ)
    (hx : ∀ y, x = .ok y → y.WF ∧ ∃ r, y.real v = r ∧ (c.Means v σ (σ.setElt d r) ∨ r = σ.elt d ∧ c.Means v σ σ)) : StepOk v c σ o s' := by
  cases x with
  | ok y =>
    obtain ⟨hw, r, hr, hm | ⟨rfl, hm⟩⟩ := hx y rfl
    · cases hc; exact .inl ⟨rfl, _, hm, h.setElt d hw hr⟩
    · cases hc; exact .inl ⟨rfl, _, hm, h.keepElt d hw hr⟩
  | throws e => cases hc; exact .inr (.inr ⟨e, rfl, σ, hf, h⟩)
  | abort => cases hc; rcases ho with ⟨b, hb⟩ | ⟨e, he⟩ <;> simp_all
  | ub => cases hc; rcases ho with ⟨b, hb⟩ | ⟨e, he⟩ <;> simp_all
  | pending => cases hc; rcases ho with ⟨b, hb⟩ | ⟨e, he⟩ <;> simp_all

theorem inplace_ok (h : Stands v s σ) {c : Cmd P R} {d : ℕ} {x : Step (Elt P R)} {o : Out Bool} (hc : s.inplace d x = (o, s'))
    (hx : (∃ y, x = .done y ∧ y.WF ∧ c.Means v σ (σ.setElt d (y.real v))) ∨
      ∃ e y, x = .fail e y ∧ y.WF ∧ (c.Failed σ (σ.setElt d (y.real v)) ∨ y.real v = σ.elt d ∧ c.Failed σ σ)) : StepOk v c σ o s' := by
  rcases hx with ⟨y, rfl, hw, hm⟩ | ⟨e, y, rfl, hw, hm | ⟨hr, hm⟩⟩
  · cases hc; exact .inl ⟨rfl, _, hm, h.setElt d hw rfl⟩
  · cases hc; exact .inr (.inr ⟨e, rfl, _, hm, h.setElt d hw rfl⟩)
  · cases hc; exact .inr (.inr ⟨e, rfl, _, hm, h.keepElt d hw hr⟩)


theorem lookup_key {α : Type} (key : α → RN) {terms : List (α × R)} (hn : (terms.map fun t => key t.1).Nodup) {t : α × R} (ht : t ∈ terms) :
    ((terms.find? fun u => key u.1 = key t.1).map Prod.snd).getD 0 = t.2 := by
  cases hf : terms.find? fun u => decide (key u.1 = key t.1) with
  | none => simpa using List.find?_eq_none.1 hf t ht
  | some u =>
    have h1 := List.find?_some hf
    have h2 := List.mem_of_find?_eq_some hf
    have := List.inj_on_of_nodup_map hn h2 ht (by simpa using h1)
    subst this
    rfl

omit [DecidableEq R] [CommRing R] in
theorem zip_map_self {A : Type*} (F : RN → R) (G : RN × R → A) (l : List RN) : (l.zip (l.map F)).map G = l.map fun g => G (g, F g) := by
  induction l with
  | nil => rfl
  | cons a l ih => simp [ih]

theorem linear_value [Build] {ring : P} {key : ℕ → RN} (hk : ∀ i, (key i).WF) {terms : List (ℕ × R)} (ht : ∀ t ∈ terms, t.2 ∈ LawfulCRing.mem ring)
    {y : Elt P R} (h : (do
      let m ← Mod.make ring (terms.map fun t => key t.1)
      Elt.ofCoefficients m (m.basis.map fun g => ((terms.find? fun t => key t.1 = g).map Prod.snd).getD 0) : Out (Elt P R)) = .ok y) :
    y.WF ∧ ∀ v : ℕ → ℝ, y.real v = (terms.map fun t => Elt.num P t.2 * (key t.1).value v).sum := by
  obtain ⟨m, hm, h⟩ := Out.bind_eq_ok.1 h
  obtain ⟨h1, h2, h3, -⟩ := make_spec (fun g hg => by obtain ⟨t, -, rfl⟩ := List.mem_map.1 hg; exact hk _) hm
  have hn : (terms.map fun t => key t.1).Nodup := h2.nodup_iff.1 h3.nodup
  obtain ⟨x, h4, h5, h6, h7, h8⟩ := ofCoefficients_value h3 (cs := m.basis.map fun g => ((terms.find? fun t => key t.1 = g).map Prod.snd).getD 0)
    (by simp) (by
      intro c hc
      obtain ⟨g, hg, rfl⟩ := List.mem_map.1 hc
      obtain ⟨t, htm, rfl⟩ := List.mem_map.1 (h2.mem_iff.1 hg)
      rw [lookup_key key hn htm, h1]
      exact ht t htm)
  rw [h4] at h
  cases h
  refine ⟨h5, fun v => ?_⟩
  rw [h8, zip_map_self]
  rw [(h2.map _).sum_eq, List.map_map]
  congr 1
  refine List.map_congr_left fun t htm => ?_
  simp only [Function.comp]
  rw [lookup_key key hn htm]

theorem div_unique {S : Type} [Zero S] {n : S} {w : ℝ} (h0 : w = 0 → n = 0) {x y : Elt P R} {p : R → Prop} (hd : ∀ c ∈ x.coeffs, n ≠ 0 ∧ p c)
    (hy : y.WF) (hm : y.mod = x.mod) {r : ℝ} (h : y.real v * w = r) (hx : x.coeffs.length = x.mod.basis.length := by exact (hw d).length) : y.real v = r / w := by
  by_cases hw : w = 0
  · have h1 : x.coeffs = [] := by
      cases hc : x.coeffs with
      | nil => rfl
      | cons a l => exact absurd (h0 hw) (hd a (by simp [hc])).1
    have h2 : y.coeffs = [] := by
      rw [← List.length_eq_zero_iff, hy.length, hm, ← hx, h1]; rfl
    rw [hw, div_zero, Elt.real, Elt.value, Elt.terms, h2]
    simp
  · rw [← h, mul_div_cancel_right₀ _ hw]

/-- One call. -/
theorem exec_ok [Build] [LawfulScalar P] [LawfulFail P] (h : Stands v s σ) (c : Cmd P R) (hp : c.Pre s) {o : Out Bool} (hc : c.exec s = (o, s'))
    (ho : (∃ b, o = .ok b) ∨ ∃ e, o = .throws e) : StepOk v c σ o s' := by
  have hnw := fun i => (h.1 i).1
  have hnv := fun i => (h.1 i).2
  have hw := fun i => (h.2 i).1
  have hv := fun i => (h.2 i).2
  cases c with
  | rational d q => cases hc; exact .inl ⟨rfl, _, rfl, h.setNum d (x := .rat q) trivial (by simp [RN.value])⟩
  | random d i => cases hc; exact .inl ⟨rfl, _, rfl, h.setNum d (x := .atom i) trivial (by simp [RN.value])⟩
  | numMul d a b =>
    rw [Cmd.exec] at hc
    rcases (mul_throws_iff (s.num a) (s.num b)).1 with ⟨z, hz⟩ | hz
    · rw [hz] at hc
      cases hc
      obtain ⟨h1, h2⟩ := mul_value (hnw a) (hnw b) hz
      exact .inl ⟨rfl, _, rfl, h.setNum d h1 (by rw [h2, hnv, hnv])⟩
    · rw [hz] at hc
      cases hc
      exact .inr (.inr ⟨_, rfl, σ, rfl, h⟩)
  | numDiv d a b =>
    rw [Cmd.exec] at hc
    rcases (div_throws_iff (s.num a) (s.num b)).1 with ⟨z, hz⟩ | hz
    · rw [hz] at hc
      cases z with
      | none => cases hc; exact .inr (.inl ⟨rfl, h⟩)
      | some z =>
        cases hc
        exact .inl ⟨rfl, _, ⟨z.value v, by rw [← hnv, ← hnv, div_value (hnw a) (hnw b) hz], rfl⟩, h.setNum d (div_sound (hnw a) (hnw b) hz).1 rfl⟩
    · rw [hz] at hc
      cases hc
      exact .inr (.inr ⟨_, rfl, σ, rfl, h⟩)
  | gen d ring gens g =>
    rw [Cmd.exec] at hc
    refine assign_ok h hc ho rfl fun y hy => ?_
    obtain ⟨m, hm, hy⟩ := Out.bind_eq_ok.1 hy
    obtain ⟨-, h2, h3, -⟩ := make_spec (fun g hg => by obtain ⟨t, -, rfl⟩ := List.mem_map.1 hg; exact hnw _) hm
    have hg : s.num g ∈ m.basis := h2.mem_iff.2 (List.mem_map_of_mem hp)
    obtain ⟨x, h4, h5, -, h6⟩ := gen_value (R := R) h3 (j := m.basis.idxOf (s.num g)) (g := s.num g) (by
      rw [List.getElem?_eq_getElem (List.idxOf_lt_length_of_mem hg), List.getElem_idxOf])
    rw [h4] at hy
    cases hy
    exact ⟨h5, _, (h6 v).trans (hnv g), .inl rfl⟩
  | linear d ring terms =>
    rw [Cmd.exec] at hc
    refine assign_ok h hc ho rfl fun y hy => ?_
    obtain ⟨h1, h2⟩ := linear_value hnw hp hy
    refine ⟨h1, _, h2 v, .inl ?_⟩
    simp only [Cmd.Means, hnv]
  | scalar d ring c =>
    rw [Cmd.exec] at hc
    refine assign_ok h hc ho rfl fun y hy => ?_
    obtain ⟨x, h1, h2, -, h3⟩ := ofScalar_value hp
    rw [h1] at hy
    cases hy
    exact ⟨h2, _, h3 v, .inl rfl⟩
  | copy d a => cases hc; exact .inl ⟨rfl, _, rfl, h.setElt d (hw a) (hv a)⟩
  | zero d a =>
    cases hc
    obtain ⟨h1, -, -, h2⟩ := zero_value (R := R) (hw a).mod
    exact .inl ⟨rfl, _, rfl, h.setElt d h1 (h2 v)⟩
  | one d a =>
    rw [Cmd.exec] at hc
    refine assign_ok h hc ho rfl fun y hy => ?_
    obtain ⟨h1, -, h2⟩ := one_sound (hw a).mod hy
    exact ⟨h1, _, h2 v, .inl rfl⟩
  | neg d a =>
    cases hc
    obtain ⟨h1, -, h2⟩ := neg_value (hw a)
    exact .inl ⟨rfl, _, rfl, h.setElt d h1 (by rw [h2, hv])⟩
  | add d a =>
    rw [Cmd.exec] at hc
    refine inplace_ok h hc ?_
    rcases (add_fails_iff (hw d) (hw a)).1 with ⟨z, hz⟩ | hz
    · obtain ⟨h1, h2⟩ := add_value (hw d) (hw a) (z := z) (by rw [Elt.add, hz]; rfl)
      exact .inl ⟨z, hz, h1, by rw [h2, hv, hv]; rfl⟩
    · exact .inr ⟨_, _, hz, hw d, .inr ⟨hv d, rfl⟩⟩
  | sub d a =>
    rw [Cmd.exec] at hc
    refine inplace_ok h hc ?_
    obtain ⟨w, -, hn⟩ := neg_value (hw a)
    rcases (add_fails_iff (hw d) w).1 with ⟨z, hz⟩ | hz
    · obtain ⟨h1, h2⟩ := add_value (hw d) w (z := z) (by rw [Elt.add, hz]; rfl)
      exact .inl ⟨z, hz, h1, by rw [h2, hn, hv, hv, ← sub_eq_add_neg]; rfl⟩
    · exact .inr ⟨_, _, hz, hw d, .inr ⟨hv d, rfl⟩⟩
  | mul d a =>
    rw [Cmd.exec] at hc
    refine inplace_ok h hc ?_
    rcases (elt_mul_fails_iff (hw d) (hw a)).1 with ⟨z, hz⟩ | ⟨z, hz, h1, h2⟩
    · obtain ⟨h1, h2⟩ := elt_mul_value (hw d) (hw a) (z := z) (by rw [Elt.mul, hz]; rfl)
      exact .inl ⟨z, hz, h1, by rw [h2, hv, hv]; rfl⟩
    · exact .inr ⟨_, _, hz, h1, .inr ⟨(h2 v).trans (hv d), rfl⟩⟩
  | mulNum d r =>
    rw [Cmd.exec] at hc
    refine inplace_ok h hc ?_
    rcases mulRN_value (hw d) (hnw r) with ⟨z, hz, h1, h2⟩ | ⟨z, hz, h1, h2⟩
    · exact .inl ⟨z, hz, h1, by rw [h2, hv, hnv]; rfl⟩
    · exact .inr ⟨_, _, hz, h1, .inr ⟨(h2 v).trans (hv d), rfl⟩⟩
  | mulZ d n =>
    rw [Cmd.exec] at hc
    refine inplace_ok h hc (.inl ?_)
    obtain ⟨y, h1, h2, -, h3⟩ := imulZ_value (hw d) n
    exact ⟨y, h1, h2, by rw [h3, hv]; rfl⟩
  | mulQ d q =>
    rw [Cmd.exec] at hc
    refine inplace_ok h hc ?_
    obtain ⟨h1, -, h3⟩ := imulQ_value (hw d) q
    rcases h1 with ⟨y, hy⟩ | ⟨y, hy⟩
    · obtain ⟨h4, -, h5⟩ := h3 y hy
      exact .inl ⟨y, hy, h4, by rw [h5, hv]; rfl⟩
    · have := scale_WF (hw d) (f := fun c => CRing.imulQ P c q) fun c hc => LawfulFail.imulQ hc q
      have e : ((s.elt d).scale fun c => CRing.imulQ P c q) = .fail .invalidArgument y := hy
      rw [e] at this
      exact .inr ⟨_, y, hy, this, .inl ⟨_, rfl⟩⟩
  | mulR d c =>
    rw [Cmd.exec] at hc
    refine inplace_ok h hc (.inl ?_)
    obtain ⟨y, h1, h2, -, h3⟩ := imulR_value (hw d) (s := c) hp
    exact ⟨y, h1, h2, by rw [h3, hv]; rfl⟩
  | divZ d n =>
    rw [Cmd.exec] at hc
    refine inplace_ok h hc ?_
    obtain ⟨h1, h2, h3⟩ := idivZ_value (hw d) n
    rcases h1 with ⟨y, hy⟩ | ⟨y, hy⟩
    · obtain ⟨h4, hm, h5⟩ := h3 y hy
      refine .inl ⟨y, hy, h4, ?_⟩
      rw [div_unique (fun h => by exact_mod_cast h) (h2.1 ⟨y, hy⟩) h4 hm ((h5 v).1.trans (hv d))]; rfl
    · have := scale_WF (hw d) (f := fun c => CRing.idivZ P c n) fun c hc => LawfulFail.idivZ hc n
      have e : ((s.elt d).scale fun c => CRing.idivZ P c n) = .fail .invalidArgument y := hy
      rw [e] at this
      exact .inr ⟨_, y, hy, this, .inl ⟨_, rfl⟩⟩
  | divQ d q =>
    rw [Cmd.exec] at hc
    refine inplace_ok h hc ?_
    obtain ⟨h1, h2, h3⟩ := idivQ_value (hw d) q
    rcases h1 with ⟨y, hy⟩ | ⟨y, hy⟩
    · obtain ⟨h4, hm, h5⟩ := h3 y hy
      refine .inl ⟨y, hy, h4, ?_⟩
      rw [div_unique (fun h => by exact_mod_cast h) (h2.1 ⟨y, hy⟩) h4 hm ((h5 v).1.trans (hv d))]; rfl
    · have := scale_WF (hw d) (f := fun c => CRing.idivQ P c q) fun c hc => LawfulFail.idivQ hc q
      have e : ((s.elt d).scale fun c => CRing.idivQ P c q) = .fail .invalidArgument y := hy
      rw [e] at this
      exact .inr ⟨_, y, hy, this, .inl ⟨_, rfl⟩⟩
  | divR d c =>
    rw [Cmd.exec] at hc
    refine inplace_ok h hc ?_
    obtain ⟨h1, h2, h3⟩ := idivR_value (hw d) (s := c) hp
    rcases h1 with ⟨y, hy⟩ | ⟨y, hy⟩
    · obtain ⟨h4, hm, h5⟩ := h3 y hy
      refine .inl ⟨y, hy, h4, ?_⟩
      rw [div_unique (fun h => num_injective (by rw [h, map_zero])) (h2.1 ⟨y, hy⟩) h4 hm ((h5 v).trans (hv d))]; rfl
    · have := scale_WF (hw d) (f := fun a => CRing.idivR P a c) fun a ha => LawfulFail.idivR ha hp
      have e : ((s.elt d).scale fun a => CRing.idivR P a c) = .fail .invalidArgument y := hy
      rw [e] at this
      exact .inr ⟨_, y, hy, this, .inl ⟨_, rfl⟩⟩
  | promote d a =>
    rw [Cmd.exec] at hc
    split at hc
    · next hsub =>
      refine assign_ok h hc ho rfl fun y hy => ?_
      obtain ⟨h1, -⟩ := promote_partial (hw d) (hw a).mod fun t ht _ => (submodule_iff _ _).1 hsub _ (Elt.terms_mem_fst ht)
      obtain ⟨h2, -, h3⟩ := h1 y hy
      exact ⟨h2, _, h3 v, .inr ⟨hv d, rfl⟩⟩
    · cases hc; exact .inr (.inl ⟨rfl, h⟩)
  | simplify d =>
    rw [Cmd.exec] at hc
    refine assign_ok h hc ho rfl fun y hy => ?_
    obtain ⟨z, h1, h2, -, h3, -⟩ := simplify_spec (hw d)
    rw [h1] at hy
    cases hy
    exact ⟨h2, _, h3 v, .inr ⟨hv d, rfl⟩⟩
  | truediv d a b fuel =>
    rw [Cmd.exec] at hc
    cases hx : Elt.truediv fuel (s.elt a) (s.elt b) with
    | ok q =>
      rw [hx] at hc
      cases q with
      | none => cases hc; exact .inr (.inl ⟨rfl, h⟩)
      | some q =>
        cases hc
        obtain ⟨h1, h2⟩ := truediv_sound (hw a) (hw b) hx
        exact .inl ⟨rfl, _, ⟨_, by rw [← hv, ← hv, h2], rfl⟩, h.setElt d h1 rfl⟩
    | throws e => rw [hx] at hc; cases hc; exact .inr (.inr ⟨_, rfl, σ, rfl, h⟩)
    | abort => rw [hx] at hc; cases hc; rcases ho with ⟨b, hb⟩ | ⟨e, he⟩ <;> simp_all
    | ub => rw [hx] at hc; cases hc; rcases ho with ⟨b, hb⟩ | ⟨e, he⟩ <;> simp_all
    | pending => rw [hx] at hc; cases hc; rcases ho with ⟨b, hb⟩ | ⟨e, he⟩ <;> simp_all

theorem program_stands [Build] [LawfulScalar P] [LawfulFail P] {l : List (Cmd P R × Out Bool)} {s : Vars P R} (h : Run l s) (v : ℕ → ℝ) :
    ∃ σ : Reals, ProgramComputes v l σ ∧ Stands v s σ := by
  induction h with
  | init =>
    refine ⟨_, .init, fun i => ⟨trivial, by simp [Vars.init, RN.value, Reals.init]⟩, fun i => ?_⟩
    obtain ⟨h1, -, h2⟩ := default_value (P := P)
    exact ⟨h1, h2 v⟩
  | step h c hp hc ho ih =>
    obtain ⟨σ, h1, h2⟩ := ih
    rcases exec_ok h2 c hp hc ho with ⟨rfl, σ', hm, h3⟩ | ⟨rfl, h3⟩ | ⟨e, rfl, σ', hf, h3⟩
    · exact ⟨σ', .assigned h1 hm, h3⟩
    · exact ⟨σ, .skipped h1, h3⟩
    · exact ⟨σ', .failed h1 hf, h3⟩

/-- C66. After any program, the variables stand for the numbers that the program computes: every call that has assigned to a variable has
assigned the exact result, a variable is only changed by calls that assign to it, and a call that throws changes nothing, except that a
multiplication or division by a scalar that throws may change the element it has been called on.
Missing: that a failing multiplication or division over the integers changes nothing, which is false (`imulQ_corrupts`); see `program_value_fields`. -/
theorem program_value_partial [Build] [LawfulScalar P] [LawfulFail P] {l : List (Cmd P R × Out Bool)} {s : Vars P R} (h : Run l s) (v : ℕ → ℝ) :
    ∃ σ : Reals, ProgramComputes v l σ ∧ (∀ i, (s.num i).value v = σ.num i) ∧ ∀ i, (s.elt i).real v = σ.elt i := by
  obtain ⟨σ, h1, h2⟩ := program_stands h v
  exact ⟨σ, h1, fun i => (h2.1 i).2, fun i => (h2.2 i).2⟩

end ExactReal.Props
