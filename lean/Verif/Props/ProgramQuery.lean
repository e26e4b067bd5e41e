import Verif.Props.Program
import Verif.Props.Scalar

/-!
# C66: questions about variables

In a program that does not use `RealNumber::rational(0)`, no module has the generator zero, and the answers of the library about its variables are
answers about the numbers they stand for.
-/

namespace ExactReal.Props
open ExactReal

variable {P : Type} [DecidableEq P] {R : Type} [CommRing R] [DecidableEq R] [CRing P R] [LawfulCRing P]

/-! ### rational factors of generators do not appear by themselves -/

theorem coef_ne_zero {g : RN} (h : g ≠ .rat 0) : g.coef ≠ 0 := by
  cases g with
  | rat q => intro h0; exact h (by rw [show q = 0 from h0])
  | atom i => exact one_ne_zero
  | prod l => exact one_ne_zero

/-- Sets of rational numbers that are closed under multiplication and division with remainder zero. -/
structure Closed (S : Set ℚ) : Prop where
  one : 1 ∈ S
  mul {p q : ℚ} : p ∈ S → q ∈ S → p * q ∈ S
  div {p q : ℚ} : p * q ∈ S → q ∈ S → p ∈ S

theorem closed_ne_zero : Closed {q : ℚ | q ≠ 0} := ⟨one_ne_zero, fun h h' => mul_ne_zero h h', fun h _ h0 => h (by rw [h0, zero_mul])⟩
theorem closed_one : Closed {(1 : ℚ)} := ⟨rfl, by rintro p q rfl rfl; norm_num, by
  intro p q h h'
  simp only [Set.mem_singleton_iff] at *
  subst h'
  simpa using h⟩
theorem closed_pos : Closed {q : ℚ | 0 < q} :=
  ⟨show (0 : ℚ) < 1 from one_pos, fun {p q} h h' => show 0 < p * q from _root_.mul_pos h h', fun {p q} h h' => show 0 < p from (mul_pos_iff_of_pos_right h').1 h⟩

/-- Sets of real numbers that are closed under multiplication and division. -/
structure NumClosed (T : Set RN) : Prop where
  one : RN.rat 1 ∈ T
  mul {x y z : RN} : x.WF → y.WF → x ∈ T → y ∈ T → x.mul y = .ok z → z ∈ T
  div {x y z : RN} : x.WF → y.WF → x ∈ T → y ∈ T → x.div y = .ok (some z) → z ∈ T

theorem Closed.nums {S : Set ℚ} (hS : Closed S) : NumClosed {g : RN | g.coef ∈ S} where
  one := hS.one
  mul hx hy x0 y0 h := by
    show RN.coef _ ∈ S
    rw [(RN.mul_eq_ok hx hy h).2.2]
    exact hS.mul x0 y0
  div hx hy x0 y0 h := by
    obtain ⟨h1, h2⟩ := RN.div_eq_some hx hy h
    refine hS.div (p := RN.coef _) ?_ y0
    rw [← (RN.mul_eq_ok h1 hy h2).2.2]
    exact x0

variable {S : Set ℚ} {T : Set RN}

/-- The rational generators are in `S`. -/
def GensIn (S : Set ℚ) (m : Mod P) : Prop := ∀ g ∈ m.basis, g.coef ∈ S

/-- The generators are in `T`. -/
def BasisIn (T : Set RN) (m : Mod P) : Prop := ∀ g ∈ m.basis, g ∈ T

omit [DecidableEq P] [CRing P R] [LawfulCRing P] [DecidableEq R] [CommRing R] in
theorem noZeroGen_of {x : Elt P R} (h : GensIn {q : ℚ | q ≠ 0} x.mod) : x.NoZeroGen := fun h0 => h _ h0 rfl

theorem add_basisIn [Build] {x y z : Elt P R} (hx : x.WF) (hy : y.WF) (zx : BasisIn T x.mod) (zy : BasisIn T y.mod) (h : x.add y = .ok z) : BasisIn T z.mod :=
  fun g h0 => ((add_module hx hy h _).1 h0).elim (zx g) (zy g)

theorem mul_basisIn [Build] (hT : NumClosed T) {x y z : Elt P R} (hx : x.WF) (hy : y.WF) (zx : BasisIn T x.mod) (zy : BasisIn T y.mod) (h : x.mul y = .ok z) :
    BasisIn T z.mod := by
  rw [Elt.mul] at h
  rcases Elt.mul_cases hx hy with ⟨z', h', -, -, hc⟩ | ⟨x', h', -⟩
  · rw [h', Elt.result_done] at h
    cases h
    rcases hc with ⟨-, rfl⟩ | ⟨-, -, rfl⟩ | ⟨-, -, -, -, hb⟩
    · exact zx
    · exact zy
    · intro m h0
      obtain ⟨g, hg, k, hk, hm⟩ := (hb _).1 h0
      exact hT.mul (hx.mod.gens g hg) (hy.mod.gens k hk) (zx g hg) (zy k hk) hm
  · rw [h', Elt.result_fail] at h; cases h

/-- A multiplication that throws keeps the generators. -/
theorem mul_fail_basis [Build] {x y x' : Elt P R} (hx : x.WF) (hy : y.WF) {e : Exc} (h : x.mulAssign y = .fail e x') : x'.mod.basis = x.mod.basis := by
  unfold Elt.mulAssign at h
  split at h
  · exact absurd h.symm Step.fail_ne_done
  split at h
  · exact absurd h.symm Step.fail_ne_done
  split at h
  · rcases LawfulCRing.compositum_outcomes (P := P) x.mod.par y.mod.par with ⟨r, hr⟩ | hr
    · obtain ⟨u, hu, wu, mu, fu⟩ := Elt.promote_ring hx (r := r) fun c hc => (LawfulCRing.compositum_left hr (hx.mem c hc)).1
      obtain ⟨w, hw, ww, mw, fw⟩ := Elt.promote_ring hy (r := r) fun c hc => (LawfulCRing.compositum_right hr (hy.mem c hc)).1
      simp only [hr, Out.ok_bind, Mod.make_self hy.mod, hw, Mod.make_self hx.mod, hu] at h
      rcases Elt.mulSame_cases wu ww (by rw [mu, mw]) with ⟨z, h1, -⟩ | ⟨h1, -⟩
      · rw [h1] at h; exact absurd h.symm Step.fail_ne_done
      · rw [h1] at h; cases h; rw [mu]
    · rw [hr] at h; cases h; rfl
  · rename_i hp
    rw [not_not] at hp
    rcases Elt.mulSame_cases hx hy hp with ⟨z, h1, -⟩ | ⟨h1, -⟩
    · rw [h1] at h; exact absurd h.symm Step.fail_ne_done
    · rw [h1] at h; cases h; rfl

theorem mulAssign_basisIn [Build] (hT : NumClosed T) {x y : Elt P R} (hx : x.WF) (hy : y.WF) (zx : BasisIn T x.mod) (zy : BasisIn T y.mod) :
    BasisIn T (x.mulAssign y).self.mod := by
  rcases (elt_mul_fails_iff hx hy).1 with ⟨z, h⟩ | ⟨z, h, -⟩
  · rw [h]; exact mul_basisIn hT hx hy zx zy (by rw [Elt.mul, h]; rfl)
  · rw [h]
    show ∀ g ∈ z.mod.basis, _
    rw [mul_fail_basis hx hy h]; exact zx

theorem addAssign_basisIn [Build] {x y : Elt P R} (hx : x.WF) (hy : y.WF) (zx : BasisIn T x.mod) (zy : BasisIn T y.mod) : BasisIn T (x.addAssign y).self.mod := by
  rcases (add_fails_iff hx hy).1 with ⟨z, h⟩ | h
  · rw [h]; exact add_basisIn hx hy zx zy (by rw [Elt.add, h]; rfl)
  · rw [h]; exact zx

variable [LawfulScalar P]

theorem truedivLoop_basisIn [Build] (hT : NumClosed T) {p : P} {y : Elt P R} (wy : y.WF) (py : y.mod.par = p) (y0 : y.toBool = true) (zy : BasisIn T y.mod) (n : ℕ)
    {r q z : Elt P R} (wr : r.WF) (pr : r.mod.par = p) (zr : BasisIn T r.mod) (wq : q.WF) (pq : q.mod.par = p) (zq : BasisIn T q.mod)
    (h : Elt.truedivLoop p y n r q = .ok (some z)) : BasisIn T z.mod := by
  induction n generalizing r q with
  | zero => rw [Elt.truedivLoop] at h; cases h
  | succ n ih =>
    by_cases r0 : r.toBool = true
    · obtain ⟨a, g, b, k, ⟨ha, hg, -⟩, ⟨hb, hk, -⟩, he⟩ := Elt.truedivLoop_succ (p := p) (q := q) n wr r0 wy y0
      rw [he] at h
      rw [Out.bind_eq_ok] at h
      obtain ⟨gq, hgq, h⟩ := h
      cases gq with
      | none => cases h
      | some gq =>
        dsimp only at h
        split at h
        · rw [Out.bind_eq_ok] at h; obtain ⟨-, -, h⟩ := h; cases h
        · rename_i hquo
          rw [not_not] at hquo
          simp only [Out.bind_eq_ok] at h
          obtain ⟨q', hq', m, hm, r', hr', h⟩ := h
          have gmem : a ∈ LawfulCRing.mem p := by rw [← pr, ← hg]; exact Elt.coeff_mem_of_fs wr g
          have kmem : b ∈ LawfulCRing.mem p := by rw [← py, ← hk]; exact Elt.coeff_mem_of_fs wy k
          obtain ⟨bg, wg⟩ := Elt.fs_support_WF wr (by rw [hg]; exact ha : r.fs g ≠ 0)
          obtain ⟨bk, wk⟩ := Elt.fs_support_WF wy (by rw [hk]; exact hb : y.fs k ≠ 0)
          obtain ⟨wgq, -⟩ := RN.div_eq_some wg wk hgq
          have zg : gq ∈ T := hT.div wg wk (zr g bg) (zy k bk) hgq
          have wt : (Elt.term p gq (CRing.quo P a b)).WF := Elt.term_WF wgq (LawfulCRing.quo_mem gmem kmem hquo hb)
          have zt : BasisIn T (Elt.term p gq (CRing.quo P a b)).mod := by
            intro m h0
            have : m = gq := by simpa [Elt.term] using h0
            rw [this]; exact zg
          have wm := (Elt.mul_ok wt wy hm).1
          have pm := Elt.mul_par wt wy (p := p) rfl py hm
          have zm := mul_basisIn hT wt wy zt zy hm
          have zn : BasisIn T m.neg.mod := by rw [(Elt.neg_spec wm).2.1]; exact zm
          exact ih (Elt.sub_ok wr wm hr').1 (Elt.add_par wr (Elt.neg_spec wm).1 pr (by rw [(Elt.neg_spec wm).2.1]; exact pm) hr')
            (add_basisIn wr (Elt.neg_spec wm).1 zr zn hr') (Elt.add_ok wq wt hq').1 (Elt.add_par wq wt pq rfl hq') (add_basisIn wq wt zq zt hq') h
    · rw [Elt.truedivLoop] at h
      simp only [r0, Bool.not_eq_true] at h
      simp at h
      cases h
      exact zq

theorem truedivLoop_basisIn' [Build] (hT : NumClosed T) {x y z : Elt P R} (wx : x.WF) (wy : y.WF) (hm : x.mod = y.mod) (zx : BasisIn T x.mod) (zy : BasisIn T y.mod) {n : ℕ}
    (h : Elt.truedivLoop x.mod.par y n x x.mod.zero = .ok (some z)) : BasisIn T z.mod := by
  by_cases y0 : y.toBool = true
  · exact truedivLoop_basisIn hT wy (by rw [hm]) y0 zy n wx rfl zx (Elt.zero_WF wx.mod) rfl zx h
  · obtain ⟨rfl, -⟩ := truedivLoop_zero wy (by simpa using y0) wx h
    exact zx

theorem truediv_basisIn [Build] (hT : NumClosed T) {x y q : Elt P R} (hx : x.WF) (hy : y.WF) (zx : BasisIn T x.mod) (zy : BasisIn T y.mod) {fuel : ℕ}
    (h : x.truediv fuel y = .ok (some q)) : BasisIn T q.mod := by
  unfold Elt.truediv at h
  rw [Out.bind_eq_ok] at h
  obtain ⟨-, -, h⟩ := h
  split at h
  · cases h; exact zx
  split at h
  · simp only [Out.bind_eq_ok] at h
    obtain ⟨s, hs, x', hx', y', hy', h⟩ := h
    obtain ⟨x'', e1, wx', mx', -⟩ := Elt.promote_span_left hx hy.mod hs
    obtain ⟨y'', e2, wy', my', -⟩ := Elt.promote_span_right hx.mod hy hs
    rw [hx'] at e1; cases e1
    rw [hy'] at e2; cases e2
    obtain ⟨-, hmem, -⟩ := Mod.span_ok (R := R) hx.mod hy.mod hs
    have zs : BasisIn T s := fun g h => ((hmem _).1 h).elim (zx g) (zy g)
    have zx' : BasisIn T x'.mod := by rw [mx']; exact zs
    have zy' : BasisIn T y'.mod := by rw [my']; exact zs
    unfold Elt.truedivSame at h
    rw [Out.bind_eq_ok] at h
    obtain ⟨-, -, h⟩ := h
    split at h
    · cases h; exact zx'
    · exact truedivLoop_basisIn' hT wx' wy' (by rw [mx', my']) zx' zy' h
  · rename_i hm
    rw [not_not] at hm
    exact truedivLoop_basisIn' hT hx hy hm zx zy h

/-- Real numbers with the same value are equal. -/
theorem rn_value_injective {v : ℕ → ℝ} (hv : AlgebraicIndependent ℚ v) {x y : RN} (hx : x.WF) (hy : y.WF) (h : x.value v = y.value v) : x = y := by
  have e : ∀ z : RN, z.value v = MvPolynomial.aeval v (MvPolynomial.monomial z.mult z.coef) := fun z => by
    rw [MvPolynomial.aeval_monomial, RN.value_eq]
  by_cases hx0 : x = .rat 0
  · have : y = .rat 0 := rn_value_eq_zero hv (by rw [← h, hx0]; simp [RN.value])
    rw [hx0, this]
  · rw [e, e] at h
    have h1 := hv h
    rw [MvPolynomial.monomial_eq_monomial_iff] at h1
    rcases h1 with h1 | h1
    · exact (RN.ext_iff' hx hy).2 h1
    · exact absurd h1.1 (coef_ne_zero hx0)

/-! ### the invariant -/

variable {s s' : Vars P R}

/-- The numbers that variables hold, and the generators of the modules of variables are in `T`. -/
def Vars.NumsIn (T : Set RN) (s : Vars P R) : Prop := (∀ i, s.num i ∈ T) ∧ ∀ i, BasisIn T (s.elt i).mod

/-- The rational numbers that variables hold, and the rational generators of the modules of variables are in `S`. -/
def Vars.In (S : Set ℚ) (s : Vars P R) : Prop := (∀ i, (s.num i).coef ∈ S) ∧ ∀ i, GensIn S (s.elt i).mod

omit [LawfulScalar P] [LawfulCRing P] [DecidableEq P] [CRing P R] [DecidableEq R] [CommRing R] in
theorem Vars.NumsIn.setNum (h : Vars.NumsIn T s) (d : ℕ) {x : RN} (hx : x ∈ T) : Vars.NumsIn T (s.setNum d x) := by
  refine ⟨fun i => ?_, h.2⟩
  by_cases hi : i = d
  · subst hi; simpa [Vars.setNum] using hx
  · simpa [Vars.setNum, hi] using h.1 i

omit [LawfulScalar P] [LawfulCRing P] [DecidableEq P] [CRing P R] [DecidableEq R] [CommRing R] in
theorem Vars.NumsIn.setElt (h : Vars.NumsIn T s) (d : ℕ) {x : Elt P R} (hx : BasisIn T x.mod) : Vars.NumsIn T (s.setElt d x) := by
  refine ⟨h.1, fun i => ?_⟩
  by_cases hi : i = d
  · subst hi; simpa [Vars.setElt] using hx
  · simpa [Vars.setElt, hi] using h.2 i

omit [LawfulScalar P] [LawfulCRing P] [DecidableEq P] [CRing P R] [DecidableEq R] [CommRing R] in
theorem assign_basisIn (h : Vars.NumsIn T s) {d : ℕ} {x : Out (Elt P R)} {o : Out Bool} (hc : s.assign d x = (o, s'))
    (hx : ∀ y, x = .ok y → BasisIn T y.mod) : Vars.NumsIn T s' := by
  cases x with
  | ok y => cases hc; exact h.setElt d (hx y rfl)
  | throws e => cases hc; exact h
  | abort => cases hc; exact h
  | ub => cases hc; exact h
  | pending => cases hc; exact h

theorem exec_basisIn [Build] (hT : NumClosed T) (hn : ∀ i, (s.num i).WF) (hw : ∀ i, (s.elt i).WF) (h : Vars.NumsIn T s) (c : Cmd P R) (h0 : ∀ d q, c = .rational d q → .rat q ∈ T)
    (h0' : ∀ d i, c = .random d i → .atom i ∈ T)
    (hp : c.Pre s) {o : Out Bool} (hc : c.exec s = (o, s')) : Vars.NumsIn T s' := by
  have hmake : ∀ {ring : P} {gens : List RN} {m : Mod P}, (∀ g ∈ gens, g.WF ∧ g ∈ T) → Mod.make ring gens = .ok m → m.WF ∧ BasisIn T m :=
    fun hg hm => by
      obtain ⟨-, h2, h3, -⟩ := make_spec (fun g h => (hg g h).1) hm
      exact ⟨h3, fun g h => (hg _ (h2.mem_iff.1 h)).2⟩
  have hset : ∀ {d : ℕ} {x : Elt P R}, x.mod = (s.elt d).mod → Vars.NumsIn T (s.setElt d x) := fun {d x} hm =>
    h.setElt d (by rw [hm]; exact h.2 d)
  cases c with
  | rational d q => cases hc; exact h.setNum d (x := .rat q) (h0 d q rfl)
  | random d i => cases hc; exact h.setNum d (x := .atom i) (h0' d i rfl)
  | numMul d a b =>
    rw [Cmd.exec] at hc
    cases hx : (s.num a).mul (s.num b) with
    | ok z => rw [hx] at hc; cases hc; exact h.setNum d (hT.mul (hn a) (hn b) (h.1 a) (h.1 b) hx)
    | _ => rw [hx] at hc; cases hc; exact h
  | numDiv d a b =>
    rw [Cmd.exec] at hc
    cases hx : (s.num a).div (s.num b) with
    | ok z =>
      rw [hx] at hc
      cases z with
      | none => cases hc; exact h
      | some z => cases hc; exact h.setNum d (hT.div (hn a) (hn b) (h.1 a) (h.1 b) hx)
    | _ => rw [hx] at hc; cases hc; exact h
  | gen d ring gens g =>
    rw [Cmd.exec] at hc
    refine assign_basisIn h hc fun y hy => ?_
    obtain ⟨m, hm, hy⟩ := Out.bind_eq_ok.1 hy
    obtain ⟨h3, h4⟩ := hmake (fun g hg => by obtain ⟨t, -, rfl⟩ := List.mem_map.1 hg; exact ⟨hn _, h.1 _⟩) hm
    have hg : s.num g ∈ m.basis := (make_spec (fun g hg => by obtain ⟨t, -, rfl⟩ := List.mem_map.1 hg; exact hn _) hm).2.1.mem_iff.2 (List.mem_map_of_mem hp)
    obtain ⟨x, h5, -, h6, -⟩ := gen_value (R := R) h3 (j := m.basis.idxOf (s.num g)) (g := s.num g) (by
      rw [List.getElem?_eq_getElem (List.idxOf_lt_length_of_mem hg), List.getElem_idxOf])
    rw [h5] at hy
    cases hy
    rw [h6]; exact h4
  | linear d ring terms =>
    rw [Cmd.exec] at hc
    refine assign_basisIn h hc fun y hy => ?_
    obtain ⟨m, hm, hy⟩ := Out.bind_eq_ok.1 hy
    obtain ⟨h3, h4⟩ := hmake (fun g hg => by obtain ⟨t, -, rfl⟩ := List.mem_map.1 hg; exact ⟨hn _, h.1 _⟩) hm
    have : y.mod = m := by
      unfold Elt.ofCoefficients at hy
      obtain ⟨-, -, hy⟩ := Out.bind_eq_ok.1 hy
      cases hy; rfl
    rw [this]; exact h4
  | scalar d ring c =>
    rw [Cmd.exec] at hc
    refine assign_basisIn h hc fun y hy => ?_
    obtain ⟨x, h1, -, h2, -⟩ := ofScalar_value hp
    rw [h1] at hy
    cases hy
    rw [h2]
    intro g hg
    have : g = .rat 1 := by simpa using hg
    rw [this]; exact hT.one
  | copy d a => cases hc; exact h.setElt d (h.2 a)
  | zero d a => cases hc; exact h.setElt d (h.2 a)
  | one d a =>
    rw [Cmd.exec] at hc
    refine assign_basisIn h hc fun y hy => ?_
    rw [(one_sound (hw a).mod hy).2.1]; exact h.2 a
  | neg d a =>
    cases hc
    exact h.setElt d (by rw [(neg_value (hw a)).2.1]; exact h.2 a)
  | add d a => cases hc; exact h.setElt d (addAssign_basisIn (hw d) (hw a) (h.2 d) (h.2 a))
  | sub d a =>
    cases hc
    obtain ⟨w, m, -⟩ := neg_value (hw a)
    exact h.setElt d (addAssign_basisIn (hw d) w (h.2 d) (by rw [m]; exact h.2 a))
  | mul d a => cases hc; exact h.setElt d (mulAssign_basisIn hT (hw d) (hw a) (h.2 d) (h.2 a))
  | mulNum d r =>
    cases hc
    refine h.setElt d ?_
    obtain ⟨g, h1, h2, h3, h4⟩ := gen_value (R := R) (single_WF (s.elt d).mod.par (hn r)) (j := 0) (g := s.num r) rfl
    have e : (s.elt d).mulRNAssign (s.num r) = (s.elt d).mulAssign g := by
      rw [Elt.mulRNAssign, Elt.make_singleton, Out.ok_bind, h1]
    rw [e]
    refine mulAssign_basisIn hT (hw d) h2 (h.2 d) ?_
    rw [h3]
    intro g hg
    have : g = s.num r := by simpa using hg
    rw [this]; exact h.1 r
  | mulZ d n => cases hc; exact hset rfl
  | mulQ d q => cases hc; exact hset rfl
  | mulR d c => cases hc; exact hset rfl
  | divZ d n => cases hc; exact hset rfl
  | divQ d q => cases hc; exact hset rfl
  | divR d c => cases hc; exact hset rfl
  | promote d a =>
    rw [Cmd.exec] at hc
    split at hc
    · next hsub =>
      refine assign_basisIn h hc fun y hy => ?_
      obtain ⟨h1, -⟩ := promote_partial (hw d) (hw a).mod fun t ht _ => (submodule_iff _ _).1 hsub _ (Elt.terms_mem_fst ht)
      rw [(h1 y hy).2.1]; exact h.2 a
    · cases hc; exact h
  | simplify d =>
    rw [Cmd.exec] at hc
    refine assign_basisIn h hc fun y hy => ?_
    obtain ⟨z, h1, -, -, -, h2, -⟩ := simplify_spec (hw d)
    rw [h1] at hy
    cases hy
    intro g h0
    obtain ⟨c, -, hc⟩ := (h2 _).1 h0
    exact h.2 d g (Elt.terms_mem_fst hc)
  | truediv d a b fuel =>
    rw [Cmd.exec] at hc
    cases hx : Elt.truediv fuel (s.elt a) (s.elt b) with
    | ok q =>
      rw [hx] at hc
      cases q with
      | none => cases hc; exact h
      | some q => cases hc; exact h.setElt d (truediv_basisIn hT (hw a) (hw b) (h.2 a) (h.2 b) hx)
    | _ => rw [hx] at hc; cases hc; exact h

theorem add_gensIn [Build] {x y z : Elt P R} (hx : x.WF) (hy : y.WF) (zx : GensIn S x.mod) (zy : GensIn S y.mod) (h : x.add y = .ok z) : GensIn S z.mod :=
  fun g h0 => ((add_module hx hy h _).1 h0).elim (zx g) (zy g)

theorem mul_gensIn [Build] (hS : Closed S) {x y z : Elt P R} (hx : x.WF) (hy : y.WF) (zx : GensIn S x.mod) (zy : GensIn S y.mod) (h : x.mul y = .ok z) :
    GensIn S z.mod := mul_basisIn hS.nums hx hy zx zy h

theorem rn_div_coef (hS : Closed S) {x y z : RN} (hx : x.WF) (hy : y.WF) (x0 : x.coef ∈ S) (y0 : y.coef ∈ S) (h : x.div y = .ok (some z)) : z.coef ∈ S :=
  hS.nums.div hx hy x0 y0 h

theorem exec_gensIn [Build] (hS : Closed S) (hn : ∀ i, (s.num i).WF) (hw : ∀ i, (s.elt i).WF) (h : Vars.In S s) (c : Cmd P R) (h0 : ∀ d q, c = .rational d q → q ∈ S)
    (hp : c.Pre s) {o : Out Bool} (hc : c.exec s = (o, s')) : Vars.In S s' :=
  exec_basisIn hS.nums hn hw h c (fun d q e => h0 d q e) (fun _ _ _ => hS.one) hp hc

/-- C66. The variables of a program are always well-formed: generators of modules are sorted without repetitions, there is one coefficient for each, and it is in the
ring of the module. -/
theorem program_wf [Build] [LawfulFail P] {l : List (Cmd P R × Out Bool)} (h : Run l s) : (∀ i, (s.num i).WF) ∧ ∀ i, (s.elt i).WF := by
  obtain ⟨σ, -, h2⟩ := program_stands h fun _ => 0
  exact ⟨fun i => (h2.1 i).1, fun i => (h2.2 i).1⟩

/-- C66. If the arguments of all calls of `RealNumber::rational` are in a set of rationals that is closed under multiplication and division, then so are the
rational generators of all modules. -/
theorem program_gensIn [Build] [LawfulFail P] (hS : Closed S) {l : List (Cmd P R × Out Bool)} (h : Run l s) (h0 : ∀ d q o, (Cmd.rational d q, o) ∈ l → q ∈ S) :
    Vars.In S s := by
  induction h with
  | init => exact ⟨fun i => hS.one, fun i => by simp [Vars.init, GensIn, Elt.default]⟩
  | step h c hp hc ho ih =>
    obtain ⟨w1, w2⟩ := program_wf h
    exact exec_gensIn hS w1 w2 (ih fun d q o hm => h0 d q o (by simp [hm])) c (fun d q e => h0 d q _ (by rw [e]; exact List.mem_cons_self)) hp hc

/-- C66. In a program that does not call `RealNumber::rational(0)` no module has the generator zero. -/
theorem program_noZero [Build] [LawfulFail P] {l : List (Cmd P R × Out Bool)} (h : Run l s) (h0 : ∀ d o, (Cmd.rational d 0, o) ∉ l) :
    (∀ i, s.num i ≠ .rat 0) ∧ ∀ i, (s.elt i).NoZeroGen := by
  obtain ⟨h1, h2⟩ := program_gensIn closed_ne_zero h fun d q o hm hq => h0 d o (by rwa [hq] at hm)
  exact ⟨fun i e => h1 i (by rw [e]; rfl), fun i => noZeroGen_of (h2 i)⟩

/-- C66. In a program that does not call `RealNumber::rational(0)`, the library answers questions about the variables correctly, with the
numbers that the program computes from algebraically independent `v`: whether an element is not zero, whether two elements are equal, whether an element is a given
rational number or integer, and which rational number it is, if any; whether it is a real number, if that is a generator of its module; whether two real
numbers are equal, and which rational number a real number is, if any. -/
theorem program_queries [Build] [LawfulFail P] {l : List (Cmd P R × Out Bool)} (h : Run l s) (h0 : ∀ d o, (Cmd.rational d 0, o) ∉ l) {v : ℕ → ℝ}
    (hv : AlgebraicIndependent ℚ v) : ∃ σ : Reals, ProgramComputes v l σ ∧
      (∀ i, (s.elt i).toBool = true ↔ σ.elt i ≠ 0) ∧
      (∀ i j b, (s.elt i).eq (s.elt j) = .ok b → (b = true ↔ σ.elt i = σ.elt j)) ∧
      (∀ i q, (s.elt i).eqQ q = true ↔ σ.elt i = q) ∧
      (∀ i n, (s.elt i).eqZ n = true ↔ σ.elt i = n) ∧
      (∀ i q, (s.elt i).rational? = some q ↔ σ.elt i = q) ∧
      (∀ i n, (s.elt i).integer? = some n ↔ σ.elt i = n) ∧
      (∀ i j, s.num j ∈ (s.elt i).mod.basis ∨ σ.elt i = 0 → ∃ b, (s.elt i).eqRN (s.num j) = .ok b ∧ (b = true ↔ σ.elt i = σ.num j)) ∧
      (∀ i j, s.num i = s.num j ↔ σ.num i = σ.num j) ∧
      (∀ i q, (s.num i).rational? = some q ↔ σ.num i = q) := by
  obtain ⟨σ, h1, h2, h3⟩ := program_value_partial h v
  obtain ⟨w1, w2⟩ := program_wf h
  obtain ⟨z1, z2⟩ := program_noZero h h0
  have hb : ∀ i, (s.elt i).toBool = true ↔ σ.elt i ≠ 0 := fun i => by rw [← h3, ← not_iff_not, Bool.not_eq_true, not_not]; exact bool_iff hv (w2 i) (z2 i)
  have hr : ∀ i q, (s.num i).rational? = some q ↔ σ.num i = q := fun i q => by
    rw [← h2]
    constructor
    · intro h
      cases hx : s.num i with
      | rat p => rw [hx] at h; simpa [RN.rational?, RN.value] using h
      | atom j => rw [hx] at h; cases h
      | prod m => rw [hx] at h; cases h
    · intro h
      have := rn_value_injective hv (w1 i) (y := .rat q) trivial (by rw [h]; simp [RN.value])
      rw [this]; rfl
  refine ⟨σ, h1, hb, fun i j b he => ?_, fun i q => ?_, fun i n => ?_, fun i q => ?_, fun i n => ?_, fun i j hj => ?_, fun i j => ?_, hr⟩
  · rw [← h3, ← h3]; exact eq_iff hv (w2 i) (w2 j) (z2 i) (z2 j) he
  · rw [← h3]; exact eqQ_iff hv (w2 i) (.inl (z2 i)) q
  · rw [← h3]; exact eqZ_iff hv (w2 i) (.inl (z2 i)) n
  · rw [← h3]; exact rational_iff hv (w2 i) (.inl (z2 i)) q
  · rw [← h3]; exact integer_iff hv (w2 i) (.inl (z2 i)) n
  · obtain ⟨t, ht, hi⟩ := eqRN_iff hv (w2 i) (z2 i) (r := s.num j) (hj.imp id fun hz => by
      rw [← Bool.not_eq_true]; exact fun hb' => (hb i).1 hb' hz)
    exact ⟨t, ht, by rw [hi, h3, h2]⟩
  · rw [← h2, ← h2]
    exact ⟨fun h => by rw [h], rn_value_injective hv (w1 i) (w1 j)⟩

/-! ### fields -/

/-- If scalar operations that throw leave their element unchanged, then all calls that throw change nothing. -/
theorem program_strict [Build] [LawfulFail P]
    (hu : ∀ (x : Elt P R) (op : Step (Elt P R)) (n : ℤ) (q : ℚ) (c : R),
      op ∈ [x.imulZ n, x.imulQ q, x.imulR c, x.idivZ n, x.idivQ q, x.idivR c] → (∃ y, op = .done y) ∨ ∃ e, op = .fail e x)
    {l : List (Cmd P R × Out Bool)} (h : Run l s) (v : ℕ → ℝ) :
    ∃ σ : Reals, ProgramComputesStrictly v l σ ∧ Stands v s σ := by
  induction h with
  | init =>
    obtain ⟨σ, h1, h2⟩ := program_stands (P := P) .init v
    cases h1
    exact ⟨_, .init, h2⟩
  | @step l s h c hp s' o hc ho ih =>
    obtain ⟨σ, h1, h2⟩ := ih
    have key : ∀ (d : ℕ) (op : Step (Elt P R)), ((∃ y, op = .done y) ∨ ∃ e, op = .fail e (s.elt d)) → s.inplace d op = (o, s') →
        (∃ e, o = .throws e) → Stands v s' σ := by
      rintro d op (⟨y, rfl⟩ | ⟨e, rfl⟩) hi ⟨e', ho⟩
      · cases hi; cases ho
      · cases hi; exact h2.keepElt d (h2.2 d).1 (h2.2 d).2
    rcases exec_ok h2 c hp hc ho with ⟨rfl, σ', hm, h3⟩ | ⟨rfl, h3⟩ | ⟨e, rfl, σ', hf, h3⟩
    · exact ⟨σ', .assigned h1 hm, h3⟩
    · exact ⟨σ, .skipped h1, h3⟩
    · refine ⟨σ, .failed h1, ?_⟩
      cases c with
      | mulQ d q => exact key d _ (hu (s.elt d) _ 0 q 0 (by simp)) hc ⟨e, rfl⟩
      | divZ d n => exact key d _ (hu (s.elt d) _ n 0 0 (by simp)) hc ⟨e, rfl⟩
      | divQ d q => exact key d _ (hu (s.elt d) _ 0 q 0 (by simp)) hc ⟨e, rfl⟩
      | divR d c => exact key d _ (hu (s.elt d) _ 0 0 c (by simp)) hc ⟨e, rfl⟩
      | _ => cases hf; exact h3

/-- C66. In programs over the rational numbers and over number fields a call that throws changes nothing. -/
theorem program_value_fields [Build] (v : ℕ → ℝ) :
    (∀ (l : List (Cmd RationalField ℚ × Out Bool)) (s : Vars RationalField ℚ), Run l s →
      ∃ σ : Reals, ProgramComputesStrictly v l σ ∧ (∀ i, (s.num i).value v = σ.num i) ∧ ∀ i, (s.elt i).real v = σ.elt i) ∧
    (∀ (l : List (Cmd NumberField AlgReal × Out Bool)) (s : Vars NumberField AlgReal), Run l s →
      ∃ σ : Reals, ProgramComputesStrictly v l σ ∧ (∀ i, (s.num i).value v = σ.num i) ∧ ∀ i, (s.elt i).real v = σ.elt i) := by
  refine ⟨fun l s h => ?_, fun l s h => ?_⟩
  · obtain ⟨σ, h1, h2⟩ := program_strict scale_unchanged_partial.1 h v
    exact ⟨σ, h1, fun i => (h2.1 i).2, fun i => (h2.2 i).2⟩
  · obtain ⟨σ, h1, h2⟩ := program_strict scale_unchanged_partial.2 h v
    exact ⟨σ, h1, fun i => (h2.1 i).2, fun i => (h2.2 i).2⟩

/-! ### a program -/

section Sample
variable [Build]

/-- Executes the calls of a list. -/
def runAll : List (Cmd IntegerRing ℤ) → List (Cmd IntegerRing ℤ × Out Bool) → Vars IntegerRing ℤ →
    List (Cmd IntegerRing ℤ × Out Bool) × Vars IntegerRing ℤ
  | [], l, s => (l, s)
  | c :: cs, l, s => runAll cs ((c, (c.exec s).1) :: l) (c.exec s).2

theorem runAll_mem : ∀ (cs : List (Cmd IntegerRing ℤ)) (l : List (Cmd IntegerRing ℤ × Out Bool)) (s : Vars IntegerRing ℤ) {x}, x ∈ l → x ∈ (runAll cs l s).1
  | [], _, _, _, h => h
  | c :: cs, l, s, _, h => runAll_mem cs _ _ (by simp [h])

theorem runAll_run : ∀ (cs : List (Cmd IntegerRing ℤ)) {l : List (Cmd IntegerRing ℤ × Out Bool)} {s : Vars IntegerRing ℤ}, Run l s →
    (∀ c ∈ cs, ∀ s : Vars IntegerRing ℤ, c.Pre s) → (∀ x ∈ (runAll cs l s).1, (∃ b, x.2 = .ok b) ∨ ∃ e, x.2 = .throws e) → Run (runAll cs l s).1 (runAll cs l s).2
  | [], _, _, h, _, _ => h
  | c :: cs, l, s, h, hp, ho => runAll_run cs (h.step c (hp c (by simp) s) rfl (ho (c, _) (runAll_mem cs _ _ (by simp)))) (fun c hc => hp c (by simp [hc])) ho

end Sample

/-- A random number `a`; `x = 3 + 2 a`, `y = x`, `y *= x`, `y /= 3` (which throws), `w = y`, `1 / a` (there is no quotient), `y = x`, `y *= x`,
`u = 1`, `z = y.truediv(u)`, `z += y`. -/
def sampleProgram : List (Cmd IntegerRing ℤ) :=
  [.random 0 7, .rational 1 1, .linear 0 .mk [(0, 2), (1, 3)], .copy 1 0, .mul 1 0, .divZ 1 3, .copy 3 1, .numDiv 1 1 0, .copy 1 0, .mul 1 0, .scalar 4 .mk 1,
    .truediv 2 1 4 10, .add 2 1]

def sampleOutcomes : List (Out Bool) :=
  [.ok true, .ok true, .ok true, .ok true, .ok true, .ok false, .ok true, .throws .invalidArgument, .ok true, .ok true, .ok true, .ok true, .ok true]

/-- The default build, with assertions and checks. -/
@[instance_reducible] def sampleBuild : Build := ⟨true, true⟩
attribute [local instance] sampleBuild

theorem sample_pre : ∀ c ∈ sampleProgram, ∀ s : Vars IntegerRing ℤ, c.Pre s := by
  intro c hc s
  simp only [sampleProgram, List.mem_cons, List.not_mem_nil, or_false] at hc
  rcases hc with rfl | rfl | rfl | rfl | rfl | rfl | rfl | rfl | rfl | rfl | rfl | rfl | rfl
  all_goals first | trivial | exact fun _ _ => trivial

/-- The program runs to its end: the hypotheses of the theorems are met by a run in which calls assign, skip and throw, that does not use `rational(0)`; at its end `z` is
`2 * x * x` and `w` is what the call that threw has left in `y`. -/
theorem sample_run : ∃ (l : List (Cmd IntegerRing ℤ × Out Bool)) (s : Vars IntegerRing ℤ), Run l s ∧ l.map Prod.fst = sampleProgram.reverse ∧ l.map Prod.snd = sampleOutcomes ∧
      (∀ d o, (Cmd.rational d 0, o) ∉ l) ∧ (s.elt 1).coeffs = [9, 12, 4] ∧ (s.elt 3).coeffs = [3, 4, 4] ∧ (s.elt 2).coeffs = [18, 24, 8] := by
  have h1 : (runAll sampleProgram [] Vars.init).1.map Prod.snd = sampleOutcomes := by decide +kernel
  have h2 : (runAll sampleProgram [] Vars.init).1.map Prod.fst = sampleProgram.reverse := by rfl
  refine ⟨_, _, runAll_run sampleProgram .init sample_pre fun x hx => ?_, h2, h1, fun d o h => ?_, by decide +kernel, by decide +kernel, by decide +kernel⟩
  · have : x.2 ∈ sampleOutcomes := by rw [← h1]; exact List.mem_map_of_mem hx
    simp only [sampleOutcomes, List.mem_cons, List.not_mem_nil, or_false] at this
    rcases this with h | h | h | h | h | h | h | h | h | h | h | h | h <;> rw [h] <;> simp
  · have : Cmd.rational d 0 ∈ sampleProgram.reverse := by rw [← h2]; exact List.mem_map_of_mem h
    simp [sampleProgram] at this

end ExactReal.Props
