import Verif.Lemma.BuildDiv
import Verif.Props.ProgramQuery

/-!
# C66: calls return or throw
-/

namespace ExactReal.Props
open ExactReal

variable {P : Type} [DecidableEq P] {R : Type} [CommRing R] [DecidableEq R] [CRing P R] [LawfulCRing P] [LawfulScalar P]
variable {s : Vars P R}

set_option linter.unusedSectionVars false

/-- The call returns or throws. -/
def Plain {α : Type} (x : Out α) : Prop := (∃ a, x = .ok a) ∨ ∃ e, x = .throws e

theorem Plain.bind {α β : Type} {x : Out α} {f : α → Out β} (hx : Plain x) (hf : ∀ a, x = .ok a → Plain (f a)) : Plain (x >>= f) := by
  rcases hx with ⟨a, rfl⟩ | ⟨e, rfl⟩
  · exact hf a rfl
  · exact .inr ⟨e, rfl⟩

theorem plain_ok {α : Type} (a : α) : Plain (Out.ok a) := .inl ⟨a, rfl⟩
theorem plain_throws {α : Type} (e : Exc) : Plain (Out.throws e : Out α) := .inr ⟨e, rfl⟩
theorem plain_of {α : Type} {x : Out α} {e : Exc} (h : (∃ a, x = .ok a) ∨ x = .throws e) : Plain x := h.imp_right fun h => ⟨e, h⟩

theorem plain_assert [Build] (c : Bool) : Plain (assertThat c) := by
  unfold assertThat; split <;> [exact plain_throws _; exact plain_ok _]

theorem plain_check [Build] (c : Bool) : Plain (checkArgument c) := by
  unfold checkArgument; split <;> [exact plain_throws _; exact plain_ok _]

theorem plain_result {α : Type} {x : Step α} (h : (∃ y, x = .done y) ∨ ∃ e y, x = .fail e y) : Plain x.result := by
  rcases h with ⟨y, rfl⟩ | ⟨e, y, rfl⟩
  · exact plain_ok y
  · exact plain_throws e

theorem plain_gen {m : Mod P} {j : ℕ} (h : j < m.basis.length) : Plain (m.gen j : Out (Elt P R)) := by
  unfold Mod.gen
  rw [if_pos h]
  exact plain_ok _

theorem plain_one {m : Mod P} : Plain (m.one : Out (Elt P R)) ∨
    ((m.one : Out (Elt P R)) = .ub ∧ CRing.isIntegers P = false ∧ ∃ q : ℚ, q ≤ 0 ∧ .rat q ∈ m.basis) := by
  unfold Mod.one
  rcases one_find (m := m) with ⟨g, hg, q, hq, hf⟩ | ⟨hf, -⟩
  · have hl : m.basis[g]? = some (.rat q) := by rw [List.getElem?_eq_getElem hg, hq]
    rw [hf]
    simp only [hl, Option.bind_some, RN.rational?]
    split
    · left
      split
      · refine (plain_gen hg).bind fun x _ => plain_result ?_
        rcases scale_outcomes (fun c => LawfulScalar.imulZ_outcomes (P := P) c (q.den : ℤ)) x with h | ⟨y, h⟩
        · exact .inl h
        · exact .inr ⟨_, y, h⟩
      · exact plain_throws _
    · rename_i hi
      split
      · rename_i hn
        exact .inr ⟨rfl, by simpa using hi, q, Rat.num_nonpos.1 hn, by rw [← hq]; exact List.getElem_mem hg⟩
      · left
        refine (plain_gen hg).bind fun x _ => plain_result ?_
        rcases scale_outcomes (fun c => LawfulScalar.imulQ_outcomes (P := P) c (q.den / q.num : ℚ)) x with h | ⟨y, h⟩
        · exact .inl h
        · exact .inr ⟨_, y, h⟩
  · rw [hf]; exact .inl (plain_throws _)

theorem plain_inplace {d : ℕ} {x : Step (Elt P R)} (h : (∃ y, x = .done y) ∨ ∃ e y, x = .fail e y) : Plain (s.inplace d x).1 := by
  rcases h with ⟨y, rfl⟩ | ⟨e, y, rfl⟩
  · exact plain_ok true
  · exact plain_throws e

theorem plain_assign {d : ℕ} {x : Out (Elt P R)} (h : Plain x) : Plain (s.assign d x).1 := by
  rcases h with ⟨y, rfl⟩ | ⟨e, rfl⟩
  · exact plain_ok true
  · exact plain_throws e

theorem plain_scale {x : Step (Elt P R)} (h : (∃ y, x = .done y) ∨ ∃ y, x = .fail .invalidArgument y) : (∃ y, x = .done y) ∨ ∃ e y, x = .fail e y :=
  h.imp_right fun ⟨y, h⟩ => ⟨_, y, h⟩

theorem leading_zero {y : Elt P R} (y0 : y.toBool = false) : y.leading = .throws .logicError := by
  unfold Elt.leading
  rw [List.find?_eq_none.2]
  intro t ht
  have := (Elt.toBool_eq_false_iff y).1 y0 _ (Elt.terms_mem_snd (List.mem_reverse.1 ht))
  simp [this]

theorem plain_add [Build] {x y : Elt P R} (hx : x.WF) (hy : y.WF) : Plain (x.add y) :=
  plain_result ((add_fails_iff hx hy).1.imp_right fun h => ⟨_, _, h⟩)

theorem plain_mul [Build] {x y : Elt P R} (hx : x.WF) (hy : y.WF) : Plain (x.mul y) :=
  plain_result ((elt_mul_fails_iff hx hy).1.imp_right fun ⟨_, h, _⟩ => ⟨_, _, h⟩)

theorem truedivLoop_outcomes [Build] {p : P} {y : Elt P R} (wy : y.WF) (py : y.mod.par = p) (n : ℕ) {r q : Elt P R} (wr : r.WF) (pr : r.mod.par = p) (wq : q.WF)
    (pq : q.mod.par = p) : Plain (Elt.truedivLoop p y n r q) ∨ Elt.truedivLoop p y n r q = .pending := by
  induction n generalizing r q with
  | zero => exact .inr (by rw [Elt.truedivLoop])
  | succ n ih =>
    by_cases r0 : r.toBool = true
    swap
    · rw [Elt.truedivLoop_zero _ n (by simpa using r0)]; exact .inl (plain_ok _)
    obtain ⟨a, g, hl, -, ha, hg, -⟩ := Elt.leading_spec wr r0
    by_cases y0 : y.toBool = true
    swap
    · rw [Elt.truedivLoop_throws _ n r0 hl (leading_zero (by simpa using y0))]; exact .inl (plain_throws _)
    obtain ⟨c, k, hl', -, hc, hk, -⟩ := Elt.leading_spec wy y0
    rw [Elt.truedivLoop_eq _ n r0 hl hl']
    obtain ⟨-, wg⟩ := Elt.fs_support_WF wr (by rw [hg]; exact ha : r.fs g ≠ 0)
    obtain ⟨-, wk⟩ := Elt.fs_support_WF wy (by rw [hk]; exact hc : y.fs k ≠ 0)
    rcases RN.div_outcomes g k with ⟨gq, hgq⟩ | hgq
    swap
    · rw [hgq]; exact .inl (plain_throws _)
    rw [hgq, Out.ok_bind]
    cases gq with
    | none => exact .inl (plain_ok _)
    | some gq =>
      dsimp only
      by_cases hne : CRing.quo P a c * c ≠ a
      · rw [if_pos hne]
        exact .inl ((plain_assert _).bind fun _ _ => plain_ok _)
      · rw [if_neg hne]
        have hquo := not_not.1 hne
        have gmem : a ∈ LawfulCRing.mem p := by rw [← pr, ← hg]; exact Elt.coeff_mem_of_fs wr g
        have kmem : c ∈ LawfulCRing.mem p := by rw [← py, ← hk]; exact Elt.coeff_mem_of_fs wy k
        obtain ⟨wgq, -⟩ := RN.div_eq_some wg wk hgq
        have wt : (Elt.term p gq (CRing.quo P a c)).WF := Elt.term_WF wgq (LawfulCRing.quo_mem gmem kmem hquo hc)
        rcases plain_add wq wt with ⟨q', hq'⟩ | ⟨e, he⟩
        swap
        · rw [he]; exact .inl (plain_throws _)
        rw [hq', Out.ok_bind]
        rcases plain_mul wt wy with ⟨m, hm⟩ | ⟨e, he⟩
        swap
        · rw [he]; exact .inl (plain_throws _)
        rw [hm, Out.ok_bind]
        have wm := (Elt.mul_ok wt wy hm).1
        have pm := Elt.mul_par wt wy rfl py hm
        rcases plain_add wr (Elt.neg_spec wm).1 with ⟨r', hr'⟩ | ⟨e, he⟩
        swap
        · have : r.sub m = .throws e := he
          rw [this]; exact .inl (plain_throws _)
        have hr : r.sub m = .ok r' := hr'
        rw [hr, Out.ok_bind]
        exact ih (Elt.sub_ok wr wm hr).1 (Elt.add_par wr (Elt.neg_spec wm).1 pr (by rw [(Elt.neg_spec wm).2.1]; exact pm) hr')
          (Elt.add_ok wq wt hq').1 (Elt.add_par wq wt pq rfl hq')

/-- `truediv` as its loop on elements of the same module. -/
theorem truediv_of_loop [Build] {Q : Out (Option (Elt P R)) → Prop} (h1 : ∀ r, Plain r → Q r) {x y : Elt P R} (hx : x.WF) (hy : y.WF) (fuel : ℕ)
    (h2 : ∀ x' y' : Elt P R, x'.WF → y'.WF → x'.mod = y'.mod → x'.fs = x.fs → y'.fs = y.fs → Q (Elt.truedivLoop x'.mod.par y' fuel x' x'.mod.zero)) :
    Q (x.truediv fuel y) := by
  have chk : ∀ (c : Bool) (f : Unit → Out (Option (Elt P R))), Q (f ()) → Q (checkArgument c >>= f) := by
    intro c f hf
    rcases plain_check c with ⟨a, h⟩ | ⟨e, h⟩
    · rw [h]; exact hf
    · rw [h]; exact h1 _ (plain_throws _)
  unfold Elt.truediv
  refine chk _ _ ?_
  split
  · exact h1 _ (plain_ok _)
  split
  · rcases (span_throws_iff (R := R) hx.mod hy.mod).1 with ⟨m, hs⟩ | hs
    · obtain ⟨x', e1, wx', mx', fx⟩ := Elt.promote_span_left hx hy.mod hs
      obtain ⟨y', e2, wy', my', fy⟩ := Elt.promote_span_right hx.mod hy hs
      rw [hs, Out.ok_bind, e1, Out.ok_bind, e2, Out.ok_bind]
      unfold Elt.truedivSame
      refine chk _ _ ?_
      split
      · exact h1 _ (plain_ok _)
      · exact h2 x' y' wx' wy' (by rw [mx', my']) fx fy
    · rw [hs]; exact h1 _ (plain_throws _)
  · rename_i hm
    exact h2 x y hx hy (not_not.1 hm) rfl rfl

theorem truediv_outcomes [Build] {x y : Elt P R} (hx : x.WF) (hy : y.WF) (fuel : ℕ) : Plain (x.truediv fuel y) ∨ x.truediv fuel y = .pending :=
  truediv_of_loop (Q := fun r => Plain r ∨ r = .pending) (fun _ h => .inl h) hx hy fuel fun x' _ wx wy hm _ _ =>
    truedivLoop_outcomes wy (by rw [hm]) fuel wx rfl (Elt.zero_WF wx.mod) rfl

/-! ### every division ends -/

open Elt in
theorem lead_poly_of {x : Elt P R} (hx : x.WF) (u : GensIn {q : ℚ | q ≠ 0} x.mod) {c : R} {g : RN} (hc : c ≠ 0) (hg : x.fs g = c)
    (h : ∀ h, x.fs h ≠ 0 → h = g ∨ Precedes h.mult g.mult) :
    Lead x.poly g.mult ∧ x.poly.coeff g.mult = LawfulCRing.emb P c * algebraMap ℚ AlgReal g.coef := by
  have hg' : x.fs g ≠ 0 := by rwa [hg]
  have hco : x.poly.coeff g.mult = LawfulCRing.emb P c * algebraMap ℚ AlgReal g.coef := by
    rw [poly, coeff_polyF_self hx.multInj hg', hg]
  refine ⟨⟨?_, fun e he => ?_⟩, hco⟩
  · rw [hco]
    refine mul_ne_zero ?_ ?_
    · rw [Ne, map_eq_zero_iff _ LawfulCRing.emb_injective]; exact hc
    · rw [Ne, map_eq_zero_iff _ (algebraMap ℚ AlgReal).injective]; exact u _ (fs_support_WF hx hg').1
  · by_cases h' : ∃ k, x.fs k ≠ 0 ∧ k.mult = e
    · obtain ⟨k, hk, rfl⟩ := h'
      rcases h k hk with rfl | h'
      · exact .inl rfl
      · exact .inr h'
    · exfalso
      apply he
      rw [poly, coeff_polyF]
      refine Finset.sum_eq_zero fun g hg => ?_
      rw [if_neg]
      exact fun he => h' ⟨g, Finsupp.mem_support_iff.1 hg, he⟩

theorem poly_eq_zero_of {x : Elt P R} (hx : x.WF) (u : GensIn {q : ℚ | q ≠ 0} x.mod) : x.poly = 0 ↔ x.toBool = false := by
  rw [← Elt.fs_eq_zero_iff hx]
  constructor
  · exact Elt.polyF_eq_zero hx.multInj (Elt.fs_apply_of_not_mem hx fun h => u _ h rfl)
  · intro h; rw [Elt.poly, h, Elt.polyF_zero]

open Elt in
theorem truedivLoop_ends [Build] {p : P} {y : Elt P R} (wy : y.WF) (py : y.mod.par = p) (uy : GensIn {q : ℚ | q ≠ 0} y.mod)
    (d : ℕ →₀ ℕ) : ∀ (r q : Elt P R), r.WF → r.mod.par = p → GensIn {q : ℚ | q ≠ 0} r.mod → q.WF → q.mod.par = p →
    (r.toBool = true → Lead r.poly d) → ∃ N res, Plain res ∧ ∀ n ≥ N, truedivLoop p y n r q = res := by
  induction d using precedes_wf.induction with
  | _ d ih =>
  intro r q wr pr ur wq pq hd
  by_cases r0 : r.toBool = true
  swap
  · refine ⟨1, _, plain_ok (some q), fun n hn => ?_⟩
    obtain ⟨n, rfl⟩ : ∃ k, n = k + 1 := ⟨n - 1, by omega⟩
    exact Elt.truedivLoop_zero _ n (by simpa using r0)
  have hd := hd r0
  obtain ⟨a, g, hl, -, ha, hg, hgm⟩ := leading_spec wr r0
  by_cases y0 : y.toBool = true
  swap
  · refine ⟨1, _, plain_throws .logicError, fun n hn => ?_⟩
    obtain ⟨n, rfl⟩ : ∃ k, n = k + 1 := ⟨n - 1, by omega⟩
    exact truedivLoop_throws _ n r0 hl (leading_zero (by simpa using y0))
  obtain ⟨b, k, hl', -, hb, hk, hkm⟩ := leading_spec wy y0
  have step := fun n => truedivLoop_eq (b := inferInstance) (p := p) (q := q) n r0 hl hl'
  obtain ⟨lr, cr⟩ := lead_poly_of wr ur ha hg hgm
  obtain ⟨ly, cy⟩ := lead_poly_of wy uy hb hk hkm
  have hgd : d = g.mult := hd.unique lr
  subst hgd
  obtain ⟨gb, wg⟩ := fs_support_WF wr (by rw [hg]; exact ha : r.fs g ≠ 0)
  obtain ⟨kb, wk⟩ := fs_support_WF wy (by rw [hk]; exact hb : y.fs k ≠ 0)
  have one : ∀ {res}, Plain res → (∀ n, truedivLoop p y (n + 1) r q = res) → ∃ N res, Plain res ∧ ∀ n ≥ N, truedivLoop p y n r q = res := by
    intro res hp h
    refine ⟨1, res, hp, fun n hn => ?_⟩
    obtain ⟨n, rfl⟩ : ∃ k, n = k + 1 := ⟨n - 1, by omega⟩
    exact h n
  rcases RN.div_outcomes g k with ⟨gq, hgq⟩ | hth
  swap
  · exact one (plain_throws _) fun n => by rw [step, hth]; rfl
  cases gq with
  | none => exact one (plain_ok none) fun n => by rw [step, hgq]; rfl
  | some gq =>
    obtain ⟨wgq, hgqm⟩ := RN.div_eq_some wg wk hgq
    obtain ⟨-, hmult, hcoef⟩ := RN.mul_eq_ok wgq wk hgqm
    have gqc : gq.coef ≠ 0 := by
      intro h0
      rw [h0, zero_mul] at hcoef
      exact ur g gb hcoef
    by_cases hquo : CRing.quo P a b * b = a
    swap
    · refine one ((plain_assert (!CRing.isField P)).bind fun _ _ => plain_ok none) fun n => ?_
      rw [step, hgq, Out.ok_bind]
      simp only [ne_eq, hquo, not_false_eq_true, if_true]
    · have wt : (term p gq (CRing.quo P a b)).WF := term_WF wgq (LawfulCRing.quo_mem (by rw [← hg, ← pr]; exact coeff_mem_of_fs wr g)
        (by rw [← hk, ← py]; exact coeff_mem_of_fs wy k) hquo hb)
      have ut : GensIn {q : ℚ | q ≠ 0} (term p gq (CRing.quo P a b)).mod := by
        intro s hs
        have : s = gq := by simpa [term] using hs
        subst this; exact gqc
      have step' : ∀ n, truedivLoop p y (n + 1) r q = (q.add (term p gq (CRing.quo P a b)) >>= fun quotient => (term p gq (CRing.quo P a b)).mul y >>= fun product =>
            r.sub product >>= fun remainder => truedivLoop p y n remainder quotient) := by
        intro n
        rw [step, hgq, Out.ok_bind]
        simp only [ne_eq, hquo, not_true_eq_false, if_false]
      rcases plain_add wq wt with ⟨q', hq'⟩ | ⟨e, he⟩
      swap
      · exact one (plain_throws e) fun n => by rw [step', he]; rfl
      rcases plain_mul wt wy with ⟨m, hm⟩ | ⟨e, he⟩
      swap
      · exact one (plain_throws e) fun n => by rw [step', hq', Out.ok_bind, he]; rfl
      have wq' := (add_ok wq wt hq').1
      have wm := (mul_ok wt wy hm).1
      have pm := mul_par wt wy (p := p) rfl py hm
      have um := mul_gensIn closed_ne_zero wt wy ut uy hm
      have wn := (neg_spec wm).1
      have en := (neg_spec wm).2.1
      rcases plain_add wr wn with ⟨r', hr'⟩ | ⟨e, he⟩
      swap
      · have he' : r.sub m = .throws e := he
        exact one (plain_throws e) fun n => by rw [step', hq', Out.ok_bind, hm, Out.ok_bind, he']; rfl
      have hr : r.sub m = .ok r' := hr'
      have wr' := (sub_ok wr wm hr).1
      have pr' : r'.mod.par = p := add_par wr wn pr (by rw [en]; exact pm) hr'
      have ur' : GensIn {q : ℚ | q ≠ 0} r'.mod := add_gensIn wr wn ur (by rw [en]; exact um) hr'
      -- the leading term cancels
      have tp : (term p gq (CRing.quo P a b)).poly = MvPolynomial.monomial gq.mult (LawfulCRing.emb P (CRing.quo P a b) * algebraMap ℚ AlgReal gq.coef) := by
        rw [poly, term_fs, polyF_single]
      have hq0 : CRing.quo P a b ≠ 0 := by
        intro h0; rw [h0, zero_mul] at hquo; exact ha hquo.symm
      have tl : Lead (term p gq (CRing.quo P a b)).poly gq.mult := by
        rw [tp]
        refine ⟨?_, fun e he => ?_⟩
        · rw [MvPolynomial.coeff_monomial, if_pos rfl]
          refine mul_ne_zero ?_ ?_
          · rw [Ne, map_eq_zero_iff _ LawfulCRing.emb_injective]; exact hq0
          · rw [Ne, map_eq_zero_iff _ (algebraMap ℚ AlgReal).injective]; exact gqc
        · rw [MvPolynomial.coeff_monomial] at he
          split at he
          · rename_i h; exact .inl h.symm
          · exact absurd rfl he
      obtain ⟨ml, mc⟩ := tl.mul ly
      rw [← poly_mul wt wy hm, ← hmult] at ml mc
      have mc' : m.poly.coeff g.mult = LawfulCRing.emb P a * algebraMap ℚ AlgReal g.coef := by
        rw [mc, cy, tp, MvPolynomial.coeff_monomial, if_pos rfl, hcoef, map_mul, ← hquo, map_mul]
        have h1 : CRing.quo P (CRing.quo P a b * b) b = CRing.quo P a b := by rw [hquo]
        rw [h1]
        ring
      have dec : ∀ e, Lead r'.poly e → Precedes e g.mult := by
        intro e he
        rw [poly_sub wr wm hr] at he
        exact lr.sub ml (by rw [cr, mc']) he
      obtain ⟨N, res, hp, hN⟩ : ∃ N res, Plain res ∧ ∀ n ≥ N, truedivLoop p y n r' q' = res := by
        by_cases r0' : r'.toBool = true
        · have : r'.poly ≠ 0 := by rw [Ne, poly_eq_zero_of wr' ur', r0']; simp
          obtain ⟨e, he⟩ := exists_lead this
          exact ih e (dec e he) r' q' wr' pr' ur' wq' (add_par wq wt pq rfl hq') fun _ => he
        · refine ⟨1, _, plain_ok (some q'), fun n hn => ?_⟩
          obtain ⟨n, rfl⟩ : ∃ k, n = k + 1 := ⟨n - 1, by omega⟩
          exact Elt.truedivLoop_zero _ n (by simpa using r0')
      refine ⟨N + 1, res, hp, fun n hn => ?_⟩
      obtain ⟨n, rfl⟩ : ∃ k, n = k + 1 := ⟨n - 1, by omega⟩
      rw [step', hq', Out.ok_bind, hm, Out.ok_bind, hr, Out.ok_bind]
      exact hN n (by omega)

/-- C19, termination. `x.truediv(y)` always returns or throws, after finitely many iterations of its loop (for modules without the generator `rational(0)`). -/
theorem truediv_ends [Build] {x y : Elt P R} (hx : x.WF) (hy : y.WF) (zx : GensIn {q : ℚ | q ≠ 0} x.mod) (zy : GensIn {q : ℚ | q ≠ 0} y.mod) :
    ∃ N res, ((∃ a, res = .ok a) ∨ ∃ e, res = .throws e) ∧ ∀ fuel ≥ N, x.truediv fuel y = res := by
  have chk : ∀ (c : Bool) (f : ℕ → Unit → Out (Option (Elt P R))), (∃ N res, Plain res ∧ ∀ n ≥ N, f n () = res) →
      ∃ N res, Plain res ∧ ∀ n ≥ N, (checkArgument c >>= f n) = res := by
    rintro c f ⟨N, res, hp, hf⟩
    rcases plain_check c with ⟨a, h⟩ | ⟨e, h⟩
    · exact ⟨N, res, hp, fun n hn => by rw [h]; exact hf n hn⟩
    · exact ⟨0, _, plain_throws e, fun n _ => by rw [h]; rfl⟩
  have loop : ∀ {m : Mod P} {x y : Elt P R}, x.WF → y.WF → x.mod = m → y.mod = m → GensIn {q : ℚ | q ≠ 0} m →
      ∃ N res, Plain res ∧ ∀ fuel ≥ N, Elt.truedivLoop x.mod.par y fuel x x.mod.zero = res := by
    intro m x y wx wy mx my um
    subst mx
    have hd : ∃ d, x.toBool = true → Lead x.poly d := by
      by_cases x0 : x.toBool = true
      · obtain ⟨d, hd⟩ := ExactReal.exists_lead (f := x.poly) (by rw [Ne, poly_eq_zero_of wx um, x0]; simp)
        exact ⟨d, fun _ => hd⟩
      · exact ⟨0, fun h => absurd h x0⟩
    obtain ⟨d, hd⟩ := hd
    exact truedivLoop_ends wy (congrArg Mod.par my) (by rw [my]; exact um) d x x.mod.zero wx rfl um (Elt.zero_WF wx.mod) rfl hd
  unfold Elt.truediv
  refine chk _ _ ?_
  by_cases h1 : y.eqZ 1 = true
  · exact ⟨0, _, plain_ok (some x), fun n _ => by rw [if_pos h1]⟩
  simp only [if_neg h1]
  by_cases hm : x.mod = y.mod
  · simp only [ne_eq, hm, not_true_eq_false, if_false]
    have := loop hx hy hm rfl zy
    rwa [hm] at this
  · simp only [ne_eq, hm, not_false_eq_true, if_true]
    rcases (span_throws_iff (R := R) hx.mod hy.mod).1 with ⟨m, hs⟩ | hs
    · obtain ⟨x', e1, wx', mx', -⟩ := Elt.promote_span_left hx hy.mod hs
      obtain ⟨y', e2, wy', my', -⟩ := Elt.promote_span_right hx.mod hy hs
      simp only [hs, Out.ok_bind, e1, e2]
      unfold Elt.truedivSame
      refine chk _ _ ?_
      by_cases h1 : y'.eqZ 1 = true
      · exact ⟨0, _, plain_ok (some x'), fun n _ => by rw [if_pos h1]⟩
      simp only [if_neg h1]
      refine loop wx' wy' mx' my' fun g hg => ?_
      exact ((Mod.span_ok (R := R) hx.mod hy.mod hs).2.1 g |>.1 hg).elim (zx g) (zy g)
    · exact ⟨0, _, plain_throws .logicError, fun n _ => by rw [hs]; rfl⟩

/-- One call. -/
theorem exec_outcomes [Build] (hn : ∀ i, (s.num i).WF) (hw : ∀ i, (s.elt i).WF) (c : Cmd P R) (hp : c.Pre s) : Plain (c.exec s).1 ∨
    (∃ d a, c = .one d a ∧ (c.exec s).1 = .ub ∧ CRing.isIntegers P = false ∧ ∃ q : ℚ, q ≤ 0 ∧ .rat q ∈ (s.elt a).mod.basis) ∨
    (∃ d a e fuel, c = .truediv d a e fuel ∧ (c.exec s).1 = .pending) := by
  cases c with
  | rational d q => exact .inl (plain_ok _)
  | random d i => exact .inl (plain_ok _)
  | numMul d a b =>
    left
    rcases (mul_throws_iff (s.num a) (s.num b)).1 with ⟨z, hz⟩ | hz <;> simp only [Cmd.exec, hz, Vars.assignNum]
    · exact plain_ok _
    · exact plain_throws _
  | numDiv d a b =>
    left
    rcases (div_throws_iff (s.num a) (s.num b)).1 with ⟨z, hz⟩ | hz
    · cases z <;> simp only [Cmd.exec, hz, Vars.assignNum?] <;> exact plain_ok _
    · simp only [Cmd.exec, hz, Vars.assignNum?]; exact plain_throws _
  | gen d ring gens g =>
    left
    refine plain_assign ((plain_of (Mod.make_outcomes _ _)).bind fun m hm => plain_gen ?_)
    obtain ⟨-, h2, -⟩ := make_spec (fun g hg => by obtain ⟨t, -, rfl⟩ := List.mem_map.1 hg; exact hn _) hm
    exact List.idxOf_lt_length_of_mem (h2.mem_iff.2 (List.mem_map_of_mem hp))
  | linear d ring terms => exact .inl (plain_assign ((plain_of (Mod.make_outcomes _ _)).bind fun m hm => (plain_assert _).bind fun _ _ => plain_ok _))
  | scalar d ring c => exact .inl (plain_assign ((plain_of (Mod.make_outcomes _ _)).bind fun m hm => (plain_assert _).bind fun _ _ => plain_ok _))
  | copy d a => exact .inl (plain_ok _)
  | zero d a => exact .inl (plain_ok _)
  | one d a =>
    rcases plain_one (R := R) (m := (s.elt a).mod) with h | ⟨h1, h2, h3⟩
    · exact .inl (plain_assign h)
    · exact .inr (.inl ⟨d, a, rfl, by simp only [Cmd.exec, h1, Vars.assign]; rfl, h2, h3⟩)
  | neg d a => exact .inl (plain_ok _)
  | add d a => exact .inl (plain_inplace ((add_fails_iff (hw d) (hw a)).1.imp_right fun h => ⟨_, _, h⟩))
  | sub d a => exact .inl (plain_inplace ((add_fails_iff (hw d) (Elt.neg_spec (hw a)).1).1.imp_right fun h => ⟨_, _, h⟩))
  | mul d a => exact .inl (plain_inplace ((elt_mul_fails_iff (hw d) (hw a)).1.imp_right fun ⟨_, h, _⟩ => ⟨_, _, h⟩))
  | mulNum d r =>
    refine .inl (plain_inplace ?_)
    rcases mulRN_value (hw d) (hn r) with ⟨y, h, -⟩ | ⟨y, h, -⟩
    · exact .inl ⟨y, h⟩
    · exact .inr ⟨_, y, h⟩
  | mulZ d n => exact .inl (plain_inplace (plain_scale (scale_outcomes (fun c => LawfulScalar.imulZ_outcomes c n) _)))
  | mulQ d n => exact .inl (plain_inplace (plain_scale (scale_outcomes (fun c => LawfulScalar.imulQ_outcomes c n) _)))
  | mulR d n => exact .inl (plain_inplace (plain_scale (scale_outcomes (fun c => LawfulScalar.imulR_outcomes c n) _)))
  | divZ d n => exact .inl (plain_inplace (plain_scale (scale_outcomes (fun c => LawfulScalar.idivZ_outcomes c n) _)))
  | divQ d n => exact .inl (plain_inplace (plain_scale (scale_outcomes (fun c => LawfulScalar.idivQ_outcomes c n) _)))
  | divR d n => exact .inl (plain_inplace (plain_scale (scale_outcomes (fun c => LawfulScalar.idivR_outcomes c n) _)))
  | promote d a =>
    left
    simp only [Cmd.exec]
    split
    · exact plain_assign (plain_of (Elt.promote_outcomes _ _))
    · exact plain_ok _
  | simplify d =>
    obtain ⟨y, h, -⟩ := Elt.simplify_spec (hw d)
    exact .inl (plain_assign (.inl ⟨y, h⟩))
  | truediv d a e fuel =>
    rcases truediv_outcomes (hw a) (hw e) fuel with (⟨z, hz⟩ | ⟨x, hz⟩) | hz
    · left; cases z <;> simp only [Cmd.exec, hz, Vars.assign?] <;> exact plain_ok _
    · left; simp only [Cmd.exec, hz, Vars.assign?]; exact plain_throws _
    · exact .inr (.inr ⟨d, a, e, fuel, rfl, by simp only [Cmd.exec, hz, Vars.assign?]; rfl⟩)

/-- C66, progress. In a program whose rational numbers are positive, every call other than a division returns or throws; a division has no undefined behaviour either. -/
theorem program_progress [Build] [LawfulFail P] {l : List (Cmd P R × Out Bool)} (h : Run l s) (h0 : ∀ d q o, (Cmd.rational d q, o) ∈ l → 0 < q) (c : Cmd P R)
    (hp : c.Pre s) : ((∃ b, (c.exec s).1 = .ok b) ∨ ∃ e, (c.exec s).1 = .throws e) ∨ ∃ d a e fuel, c = .truediv d a e fuel ∧ (c.exec s).1 = .pending := by
  obtain ⟨w1, w2⟩ := program_wf h
  rcases exec_outcomes w1 w2 c hp with h' | ⟨d, a, -, -, -, q, hq, hm⟩ | h'
  · exact .inl h'
  · exact absurd ((program_gensIn closed_pos h h0).2 a _ hm) (not_lt.2 hq)
  · exact .inr h'

/-- C66, progress. In a program that does not make `rational(0)`, divisions return or throw, too: after finitely many iterations of their loop. -/
theorem program_division [Build] [LawfulFail P] {l : List (Cmd P R × Out Bool)} (h : Run l s) (h0 : ∀ d o, (Cmd.rational d 0, o) ∉ l) (d a e : ℕ) :
    ∃ N o, ((∃ b, o = .ok b) ∨ ∃ x, o = .throws x) ∧ ∃ s', ∀ fuel ≥ N, (Cmd.truediv d a e fuel : Cmd P R).exec s = (o, s') := by
  obtain ⟨-, w⟩ := program_wf h
  obtain ⟨-, z⟩ := program_gensIn closed_ne_zero h fun d q o hm hq => h0 d o (hq ▸ hm)
  obtain ⟨N, res, hp, hN⟩ := truediv_ends (w a) (w e) (z a) (z e)
  refine ⟨N, (s.assign? d res).1, ?_, (s.assign? d res).2, fun fuel hf => by simp only [Cmd.exec, hN fuel hf]⟩
  rcases hp with ⟨x, rfl⟩ | ⟨e, rfl⟩
  · cases x <;> exact plain_ok _
  · exact plain_throws _

section
attribute [local instance] sampleBuild

/-- After the sample program, `y / x` ends, and every call returns or throws. -/
example : ∃ (l : List (Cmd IntegerRing ℤ × Out Bool)) (s : Vars IntegerRing ℤ), Run l s ∧ l.map Prod.fst = sampleProgram.reverse ∧
    (∃ N o, ((∃ b, o = .ok b) ∨ ∃ x, o = .throws x) ∧ ∃ s', ∀ fuel ≥ N, (Cmd.truediv 2 1 0 fuel : Cmd IntegerRing ℤ).exec s = (o, s')) ∧
    ((∃ b, (Cmd.exec s (.mul 1 3)).1 = .ok b) ∨ ∃ e, (Cmd.exec s (.mul 1 3)).1 = .throws e) := by
  obtain ⟨l, s, h, h1, h2, h0, -⟩ := sample_run
  refine ⟨l, s, h, h1, program_division h h0 2 1 0, ?_⟩
  have hpos : ∀ d q o, (Cmd.rational d q, o) ∈ l → 0 < q := by
    intro d q o hm
    have : Cmd.rational d q ∈ sampleProgram.reverse := by rw [← h1]; exact List.mem_map_of_mem hm
    simp [sampleProgram] at this
    rw [this.2]; norm_num
  rcases program_progress h hpos (.mul 1 3) trivial with h | ⟨d, a, e, fuel, h, -⟩
  · exact h
  · cases h

end

/-! ### the exceptions -/

/-- Finding F13. Over a field, `one()` of a module with a negative rational generator (or with `rational(0)`) computes with a non-canonical `mpq_class`, which is undefined
behaviour of GMP.  A program reaches this. -/
theorem one_undefined [Build] (q : ℚ) (hq : q ≤ 0) : ∃ (l : List (Cmd RationalField ℚ × Out Bool)) (s : Vars RationalField ℚ), Run l s ∧
    l.map Prod.fst = [.gen 0 .mk [0] 0, .rational 0 q] ∧ (Cmd.exec s (.one 1 0)).1 = .ub := by
  have e : Cmd.exec ((Vars.init : Vars RationalField ℚ).setNum 0 (.rat q)) (.gen 0 .mk [0] 0) =
      (.ok true, ((Vars.init : Vars RationalField ℚ).setNum 0 (.rat q)).setElt 0 ⟨⟨.mk, [.rat q]⟩, [1]⟩) := by
    simp [Cmd.exec, Vars.setNum, Elt.make_singleton, Mod.gen, Vars.assign]
  refine ⟨_, _, .step (.step .init (.rational 0 q) trivial rfl (.inl ⟨_, rfl⟩)) (.gen 0 .mk [0] 0) (by simp [Cmd.Pre]) e (.inl ⟨true, rfl⟩), rfl, ?_⟩
  simp [Cmd.exec, Vars.setElt, Mod.one, List.findIdx?_cons, RN.isRat, RN.rational?, CRing.isIntegers, hq, Vars.assign]

/-- Finding F19. -/
theorem zero_div_zero : (RN.rat 0).div (.rat 0) = .ok (some (.rat 1)) := rfl

end ExactReal.Props
