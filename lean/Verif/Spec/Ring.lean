import Verif.Model.Ring
import Mathlib.Algebra.Ring.Subring.Basic

/-!
# What the coefficient rings are

`LawfulCRing` says what numbers the coefficients are (`emb`, an injective ring homomorphism into the real algebraic numbers) and which
coefficients belong to which ring object (`mem`), and what the ring operations of the model mean in these terms.  It is proved below for
all three rings of the library, so theorems stated for a `LawfulCRing` hold for `IntegerRing`, `RationalField` and `NumberField`.
-/

namespace ExactReal

class LawfulCRing (P : Type) {R : outParam Type} [outParam (CommRing R)] [outParam (DecidableEq R)] [DecidableEq P] [CRing P R] where
  /-- The number a coefficient stands for. -/
  emb : R →+* AlgReal
  emb_injective : Function.Injective emb
  /-- The coefficients that belong to a ring object. -/
  mem : P → Subring R
  compositum_self (p : P) : CRing.compositum p p = .ok p
  compositum_outcomes (p q : P) : (∃ r, CRing.compositum p q = .ok r) ∨ CRing.compositum p q = .throws .logicError
  compositum_symm {p q r : P} (h : CRing.compositum p q = .ok r) : ∃ r', CRing.compositum q p = .ok r'
  /-- A ring is compatible with a compositum exactly if it is compatible with both rings. -/
  compositum_join {p q r : P} (h : CRing.compositum p q = .ok r) (s : P) :
    (CRing.compositum s r).isOk = true ↔ (CRing.compositum s p).isOk = true ∧ (CRing.compositum s q).isOk = true
  compositum_left {p q r : P} (h : CRing.compositum p q = .ok r) {c : R} (hc : c ∈ mem p) : CRing.coerce r p c = .ok c ∧ c ∈ mem r
  compositum_right {p q r : P} (h : CRing.compositum p q = .ok r) {c : R} (hc : c ∈ mem q) : CRing.coerce r q c = .ok c ∧ c ∈ mem r
  coerce_self (p : P) (c : R) : CRing.coerce p p c = .ok c
  coerce_ok {p q : P} {c d : R} (h : CRing.coerce q p c = .ok d) : d = c
  coerce_mem {p q : P} {c d : R} (h : CRing.coerce q p c = .ok d) (hc : c ∈ mem p) : d ∈ mem q
  coerce_outcomes (p q : P) (c : R) : (∃ d, CRing.coerce q p c = .ok d) ∨ CRing.coerce q p c = .throws .logicError
  rational_iff (c : R) (q : ℚ) : CRing.rational P c = some q ↔ emb c = algebraMap ℚ AlgReal q
  /-- If an exact quotient exists then `a / b` computes it. -/
  quo_exact {a b q : R} (hb : b ≠ 0) (h : q * b = a) : CRing.quo P a b = q
  /-- In a field every quotient is exact. -/
  quo_field (h : CRing.isField P = true) {a b : R} (hb : b ≠ 0) : CRing.quo P a b * b = a
  quo_mem {p : P} {a b : R} (ha : a ∈ mem p) (hb : b ∈ mem p) (h : CRing.quo P a b * b = a) (hb0 : b ≠ 0) : CRing.quo P a b ∈ mem p
  unit_iff {p : P} {c : R} (hc : c ∈ mem p) : CRing.unit P c = true ↔ ∃ d ∈ mem p, c * d = 1

/-! ### The three rings of the library -/

noncomputable instance : LawfulCRing IntegerRing where
  emb := Int.castRingHom AlgReal
  emb_injective := Int.cast_injective
  mem _ := ⊤
  compositum_self p := by cases p; rfl
  compositum_outcomes _ _ := .inl ⟨_, rfl⟩
  compositum_symm _ := ⟨_, rfl⟩
  compositum_join _ _ := ⟨fun _ => ⟨rfl, rfl⟩, fun _ => rfl⟩
  compositum_left _ _ _ := ⟨rfl, trivial⟩
  compositum_right _ _ _ := ⟨rfl, trivial⟩
  coerce_self _ _ := rfl
  coerce_ok h := by cases h; rfl
  coerce_mem _ _ := trivial
  coerce_outcomes _ _ _ := .inl ⟨_, rfl⟩
  rational_iff c q := by
    show some (c : ℚ) = some q ↔ _
    rw [Option.some_inj, eq_intCast, ← map_intCast (algebraMap ℚ AlgReal) c, (algebraMap ℚ AlgReal).injective.eq_iff]
  quo_exact {a b q} hb h := by
    show Int.tdiv a b = q
    rw [← h, Int.mul_tdiv_cancel _ hb]
  quo_field h := by cases h
  quo_mem _ _ _ _ := trivial
  unit_iff {p c} _ := by
    show decide (c = 1 ∨ c = -1) = true ↔ _
    rw [decide_eq_true_iff, ← Int.isUnit_iff, isUnit_iff_exists_inv]
    simp

noncomputable instance : LawfulCRing RationalField where
  emb := algebraMap ℚ AlgReal
  emb_injective := (algebraMap ℚ AlgReal).injective
  mem _ := ⊤
  compositum_self p := by cases p; rfl
  compositum_outcomes _ _ := .inl ⟨_, rfl⟩
  compositum_symm _ := ⟨_, rfl⟩
  compositum_join _ _ := ⟨fun _ => ⟨rfl, rfl⟩, fun _ => rfl⟩
  compositum_left _ _ _ := ⟨rfl, trivial⟩
  compositum_right _ _ _ := ⟨rfl, trivial⟩
  coerce_self _ _ := rfl
  coerce_ok h := by cases h; rfl
  coerce_mem _ _ := trivial
  coerce_outcomes _ _ _ := .inl ⟨_, rfl⟩
  rational_iff c q := by
    show some c = some q ↔ _
    rw [Option.some_inj, (algebraMap ℚ AlgReal).injective.eq_iff]
  quo_exact {a b q} hb h := by
    show a / b = q
    rw [← h, mul_div_cancel_right₀ _ hb]
  quo_field _ {a b} hb := div_mul_cancel₀ a hb
  quo_mem _ _ _ _ := trivial
  unit_iff {p c} _ := by
    show decide (c ≠ 0) = true ↔ _
    rw [decide_eq_true_iff]
    exact ⟨fun h => ⟨c⁻¹, trivial, mul_inv_cancel₀ h⟩, by rintro ⟨d, -, h⟩ rfl; simp at h⟩

namespace NumberField

theorem rational_eq_some (c : AlgReal) (q : ℚ) : rational c = some q ↔ c = algebraMap ℚ AlgReal q := by
  unfold rational
  split
  · rename_i h
    rw [Option.some_inj, ← (algebraMap ℚ AlgReal).injective.eq_iff, h.choose_spec]
  · rename_i h
    constructor
    · intro h'; cases h'
    · intro h'; exact absurd ⟨q, h'.symm⟩ h

theorem rational_isSome (c : AlgReal) : (rational c).isSome = true ↔ c ∈ (⊥ : IntermediateField ℚ AlgReal) := by
  rw [Option.isSome_iff_exists, IntermediateField.mem_bot]
  simp only [rational_eq_some, Set.mem_range]
  exact ⟨fun ⟨q, h⟩ => ⟨q, h.symm⟩, fun ⟨q, h⟩ => ⟨q, h.symm⟩⟩

theorem coerce_ok' {p q : NumberField} {c d : AlgReal} (h : coerce q p c = .ok d) : d = c ∧ (p = q ∨ c ∈ (⊥ : IntermediateField ℚ AlgReal)) := by
  unfold coerce at h
  split at h
  · cases h; exact ⟨rfl, .inl ‹_›⟩
  · split at h
    · cases h; exact ⟨rfl, .inr ((rational_isSome _).1 ‹_›)⟩
    · cases h

theorem coerce_of_mem_bot (p q : NumberField) {c : AlgReal} (h : c ∈ (⊥ : IntermediateField ℚ AlgReal)) : coerce q p c = .ok c := by
  unfold coerce
  rw [if_pos ((rational_isSome c).2 h)]
  simp

theorem coerce_self' (p : NumberField) (c : AlgReal) : coerce p p c = .ok c := by simp [coerce]

theorem compositum_cases {p q r : NumberField} (h : compositum p q = .ok r) :
    (p = q ∧ r = p) ∨ (p.subfield = ⊥ ∧ r = q) ∨ (q.subfield = ⊥ ∧ r = p) := by
  unfold compositum at h
  split at h
  · cases h; exact .inl ⟨‹_›, rfl⟩
  · split at h
    · cases h; exact .inr (.inl ⟨‹_›, rfl⟩)
    · split at h
      · cases h; exact .inr (.inr ⟨‹_›, rfl⟩)
      · cases h

theorem compositum_isOk (p q : NumberField) : (compositum p q).isOk = true ↔ p = q ∨ p.subfield = ⊥ ∨ q.subfield = ⊥ := by
  unfold compositum
  split
  · simp_all [Out.isOk]
  · split
    · simp_all [Out.isOk]
    · split <;> simp_all [Out.isOk]

end NumberField

open NumberField in
noncomputable instance : LawfulCRing NumberField where
  emb := RingHom.id _
  emb_injective := fun _ _ h => h
  mem p := p.subfield.toSubfield.toSubring
  compositum_self p := by show NumberField.compositum p p = _; simp [NumberField.compositum]
  compositum_outcomes p q := by
    show (∃ r, NumberField.compositum p q = .ok r) ∨ NumberField.compositum p q = _
    unfold NumberField.compositum
    split
    · exact .inl ⟨_, rfl⟩
    · split
      · exact .inl ⟨_, rfl⟩
      · split
        · exact .inl ⟨_, rfl⟩
        · exact .inr rfl
  compositum_symm {p q r} h := by
    show ∃ r', NumberField.compositum q p = .ok r'
    unfold NumberField.compositum
    rcases compositum_cases h with ⟨rfl, rfl⟩ | ⟨hbot, rfl⟩ | ⟨hbot, rfl⟩
    · simp
    · split
      · exact ⟨_, rfl⟩
      · split
        · exact ⟨_, rfl⟩
        · exact ⟨_, rfl⟩
    · split
      · exact ⟨_, rfl⟩
      · exact ⟨_, rfl⟩
  compositum_join {p q r} h s := by
    show (NumberField.compositum s r).isOk = true ↔ (NumberField.compositum s p).isOk = true ∧ (NumberField.compositum s q).isOk = true
    rw [compositum_isOk, compositum_isOk, compositum_isOk]
    rcases compositum_cases h with ⟨rfl, rfl⟩ | ⟨hbot, rfl⟩ | ⟨hbot, rfl⟩
    · tauto
    · tauto
    · tauto
  compositum_left {p q r} h c hc := by
    change c ∈ p.subfield at hc
    show NumberField.coerce r p c = .ok c ∧ c ∈ r.subfield
    rcases compositum_cases h with ⟨rfl, rfl⟩ | ⟨hbot, rfl⟩ | ⟨hbot, rfl⟩
    · exact ⟨coerce_self' _ _, hc⟩
    · rw [hbot] at hc
      exact ⟨coerce_of_mem_bot _ _ hc, bot_le (a := r.subfield) hc⟩
    · exact ⟨coerce_self' _ _, hc⟩
  compositum_right {p q r} h c hc := by
    change c ∈ q.subfield at hc
    show NumberField.coerce r q c = .ok c ∧ c ∈ r.subfield
    rcases compositum_cases h with ⟨rfl, rfl⟩ | ⟨hbot, rfl⟩ | ⟨hbot, rfl⟩
    · exact ⟨coerce_self' _ _, hc⟩
    · exact ⟨coerce_self' _ _, hc⟩
    · rw [hbot] at hc
      exact ⟨coerce_of_mem_bot _ _ hc, bot_le (a := r.subfield) hc⟩
  coerce_self := coerce_self'
  coerce_ok h := (coerce_ok' h).1
  coerce_mem {p q c d} h hc := by
    obtain ⟨rfl, rfl | hb⟩ := coerce_ok' h
    · exact hc
    · exact bot_le (a := q.subfield) hb
  coerce_outcomes p q c := by
    show (∃ d, NumberField.coerce q p c = .ok d) ∨ NumberField.coerce q p c = _
    unfold NumberField.coerce
    split
    · exact .inl ⟨_, rfl⟩
    · split
      · exact .inl ⟨_, rfl⟩
      · exact .inr rfl
  rational_iff c q := rational_eq_some c q
  quo_exact {a b q} hb h := by
    show a / b = q
    rw [← h, mul_div_cancel_right₀ _ hb]
  quo_field _ {a b} hb := div_mul_cancel₀ a hb
  quo_mem {p a b} ha hb _ _ := p.subfield.div_mem ha hb
  unit_iff {p c} hc := by
    show decide (c ≠ 0) = true ↔ _
    rw [decide_eq_true_iff]
    exact ⟨fun h => ⟨c⁻¹, p.subfield.inv_mem hc, mul_inv_cancel₀ h⟩, by rintro ⟨d, -, h⟩ rfl; simp at h⟩

/-! ### Scalars -/

/-- What multiplication and division of a coefficient by a scalar mean: `c * s` returns `d` exactly if `d` is the exact product, and
`c / s` returns `d` exactly if `s ≠ 0` and `d` is the exact quotient; otherwise `invalid_argument` is thrown. -/
class LawfulScalar (P : Type) {R : outParam Type} [outParam (CommRing R)] [outParam (DecidableEq R)] [DecidableEq P] [CRing P R]
    [LawfulCRing P] : Prop where
  imulZ_iff (c d : R) (n : ℤ) : CRing.imulZ P c n = .done d ↔ LawfulCRing.emb P d = LawfulCRing.emb P c * n
  imulQ_iff (c d : R) (q : ℚ) : CRing.imulQ P c q = .done d ↔ LawfulCRing.emb P d = LawfulCRing.emb P c * algebraMap ℚ AlgReal q
  imulR_iff (c d s : R) : CRing.imulR P c s = .done d ↔ d = c * s
  idivZ_iff (c d : R) (n : ℤ) : CRing.idivZ P c n = .done d ↔ n ≠ 0 ∧ LawfulCRing.emb P d * n = LawfulCRing.emb P c
  idivQ_iff (c d : R) (q : ℚ) :
    CRing.idivQ P c q = .done d ↔ q ≠ 0 ∧ LawfulCRing.emb P d * algebraMap ℚ AlgReal q = LawfulCRing.emb P c
  idivR_iff (c d s : R) : CRing.idivR P c s = .done d ↔ s ≠ 0 ∧ d * s = c
  imulZ_outcomes (c : R) (n : ℤ) : (∃ d, CRing.imulZ P c n = .done d) ∨ ∃ d, CRing.imulZ P c n = .fail .invalidArgument d
  imulQ_outcomes (c : R) (q : ℚ) : (∃ d, CRing.imulQ P c q = .done d) ∨ ∃ d, CRing.imulQ P c q = .fail .invalidArgument d
  imulR_outcomes (c s : R) : (∃ d, CRing.imulR P c s = .done d) ∨ ∃ d, CRing.imulR P c s = .fail .invalidArgument d
  idivZ_outcomes (c : R) (n : ℤ) : (∃ d, CRing.idivZ P c n = .done d) ∨ ∃ d, CRing.idivZ P c n = .fail .invalidArgument d
  idivQ_outcomes (c : R) (q : ℚ) : (∃ d, CRing.idivQ P c q = .done d) ∨ ∃ d, CRing.idivQ P c q = .fail .invalidArgument d
  idivR_outcomes (c s : R) : (∃ d, CRing.idivR P c s = .done d) ∨ ∃ d, CRing.idivR P c s = .fail .invalidArgument d
  /-- Rational multiples of coefficients of a ring that are coefficients at all, belong to the ring. -/
  mem_of_mul {p : P} {c d : R} {q : ℚ} (hc : c ∈ LawfulCRing.mem p)
    (h : LawfulCRing.emb P d = LawfulCRing.emb P c * algebraMap ℚ AlgReal q) : d ∈ LawfulCRing.mem p
  /-- Exact quotients of coefficients of a ring belong to the ring. -/
  mem_of_div {p : P} {c d s : R} (hc : c ∈ LawfulCRing.mem p) (hs : s ∈ LawfulCRing.mem p) (h0 : s ≠ 0) (h : d * s = c) :
    d ∈ LawfulCRing.mem p

namespace Step
theorem done_inj {S : Type} {a b : S} : Step.done a = Step.done b ↔ a = b := by simp [Step.done]
theorem fail_ne_done {S : Type} {a b : S} {e : Exc} : Step.fail e a ≠ Step.done b := by simp [Step.done, Step.fail]
@[simp] theorem andThen_done {S : Type} (a : S) (f : S → Step S) : (Step.done a).andThen f = f a := rfl
end Step

namespace IntegerRing

theorem idivZ_iff' (c d n : ℤ) : idivZ c n = .done d ↔ n ≠ 0 ∧ d * n = c := by
  unfold idivZ
  split
  · rename_i h; simp [h, Step.fail_ne_done]
  · rename_i h
    split
    · rename_i hm
      simp only [Step.fail_ne_done, false_iff, not_and]
      rintro - rfl
      exact hm (Int.mul_tmod_left d n)
    · rename_i hm
      rw [not_not] at hm
      rw [Step.done_inj]
      constructor
      · rintro rfl
        exact ⟨h, Int.tdiv_mul_cancel (Int.dvd_of_tmod_eq_zero hm)⟩
      · rintro ⟨-, rfl⟩
        exact Int.mul_tdiv_cancel d h

theorem idivZ_outcomes' (c n : ℤ) : (∃ d, idivZ c n = .done d) ∨ ∃ d, idivZ c n = .fail .invalidArgument d := by
  unfold idivZ
  split
  · exact .inr ⟨_, rfl⟩
  · split
    · exact .inr ⟨_, rfl⟩
    · exact .inl ⟨_, rfl⟩

theorem rat_eq (q : ℚ) : (q.num : ℚ) = q * q.den := (Rat.mul_den_eq_num q).symm

end IntegerRing

instance : LawfulScalar IntegerRing where
  imulZ_iff c d n := by
    show IntegerRing.imulZ c n = .done d ↔ ((d : ℤ) : AlgReal) = ((c : ℤ) : AlgReal) * n
    rw [IntegerRing.imulZ, Step.done_inj, ← Int.cast_mul, Int.cast_inj]; exact eq_comm
  imulQ_iff c d q := by
    show IntegerRing.imulQ c q = .done d ↔ ((d : ℤ) : AlgReal) = ((c : ℤ) : AlgReal) * _
    rw [IntegerRing.imulQ, IntegerRing.imulZ, Step.andThen_done, IntegerRing.idivZ_iff', ← map_intCast (algebraMap ℚ AlgReal) d,
      ← map_intCast (algebraMap ℚ AlgReal) c, ← map_mul, (algebraMap ℚ AlgReal).injective.eq_iff]
    have hd : (q.den : ℚ) ≠ 0 := by exact_mod_cast q.den_nz
    constructor
    · rintro ⟨-, h⟩
      have h : (d : ℚ) * q.den = c * q.num := by exact_mod_cast h
      rw [IntegerRing.rat_eq] at h
      field_simp at h
      linarith
    · intro h
      refine ⟨by exact_mod_cast q.den_nz, ?_⟩
      have : (d : ℚ) * q.den = c * q.num := by rw [h, IntegerRing.rat_eq q]; ring
      exact_mod_cast this
  imulR_iff c d n := by
    show IntegerRing.imulZ c n = .done d ↔ d = c * n
    rw [IntegerRing.imulZ, Step.done_inj]; exact eq_comm
  idivZ_iff c d n := by
    show IntegerRing.idivZ c n = .done d ↔ n ≠ 0 ∧ ((d : ℤ) : AlgReal) * n = ((c : ℤ) : AlgReal)
    rw [IntegerRing.idivZ_iff', ← Int.cast_mul, Int.cast_inj]
  idivQ_iff c d q := by
    show IntegerRing.idivQ c q = .done d ↔ q ≠ 0 ∧ ((d : ℤ) : AlgReal) * _ = ((c : ℤ) : AlgReal)
    rw [IntegerRing.idivQ]
    split
    · rename_i h; simp [h, Step.fail_ne_done]
    · rename_i h
      rw [IntegerRing.imulZ, Step.andThen_done, IntegerRing.idivZ_iff', ← map_intCast (algebraMap ℚ AlgReal) d,
        ← map_intCast (algebraMap ℚ AlgReal) c, ← map_mul, (algebraMap ℚ AlgReal).injective.eq_iff]
      have hd : (q.den : ℚ) ≠ 0 := by exact_mod_cast q.den_nz
      have hn : q.num ≠ 0 := Rat.num_ne_zero.2 h
      constructor
      · rintro ⟨-, h'⟩
        have h' : (d : ℚ) * q.num = c * q.den := by exact_mod_cast h'
        rw [IntegerRing.rat_eq] at h'
        refine ⟨h, mul_right_cancel₀ hd ?_⟩
        linarith
      · rintro ⟨-, h'⟩
        refine ⟨hn, ?_⟩
        have : (d : ℚ) * q.num = c * q.den := by rw [← h', IntegerRing.rat_eq q]; ring
        exact_mod_cast this
  idivR_iff c d n := IntegerRing.idivZ_iff' c d n
  imulZ_outcomes c n := .inl ⟨_, rfl⟩
  imulQ_outcomes c q := IntegerRing.idivZ_outcomes' _ _
  imulR_outcomes c n := .inl ⟨_, rfl⟩
  idivZ_outcomes c n := IntegerRing.idivZ_outcomes' _ _
  idivQ_outcomes c q := by
    show (∃ d, IntegerRing.idivQ c q = .done d) ∨ ∃ d, IntegerRing.idivQ c q = .fail .invalidArgument d
    unfold IntegerRing.idivQ
    split
    · exact .inr ⟨_, rfl⟩
    · exact IntegerRing.idivZ_outcomes' _ _
  idivR_outcomes c n := IntegerRing.idivZ_outcomes' _ _
  mem_of_mul _ _ := trivial
  mem_of_div _ _ _ _ := trivial

theorem div_eq_iff_comm {F : Type*} [Field F] {a b d : F} (hb : b ≠ 0) : a / b = d ↔ d * b = a := by
  rw [div_eq_iff hb]; exact eq_comm

instance : LawfulScalar RationalField where
  imulZ_iff c d n := by
    show RationalField.imul c n = .done d ↔ algebraMap ℚ AlgReal d = algebraMap ℚ AlgReal c * n
    rw [RationalField.imul, Step.done_inj, ← map_intCast (algebraMap ℚ AlgReal) n, ← map_mul, (algebraMap ℚ AlgReal).injective.eq_iff]
    exact eq_comm
  imulQ_iff c d q := by
    show RationalField.imul c q = .done d ↔ algebraMap ℚ AlgReal d = algebraMap ℚ AlgReal c * algebraMap ℚ AlgReal q
    rw [RationalField.imul, Step.done_inj, ← map_mul, (algebraMap ℚ AlgReal).injective.eq_iff]
    exact eq_comm
  imulR_iff c d q := by
    show RationalField.imul c q = .done d ↔ d = c * q
    rw [RationalField.imul, Step.done_inj]; exact eq_comm
  idivZ_iff c d n := by
    show RationalField.idiv c n = .done d ↔ n ≠ 0 ∧ algebraMap ℚ AlgReal d * n = algebraMap ℚ AlgReal c
    rw [← map_intCast (algebraMap ℚ AlgReal) n, ← map_mul, (algebraMap ℚ AlgReal).injective.eq_iff, RationalField.idiv]
    split
    · rename_i h; simp [Step.fail_ne_done, Int.cast_eq_zero.1 h]
    · rename_i h
      rw [Step.done_inj, div_eq_iff_comm h]
      simp [Int.cast_eq_zero.not.1 h]
  idivQ_iff c d q := by
    show RationalField.idiv c q = .done d ↔ q ≠ 0 ∧ algebraMap ℚ AlgReal d * algebraMap ℚ AlgReal q = algebraMap ℚ AlgReal c
    rw [← map_mul, (algebraMap ℚ AlgReal).injective.eq_iff, RationalField.idiv]
    split
    · rename_i h; simp [Step.fail_ne_done, h]
    · rename_i h
      rw [Step.done_inj, div_eq_iff_comm h]
      simp [h]
  idivR_iff c d q := by
    show RationalField.idiv c q = .done d ↔ q ≠ 0 ∧ d * q = c
    rw [RationalField.idiv]
    split
    · rename_i h; simp [Step.fail_ne_done, h]
    · rename_i h
      rw [Step.done_inj, div_eq_iff_comm h]
      simp [h]
  imulZ_outcomes c n := .inl ⟨_, rfl⟩
  imulQ_outcomes c q := .inl ⟨_, rfl⟩
  imulR_outcomes c n := .inl ⟨_, rfl⟩
  idivZ_outcomes c n := by
    show (∃ d, RationalField.idiv c n = .done d) ∨ ∃ d, RationalField.idiv c n = .fail .invalidArgument d
    unfold RationalField.idiv
    split
    · exact .inr ⟨_, rfl⟩
    · exact .inl ⟨_, rfl⟩
  idivQ_outcomes c q := by
    show (∃ d, RationalField.idiv c q = .done d) ∨ ∃ d, RationalField.idiv c q = .fail .invalidArgument d
    unfold RationalField.idiv
    split
    · exact .inr ⟨_, rfl⟩
    · exact .inl ⟨_, rfl⟩
  idivR_outcomes c q := by
    show (∃ d, RationalField.idiv c q = .done d) ∨ ∃ d, RationalField.idiv c q = .fail .invalidArgument d
    unfold RationalField.idiv
    split
    · exact .inr ⟨_, rfl⟩
    · exact .inl ⟨_, rfl⟩
  mem_of_mul _ _ := trivial
  mem_of_div _ _ _ _ := trivial

namespace NumberField
theorem idiv_iff (c d s : AlgReal) : idiv c s = .done d ↔ s ≠ 0 ∧ d * s = c := by
  rw [idiv]
  split
  · rename_i h; simp [Step.fail_ne_done, h]
  · rename_i h
    rw [Step.done_inj, div_eq_iff_comm h]
    simp [h]
theorem idiv_outcomes (c s : AlgReal) : (∃ d, idiv c s = .done d) ∨ ∃ d, idiv c s = .fail .invalidArgument d := by
  unfold idiv
  split
  · exact .inr ⟨_, rfl⟩
  · exact .inl ⟨_, rfl⟩
theorem imul_iff (c d s : AlgReal) : imul c s = .done d ↔ d = c * s := by
  rw [imul, Step.done_inj]; exact eq_comm
end NumberField

instance : LawfulScalar NumberField where
  imulZ_iff c d n := NumberField.imul_iff c d n
  imulQ_iff c d q := NumberField.imul_iff c d q
  imulR_iff c d s := NumberField.imul_iff c d s
  idivZ_iff c d n := by
    show NumberField.idiv c n = .done d ↔ n ≠ 0 ∧ d * n = c
    rw [NumberField.idiv_iff]; simp
  idivQ_iff c d q := by
    show NumberField.idiv c q = .done d ↔ q ≠ 0 ∧ d * _ = c
    rw [NumberField.idiv_iff]
    simp
  idivR_iff c d s := NumberField.idiv_iff c d s
  imulZ_outcomes c n := .inl ⟨_, rfl⟩
  imulQ_outcomes c q := .inl ⟨_, rfl⟩
  imulR_outcomes c n := .inl ⟨_, rfl⟩
  idivZ_outcomes c n := NumberField.idiv_outcomes _ _
  idivQ_outcomes c q := NumberField.idiv_outcomes _ _
  idivR_outcomes c q := NumberField.idiv_outcomes _ _
  mem_of_mul {p c d q} hc h := by
    change c ∈ p.subfield at hc
    change d = c * algebraMap ℚ AlgReal q at h
    show d ∈ p.subfield
    rw [h]
    exact p.subfield.mul_mem hc (p.subfield.algebraMap_mem q)
  mem_of_div {p c d s} hc hs h0 h := by
    change c ∈ p.subfield at hc
    change s ∈ p.subfield at hs
    show d ∈ p.subfield
    rw [← div_eq_iff_comm h0] at h
    rw [← h]
    exact p.subfield.div_mem hc hs

end ExactReal
