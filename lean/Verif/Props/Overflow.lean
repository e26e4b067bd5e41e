import Verif.Model.Overflow
import Verif.Lemma.RealNumber

/-!
# C54: the 32 bit exponents do not overflow below degree 2^31

`RN.toInt x` is the number `x` with its exponents stored as `int`s; `x.mult.degree` is the total degree (number of factors) of `x`.
-/

namespace ExactReal

/-- The list with its exponents stored as `int`s. -/
def Mono.toInt (m : Mono) : Mono32 := m.map fun p => (p.1, (p.2 : ℤ))

/-- The number with its exponents stored as `int`s. -/
def RN.toInt : RN → RN32
  | .rat q => .rat q
  | .atom i => .atom i
  | .prod m => .prod m.toInt

/-- Apply a function to the value of a call that returns. -/
def Out.lift {α β : Type _} (f : α → β) : Out α → Out β
  | .ok a => .ok (f a)
  | .throws e => .throws e
  | .abort => .abort
  | .ub => .ub
  | .pending => .pending

namespace Mono

/-- Sum of the exponents. -/
def deg (m : Mono) : ℕ := (m.map Prod.snd).sum

@[simp] theorem deg_nil : deg [] = 0 := rfl
@[simp] theorem deg_cons (p : ℕ × ℕ) (m : Mono) : deg (p :: m) = p.2 + deg m := by simp [deg]
@[simp] theorem toInt_nil : toInt [] = [] := rfl
@[simp] theorem toInt_cons (p : ℕ × ℕ) (m : Mono) : toInt (p :: m) = (p.1, (p.2 : ℤ)) :: toInt m := rfl

theorem toInt_injective : Function.Injective toInt := by
  apply List.map_injective_iff.2
  rintro ⟨a, b⟩ ⟨c, d⟩ h
  simpa using h

end Mono

theorem int32_ok {z : ℤ} (h : -2 ^ 31 ≤ z) (h' : z < 2 ^ 31) : int32 z = .ok z := if_pos ⟨h, h'⟩
theorem int32_nat {n : ℕ} (h : n < 2 ^ 31) : int32 (n : ℤ) = .ok (n : ℤ) := int32_ok (by omega) (by omega)
theorem int32_ub {n : ℕ} (h : 2 ^ 31 ≤ n) : int32 (n : ℤ) = .ub := if_neg (by omega)

namespace Mono32
open Mono

theorem merge_toInt (l r : Mono) (h : l.deg + r.deg < 2 ^ 31) : merge l.toInt r.toInt = .ok (l.merge r).toInt := by
  induction l, r using Mono.merge.induct with
  | case1 r => simp [merge]
  | case2 l hl => cases l with
    | nil => simp [merge]
    | cons p l => simp [merge]
  | case3 i a l j b r hij ih =>
    simp only [deg_cons] at h ih
    rw [Mono.merge, if_pos hij]
    simp only [toInt_cons] at ih ⊢
    rw [merge, if_pos hij, ih (by omega)]
    simp
  | case4 a l i b r hij ih =>
    simp only [deg_cons] at h
    rw [Mono.merge, if_neg hij, if_pos rfl]
    simp only [toInt_cons]
    rw [merge, if_neg hij, if_pos rfl, ← Nat.cast_add, int32_nat (by omega), ih (by omega)]
    simp
  | case5 i a l j b r hij hne ih =>
    simp only [deg_cons] at h ih
    rw [Mono.merge, if_neg hij, if_neg hne]
    simp only [toInt_cons] at ih ⊢
    rw [merge, if_neg hij, if_neg hne, ih (by omega)]
    simp

theorem square_toInt (m : Mono) (h : m.deg + m.deg < 2 ^ 31) : square m.toInt = .ok m.square.toInt := by
  induction m with
  | nil => rfl
  | cons p m ih =>
    simp only [deg_cons] at h
    rw [toInt_cons, square, show (p.2 : ℤ) * 2 = ((p.2 * 2 : ℕ) : ℤ) by simp, int32_nat (by omega), ih (by omega)]
    rfl

theorem keyEq_toInt (l r s : Mono) (h : l.deg + r.deg < 2 ^ 31) : keyEq l.toInt r.toInt s.toInt = .ok (Mono.keyEq l r s) := by
  induction s generalizing l r with
  | nil => cases l <;> cases r <;> simp [keyEq, Mono.keyEq]
  | cons q s ih =>
    obtain ⟨k, c⟩ := q
    cases l with
    | nil => cases r with
      | nil => simp [keyEq, Mono.keyEq]
      | cons p r =>
        obtain ⟨j, b⟩ := p
        simp only [deg_cons, deg_nil] at h
        have := ih [] r (by simp; omega)
        simp only [toInt_cons, toInt_nil, keyEq, Mono.keyEq] at this ⊢
        by_cases hc : j ≠ k ∨ b ≠ c
        · rw [if_pos hc, if_pos (by simpa using hc)]
        · rw [if_neg hc, if_neg (by simpa using hc), this]
    | cons p l =>
      obtain ⟨i, a⟩ := p
      cases r with
      | nil =>
        simp only [deg_cons, deg_nil] at h
        have := ih l [] (by simp; omega)
        simp only [toInt_cons, toInt_nil, keyEq, Mono.keyEq] at this ⊢
        by_cases hi : i < k
        · simp [hi]
        · rw [if_neg hi, if_neg hi]
          by_cases hc : i ≠ k ∨ a ≠ c
          · rw [if_pos hc, if_pos (by simpa using hc)]
          · rw [if_neg hc, if_neg (by simpa using hc), this]
      | cons p r =>
        obtain ⟨j, b⟩ := p
        simp only [deg_cons] at h
        have h1 := ih l r (by omega)
        have h2 := ih l ((j, b) :: r) (by simp; omega)
        have h3 := ih ((i, a) :: l) r (by simp; omega)
        simp only [toInt_cons, keyEq, Mono.keyEq] at h1 h2 h3 ⊢
        by_cases hi : i < k
        · simp [hi]
        rw [if_neg hi, if_neg hi]
        by_cases hj : j < k
        · simp [hj]
        rw [if_neg hj, if_neg hj]
        by_cases hc : i = k ∧ j = k
        · rw [if_pos hc, if_pos hc, ← Nat.cast_add, int32_nat (by omega), Out.ok_bind, h1]
          by_cases he : a + b = c
          · rw [if_neg (by exact_mod_cast not_not.2 he), if_neg (by simpa using he)]
          · rw [if_pos (by exact_mod_cast he), if_pos (by simpa using he)]
        rw [if_neg hc, if_neg hc, h2, h3]
        by_cases hik : i = k
        · rw [if_pos hik, if_pos hik]
          by_cases he : a = c <;> simp [he]
        rw [if_neg hik, if_neg hik]
        by_cases hjk : j = k
        · rw [if_pos hjk, if_pos hjk]
          by_cases he : b = c <;> simp [he]
        rw [if_neg hjk, if_neg hjk]

theorem powLoop_toNat (n : ℕ) : ∀ (hn : n < 2 ^ 64) (result base : UInt64),
    powLoop result base (UInt64.ofNat n) = Mono.powLoop result base n := by
  induction n using Nat.strong_induction_on with
  | _ n ih =>
    intro hn result base
    rw [powLoop, Mono.powLoop]
    have hz : UInt64.ofNat n = 0 ↔ n = 0 := by
      rw [← UInt64.toNat_inj, UInt64.toNat_ofNat']
      rw [Nat.mod_eq_of_lt hn]
      rfl
    by_cases h : n = 0
    · rw [dif_pos (hz.2 h), dif_pos h]
    · rw [dif_neg (fun h' => h (hz.1 h')), dif_neg h]
      have hs : UInt64.ofNat n >>> 1 = UInt64.ofNat (n / 2) := by
        rw [← UInt64.toNat_inj, UInt64.toNat_shiftRight, UInt64.toNat_ofNat', UInt64.toNat_ofNat', Nat.mod_eq_of_lt hn,
          Nat.mod_eq_of_lt (lt_of_le_of_lt (Nat.div_le_self n 2) hn)]
        exact Nat.shiftRight_eq_div_pow n 1
      have hb : (UInt64.ofNat n &&& 1 ≠ 0) ↔ n % 2 = 1 := by
        rw [ne_eq, ← UInt64.toNat_inj, UInt64.toNat_and, UInt64.toNat_ofNat', Nat.mod_eq_of_lt hn]
        have : n &&& 1 = n % 2 := Nat.and_one_is_mod n
        simp only [UInt64.toNat_one, UInt64.toNat_zero, this]
        omega
      rw [hs, ih (n / 2) (Nat.div_lt_self (Nat.pos_of_ne_zero h) (by decide)) (by omega)]
      congr 1
      by_cases h2 : n % 2 = 1
      · rw [if_pos (hb.2 h2), if_pos h2]
      · rw [if_neg (fun h' => h2 (hb.1 h')), if_neg h2]

theorem ofInt_nat (n : ℕ) : UInt64.ofInt (n : ℤ) = UInt64.ofNat n := by
  rw [UInt64.ofInt, ← UInt64.toNat_inj, UInt64.toNat_ofNat', UInt64.toNat_ofNat']
  omega

theorem hash_toInt (m : Mono) (h : m.deg < 2 ^ 31) : hash m.toInt = m.hash := by
  unfold hash Mono.hash
  suffices H : ∀ acc : UInt64, m.toInt.foldl (fun h p => h * powLoop 1 (UInt64.ofNat p.1) (UInt64.ofInt p.2)) acc =
      m.foldl (fun h p => h * pow64 (UInt64.ofNat p.1) p.2) acc from H 1
  intro acc
  induction m generalizing acc with
  | nil => rfl
  | cons p m ih =>
    simp only [deg_cons] at h
    rw [toInt_cons, List.foldl_cons, List.foldl_cons, ih (by omega), ofInt_nat, powLoop_toNat _ (by omega)]
    rfl

theorem divLoop_toInt (l r : Mono) (h : l.deg < 2 ^ 31) : divLoop l.toInt r.toInt = .ok ((Mono.divLoop l r).map Mono.toInt) := by
  induction l, r using Mono.divLoop.induct with
  | case1 l => cases l <;> simp [divLoop, Mono.divLoop]
  | case2 p r => simp [divLoop, Mono.divLoop]
  | case3 i a l j b r hij ih =>
    simp only [deg_cons] at h
    rw [Mono.divLoop, if_pos hij]
    simp only [toInt_cons] at ih ⊢
    rw [divLoop, if_pos hij, ih (by omega)]
    simp [Option.map_map, Function.comp_def]
  | case4 i a l j b r hij hji =>
    rw [Mono.divLoop, if_neg hij, if_pos hji]
    simp only [toInt_cons]
    rw [divLoop, if_neg hij, if_pos hji]
    rfl
  | case5 i a l j b r hij hji hba =>
    rw [Mono.divLoop, if_neg hij, if_neg hji, if_pos hba]
    simp only [toInt_cons]
    rw [divLoop, if_neg hij, if_neg hji, if_pos (by exact_mod_cast hba)]
    rfl
  | case6 i a l j b r hij hji hba ih =>
    simp only [deg_cons] at h
    rw [Mono.divLoop, if_neg hij, if_neg hji, if_neg hba]
    simp only [toInt_cons]
    rw [divLoop, if_neg hij, if_neg hji, if_neg (by exact_mod_cast hba), show (a : ℤ) - b = ((a - b : ℕ) : ℤ) by omega,
      int32_nat (by omega), ih (by omega)]
    simp [Option.map_map, Function.comp_def]

theorem divAtom_toInt (j : ℕ) (l : Mono) (hl : ∀ p ∈ l, 0 < p.2) (h : l.deg < 2 ^ 31) :
    divAtom j l.toInt = .ok ((Mono.divAtom j l).map Mono.toInt) := by
  induction l with
  | nil => rfl
  | cons p l ih =>
    simp only [deg_cons] at h
    have hp := hl p (by simp)
    by_cases hij : p.1 = j
    · rw [toInt_cons, divAtom, if_pos hij, show (p.2 : ℤ) - 1 = ((p.2 - 1 : ℕ) : ℤ) by omega, int32_nat (by omega), Mono.divAtom,
        if_pos hij]
      rfl
    · rw [toInt_cons, divAtom, if_neg hij, ih (fun q hq => hl q (by simp [hq])) (by omega), Mono.divAtom, if_neg hij]
      simp [Option.map_map, Function.comp_def]

theorem dropZeros_toInt (m : Mono) : dropZeros m.toInt = m.dropZeros.toInt := by
  unfold dropZeros Mono.dropZeros Mono.toInt
  rw [List.filter_map]
  congr 1
  apply List.filter_congr
  intro p _
  simp

theorem degreeLoop_toInt (d : ℕ) (m : Mono) (h : d + m.deg < 2 ^ 31) : degreeLoop d m.toInt = .ok ((d + m.deg : ℕ) : ℤ) := by
  induction m generalizing d with
  | nil => simp [degreeLoop]
  | cons p m ih =>
    simp only [deg_cons] at h
    rw [toInt_cons, degreeLoop, ← Nat.cast_add, int32_nat (by omega), Out.ok_bind, ih _ (by omega), deg_cons, Nat.add_assoc]

theorem degreeLoop_ub (d : ℕ) (m : Mono) (h : 2 ^ 31 ≤ d + m.deg) (hd : d < 2 ^ 31) : degreeLoop d m.toInt = .ub := by
  induction m generalizing d with
  | nil => simp at h; omega
  | cons p m ih =>
    simp only [deg_cons] at h
    rw [toInt_cons, degreeLoop, ← Nat.cast_add]
    by_cases hp : d + p.2 < 2 ^ 31
    · rw [int32_nat hp, Out.ok_bind, ih _ (by omega) hp]
    · rw [int32_ub (by omega)]
      rfl

theorem deglexLoop_toInt (l r : Mono) : deglexLoop l.toInt r.toInt = Mono.deglexLoop l r := by
  induction l generalizing r with
  | nil => cases r <;> rfl
  | cons p l ih =>
    cases r with
    | nil => rfl
    | cons q r => simp [deglexLoop, Mono.deglexLoop, ih]

theorem deglex_toInt (l r : Mono) (hl : l.deg < 2 ^ 31) (hr : r.deg < 2 ^ 31) : deglex l.toInt r.toInt = Mono.deglex l r := by
  unfold deglex Mono.deglex totalDegree
  have h1 := degreeLoop_toInt 0 l (by omega)
  have h2 := degreeLoop_toInt 0 r (by omega)
  simp only [Nat.cast_zero, Nat.zero_add] at h1 h2
  rw [h1, h2, Out.ok_bind, Out.ok_bind, Mono.totalDegree_eq, Mono.totalDegree_eq, deglexLoop_toInt]
  change _ = if l.deg ≠ r.deg then _ else _
  by_cases h : l.deg = r.deg
  · rw [if_neg (by simpa using h), if_neg (by simpa using h)]
  · rw [if_pos (by exact_mod_cast h), if_pos h]
    change _ = Out.ok (decide (l.deg < r.deg))
    simp

/-- All exponents fit. -/
def Fits (m : Mono) : Prop := ∀ p ∈ m, p.2 < 2 ^ 31

instance (m : Mono) : Decidable (Fits m) := inferInstanceAs (Decidable (∀ p ∈ m, p.2 < 2 ^ 31))

theorem fits_cons {p : ℕ × ℕ} {m : Mono} : Fits (p :: m) ↔ p.2 < 2 ^ 31 ∧ Fits m := by simp [Fits]

theorem merge_eq (l r : Mono) (hl : Fits l) (hr : Fits r) :
    merge l.toInt r.toInt = if Fits (l.merge r) then .ok (l.merge r).toInt else .ub := by
  induction l, r using Mono.merge.induct with
  | case1 r => simp [merge, hr]
  | case2 l _ => cases l with
    | nil => simp [merge, hl]
    | cons p l => simp [merge, hl]
  | case3 i a l j b r hij ih =>
    have hl' := fits_cons.1 hl
    rw [Mono.merge, if_pos hij]
    have := ih hl'.2 hr
    simp only [toInt_cons] at this ⊢
    rw [merge, if_pos hij, this]
    by_cases hf : Fits (Mono.merge l ((j, b) :: r))
    · rw [if_pos hf, if_pos (fits_cons.2 ⟨hl'.1, hf⟩)]
      rfl
    · rw [if_neg hf, if_neg fun h => hf (fits_cons.1 h).2]
      rfl
  | case4 a l i b r hij ih =>
    have hl' := fits_cons.1 hl
    have hr' := fits_cons.1 hr
    rw [Mono.merge, if_neg hij, if_pos rfl]
    simp only [toInt_cons]
    rw [merge, if_neg hij, if_pos rfl, ← Nat.cast_add, ih hl'.2 hr'.2]
    by_cases hab : a + b < 2 ^ 31
    · rw [int32_nat hab, Out.ok_bind]
      by_cases hf : Fits (Mono.merge l r)
      · rw [if_pos hf, if_pos (fits_cons.2 ⟨hab, hf⟩)]
        rfl
      · rw [if_neg hf, if_neg fun h => hf (fits_cons.1 h).2]
        rfl
    · rw [int32_ub (by omega), if_neg fun h => hab (fits_cons.1 h).1]
      rfl
  | case5 i a l j b r hij hne ih =>
    have hr' := fits_cons.1 hr
    rw [Mono.merge, if_neg hij, if_neg hne]
    have := ih hl hr'.2
    simp only [toInt_cons] at this ⊢
    rw [merge, if_neg hij, if_neg hne, this]
    by_cases hf : Fits (Mono.merge ((i, a) :: l) r)
    · rw [if_pos hf, if_pos (fits_cons.2 ⟨hr'.1, hf⟩)]
      rfl
    · rw [if_neg hf, if_neg fun h => hf (fits_cons.1 h).2]
      rfl

theorem square_eq (m : Mono) : square m.toInt = if Fits m.square then .ok m.square.toInt else .ub := by
  induction m with
  | nil => simp [square, Mono.square, Fits]
  | cons p m ih =>
    have e : Mono.square (p :: m) = (p.1, p.2 * 2) :: Mono.square m := rfl
    rw [toInt_cons, square, show (p.2 : ℤ) * 2 = ((p.2 * 2 : ℕ) : ℤ) by simp, ih, e]
    by_cases h : p.2 * 2 < 2 ^ 31
    · rw [int32_nat h, Out.ok_bind]
      by_cases hf : Fits (Mono.square m)
      · rw [if_pos hf, if_pos (fits_cons.2 ⟨h, hf⟩)]
        rfl
      · rw [if_neg hf, if_neg fun h => hf (fits_cons.1 h).2]
        rfl
    · rw [int32_ub (by omega), if_neg fun h' => h (fits_cons.1 h').1]
      rfl

theorem fits_iff {m : Mono} (h : m.Canon) : Fits m ↔ ∀ i, m.mult i < 2 ^ 31 := by
  constructor
  · intro hf i
    induction m with
    | nil => simp
    | cons p m ih =>
      by_cases hi : i = p.1
      · subst hi
        rw [mult_head h]
        exact (fits_cons.1 hf).1
      · rw [mult_cons, Finsupp.add_apply, Finsupp.single_apply, if_neg (Ne.symm hi), Nat.zero_add]
        exact ih h.tail (fits_cons.1 hf).2
  · intro hm
    induction m with
    | nil => simp [Fits]
    | cons p m ih =>
      refine fits_cons.2 ⟨?_, ih h.tail fun i => ?_⟩
      · have := hm p.1
        rwa [mult_head h] at this
      · have := hm i
        rw [mult_cons, Finsupp.add_apply] at this
        omega

end Mono32

namespace RN32
open Mono

theorem toInt_injective : Function.Injective RN.toInt := by
  rintro (x | x | x) (y | y | y) h <;> simp [RN.toInt] at h <;> simp_all
  exact Mono.toInt_injective h

theorem toInt_eq_iff (x y : RN) : x.toInt = y.toInt ↔ x = y := toInt_injective.eq_iff

theorem factors_toInt (x : RN) : x.toInt.factors = x.factors.toInt := by
  cases x <;> rfl

theorem rebuild_toInt (m : Mono) : rebuild m.toInt = (RN.rebuild m).toInt := by
  unfold rebuild RN.rebuild
  rw [Mono32.dropZeros_toInt]
  rcases m.dropZeros with _ | ⟨⟨i, a⟩, _ | ⟨q, r⟩⟩
  · rfl
  · by_cases ha : a = 1
    · subst ha; rfl
    · have : (a : ℤ) ≠ 1 := by exact_mod_cast ha
      simp only [toInt_cons, toInt_nil]
      split
      · simp_all
      · rename_i h; simp at h; omega
      · split
        · simp_all
        · rename_i h; simp at h; omega
        · rfl
  · simp only [toInt_cons]
    rfl

theorem deg_factors (x : RN) : x.factors.deg = x.mult.degree := by
  rw [Mono.deg, Mono.degree_eq, RN.factors_mult]

open Classical in
theorem persist_eq {x y : RN} (hx : x.WF) (hy : y.WF) (rx : x.isRat = false) (bx : ∀ i, x.mult i < 2 ^ 31) (by_ : ∀ i, y.mult i < 2 ^ 31) :
    persist x.toInt y.toInt = if ∀ i, x.mult i + y.mult i < 2 ^ 31 then .ok (RN.persist x y).toInt else .ub := by
  obtain ⟨m, hm⟩ := RN.persist_isProd x y rx
  have hc := RN.persist_canon hx hy hm
  have hmult := RN.persist_mult x y rx
  rw [hm, RN.mult_prod] at hmult
  have hfit : Mono32.Fits m ↔ ∀ i, x.mult i + y.mult i < 2 ^ 31 := by
    rw [Mono32.fits_iff hc, hmult]
    rfl
  have hcanon : ∀ z : RN, z.WF → z.factors.Canon := by
    rintro (q | i | n) hz
    · exact Mono.Canon.nil
    · exact ⟨by simp [RN.factors], by simp [RN.factors]⟩
    · exact hz.1
  have hfx : ∀ z : RN, z.WF → (∀ i, z.mult i < 2 ^ 31) → Mono32.Fits z.factors := fun z hz b =>
    (Mono32.fits_iff (hcanon z hz)).2 (by rw [RN.factors_mult]; exact b)
  unfold persist RN.persist at *
  by_cases hxy : x = y
  · subst hxy
    rw [if_pos rfl] at hm ⊢
    rw [if_pos rfl]
    cases x with
    | rat q => simp [RN.isRat, RN.rational?] at rx
    | atom i =>
      rw [if_pos]
      · rfl
      · intro j
        rw [RN.mult_atom, Finsupp.single_apply]
        split <;> norm_num
    | prod n =>
      simp only [RN.prod.injEq] at hm
      subst hm
      simp only [RN.toInt]
      rw [Mono32.square_eq]
      by_cases hf : Mono32.Fits n.square
      · rw [if_pos hf, if_pos (hfit.1 hf)]
        rfl
      · rw [if_neg hf, if_neg fun h => hf (hfit.2 h)]
        rfl
  · rw [if_neg hxy] at hm ⊢
    rw [if_neg fun h => hxy (toInt_injective h), factors_toInt, factors_toInt, Mono32.merge_eq _ _ (hfx x hx bx) (hfx y hy by_)]
    simp only [RN.prod.injEq] at hm
    rw [hm]
    by_cases hf : Mono32.Fits m
    · rw [if_pos hf, if_pos (hfit.1 hf)]
      rfl
    · rw [if_neg hf, if_neg fun h => hf (hfit.2 h)]
      rfl

end RN32

namespace Props

open Classical in
/-- C54, multiplication, exactly: for two numbers that do not overflow themselves, `x * y` with `int` exponents has undefined behaviour
if and only if neither of them is rational and some atom occurs at least 2^31 times in the product; otherwise it does what unbounded
arithmetic does. -/
theorem mul_overflow {x y : RN} (hx : x.WF) (hy : y.WF) (bx : ∀ i, x.mult i < 2 ^ 31) (by_ : ∀ i, y.mult i < 2 ^ 31) :
    x.toInt.mul y.toInt = if ∀ i, x.mult i + y.mult i < 2 ^ 31 then (x.mul y).lift RN.toInt else .ub := by
  have hr : ∀ (q : ℚ) (z : RN), RN32.ratMul q z.toInt = (RN.ratMul q z).lift RN.toInt := by
    rintro q (p | i | m) <;> by_cases hq : q = 1 <;> simp [RN32.ratMul, RN.ratMul, RN.toInt, Out.lift, hq]
  cases x with
  | rat q => rw [if_pos (by simpa using by_)]; exact hr q y
  | atom i => cases y with
    | rat q => rw [if_pos (by simpa using bx)]; exact hr q _
    | atom j => exact RN32.persist_eq hx hy rfl bx by_
    | prod n => exact RN32.persist_eq hx hy rfl bx by_
  | prod m => cases y with
    | rat q => rw [if_pos (by simpa using bx)]; exact hr q _
    | atom j => exact RN32.persist_eq hx hy rfl bx by_
    | prod n => exact RN32.persist_eq hx hy rfl bx by_

/-- C54, multiplication: as long as the total degree of the product is below 2^31 there is no overflow and the result is the one
of unbounded arithmetic. -/
theorem mul_no_overflow {x y : RN} (hx : x.WF) (hy : y.WF) (h : x.mult.degree + y.mult.degree < 2 ^ 31) :
    x.toInt.mul y.toInt = (x.mul y).lift RN.toInt := by
  have hle : ∀ (f : ℕ →₀ ℕ) i, f i ≤ f.degree := fun f i => Finsupp.le_degree i f
  rw [mul_overflow hx hy (fun i => by have := hle x.mult i; omega) (fun i => by have := hle y.mult i; omega), if_pos]
  intro i
  have := hle x.mult i
  have := hle y.mult i
  omega

/-- C54, lookup: comparing a product to be computed with a stored one in the cache does not overflow either. -/
theorem keyEq_no_overflow (x y : RN) (stored : Mono) (h : x.mult.degree + y.mult.degree < 2 ^ 31) :
    Mono32.keyEq x.toInt.factors y.toInt.factors stored.toInt = .ok (RN.keyMatches x y stored) := by
  rw [RN32.factors_toInt, RN32.factors_toInt, Mono32.keyEq_toInt _ _ _ (by rwa [RN32.deg_factors, RN32.deg_factors])]
  rfl

/-- C54, division. -/
theorem div_no_overflow {x : RN} (y : RN) (hx : x.WF) (h : x.mult.degree < 2 ^ 31) :
    x.toInt.div y.toInt = (x.div y).lift (Option.map RN.toInt) := by
  have hb : ∀ q : Option Mono, (Option.map RN32.rebuild (q.map Mono.toInt)) = Option.map RN.toInt (q.map RN.rebuild) := by
    rintro (_ | q)
    · rfl
    · simp [RN32.rebuild_toInt]
  have hone : (1 : ℚ) = 1 := rfl
  cases x with
  | rat q => cases y with
    | rat p =>
      simp only [RN.toInt, RN32.div, RN.div, RN32.rat.injEq, RN.rat.injEq]
      split_ifs <;> rfl
    | atom j => rfl
    | prod n => rfl
  | atom i => cases y with
    | rat p => 
      simp only [RN.toInt, RN32.div, RN.div, reduceCtorEq, if_false]
      split_ifs <;> rfl
    | atom j =>
      simp only [RN.toInt, RN32.div, RN.div, RN32.atom.injEq, RN.atom.injEq]
      split_ifs <;> rfl
    | prod n => rfl
  | prod m =>
    have hd : m.deg < 2 ^ 31 := by
      rw [Mono.deg, Mono.degree_eq]; exact h
    cases y with
    | rat p =>
      simp only [RN.toInt, RN32.div, RN.div]
      split_ifs <;> rfl
    | atom j =>
      simp only [RN.toInt, RN32.div, RN.div]
      rw [Mono32.divAtom_toInt j m hx.1.pos hd, Out.ok_bind, hb]
      rfl
    | prod n =>
      simp only [RN.toInt, RN32.div, RN.div]
      rw [Mono32.divLoop_toInt m n hd, Out.ok_bind, hb]
      rfl

/-- C54, hashing. -/
theorem hash_no_overflow {m : Mono} (h : (RN.prod m).mult.degree < 2 ^ 31) : Mono32.hash m.toInt = m.hash :=
  Mono32.hash_toInt m (by rw [Mono.deg, Mono.degree_eq]; exact h)

/-- C54, comparison. -/
theorem deglex_no_overflow (x y : RN) (hx : x.mult.degree < 2 ^ 31) (hy : y.mult.degree < 2 ^ 31) :
    x.toInt.deglex y.toInt = x.deglex y := by
  unfold RN32.deglex RN.deglex
  by_cases hxy : x = y
  · rw [if_pos hxy, if_pos (by rw [hxy])]
  rw [if_neg hxy, if_neg fun h => hxy (RN32.toInt_injective h)]
  cases x with
  | rat q => cases y <;> rfl
  | atom i => cases y <;> rfl
  | prod m => cases y with
    | rat q => rfl
    | atom i => rfl
    | prod n => exact Mono32.deglex_toInt m n (by rw [Mono.deg, Mono.degree_eq]; exact hx) (by rw [Mono.deg, Mono.degree_eq]; exact hy)

/-- C54, total degree (also used to choose the precision of approximations): it is correct below 2^31 and undefined from 2^31 on. -/
theorem totalDegree_overflow (m : Mono) :
    Mono32.totalDegree m.toInt = if m.mult.degree < 2 ^ 31 then .ok (m.mult.degree : ℤ) else .ub := by
  have hd : m.deg = m.mult.degree := by rw [Mono.deg, Mono.degree_eq]
  by_cases h : m.mult.degree < 2 ^ 31
  · have := Mono32.degreeLoop_toInt 0 m (by omega)
    rw [if_pos h, ← hd]
    simpa [Mono32.totalDegree] using this
  · rw [if_neg h]
    exact Mono32.degreeLoop_ub 0 m (by omega) (by norm_num)

/-- Squaring a number `n` times. -/
theorem squarings_eq (i : ℕ) (n : ℕ) (hn : n < 30) : (RN32.atom i).squarings (n + 1) = .ok (.prod [(i, 2 ^ (n + 1))]) := by
  induction n with
  | zero => simp [RN32.squarings, RN32.mul, RN32.persist]
  | succ n ih =>
    rw [RN32.squarings, ih (by omega), Out.ok_bind]
    have hlt : (2 : ℤ) ^ (n + 1) * 2 < 2 ^ 31 := by
      rw [← pow_succ]
      exact pow_lt_pow_right₀ (by norm_num) (by omega)
    have hpos : (0 : ℤ) < 2 ^ (n + 1) := by positivity
    simp only [RN32.mul, RN32.persist, if_true, Mono32.square]
    rw [int32_ok (by omega) hlt]
    simp [pow_succ]

/-- The bound is sharp and within reach: a client that squares a random number 30 times is fine, the next squaring overflows. -/
theorem squaring_overflows (i : ℕ) :
    (RN32.atom i).squarings 30 = .ok (.prod [(i, 2 ^ 30)]) ∧ (RN32.atom i).squarings 31 = .ub := by
  have h := squarings_eq i 29 (by norm_num)
  refine ⟨h, ?_⟩
  rw [RN32.squarings, h, Out.ok_bind]
  simp only [RN32.mul, RN32.persist, if_true, Mono32.square]
  rw [int32, if_neg (by norm_num)]
  rfl

/-- Also without any exponent overflowing: for `z = x^(2^30) * y^(2^30)` the product is still computed but comparing it overflows. -/
theorem degree_overflows (i j : ℕ) (hij : i < j) :
    (RN32.prod [(i, 2 ^ 30)]).mul (.prod [(j, 2 ^ 30)]) = .ok (.prod [(i, 2 ^ 30), (j, 2 ^ 30)]) ∧
    ∀ k, k ≠ i → (RN32.prod [(i, 2 ^ 30), (j, 2 ^ 30)]).deglex (.prod [(k, 2)]) = .ub := by
  constructor
  · simp [RN32.mul, RN32.persist, RN32.factors, Mono32.merge, hij, hij.ne]
  · intro k hk
    simp [RN32.deglex, Mono32.deglex, Mono32.totalDegree, Mono32.degreeLoop, int32]

/-- The hypotheses of the theorems above are met by large numbers, e.g., of degree 2^30 + 1 and 2^30 - 2. -/
example : ∃ x y : RN, x.WF ∧ y.WF ∧ x.mult.degree + y.mult.degree = 2 ^ 31 - 1 ∧ x.mult 3 = 2 ^ 30 :=
  ⟨.prod [(3, 2 ^ 30), (5, 1)], .prod [(3, 2 ^ 30 - 3), (7, 1)], ⟨⟨by simp, by simp⟩, by simp⟩, ⟨⟨by simp, by simp⟩, by simp⟩,
    by simp [Finsupp.degree_single], by simp⟩

end Props

end ExactReal
