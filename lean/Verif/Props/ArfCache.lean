import Verif.Model.ArfCache

/-!
# Caching of approximations is transparent and bounded (C39)
-/

namespace ExactReal

/-- All cached values are right, keys are not repeated and the maps are not too large. -/
structure Caches.Ok (atoms : Atoms) (σ : Caches) : Prop where
  arf54 : ∀ x v, (σ x).arf54 = some v → v = x.arf_ atoms 54
  arf64 : ∀ x v, (σ x).arf64 = some v → v = x.arf_ atoms 64
  large : ∀ x p v, (p, v) ∈ (σ x).large → v = x.arf_ atoms p
  nodup : ∀ x, ((σ x).large.map Prod.fst).Nodup
  bound : ∀ x, (σ x).large.length ≤ 128

/-- A computation returns `v`, keeps the caches right, and does not touch the numbers outside of `S`. -/
def Computes (atoms : Atoms) (S : RN → Prop) (f : Cached ℚ) (v : ℚ) : Prop :=
  ∀ σ, Caches.Ok atoms σ → (f σ).2 = v ∧ Caches.Ok atoms (f σ).1 ∧ ∀ x, ¬ S x → (f σ).1 x = σ x

theorem mem_of_lookup_eq {p : ℕ} {v : ℚ} {l : List (ℕ × ℚ)} (h : l.lookup p = some v) : (p, v) ∈ l := by
  induction l with
  | nil => simp at h
  | cons a l ih =>
    rcases a with ⟨q, w⟩
    rw [List.lookup_cons] at h
    by_cases hq : p = q
    · subst hq; simp only [beq_self_eq_true] at h; injection h with h; rw [h]; exact List.mem_cons_self
    · rw [beq_eq_false_iff_ne.2 hq] at h; exact List.mem_cons_of_mem _ (ih h)

theorem not_mem_of_lookup_none {p : ℕ} {l : List (ℕ × ℚ)} (h : l.lookup p = none) : p ∉ l.map Prod.fst := by
  induction l with
  | nil => simp
  | cons a l ih =>
    rcases a with ⟨q, w⟩
    rw [List.lookup_cons] at h
    by_cases hq : p = q
    · subst hq; simp at h
    · rw [beq_eq_false_iff_ne.2 hq] at h
      simp only [List.map_cons, List.mem_cons, not_or]
      exact ⟨hq, ih h⟩

theorem Caches.Ok.set {atoms : Atoms} {σ : Caches} (h : Caches.Ok atoms σ) {x : RN} {c : ArfCache}
    (h54 : ∀ v, c.arf54 = some v → v = x.arf_ atoms 54) (h64 : ∀ v, c.arf64 = some v → v = x.arf_ atoms 64)
    (hl : ∀ p v, (p, v) ∈ c.large → v = x.arf_ atoms p) (hn : (c.large.map Prod.fst).Nodup) (hb : c.large.length ≤ 128) :
    Caches.Ok atoms (σ.set x c) := by
  constructor <;> intro y <;> unfold Caches.set <;> split_ifs with hy
  · subst hy; exact h54
  · exact h.arf54 y
  · subst hy; exact h64
  · exact h.arf64 y
  · subst hy; exact hl
  · exact h.large y
  · exact hn
  · exact h.nodup y
  · exact hb
  · exact h.bound y

theorem arfCached_computes {atoms : Atoms} {S : RN → Prop} {x : RN} {prec : ℕ} {f : Cached ℚ} (hf : Computes atoms S f (x.arf_ atoms prec))
    (hx : ¬ S x) : Computes atoms (fun y => S y ∨ y = x) (arfCached x prec f) (x.arf_ atoms prec) := by
  intro σ h
  unfold arfCached
  have hset : ∀ (τ : Caches) c y, ¬ (S y ∨ y = x) → τ.set x c y = τ y := by
    intro τ c y hy; rw [not_or] at hy; simp only [Caches.set, if_neg hy.2]
  by_cases h1 : prec = 54
  · rw [if_pos h1]
    subst h1
    split
    · rename_i v hv
      exact ⟨h.arf54 x v hv, h, fun _ _ => rfl⟩
    · obtain ⟨e1, e2, e3⟩ := hf σ h
      refine ⟨e1, e2.set ?_ (fun v => e2.arf64 x v) (fun p v => e2.large x p v) (e2.nodup x) (e2.bound x), ?_⟩
      · intro v hv; injection hv with hv; rw [← hv, e1]
      · intro y hy; exact (hset _ _ _ hy).trans (e3 y (not_or.1 hy).1)
  rw [if_neg h1]
  by_cases h2 : prec = 64
  · rw [if_pos h2]
    subst h2
    split
    · rename_i v hv
      exact ⟨h.arf64 x v hv, h, fun _ _ => rfl⟩
    · obtain ⟨e1, e2, e3⟩ := hf σ h
      refine ⟨e1, e2.set (fun v => e2.arf54 x v) ?_ (fun p v => e2.large x p v) (e2.nodup x) (e2.bound x), ?_⟩
      · intro v hv; injection hv with hv; rw [← hv, e1]
      · intro y hy; exact (hset _ _ _ hy).trans (e3 y (not_or.1 hy).1)
  · rw [if_neg h2]
    split
    · rename_i v hv
      exact ⟨h.large x prec v (mem_of_lookup_eq hv), h, fun _ _ => rfl⟩
    · rename_i hv
      have hm := not_mem_of_lookup_none hv
      simp only
      generalize hσ' : (if (σ x).large.length ≥ 128 then σ.set x { σ x with large := [] } else σ) = σ'
      have hσ : Caches.Ok atoms σ' ∧ (σ' x).large.length < 128 ∧ prec ∉ (σ' x).large.map Prod.fst ∧ ∀ y, y ≠ x → σ' y = σ y := by
        rw [← hσ']
        split_ifs with hc
        · refine ⟨h.set (h.arf54 x) (h.arf64 x) (by simp) (by simp) (by simp), ?_, ?_, ?_⟩
          · simp [Caches.set]
          · simp [Caches.set]
          · intro y hy; simp [Caches.set, hy]
        · exact ⟨h, not_le.1 hc, hm, fun _ _ => rfl⟩
      obtain ⟨h', hb, hm', hy'⟩ := hσ
      obtain ⟨e1, e2, e3⟩ := hf σ' h'
      have ex := e3 x hx
      refine ⟨e1, e2.set (fun v => e2.arf54 x v) (fun v => e2.arf64 x v) ?_ ?_ ?_, ?_⟩
      · intro p v hp
        rw [List.mem_cons] at hp
        rcases hp with hp | hp
        · injection hp with h1 h2; rw [h2, h1, e1]
        · exact e2.large x p v hp
      · simp only [List.map_cons, List.nodup_cons]
        rw [ex]; rw [ex.symm] at hm' ⊢
        exact ⟨hm', e2.nodup x⟩
      · simp only [List.length_cons]; rw [ex]; exact hb
      · intro y hy
        exact ((hset _ _ _ hy).trans (e3 y (not_or.1 hy).1)).trans (hy' y (not_or.1 hy).2)

theorem computes_pure {atoms : Atoms} (v : ℚ) : Computes atoms (fun _ => False) (fun σ => (σ, v)) v := fun _ h => ⟨rfl, h, fun _ _ => rfl⟩

theorem Computes.mono {atoms : Atoms} {S T : RN → Prop} {f : Cached ℚ} {v : ℚ} (h : Computes atoms S f v) (hst : ∀ x, S x → T x) :
    Computes atoms T f v := fun σ hσ => ⟨(h σ hσ).1, (h σ hσ).2.1, fun x hx => (h σ hσ).2.2 x fun hs => hx (hst x hs)⟩

namespace Inner
variable {atoms : Atoms} (I : Inner atoms)

/-- An atom is not a product. -/
def IsAtom : RN → Prop
  | .atom _ => True
  | _ => False

theorem atomArf_computes (i prec : ℕ) : Computes atoms IsAtom (I.atomArf i prec) ((RN.atom i).arf_ atoms prec) := by
  unfold atomArf
  cases hi : atoms i with
  | random d =>
    refine (arfCached_computes (S := fun _ => False) ?_ (fun h => h)).mono ?_
    · have : (RN.atom i).arf_ atoms prec = d.arf prec := by simp only [RN.arf_, hi, Atom.arf]
      rw [this]; exact computes_pure _
    · rintro x (h | rfl)
      · exact h.elim
      · trivial
  | constrained m e d =>
    have hin := I.spec i m e d hi
    have hne : I.inner i ≠ i := fun h => by rw [h, hi] at hin; cases hin
    refine (arfCached_computes (S := fun y => y = RN.atom (I.inner i)) ?_ (fun h => hne (by injection h with h; exact h.symm))).mono ?_
    · intro σ h
      have hv : (RN.atom i).arf_ atoms prec = Atom.arfConstrained m e d prec := by simp only [RN.arf_, hi, Atom.arf]
      rw [hv, Atom.arfConstrained]
      simp only
      split_ifs with hc
      · have := arfCached_computes (x := .atom (I.inner i)) (prec := (((prec : ℤ) + 1) - Arf.bits (Arf.ofMantissaExponent m e) - 1).toNat)
          (f := fun σ => (σ, (atoms (I.inner i)).arf (((prec : ℤ) + 1) - Arf.bits (Arf.ofMantissaExponent m e) - 1).toNat))
          (computes_pure (atoms := atoms) _) (fun h => h) σ h
        obtain ⟨e1, e2, e3⟩ := this
        refine ⟨?_, e2, fun x hx => e3 x (by simpa using hx)⟩
        rw [e1]
        simp only [RN.arf_, hin, Atom.arf]
      · exact ⟨rfl, h, fun _ _ => rfl⟩
    · rintro x (rfl | rfl) <;> trivial

theorem mulLoop_computes (w i n : ℕ) (ret : ℚ) :
    Computes atoms IsAtom (I.mulLoop w i n ret) (ExactReal.mulLoop w ((atoms i).arf w) n ret) := by
  induction n generalizing ret with
  | zero => exact (computes_pure _).mono fun _ h => h.elim
  | succ n ih =>
    intro σ h
    obtain ⟨e1, e2, e3⟩ := I.atomArf_computes i w σ h
    rw [mulLoop, ExactReal.mulLoop]
    simp only
    obtain ⟨f1, f2, f3⟩ := ih (Arf.round .near w (ret * (I.atomArf i w σ).2)) _ e2
    refine ⟨?_, f2, fun x hx => (f3 x hx).trans (e3 x hx)⟩
    rw [f1, e1]; rfl

theorem prodLoop_computes (w : ℕ) (m : Mono) (ret : ℚ) : Computes atoms IsAtom (I.prodLoop w m ret) (ExactReal.prodLoop atoms w ret m) := by
  induction m generalizing ret with
  | nil => exact (computes_pure _).mono fun _ h => h.elim
  | cons p m ih =>
    rcases p with ⟨i, e⟩
    intro σ h
    obtain ⟨e1, e2, e3⟩ := I.mulLoop_computes w i e ret σ h
    rw [prodLoop, ExactReal.prodLoop, List.foldl_cons]
    simp only
    obtain ⟨f1, f2, f3⟩ := ih (I.mulLoop w i e ret σ).2 _ e2
    refine ⟨?_, f2, fun x hx => (f3 x hx).trans (e3 x hx)⟩
    rw [f1, e1]; rfl

theorem arf_computes (x : RN) (prec : ℤ) : Computes atoms (fun _ => True) (I.arf x prec) (x.arf atoms prec) := by
  unfold Inner.arf
  cases x with
  | rat q => exact (arfCached_computes (computes_pure _) (fun h => h)).mono fun _ _ => trivial
  | atom i => exact (I.atomArf_computes i prec.toNat).mono fun _ _ => trivial
  | prod m =>
    refine (arfCached_computes (x := .prod m) (S := IsAtom) ?_ (fun h => h)).mono fun _ _ => trivial
    intro σ h
    obtain ⟨e1, e2, e3⟩ := I.prodLoop_computes (workingPrec prec.toNat (m.map Prod.snd).sum) m 1 σ h
    refine ⟨?_, e2, e3⟩
    simp only [e1, RN.arf_]

end Inner

theorem ok_empty (atoms : Atoms) : Caches.Ok atoms fun _ => .empty := by
  constructor <;> intro x <;> simp [ArfCache.empty]

theorem Inner.calls_ok {atoms : Atoms} (I : Inner atoms) (cs : List (RN × ℤ)) {σ : Caches} (h : Caches.Ok atoms σ) :
    (I.calls cs σ).2 = cs.map (fun c => c.1.arf atoms c.2) ∧ Caches.Ok atoms (I.calls cs σ).1 := by
  induction cs generalizing σ with
  | nil => exact ⟨rfl, h⟩
  | cons c cs ih =>
    rcases c with ⟨x, prec⟩
    obtain ⟨e1, e2, -⟩ := I.arf_computes x prec σ h
    obtain ⟨f1, f2⟩ := ih e2
    rw [Inner.calls]
    exact ⟨by simp only [List.map_cons]; rw [f1, e1], f2⟩

namespace Props

/-- C39. In every sequence of calls of `arf`, for any numbers and precisions, every call returns what an uncached computation would return. -/
theorem cache_transparent {atoms : Atoms} (I : Inner atoms) (cs : List (RN × ℤ)) :
    (I.calls cs fun _ => .empty).2 = cs.map fun c => c.1.arf atoms c.2 :=
  (I.calls_ok cs (ok_empty atoms)).1

/-- C39. At any time, at most 130 approximations are kept for any number. -/
theorem cache_bounded {atoms : Atoms} (I : Inner atoms) (cs : List (RN × ℤ)) (x : RN) :
    (I.calls cs fun _ => .empty).1.kept x ≤ 130 := by
  have h := ((I.calls_ok cs (ok_empty atoms)).2).bound x
  have key : ∀ o : Option ℚ, o.toList.length ≤ 1 := by rintro (_ | _) <;> simp
  have h1 := key ((I.calls cs fun _ => .empty).1 x).arf54
  have h2 := key ((I.calls cs fun _ => .empty).1 x).arf64
  unfold Caches.kept
  omega

/-- A random number and numbers in `[m·2^-3, (m+1)·2^-3]` that share its digits. -/
example (d : Digits) (n : ℕ) : ∃ (atoms : Atoms) (I : Inner atoms), atoms 5 = .constrained 5 (-3) d ∧
    (I.calls ((List.range n).map fun k => (.prod [(0, 1), (5, 2)], (k : ℤ))) fun _ => .empty).2 =
      (List.range n).map fun k => (RN.prod [(0, 1), (5, 2)]).arf atoms (k : ℤ) := by
  refine ⟨fun i => if i = 0 then .random d else .constrained i (-3) d, ⟨fun _ => 0, ?_⟩, by simp, ?_⟩
  · intro i m e d' h
    split_ifs at h with hi
    · injection h with _ _ h; simp [h]
  · rw [cache_transparent]; simp

end Props

end ExactReal
