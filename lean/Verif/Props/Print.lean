import Verif.Props.Rand48
import Verif.Lemma.TrueDiv
import Verif.Props.Module
import Verif.Props.ElementOrderFails
import Verif.Spec.Print

/-!
# C61: printing elements
-/

namespace ExactReal.Props

open Print

/-! ### Sets -/

section
variable {T : Type} {lt : T → T → Out Bool}

theorem setInsert_ok {x : T} : ∀ {l : List T}, (∀ y ∈ l, ∃ a b, lt x y = .ok a ∧ lt y x = .ok b ∧ (a || b) = true) →
    ∃ l', setInsert lt x l = .ok l' ∧ l'.Perm (x :: l)
  | [], _ => ⟨[x], rfl, .refl _⟩
  | y :: ys, h => by
    obtain ⟨a, b, ha, hb, hab⟩ := h y (by simp)
    cases a with
    | true => exact ⟨x :: y :: ys, by simp [setInsert, ha], .refl _⟩
    | false =>
      obtain rfl : b = true := by simpa using hab
      obtain ⟨l', h1, h2⟩ := setInsert_ok (l := ys) fun z hz => h z (by simp [hz])
      exact ⟨y :: l', by simp [setInsert, ha, hb, h1], (h2.cons y).trans (List.Perm.swap x y ys)⟩

theorem setInsert_sorted {r : T → T → Prop} (htr : ∀ a b c, r a b → r b c → r a c) {x : T} : ∀ {l l' : List T},
    (∀ y ∈ l, (lt x y = .ok true → r x y) ∧ (lt y x = .ok true → r y x)) → l.Pairwise r → setInsert lt x l = .ok l' →
    (∀ z ∈ l', z = x ∨ z ∈ l) ∧ l'.Pairwise r
  | [], l', _, _, h => by
    cases h; simp
  | y :: ys, l', hr, hs, h => by
    rw [setInsert] at h
    obtain ⟨a, ha, h⟩ := Out.bind_eq_ok.1 h
    rw [List.pairwise_cons] at hs
    cases a with
    | true =>
      rw [if_pos rfl] at h
      cases h
      have hxy := (hr y (by simp)).1 ha
      refine ⟨by simp, ?_⟩
      rw [List.pairwise_cons, List.pairwise_cons]
      refine ⟨fun z hz => ?_, hs⟩
      rcases List.mem_cons.1 hz with rfl | hz
      · exact hxy
      · exact htr _ _ _ hxy (hs.1 z hz)
    | false =>
      rw [if_neg (by simp)] at h
      obtain ⟨b, hb, h⟩ := Out.bind_eq_ok.1 h
      cases b with
      | true =>
        rw [if_pos rfl] at h
        obtain ⟨l1, h1, h2⟩ := Out.bind_eq_ok.1 h
        cases h2
        obtain ⟨i1, i2⟩ := setInsert_sorted htr (fun z hz => hr z (by simp [hz])) hs.2 h1
        refine ⟨fun z hz => ?_, List.pairwise_cons.2 ⟨fun z hz => ?_, i2⟩⟩
        · rcases List.mem_cons.1 hz with rfl | hz
          · simp
          · rcases i1 z hz with h | h
            · exact .inl h
            · exact .inr (by simp [h])
        · rcases i1 z hz with rfl | h
          · exact (hr y (by simp)).2 hb
          · exact hs.1 z h
      | false =>
        rw [if_neg (by simp)] at h
        cases h
        exact ⟨fun z hz => .inr hz, List.pairwise_cons.2 hs⟩

end

variable {P : Type} [DecidableEq P] {R : Type} [CommRing R] [DecidableEq R] [CRing P R]

omit [CRing P R] [DecidableEq P] [DecidableEq R] in
theorem gen_singleton (ring : P) (g : RN) : (⟨ring, [g]⟩ : Mod P).gen 0 = .ok (genElt ring g : Elt P R) := rfl

/-- The entry of the set that belongs to a term. -/
def entry (ring : P) (coeffLt : R → R → Bool) (t : RN × R) : Entry P R := ⟨coeffLt t.2 0, genElt ring t.1, t.2⟩

variable {eltLt : Elt P R → Elt P R → Out Bool} {coeffLt : R → R → Bool} {ring : P}

omit [DecidableEq P] [DecidableEq R] [CRing P R] in
theorem entry_lt {s t : RN × R} {a b : Bool} (h1 : eltLt (genElt ring s.1) (genElt ring t.1) = .ok a)
    (h2 : eltLt (genElt ring t.1) (genElt ring s.1) = .ok b) (hab : (a || b) = true) :
    (∃ c d, Entry.lt eltLt coeffLt (entry ring coeffLt s) (entry ring coeffLt t) = .ok c ∧
      Entry.lt eltLt coeffLt (entry ring coeffLt t) (entry ring coeffLt s) = .ok d ∧ (c || d) = true) := by
  simp only [Entry.lt, entry, h1, h2, Out.ok_bind]
  generalize coeffLt s.2 0 = m
  generalize coeffLt t.2 0 = n
  cases m <;> cases n <;> cases a <;> cases b <;> simp_all

omit [CRing P R] [DecidableEq P] [DecidableEq R] in
theorem fill_ok : ∀ {ts us : List (RN × R)} {l : List (Entry P R)}, Comparable ring eltLt ((us ++ ts).map Prod.fst) → l.Perm (us.map (entry ring coeffLt)) →
    ∃ l', fill ring eltLt coeffLt ts l = .ok l' ∧ l'.Perm ((us ++ ts).map (entry ring coeffLt))
  | [], us, l, _, hl => ⟨l, rfl, by simpa using hl⟩
  | t :: ts, us, l, h, hl => by
    have hc : ∀ y ∈ l, ∃ c d, Entry.lt eltLt coeffLt (entry ring coeffLt t) y = .ok c ∧ Entry.lt eltLt coeffLt y (entry ring coeffLt t) = .ok d ∧
        (c || d) = true := by
      intro y hy
      obtain ⟨u, hu, rfl⟩ := List.mem_map.1 (hl.mem_iff.1 hy)
      rw [Comparable, List.map_append, List.pairwise_append] at h
      obtain ⟨a, b, h1, h2, h3⟩ := h.2.2 u.1 (List.mem_map_of_mem hu) t.1 (by simp)
      exact entry_lt h2 h1 (by rwa [Bool.or_comm])
    obtain ⟨l1, h1, h2⟩ := setInsert_ok hc
    have e : us ++ t :: ts = (us ++ [t]) ++ ts := by simp
    rw [e] at h ⊢
    obtain ⟨l', h3, h4⟩ := fill_ok (us := us ++ [t]) (l := l1) h (by
      rw [List.map_append]
      exact h2.trans ((hl.cons _).trans (by simpa using (List.perm_append_singleton _ _).symm)))
    refine ⟨l', ?_, h4⟩
    rw [fill]
    simp only [Elt.make_singleton, Out.ok_bind, gen_singleton]
    show (setInsert _ (entry ring coeffLt t) l >>= _) = _
    rw [h1, Out.ok_bind, h3]

omit [CRing P R] [DecidableEq P] in
theorem writeTerm_term (c : R) (g : RN) : Tok.Term (writeTerm c g) g c := by
  unfold writeTerm
  by_cases h : c = 1
  · subst h
    rw [if_neg (by simp)]; exact .gen g
  · rw [if_pos h]
    by_cases hg : g = .rat 1
    · subst hg
      rw [if_neg (by simp)]; exact .num c
    · rw [if_pos hg]; exact .mul c g

/-- The terms of a list of entries. -/
def written (us : List (RN × R)) : List (RN × R) := us.filter fun t => t.2 ≠ 0

omit [CRing P R] [DecidableEq P] in
theorem write_false : ∀ (us : List (RN × R)) {s : List (Tok R)} {ts : List (RN × R)}, Tok.Sum s ts →
    ∃ out, write coeffLt (us.map (entry ring coeffLt)) false = .ok (out, false) ∧ Tok.Sum (s ++ out) (ts ++ written us)
  | [], s, ts, h => ⟨[], rfl, by simpa [written] using h⟩
  | (g, c) :: us, s, ts, h => by
    by_cases hc : c = 0
    · obtain ⟨out, h1, h2⟩ := write_false us h
      refine ⟨out, ?_, by simpa [written, hc] using h2⟩
      rw [List.map_cons, write]
      simp only [entry, hc, ne_eq, not_true_eq_false, if_false]
      exact h1
    · have e : written ((g, c) :: us) = (g, c) :: written us := by simp [written, hc]
      rw [e]
      by_cases hp : coeffLt 0 c = true
      · obtain ⟨out, h1, h2⟩ := write_false us (h.add (writeTerm_term c g))
        refine ⟨.plus :: writeTerm c g ++ out, ?_, by simpa using h2⟩
        rw [List.map_cons, write]
        simp only [entry, genElt, ne_eq, hc, not_false_eq_true, if_true, hp, Out.ok_bind]
        have h1' : write coeffLt (us.map (entry ring coeffLt)) false = .ok (out, false) := h1
        rw [h1']; simp
      · have hs := h.sub (writeTerm_term (-c) g)
        rw [neg_neg] at hs
        obtain ⟨out, h1, h2⟩ := write_false us hs
        refine ⟨.minus :: writeTerm (-c) g ++ out, ?_, by simpa using h2⟩
        rw [List.map_cons, write]
        simp only [entry, genElt, ne_eq, hc, not_false_eq_true, if_true, hp, if_false]
        have h1' : write coeffLt (us.map (entry ring coeffLt)) false = .ok (out, false) := h1
        rw [h1']; simp

omit [CRing P R] [DecidableEq P] in
theorem write_true : ∀ (us : List (RN × R)),
    ∃ out empty, write coeffLt (us.map (entry ring coeffLt)) true = .ok (out, empty) ∧ Tok.Denotes (out ++ if empty then [.num 0] else []) (written us)
  | [] => ⟨[], true, rfl, .zero⟩
  | (g, c) :: us => by
    by_cases hc : c = 0
    · obtain ⟨out, empty, h1, h2⟩ := write_true us
      refine ⟨out, empty, ?_, by simpa [written, hc] using h2⟩
      rw [List.map_cons, write]
      simp only [entry, hc, ne_eq, not_true_eq_false, if_false]
      exact h1
    · have e : written ((g, c) :: us) = (g, c) :: written us := by simp [written, hc]
      rw [e]
      by_cases hp : coeffLt 0 c = true
      · obtain ⟨out, h1, h2⟩ := write_false (coeffLt := coeffLt) (ring := ring) us (Tok.Sum.term (writeTerm_term c g))
        refine ⟨writeTerm c g ++ out, false, ?_, .sum (by simpa using h2)⟩
        rw [List.map_cons, write]
        simp only [entry, genElt, ne_eq, hc, not_false_eq_true, if_true, hp]
        have h1' : write coeffLt (us.map (entry ring coeffLt)) false = .ok (out, false) := h1
        rw [h1']; simp
      · have hs := Tok.Sum.neg (writeTerm_term (-c) g)
        rw [neg_neg] at hs
        obtain ⟨out, h1, h2⟩ := write_false (coeffLt := coeffLt) (ring := ring) us hs
        refine ⟨.minus :: writeTerm (-c) g ++ out, false, ?_, .sum (by simpa using h2)⟩
        rw [List.map_cons, write]
        simp only [entry, genElt, ne_eq, hc, not_false_eq_true, if_true, hp, if_false]
        have h1' : write coeffLt (us.map (entry ring coeffLt)) false = .ok (out, false) := h1
        rw [h1']; simp


/-- The comparison of generators is right. -/
def Correct (ring : P) (eltLt : Elt P R → Elt P R → Out Bool) (val : RN → ℝ) (basis : List RN) : Prop :=
  basis.Pairwise fun g h => val g ≠ val h ∧ (∀ r, eltLt (genElt ring g) (genElt ring h) = .ok r ↔ (r = true ↔ val g < val h)) ∧
    ∀ r, eltLt (genElt ring h) (genElt ring g) = .ok r ↔ (r = true ↔ val h < val g)

open Classical in
omit [CRing P R] [DecidableEq P] [DecidableEq R] in
theorem Correct.comparable {val : RN → ℝ} {basis : List RN} (h : Correct ring eltLt val basis) : Comparable ring eltLt basis := by
  refine h.imp fun {g h} ⟨h0, h1, h2⟩ => ⟨decide (val g < val h), decide (val h < val g), (h1 _).2 (by simp), (h2 _).2 (by simp), ?_⟩
  rcases lt_or_gt_of_ne h0 with h | h <;> simp [h]

/-- The order of the entries of the set. -/
def EntryBefore (val : RN → ℝ) (a b : Entry P R) : Prop :=
  (a.negative = false ∧ b.negative = true) ∨ (a.negative = b.negative ∧ (a.elt.mod.basis.map val).sum < (b.elt.mod.basis.map val).sum)

omit [CRing P R] [DecidableEq P] [DecidableEq R] [CommRing R] in
theorem EntryBefore.trans {val : RN → ℝ} (a b c : Entry P R) (h1 : EntryBefore val a b) (h2 : EntryBefore val b c) : EntryBefore val a c := by
  unfold EntryBefore at *
  rcases h1 with ⟨h1, h2'⟩ | ⟨h1, h2'⟩ <;> rcases h2 with ⟨h3, h4⟩ | ⟨h3, h4⟩
  · rw [h2'] at h3; cases h3
  · exact .inl ⟨h1, h3 ▸ h2'⟩
  · exact .inl ⟨h1.trans h3, h4⟩
  · exact .inr ⟨h1.trans h3, h2'.trans h4⟩

open Classical in
omit [CRing P R] [DecidableEq P] [DecidableEq R] in
theorem entry_before {val : RN → ℝ} {s t : RN × R} (h0 : val s.1 ≠ val t.1)
    (h1 : ∀ r, eltLt (genElt ring s.1) (genElt ring t.1) = .ok r ↔ (r = true ↔ val s.1 < val t.1))
    (h2 : ∀ r, eltLt (genElt ring t.1) (genElt ring s.1) = .ok r ↔ (r = true ↔ val t.1 < val s.1))
    (h : Entry.lt eltLt coeffLt (entry ring coeffLt s) (entry ring coeffLt t) = .ok true) :
    EntryBefore val (entry ring coeffLt s) (entry ring coeffLt t) := by
  have e1 := (h1 (decide (val s.1 < val t.1))).2 (by simp)
  have e2 := (h2 (decide (val t.1 < val s.1))).2 (by simp)
  simp only [Entry.lt, entry, e1, e2, Out.ok_bind] at h
  simp only [EntryBefore, entry, genElt, List.map_cons, List.map_nil, List.sum_cons, List.sum_nil, add_zero]
  generalize coeffLt s.2 0 = m at *
  generalize coeffLt t.2 0 = n at *
  rcases lt_or_gt_of_ne h0 with h3 | h3
  · cases m <;> cases n <;> simp_all
  · have h4 := not_lt.2 h3.le
    cases m <;> cases n <;> simp_all

omit [CRing P R] [DecidableEq P] [DecidableEq R] in
theorem fill_sorted {val : RN → ℝ} : ∀ {ts us : List (RN × R)} {l l' : List (Entry P R)}, Correct ring eltLt val ((us ++ ts).map Prod.fst) →
    l.Perm (us.map (entry ring coeffLt)) → l.Pairwise (EntryBefore val) → fill ring eltLt coeffLt ts l = .ok l' → l'.Pairwise (EntryBefore val)
  | [], us, l, l', _, _, hs, h => by cases h; exact hs
  | t :: ts, us, l, l', hc, hl, hs, h => by
    have hcmp : Comparable ring eltLt ((us ++ t :: ts).map Prod.fst) := hc.comparable
    have hcc : ∀ y ∈ l, ∃ u ∈ us, y = entry ring coeffLt u ∧ val u.1 ≠ val t.1 ∧
        (∀ r, eltLt (genElt ring u.1) (genElt ring t.1) = .ok r ↔ (r = true ↔ val u.1 < val t.1)) ∧
        ∀ r, eltLt (genElt ring t.1) (genElt ring u.1) = .ok r ↔ (r = true ↔ val t.1 < val u.1) := by
      intro y hy
      obtain ⟨u, hu, rfl⟩ := List.mem_map.1 (hl.mem_iff.1 hy)
      rw [Correct, List.map_append, List.pairwise_append] at hc
      exact ⟨u, hu, rfl, hc.2.2 u.1 (List.mem_map_of_mem hu) t.1 (by simp)⟩
    rw [fill] at h
    simp only [Elt.make_singleton, Out.ok_bind, gen_singleton] at h
    obtain ⟨l1, h1, h2⟩ := Out.bind_eq_ok.1 h
    change setInsert _ (entry ring coeffLt t) l = .ok l1 at h1
    have e : us ++ t :: ts = (us ++ [t]) ++ ts := by simp
    have hp : l1.Perm ((us ++ [t]).map (entry ring coeffLt)) := by
      have hcx : ∀ y ∈ l, ∃ c d, Entry.lt eltLt coeffLt (entry ring coeffLt t) y = .ok c ∧ Entry.lt eltLt coeffLt y (entry ring coeffLt t) = .ok d ∧
          (c || d) = true := by
        intro y hy
        obtain ⟨u, hu, rfl⟩ := List.mem_map.1 (hl.mem_iff.1 hy)
        rw [Comparable, List.map_append, List.pairwise_append] at hcmp
        obtain ⟨a, b, h1, h2, h3⟩ := hcmp.2.2 u.1 (List.mem_map_of_mem hu) t.1 (by simp)
        exact entry_lt h2 h1 (by rwa [Bool.or_comm])
      obtain ⟨l2, k1, k2⟩ := setInsert_ok hcx
      rw [k1] at h1; cases h1
      rw [List.map_append]
      exact k2.trans ((hl.cons _).trans (by simpa using (List.perm_append_singleton _ _).symm))
    refine fill_sorted (us := us ++ [t]) (by rwa [← e]) hp ?_ h2
    refine (setInsert_sorted EntryBefore.trans (fun y hy => ?_) hs h1).2
    obtain ⟨u, hu, rfl, k0, k1, k2⟩ := hcc y hy
    exact ⟨entry_before k0.symm k2 k1, entry_before k0 k1 k2⟩

omit [CRing P R] [DecidableEq P] [DecidableEq R] in
theorem perm_map_entry {l : List (Entry P R)} {ts : List (RN × R)} (h : l.Perm (ts.map (entry ring coeffLt))) :
    ∃ us : List (RN × R), us.Perm ts ∧ l = us.map (entry ring coeffLt) := by
  have := List.eq_map_comp_perm (entry (P := P) (R := R) ring coeffLt)
  obtain ⟨us, h1, h2⟩ : Relation.Comp (fun x y => x = List.map (entry ring coeffLt) y) List.Perm l ts := by rw [this]; exact h
  exact ⟨us, h2, h1⟩

omit [CRing P R] [DecidableEq P] in
/-- **C61**: if `<` between the generators returns and distinguishes them, then printing an element returns, and reading the output gives every
non-zero term of the element exactly once. -/
theorem print_denotes {x : Elt P R} (hl : x.coeffs.length = x.mod.basis.length) (hc : Comparable x.mod.par eltLt x.mod.basis) :
    ∃ s ts, Print.element eltLt coeffLt x = .ok s ∧ Tok.Denotes s ts ∧ ts.Perm (x.terms.filter fun t => t.2 ≠ 0) := by
  have e : x.terms.map Prod.fst = x.mod.basis := by rw [Elt.terms, List.map_fst_zip (by omega)]
  obtain ⟨l, h1, h2⟩ := fill_ok (coeffLt := coeffLt) (us := []) (ts := x.terms) (l := []) (by simpa [e] using hc) (by simp)
  obtain ⟨us, h3, rfl⟩ := perm_map_entry h2
  obtain ⟨out, empty, h4, h5⟩ := write_true (coeffLt := coeffLt) (ring := x.mod.par) us
  exact ⟨_, _, by rw [Print.element, h1, Out.ok_bind, h4]; rfl, h5, h3.filter _⟩

omit [CRing P R] [DecidableEq P] in
/-- **C61**: if `<` between the generators is right, then moreover the positive terms come first, and terms with the same sign are sorted by their
generators. -/
theorem print_sorted {x : Elt P R} (hl : x.coeffs.length = x.mod.basis.length) {val : RN → ℝ} {num : R →+* ℝ} (hn : Function.Injective num)
    (hlt : ∀ a b, coeffLt a b = true ↔ num a < num b) (hc : Correct x.mod.par eltLt val x.mod.basis) :
    ∃ s ts, Print.element eltLt coeffLt x = .ok s ∧ Tok.Denotes s ts ∧ ts.Perm (x.terms.filter fun t => t.2 ≠ 0) ∧ ts.Pairwise (Before num val) := by
  have e : x.terms.map Prod.fst = x.mod.basis := by rw [Elt.terms, List.map_fst_zip (by omega)]
  obtain ⟨l, h1, h2⟩ := fill_ok (coeffLt := coeffLt) (us := []) (ts := x.terms) (l := []) (by simpa [e] using hc.comparable) (by simp)
  have hs := fill_sorted (us := []) (ts := x.terms) (l := []) (by simpa [e] using hc) (by simp) .nil h1
  obtain ⟨us, h3, rfl⟩ := perm_map_entry h2
  obtain ⟨out, empty, h4, h5⟩ := write_true (coeffLt := coeffLt) (ring := x.mod.par) us
  refine ⟨_, _, by rw [Print.element, h1, Out.ok_bind, h4]; rfl, h5, h3.filter _, ?_⟩
  rw [List.pairwise_map] at hs
  have hs := hs.filter (p := fun t : RN × R => t.2 ≠ 0)
  refine hs.imp_of_mem ?_
  intro s t hs ht h
  have hs0 : num s.2 ≠ 0 := fun h => by
    have := (List.mem_filter.1 hs).2
    rw [← map_zero num] at h
    simp [hn h] at this
  have ht0 : num t.2 ≠ 0 := fun h => by
    have := (List.mem_filter.1 ht).2
    rw [← map_zero num] at h
    simp [hn h] at this
  have neg : ∀ c : R, num c ≠ 0 → (coeffLt c 0 = true ↔ num c < 0) ∧ (coeffLt c 0 = false ↔ 0 < num c) := by
    intro c hc
    have := hlt c 0
    rw [map_zero] at this
    refine ⟨this, ?_⟩
    rw [← Bool.not_eq_true, this, not_lt]
    exact ⟨fun h => lt_of_le_of_ne h hc.symm, le_of_lt⟩
  simp only [EntryBefore, entry, genElt, List.map_cons, List.map_nil, List.sum_cons, List.sum_nil, add_zero] at h
  rcases h with ⟨h1, h2⟩ | ⟨h1, h2⟩
  · exact .inl ⟨(neg _ hs0).2.1 h1, (neg _ ht0).1.1 h2⟩
  · refine .inr ⟨?_, h2⟩
    cases hb : coeffLt s.2 0 with
    | true => exact mul_pos_of_neg_of_neg ((neg _ hs0).1.1 hb) ((neg _ ht0).1.1 (h1 ▸ hb))
    | false => exact mul_pos ((neg _ hs0).2.1 hb) ((neg _ ht0).2.1 (h1 ▸ hb))

/-! ### Reading is unambiguous -/

/-- `+` or `-`. -/
def IsSign : Tok R → Prop
  | .plus | .minus => True
  | _ => False

omit [CommRing R] [DecidableEq R] in
theorem split_first : ∀ {s t u v : List (Tok R)} {a b : Tok R}, (∀ x ∈ s, ¬IsSign x) → (∀ x ∈ t, ¬IsSign x) → IsSign a → IsSign b →
    s ++ a :: u = t ++ b :: v → s = t ∧ a = b ∧ u = v
  | [], [], _, _, _, _, _, _, _, _, h => by simpa using h
  | [], d :: t, _, _, a, _, _, ht, ha, _, h => by
    simp only [List.nil_append, List.cons_append, List.cons.injEq] at h
    exact absurd (h.1 ▸ ha) (ht d (by simp))
  | d :: s, [], _, _, _, b, hs, _, _, hb, h => by
    simp only [List.nil_append, List.cons_append, List.cons.injEq] at h
    exact absurd (h.1 ▸ hb) (hs d (by simp))
  | d :: s, e :: t, _, _, _, _, hs, ht, ha, hb, h => by
    simp only [List.cons_append, List.cons.injEq] at h
    obtain ⟨h1, h2⟩ := split_first (fun x hx => hs x (by simp [hx])) (fun x hx => ht x (by simp [hx])) ha hb h.2
    exact ⟨by rw [h.1, h1], h2⟩

omit [CommRing R] [DecidableEq R] in
theorem split_last {s t u v : List (Tok R)} {a b : Tok R} (hu : ∀ x ∈ u, ¬IsSign x) (hv : ∀ x ∈ v, ¬IsSign x) (ha : IsSign a) (hb : IsSign b)
    (h : s ++ a :: u = t ++ b :: v) : s = t ∧ a = b ∧ u = v := by
  have h' := congrArg List.reverse h
  simp only [List.reverse_append, List.reverse_cons, List.append_assoc, List.cons_append, List.nil_append] at h'
  obtain ⟨h1, h2, h3⟩ := split_first (by simpa using hu) (by simpa using hv) ha hb h'
  exact ⟨List.reverse_inj.1 h3, h2, List.reverse_inj.1 h1⟩

omit [DecidableEq R] in
theorem term_noSign {s : List (Tok R)} {g : RN} {c : R} (h : Tok.Term s g c) : (∀ x ∈ s, ¬IsSign x) ∧ s ≠ [] := by
  cases h <;> simp [IsSign]

omit [DecidableEq R] in
theorem term_unique {s : List (Tok R)} {g g' : RN} {c c' : R} (h : Tok.Term s g c) (h' : Tok.Term s g' c') : g = g' ∧ c = c' := by
  cases h <;> cases h' <;> exact ⟨rfl, rfl⟩

omit [DecidableEq R] in
theorem sum_ne_nil {s : List (Tok R)} {ts : List (RN × R)} (h : Tok.Sum s ts) : s ≠ [] := by
  cases h with
  | term h => exact (term_noSign h).2
  | neg h => simp
  | add h _ => simp
  | sub h _ => simp

omit [DecidableEq R] in
theorem sum_unique {s : List (Tok R)} {ts ts' : List (RN × R)} (h : Tok.Sum s ts) (h' : Tok.Sum s ts') : ts = ts' := by
  induction h generalizing ts' with
  | @term s g c ht =>
    have hn := (term_noSign ht).1
    cases h' with
    | term ht' => obtain ⟨rfl, rfl⟩ := term_unique ht ht'; rfl
    | neg _ => exact absurd (by simp [IsSign]) (hn .minus (by simp))
    | add _ _ => exact absurd (by simp [IsSign]) (hn .plus (by simp))
    | sub _ _ => exact absurd (by simp [IsSign]) (hn .minus (by simp))
  | @neg s g c ht =>
    have hn := (term_noSign ht).1
    generalize hs : (Tok.minus :: s : List (Tok R)) = s' at h'
    cases h' with
    | term ht' => subst hs; exact absurd (by simp [IsSign]) ((term_noSign ht').1 .minus (by simp))
    | neg ht' => cases hs; obtain ⟨rfl, rfl⟩ := term_unique ht ht'; rfl
    | add hsum ht' =>
      have := split_last (s := []) hn (term_noSign ht').1 (by simp [IsSign]) (by simp [IsSign]) hs
      exact absurd this.1.symm (sum_ne_nil hsum)
    | sub hsum ht' =>
      have := split_last (s := []) hn (term_noSign ht').1 (by simp [IsSign]) (by simp [IsSign]) hs
      exact absurd this.1.symm (sum_ne_nil hsum)
  | @add s ts t g c hsum ht ih =>
    have hn := (term_noSign ht).1
    generalize hs : s ++ Tok.plus :: t = s' at h'
    cases h' with
    | term ht' => subst hs; exact absurd (by simp [IsSign]) ((term_noSign ht').1 .plus (by simp))
    | neg ht' =>
      have := split_last (t := []) hn (term_noSign ht').1 (by simp [IsSign]) (by simp [IsSign]) hs
      exact absurd this.1 (sum_ne_nil hsum)
    | add hsum' ht' =>
      obtain ⟨rfl, -, rfl⟩ := split_last hn (term_noSign ht').1 (by simp [IsSign]) (by simp [IsSign]) hs
      obtain ⟨rfl, rfl⟩ := term_unique ht ht'
      rw [ih hsum']
    | sub hsum' ht' =>
      obtain ⟨-, h, -⟩ := split_last hn (term_noSign ht').1 (by simp [IsSign]) (by simp [IsSign]) hs
      cases h
  | @sub s ts t g c hsum ht ih =>
    have hn := (term_noSign ht).1
    generalize hs : s ++ Tok.minus :: t = s' at h'
    cases h' with
    | term ht' => subst hs; exact absurd (by simp [IsSign]) ((term_noSign ht').1 .minus (by simp))
    | neg ht' =>
      have := split_last (t := []) hn (term_noSign ht').1 (by simp [IsSign]) (by simp [IsSign]) hs
      exact absurd this.1 (sum_ne_nil hsum)
    | add hsum' ht' =>
      obtain ⟨-, h, -⟩ := split_last hn (term_noSign ht').1 (by simp [IsSign]) (by simp [IsSign]) hs
      cases h
    | sub hsum' ht' =>
      obtain ⟨rfl, -, rfl⟩ := split_last hn (term_noSign ht').1 (by simp [IsSign]) (by simp [IsSign]) hs
      obtain ⟨rfl, rfl⟩ := term_unique ht ht'
      rw [ih hsum']

omit [DecidableEq R] in
/-- **C61**: there is only one way to read the output as a sum of non-zero terms. -/
theorem denotes_unique {s : List (Tok R)} {ts ts' : List (RN × R)} (h : Tok.Denotes s ts) (h' : Tok.Denotes s ts') (h0 : ∀ t ∈ ts, t.2 ≠ 0)
    (h0' : ∀ t ∈ ts', t.2 ≠ 0) : ts = ts' := by
  have key : ∀ {us : List (RN × R)}, Tok.Sum [.num 0] us → ¬∀ t ∈ us, t.2 ≠ 0 := by
    intro us hs hu
    rw [sum_unique hs (.term (.num 0))] at hu
    exact hu (.rat 1, 0) (by simp) rfl
  cases h with
  | zero =>
    cases h' with
    | zero => rfl
    | sum h => exact absurd h0' (key h)
  | sum h =>
    cases h' with
    | zero => exact absurd h0 (key h)
    | sum h' => exact sum_unique h h'

/-! ### With the comparison of the library -/

section
variable [LawfulCRing P] (atoms : Atoms) {F : Arith} {coeff : ℕ → R → Ball}

theorem genElt_wf {ring : P} {g : RN} (hg : g.WF) : (genElt ring g : Elt P R).WF :=
  ⟨⟨by simpa [genElt] using hg, by simp [genElt]⟩, rfl, by simp [genElt, one_mem]⟩

theorem genElt_real (ring : P) (g : RN) : (genElt ring g : Elt P R).real atoms.vals = g.real atoms := by
  simp [Elt.real, Elt.value, Elt.terms, genElt, RN.value_vals]

/-- Two different generators of a module can be compared with `==`. -/
theorem genElt_eq [Build] {m : Mod P} (hm : m.WF) {g h : RN} (hg : g ∈ m.basis) (hh : h ∈ m.basis) :
    ∃ e, (genElt m.par g : Elt P R).eq (genElt m.par h) = .ok e := by
  have wg := genElt_wf (P := P) (R := R) (ring := m.par) (hm.gens g hg)
  have wh := genElt_wf (P := P) (R := R) (ring := m.par) (hm.gens h hh)
  obtain ⟨h1 | h1, h2⟩ := eq_throws_iff wg wh
  · exact h1
  · exfalso
    obtain ⟨-, h3⟩ := h2.1 h1
    obtain ⟨-, -, h4 | ⟨p, q, hpq, hp, hq⟩⟩ := (span_throws_iff (R := R) wg.mod wh.mod).2.1 h3
    · have := LawfulCRing.compositum_self (P := P) m.par
      rw [show (genElt m.par g : Elt P R).mod.par = m.par from rfl, show (genElt m.par h : Elt P R).mod.par = m.par from rfl, this] at h4
      cases h4
    · simp only [genElt, List.mem_singleton] at hp hq
      subst hp hq
      have hs := hm.sorted
      obtain ⟨i, hi, hgi⟩ := List.getElem_of_mem hg
      obtain ⟨j, hj, hgj⟩ := List.getElem_of_mem hh
      rw [List.pairwise_iff_getElem] at hs
      have hij : i ≠ j := by
        rintro rfl
        rw [hgi] at hgj
        exact hpq (by simpa using hgj)
      have irr : ¬Precedes (RN.rat p).mult (RN.rat q).mult ∧ ¬Precedes (RN.rat q).mult (RN.rat p).mult := by
        constructor <;> intro h <;> exact (Precedes.irrefl _ h)
      rcases lt_or_gt_of_ne hij with h | h
      · have := hs i j hi hj h
        rw [hgi, hgj] at this
        exact irr.1 this
      · have := hs j i hj hi h
        rw [hgi, hgj] at this
        exact irr.2 this

omit [DecidableEq P] [CommRing R] [DecidableEq R] [CRing P R] [LawfulCRing P] in
theorem pairwise_uniform {T : Type} {p : ℕ → T → T → Prop} : ∀ {l : List T}, (l.Pairwise fun g h => ∃ N, ∀ n, N ≤ n → p n g h) →
    ∃ N, ∀ n, N ≤ n → l.Pairwise (p n)
  | [], _ => ⟨0, fun _ _ => .nil⟩
  | x :: l, h => by
    rw [List.pairwise_cons] at h
    obtain ⟨N1, h1⟩ := pairwise_uniform h.2
    have h2 : ∀ (l' : List T), (∀ y ∈ l', ∃ N, ∀ n, N ≤ n → p n x y) → ∃ N, ∀ n, N ≤ n → ∀ y ∈ l', p n x y := by
      intro l'
      induction l' with
      | nil => exact fun _ => ⟨0, by simp⟩
      | cons y l' ih =>
        intro hy
        obtain ⟨N2, h2⟩ := ih fun z hz => hy z (by simp [hz])
        obtain ⟨N3, h3⟩ := hy y (by simp)
        refine ⟨max N2 N3, fun n hn z hz => ?_⟩
        rcases List.mem_cons.1 hz with rfl | hz
        · exact h3 n (le_trans (le_max_right _ _) hn)
        · exact h2 n (le_trans (le_max_left _ _) hn) z hz
    obtain ⟨N2, h2⟩ := h2 l h.1
    exact ⟨max N1 N2, fun n hn => List.pairwise_cons.2 ⟨h2 n (le_trans (le_max_right _ _) hn), h1 n (le_trans (le_max_left _ _) hn)⟩⟩

/-- **C61**: printing an element whose generators are not zero and not extremely close to each other returns; reading the output gives every non-zero
term exactly once, the positive ones first, sorted by their generators.
Missing: generators that are extremely close to each other or zero (`print_zero_generator_fails`). -/
theorem print_separated_partial [Build] (hF : F.Lawful) (hco : CoeffLawful P coeff) {coeffLt : R → R → Bool}
    (hlt : ∀ a b, coeffLt a b = true ↔ Elt.num P a < Elt.num P b) {x : Elt P R} (hx : x.WF) (hs : Separated atoms x.mod.basis) :
    ∃ N, ∀ fuel, N ≤ fuel → ∃ s ts, Print.element (Elt.lt atoms F coeff fuel) coeffLt x = .ok s ∧ Tok.Denotes s ts ∧
      ts.Perm (x.terms.filter fun t => t.2 ≠ 0) ∧ ts.Pairwise (Before (Elt.num P) fun g => g.real atoms) := by
  have hn : Function.Injective (Elt.num P : R →+* ℝ) := by
    intro a b h
    exact LawfulCRing.emb_injective (Subtype.ext_iff.2 h)
  have one : (1 : R) ≠ 0 := fun h => by
    have := congrArg (Elt.num P) h
    rw [map_one, map_zero] at this
    exact one_ne_zero this
  have key : ∀ g ∈ x.mod.basis, ∀ h ∈ x.mod.basis, 2 ^ (-(61 : ℤ)) * (|g.real atoms| + |h.real atoms|) < |g.real atoms - h.real atoms| →
      ∃ N, ∀ fuel, N ≤ fuel → ∀ r, Elt.lt atoms F coeff fuel (genElt x.mod.par g) (genElt x.mod.par h) = .ok r ↔ (r = true ↔ g.real atoms < h.real atoms) := by
    intro g hg h hh hgap
    have hne : g.real atoms ≠ h.real atoms := by
      intro e
      rw [e, sub_self, abs_zero] at hgap
      have : (0 : ℝ) ≤ 2 ^ (-(61 : ℤ)) * (|h.real atoms| + |h.real atoms|) := by positivity
      linarith
    have wg := genElt_wf (P := P) (R := R) (ring := x.mod.par) (hx.mod.gens g hg)
    have wh := genElt_wf (P := P) (R := R) (ring := x.mod.par) (hx.mod.gens h hh)
    obtain ⟨e, he⟩ := genElt_eq (R := R) hx.mod hg hh
    obtain ⟨r, N, hN⟩ := (elt_lt_returns atoms hF hco wg (.inr (by rw [genElt_real]; exact hs.1 g hg))).1 _ wh (.inr (by rw [genElt_real]; exact hs.1 h hh))
      (by rwa [genElt_real, genElt_real]) e he
    refine ⟨N, fun fuel hf r' => ?_⟩
    have h1 := (elt_lt_partial atoms hF hco wg (r := r)).1 _ wh (hN fuel hf)
    rw [genElt_real, genElt_real] at h1
    have h2 := h1.gap hgap
    rw [hN fuel hf, ← h2]
    simp only [Out.ok.injEq]
    cases r <;> cases r' <;> simp
  have hp : x.mod.basis.Pairwise fun g h => ∃ N, ∀ fuel, N ≤ fuel → g.real atoms ≠ h.real atoms ∧
      (∀ r, Elt.lt atoms F coeff fuel (genElt x.mod.par g) (genElt x.mod.par h) = .ok r ↔ (r = true ↔ g.real atoms < h.real atoms)) ∧
      ∀ r, Elt.lt atoms F coeff fuel (genElt x.mod.par h) (genElt x.mod.par g) = .ok r ↔ (r = true ↔ h.real atoms < g.real atoms) := by
    refine hs.2.imp_of_mem fun {g h} hg hh hgap => ?_
    obtain ⟨N1, h1⟩ := key g hg h hh hgap
    obtain ⟨N2, h2⟩ := key h hh g hg (by rwa [abs_sub_comm, add_comm])
    refine ⟨max N1 N2, fun fuel hf => ⟨?_, h1 fuel (le_trans (le_max_left _ _) hf), h2 fuel (le_trans (le_max_right _ _) hf)⟩⟩
    intro e
    rw [e, sub_self, abs_zero] at hgap
    have : (0 : ℝ) ≤ 2 ^ (-(61 : ℤ)) * (|h.real atoms| + |h.real atoms|) := by positivity
    linarith
  obtain ⟨N, hN⟩ := pairwise_uniform hp
  exact ⟨N, fun fuel hf => print_sorted (val := fun g => g.real atoms) hx.length hn hlt (hN fuel hf)⟩

omit atoms in
/-- **C61**: what is read from the output has the value of the element. -/
theorem denotes_value {x : Elt P R} {ts : List (RN × R)} (h : ts.Perm (x.terms.filter fun t => t.2 ≠ 0)) (v : ℕ → ℝ) :
    (ts.map fun t => Elt.num P t.2 * t.1.value v).sum = x.real v := by
  rw [(h.map _).sum_eq, Elt.real, Elt.value]
  generalize x.terms = l
  induction l with
  | nil => rfl
  | cons t l ih =>
    by_cases ht : t.2 = 0
    · rw [List.filter_cons_of_neg (by simpa using ht), ih]; simp [ht]
    · rw [List.filter_cons_of_pos (by simpa using ht), List.map_cons, List.sum_cons, ih]; simp

omit atoms in
/-- **C61**: two elements of the same module with the same output are equal. -/
theorem print_injective {x y : Elt P R} (hx : x.WF) (hy : y.WF) (hm : x.mod = y.mod) {eltLt : Elt P R → Elt P R → Out Bool} {coeffLt : R → R → Bool}
    (hc : Comparable x.mod.par eltLt x.mod.basis) (h : Print.element eltLt coeffLt x = Print.element eltLt coeffLt y) : x = y := by
  obtain ⟨s, ts, h1, h2, h3⟩ := print_denotes (coeffLt := coeffLt) hx.length hc
  obtain ⟨s', ts', h1', h2', h3'⟩ := print_denotes (coeffLt := coeffLt) hy.length (by rwa [← hm])
  rw [h1, h1'] at h
  cases h
  have hz : ∀ (z : Elt P R) (us : List (RN × R)), us.Perm (z.terms.filter fun t => t.2 ≠ 0) → (∀ t ∈ us, t.2 ≠ 0) ∧ Elt.combo us = z.fs := by
    intro z us hu
    refine ⟨fun t ht => by simpa using (List.mem_filter.1 (hu.mem_iff.1 ht)).2, ?_⟩
    rw [Elt.combo_perm hu, Elt.fs]
    generalize z.terms = l
    induction l with
    | nil => rfl
    | cons t l ih =>
      by_cases ht : t.2 = 0
      · rw [List.filter_cons_of_neg (by simpa using ht), ih]; simp [ht]
      · rw [List.filter_cons_of_pos (by simpa using ht), Elt.combo_cons, ih]; simp
  obtain ⟨z1, z2⟩ := hz x ts h3
  obtain ⟨z1', z2'⟩ := hz y ts' h3'
  have := denotes_unique h2 h2' z1 z1'
  subst this
  exact Elt.ext_fs hx hy hm (z2.symm.trans z2')

/-- **C61** fails for modules with the generator 0 and another generator: printing an element never returns, not even for the zero of the module. -/
theorem print_zero_generator_fails [Build] (hF : F.Lawful) (hco : CoeffLawful P coeff) {coeffLt : R → R → Bool} {ring : P} {g : RN} (hg : g.WF)
    (h0 : g ≠ .rat 0) (hm : (⟨ring, [.rat 0, g]⟩ : Mod P).WF) (fuel : ℕ) :
    Print.element (Elt.lt atoms F coeff fuel) coeffLt (⟨ring, [.rat 0, g]⟩ : Mod P).zero = .pending := by
  have one : (1 : R) ≠ 0 := fun h => by
    have := congrArg (Elt.num P) h
    rw [map_one, map_zero] at this
    exact one_ne_zero this
  have wg := genElt_wf (P := P) (R := R) (ring := ring) hg
  have wz := genElt_wf (P := P) (R := R) (ring := ring) (g := .rat 0) (by simp [RN.WF])
  have hz : ∀ A, 4 ≤ A → (genElt ring (.rat 0) : Elt P R).arb atoms F coeff fuel A = .pending := fun A hA =>
    Elt.arb_zero_pending atoms hF hco hA wz (by simp [Elt.toBool, genElt, one]) (by rw [genElt_real]; simp [RN.real, RN.value]) fuel
  obtain ⟨e, he⟩ := genElt_eq (R := R) (m := ⟨ring, [.rat 0, g]⟩) hm (g := g) (h := .rat 0) (by simp) (by simp)
  have hf : e = false := by
    cases e with
    | false => rfl
    | true =>
      exfalso
      have h := eq_sound wg wz he fun _ => 1
      simp only [Elt.real, Elt.value, Elt.terms, genElt, List.zip_cons_cons, List.zip_nil_right, List.map_cons, List.map_nil, List.sum_cons, List.sum_nil, map_one,
        _root_.one_mul, add_zero] at h
      cases g with
      | rat q => simp [RN.value] at h; exact h0 (by rw [h])
      | atom i => simp [RN.value] at h
      | prod m => simp [RN.value, Mono.value] at h
  subst hf
  have hlt : Elt.lt atoms F coeff fuel (genElt ring g) (genElt ring (.rat 0)) = .pending := by
    rw [Elt.lt, he, Out.ok_bind, if_neg (by simp)]
    cases fuel with
    | zero => rfl
    | succ fuel =>
      rw [Elt.ltLoop]
      rcases Elt.arb_ok_or_pending atoms (F := F) (coeff := coeff) (genElt ring g) (fuel + 1) 64 with h | ⟨b, h⟩
      · rw [h]; rfl
      · rw [h, Out.ok_bind, hz 64 (by norm_num)]; rfl
  simp only [Print.element, Mod.zero, Elt.terms, List.length_cons, List.length_nil, List.replicate, List.zip_cons_cons, List.zip_nil_right, fill,
    Elt.make_singleton, Out.ok_bind, gen_singleton, setInsert, Entry.lt]
  simp [hlt]

end

/-! ### The hypotheses can be met -/

theorem sample_value : sampleDigits.value = 13 / 32 := by
  rw [value_finite sampleDigits 5 (fun i hi => by simp [sampleDigits, finiteDigits, hi])]
  have : Digits.prefixValue sampleDigits.digit 5 = 13 / 32 := by decide +kernel
  rw [this]; norm_num

/-- The element `3 - 2a` with the random number `a = 13/32`. -/
example : ∃ atoms : Atoms, goodX.WF ∧ Separated atoms goodX.mod.basis := by
  refine ⟨fun _ => .random sampleDigits, good_wf.1, ?_, ?_⟩
  · simp [goodX, goodMod, RN.real, RN.value, Atom.value, sample_value]
  · simp only [goodX, goodMod, RN.real, RN.value, Atom.value, sample_value, List.pairwise_cons, List.mem_cons, List.not_mem_nil, or_false, forall_eq]
    norm_num

example : (⟨IntegerRing.mk, [.rat 0, .atom 0]⟩ : Mod IntegerRing).WF := by
  have h : Mod.make IntegerRing.mk [.rat 0, .atom 0] = .ok ⟨.mk, [.rat 0, .atom 0]⟩ := by
    simp [Mod.make, Mod.sort, RN.lt, RN.deglex, Mod.check, Mod.compatible, RN.isRat, RN.rational?]
  exact (Mod.make_ok (by simp [RN.WF]) h).2.2

end ExactReal.Props
