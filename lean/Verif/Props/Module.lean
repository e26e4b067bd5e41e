import Verif.Lemma.Span

/-!
# C08–C10: modules

Vocabulary: `Mod.WF` (`Verif/Spec/Module.lean`): the generators are well-formed and strictly increasing in deglex; every module that
`Module::make` returns satisfies it (`make_spec`).
-/

namespace ExactReal.Props
open ExactReal

variable {P : Type}

/-! ### C08 -/

/-- C08. What `Module::make` returns: the given ring, the given generators (each as often as given), strictly increasing in deglex. -/
theorem make_spec {ring : P} {gens : List RN} {m : Mod P} (hg : ∀ g ∈ gens, g.WF) (h : Mod.make ring gens = .ok m) :
    m.par = ring ∧ m.basis.Perm gens ∧ m.WF ∧ m.basis.Pairwise (fun x y => x.deglex y = .ok true) := by
  obtain ⟨h1, h2, h3⟩ := Mod.make_ok hg h
  refine ⟨h1, h2, h3, ?_⟩
  have := h3.sorted
  rw [List.pairwise_iff_getElem] at *
  intro i j hi hj hij
  have hh := (RN.lt_iff (h3.gens _ (List.getElem_mem hi)) (h3.gens _ (List.getElem_mem hj))).2 (this i j hi hj hij)
  simpa [RN.lt] using hh

/-- C08. `Module::make` does not depend on the order of the generators (also when it throws). -/
theorem make_order_irrelevant (ring : P) {gens gens' : List RN} (hg : ∀ g ∈ gens, g.WF) (h : gens.Perm gens') :
    Mod.make ring gens = Mod.make ring gens' := Mod.make_perm hg h

/-- C08. Any other sorting algorithm with the contract of `std::sort` (returns a permutation in which no element precedes an earlier
one) gives the same module. -/
theorem make_any_sort (ring : P) {gens sorted : List RN} (hg : ∀ g ∈ gens, g.WF) (hp : sorted.Perm gens)
    (hs : sorted.Pairwise fun x y => y.deglex x = .ok false) :
    Mod.make ring gens = if Mod.check sorted then .ok ⟨ring, sorted⟩ else .throws .logicError := by
  split
  · rename_i hc
    have hw : ∀ g ∈ sorted, g.WF := fun g h => hg g (hp.mem_iff.1 h)
    refine Mod.make_eq_of_perm hg hp (Mod.pairwise_precedes_of hw (hs.imp fun h => ?_) hc)
    simp [RN.lt, h]
  · rename_i hc
    rcases Mod.make_outcomes ring gens with h | h
    · rw [Mod.make_ok_iff, ← Mod.check_perm hp] at h
      exact absurd h hc
    · exact h

/-- C08. `Module::make` throws (a `logic_error`) exactly if a generator is repeated or two generators are rational. -/
theorem make_throws_iff (ring : P) (gens : List RN) :
    ((∃ m, Mod.make ring gens = .ok m) ∨ Mod.make ring gens = .throws .logicError) ∧
    (Mod.make ring gens = .throws .logicError ↔ ¬ gens.Nodup ∨ 2 ≤ (gens.filter fun g => g.rational?.isSome).length) := by
  refine ⟨Mod.make_outcomes ring gens, ?_⟩
  have h1 := Mod.make_ok_iff ring gens
  rw [Mod.check_iff'] at h1
  have h2 : (gens.filter fun g => g.rational?.isSome) = gens.filter RN.isRat := rfl
  rw [h2]
  constructor
  · intro h
    by_contra hcon
    rw [not_or, not_not, not_le] at hcon
    obtain ⟨m, hm⟩ := h1.2 ⟨hcon.1, by omega⟩
    rw [h] at hm; cases hm
  · intro h
    rcases Mod.make_outcomes ring gens with hm | hm
    · have := h1.1 hm
      rcases h with h | h
      · exact absurd this.1 h
      · omega
    · exact hm

/-- C08. Two modules are equal (are the same object) if and only if they have the same ring and the same set of generators. -/
theorem module_eq_iff {m n : Mod P} (hm : m.WF) (hn : n.WF) : m = n ↔ m.par = n.par ∧ ∀ g, g ∈ m.basis ↔ g ∈ n.basis := by
  constructor
  · rintro rfl; exact ⟨rfl, fun _ => Iff.rfl⟩
  · rintro ⟨h1, h2⟩
    have := Mod.eq_of_mem_iff hm.sorted hn.sorted h2
    cases m; cases n; simp_all

/-- Non-vacuity: a module with a rational generator, two atoms and a product, given in the wrong order. -/
theorem sample_module : Mod.make IntegerRing.mk [.prod [(3, 2), (5, 1)], .atom 5, .rat 1, .atom 3] =
    .ok ⟨.mk, [.rat 1, .atom 3, .atom 5, .prod [(3, 2), (5, 1)]]⟩ := by
  simp [Mod.make, Mod.sort, RN.lt, RN.deglex, Mod.check, Mod.compatible, RN.isRat, RN.rational?]
example : Mod.make IntegerRing.mk [.atom 5, .rat 1, .rat 2] = .throws .logicError := by
  rw [(make_throws_iff _ _).2]; right; simp [RN.rational?]

/-! ### C09 -/

section
variable [DecidableEq P] {R : Type} [CommRing R] [DecidableEq R] [CRing P R] [LawfulCRing P]

/-- C09. The generators of `span(m, n)` are exactly those of `m` and `n`; its ring is the compositum of the rings (unless one module is
trivial, then it is the ring of the other module). -/
theorem span_spec {m n s : Mod P} (hm : m.WF) (hn : n.WF) (h : Mod.span m n = .ok s) :
    s.WF ∧ (∀ g, g ∈ s.basis ↔ g ∈ m.basis ∨ g ∈ n.basis) ∧
    ((m.basis = [] ∧ s = n) ∨ (n.basis = [] ∧ s = m) ∨ CRing.compositum m.par n.par = .ok s.par) := by
  obtain ⟨h1, h2, h3⟩ := Mod.span_ok (R := R) hm hn h
  exact ⟨h1, h2, h3.imp_right (Or.imp_right fun h => h.2.2)⟩

/-- C09. `span(m, n)` contains `m` and `n` and is contained in every module that contains both. -/
theorem span_least {m n s : Mod P} (hm : m.WF) (hn : n.WF) (h : Mod.span m n = .ok s) :
    m.submodule s = true ∧ n.submodule s = true ∧
    ∀ t : Mod P, m.submodule t = true → n.submodule t = true → s.submodule t = true := by
  obtain ⟨-, h2, -⟩ := Mod.span_ok (R := R) hm hn h
  simp only [Mod.submodule_iff]
  exact ⟨fun g hg => (h2 g).2 (.inl hg), fun g hg => (h2 g).2 (.inr hg),
    fun t h1 h3 g hg => ((h2 g).1 hg).elim (h1 g) (h3 g)⟩

/-- C09. `span` does not depend on the order of its arguments: both orders succeed or both fail, and they give the same generators; if the
compositum of the rings does not depend on the order (which it does not for ℤ, ℚ and number fields that are not both of degree one) they
give the same module. -/
theorem span_comm {m n : Mod P} (hm : m.WF) (hn : n.WF)
    (hc : CRing.compositum m.par n.par = CRing.compositum n.par m.par) (hr : m.basis = [] → n.basis = [] → m.par = n.par) :
    Mod.span m n = Mod.span n m := by
  have key : ∀ {m n : Mod P}, m.WF → n.WF → (CRing.compositum m.par n.par = CRing.compositum n.par m.par) →
      (m.basis = [] → n.basis = [] → m.par = n.par) → ∀ s, Mod.span m n = .ok s → Mod.span n m = .ok s := by
    intro m n hm hn hc hr s hs
    obtain ⟨h1, h2, h3⟩ := Mod.span_ok (R := R) hm hn hs
    rcases Mod.span_throws (R := R) hn hm with ⟨t, ht⟩ | ⟨ht, hne, hme, h⟩
    · obtain ⟨h4, h5, h6⟩ := Mod.span_ok (R := R) hn hm ht
      rw [ht]
      congr 1
      refine Mod.WF.ext h4 h1 ?_ fun g => by rw [h2, h5, or_comm]
      rcases h3 with ⟨he, rfl⟩ | ⟨he, rfl⟩ | ⟨he, he', hs⟩ <;> rcases h6 with ⟨ke, rfl⟩ | ⟨ke, rfl⟩ | ⟨ke, ke', ht⟩
      · exact hr he ke
      · rfl
      · exact absurd he ke'
      · rfl
      · exact (hr ke he).symm
      · exact absurd he ke
      · exact absurd ke he'
      · exact absurd ke he
      · rw [hc, ht] at hs; exact Out.ok.inj hs
    · exfalso
      rcases h with h | ⟨g, hg, k, hk, rg, rk, hgk⟩
      · rcases h3 with ⟨he, rfl⟩ | ⟨he, rfl⟩ | ⟨he, he', hs⟩
        · exact hme he
        · exact hne he
        · rw [hc, h] at hs; cases hs
      · rw [Mod.span_throws_of_rat (R := R) hm hn hk hg rk rg fun e => hgk e.symm] at hs
        cases hs
  rcases Mod.span_throws (R := R) hm hn with ⟨s, hs⟩ | ⟨h, -⟩
  · rw [hs, key hm hn hc hr s hs]
  · rcases Mod.span_throws (R := R) hn hm with ⟨s, hs⟩ | ⟨h', -⟩
    · rw [hs, key hn hm hc.symm (fun a b => (hr b a).symm) s hs]
    · rw [h, h']

/-- C09. The generators of `span` never depend on the order of the arguments. -/
theorem span_comm_gens {m n s t : Mod P} (hm : m.WF) (hn : n.WF) (hs : Mod.span m n = .ok s) (ht : Mod.span n m = .ok t) :
    s.basis = t.basis := by
  obtain ⟨h1, h2, -⟩ := Mod.span_ok (R := R) hm hn hs
  obtain ⟨h4, h5, -⟩ := Mod.span_ok (R := R) hn hm ht
  exact Mod.eq_of_mem_iff h1.sorted h4.sorted fun g => by rw [h2, h5, or_comm]

/-- C09. `span` is idempotent. -/
theorem span_self {m : Mod P} (hm : m.WF) : Mod.span m m = .ok m := by
  rcases Mod.span_throws (R := R) hm hm with ⟨s, hs⟩ | ⟨h, -, -, h'⟩
  · obtain ⟨h1, h2, h3⟩ := Mod.span_ok (R := R) hm hm hs
    rw [hs]; congr 1
    refine Mod.WF.ext h1 hm ?_ fun g => by rw [h2, or_self]
    rcases h3 with ⟨-, rfl⟩ | ⟨-, rfl⟩ | ⟨-, -, h3⟩
    · rfl
    · rfl
    · rw [LawfulCRing.compositum_self] at h3; exact (Out.ok.inj h3).symm
  · exfalso
    rcases h' with h' | ⟨g, hg, k, hk, rg, rk, hgk⟩
    · rw [LawfulCRing.compositum_self] at h'; cases h'
    · exact hgk (hm.rat_unique hg hk rg rk)

/-- C09. `span(m, n)` returns or throws a `logic_error`; it throws exactly if both modules are non-trivial and the rings have no compositum
or the modules have different rational generators. -/
theorem span_throws_iff {m n : Mod P} (hm : m.WF) (hn : n.WF) :
    ((∃ s, Mod.span m n = .ok s) ∨ Mod.span m n = .throws .logicError) ∧
    (Mod.span m n = .throws .logicError ↔ m.basis ≠ [] ∧ n.basis ≠ [] ∧ (CRing.compositum m.par n.par = .throws .logicError ∨
      ∃ p q : ℚ, p ≠ q ∧ .rat p ∈ m.basis ∧ .rat q ∈ n.basis)) := by
  have hrat : ∀ g : RN, g.isRat = true → ∃ q, g = .rat q := by
    intro g; cases g <;> simp [RN.isRat, RN.rational?]
  constructor
  · rcases Mod.span_throws (R := R) hm hn with h | ⟨h, -⟩
    · exact .inl h
    · exact .inr h
  constructor
  · intro ht
    rcases Mod.span_throws (R := R) hm hn with ⟨s, hs⟩ | ⟨-, h1, h2, h | ⟨g, hg, k, hk, rg, rk, hgk⟩⟩
    · rw [ht] at hs; cases hs
    · exact ⟨h1, h2, .inl h⟩
    · obtain ⟨p, rfl⟩ := hrat g rg
      obtain ⟨q, rfl⟩ := hrat k rk
      exact ⟨h1, h2, .inr ⟨p, q, fun e => hgk (by rw [e]), hg, hk⟩⟩
  · rintro ⟨h1, h2, h | ⟨p, q, hpq, hp, hq⟩⟩
    · rcases Mod.span_throws (R := R) hm hn with ⟨s, hs⟩ | ⟨h, -⟩
      · obtain ⟨-, -, ⟨h3, -⟩ | ⟨h3, -⟩ | ⟨-, -, h3⟩⟩ := Mod.span_ok (R := R) hm hn hs
        · exact absurd h3 h1
        · exact absurd h3 h2
        · rw [h] at h3; cases h3
      · exact h
    · exact Mod.span_throws_of_rat (R := R) hm hn hp hq rfl rfl fun e => hpq (by cases e; rfl)

end

/-- Non-vacuity: a span of two overlapping modules, neither contained in the other. -/
example : Mod.span (⟨.mk, [.rat 1, .atom 5]⟩ : Mod IntegerRing) ⟨.mk, [.atom 3, .atom 5]⟩ = .ok ⟨.mk, [.rat 1, .atom 3, .atom 5]⟩ := by
  simp [Mod.span, Mod.spanSame, Mod.submodule, Mod.extend, Mod.make, Mod.sort, RN.lt, RN.deglex, Mod.check, Mod.compatible,
    RN.isRat, RN.rational?]

/-! ### C10 -/

/-- C10. `m.submodule(n)` holds exactly if every generator of `m` is a generator of `n`. -/
theorem submodule_iff (m n : Mod P) : m.submodule n = true ↔ ∀ g ∈ m.basis, g ∈ n.basis := Mod.submodule_iff m n

/-- C10. `submodule` is reflexive, transitive, and antisymmetric for modules over the same ring. -/
theorem submodule_order :
    (∀ m : Mod P, m.submodule m = true) ∧
    (∀ l m n : Mod P, l.submodule m = true → m.submodule n = true → l.submodule n = true) ∧
    (∀ m n : Mod P, m.WF → n.WF → m.par = n.par → m.submodule n = true → n.submodule m = true → m = n) := by
  simp only [Mod.submodule_iff]
  exact ⟨fun _ _ h => h, fun l m n h1 h2 g hg => h2 g (h1 g hg),
    fun m n hm hn hp h1 h2 => (module_eq_iff hm hn).2 ⟨hp, fun g => ⟨h1 g, h2 g⟩⟩⟩

example : (⟨.mk, [.atom 5]⟩ : Mod IntegerRing).submodule ⟨.mk, [.rat 1, .atom 5]⟩ = true ∧
    (⟨.mk, [.atom 4]⟩ : Mod IntegerRing).submodule ⟨.mk, [.rat 1, .atom 5]⟩ = false := by simp [Mod.submodule]

end ExactReal.Props
