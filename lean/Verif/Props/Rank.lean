import Verif.Props.Element
import Verif.Props.Module
import Mathlib.Data.Finset.Card
import Mathlib.Data.Finset.Prod

/-!
# C96: how many generators results have

`module()->rank()` is the number of generators, `basis().size()`; time and memory of everything that is done with an element, and the number of
additional bits of `arb(prec)`, depend on it.  The theorems say how it grows in computations: only as it has to.
-/

namespace ExactReal.Props
open ExactReal

variable {P : Type}

/-- The generators of a module are distinct, so that `rank` is the size of the set of generators. -/
theorem basis_nodup {m : Mod P} (hm : m.WF) : m.basis.Nodup := Mod.nodup_of_sorted hm.sorted

theorem length_eq_card {l : List RN} (h : l.Nodup) : l.length = l.toFinset.card := (List.toFinset_card_of_nodup h).symm

/-- C96. A submodule has no larger rank, and a submodule of the same rank has the same generators. -/
theorem submodule_rank {m n : Mod P} (hm : m.WF) (hn : n.WF) (h : m.submodule n = true) :
    m.basis.length ≤ n.basis.length ∧ (m.basis.length = n.basis.length → m.basis = n.basis) := by
  have hs : m.basis.toFinset ⊆ n.basis.toFinset := fun g hg => by
    rw [List.mem_toFinset] at hg ⊢; exact (submodule_iff m n).1 h g hg
  have h1 := length_eq_card (basis_nodup hm)
  have h2 := length_eq_card (basis_nodup hn)
  refine ⟨by rw [h1, h2]; exact Finset.card_le_card hs, fun e => ?_⟩
  have := Finset.eq_of_subset_of_card_le hs (by rw [← h1, ← h2, e])
  exact Mod.eq_of_mem_iff hm.sorted hn.sorted fun g => by
    rw [← List.mem_toFinset, this, List.mem_toFinset]

variable [DecidableEq P] {R : Type} [CommRing R] [DecidableEq R] [CRing P R] [LawfulCRing P]

/-- C96. The rank of the span is the sum of the ranks, less the number of generators in common. -/
theorem span_rank {m n s : Mod P} (hm : m.WF) (hn : n.WF) (h : Mod.span m n = .ok s) :
    s.basis.length + (m.basis.filter (· ∈ n.basis)).length = m.basis.length + n.basis.length := by
  obtain ⟨hs, hg, -⟩ := span_spec (R := R) hm hn h
  rw [length_eq_card (basis_nodup hs), length_eq_card (basis_nodup hm), length_eq_card (basis_nodup hn),
    length_eq_card ((basis_nodup hm).filter _)]
  have e1 : s.basis.toFinset = m.basis.toFinset ∪ n.basis.toFinset := by ext g; simp [hg]
  have e2 : (m.basis.filter (· ∈ n.basis)).toFinset = m.basis.toFinset ∩ n.basis.toFinset := by ext g; simp
  rw [e1, e2, Finset.card_union_add_card_inter]

variable [build : Build]

/-- Elements over the same module do not gain generators by `+`; otherwise the ranks add up, less the generators in common. -/
theorem add_rank_eq {x y z : Elt P R} (hx : x.WF) (hy : y.WF) (h : x.add y = .ok z) :
    z.mod.basis.length + (x.mod.basis.filter (· ∈ y.mod.basis)).length = x.mod.basis.length + y.mod.basis.length := by
  have hz := (add_value hx hy h).1
  have hg := add_module hx hy h
  rw [length_eq_card (basis_nodup hz.mod), length_eq_card (basis_nodup hx.mod), length_eq_card (basis_nodup hy.mod),
    length_eq_card ((basis_nodup hx.mod).filter _)]
  have e1 : z.mod.basis.toFinset = x.mod.basis.toFinset ∪ y.mod.basis.toFinset := by ext g; simp [hg]
  have e2 : (x.mod.basis.filter (· ∈ y.mod.basis)).toFinset = x.mod.basis.toFinset ∩ y.mod.basis.toFinset := by ext g; simp
  rw [e1, e2, Finset.card_union_add_card_inter]

/-- C96. The rank of a sum is at most the sum of the ranks, and not less than the rank of a summand. -/
theorem add_rank {x y z : Elt P R} (hx : x.WF) (hy : y.WF) (h : x.add y = .ok z) :
    z.mod.basis.length ≤ x.mod.basis.length + y.mod.basis.length ∧ x.mod.basis.length ≤ z.mod.basis.length ∧
    y.mod.basis.length ≤ z.mod.basis.length := by
  have hz := (add_value hx hy h).1
  have hg := add_module hx hy h
  refine ⟨by have := add_rank_eq hx hy h; omega, ?_, ?_⟩
  · exact (submodule_rank hx.mod hz.mod ((submodule_iff _ _).2 fun g h => (hg g).2 (.inl h))).1
  · exact (submodule_rank hy.mod hz.mod ((submodule_iff _ _).2 fun g h => (hg g).2 (.inr h))).1

/-- C96. The rank of a product is at most the product of the ranks, unless an operand is zero: then the result has the rank of this operand. -/
theorem mul_rank {x y z : Elt P R} (hx : x.WF) (hy : y.WF) (h : x.mul y = .ok z) :
    (x.toBool = true → y.toBool = true → z.mod.basis.length ≤ x.mod.basis.length * y.mod.basis.length) ∧
    (x.toBool = false → z = x) ∧ (x.toBool = true → y.toBool = false → z = y) := by
  rcases Elt.mul_cases hx hy with ⟨z', h1, wz, -, h2⟩ | ⟨x', h1, -⟩
  · have e : z' = z := by rw [Elt.mul, h1] at h; cases h; rfl
    subst e
    rcases h2 with ⟨hb, rfl⟩ | ⟨hb, hb', rfl⟩ | ⟨hb, hb', -, hm, hk⟩
    · exact ⟨fun h => absurd (hb.symm.trans h) (by decide), fun _ => rfl, fun h => absurd (hb.symm.trans h) (by decide)⟩
    · exact ⟨fun _ h => absurd (hb'.symm.trans h) (by decide), fun h => absurd (hb.symm.trans h) (by decide), fun _ _ => rfl⟩
    · refine ⟨fun _ _ => ?_, fun h => absurd (hb.symm.trans h) (by decide), fun _ h => absurd (hb'.symm.trans h) (by decide)⟩
      rw [length_eq_card (basis_nodup wz.mod), length_eq_card (basis_nodup hx.mod), length_eq_card (basis_nodup hy.mod), ← Finset.card_product]
      let f : RN × RN → RN := fun p => match p.1.mul p.2 with | .ok k => k | _ => p.1
      refine (Finset.card_le_card (t := (x.mod.basis.toFinset ×ˢ y.mod.basis.toFinset).image f) fun k hk' => ?_).trans Finset.card_image_le
      rw [List.mem_toFinset] at hk'
      obtain ⟨g, hg, g', hg', e⟩ := (hk k).1 hk'
      refine Finset.mem_image.2 ⟨(g, g'), Finset.mem_product.2 ⟨List.mem_toFinset.2 hg, List.mem_toFinset.2 hg'⟩, ?_⟩
      simp only [f, e]
  · rw [Elt.mul, h1] at h; cases h

/-- C96. Simplifying leaves exactly as many generators as there are non-zero coefficients, hence no more than before; no element that is equal has fewer (`simplify_rank_minimal`). -/
theorem simplify_rank {x : Elt P R} (hx : x.WF) :
    ∃ y, x.simplify = .ok y ∧ y.mod.basis.length = (x.coeffs.filter fun c => c ≠ 0).length ∧ y.mod.basis.length ≤ x.mod.basis.length := by
  obtain ⟨y, h, wy, -, -, hb, ht⟩ := simplify_spec hx
  have e1 : y.mod.basis.length = y.terms.length := by
    rw [← Elt.terms_fst wy.length, List.length_map]
  have e2 : x.coeffs.filter (fun c => c ≠ 0) = (x.terms.filter fun t => t.2 ≠ 0).map Prod.snd := by
    conv_lhs => rw [← Elt.terms_snd hx.length]
    rw [List.filter_map]; rfl
  refine ⟨y, h, by rw [e1, e2, List.length_map, ht], ?_⟩
  rw [e1, ht]
  refine (List.length_filter_le _ _).trans ?_
  rw [← Elt.terms_fst hx.length, List.length_map]

/-- C96. Simplifying an element leaves no more generators than any element has that is equal to it; in particular, simplified elements that are
equal have the same generators. -/
theorem simplify_rank_minimal {x y x' : Elt P R} (hx : x.WF) (hy : y.WF) (h : x.eq y = .ok true) (hs : x.simplify = .ok x') :
    x'.mod.basis.length ≤ y.mod.basis.length ∧ ∀ y', y.simplify = .ok y' → x'.mod.basis = y'.mod.basis := by
  obtain ⟨z, h1, wz, -, -, hb⟩ := Elt.simplify_spec hx
  rw [hs] at h1; cases h1
  have hf : x.fs = y.fs := by
    rcases Elt.eq_cases hx hy with ⟨b, h2, h3, -⟩ | h2
    · rw [h] at h2; cases h2; exact h3.1 rfl
    · rw [h] at h2; simp at h2
  obtain ⟨w, h2, ww, -, -, hb'⟩ := Elt.simplify_spec hy
  refine ⟨(submodule_rank wz.mod hy.mod ((submodule_iff _ _).2 fun g hg => ?_)).1, fun y' hy' => ?_⟩
  · rw [hb, hf] at hg
    exact (Elt.fs_support_WF hy hg).1
  · rw [h2] at hy'; cases hy'
    exact Mod.eq_of_mem_iff wz.mod.sorted ww.mod.sorted fun g => by rw [hb, hb', hf]

/-- `3 + 2 a - b` has rank 4 over the basis `1, a, b, a b`, and rank 3 once it is simplified; the product with an element of rank 2 has a rank of
at most 8. -/
example : (∃ y, sample.simplify = .ok y ∧ y.mod.basis.length = 3) ∧
    ∃ z, sample.mul sampleB = .ok z ∧ z.mod.basis.length ≤ 8 := by
  refine ⟨?_, ?_⟩
  · obtain ⟨y, h, h1, -⟩ := simplify_rank sample_WF
    exact ⟨y, h, h1⟩
  · obtain ⟨z, -, h, -⟩ := elt_mul_comm_eq sample_WF sampleB_WF sample_unital sampleB_unital rfl
    exact ⟨z, h, (mul_rank sample_WF sampleB_WF h).1 rfl rfl⟩

end ExactReal.Props
