import Verif.Model.Serialize
import Verif.Spec.Heap

/-!
# Archives and histories

`Tree.Denotes tab t tab' d`: the text `t` describes the number `d`, where the numbers `tab` have been read before and `tab'` have been read
afterwards.  An archive need not have been written by the library: it might have been edited by hand or written by another version.
-/

namespace ExactReal.Heap

mutual
/-- The number that an archive describes. -/
inductive Tree.Denotes : List (ℕ × Desc) → Tree → List (ℕ × Desc) → Desc → Prop
  /-- A reference to a number that has been read before. -/
  | shared {tab : List (ℕ × Desc)} {id : ℕ} {d : Desc} : tab.lookup id = some d → Tree.Denotes tab (.shared id) tab d
  | rational {tab : List (ℕ × Desc)} {id : ℕ} {q : ℚ} : Tree.Denotes tab (.rational id q) ((id, .rational q) :: tab) (.rational q)
  | random {tab : List (ℕ × Desc)} {id : ℕ} {seed : UInt32} :
      Tree.Denotes tab (.random id seed) ((id, .monomial (.single (.random seed) 1)) :: tab) (.monomial (.single (.random seed) 1))
  /-- Leading digits and a random number for the other digits. -/
  | constrained {tab tab' : List (ℕ × Desc)} {id : ℕ} {initial : ℚ} {e : ℤ} {t : Tree} {seed : UInt32} :
      Tree.Denotes tab t tab' (.monomial (.single (.random seed) 1)) →
      Tree.Denotes tab (.constrained id initial e t) ((id, .monomial (.single (.constrained initial e seed) 1)) :: tab')
        (.monomial (.single (.constrained initial e seed) 1))
  /-- A product of at least two random numbers. -/
  | product {tab tab' : List (ℕ × Desc)} {id : ℕ} {ts : Trees} {f : AtomDesc →₀ ℕ} :
      Trees.Denotes tab ts tab' f → 2 ≤ f.sum (fun _ n => n) →
      Tree.Denotes tab (.product id ts) ((id, .monomial f) :: tab') (.monomial f)
/-- The product that a map describes: its keys are distinct random numbers, the exponents are positive. -/
inductive Trees.Denotes : List (ℕ × Desc) → Trees → List (ℕ × Desc) → (AtomDesc →₀ ℕ) → Prop
  | nil {tab : List (ℕ × Desc)} : Trees.Denotes tab .nil tab 0
  | cons {tab tab' tab'' : List (ℕ × Desc)} {t : Tree} {n : ℕ} {rest : Trees} {a : AtomDesc} {f : AtomDesc →₀ ℕ} :
      Tree.Denotes tab t tab' (.monomial (.single a 1)) → 0 < n → Trees.Denotes tab' rest tab'' f → f a = 0 →
      Trees.Denotes tab (.cons t n rest) tab'' (.single a n + f)
end

/-- The numbers that a vector of numbers in an archive describes. -/
inductive BasisDenotes : List (ℕ × Desc) → List Tree → List (ℕ × Desc) → List Desc → Prop
  | nil {tab : List (ℕ × Desc)} : BasisDenotes tab [] tab []
  | cons {tab tab' tab'' : List (ℕ × Desc)} {t : Tree} {ts : List Tree} {d : Desc} {ds : List Desc} :
      t.Denotes tab tab' d → BasisDenotes tab' ts tab'' ds → BasisDenotes tab (t :: ts) tab'' (d :: ds)

/-- The states that a history can lead to, with arbitrary (valid) allocators. Archives that are loaded have been written by a process (maybe
another one) in such a state (`load`), or they describe a number (`read`). -/
inductive Reach (gen : Generators) : State → Prop
  | init : Reach gen init
  | step {s s' : State} {alloc : Alloc} {e : Event} {r : Res} :
      Reach gen s → alloc.Valid → step gen alloc s e = some (s', r) → Reach gen s'
  | load {s s₀ : State} {alloc : Alloc} {p₀ : Ptr} {written : List Addr} {t : Tree} :
      Reach gen s → alloc.Valid → Reach gen s₀ → s₀.next ≤ 2 ^ 64 → s₀.save 3 [] p₀ = some (written, t) →
      Reach gen (s.load alloc [] t).1
  | read {s : State} {alloc : Alloc} {t : Tree} {tab : List (ℕ × Desc)} {d : Desc} :
      Reach gen s → alloc.Valid → t.Denotes [] tab d → Reach gen (s.load alloc [] t).1

/-- A history that leads from one state to another. -/
inductive Evolves (gen : Generators) (s : State) : State → Prop
  | refl : Evolves gen s s
  | step {s₁ s₂ : State} {alloc : Alloc} {e : Event} {r : Res} :
      Evolves gen s s₁ → alloc.Valid → Heap.step gen alloc s₁ e = some (s₂, r) → Evolves gen s s₂
  | load {s₁ s₀ : State} {alloc : Alloc} {p₀ : Ptr} {written : List Addr} {t : Tree} :
      Evolves gen s s₁ → alloc.Valid → Reach gen s₀ → s₀.next ≤ 2 ^ 64 → s₀.save 3 [] p₀ = some (written, t) →
      Evolves gen s (s₁.load alloc [] t).1
  | read {s₁ : State} {alloc : Alloc} {t : Tree} {tab : List (ℕ × Desc)} {d : Desc} :
      Evolves gen s s₁ → alloc.Valid → t.Denotes [] tab d → Evolves gen s (s₁.load alloc [] t).1

end ExactReal.Heap
