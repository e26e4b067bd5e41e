import Verif.Model.ArchiveBytes
import Verif.Spec.ArchiveStream

/-!
# Files that are complete, and files that end too early
-/

namespace ExactReal.Heap
open Text

mutual
/-- The numbers in an archive fit into the types that `cereal` writes: 31 bits for the identifiers, `int` and `long` for exponents, 64 bits for sizes; the
leading digits of a number are a floating point number. -/
def Tree.Fits : Tree → Prop
  | .shared id => id < 2 ^ 31
  | .rational id q => id < 2 ^ 31 ∧ (saveMpq q).length < 2 ^ 64
  | .random id _ => id < 2 ^ 31
  | .constrained id i e t => id < 2 ^ 31 ∧ (∃ m k : ℤ, i = m * 2 ^ k) ∧ (saveArf (.fin i)).length < 2 ^ 64 ∧ -2 ^ 63 ≤ e ∧ e < 2 ^ 63 ∧ t.Fits
  | .product id ts => id < 2 ^ 31 ∧ ts.size < 2 ^ 64 ∧ ts.Fits
def Trees.Fits : Trees → Prop
  | .nil => True
  | .cons t e rest => t.Fits ∧ e < 2 ^ 31 ∧ rest.Fits
end

/-- The values that the objects of a process contain are values of their C++ types: the leading digits of a number are an `Arf`, its exponent is a `long`, the
exponents of a product are `int`s; texts and vectors have sizes with 64 bits. -/
def State.Typed (s : State) : Prop := ∀ p o, s.live p = some o →
  match o.data with
  | .rational q => (saveMpq q).length < 2 ^ 64
  | .random _ => True
  | .constrained i e _ => (∃ m k : ℤ, i = m * 2 ^ k) ∧ (saveArf (.fin i)).length < 2 ^ 64 ∧ -2 ^ 63 ≤ e ∧ e < 2 ^ 63
  | .product f _ => f.length < 2 ^ 64 ∧ ∀ x ∈ f, x.2 < 2 ^ 31

/-- A proper prefix: the file ends too early. -/
def CutOff (v w : Bytes) : Prop := v <+: w ∧ v ≠ w

/-- What has been written for `a` is read as `a`, whatever follows; and if something is missing then `cereal` throws. -/
def Codec.Exact {A : Type} (c : Codec A) (a : A) : Prop :=
  (∀ rest, c.fetch (c.bytes a ++ rest) = .ok a rest) ∧ ∀ v, CutOff v (c.bytes a) → c.fetch v = .cereal

variable {P R : Type} [DecidableEq P]

/-- The numbers in what is written fit into the types; rings and coefficients are read as they are written. -/
def Item.Fits (ring : Codec P) (coefficient : Codec R) : Item P R → Prop
  | .number t => t.Fits
  | .element (.shared id) cs => id < 2 ^ 31 ∧ cs.length < 2 ^ 64 ∧ ∀ c ∈ cs, coefficient.Exact c
  | .element (.module id ts r) cs => (id < 2 ^ 31 ∧ ts.length < 2 ^ 64 ∧ (∀ t ∈ ts, t.Fits) ∧ ring.Exact r) ∧
      cs.length < 2 ^ 64 ∧ ∀ c ∈ cs, coefficient.Exact c

/-- The process from which something has been written contains values of the C++ types only; its ring and the coefficients are read as they are written. -/
def Source.Typed (ring : Codec P) (coefficient : Codec R) : Source P R → Prop
  | .number s _ => s.Typed
  | .element st m cs => st.base.Typed ∧ (∀ o, st.live m = some o → o.basis.length < 2 ^ 64 ∧ ring.Exact o.ring) ∧ cs.length < 2 ^ 64 ∧
      ∀ c ∈ cs, coefficient.Exact c

/-- The bytes of a file. -/
def fileBytes (approx : ℚ → UInt64) (ring : Codec P) (coefficient : Codec R) (l : List (Item P R)) : Bytes :=
  (l.map fun i => i.bytes approx ring coefficient).flatten

/-- Nothing that the program had before has been affected: the numbers and modules are alive and the same, the program still has its pointers to
them; numbers and modules are unique. -/
structure Unharmed (st st' : MState P) : Prop where
  numbers : ∀ p o, st.base.live p = some o → st'.base.live p = some o ∧ st'.base.desc p = st.base.desc p
  roots : ∀ p, st.base.roots.count p ≤ st'.base.roots.count p
  modules : ∀ m o, st.live m = some o → st'.live m = some o
  mroots : ∀ m, st.mroots.count m ≤ st'.mroots.count m
  unique : ∀ p q, (st'.base.live p).isSome → (st'.base.live q).isSome → st'.base.desc p = st'.base.desc q → p = q
  munique : ∀ m o m' o', st'.live m = some o → st'.live m' = some o' → o.ring = o'.ring → o.basis = o'.basis → m = m'

/-- Read one thing after the other until there is an exception: what the caller got (and the state at that time), the state at the end, and whether
there was no exception. -/
def Reader.fetchFile (alloc : Alloc) (malloc : MAlloc P) (n : ℕ) (ring : Codec P) (coefficient : Codec R) :
    List Reader.Wanted → Reader P → Bytes → List (Reader P × Answer R) × Reader P × Bool
  | [], r, _ => ([], r, true)
  | w :: ws, r, b =>
    match fetch alloc malloc n ring coefficient w r b with
    | (r', .ok a rest) => ((r', a) :: (fetchFile alloc malloc n ring coefficient ws r' rest).1, (fetchFile alloc malloc n ring coefficient ws r' rest).2)
    | (r', _) => ([], r', false)

/-- `FetchesFrom gen ring coefficient r l`: a process has read `l` from a file in the course of its history.  Between two calls the program does
anything, but objects that the archive holds on to are not destroyed.  It might close the file and open another one (`reopen`), also after an exception
because the file ended too early (`cut`; `l₁` has been read before). -/
inductive FetchesFrom (gen : Generators) (approx : ℚ → UInt64) (ring : Codec P) (coefficient : Codec R) : Reader P → List (Item P R) → Prop
  | start {st : MState P} : MReach gen st → FetchesFrom gen approx ring coefficient ⟨st, [], []⟩ []
  | progress {r : Reader P} {l : List (Item P R)} {st : MState P} : FetchesFrom gen approx ring coefficient r l → MEvolves gen r.proc st →
      (∀ x ∈ r.numbers, (st.base.live x.2).isSome) → (∀ x ∈ r.modules, (st.live x.2).isSome) →
      FetchesFrom gen approx ring coefficient { r with proc := st } l
  | fetch {r r' : Reader P} {l : List (Item P R)} {alloc : Alloc} {malloc : MAlloc P} {n : ℕ} {i : Item P R} {a : Answer R} {rest : Bytes} :
      FetchesFrom gen approx ring coefficient r l → alloc.Valid → malloc.Valid → 3 ≤ n → i.Fits ring coefficient →
      (r.read alloc malloc i).1.proc.base.next ≤ 2 ^ 64 →
      Reader.fetch alloc malloc n ring coefficient i.wanted r (i.bytes approx ring coefficient ++ rest) = (r', .ok a rest) →
      FetchesFrom gen approx ring coefficient r' (l ++ [i])
  | reopen {r : Reader P} {l₁ l₂ : List (Item P R × Source P R)} {gen' : Generators} {w : Writer P} :
      FetchesFrom gen approx ring coefficient r (l₁.map Prod.fst) → WritesTo gen' true w (l₁ ++ l₂) → w.proc.base.next ≤ 2 ^ 64 →
      FetchesFrom gen approx ring coefficient ⟨r.proc, [], []⟩ []
  | cut {r t : Reader P} {l₁ l₂ : List (Item P R × Source P R)} {i : Item P R} {x : Source P R} {gen' : Generators} {w : Writer P} {alloc : Alloc}
      {malloc : MAlloc P} {n : ℕ} {v : Bytes} {e : Fetched (Answer R)} :
      FetchesFrom gen approx ring coefficient r (l₁.map Prod.fst) → WritesTo gen' true w (l₁ ++ (i, x) :: l₂) → w.proc.base.next ≤ 2 ^ 64 →
      i.Fits ring coefficient → alloc.Valid → malloc.Valid → 3 ≤ n → (r.read alloc malloc i).1.proc.base.next ≤ 2 ^ 64 →
      CutOff v (i.bytes approx ring coefficient) → Reader.fetch alloc malloc n ring coefficient i.wanted r v = (t, e) →
      FetchesFrom gen approx ring coefficient ⟨t.proc, [], []⟩ []

end ExactReal.Heap
