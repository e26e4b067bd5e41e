import Verif.Spec.ArchiveBytes
import Verif.Lemma.ArchiveStream
import Verif.Props.Text
import Verif.Lemma.Dyadic

/-! # Reading complete and incomplete files -/

namespace ExactReal.Heap
open Text State

/-! ### Functions that read all of `w` -/

/-- In the state `s`, when the file continues with `w`, then all of `w` is read, the state is `s'` and the result is `a`; if the file continues with only a
part of `w` then `cereal` throws in a state with `Q`. -/
structure Serves {σ α : Type} (Q : σ → Prop) (x : Fetch σ α) (w : Bytes) (s s' : σ) (a : α) : Prop where
  full : ∀ rest, x s (w ++ rest) = (s', .ok a rest)
  cut : ∀ v, CutOff v w → ∃ t, x s v = (t, .cereal) ∧ Q t

namespace Serves
variable {σ α β : Type} {Q Q' : σ → Prop}

theorem weaken {x : Fetch σ α} {w : Bytes} {s s' : σ} {a : α} (h : Serves Q x w s s' a) (hq : ∀ t, Q t → Q' t) : Serves Q' x w s s' a :=
  ⟨h.full, fun v hv => by obtain ⟨t, h1, h2⟩ := h.cut v hv; exact ⟨t, h1, hq t h2⟩⟩

theorem pure' (s : σ) (a : α) : Serves Q (Pure.pure a) [] s s a :=
  ⟨fun _ => rfl, fun v hv => absurd (List.prefix_nil.1 hv.1) hv.2⟩

theorem act' (f : σ → σ × α) (s : σ) : Serves Q (Fetch.act f) [] s (f s).1 (f s).2 :=
  ⟨fun _ => rfl, fun v hv => absurd (List.prefix_nil.1 hv.1) hv.2⟩

theorem bind' {x : Fetch σ α} {f : α → Fetch σ β} {w₁ w₂ : Bytes} {s s₁ s₂ : σ} {a : α} {b : β} (h₁ : Serves Q x w₁ s s₁ a)
    (h₂ : Serves Q (f a) w₂ s₁ s₂ b) : Serves Q (x >>= f) (w₁ ++ w₂) s s₂ b := by
  constructor
  · intro rest
    show Fetch.bind x f s _ = _
    rw [Fetch.bind, List.append_assoc, h₁.full]
    exact h₂.full rest
  · rintro v ⟨⟨u, hu⟩, hne⟩
    show ∃ t, Fetch.bind x f s v = _ ∧ _
    rcases List.append_eq_append_iff.1 hu with ⟨c, h1, h2⟩ | ⟨c, h1, h2⟩
    · by_cases hc : c = []
      · subst hc
        rw [List.append_nil] at h1
        subst h1
        simp only [List.nil_append] at h2
        subst h2
        obtain ⟨t, h3, h4⟩ := h₂.cut [] ⟨List.nil_prefix, fun e => hne (by rw [← e]; simp)⟩
        refine ⟨t, ?_, h4⟩
        have := h₁.full []
        rw [List.append_nil] at this
        rw [Fetch.bind, this]
        exact h3
      · obtain ⟨t, h3, h4⟩ := h₁.cut v ⟨⟨c, h1.symm⟩, fun e => hc (by rw [e] at h1; simpa using h1)⟩
        exact ⟨t, by rw [Fetch.bind, h3], h4⟩
    · obtain ⟨t, h3, h4⟩ := h₂.cut c ⟨⟨u, h2.symm⟩, fun e => hne (by rw [h1, e])⟩
      exact ⟨t, by rw [Fetch.bind, h1, h₁.full]; exact h3, h4⟩

/-- Something that needs no bytes comes last. -/
theorem bind_pure {x : Fetch σ α} {f : α → Fetch σ β} {w : Bytes} {s s₁ s₂ : σ} {a : α} {b : β} (h₁ : Serves Q x w s s₁ a)
    (h₂ : Serves Q (f a) [] s₁ s₂ b) : Serves Q (x >>= f) w s s₂ b := by
  have := h₁.bind' h₂
  rwa [List.append_nil] at this

/-- Something that needs no bytes comes first. -/
theorem pure_bind {x : Fetch σ α} {f : α → Fetch σ β} {w : Bytes} {s s₁ s₂ : σ} {a : α} {b : β} (h₁ : Serves Q x [] s s₁ a)
    (h₂ : Serves Q (f a) w s₁ s₂ b) : Serves Q (x >>= f) w s s₂ b := h₁.bind' h₂

theorem take' {s : σ} (hs : Q s) (w : Bytes) : Serves Q (Fetch.take w.length) w s s w := by
  constructor
  · intro rest
    simp [Fetch.take, Fetch.read]
  · rintro v ⟨hp, hne⟩
    refine ⟨s, ?_, hs⟩
    have : ¬ w.length ≤ v.length := fun h => hne (List.IsPrefix.eq_of_length hp (le_antisymm hp.length_le h))
    simp only [Fetch.take, Fetch.read, if_neg this]

theorem length_bytesOf (k n : ℕ) : (bytesOf k n).length = k := by
  induction k generalizing n with
  | zero => rfl
  | succ k ih => rw [bytesOf, List.length_cons, ih]

theorem natOf_bytesOf (k n : ℕ) (h : n < 256 ^ k) : Fetch.natOf (bytesOf k n) = n := by
  induction k generalizing n with
  | zero => simp only [pow_zero, Nat.lt_one_iff] at h; rw [h]; rfl
  | succ k ih =>
    rw [bytesOf, Fetch.natOf, ih (n / 256) (by rw [pow_succ] at h; exact Nat.div_lt_of_lt_mul (by omega)), UInt8.toNat_ofNat']
    have := Nat.mod_add_div n 256
    simpa using this

theorem nat' {s : σ} (hs : Q s) {k n : ℕ} (h : n < 256 ^ k) : Serves Q (Fetch.nat k) (bytesOf k n) s s n := by
  have h1 := take' (Q := Q) hs (bytesOf k n)
  rw [length_bytesOf] at h1
  have h2 : Serves Q (Pure.pure (Fetch.natOf (bytesOf k n)) : Fetch σ ℕ) [] s s (Fetch.natOf (bytesOf k n)) := pure' s _
  rw [natOf_bytesOf k n h] at h2
  refine h1.bind_pure (f := fun b => Pure.pure (Fetch.natOf b)) ?_
  rw [natOf_bytesOf k n h]
  exact h2

theorem str' {s : σ} (hs : Q s) {t : Str} (hl : t.length < 2 ^ 64) (hc : ∀ c ∈ t, c.toNat < 256) : Serves Q Fetch.str (bytesOfStr t) s s t := by
  have h1 : Serves Q (Fetch.nat 8) (bytesOf 8 t.length) s s t.length := nat' hs (by rw [show (256 : ℕ) ^ 8 = 2 ^ 64 by norm_num]; exact hl)
  have h2 := take' (Q := Q) hs (t.map fun c => UInt8.ofNat c.toNat)
  rw [List.length_map] at h2
  refine h1.bind' (f := fun n => Fetch.take n >>= fun b => Pure.pure (b.map fun c => Char.ofNat c.toNat)) (h2.bind_pure ?_)
  have : ((t.map fun c => UInt8.ofNat c.toNat).map fun c => Char.ofNat c.toNat) = t := by
    rw [List.map_map]
    conv_rhs => rw [← List.map_id t]
    apply List.map_congr_left
    intro c h
    show Char.ofNat (UInt8.ofNat c.toNat).toNat = c
    rw [UInt8.toNat_ofNat', Nat.mod_eq_of_lt (by simpa using hc c h), Char.ofNat_toNat]
  conv in (List.map (fun c => Char.ofNat c.toNat) _) => rw [this]
  exact pure' s t

end Serves

/-! ### Strings -/

theorem digitChar_lt {n : ℕ} (h : n < 16) : (digitChar n).toNat < 256 := by
  interval_cases n <;> decide

theorem getStr_ascii {base : ℕ} (h2 : 2 ≤ base) (hb : base ≤ 16) (z : ℤ) : ∀ c ∈ getStr base z, c.toNat < 256 := by
  intro c hc
  rw [getStr, List.mem_append] at hc
  rcases hc with hc | hc
  · split_ifs at hc
    · simp at hc; subst hc; decide
    · cases hc
  · split_ifs at hc
    · simp at hc; subst hc; decide
    · obtain ⟨n, hn, rfl⟩ := List.mem_map.1 hc
      exact digitChar_lt ((Nat.digits_lt_base (by omega) (List.mem_reverse.1 hn)).trans_le hb)

theorem saveMpz_ascii (z : ℤ) : ∀ c ∈ saveMpz z, c.toNat < 256 := getStr_ascii (by norm_num) (by norm_num) z

theorem saveMpq_ascii (q : ℚ) : ∀ c ∈ saveMpq q, c.toNat < 256 := by
  intro c hc
  rw [saveMpq, List.mem_append] at hc
  rcases hc with hc | hc
  · exact getStr_ascii (by norm_num) (by norm_num) _ c hc
  · split_ifs at hc
    · cases hc
    · rcases List.mem_cons.1 hc with rfl | hc
      · decide
      · exact getStr_ascii (by norm_num) (by norm_num) _ c hc

theorem saveArf_ascii (x : XArf) : ∀ c ∈ saveArf x, c.toNat < 256 := by
  have key : ∀ a b : ℤ, ∀ c ∈ getStr 16 a ++ ' ' :: getStr 16 b, c.toNat < 256 := by
    intro a b c hc
    rcases List.mem_append.1 hc with hc | hc
    · exact getStr_ascii (by norm_num) le_rfl _ c hc
    · rcases List.mem_cons.1 hc with rfl | hc
      · decide
      · exact getStr_ascii (by norm_num) le_rfl _ c hc
  cases x <;> exact key _ _

namespace Serves
variable {σ α : Type} {Q : σ → Prop}

theorem mpz' {s : σ} (hs : Q s) {z : ℤ} (hl : (saveMpz z).length < 2 ^ 64) : Serves Q Fetch.mpz (bytesOfStr (saveMpz z)) s s z := by
  refine (str' hs hl (saveMpz_ascii z)).bind_pure ?_
  rw [Props.mpz_text]
  exact pure' s z

theorem mpq' {s : σ} (hs : Q s) {q : ℚ} (hl : (saveMpq q).length < 2 ^ 64) : Serves Q Fetch.mpq (bytesOfStr (saveMpq q)) s s q := by
  refine (str' hs hl (saveMpq_ascii q)).bind_pure ?_
  rw [Props.mpq_text]
  refine (pure' (Q := Q) s (q.num, (q.den : ℤ))).bind_pure ?_
  rw [if_pos ⟨Int.natCast_pos.2 q.pos, by simpa using q.reduced⟩]
  have : ((q.num : ℚ) / ((q.den : ℤ) : ℚ)) = q := by simpa using Rat.num_div_den q
  show Serves Q (Pure.pure ((q.num : ℚ) / ((q.den : ℤ) : ℚ))) _ _ _ _
  rw [this]
  exact pure' s q

theorem arf' {s : σ} (hs : Q s) {q : ℚ} (hd : ∃ m k : ℤ, q = m * 2 ^ k) (hl : (saveArf (.fin q)).length < 2 ^ 64) (a : UInt64) :
    Serves Q Fetch.arf (bytesOfStr (saveArf (.fin q)) ++ bytesOf 8 a.toNat) s s q := by
  refine (str' hs hl (saveArf_ascii _)).bind' ?_
  refine (nat' hs (n := a.toNat) (k := 8) (by have := a.toNat_lt; norm_num at this ⊢; exact this)).bind_pure ?_
  rw [Props.arf_text (.fin q) (by intro q' h; injection h with h; subst h; exact hd)]
  exact (pure' (Q := Q) s (XArf.fin q)).bind_pure (pure' s q)

theorem long' {s : σ} (hs : Q s) {e : ℤ} (h1 : -2 ^ 63 ≤ e) (h2 : e < 2 ^ 63) : Serves Q Fetch.long (bytesOf 8 (e % 2 ^ 64).toNat) s s e := by
  refine (nat' hs (n := (e % 2 ^ 64).toNat) (k := 8) (by norm_num; omega)).bind_pure ?_
  have : (if (e % 2 ^ 64).toNat < 2 ^ 63 then (((e % 2 ^ 64).toNat : ℕ) : ℤ) else (((e % 2 ^ 64).toNat : ℕ) : ℤ) - 2 ^ 64) = e := by
    split_ifs <;> omega
  rw [this]
  exact pure' s e

end Serves

/-! ### Real numbers -/

/-- Numbers have been made in the meantime, nothing else has happened. -/
structure Ahead (s t : State) : Prop where
  inv : Inv t
  ext : Ext s t
  grows : Grows s t
  later : Later s t

theorem Ahead.rfl {s : State} (h : Inv s) : Ahead s s := ⟨h, Ext.rfl, Grows.rfl, Later.rfl⟩
theorem Ahead.trans {a b c : State} (h : Ahead a b) (h' : Ahead b c) : Ahead a c :=
  ⟨h'.inv, h.ext.trans h'.ext, h.grows.trans h'.grows, h.later.trans h'.later⟩

section
variable {P : Type} [DecidableEq P]

/-- The reader has made numbers, nothing else has happened. -/
structure Reader.Ahead (r t : Reader P) : Prop where
  proc : t.proc = { r.proc with base := t.proc.base }
  modules : t.modules = r.modules
  base : Heap.Ahead r.proc.base t.proc.base

theorem Reader.Ahead.rfl {r : Reader P} (h : Inv r.proc.base) : r.Ahead r := ⟨by cases r; rfl, by cases r; rfl, Heap.Ahead.rfl h⟩
theorem Reader.Ahead.trans {a b c : Reader P} (h : a.Ahead b) (h' : b.Ahead c) : a.Ahead c :=
  ⟨by rw [h'.proc, h.proc], h'.modules.trans h.modules, h.base.trans h'.base⟩

/-- The reader has read numbers. -/
def Reader.after {α : Type} (r : Reader P) (x : State × List (ℕ × Ptr) × α) : Reader P :=
  { r with proc := { r.proc with base := x.1 }, numbers := x.2.1 }

theorem kinds_ne : kindRandom ≠ kindRational ∧ kindConstrained ≠ kindRational ∧ kindConstrained ≠ kindRandom ∧ kindProduct ≠ kindRational ∧
    kindProduct ≠ kindRandom ∧ kindProduct ≠ kindConstrained := by decide

theorem kinds_ascii : (∀ c ∈ kindRational, c.toNat < 256) ∧ (∀ c ∈ kindRandom, c.toNat < 256) ∧ (∀ c ∈ kindConstrained, c.toNat < 256) ∧
    (∀ c ∈ kindProduct, c.toNat < 256) := by decide

theorem kinds_length : kindRational.length < 2 ^ 64 ∧ kindRandom.length < 2 ^ 64 ∧ kindConstrained.length < 2 ^ 64 ∧ kindProduct.length < 2 ^ 64 := by decide

mutual
/-- The recursion depth. -/
def Tree.depth : Tree → ℕ
  | .shared _ => 1
  | .rational _ _ => 1
  | .random _ _ => 1
  | .constrained _ _ _ t => t.depth + 1
  | .product _ ts => ts.depth + 1
def Trees.depth : Trees → ℕ
  | .nil => 0
  | .cons t _ rest => max t.depth rest.depth
end

namespace Serves
open Reader

theorem onBase' {α : Type} {Q : Reader P → Prop} (f : State → State × α) (r : Reader P) :
    Serves Q (onBase f) [] r { r with proc := { r.proc with base := (f r.proc.base).1 } } (f r.proc.base).2 := act' _ _

theorem register' {Q : Reader P → Prop} (id : ℕ) (p : Ptr) (r : Reader P) : Serves Q (register id p) [] r { r with numbers := (id, p) :: r.numbers } p :=
  act' _ _

theorem id' {σ : Type} {Q : σ → Prop} {s : σ} (hs : Q s) {first : Bool} {id : ℕ} (h : id < 2 ^ 31) :
    Serves Q (Fetch.nat 4) (bytesOfId first id) s s (if first then 2 ^ 31 + id else id) :=
  nat' hs (by norm_num; split_ifs <;> omega)

theorem known' {Q : Reader P → Prop} {r : Reader P} {id : ℕ} {p : Ptr} (h : r.numbers.lookup id = some p) : Serves Q (known id) [] r r p := by
  refine (act' (Q := Q) (fun s => (s, s)) r).bind_pure ?_
  simp only [h]
  exact pure' r p

/-- A number that has not been written before. -/
theorem first {Q : Reader P → Prop} {alloc : Alloc} {n : ℕ} {r r' : Reader P} (hr : Q r) {id : ℕ} (hid : id < 2 ^ 31) {kind : Str}
    (hk : ∀ c ∈ kind, c.toNat < 256) (hl : kind.length < 2 ^ 64) {w : Bytes} {p : Ptr}
    (h : Serves Q (if kind = kindRational then do
        let q ← Fetch.mpq
        let p ← onBase fun s => s.rational alloc q
        register (2 ^ 31 + id - 2 ^ 31) p
      else if kind = kindRandom then do
        let seed ← Fetch.nat 4
        let p ← onBase fun s => s.random alloc (UInt32.ofNat seed)
        register (2 ^ 31 + id - 2 ^ 31) p
      else if kind = kindConstrained then do
        let i ← Fetch.arf
        let e ← Fetch.long
        let inner ← fetchNumber alloc n
        let p ← onBase fun s => s.constrained alloc i e inner
        register (2 ^ 31 + id - 2 ^ 31) p
      else if kind = kindProduct then do
        let k ← Fetch.nat 8
        let f ← fetchEntries (fetchNumber alloc n) k []
        let p ← onBase fun s => s.productFactory alloc (s.byId f)
        register (2 ^ 31 + id - 2 ^ 31) p
      else Fetch.throws .logicError) w r r' p) :
    Serves Q (fetchNumber alloc (n + 1)) (bytesOfId true id ++ (bytesOfStr kind ++ w)) r r' p := by
  rw [fetchNumber]
  refine (id' hr (first := true) hid).bind' ?_
  simp only [if_true]
  rw [if_neg (by omega)]
  exact (str' hr hl hk).bind' h

end Serves

open Reader Serves in
mutual
/-- A number is read from its bytes as from the archive. -/
theorem fetch_tree (approx : ℚ → UInt64) {alloc : Alloc} (ha : alloc.Valid) {tab tab' : List (ℕ × Desc)} {d : Desc} (t : Tree) (hd : t.Denotes tab tab' d)
    (hf : t.Fits) {n : ℕ} (hn : t.depth ≤ n) {r : Reader P} (h : Inv r.proc.base) (hk : Known r.proc.base tab r.numbers)
    (hb : (r.proc.base.load alloc r.numbers t).1.next ≤ 2 ^ 64) :
    ∃ q, (r.proc.base.load alloc r.numbers t).2.2 = some q ∧
      Serves (Reader.Ahead r) (fetchNumber alloc n) (t.bytes approx) r (r.after (r.proc.base.load alloc r.numbers t)) q := by
  have L := load_denotes ha t hd h hk hb
  have r0 : r.Ahead r := Reader.Ahead.rfl h
  match t with
  | .shared id =>
    obtain ⟨n, rfl⟩ : ∃ m, n = m + 1 := ⟨n - 1, by simp only [Tree.depth] at hn; omega⟩
    simp only [Tree.Fits] at hf
    rw [State.load] at L ⊢
    obtain ⟨q, h1, h2, h3⟩ := L.num
    refine ⟨q, h1, ?_⟩
    simp only at h1
    rw [fetchNumber, Tree.bytes]
    refine (id' r0 (first := false) hf).bind_pure ?_
    simp only [Bool.false_eq_true, if_false]
    rw [if_pos hf]
    exact known' h1
  | .rational id q =>
    obtain ⟨n, rfl⟩ : ∃ m, n = m + 1 := ⟨n - 1, by simp only [Tree.depth] at hn; omega⟩
    simp only [Tree.Fits] at hf
    rw [State.load]
    refine ⟨_, rfl, ?_⟩
    rw [Tree.bytes]
    refine first r0 hf.1 kinds_ascii.1 kinds_length.1 ?_
    rw [if_pos rfl]
    refine (mpq' r0 hf.2).bind_pure ((onBase' _ r).bind_pure ?_)
    rw [Nat.add_sub_cancel_left]
    exact register' _ _ _
  | .random id seed =>
    obtain ⟨n, rfl⟩ : ∃ m, n = m + 1 := ⟨n - 1, by simp only [Tree.depth] at hn; omega⟩
    simp only [Tree.Fits] at hf
    rw [State.load]
    refine ⟨_, rfl, ?_⟩
    rw [Tree.bytes]
    refine first r0 hf kinds_ascii.2.1 kinds_length.2.1 ?_
    rw [if_neg kinds_ne.1, if_pos rfl]
    refine (nat' r0 (n := seed.toNat) (by have := seed.toNat_lt; norm_num at this ⊢; exact this)).bind_pure ?_
    rw [UInt32.ofNat_toNat, Nat.add_sub_cancel_left]
    exact (onBase' _ r).bind_pure (register' _ _ _)
  | .constrained id i e t =>
    obtain ⟨n, rfl⟩ : ∃ m, n = m + 1 := ⟨n - 1, by simp only [Tree.depth] at hn; omega⟩
    simp only [Tree.Fits] at hf
    simp only [Tree.depth, add_le_add_iff_right] at hn
    cases hd with
    | @constrained _ tab1 _ _ _ _ seed hd =>
      have hb1 : (r.proc.base.load alloc r.numbers t).1.next ≤ 2 ^ 64 := by
        refine le_trans ?_ hb
        rw [State.load]
        rcases hx : r.proc.base.load alloc r.numbers t with ⟨s', tab', _ | q⟩
        · exact le_rfl
        · exact next_get _ _ _ _ _
      obtain ⟨q, hq, hs⟩ := fetch_tree approx ha t hd hf.2.2.2.2.2 hn h hk hb1
      rw [State.load]
      rcases hx : r.proc.base.load alloc r.numbers t with ⟨s1, lt1, r1⟩
      rw [hx] at hq hs
      simp only at hq
      subst hq
      refine ⟨_, rfl, ?_⟩
      rw [Tree.bytes]
      refine first r0 hf.1 kinds_ascii.2.2.1 kinds_length.2.2.1 ?_
      rw [if_neg kinds_ne.2.1, if_neg kinds_ne.2.2.1, if_pos rfl, ← List.append_assoc (bytesOfStr _)]
      refine (arf' r0 hf.2.1 hf.2.2.1 (approx i)).bind' ?_
      refine (long' r0 hf.2.2.2.1 hf.2.2.2.2.1).bind' (hs.bind_pure ?_)
      rw [Nat.add_sub_cancel_left]
      exact (onBase' _ _).bind_pure (register' _ _ _)
  | .product id ts =>
    obtain ⟨n, rfl⟩ : ∃ m, n = m + 1 := ⟨n - 1, by simp only [Tree.depth] at hn; omega⟩
    simp only [Tree.Fits] at hf
    simp only [Tree.depth, add_le_add_iff_right] at hn
    cases hd with
    | @product _ tab1 _ _ f hd hdeg =>
      have hb1 : (r.proc.base.loadAll alloc r.numbers [] ts).1.next ≤ 2 ^ 64 := by
        refine le_trans ?_ hb
        rw [State.load]
        rcases hx : r.proc.base.loadAll alloc r.numbers [] ts with ⟨s', tab', _ | q⟩
        · exact le_rfl
        · exact next_get _ _ _ _ _
      obtain ⟨q, hq, hs⟩ := fetch_trees approx ha ts hd hf.2.2 hn h hk (f := []) hb1
      rw [State.load]
      rcases hx : r.proc.base.loadAll alloc r.numbers [] ts with ⟨s1, lt1, r1⟩
      rw [hx] at hq hs
      simp only at hq
      subst hq
      refine ⟨_, rfl, ?_⟩
      rw [Tree.bytes]
      refine first r0 hf.1 kinds_ascii.2.2.2 kinds_length.2.2.2 ?_
      rw [if_neg kinds_ne.2.2.2.1, if_neg kinds_ne.2.2.2.2.1, if_neg kinds_ne.2.2.2.2.2, if_pos rfl]
      refine (nat' r0 (n := ts.size) (by have := hf.2.1; norm_num at this ⊢; exact this)).bind' (hs.bind_pure ?_)
      rw [Nat.add_sub_cancel_left]
      exact (onBase' _ _).bind_pure (register' _ _ _)
/-- The entries of a map are read from their bytes as from the archive. -/
theorem fetch_trees (approx : ℚ → UInt64) {alloc : Alloc} (ha : alloc.Valid) {tab tab' : List (ℕ × Desc)} {g : AtomDesc →₀ ℕ} (ts : Trees)
    (hd : ts.Denotes tab tab' g) (hf : ts.Fits) {n : ℕ} (hn : ts.depth ≤ n) {r : Reader P} (h : Inv r.proc.base) (hk : Known r.proc.base tab r.numbers)
    {f : List (Ptr × ℕ)} (hb : (r.proc.base.loadAll alloc r.numbers f ts).1.next ≤ 2 ^ 64) :
    ∃ q, (r.proc.base.loadAll alloc r.numbers f ts).2.2 = some q ∧
      Serves (Reader.Ahead r) (fetchEntries (fetchNumber alloc n) ts.size f) (ts.bytes approx) r (r.after (r.proc.base.loadAll alloc r.numbers f ts)) q := by
  match ts with
  | .nil =>
    rw [State.loadAll]
    refine ⟨f, rfl, ?_⟩
    rw [Trees.size, fetchEntries, Trees.bytes]
    exact pure' r f
  | .cons t k rest =>
    simp only [Trees.Fits] at hf
    simp only [Trees.depth, max_le_iff] at hn
    cases hd with
    | @cons _ tab1 _ _ _ _ a g hd hk0 hrest hga =>
      have hb1 : (r.proc.base.load alloc r.numbers t).1.next ≤ 2 ^ 64 := by
        refine le_trans ?_ hb
        rw [State.loadAll]
        rcases hx : r.proc.base.load alloc r.numbers t with ⟨s', tab', _ | q⟩
        · exact le_rfl
        · exact next_loadAll _ _ _ _ _
      have L := load_denotes ha t hd h hk hb1
      have hgr := grows_load alloc r.proc.base r.numbers t
      have hla := later_load alloc r.proc.base r.numbers t
      obtain ⟨q, hq, hs⟩ := fetch_tree approx ha t hd hf.1 hn.1 h hk hb1
      rw [State.loadAll] at hb ⊢
      rcases hx : r.proc.base.load alloc r.numbers t with ⟨s1, lt1, r1⟩
      rw [hx] at hq hs L hb hgr hla
      simp only at hq
      subst hq
      simp only at hb ⊢
      have r1 : r.Ahead (r.after (s1, lt1, some q)) := ⟨rfl, rfl, ⟨L.inv, L.ext, hgr, hla⟩⟩
      obtain ⟨q', hq', hs'⟩ := fetch_trees approx ha rest hrest hf.2.2 hn.2 (r := r.after (s1, lt1, some q)) L.inv L.known
        (f := s1.insertKey f q k) hb
      refine ⟨q', hq', ?_⟩
      rw [Trees.size, fetchEntries, Trees.bytes]
      refine hs.bind' ((nat' r1 (n := k) (by have := hf.2.1; norm_num at this ⊢; omega)).bind' ?_)
      rw [if_pos hf.2.1]
      exact (act' _ _).pure_bind (hs'.weaken fun t ht => r1.trans ht)
end
end

/-! ### The recursion depth -/

theorem not_product {a : AtomDesc} {f : AtomDesc →₀ ℕ} (h : Desc.monomial f = Desc.monomial (.single a 1)) (h2 : 2 ≤ f.sum fun _ n => n) : False := by
  injection h with h
  rw [h, Finsupp.sum_single_index rfl] at h2
  omega

theorem depth_random {tab tab' : List (ℕ × Desc)} {t : Tree} {seed : UInt32} (h : t.Denotes tab tab' (.monomial (.single (.random seed) 1))) : t.depth ≤ 1 := by
  generalize hd : Desc.monomial (.single (.random seed) 1) = d at h
  cases h with
  | shared => simp [Tree.depth]
  | rational => simp [Tree.depth]
  | random => simp [Tree.depth]
  | constrained =>
    injection hd with hd
    rw [Finsupp.single_left_inj one_ne_zero] at hd
    cases hd
  | product _ h2 => exact (not_product hd.symm h2).elim

theorem depth_atom {tab tab' : List (ℕ × Desc)} {t : Tree} {a : AtomDesc} (h : t.Denotes tab tab' (.monomial (.single a 1))) : t.depth ≤ 2 := by
  generalize hd : Desc.monomial (.single a 1) = d at h
  cases h with
  | shared => simp [Tree.depth]
  | rational => simp [Tree.depth]
  | random => simp [Tree.depth]
  | constrained h => simpa [Tree.depth] using depth_random h
  | product _ h2 => exact (not_product hd.symm h2).elim

theorem depth_map : ∀ {ts : Trees} {tab tab' : List (ℕ × Desc)} {f : AtomDesc →₀ ℕ}, ts.Denotes tab tab' f → ts.depth ≤ 2
  | .nil, _, _, _, _ => by simp [Trees.depth]
  | .cons t e rest, _, _, _, h => by
    cases h with
    | cons h1 _ h2 _ => exact max_le (depth_atom h1) (depth_map h2)

theorem depth_le {tab tab' : List (ℕ × Desc)} {t : Tree} {d : Desc} (h : t.Denotes tab tab' d) : t.depth ≤ 3 := by
  cases h with
  | shared => simp [Tree.depth]
  | rational => simp [Tree.depth]
  | random => simp [Tree.depth]
  | constrained h => have := depth_random h; simp only [Tree.depth]; omega
  | product h _ => have := depth_map h; simp only [Tree.depth]; omega

/-! ### Elements -/

section
variable {P R : Type} [DecidableEq P]
open Reader Serves

theorem fetch_basis (approx : ℚ → UInt64) {alloc : Alloc} (ha : alloc.Valid) {n : ℕ} (hn : 3 ≤ n) {tab tab' : List (ℕ × Desc)} {ts : List Tree}
    {ds : List Desc} (hd : BasisDenotes tab ts tab' ds) : ∀ (r : Reader P), (∀ t ∈ ts, t.Fits) → Inv r.proc.base → Known r.proc.base tab r.numbers →
      (r.proc.base.loadBasis alloc r.numbers ts).1.next ≤ 2 ^ 64 →
      ∃ qs, (r.proc.base.loadBasis alloc r.numbers ts).2.2 = some qs ∧
        Serves (Reader.Ahead r) (Fetch.times (fetchNumber alloc n) ts.length) (ts.map fun t => t.bytes approx).flatten r
          (r.after (r.proc.base.loadBasis alloc r.numbers ts)) qs := by
  induction hd with
  | nil => intro r _ h hk hb; exact ⟨[], rfl, pure' r _⟩
  | @cons tab tab1 tab2 t ts d ds hd hds ih =>
    intro r hf h hk hb
    rw [State.loadBasis] at hb ⊢
    have hb1 : (r.proc.base.load alloc r.numbers t).1.next ≤ 2 ^ 64 := by
      refine le_trans ?_ hb
      split
      · rename_i h'; rw [h']
        have := (loadBasis_mono alloc ts ‹State› ‹List (ℕ × Ptr)›).2.2
        split
        · rename_i h''; rw [h''] at this; exact this
        · rename_i h''; rw [h''] at this; exact this
      · rename_i h'; rw [h']
    have L := load_denotes ha t hd h hk hb1
    have hgr := grows_load alloc r.proc.base r.numbers t
    have hla := later_load alloc r.proc.base r.numbers t
    obtain ⟨q, hq, hs⟩ := fetch_tree approx ha t hd (hf t (by simp)) ((depth_le hd).trans hn) h hk hb1
    rcases e1 : r.proc.base.load alloc r.numbers t with ⟨s1, lt1, r1⟩
    rw [e1] at L hb hgr hla hq hs
    simp only at hq
    subst hq
    simp only at hb ⊢
    have hb2 : (s1.loadBasis alloc lt1 ts).1.next ≤ 2 ^ 64 := by
      refine le_trans ?_ hb
      split
      · rename_i h''; rw [h'']
      · rename_i h''; rw [h'']
    have r1 : r.Ahead (r.after (s1, lt1, some q)) := ⟨rfl, rfl, ⟨L.inv, L.ext, hgr, hla⟩⟩
    obtain ⟨qs, hqs, hs'⟩ := ih (r.after (s1, lt1, some q)) (fun t ht => hf t (by simp [ht])) L.inv L.known hb2
    change (s1.loadBasis alloc lt1 ts).2.2 = some qs at hqs
    change Serves _ _ _ _ (Reader.after (r.after (s1, lt1, some q)) (s1.loadBasis alloc lt1 ts)) _ at hs'
    rcases e2 : s1.loadBasis alloc lt1 ts with ⟨s2, lt2, r2⟩
    rw [e2] at hqs hs'
    simp only at hqs
    subst hqs
    refine ⟨q :: qs, rfl, ?_⟩
    rw [List.length_cons, Fetch.times, List.map_cons, List.flatten_cons]
    exact hs.bind' ((hs'.weaken fun t ht => r1.trans ht).bind_pure (pure' _ _))

theorem codec' {σ A : Type} {Q : σ → Prop} {s : σ} (hs : Q s) {c : Codec A} {a : A} (h : c.Exact a) : Serves Q (Fetch.read c.fetch) (c.bytes a) s s a :=
  ⟨fun rest => by rw [Fetch.read, h.1 rest], fun v hv => ⟨s, by rw [Fetch.read, h.2 v hv], hs⟩⟩

theorem codecs' {σ A : Type} {Q : σ → Prop} {s : σ} (hs : Q s) {c : Codec A} (as : List A) (h : ∀ a ∈ as, c.Exact a) :
    Serves Q (Fetch.times (Fetch.read c.fetch) as.length) (as.map c.bytes).flatten s s as := by
  induction as with
  | nil => exact pure' s _
  | cons a as ih =>
    rw [List.length_cons, Fetch.times, List.map_cons, List.flatten_cons]
    exact (codec' hs (h a (by simp))).bind' ((ih fun b hb => h b (by simp [hb])).bind_pure (pure' _ _))

/-- What holds when reading has been interrupted: the process is still in order, and what it had is still there. -/
structure Reader.Intact (r t : Reader P) : Prop where
  inv : MState.MInv t.proc
  ext : Ext r.proc.base t.proc.base
  grows : Grows r.proc.base t.proc.base
  modules : ∀ m o, r.proc.live m = some o → t.proc.live m = some o
  mroots : ∀ m, r.proc.mroots.count m ≤ t.proc.mroots.count m

theorem Reader.Ahead.intact {r t : Reader P} (h : r.Ahead t) (hi : MState.MInv r.proc) : r.Intact t := by
  have hp := h.proc
  refine ⟨?_, h.base.ext, h.base.grows, ?_, ?_⟩
  · rw [hp]
    exact MState.minv_base hi h.base.inv h.base.later fun q => (hi.held q).trans (h.base.grows.count q)
  · intro m o ho; rw [hp]; exact ho
  · intro m; rw [hp]

theorem Reader.Intact.rfl {r : Reader P} (h : MState.MInv r.proc) : r.Intact r := ⟨h, Ext.rfl, Grows.rfl, fun _ _ h => h, fun _ => le_rfl⟩

theorem mroots_make (malloc : MAlloc P) (st : MState P) (ring : P) (l : List Ptr) (m : Ptr) :
    st.mroots.count m ≤ (st.make malloc ring l).1.mroots.count m := by
  unfold MState.make
  simp only
  split
  · exact List.count_le_count_cons
  · split_ifs
    · exact List.count_le_count_cons
    · exact le_rfl

/-- Something that has been written is read from its bytes as from the archive. -/
theorem fetch_item (approx : ℚ → UInt64) {ring : Codec P} {coefficient : Codec R} {r : Reader P} {dt dt' : List (ℕ × Desc)}
    {mt mt' : List (ℕ × P × List Desc)} (h : RInv r dt mt) {i : Item P R} {x : Source P R} (hd : i.Denotes dt mt dt' mt' x)
    (hf : i.Fits ring coefficient) {alloc : Alloc} (ha : alloc.Valid) {malloc : MAlloc P} (hm : malloc.Valid) {n : ℕ} (hn : 3 ≤ n)
    (hb : (r.read alloc malloc i).1.proc.base.next ≤ 2 ^ 64) :
    Serves (Reader.Intact r) (fetch alloc malloc n ring coefficient i.wanted) (i.bytes approx ring coefficient) r (r.read alloc malloc i).1
      (r.read alloc malloc i).2 ∧ r.Intact (r.read alloc malloc i).1 := by
  have r0 : r.Intact r := Reader.Intact.rfl h.inv
  obtain ⟨inv', same⟩ := h.read hd ha hm hb
  cases hd with
  | @number _ _ t s p hd =>
    have inv' := inv'.inv
    simp only [Reader.read] at hb inv' ⊢
    have hb' : (r.proc.base.load alloc r.numbers t).1.next ≤ 2 ^ 64 := by
      revert hb
      split <;> rename_i h' <;> rw [h'] <;> exact id
    have L := load_denotes ha t hd h.inv.base h.known hb'
    have hgr := grows_load alloc r.proc.base r.numbers t
    obtain ⟨q, hq, hs⟩ := fetch_tree approx ha t hd hf ((depth_le hd).trans hn) h.inv.base h.known hb'
    rcases e : r.proc.base.load alloc r.numbers t with ⟨s1, tab1, p1⟩
    rw [e] at hq hs inv' L hgr
    simp only at hq
    subst hq
    refine ⟨?_, inv', L.ext.trans (MState.ext_of_heap (Eq.refl _) (Eq.refl _) ⟨[q], (Eq.refl _)⟩), hgr.trans ⟨[q], (Eq.refl _)⟩, fun m o ho => ho, fun m => le_rfl⟩
    simp only [Item.wanted, fetch, Item.bytes]
    refine (hs.weaken fun t ht => ht.intact h.inv).bind_pure ?_
    exact (onBase' (fun s => ({ s with roots := q :: s.roots }, ())) _).bind_pure (pure' _ _)
  | @shared _ id cs st m o hst ho hid =>
    obtain ⟨m', o', h4, h5, h6, h7⟩ := h.modules id _ _ hid
    simp only [Item.Fits] at hf
    have inv' := inv'.inv
    simp only [Reader.read, h4] at inv'
    simp only [Reader.read, h4, Item.wanted, fetch, Item.bytes, MTree.bytes, fetchModule]
    refine ⟨?_, inv', Ext.rfl, Grows.rfl, fun m o ho => ho, fun m => List.count_le_count_cons⟩
    have h1 : Serves (Reader.Intact r) (fetchModule alloc malloc n ring) (bytesOfId false id) r r (m', true) := by
      refine (id' r0 (first := false) hf.1).bind_pure ?_
      simp only [Bool.false_eq_true, if_false]
      rw [if_pos hf.1]
      refine (act' _ _).bind_pure ?_
      simp only [h4]
      exact pure' _ _
    refine h1.bind' ((nat' r0 (n := cs.length) (by have := hf.2.1; norm_num at this ⊢; exact this)).bind' ?_)
    refine (codecs' r0 cs hf.2.2).bind_pure ?_
    simp only [if_true]
    exact (act' (fun r : Reader P => ({ r with proc := { r.proc with mroots := m' :: r.proc.mroots } }, ())) _).bind_pure (pure' _ _)
  | @module _ _ id ts cs st m o hst ho hbd =>
    obtain ⟨m', o₁, o₂, hsame, -⟩ := same
    simp only [Item.Fits] at hf
    have hb' : (r.proc.base.loadBasis alloc r.numbers ts).1.next ≤ 2 ^ 64 := by
      refine le_trans ?_ hb
      simp only [Reader.read]
      split
      · rename_i s tab basis h'
        rw [h']
        have := MState.next_make malloc { r.proc with base := s } o.ring basis
        split <;> rename_i h'' <;> rw [h''] at this <;> exact this.ge
      · rename_i h'
        rw [h']
    obtain ⟨i1, x1, -, -, -⟩ := loadBasis_denotes ha hbd r.proc.base h.inv.base r.numbers h.known hb'
    have hlt := loadBasis_mono alloc ts r.proc.base r.numbers
    obtain ⟨i1, x1, qs, hq, hfa⟩ := loadBasis_denotes ha hbd r.proc.base h.inv.base r.numbers h.known hb'
    obtain ⟨qs', hqs, hs⟩ := fetch_basis approx ha hn hbd r hf.1.2.2.1 h.inv.base h.known hb'
    simp only [Reader.read] at hsame ⊢
    rcases e1 : r.proc.base.loadBasis alloc r.numbers ts with ⟨s1, tab1, r1⟩
    rw [e1] at i1 x1 hqs hlt hs hsame hq hfa
    simp only at hqs hq
    subst hqs
    injection hq with hq
    subst hq
    simp only at hsame ⊢
    have hql : ∀ q ∈ qs', (s1.live q).isSome := by
      simp only at hfa
      clear hs hlt hbd hb' e1 hsame hb x1 i1
      generalize o.basis.map st.base.desc = ds at hfa
      induction hfa with
      | nil => intro q hq; cases hq
      | cons x _ ih =>
        intro q hq
        rcases List.mem_cons.1 hq with rfl | hq
        · exact x.1
        · exact ih q hq
    have a1 : r.Ahead (r.after (s1, tab1, some qs')) := ⟨rfl, rfl, i1, x1, hlt.1, hlt.2.1⟩
    have t1 := a1.intact h.inv
    have hi : MState.MInv ({ r.proc with base := s1 } : MState P) := t1.inv
    have hmk := MState.make_spec hi hm o.ring qs' hql
    have hmr := mroots_make malloc ({ r.proc with base := s1 } : MState P) o.ring qs'
    rcases e2 : ({ r.proc with base := s1 } : MState P).make malloc o.ring qs' with ⟨st2, r2⟩
    rw [e2] at hsame hmk hmr
    cases r2 with
    | ok m2 =>
      simp only at hsame ⊢
      have t2 : r.Intact ⟨st2, tab1, (id, m2) :: r.modules⟩ :=
        ⟨hmk.inv, x1.trans (MState.ext_of_heap hmk.heap hmk.next hmk.grows), hlt.1.trans hmk.grows, fun m o ho => hmk.mlive m o ho, fun m => hmr m⟩
      have h1 : Serves (Reader.Intact r) (fetchModule alloc malloc n ring)
          (bytesOfId true id ++ (bytesOf 8 ts.length ++ ((ts.map fun t => t.bytes approx).flatten ++ ring.bytes o.ring))) r
          ⟨st2, tab1, (id, m2) :: r.modules⟩ (m2, false) := by
        refine (id' r0 (first := true) hf.1.1).bind' ?_
        simp only [if_true]
        rw [if_neg (by omega)]
        refine (nat' r0 (n := ts.length) (by have := hf.1.2.1; norm_num at this ⊢; exact this)).bind' ?_
        refine (hs.weaken fun t ht => ht.intact h.inv).bind' ((codec' t1 hf.1.2.2.2).bind_pure ((act' _ _).bind_pure ?_))
        simp only [Reader.after, e2]
        rw [Nat.add_sub_cancel_left]
        exact act' (fun r : Reader P => ({ r with modules := (id, m2) :: r.modules }, (m2, false))) _
      refine ⟨?_, t2⟩
      simp only [Item.wanted, fetch, Item.bytes, MTree.bytes]
      refine h1.bind' ((nat' t2 (n := cs.length) (by have := hf.2.1; norm_num at this ⊢; exact this)).bind' ?_)
      refine (codecs' t2 cs hf.2.2).bind_pure ?_
      simp only [Bool.false_eq_true, if_false]
      exact (pure' _ _).bind_pure (pure' _ _)
    | throws e => cases hsame
    | abort => cases hsame
    | ub => cases hsame
    | pending => cases hsame

theorem Reader.Intact.unharmed {r t : Reader P} (h : r.Intact t) (hi : MState.MInv r.proc) : Unharmed r.proc t.proc where
  numbers p o ho := ⟨h.ext.live p o ho, desc_ext hi.base h.ext (by simp [ho])⟩
  roots := h.grows.count
  modules := h.modules
  mroots := h.mroots
  unique p q hp hq hd := desc_inj h.inv.base hp hq hd
  munique := h.inv.data_inj

/-- The invariant of a process that has read from files. -/
theorem rinv_of_fetches {gen : Generators} {approx : ℚ → UInt64} {ring : Codec P} {coefficient : Codec R} {r : Reader P} {items : List (Item P R)}
    (hr : FetchesFrom gen approx ring coefficient r items) :
    (∀ {dt : List (ℕ × Desc)} {mt : List (ℕ × P × List Desc)} {l : List (Item P R × Source P R)}, Stream dt mt l → l.map Prod.fst = items →
      r.proc.base.next ≤ 2 ^ 64 → RInv r dt mt) := by
  induction hr with
  | start h =>
    intro dt mt l hs hl hb
    cases hs with
    | nil => exact ⟨MState.minv_of_mreach h hb, fun id d hd => by simp at hd, fun id ring ds hd => by simp at hd⟩
    | snoc => simp at hl
  | progress h he h1 h2 ih =>
    intro dt mt l hs hl hb
    exact (ih hs hl ((next_of_mevolves he).trans hb)).progress he hb h1 h2
  | fetch h ha hm hn hf hb' he ih =>
    intro dt mt l hs hl hb
    cases hs with
    | nil => simp at hl
    | snoc hs hd =>
      simp only [List.map_append, List.map_cons, List.map_nil] at hl
      obtain ⟨h1, h2⟩ := List.append_inj' hl rfl
      injection h2 with h2
      subst h2
      have inv := ih hs h1 ((Reader.next_read _ _ _ _).trans hb')
      have := (fetch_item approx inv hd hf ha hm hn hb').1.full ‹Bytes›
      rw [he] at this
      injection this with e1 e2
      rw [e1]
      exact (inv.read hd ha hm hb').1
  | @reopen r l₁ l₂ gen' w h hw hbw ih =>
    intro dt mt l hs hl hb
    obtain ⟨dt₁, mt₁, -, hs₁⟩ := stream_of_writes hw hbw
    obtain ⟨dt₂, mt₂, hs₂⟩ : ∃ dt mt, Stream dt mt l₁ := by
      cases l₂ with
      | nil => rw [List.append_nil] at hs₁; exact ⟨_, _, hs₁⟩
      | cons y l₂ => obtain ⟨dt₁, mt₁, dt₁', mt₁', hs₁, -⟩ := hs₁.prefix (i := y.1) (x := y.2) (Eq.refl _); exact ⟨_, _, hs₁⟩
    have inv := ih hs₂ (Eq.refl _) hb
    cases hs with
    | nil => exact ⟨inv.inv, fun id d hd => by simp at hd, fun id ring ds hd => by simp at hd⟩
    | snoc => simp at hl
  | cut h hw hbw hf ha hm hn hb' hv he ih =>
    intro dt mt l hs hl hb
    obtain ⟨dt₁, mt₁, -, hs₁⟩ := stream_of_writes hw hbw
    obtain ⟨dt₁, mt₁, dt₁', mt₁', hs₁, hd₁⟩ := hs₁.prefix (Eq.refl _)
    have inv := ih hs₁ (Eq.refl _) ((Reader.next_read _ _ _ _).trans hb')
    obtain ⟨t', h1, h2⟩ := (fetch_item approx inv hd₁ hf ha hm hn hb').1.cut _ hv
    rw [he] at h1
    injection h1 with h1 h3
    subst h1
    cases hs with
    | nil => exact ⟨h2.inv, fun id d hd => by simp at hd, fun id ring ds hd => by simp at hd⟩
    | snoc => simp at hl

end

/-! ### What is written fits -/

theorem saveAll_fits {s : State} {write : List Addr → Ptr → Option (List Addr × Tree)}
    (hw : ∀ tab p tab' t, write tab p = some (tab', t) → tab.length ≤ tab'.length ∧ (tab'.length < 2 ^ 31 → t.Fits)) (f : List (Ptr × ℕ)) :
    ∀ tab tab' ts, saveAll write tab f = some (tab', ts) → tab.length ≤ tab'.length ∧ ts.size = f.length ∧
      (tab'.length < 2 ^ 31 → (∀ x ∈ f, x.2 < 2 ^ 31) → ts.Fits) := by
  induction f with
  | nil =>
    intro tab tab' ts h
    simp only [saveAll, Option.some.injEq, Prod.mk.injEq] at h
    obtain ⟨rfl, rfl⟩ := h
    exact ⟨le_rfl, rfl, fun _ _ => trivial⟩
  | cons x f ih =>
    obtain ⟨p, e⟩ := x
    intro tab tab' ts h
    rw [saveAll] at h
    rcases h1 : write tab p with _ | ⟨tab1, t⟩
    · rw [h1] at h; cases h
    · rw [h1] at h
      simp only at h
      rcases h2 : saveAll write tab1 f with _ | ⟨tab2, ts2⟩
      · rw [h2] at h; cases h
      · rw [h2] at h
        simp only [Option.some.injEq, Prod.mk.injEq] at h
        obtain ⟨rfl, rfl⟩ := h
        obtain ⟨a1, a2⟩ := hw _ _ _ _ h1
        obtain ⟨b1, b2, b3⟩ := ih _ _ _ h2
        refine ⟨a1.trans b1, by rw [Trees.size, b2]; rfl, fun hl hx => ?_⟩
        exact ⟨a2 (lt_of_le_of_lt b1 hl), hx (p, e) (by simp), b3 hl fun y hy => hx y (by simp [hy])⟩

theorem save_fits {s : State} (hs : s.Typed) (n : ℕ) : ∀ tab p tab' t, s.save n tab p = some (tab', t) →
    tab.length ≤ tab'.length ∧ (tab'.length < 2 ^ 31 → t.Fits) := by
  induction n with
  | zero => intro tab p tab' t h; cases h
  | succ n ih =>
    intro tab p tab' t h
    rw [State.save] at h
    cases ho : s.live p with
    | none => rw [ho] at h; cases h
    | some o =>
      rw [ho] at h
      simp only at h
      have ht := hs p o ho
      by_cases hm : o.addr ∈ tab
      · rw [if_pos hm] at h
        simp only [Option.some.injEq, Prod.mk.injEq] at h
        obtain ⟨rfl, rfl⟩ := h
        refine ⟨le_rfl, fun hl => ?_⟩
        have := List.idxOf_lt_length_iff.2 hm
        simp only [Tree.Fits]
        omega
      · rw [if_neg hm] at h
        have len : (tab ++ [o.addr]).length = tab.length + 1 := by simp
        cases hd : o.data with
        | rational q =>
          rw [hd] at h ht
          simp only [Option.some.injEq, Prod.mk.injEq] at h
          obtain ⟨rfl, rfl⟩ := h
          exact ⟨by omega, fun hl => ⟨hl, ht⟩⟩
        | random seed =>
          rw [hd] at h
          simp only [Option.some.injEq, Prod.mk.injEq] at h
          obtain ⟨rfl, rfl⟩ := h
          exact ⟨by omega, fun hl => hl⟩
        | constrained i e inner =>
          rw [hd] at h ht
          simp only at h ht
          rcases h1 : s.save n (tab ++ [o.addr]) inner with _ | ⟨tab1, t1⟩
          · rw [h1] at h; cases h
          · rw [h1] at h
            simp only [Option.some.injEq, Prod.mk.injEq] at h
            obtain ⟨rfl, rfl⟩ := h
            obtain ⟨a1, a2⟩ := ih _ _ _ _ h1
            exact ⟨by omega, fun hl => ⟨by omega, ht.1, ht.2.1, ht.2.2.1, ht.2.2.2, a2 hl⟩⟩
        | product f d =>
          rw [hd] at h ht
          simp only at h ht
          rcases h1 : saveAll (s.save n) (tab ++ [o.addr]) (s.byAddr f) with _ | ⟨tab1, t1⟩
          · rw [h1] at h; cases h
          · rw [h1] at h
            simp only [Option.some.injEq, Prod.mk.injEq] at h
            obtain ⟨rfl, rfl⟩ := h
            have hp : (s.byAddr f).Perm f := List.perm_insertionSort _ _
            obtain ⟨a1, a2, a3⟩ := saveAll_fits (s := s) ih _ _ _ _ h1
            refine ⟨by omega, fun hl => ⟨by omega, by rw [a2, hp.length_eq]; exact ht.1, a3 hl fun x hx => ht.2 x (hp.mem_iff.1 hx)⟩⟩

theorem saveBasis_fits {s : State} (hs : s.Typed) (ps : List Ptr) : ∀ tab tab' ts, s.saveBasis tab ps = some (tab', ts) →
    tab.length ≤ tab'.length ∧ ts.length = ps.length ∧ (tab'.length < 2 ^ 31 → ∀ t ∈ ts, t.Fits) := by
  induction ps with
  | nil =>
    intro tab tab' ts h
    simp only [State.saveBasis, Option.some.injEq, Prod.mk.injEq] at h
    obtain ⟨rfl, rfl⟩ := h
    exact ⟨le_rfl, rfl, by simp⟩
  | cons p ps ih =>
    intro tab tab' ts h
    rw [State.saveBasis] at h
    rcases h1 : s.save 3 tab p with _ | ⟨tab1, t⟩
    · rw [h1] at h; cases h
    · rw [h1] at h
      simp only at h
      rcases h2 : s.saveBasis tab1 ps with _ | ⟨tab2, ts2⟩
      · rw [h2] at h; cases h
      · rw [h2] at h
        simp only [Option.some.injEq, Prod.mk.injEq] at h
        obtain ⟨rfl, rfl⟩ := h
        obtain ⟨a1, a2⟩ := save_fits hs 3 _ _ _ _ h1
        obtain ⟨b1, b2, b3⟩ := ih _ _ _ h2
        refine ⟨a1.trans b1, by simp [b2], fun hl t' ht => ?_⟩
        rcases List.mem_cons.1 ht with rfl | ht
        · exact a2 (lt_of_le_of_lt b1 hl)
        · exact b3 hl t' ht

section
variable {P R : Type} [DecidableEq P]

/-- What has been written fits into the types of `cereal`, if there are less than `2 ^ 31` objects. -/
theorem written_fits {gen : Generators} {retain : Bool} {w : Writer P} {l : List (Item P R × Source P R)} {ring : Codec P} {coefficient : Codec R}
    (h : WritesTo gen retain w l) (hl : w.tab.length < 2 ^ 31) (ht : ∀ y ∈ l, y.2.Typed ring coefficient) : ∀ y ∈ l, y.1.Fits ring coefficient := by
  induction h with
  | start => intro y hy; cases hy
  | progress _ _ _ _ ih => exact ih hl ht
  | @number w w' l p i _ _ hw ih =>
    unfold Writer.writeNumber at hw
    rcases h1 : w.proc.base.save 3 w.tab p with _ | ⟨tab, t⟩
    · rw [h1] at hw; cases hw
    · rw [h1] at hw
      simp only [Option.some.injEq, Prod.mk.injEq] at hw
      obtain ⟨rfl, rfl⟩ := hw
      have hl : tab.length < 2 ^ 31 := hl
      have hty : w.proc.base.Typed := ht _ (List.mem_append_right _ (List.mem_singleton.2 (Eq.refl _)))
      obtain ⟨a1, a2⟩ := save_fits hty 3 _ _ _ _ h1
      intro y hy
      rcases List.mem_append.1 hy with hy | hy
      · exact ih (lt_of_le_of_lt a1 hl) (fun y hy => ht y (List.mem_append_left _ hy)) y hy
      · rw [List.mem_singleton.1 hy]; exact a2 hl
  | @element w w' l m cs i _ _ hw ih =>
    unfold Writer.writeElement at hw
    obtain ⟨t1, t2, t3, t4⟩ : Source.Typed ring coefficient (.element w.proc m cs) := ht _ (List.mem_append_right _ (List.mem_singleton.2 (Eq.refl _)))
    cases ho : w.proc.live m with
    | none => rw [ho] at hw; cases hw
    | some o =>
      rw [ho] at hw
      simp only at hw
      obtain ⟨u1, u2⟩ := t2 o ho
      by_cases hm : o.addr ∈ w.tab
      · rw [if_pos hm] at hw
        simp only [Option.some.injEq, Prod.mk.injEq] at hw
        obtain ⟨rfl, rfl⟩ := hw
        intro y hy
        rcases List.mem_append.1 hy with hy | hy
        · exact ih hl (fun y hy => ht y (List.mem_append_left _ hy)) y hy
        · rw [List.mem_singleton.1 hy]
          have := List.idxOf_lt_length_iff.2 hm
          exact ⟨by omega, t3, t4⟩
      · rw [if_neg hm] at hw
        rcases h1 : w.proc.base.saveBasis (w.tab ++ [o.addr]) o.basis with _ | ⟨tab, ts⟩
        · rw [h1] at hw; cases hw
        · rw [h1] at hw
          simp only [Option.some.injEq, Prod.mk.injEq] at hw
          obtain ⟨rfl, rfl⟩ := hw
          have hl : tab.length < 2 ^ 31 := hl
          obtain ⟨a1, a2, a3⟩ := saveBasis_fits t1 _ _ _ _ h1
          rw [List.length_append, List.length_singleton] at a1
          intro y hy
          rcases List.mem_append.1 hy with hy | hy
          · exact ih (by omega) (fun y hy => ht y (List.mem_append_left _ hy)) y hy
          · rw [List.mem_singleton.1 hy]
            exact ⟨⟨by omega, by omega, a3 hl, u2⟩, t3, t4⟩

end

end ExactReal.Heap
