import Verif.Lemma.HeapResult

/-!
# Uniqueness of real numbers in every history (C38), seeds (C42), serialization of real numbers (C43)

`Reach gen s` says that the process can be in the state `s`: after any sequence of calls, copies, destructions of objects and loads of archives
written by other such processes, and for any memory allocator that does not hand out memory that is in use.  `s.desc p` says what the number
that `p` points to was built as (`Verif/Spec/Heap.lean`).  The theorems assume that fewer than 2^64 - 2147483659 objects have been created
(`s.next ≤ 2^64`): after that, `uniqueId` wraps.
-/

namespace ExactReal.Props
open Heap

/-! ### An example: an object is destroyed and its address is reused -/

/-- An allocator that reuses the memory of destroyed objects. -/
def stackAlloc : Alloc := fun s => (s.heap.map fun x => x.2.addr).foldr max 0 + 1

theorem stackAlloc_valid : stackAlloc.Valid := by
  intro s p o h hc
  have hm := mem_of_lookup h
  have : ∀ l : List (Ptr × Obj), (p, o) ∈ l → o.addr ≤ (l.map fun x => x.2.addr).foldr max 0 := by
    intro l
    induction l with
    | nil => simp
    | cons a l ih =>
      intro hl
      rw [List.mem_cons] at hl
      rcases hl with rfl | hl
      · simp
      · exact (ih hl).trans (by simp)
  have := this _ hm
  rw [stackAlloc] at hc
  exact Nat.not_succ_le_self _ (hc ▸ this)

/-- Run events one after the other. -/
def run (gen : Generators) (alloc : Alloc) (s : State) : List Event → Option State
  | [] => some s
  | e :: es => match Heap.step gen alloc s e with
    | some (s, _) => run gen alloc s es
    | none => none

theorem reach_run {gen : Generators} {alloc : Alloc} (ha : alloc.Valid) {s s' : State} (h : Reach gen s) (es : List Event)
    (hr : run gen alloc s es = some s') : Reach gen s' := by
  induction es generalizing s with
  | nil => simp only [run, Option.some.injEq] at hr; exact hr ▸ h
  | cons e es ih =>
    rw [run] at hr
    split at hr
    · exact ih (h.step ha ‹_›) hr
    · cases hr

theorem evolves_run {gen : Generators} {alloc : Alloc} (ha : alloc.Valid) {s₀ s s' : State} (h : Evolves gen s₀ s) (es : List Event)
    (hr : run gen alloc s es = some s') : Evolves gen s₀ s' := by
  induction es generalizing s with
  | nil => simp only [run, Option.some.injEq] at hr; exact hr ▸ h
  | cons e es ih =>
    rw [run] at hr
    split at hr
    · exact ih (h.step ha ‹_›) hr
    · cases hr

/-- Two random numbers and their product. -/
def history1 : List Event := [.random 1, .random 2, .mul 0 1]
/-- The product is destroyed; a rational is created and then the product is computed again, with swapped factors. -/
def history2 : List Event := [.drop 2, .destroy 2, .rational 7, .mul 1 0]

/-- The state after `history1`. -/
def state1 : State :=
  ⟨2147483662, 3,
    [(2, ⟨3, 2147483661, .product [(0, 1), (1, 1)] (2147483659 * 2147483660)⟩), (1, ⟨2, 2147483660, .random 2⟩),
      (0, ⟨1, 2147483659, .random 1⟩)],
    [2, 1, 0],
    [(.product [(2147483659, 1), (2147483660, 1)] (2147483659 * 2147483660), 2), (.random 2, 1), (.random 1, 0)]⟩

/-- The state after `history1` and `history2`. The object 3 is where the object 2 was, the object 4 is another product of the same factors. -/
def state2 : State :=
  ⟨2147483664, 5,
    [(4, ⟨4, 2147483663, .product [(0, 1), (1, 1)] (2147483659 * 2147483660)⟩), (3, ⟨3, 2147483662, .rational 7⟩),
      (1, ⟨2, 2147483660, .random 2⟩), (0, ⟨1, 2147483659, .random 1⟩)],
    [4, 3, 1, 0],
    [(.product [(2147483659, 1), (2147483660, 1)] (2147483659 * 2147483660), 4), (.rational 7, 3),
      (.product [(2147483659, 1), (2147483660, 1)] (2147483659 * 2147483660), 2), (.random 2, 1), (.random 1, 0)]⟩

theorem run_history1 (gen : Generators) : run gen stackAlloc init history1 = some state1 := by
  simp [run, history1, Heap.step, State.random, State.get, State.create, State.live, init, stackAlloc, List.lookup, State.mul, State.mulFactory,
    State.persist, State.addrOf, State.factorsOf, State.merge, State.idOf, State.toMono, State.hashOf, state1]

theorem run_history2 (gen : Generators) : run gen stackAlloc state1 history2 = some state2 := by
  simp [run, history2, Heap.step, State.rational, State.get, State.create, State.live, state1, stackAlloc, List.lookup, State.mul,
    State.mulFactory, State.referenced, Data.refs, Key.refs,
    State.persist, State.addrOf, State.factorsOf, State.merge, State.idOf, State.toMono, State.hashOf, state2, List.erase]

theorem reach_state1 (gen : Generators) : Reach gen state1 := reach_run stackAlloc_valid Reach.init _ (run_history1 gen)
theorem evolves_state (gen : Generators) : Evolves gen state1 state2 := evolves_run stackAlloc_valid Evolves.refl _ (run_history2 gen)
theorem reach_state2 (gen : Generators) : Reach gen state2 := reach_of_evolves (reach_state1 gen) (evolves_state gen)


/-! ### C38 -/

/-- C38. In every reachable state two live numbers are equal (`==` compares addresses) if and only if they were built as the same number. -/
theorem unique {gen : Generators} {s : State} (h : Reach gen s) (hb : s.next ≤ 2 ^ 64) {p q : Ptr} {o o' : Obj} (hp : s.live p = some o)
    (hq : s.live q = some o') : o.addr = o'.addr ↔ s.desc p = s.desc q := by
  have hi := inv_of_reach h hb
  constructor
  · intro he
    rw [hi.addr_inj p o q o' hp hq he]
  · intro he
    have := desc_inj hi (by simp [hp]) (by simp [hq]) he
    subst this
    rw [hp] at hq; injection hq with hq; rw [hq]

/-- C38. Live numbers have the same identity if and only if they are the same object. -/
theorem id_unique {gen : Generators} {s : State} (h : Reach gen s) (hb : s.next ≤ 2 ^ 64) {p q : Ptr} {o o' : Obj} (hp : s.live p = some o)
    (hq : s.live q = some o') : o.id = o'.id ↔ o.addr = o'.addr := by
  have hi := inv_of_reach h hb
  constructor
  · intro he
    rw [(hi.obj_id p o hp).2, (hi.obj_id q o' hq).2] at he
    have := Nat.add_left_cancel he
    subst this
    rw [hp] at hq; injection hq with hq; rw [hq]
  · intro he
    have := hi.addr_inj p o q o' hp hq he
    subst this
    rw [hp] at hq; injection hq with hq; rw [hq]

/-- C38. Identities are never reused, even if addresses are: if an object has the identity of an object that was alive earlier, it is that
object, and it still stands for the same number. -/
theorem id_never_reused {gen : Generators} {s s' : State} (h : Reach gen s) (he : Evolves gen s s') (hb : s'.next ≤ 2 ^ 64) {p q : Ptr}
    {o o' : Obj} (hp : s.live p = some o) (hq : s'.live q = some o') (hid : o.id = o'.id) :
    p = q ∧ o = o' ∧ s'.desc q = s.desc p := by
  have hi := inv_of_reach h ((next_of_evolves he).trans hb)
  have hi' := inv_of_reach (reach_of_evolves h he) hb
  rw [(hi.obj_id p o hp).2, (hi'.obj_id q o' hq).2] at hid
  have := Nat.add_left_cancel hid
  subst this
  obtain ⟨h1, h2⟩ := desc_later hi hi' (later_of_evolves he) (p := p) (by simp [hp]) (by simp [hq])
  rw [hp, hq] at h1; injection h1 with h1
  exact ⟨rfl, h1.symm, h2⟩

/-- C38. What a pointer that is still alive points to never changes: neither its address, nor its identity, nor the number it stands for. -/
theorem immutable {gen : Generators} {s s' : State} (h : Reach gen s) (he : Evolves gen s s') (hb : s'.next ≤ 2 ^ 64) {p : Ptr}
    {o o' : Obj} (hp : s.live p = some o) (hp' : s'.live p = some o') : o' = o ∧ s'.desc p = s.desc p := by
  have hi := inv_of_reach h ((next_of_evolves he).trans hb)
  have hi' := inv_of_reach (reach_of_evolves h he) hb
  obtain ⟨h1, h2⟩ := desc_later hi hi' (later_of_evolves he) (p := p) (by simp [hp]) (by simp [hp'])
  rw [hp, hp'] at h1; injection h1 with h1
  exact ⟨h1, h2⟩

/-- C38. What somebody holds a reference to is alive, and so is everything it refers to: there are no dangling references. -/
theorem held_alive {gen : Generators} {s : State} (h : Reach gen s) (hb : s.next ≤ 2 ^ 64) :
    (∀ p ∈ s.roots, ∃ o, s.live p = some o) ∧ (∀ p o, s.live p = some o → ∀ q ∈ o.data.refs, ∃ o', s.live q = some o') ∧
    ∀ k p, (k, p) ∈ s.cache → ∀ q ∈ k.refs, ∃ o', s.live q = some o' := by
  have hi := inv_of_reach h hb
  exact ⟨fun p hp => Option.isSome_iff_exists.1 (hi.roots_live p hp),
    fun p o hp q hq => Option.isSome_iff_exists.1 ((hi.data_ok p o hp).refs_live q hq),
    fun k p hk q hq => Option.isSome_iff_exists.1 (hi.cache_refs k p hk q hq)⟩

/-- C38. A product returned by `*` is the product of the numbers; `*` throws exactly if that is neither rational nor a product of random
numbers. -/
theorem mul_result {gen : Generators} {alloc : Alloc} (ha : alloc.Valid) {s s' : State} (h : Reach gen s) (hb : s'.next ≤ 2 ^ 64) {p q : Ptr}
    {r : Res} (hs : Heap.step gen alloc s (.mul p q) = some (s', r)) :
    match (generalizing := false) r with
    | .ptr x => x ∈ s'.roots ∧ (s.desc p).mul (s.desc q) = some (s'.desc x)
    | .throws e => e = .logicError ∧ (s.desc p).mul (s.desc q) = none ∧ s' = s
    | _ => False := by
  have hi := inv_of_reach h ((next_step hs).trans hb)
  simp only [Heap.step] at hs
  split_ifs at hs with hc
  simp only [Bool.and_eq_true] at hc
  simp only [Option.some.injEq, Prod.mk.injEq] at hs
  obtain ⟨rfl, rfl⟩ := hs
  have hp := roots_of_contains hi hc.1
  have hq := roots_of_contains hi hc.2
  have hr := mul_refines hi ha hp hq hb
  unfold Refines at hr
  split at hr
  · rename_i x hx
    obtain ⟨y, h1, h2⟩ := hr
    rw [hx]
    refine ⟨h2.root, ?_⟩
    have hl : ((s.mul alloc p q).1.live x).isSome := h2.inv.roots_live _ h2.root
    have e3 : (s.mul alloc p q).1.rn x = y := h2.rn
    rw [desc_eq_descOf h2.inv hl, e3, ← desc_ext hi h2.ext hp, ← desc_ext hi h2.ext hq,
      desc_eq_descOf h2.inv (by rw [h2.ext.live_eq hp]; exact hp), desc_eq_descOf h2.inv (by rw [h2.ext.live_eq hq]; exact hq),
      rn_ext hi h2.ext hp, rn_ext hi h2.ext hq]
    exact descOf_mul _ (rn_WF hi p) (rn_WF hi q) h1
  · rename_i e hx
    rw [hx]
    obtain ⟨h1, h2⟩ := hr
    have he : e = .logicError := by
      rcases RN.mul_ok_or_throws (s.rn p) (s.rn q) with ⟨z, hz⟩ | hz
      · rw [hz] at h1; cases h1
      · rw [hz] at h1; injection h1 with h1; exact h1.symm
    subst he
    refine ⟨rfl, ?_, h2⟩
    rw [desc_eq_descOf hi hp, desc_eq_descOf hi hq]
    exact descOf_mul_throws _ h1
  · exact hr.elim

/-- C38. A quotient returned by `/` is a quotient; `/` returns nothing only if there is none; it throws exactly if the divisor is a rational
other than 1 and the numbers are different. -/
theorem div_result {gen : Generators} {alloc : Alloc} (ha : alloc.Valid) {s s' : State} (h : Reach gen s) (hb : s'.next ≤ 2 ^ 64) {p q : Ptr}
    {r : Res} (hs : Heap.step gen alloc s (.div p q) = some (s', r)) :
    match (generalizing := false) r with
    | .ptr x => x ∈ s'.roots ∧ (s'.desc x).mul (s.desc q) = some (s.desc p)
    | .none => s' = s ∧ ∀ d : Desc, d.mul (s.desc q) ≠ some (s.desc p)
    | .throws e => e = .logicError ∧ s' = s ∧ s.desc p ≠ s.desc q ∧ ∃ y, s.desc q = .rational y ∧ y ≠ 1
    | _ => False := by
  have hi := inv_of_reach h ((next_step hs).trans hb)
  simp only [Heap.step] at hs
  split_ifs at hs with hc
  simp only [Bool.and_eq_true] at hc
  simp only [Option.some.injEq, Prod.mk.injEq] at hs
  obtain ⟨rfl, rfl⟩ := hs
  have hp := roots_of_contains hi hc.1
  have hq := roots_of_contains hi hc.2
  have hr := div_refines hi ha hp hq hb
  unfold RefinesOption at hr
  split at hr
  · rename_i x hx
    obtain ⟨y, h1, h2⟩ := hr
    rw [hx]
    refine ⟨h2.root, ?_⟩
    have hl : ((s.div alloc p q).1.live x).isSome := h2.inv.roots_live _ h2.root
    have e3 : (s.div alloc p q).1.rn x = y := h2.rn
    obtain ⟨hy, hm⟩ := RN.div_eq_some (rn_WF hi p) (rn_WF hi q) h1
    rw [desc_eq_descOf h2.inv hl, e3, ← desc_ext hi h2.ext hp, ← desc_ext hi h2.ext hq,
      desc_eq_descOf h2.inv (by rw [h2.ext.live_eq hq]; exact hq), desc_eq_descOf h2.inv (by rw [h2.ext.live_eq hp]; exact hp),
      rn_ext hi h2.ext hp, rn_ext hi h2.ext hq]
    exact descOf_mul _ hy (rn_WF hi q) hm
  · rename_i hx
    rw [hx]
    obtain ⟨h1, h2⟩ := hr
    refine ⟨h2, fun d => ?_⟩
    rw [desc_eq_descOf hi hp, desc_eq_descOf hi hq]
    exact descOf_div_none (descOfId_injOn hi) (rn_WF hi p) (rn_WF hi q) (fun i hi' => idOf_live hi hp i hi') (fun i hi' => idOf_live hi hq i hi')
      h1 d
  · rename_i e hx
    rw [hx]
    obtain ⟨h1, h2⟩ := hr
    have he : e = .logicError := by
      rcases RN.div_outcomes (s.rn p) (s.rn q) with ⟨z, hz⟩ | hz
      · rw [hz] at h1; cases h1
      · rw [hz] at h1; injection h1 with h1; exact h1.symm
    subst he
    obtain ⟨hne, y, hy, hy1⟩ := (RN.div_throws_iff _ _).1 h1
    refine ⟨rfl, h2, ?_, y, ?_, hy1⟩
    · intro hd
      have := desc_inj hi hp hq hd
      subst this
      exact hne rfl
    · rw [desc_eq_descOf hi hq, hy]; rfl
  · exact hr.elim

/-- C38, C42. `rational(q)` returns a number for `q`; `random(seed)` the random number for that seed. Nothing else changes. -/
theorem factory_result {gen : Generators} {alloc : Alloc} (ha : alloc.Valid) {s : State} (h : Reach gen s) :
    (∀ q s' r, Heap.step gen alloc s (.rational q) = some (s', r) → s'.next ≤ 2 ^ 64 →
      ∃ x, r = .ptr x ∧ x ∈ s'.roots ∧ s'.desc x = .rational q ∧ ∀ p o, s.live p = some o → s'.live p = some o) ∧
    (∀ seed s' r, Heap.step gen alloc s (.random seed) = some (s', r) → s'.next ≤ 2 ^ 64 →
      ∃ x, r = .ptr x ∧ x ∈ s'.roots ∧ s'.desc x = .monomial (Finsupp.single (.random seed) 1) ∧
        ∀ p o, s.live p = some o → s'.live p = some o) := by
  constructor
  · intro q s' r hs hb
    have hi := inv_of_reach h ((next_step hs).trans hb)
    simp only [Heap.step, Option.some.injEq, Prod.mk.injEq] at hs
    obtain ⟨rfl, rfl⟩ := hs
    have g := rational_spec hi ha q hb
    obtain ⟨⟨a, i, d⟩, h1, h2⟩ := g.data
    simp only at h2
    subst h2
    exact ⟨_, rfl, g.root, by simp only [State.desc, h1], g.ext.live⟩
  · intro seed s' r hs hb
    have hi := inv_of_reach h ((next_step hs).trans hb)
    simp only [Heap.step, Option.some.injEq, Prod.mk.injEq] at hs
    obtain ⟨rfl, rfl⟩ := hs
    have g := random_spec hi ha seed hb
    obtain ⟨o, h1, h2⟩ := g.data
    refine ⟨_, rfl, g.root, ?_, g.ext.live⟩
    rw [desc_of_atom h1 (by rw [h2]; trivial), atomDesc_random h1 h2]

/-- The theorems apply to the example: the object 4 has the same description as the destroyed object 2 but not its identity or address; the
object 3 has its address. -/
example (gen : Generators) : Reach gen state2 ∧ state2.next ≤ 2 ^ 64 ∧ state2.desc 4 = state1.desc 2 ∧ state2.idOf 4 ≠ state1.idOf 2 ∧
    state2.addrOf 3 = state1.addrOf 2 ∧ state2.live 2 = none := by
  refine ⟨reach_state2 gen, by simp [state2], ?_, by simp [State.idOf, State.live, state1, state2, List.lookup],
    by simp [State.addrOf, State.live, state1, state2, List.lookup], by simp [State.live, state2, List.lookup]⟩
  simp [State.desc, State.atomDesc, State.live, state1, state2, List.lookup]

/-! ### C42 -/

/-- C42. As long as a number is alive, calling `random` or `rational` again returns the same object. -/
theorem random_same {gen : Generators} {alloc : Alloc} (ha : alloc.Valid) {s s' : State} (h : Reach gen s) (hb : s'.next ≤ 2 ^ 64)
    {p : Ptr} {o : Obj} (hp : s.live p = some o) {seed : UInt32} (hd : s.desc p = .monomial (Finsupp.single (.random seed) 1)) {r : Res}
    (hs : Heap.step gen alloc s (.random seed) = some (s', r)) : r = .ptr p := by
  obtain ⟨x, rfl, hx, hd', hl⟩ := (factory_result ha h).2 seed s' r hs hb
  have hi := inv_of_reach h ((next_step hs).trans hb)
  have hi' := inv_of_reach (h.step ha hs) hb
  have e1 := (desc_later hi hi' (later_step hs) (p := p) (by simp [hp]) (by simp [hl p o hp])).2
  rw [desc_inj hi' (p := p) (q := x) (by simp [hl p o hp]) (hi'.roots_live x hx) (by rw [e1, hd, hd'])]

/-- C42. The digits of the number returned by `random(seed)` depend on the seed only, not on the history. -/
theorem random_digits {gen : Generators} {alloc : Alloc} (ha : alloc.Valid) {s s' : State} (h : Reach gen s) (hb : s'.next ≤ 2 ^ 64)
    {seed : UInt32} {r : Res} (hs : Heap.step gen alloc s (.random seed) = some (s', r)) :
    ∃ x, r = .ptr x ∧ s'.atomAt gen x = some (.random (gen.digits seed)) := by
  have hi := inv_of_reach h ((next_step hs).trans hb)
  simp only [Heap.step, Option.some.injEq, Prod.mk.injEq] at hs
  obtain ⟨rfl, rfl⟩ := hs
  obtain ⟨⟨a, i, d⟩, h1, h2⟩ := (random_spec hi ha seed hb).data
  simp only at h2
  subst h2
  exact ⟨_, rfl, by simp only [State.atomAt, h1]⟩

/-- C42. The leading digits, exponent and digits of the number returned by `random(lower, upper, seed)` are those given by the interval and the
seed alone (`ExactReal.randomIn`), whatever happened before; so are its exceptions. -/
theorem randomIn_result {gen : Generators} {alloc : Alloc} (ha : alloc.Valid) {s s' : State} (h : Reach gen s) (hb : s'.next ≤ 2 ^ 64)
    {lower upper : ℚ} {seed : UInt32} {r : Res} (hs : Heap.step gen alloc s (.randomIn lower upper seed) = some (s', r)) :
    match (generalizing := false) ExactReal.randomIn gen lower upper seed with
    | .ok a => ∃ x, r = .ptr x ∧ x ∈ s'.roots ∧ s'.atomAt gen x = some a
    | .throws e => r = .throws e ∧ s' = s
    | _ => r = .other ∧ s' = s := by
  have hi := inv_of_reach h ((next_step hs).trans hb)
  simp only [Heap.step, Option.some.injEq, Prod.mk.injEq] at hs
  obtain ⟨rfl, rfl⟩ := hs
  obtain ⟨hi', -, hr⟩ := randomIn_inv (gen := gen) hi ha lower upper seed hb
  have hform : ∀ a, ExactReal.randomIn gen lower upper seed = .ok a →
      a = .random (gen.digits seed) ∨ ∃ m e, a = .constrained m e (gen.digits seed) := by
    intro a ha'
    unfold ExactReal.randomIn at ha'
    split_ifs at ha'
    · injection ha' with ha'; exact Or.inl ha'.symm
    · simp only at ha'; injection ha' with ha'; exact Or.inr ⟨_, _, ha'.symm⟩
  cases hx : ExactReal.randomIn gen lower upper seed with
  | ok a =>
    rw [hx] at hr
    obtain ⟨p, h1, h2, o, h3, h4⟩ := hr
    refine ⟨p, by rw [h1]; rfl, h2, ?_⟩
    rcases o with ⟨ad, i, d⟩
    rcases hform a hx with rfl | ⟨m, e, rfl⟩
    · simp only at h4; subst h4
      simp only [State.atomAt, h3]
    · obtain ⟨inner, ⟨ai, ii, di⟩, h5, h6, h7⟩ := h4
      simp only at h5 h7
      subst h5 h7
      simp only [State.atomAt, h3, State.seedOf, h6]
      congr 2
      rw [Arf.ofMantissaExponent, mul_div_assoc, div_self (zpow_ne_zero _ (by norm_num)), mul_one, Rat.num_intCast]
  | throws e => rw [hx] at hr; simp only at hr; exact ⟨by rw [hr]; rfl, by rw [hr]⟩
  | abort => rw [hx] at hr; simp only at hr; exact ⟨by rw [hr]; rfl, by rw [hr]⟩
  | ub => rw [hx] at hr; simp only at hr; exact ⟨by rw [hr]; rfl, by rw [hr]⟩
  | pending => rw [hx] at hr; simp only at hr; exact ⟨by rw [hr]; rfl, by rw [hr]⟩

/-- C42. As long as the number is alive, calling `random(lower, upper, seed)` again returns the same object. -/
theorem randomIn_same {gen : Generators} {alloc alloc' : Alloc} (ha : alloc.Valid) (ha' : alloc'.Valid) {s₀ s₁ s₂ s₃ : State}
    (h : Reach gen s₀) {lower upper : ℚ} {seed : UInt32} {p : Ptr}
    (h1 : Heap.step gen alloc s₀ (.randomIn lower upper seed) = some (s₁, .ptr p)) (he : Evolves gen s₁ s₂) (hp : (s₂.live p).isSome) {r : Res}
    (h2 : Heap.step gen alloc' s₂ (.randomIn lower upper seed) = some (s₃, r)) (hb : s₃.next ≤ 2 ^ 64) : r = .ptr p := by
  have r1 := h.step ha h1
  have r2 := reach_of_evolves r1 he
  have r3 := r2.step ha' h2
  have b2 := (next_step h2).trans hb
  have b1 := (next_of_evolves he).trans b2
  have i0 := inv_of_reach h ((next_step h1).trans b1)
  have i1 := inv_of_reach r1 b1
  have i2 := inv_of_reach r2 b2
  have i3 := inv_of_reach r3 hb
  have hp1 : (s₁.live p).isSome := by
    have := i1.roots_live p
    simp only [Heap.step, Option.some.injEq, Prod.mk.injEq] at h1
    obtain ⟨rfl, h1⟩ := h1
    obtain ⟨-, -, hr⟩ := randomIn_inv (gen := gen) i0 ha lower upper seed b1
    cases hx : ExactReal.randomIn gen lower upper seed with
    | ok a =>
      rw [hx] at hr
      obtain ⟨x, e1, e2, -⟩ := hr
      rw [e1] at h1; injection h1 with h1; subst h1
      exact this e2
    | _ => rw [hx] at hr; simp only at hr; rw [hr] at h1; cases h1
  obtain ⟨el, -⟩ := desc_later i1 i2 (later_of_evolves he) hp1 hp
  -- the description
  have key : ∀ {alloc : Alloc} (_ : alloc.Valid) {s s' : State} (_ : Inv s) {x : Ptr} (_ : s'.next ≤ 2 ^ 64)
      (_ : Heap.step gen alloc s (.randomIn lower upper seed) = some (s', .ptr x)),
      ∃ a, ExactReal.randomIn gen lower upper seed = .ok a ∧ (s'.live x).isSome ∧ Ext s s' ∧
        s'.desc x = .monomial (Finsupp.single (match a with
          | .random _ => .random seed
          | .constrained m e _ => .constrained (Arf.ofMantissaExponent m e) e seed) 1) := by
    intro alloc ha s s' hi x hb hs
    simp only [Heap.step, Option.some.injEq, Prod.mk.injEq] at hs
    obtain ⟨rfl, hs⟩ := hs
    obtain ⟨hi', hext, hr⟩ := randomIn_inv (gen := gen) hi ha lower upper seed hb
    cases hx : ExactReal.randomIn gen lower upper seed with
    | ok a =>
      rw [hx] at hr
      obtain ⟨p, e1, e2, o, e3, e4⟩ := hr
      rw [e1] at hs; injection hs with hs; subst hs
      refine ⟨a, rfl, by rw [e3]; rfl, hext, ?_⟩
      cases a with
      | random d => rw [desc_of_atom e3 (by rw [e4]; trivial), atomDesc_random e3 e4]
      | constrained m e d =>
        obtain ⟨inner, oi, e5, e6, e7⟩ := e4
        rw [desc_of_atom e3 (by rw [e5]; trivial), atomDesc_constrained e3 e5, seedOf_random e6 e7]
    | _ => rw [hx] at hr; simp only at hr; rw [hr] at hs; cases hs
  obtain ⟨a, ea, l1, -, d1⟩ := key ha i0 b1 h1
  have hr : ∃ x, r = .ptr x := by
    have := randomIn_result ha' r2 hb h2
    rw [ea] at this
    obtain ⟨x, hx, -⟩ := this
    exact ⟨x, hx⟩
  obtain ⟨x, rfl⟩ := hr
  obtain ⟨a', ea', l3, ext3, d3⟩ := key ha' i2 hb h2
  rw [ea] at ea'; injection ea' with ea'; subst ea'
  have hp3 : (s₃.live p).isSome := by rw [ext3.live_eq hp]; exact hp
  have e : s₃.desc p = s₁.desc p := by
    rw [desc_ext i2 ext3 hp]; exact (desc_later i1 i2 (later_of_evolves he) hp1 hp).2
  rw [desc_inj i3 l3 hp3 (by rw [d3, e, d1])]

/-! ### C43 -/

/-- C43. Every live number can be written (three levels of recursion suffice). -/
theorem save_total {gen : Generators} {s : State} (h : Reach gen s) (hb : s.next ≤ 2 ^ 64) {p : Ptr} {o : Obj} (hp : s.live p = some o)
    (tab : List Addr) : ∃ r, s.save 3 tab p = some r :=
  Heap.save_total (inv_of_reach h hb) 3 hp (by cases o.data <;> simp [Data.level]) tab

/-- C43. Loading what has been written for a number, in the same or in another process, in any state of that process and for any addresses and
ids it assigns, yields a number that was built as the same number. -/
theorem round_trip {gen : Generators} {alloc : Alloc} (ha : alloc.Valid) {s₀ s : State} (h₀ : Reach gen s₀) (hb₀ : s₀.next ≤ 2 ^ 64)
    (h : Reach gen s) {p : Ptr} {written : List Addr} {t : Tree} (hs : s₀.save 3 [] p = some (written, t))
    (hb : (s.load alloc [] t).1.next ≤ 2 ^ 64) :
    ∃ q o, (s.load alloc [] t).2.2 = some q ∧ (s.load alloc [] t).1.live q = some o ∧ (s.load alloc [] t).1.desc q = s₀.desc p ∧
      ∀ x o, s.live x = some o → (s.load alloc [] t).1.live x = some o := by
  have l := load_fresh (inv_of_reach h₀ hb₀) ha (inv_of_reach h ((next_load _ _ _ _).trans hb)) hs hb
  obtain ⟨q, h1, h2⟩ := l.same
  obtain ⟨o, ho⟩ := Option.isSome_iff_exists.1 h2.live
  exact ⟨q, o, h1, ho, h2.desc, l.ext.live⟩

/-- C43. Loading a number while it is alive yields the original object. -/
theorem round_trip_alive {gen : Generators} {alloc : Alloc} (ha : alloc.Valid) {s₀ s : State} (h₀ : Reach gen s₀) (he : Evolves gen s₀ s)
    {p : Ptr} {written : List Addr} {t : Tree} (hs : s₀.save 3 [] p = some (written, t)) {o : Obj} (hp : s.live p = some o)
    (hp₀ : (s₀.live p).isSome) (hb : (s.load alloc [] t).1.next ≤ 2 ^ 64) : (s.load alloc [] t).2.2 = some p := by
  have bs := (next_load alloc s [] t).trans hb
  have b0 := (next_of_evolves he).trans bs
  have h := reach_of_evolves h₀ he
  have i := inv_of_reach h bs
  have l := load_fresh (inv_of_reach h₀ b0) ha i hs hb
  obtain ⟨q, h1, h2⟩ := l.same
  rw [h1]
  have := desc_inj l.inv (p := q) (q := p) h2.live (by rw [l.ext.live p o hp]; rfl) (by
    rw [h2.desc, desc_ext i l.ext (by simp [hp]), (desc_later (inv_of_reach h₀ b0) i (later_of_evolves he) hp₀ (by simp [hp])).2])
  rw [this]

/-- The product of the example is written and read in the later state. -/
example (gen : Generators) : ∃ written t, state1.save 3 [] 2 = some (written, t) ∧ (state2.load stackAlloc [] t).2.2 = some 4 := by
  have b1 : state1.next ≤ 2 ^ 64 := by simp [state1]
  obtain ⟨⟨w, t⟩, hs⟩ := save_total (reach_state1 gen) b1 (p := 2) (o := ⟨3, 2147483661, .product [(0, 1), (1, 1)] (2147483659 * 2147483660)⟩)
    (by simp [State.live, state1, List.lookup]) []
  refine ⟨w, t, hs, ?_⟩
  simp [State.save, State.live, state1, List.lookup, State.byAddr, State.addrOf, State.saveAll, List.insertionSort, List.orderedInsert] at hs
  obtain ⟨rfl, rfl⟩ := hs
  simp [State.load, State.loadAll, State.random, State.get, State.live, state2, List.lookup, State.insertKey, State.addrOf,
    State.productFactory, State.byId, State.idOf, List.insertionSort, List.orderedInsert, State.toMono, Mono.hash_eq]

end ExactReal.Props
