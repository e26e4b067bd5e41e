import Verif.Model.Counter
import Mathlib.Data.List.Induction
import Mathlib.Tactic.Linarith

/-!
# Identities and seeds (C37, C51)
-/

namespace ExactReal.Counter

theorem ids_run_append (schedule : List ℕ) (t : ℕ) : Ids.run (schedule ++ [t]) = (Ids.run schedule).create t := by
  simp [Ids.run]

theorem ids_run (schedule : List ℕ) :
    (Ids.run schedule).next = 2147483659 + UInt64.ofNat schedule.length ∧
    (Ids.run schedule).given.map Prod.fst = schedule.reverse ∧
    (Ids.run schedule).given.map Prod.snd = ((List.range schedule.length).map fun i => 2147483659 + UInt64.ofNat i).reverse := by
  induction schedule using List.reverseRecOn with
  | nil => simp [Ids.run, Ids.init]
  | append_singleton l t ih =>
    obtain ⟨h1, h2, h3⟩ := ih
    rw [ids_run_append]
    refine ⟨?_, ?_, ?_⟩
    · rw [Ids.create, h1]
      simp [UInt64.add_assoc]
    · simp [Ids.create, h2]
    · simp [Ids.create, h3, h1, List.range_succ]

theorem seeds_run_append (s : Seeds) (l₁ l₂ : List SeedStep) : s.run (l₁ ++ l₂) = (s.run l₁).bind fun s => s.run l₂ := by
  induction l₁ generalizing s with
  | nil => rfl
  | cons e l ih =>
    rw [List.cons_append, Seeds.run, Seeds.run]
    cases h : s.step e with
    | none => rfl
    | some s' => exact ih s'

/-- How many default seeds a program creates. -/
def defaults : List SeedCall → ℕ
  | [] => 0
  | .default :: l => defaults l + 1
  | .explicit _ :: l => defaults l

theorem defaults_append (l l' : List SeedCall) : defaults (l ++ l') = defaults l + defaults l' := by
  induction l with
  | nil => simp [defaults]
  | cons c l ih => cases c <;> simp [defaults, ih] <;> omega

theorem seeds_run (calls : List SeedCall) : ∃ s, Seeds.init.run (calls.flatMap SeedCall.steps) = some s ∧
    s.nextSeed = 1337 + UInt32.ofNat (defaults calls) ∧ s.loaded = (fun _ => none) ∧
    s.given.map Prod.snd = ((List.range (defaults calls)).map fun i => 1337 + UInt32.ofNat i).reverse := by
  induction calls using List.reverseRecOn with
  | nil => exact ⟨Seeds.init, rfl, by simp [defaults, Seeds.init], rfl, by simp [defaults, Seeds.init]⟩
  | append_singleton l c ih =>
    obtain ⟨s, h1, h2, h3, h4⟩ := ih
    rw [List.flatMap_append, seeds_run_append, h1, Option.bind_some]
    cases c with
    | default =>
      refine ⟨⟨s.nextSeed + 1, fun _ => none, (0, s.nextSeed) :: s.given⟩, ?_, ?_, rfl, ?_⟩
      · simp [SeedCall.steps, Seeds.run, Seeds.step, h3]
        funext u
        split_ifs <;> rfl
      · rw [defaults_append]; simp [defaults, h2, UInt32.add_assoc]
      · rw [defaults_append]; simp [defaults, h4, h2, List.range_succ]
    | explicit n =>
      refine ⟨s, ?_, ?_, h3, ?_⟩
      · simp [SeedCall.steps, Seeds.run, Seeds.step]
      · rw [defaults_append]; simp [defaults, h2]
      · rw [defaults_append]; simp [defaults, h4]

end ExactReal.Counter

namespace ExactReal.Props
open Counter

/-- C51. Under every interleaving of threads that create real numbers, at most `2^64` of them altogether, the identities are distinct, and each
thread gets one for every number it creates. -/
theorem ids_distinct (schedule : List ℕ) (h : schedule.length ≤ 2 ^ 64) :
    ((Ids.run schedule).given.map Prod.snd).Nodup ∧ (Ids.run schedule).given.map Prod.fst = schedule.reverse := by
  obtain ⟨-, h2, h3⟩ := ids_run schedule
  refine ⟨?_, h2⟩
  rw [h3, List.nodup_reverse]
  refine List.Nodup.map_on ?_ List.nodup_range
  intro x hx y hy he
  rw [List.mem_range] at hx hy
  have := congrArg UInt64.toNat he
  simp only [UInt64.toNat_add, UInt64.toNat_ofNat'] at this
  have e : UInt64.toNat 2147483659 = 2147483659 := rfl
  rw [e] at this
  omega

/-- C51. The bound is sharp: the identity after `2^64` creations is that of the first number. -/
theorem ids_wrap (schedule : List ℕ) (h : schedule.length = 2 ^ 64) : (Ids.run schedule).next = Ids.init.next := by
  rw [(ids_run schedule).1, h]
  rfl

/-- C51. In particular the identity that is handed out next has not been handed out before. -/
theorem ids_fresh (schedule : List ℕ) (h : schedule.length < 2 ^ 64) : (Ids.run schedule).next ∉ (Ids.run schedule).given.map Prod.snd := by
  have := (ids_distinct (schedule ++ [0]) (by simp; omega)).1
  rw [ids_run_append, Ids.create] at this
  simpa using (List.nodup_cons.1 this).1

/-- Two threads create five numbers in some order. -/
example : (Ids.run [0, 1, 1, 0, 1]).given =
    [(1, 2147483663), (0, 2147483662), (1, 2147483661), (1, 2147483660), (0, 2147483659)] := by decide

/-- C37. In every program with one thread that creates at most `2^32` seeds without an argument (and any number of seeds with an argument), these
seeds are distinct. -/
theorem seeds_distinct (calls : List SeedCall) (h : defaults calls ≤ 2 ^ 32) :
    ∃ s, Seeds.init.run (calls.flatMap SeedCall.steps) = some s ∧ (s.given.map Prod.snd).Nodup ∧ s.given.length = defaults calls := by
  obtain ⟨s, h1, -, -, h4⟩ := seeds_run calls
  refine ⟨s, h1, ?_, by simpa using congrArg List.length h4⟩
  rw [h4, List.nodup_reverse]
  refine List.Nodup.map_on ?_ List.nodup_range
  intro x hx y hy he
  rw [List.mem_range] at hx hy
  have := congrArg UInt32.toNat he
  simp only [UInt32.toNat_add, UInt32.toNat_ofNat'] at this
  have e : UInt32.toNat 1337 = 1337 := rfl
  rw [e] at this
  omega

/-- The bound of C37 is sharp: after `2^32` seeds, the first one is handed out again. -/
theorem seeds_wrap (calls : List SeedCall) (h : defaults calls = 2 ^ 32) :
    ∃ s, Seeds.init.run (calls.flatMap SeedCall.steps) = some s ∧ s.nextSeed = 1337 ∧ 1337 ∈ s.given.map Prod.snd := by
  obtain ⟨s, h1, h2, -, h4⟩ := seeds_run calls
  refine ⟨s, h1, ?_, ?_⟩
  · rw [h2, h]; rfl
  · rw [h4, h, List.mem_reverse, List.mem_map]
    exact ⟨0, by simp, rfl⟩

/-- C37 does not extend to several threads: when two threads create a seed at the same time they may get the same one (finding F14). -/
theorem seeds_race : ∃ s, Seeds.init.run [.load 0, .load 1, .store 0, .store 1] = some s ∧ s.given = [(1, 1337), (0, 1337)] :=
  ⟨_, rfl, rfl⟩

/-- Seeds with an argument are not reserved (finding F14): the first default seed is the same as `Seed(1337)`. -/
theorem seeds_explicit : ∃ s, Seeds.init.run ([SeedCall.explicit 1337, SeedCall.default].flatMap SeedCall.steps) = some s ∧
    s.given = [(0, 1337)] := ⟨_, rfl, rfl⟩

example : defaults [.default, .explicit 7, .default, .default] ≤ 2 ^ 32 := by decide

end ExactReal.Props
