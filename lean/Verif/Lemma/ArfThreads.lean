import Verif.Spec.Threads
import Verif.Props.ArfCache

/-!
# Programs of single accesses and their interleavings
-/

namespace ExactReal

open Spec

theorem ArfCache.get_put (c : ArfCache) (f : Field) (v : f.Content) : (c.put f v).get f = v := by cases f <;> rfl

theorem ArfCache.get_put_ne (c : ArfCache) {f h : Field} (hf : h ≠ f) (v : f.Content) : (c.put f v).get h = c.get h := by
  cases f <;> cases h <;> first | rfl | exact absurd rfl hf

theorem ArfCache.put_get (c : ArfCache) (f : Field) : c.put f (c.get f) = c := by cases f <;> rfl

namespace Prog

variable {α β : Type}

theorem touch_same (σ : Caches) (x : RN) (f : Field) (kind : Kind) (g : f.Content → f.Content) :
    ((touch σ x f kind g) x).get f = effect kind g ((σ x).get f) := by
  unfold touch Caches.set; rw [if_pos rfl, ArfCache.get_put]

theorem touch_ne_obj (σ : Caches) {x y : RN} (h : y ≠ x) (f : Field) (kind : Kind) (g : f.Content → f.Content) : (touch σ x f kind g) y = σ y := by
  unfold touch Caches.set; rw [if_neg h]

theorem touch_ne (σ : Caches) {x y : RN} {f h : Field} (hne : ¬ (y = x ∧ h = f)) (kind : Kind) (g : f.Content → f.Content) :
    ((touch σ x f kind g) y).get h = (σ y).get h := by
  unfold touch Caches.set
  split_ifs with hy
  · subst hy; exact ArfCache.get_put_ne _ (fun e => hne ⟨rfl, e⟩) _
  · rfl

theorem touch_id (σ : Caches) (x : RN) (f : Field) (kind : Kind) {g : f.Content → f.Content} (h : effect kind g ((σ x).get f) = (σ x).get f) : touch σ x f kind g = σ := by
  funext y
  unfold touch Caches.set
  split_ifs with hy
  · subst hy; rw [h, ArfCache.put_get]
  · rfl

theorem run_bind (p : Prog α) (h : α → Prog β) (σ : Caches) : (p.bind h).run σ = (h (p.run σ).2).run (p.run σ).1 := by
  induction p generalizing σ with
  | ret a => rfl
  | access x f kind g k ih => exact ih _ _

theorem run_read (x : RN) (f : Field) (k : f.Content → Prog α) (σ : Caches) : (read x f k).run σ = (k ((σ x).get f)).run σ := by
  rw [read, run, touch_id _ _ _ _ rfl]; rfl

/-- All the accesses of a program satisfy a condition. -/
def All (P : Access → Prop) : Prog α → Prop
  | ret _ => True
  | access x f kind _ k => P ⟨x, f, kind⟩ ∧ ∀ c, (k c).All P

theorem All.bind {P : Access → Prop} {p : Prog α} {h : α → Prog β} (hp : p.All P) (hh : ∀ a, (h a).All P) : (p.bind h).All P := by
  induction p with
  | ret a => exact hh a
  | access x f kind g k ih => exact ⟨hp.1, fun c => ih c (hp.2 c)⟩

theorem All.mono {P Q : Access → Prop} {p : Prog α} (hp : p.All P) (h : ∀ a, P a → Q a) : p.All Q := by
  induction p with
  | ret a => trivial
  | access x f kind g k ih => exact ⟨h _ hp.1, fun c => ih c (hp.2 c)⟩

/-- Some access of the program satisfies a condition, whatever it reads. -/
def Must (P : Access → Prop) : Prog α → Prop
  | ret _ => False
  | access x f kind _ k => P ⟨x, f, kind⟩ ∨ ∀ c, (k c).Must P

theorem Must.bind {P : Access → Prop} {p : Prog α} {h : α → Prog β} (hp : p.Must P ∨ ∀ a, (h a).Must P) : (p.bind h).Must P := by
  induction p with
  | ret a => exact hp.elim (fun h => h.elim) fun h => h a
  | access x f kind g k ih =>
    rcases hp with (hp | hp) | hp
    · exact Or.inl hp
    · exact Or.inr fun c => ih c (Or.inl (hp c))
    · exact Or.inr fun c => ih c (Or.inr hp)

/-- Some access of the program satisfies a condition, as long as a member of a number has a certain content. -/
def MustIf (P : Access → Prop) (y : RN) (h : Field) (c₀ : h.Content) : Prog α → Prop
  | ret _ => False
  | access x f kind g k => P ⟨x, f, kind⟩ ∨ (∃ e : x = y ∧ f = h, kind = .read ∧ (k (e.2 ▸ c₀)).MustIf P y h c₀) ∨
      (¬ (x = y ∧ f = h) ∧ ∀ c, (k c).MustIf P y h c₀) ∨ ∀ c, (k c).Must P

theorem MustIf.bind {P : Access → Prop} {y : RN} {h : Field} {c₀ : h.Content} {p : Prog α} {q : α → Prog β} (hp : p.MustIf P y h c₀) :
    (p.bind q).MustIf P y h c₀ := by
  induction p with
  | ret a => exact hp.elim
  | access x f kind g k ih =>
    rcases hp with hp | ⟨e, h1, hp⟩ | ⟨h1, h2⟩ | hp
    · exact Or.inl hp
    · exact Or.inr (Or.inl ⟨e, h1, ih _ hp⟩)
    · exact Or.inr (Or.inr (Or.inl ⟨h1, fun c => ih c (h2 c)⟩))
    · exact Or.inr (Or.inr (Or.inr fun c => Must.bind (Or.inl (hp c))))

/-- When the program does not access the member, then it does not matter what is in there. -/
theorem MustIf.bind_right {P : Access → Prop} {y : RN} {h : Field} {c₀ : h.Content} {p : Prog α} {q : α → Prog β}
    (hp : p.All fun a => ¬ (a.obj = y ∧ a.field = h)) (hq : ∀ a, (q a).MustIf P y h c₀) : (p.bind q).MustIf P y h c₀ := by
  induction p with
  | ret a => exact hq a
  | access x f kind g k ih => exact Or.inr (Or.inr (Or.inl ⟨hp.1, fun c => ih c (hp.2 c)⟩))

/-- As long as a member of a number has a certain content, the program does not change it, other than by an assignment; when there is no assignment then
`Q`. -/
def Until (Q : Prop) (y : RN) (h : Field) (c₀ : h.Content) : Prog α → Prop
  | ret _ => Q
  | access x f kind g k => kind = .write ∧ x = y ∧ f = h ∨
      (∃ e : x = y ∧ f = h, effect kind g (e.2 ▸ c₀) = e.2 ▸ c₀ ∧ (k (e.2 ▸ c₀)).Until Q y h c₀) ∨
      (¬ (x = y ∧ f = h) ∧ ∀ c, (k c).Until Q y h c₀)

theorem Until.bind {Q R : Prop} {y : RN} {h : Field} {c₀ : h.Content} {p : Prog α} {q : α → Prog β} (hp : p.Until Q y h c₀)
    (hq : Q → ∀ a, (q a).Until R y h c₀) : (p.bind q).Until R y h c₀ := by
  induction p with
  | ret a => exact hq hp a
  | access x f kind g k ih =>
    rcases hp with hp | ⟨e, h1, hp⟩ | ⟨h1, hp⟩
    · exact Or.inl hp
    · exact Or.inr (Or.inl ⟨e, h1, ih _ hp⟩)
    · exact Or.inr (Or.inr ⟨h1, fun c => ih c (hp c)⟩)

theorem Until.mono {Q R : Prop} {y : RN} {h : Field} {c₀ : h.Content} {p : Prog α} (hp : p.Until Q y h c₀) (hq : Q → R) : p.Until R y h c₀ := by
  induction p with
  | ret a => exact hq hp
  | access x f kind g k ih =>
    rcases hp with hp | ⟨e, h1, hp⟩ | ⟨h1, hp⟩
    · exact Or.inl hp
    · exact Or.inr (Or.inl ⟨e, h1, ih _ hp⟩)
    · exact Or.inr (Or.inr ⟨h1, fun c => ih c (hp c)⟩)

theorem Until.of_all {y : RN} {h : Field} {c₀ : h.Content} {p : Prog α} (hp : p.All fun a => ¬ (a.obj = y ∧ a.field = h)) :
    p.Until True y h c₀ := by
  induction p with
  | ret a => trivial
  | access x f kind g k ih => exact Or.inr (Or.inr ⟨hp.1, fun c => ih c (hp.2 c)⟩)

/-- The program changes nothing and returns `v`. -/
def Quiet (P : Access → Prop) (σ : Caches) (v : α) : Prog α → Prop
  | ret a => a = v
  | access x f kind g k => P ⟨x, f, kind⟩ ∧ effect kind g ((σ x).get f) = (σ x).get f ∧ (k ((σ x).get f)).Quiet P σ v

theorem Quiet.bind {P : Access → Prop} {σ : Caches} {v : α} {w : β} {p : Prog α} {h : α → Prog β} (hp : p.Quiet P σ v) (hh : (h v).Quiet P σ w) :
    (p.bind h).Quiet P σ w := by
  induction p with
  | ret a => rw [Quiet] at hp; rw [hp]; exact hh
  | access x f kind g k ih => exact ⟨hp.1, hp.2.1, ih _ hp.2.2⟩

/-- The result of a program depends only on the members that it accesses. -/
theorem run_congr {F : RN → Prop} {p : Prog α} (hp : p.All fun a => F a.obj) {σ τ : Caches} (h : ∀ x, F x → σ x = τ x) :
    (p.run σ).2 = (p.run τ).2 ∧ (∀ x, F x → (p.run σ).1 x = (p.run τ).1 x) ∧ ∀ x, ¬ F x → (p.run σ).1 x = σ x := by
  induction p generalizing σ τ with
  | ret a => exact ⟨rfl, h, fun _ _ => rfl⟩
  | access x f kind g k ih =>
    have hx := h x hp.1
    have hk : ∀ y, F y → touch σ x f kind g y = touch τ x f kind g y := by
      intro y hy
      unfold touch Caches.set
      split_ifs with e
      · rw [hx]
      · exact h y hy
    obtain ⟨e1, e2, e3⟩ := ih (effect kind g ((σ x).get f)) (hp.2 _) hk
    refine ⟨?_, ?_, ?_⟩
    · rw [run, run, ← hx]; exact e1
    · intro y hy; rw [run, run, ← hx]; exact e2 y hy
    · intro y hy
      rw [run]
      exact (e3 y hy).trans (touch_ne_obj _ (fun e => hy (by rw [e]; exact hp.1)) _ _ _)

end Prog

namespace Threads

variable {α : Type}

/-- If a thread returns, then it has made the accesses that it must make. -/
theorem Exec.must {s s' : Threads α} {tr : List (ℕ × Access)} (h : s.Exec tr s') {P : Access → Prop} {t : ℕ} {v : α} (hp : (s.rest t).Must P)
    (hv : Returned s' t v) : ∃ a, (t, a) ∈ tr ∧ P a := by
  induction h with
  | refl s => rw [Returned] at hv; rw [hv] at hp; exact hp.elim
  | step u hu rest ih =>
    rename_i s tr s' x f kind g k
    by_cases e : t = u
    · subst e
      rw [hu] at hp
      rcases hp with hp | hp
      · exact ⟨_, List.mem_cons_self, hp⟩
      · obtain ⟨a, h1, h2⟩ := ih (by simp only [Function.update_self]; exact hp _) hv
        exact ⟨a, List.mem_cons_of_mem _ h1, h2⟩
    · obtain ⟨a, h1, h2⟩ := ih (by simp only [Function.update_of_ne e]; exact hp) hv
      exact ⟨a, List.mem_cons_of_mem _ h1, h2⟩

/-- If a thread returns, then it has made the accesses that it must make if nobody else changes a member, or somebody else has changed it. -/
theorem Exec.mustIf {s s' : Threads α} {tr : List (ℕ × Access)} (h : s.Exec tr s') {P : Access → Prop} {t : ℕ} {v : α} {y : RN} {f₀ : Field}
    {c₀ : f₀.Content} (hc : (s.caches y).get f₀ = c₀) (hp : (s.rest t).MustIf P y f₀ c₀) (hv : Returned s' t v) :
    (∃ a, (t, a) ∈ tr ∧ P a) ∨ ∃ u a, u ≠ t ∧ (u, a) ∈ tr ∧ a.obj = y ∧ a.field = f₀ ∧ a.kind ≠ .read := by
  induction h with
  | refl s => rw [Returned] at hv; rw [hv] at hp; exact hp.elim
  | step u hu rest ih =>
    rename_i s tr s' x f kind g k
    have lift : ((∃ a, (t, a) ∈ tr ∧ P a) ∨ ∃ u a, u ≠ t ∧ (u, a) ∈ tr ∧ a.obj = y ∧ a.field = f₀ ∧ a.kind ≠ .read) →
        ((∃ a, (t, a) ∈ (u, (⟨x, f, kind⟩ : Access)) :: tr ∧ P a) ∨
          ∃ w a, w ≠ t ∧ (w, a) ∈ (u, (⟨x, f, kind⟩ : Access)) :: tr ∧ a.obj = y ∧ a.field = f₀ ∧ a.kind ≠ .read) := by
      rintro (⟨a, h1, h2⟩ | ⟨w, a, h1, h2, h3⟩)
      · exact Or.inl ⟨a, List.mem_cons_of_mem _ h1, h2⟩
      · exact Or.inr ⟨w, a, h1, List.mem_cons_of_mem _ h2, h3⟩
    by_cases e : t = u
    · subst e
      rw [hu] at hp
      rcases hp with hp | ⟨e, h1, hp⟩ | ⟨h1, hp⟩ | hp
      · exact Or.inl ⟨_, List.mem_cons_self, hp⟩
      · obtain ⟨rfl, rfl⟩ := e
        subst h1
        refine lift (ih ?_ ?_ hv)
        · simp only [Prog.touch_same]; exact hc
        · simp only [Function.update_self]
          have : Prog.effect .read g ((s.caches x).get f) = c₀ := hc
          rw [this]; exact hp
      · refine lift (ih ?_ ?_ hv)
        · simp only; rw [Prog.touch_ne _ fun e => h1 ⟨e.1.symm, e.2.symm⟩]; exact hc
        · simp only [Function.update_self]; exact hp _
      · exact lift (Or.inl (rest.must (t := t) (by simp only [Function.update_self]; exact hp _) hv))
    · by_cases hx : x = y ∧ f = f₀ ∧ kind ≠ .read
      · exact Or.inr ⟨u, _, fun h => e h.symm, List.mem_cons_self, hx⟩
      · refine lift (ih ?_ ?_ hv)
        · simp only
          by_cases hk : kind = .read
          · subst hk; rw [Prog.touch_id _ _ _ _ rfl]; exact hc
          · rw [Prog.touch_ne _ fun e => hx ⟨e.1.symm, e.2.symm, hk⟩]; exact hc
        · simp only [Function.update_of_ne e]; exact hp

/-- If a thread returns that has to assign to a member as long as the member has not changed, then some thread has assigned to that member. -/
theorem Exec.until {s s' : Threads α} {tr : List (ℕ × Access)} (h : s.Exec tr s') {t : ℕ} {v : α} {y : RN} {f₀ : Field} {c₀ : f₀.Content}
    (hc : (s.caches y).get f₀ = c₀) (hall : ∀ u, (s.rest u).Until True y f₀ c₀) (hp : (s.rest t).Until False y f₀ c₀) (hv : Returned s' t v) :
    ∃ e ∈ tr, e.2 = ⟨y, f₀, .write⟩ := by
  induction h with
  | refl s => rw [Returned] at hv; rw [hv] at hp; exact hp.elim
  | step u hu rest ih =>
    rename_i s tr s' x f kind g k
    have hU := hall u
    rw [hu] at hU
    rcases hU with ⟨rfl, rfl, rfl⟩ | ⟨⟨rfl, rfl⟩, h1, h2⟩ | ⟨h1, h2⟩
    · exact ⟨_, List.mem_cons_self, rfl⟩
    · simp only at h1 h2
      have hT : Prog.touch s.caches x f kind g = s.caches := Prog.touch_id _ _ _ _ (by rw [hc]; exact h1)
      have hk : k (Prog.effect kind g ((s.caches x).get f)) = k c₀ := by rw [hc, h1]
      by_cases hw : kind = .write
      · subst hw; exact ⟨_, List.mem_cons_self, rfl⟩
      obtain ⟨e, he, h3⟩ := ih (by simp only; rw [hT]; exact hc) (fun w => by
        by_cases e : w = u
        · subst e; simp only [Function.update_self]; rw [hk]; exact h2
        · simp only [Function.update_of_ne e]; exact hall w) (by
        by_cases e : t = u
        · subst e
          simp only [Function.update_self]
          rw [hk]
          rw [hu] at hp
          rcases hp with ⟨h3, _⟩ | ⟨_, _, h3⟩ | ⟨h3, _⟩
          · exact absurd h3 hw
          · exact h3
          · exact absurd ⟨rfl, rfl⟩ h3
        · simp only [Function.update_of_ne e]; exact hp) hv
      exact ⟨e, List.mem_cons_of_mem _ he, h3⟩
    · obtain ⟨e, he, h3⟩ := ih (by simp only; rw [Prog.touch_ne _ fun e => h1 ⟨e.1.symm, e.2.symm⟩]; exact hc) (fun w => by
        by_cases e : w = u
        · subst e; simp only [Function.update_self]; exact h2 _
        · simp only [Function.update_of_ne e]; exact hall w) (by
        by_cases e : t = u
        · subst e
          simp only [Function.update_self]
          rw [hu] at hp
          rcases hp with ⟨-, h3⟩ | ⟨h3, -⟩ | ⟨-, h3⟩
          · exact absurd h3 h1
          · exact absurd h3 h1
          · exact h3 _
        · simp only [Function.update_of_ne e]; exact hp) hv
      exact ⟨e, List.mem_cons_of_mem _ he, h3⟩

/-- All accesses in an execution are accesses of the programs. -/
theorem Exec.all {s s' : Threads α} {tr : List (ℕ × Access)} (h : s.Exec tr s') {P : ℕ → Access → Prop} (hp : ∀ t, (s.rest t).All (P t)) :
    ∀ e ∈ tr, P e.1 e.2 := by
  induction h with
  | refl s => simp
  | step u hu rest ih =>
    rename_i s tr s' x f kind g k
    have h1 := hp u
    rw [hu] at h1
    intro e he
    rcases List.mem_cons.1 he with rfl | he
    · exact h1.1
    · refine ih (fun t => ?_) e he
      by_cases e : t = u
      · subst e; simp only [Function.update_self]; exact h1.2 _
      · simp only [Function.update_of_ne e]; exact hp t

/-- When no program changes anything, then nothing changes and every thread returns its value. -/
theorem Exec.quiet {s s' : Threads α} {tr : List (ℕ × Access)} (h : s.Exec tr s') {P : Access → Prop} {v : ℕ → α}
    (hp : ∀ t, (s.rest t).Quiet P s.caches (v t)) :
    (∀ e ∈ tr, P e.2) ∧ s'.caches = s.caches ∧ ∀ t w, Returned s' t w → w = v t := by
  induction h with
  | refl s => refine ⟨by simp, rfl, fun t w hw => ?_⟩; have := hp t; rw [Returned] at hw; rw [hw] at this; exact this
  | step u hu rest ih =>
    rename_i s tr s' x f kind g k
    have h1 := hp u
    rw [hu] at h1
    have hs : Prog.touch s.caches x f kind g = s.caches := Prog.touch_id _ _ _ _ h1.2.1
    rw [hs] at ih
    obtain ⟨i1, i2, i3⟩ := ih (fun t => by
      by_cases e : t = u
      · subst e; simp only [Function.update_self]; rw [h1.2.1]; exact h1.2.2
      · simp only [Function.update_of_ne e]; exact hp t)
    refine ⟨fun e he => ?_, i2, i3⟩
    rcases List.mem_cons.1 he with rfl | he
    · exact h1.1
    · exact i1 e he

/-- Threads that access different numbers do not notice each other. -/
theorem Exec.disjoint {s s' : Threads α} {tr : List (ℕ × Access)} (h : s.Exec tr s') {F : ℕ → RN → Prop}
    (hp : ∀ t, (s.rest t).All fun a => F t a.obj) (hF : ∀ t u x, F t x → F u x → t = u) :
    ∀ t v, Returned s' t v → ((s.rest t).run s.caches).2 = v := by
  induction h with
  | refl s => intro t v hv; rw [Returned] at hv; rw [hv]; rfl
  | step u hu rest ih =>
    rename_i s tr s' x f kind g k
    have h1 := hp u
    rw [hu] at h1
    intro t v hv
    have := ih (fun t => by
      by_cases e : t = u
      · subst e; simp only [Function.update_self]; exact h1.2 _
      · simp only [Function.update_of_ne e]; exact hp t) t v hv
    rw [← this]
    by_cases e : t = u
    · subst e; simp only [Function.update_self]; rw [hu]; rfl
    · simp only [Function.update_of_ne e]
      refine (Prog.run_congr (hp t) fun y hy => ?_).1
      rw [Prog.touch_ne_obj]
      rintro rfl
      exact e (hF _ _ _ hy h1.1)

theorem Exec.trans {s s' s'' : Threads α} {tr tr' : List (ℕ × Access)} (h : s.Exec tr s') (h' : s'.Exec tr' s'') : s.Exec (tr ++ tr') s'' := by
  induction h with
  | refl s => exact h'
  | step u hu rest ih => exact .step u hu (ih h')

/-- A thread can always run to its end while the others wait. -/
theorem Exec.alone (s : Threads α) (t : ℕ) : ∃ tr, s.Exec tr ⟨Function.update s.rest t (.ret ((s.rest t).run s.caches).2), ((s.rest t).run s.caches).1⟩ := by
  obtain ⟨r, σ⟩ := s
  generalize hp : r t = p
  induction p generalizing r σ with
  | ret a =>
    refine ⟨[], ?_⟩
    simp only [hp, Prog.run]
    rw [← hp, Function.update_eq_self]
    exact .refl _
  | access x f kind g k ih =>
    obtain ⟨tr, h⟩ := ih _ (Function.update r t (k (Prog.effect kind g ((σ x).get f)))) (Prog.touch σ x f kind g) (Function.update_self ..)
    refine ⟨(t, ⟨x, f, kind⟩) :: tr, .step t hp ?_⟩
    · simp only [Function.update_self, Function.update_idem] at h
      simp only [hp, Prog.run]
      exact h

/-- There are executions in which two given threads return. -/
theorem Exec.both (s : Threads α) {t u : ℕ} (hne : t ≠ u) : ∃ tr s' v w, s.Exec tr s' ∧ Returned s' t v ∧ Returned s' u w := by
  obtain ⟨tr, h1⟩ := alone s t
  obtain ⟨tr', h2⟩ := alone _ u
  exact ⟨_, _, _, _, h1.trans h2, (Function.update_of_ne hne _ _).trans (Function.update_self ..), Function.update_self ..⟩

end Threads

end ExactReal
