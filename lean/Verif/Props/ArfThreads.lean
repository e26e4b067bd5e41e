import Verif.Lemma.ArfThreads

/-!
# Approximations from several threads (C62)
-/

namespace ExactReal

open Spec

/-! ### A single thread -/

/-- A program does what a function of the model of the cache does. -/
def Prog.Does {α : Type} (atoms : Atoms) (p : Prog α) (f : Cached α) : Prop := ∀ σ, Caches.Ok atoms σ → p.run σ = f σ

theorem lookup_none_filter {prec : ℕ} {l : List (ℕ × ℚ)} (h : l.lookup prec = none) : (l.filter fun p => p.1 != prec) = l := by
  rw [List.filter_eq_self]
  rintro ⟨q, v⟩ hq
  have := not_mem_of_lookup_none h
  simp only [bne_iff_ne]
  rintro rfl
  exact this (List.mem_map.2 ⟨_, hq, rfl⟩)

theorem bracketLarge_some {prec : ℕ} {l : List (ℕ × ℚ)} {v : ℚ} (h : l.lookup prec = some v) : bracketLarge prec l = l := by
  unfold bracketLarge; rw [h]

theorem lookup_insertLarge (prec : ℕ) (v : ℚ) (l : List (ℕ × ℚ)) : (insertLarge prec v l).lookup prec = some v := by
  simp [insertLarge, List.lookup_cons]

theorem arfProg_does {atoms : Atoms} {S : RN → Prop} {x : RN} {prec : ℕ} {p : Prog ℚ} {f : Cached ℚ} {v : ℚ} (hp : p.Does atoms f)
    (hf : Computes atoms S f v) (hx : ¬ S x) : (arfProg x prec p).Does atoms (arfCached x prec f) := by
  intro σ h
  unfold arfProg arfCached
  by_cases h1 : prec = 54
  · rw [if_pos h1, if_pos h1, arf54Prog, Prog.run_read]
    simp only [ArfCache.get]
    cases hc : (σ x).arf54 with
    | some w => simp only [Prog.bind, Prog.run_read, ArfCache.get, hc, Prog.run, Option.getD_some]
    | none =>
      simp only [Prog.run_bind, hp σ h, Prog.write, Prog.run, Prog.run_read, Prog.touch, Prog.effect, ArfCache.put, ArfCache.get, Caches.set, if_true,
        Option.getD_some]
  rw [if_neg h1, if_neg h1]
  by_cases h2 : prec = 64
  · rw [if_pos h2, if_pos h2, arf64Prog, Prog.run_read]
    simp only [ArfCache.get]
    cases hc : (σ x).arf64 with
    | some w => simp only [Prog.bind, Prog.run_read, ArfCache.get, hc, Prog.run, Option.getD_some]
    | none =>
      simp only [Prog.run_bind, hp σ h, Prog.write, Prog.run, Prog.run_read, Prog.touch, Prog.effect, ArfCache.put, ArfCache.get, Caches.set, if_true,
        Option.getD_some]
  · rw [if_neg h2, if_neg h2, largeProg, Prog.run_read]
    simp only [ArfCache.get]
    cases hc : (σ x).large.lookup prec with
    | some w =>
      simp only [Prog.bind, Prog.run]
      rw [Prog.touch_id]
      · simp only [Prog.effect, ArfCache.get, bracketLarge_some hc, hc, Option.getD_some]
      · simp only [Prog.effect, ArfCache.get, bracketLarge_some hc]
    | none =>
      rw [Prog.run_bind, Prog.run_read]
      generalize hσ' : (if (σ x).large.length ≥ 128 then σ.set x { σ x with large := [] } else σ) = σ'
      have hrun : ((if List.length ((σ x).get .large) ≥ 128 then Prog.write x .large [] (.ret ()) else .ret ()) : Prog Unit).run σ = (σ', ()) := by
        rw [← hσ']
        by_cases hb : (σ x).large.length ≥ 128
        · rw [if_pos hb, if_pos (show List.length ((σ x).get .large) ≥ 128 from hb)]; rfl
        · rw [if_neg hb, if_neg (show ¬ List.length ((σ x).get .large) ≥ 128 from hb)]; rfl
      have hσ : Caches.Ok atoms σ' ∧ (σ' x).large.lookup prec = none := by
        rw [← hσ']
        split_ifs with hc
        · exact ⟨h.set (h.arf54 x) (h.arf64 x) (by simp) (by simp) (by simp), by simp [Caches.set]⟩
        · exact ⟨h, by assumption⟩
      obtain ⟨h', hn⟩ := hσ
      obtain ⟨e1, e2, e3⟩ := hf σ' h'
      rw [Prog.run_bind, hrun]
      simp only [Prog.run_bind, hp σ' h', Prog.run]
      have hn' : ((f σ').1 x).large.lookup prec = none := by rw [e3 x hx]; exact hn
      generalize hτ : Prog.touch (f σ').1 x .large .write (insertLarge prec (f σ').2) = τ
      have hτx : (τ x).large = insertLarge prec (f σ').2 ((f σ').1 x).large := by
        rw [← hτ]; simp [Prog.touch, Caches.set, Prog.effect, ArfCache.put, ArfCache.get]
      have hl : (τ x).large.lookup prec = some (f σ').2 := by rw [hτx]; exact lookup_insertLarge _ _ _
      rw [Prog.touch_id]
      · simp only [Prog.effect, ArfCache.get, bracketLarge_some hl, hl, Option.getD_some]
        refine Prod.ext ?_ rfl
        simp only
        rw [← hτ]
        simp only [Prog.touch, Prog.effect, ArfCache.put, ArfCache.get, insertLarge, lookup_none_filter hn']
      · simp only [Prog.effect, ArfCache.get, bracketLarge_some hl]

namespace Inner
variable {atoms : Atoms} (I : Inner atoms)

theorem atomProg_does (i prec : ℕ) : (I.atomProg i prec).Does atoms (I.atomArf i prec) := by
  unfold atomProg atomArf
  cases hi : atoms i with
  | random d => exact arfProg_does (S := fun _ => False) (fun _ _ => rfl) (computes_pure _) fun h => h
  | constrained m e d =>
    have hin := I.spec i m e d hi
    have hne : I.inner i ≠ i := fun h => by rw [h, hi] at hin; cases hin
    have hin := fun (σ : Caches) (h : Caches.Ok atoms σ) => arfProg_does (x := .atom (I.inner i))
      (prec := (((prec : ℤ) + 1) - Arf.bits (Arf.ofMantissaExponent m e) - 1).toNat)
      (p := .ret ((atoms (I.inner i)).arf (((prec : ℤ) + 1) - Arf.bits (Arf.ofMantissaExponent m e) - 1).toNat))
      (f := fun σ => (σ, (atoms (I.inner i)).arf (((prec : ℤ) + 1) - Arf.bits (Arf.ofMantissaExponent m e) - 1).toNat))
      (fun _ _ => rfl) (computes_pure (atoms := atoms) _) (fun h => h) σ h
    have hcomp := fun (σ : Caches) (h : Caches.Ok atoms σ) => arfCached_computes (x := .atom (I.inner i))
      (prec := (((prec : ℤ) + 1) - Arf.bits (Arf.ofMantissaExponent m e) - 1).toNat)
      (f := fun σ => (σ, (atoms (I.inner i)).arf (((prec : ℤ) + 1) - Arf.bits (Arf.ofMantissaExponent m e) - 1).toNat))
      (computes_pure (atoms := atoms) _) (fun h => h) σ h
    refine arfProg_does (S := fun y => y = RN.atom (I.inner i)) (v := (RN.atom i).arf_ atoms prec) ?_ ?_
      (fun h => hne (by injection h with h; exact h.symm))
    · intro σ h
      simp only
      split_ifs with hc
      · rw [Prog.run_bind, hin σ h]; rfl
      · rfl
    · intro σ h
      have hv : (RN.atom i).arf_ atoms prec = Atom.arfConstrained m e d prec := by simp only [RN.arf_, hi, Atom.arf]
      rw [hv, Atom.arfConstrained]
      simp only
      split_ifs with hc
      · obtain ⟨e1, e2, e3⟩ := hcomp σ h
        refine ⟨?_, e2, fun x hx => e3 x (by simpa using hx)⟩
        rw [e1]
        simp only [RN.arf_, I.spec i m e d hi, Atom.arf]
      · exact ⟨rfl, h, fun _ _ => rfl⟩

theorem mulProg_does (w i n : ℕ) (ret : ℚ) : (I.mulProg w i n ret).Does atoms (I.mulLoop w i n ret) := by
  induction n generalizing ret with
  | zero => exact fun _ _ => rfl
  | succ n ih =>
    intro σ h
    obtain ⟨e1, e2, e3⟩ := I.atomArf_computes i w σ h
    rw [mulProg, mulLoop, Prog.run_bind, I.atomProg_does i w σ h]
    exact ih _ _ e2

theorem prodProg_does (w : ℕ) (m : Mono) (ret : ℚ) : (I.prodProg w m ret).Does atoms (I.prodLoop w m ret) := by
  induction m generalizing ret with
  | nil => exact fun _ _ => rfl
  | cons p m ih =>
    rcases p with ⟨i, e⟩
    intro σ h
    obtain ⟨e1, e2, e3⟩ := I.mulLoop_computes w i e ret σ h
    rw [prodProg, prodLoop, Prog.run_bind, I.mulProg_does w i e ret σ h]
    exact ih _ _ e2

theorem prog_does (x : RN) (prec : ℤ) : (I.prog x prec).Does atoms (I.arf x prec) := by
  unfold Inner.arf Inner.prog
  cases x with
  | rat q => exact arfProg_does (fun _ _ => rfl) (computes_pure _) fun h => h
  | atom i => exact I.atomProg_does i prec.toNat
  | prod m =>
    refine arfProg_does (S := IsAtom) (v := (RN.prod m).arf_ atoms prec.toNat) ?_ ?_ fun h => h
    · intro σ h
      rw [Prog.run_bind, I.prodProg_does _ _ _ σ h]; rfl
    · intro σ h
      obtain ⟨e1, e2, e3⟩ := I.prodLoop_computes (workingPrec prec.toNat (m.map Prod.snd).sum) m 1 σ h
      refine ⟨?_, e2, e3⟩
      simp only [e1, RN.arf_]

theorem thread_does (cs : List (RN × ℤ)) : (I.thread cs).Does atoms (I.calls cs) := by
  induction cs with
  | nil => exact fun _ _ => rfl
  | cons c cs ih =>
    rcases c with ⟨x, prec⟩
    intro σ h
    obtain ⟨e1, e2, -⟩ := I.arf_computes x prec σ h
    rw [thread, calls, Prog.run_bind, I.prog_does x prec σ h, Prog.run_bind, ih _ e2]
    rfl

/-! ### The numbers that are involved -/

theorem arfProg_all {P : Access → Prop} {x : RN} {prec : ℕ} {p : Prog ℚ} (hp : p.All P) (hx : ∀ f k, P ⟨x, f, k⟩) : (arfProg x prec p).All P := by
  unfold arfProg
  split_ifs
  · refine ⟨hx _ _, fun c => Prog.All.bind ?_ fun _ => ⟨hx _ _, fun _ => trivial⟩⟩
    split
    · trivial
    · exact hp.bind fun v => ⟨hx _ _, fun _ => trivial⟩
  · refine ⟨hx _ _, fun c => Prog.All.bind ?_ fun _ => ⟨hx _ _, fun _ => trivial⟩⟩
    split
    · trivial
    · exact hp.bind fun v => ⟨hx _ _, fun _ => trivial⟩
  · refine ⟨hx _ _, fun c => Prog.All.bind ?_ fun _ => ⟨hx _ _, fun _ => trivial⟩⟩
    split
    · trivial
    · refine ⟨hx _ _, fun c => Prog.All.bind ?_ fun _ => hp.bind fun v => ⟨hx _ _, fun _ => trivial⟩⟩
      split_ifs
      · exact ⟨hx _ _, fun _ => trivial⟩
      · trivial

theorem atomProg_all (i prec : ℕ) : (I.atomProg i prec).All fun a => a.obj = .atom i ∨ a.obj = .atom (I.inner i) := by
  unfold atomProg
  refine arfProg_all ?_ fun _ _ => Or.inl rfl
  cases hi : atoms i with
  | random d => trivial
  | constrained m e d =>
    simp only
    split_ifs
    · exact (arfProg_all (p := .ret _) trivial fun _ _ => Or.inr rfl).bind fun _ => trivial
    · trivial

theorem mulProg_all (w i n : ℕ) (ret : ℚ) : (I.mulProg w i n ret).All fun a => a.obj = .atom i ∨ a.obj = .atom (I.inner i) := by
  induction n generalizing ret with
  | zero => trivial
  | succ n ih => exact (I.atomProg_all i w).bind fun _ => ih _

theorem prodProg_all (w : ℕ) (m : Mono) (ret : ℚ) :
    (I.prodProg w m ret).All fun a => ∃ i ∈ m.map Prod.fst, a.obj = .atom i ∨ a.obj = .atom (I.inner i) := by
  induction m generalizing ret with
  | nil => trivial
  | cons p m ih =>
    rcases p with ⟨i, e⟩
    refine ((I.mulProg_all w i e ret).mono fun a h => ⟨i, by simp, h⟩).bind fun _ => (ih _).mono fun a ⟨j, hj, h⟩ => ⟨j, by simp at hj ⊢; exact Or.inr hj, h⟩

theorem prog_all (x : RN) (prec : ℤ) : (I.prog x prec).All fun a => Involved I x a.obj := by
  unfold prog
  cases x with
  | rat q => exact arfProg_all (p := .ret _) trivial fun _ _ => Or.inl rfl
  | atom i => exact (I.atomProg_all i prec.toNat).mono fun a h => Or.inr ⟨i, Or.inl rfl, h⟩
  | prod m =>
    exact arfProg_all (((I.prodProg_all _ m 1).mono fun a ⟨i, hi, h⟩ => Or.inr ⟨i, Or.inr ⟨m, rfl, hi⟩, h⟩).bind fun _ => trivial)
      fun _ _ => Or.inl rfl

theorem thread_all (cs : List (RN × ℤ)) : (I.thread cs).All fun a => ∃ c ∈ cs, Involved I c.1 a.obj := by
  induction cs with
  | nil => trivial
  | cons c cs ih =>
    rcases c with ⟨x, prec⟩
    exact ((I.prog_all x prec).mono fun a h => ⟨_, List.mem_cons_self, h⟩).bind fun _ =>
      (ih.mono fun a ⟨c, h1, h2⟩ => ⟨c, List.mem_cons_of_mem _ h1, h2⟩).bind fun _ => trivial

/-! ### What a call of `arf` does to a member -/

theorem until_at {α : Type} {Q : Prop} {y : RN} {h : Field} {c₀ : h.Content} {kind : Kind} {g : h.Content → h.Content} {k : h.Content → Prog α}
    (hg : Prog.effect kind g c₀ = c₀) (hk : (k c₀).Until Q y h c₀) : (Prog.access y h kind g k).Until Q y h c₀ :=
  Or.inr (Or.inl ⟨⟨rfl, rfl⟩, hg, hk⟩)

theorem until_away {α : Type} {Q : Prop} {y x : RN} {h f : Field} {c₀ : h.Content} {kind : Kind} {g : f.Content → f.Content}
    {k : f.Content → Prog α} (hne : ¬ (x = y ∧ f = h)) (hk : ∀ c, (k c).Until Q y h c₀) : (Prog.access x f kind g k).Until Q y h c₀ :=
  Or.inr (Or.inr ⟨hne, hk⟩)

/-- The member that is used for a precision. -/
def fieldNat (prec : ℕ) : Field := if prec = 54 then .arf54 else if prec = 64 then .arf64 else .large

/-- Is an approximation in the member for a precision? -/
def cachedIn (prec : ℕ) : (f : Field) → f.Content → Prop
  | .arf54, c => c ≠ none
  | .arf64, c => c ≠ none
  | .large, l => l.lookup prec ≠ none

theorem arfProg_until {x y : RN} {prec : ℕ} {p : Prog ℚ} {h : Field} {c₀ : h.Content} (hp : p.Until True y h c₀) :
    (arfProg x prec p).Until True y h c₀ ∧ (x = y → fieldNat prec = h → ¬ cachedIn prec h c₀ → (arfProg x prec p).Until False y h c₀) := by
  unfold arfProg fieldNat
  by_cases h1 : prec = 54
  · simp only [if_pos h1]
    by_cases hL : x = y ∧ Field.arf54 = h
    · obtain ⟨rfl, rfl⟩ := hL
      cases c₀ with
      | some v => exact ⟨until_at rfl (until_at rfl trivial), fun _ _ hn => absurd (Option.some_ne_none v) hn⟩
      | none =>
        have key : ∀ Q, (arf54Prog x p).Until Q x .arf54 none := fun Q =>
          until_at rfl (Prog.Until.bind (Q := False) (hp.bind fun _ _ => Or.inl ⟨rfl, rfl, rfl⟩) fun hf => hf.elim)
        exact ⟨key _, fun _ _ _ => key _⟩
    · refine ⟨until_away hL fun c => Prog.Until.bind (Q := True) ?_ fun _ _ => until_away hL fun _ => trivial, fun e1 e2 => absurd ⟨e1, e2⟩ hL⟩
      cases c with
      | some v => trivial
      | none => exact hp.bind fun _ _ => until_away hL fun _ => trivial
  simp only [if_neg h1]
  by_cases h2 : prec = 64
  · simp only [if_pos h2]
    by_cases hL : x = y ∧ Field.arf64 = h
    · obtain ⟨rfl, rfl⟩ := hL
      cases c₀ with
      | some v => exact ⟨until_at rfl (until_at rfl trivial), fun _ _ hn => absurd (Option.some_ne_none v) hn⟩
      | none =>
        have key : ∀ Q, (arf64Prog x p).Until Q x .arf64 none := fun Q =>
          until_at rfl (Prog.Until.bind (Q := False) (hp.bind fun _ _ => Or.inl ⟨rfl, rfl, rfl⟩) fun hf => hf.elim)
        exact ⟨key _, fun _ _ _ => key _⟩
    · refine ⟨until_away hL fun c => Prog.Until.bind (Q := True) ?_ fun _ _ => until_away hL fun _ => trivial, fun e1 e2 => absurd ⟨e1, e2⟩ hL⟩
      cases c with
      | some v => trivial
      | none => exact hp.bind fun _ _ => until_away hL fun _ => trivial
  simp only [if_neg h2]
  by_cases hL : x = y ∧ Field.large = h
  · obtain ⟨rfl, rfl⟩ := hL
    change List (ℕ × ℚ) at c₀
    cases hc : c₀.lookup prec with
    | some v =>
      refine ⟨until_at rfl ?_, fun _ _ hn => absurd (show c₀.lookup prec ≠ none by rw [hc]; exact Option.some_ne_none v) hn⟩
      simp only [hc, Prog.bind]
      exact until_at (bracketLarge_some hc) trivial
    | none =>
      have key : ∀ Q, (largeProg x prec p).Until Q x .large c₀ := by
        intro Q
        refine until_at rfl ?_
        simp only [hc]
        refine Prog.Until.bind (Q := False) (until_at rfl ?_) fun hf => hf.elim
        refine Prog.Until.bind (Q := True) ?_ fun _ _ => hp.bind fun _ _ => Or.inl ⟨rfl, rfl, rfl⟩
        split_ifs
        · exact Or.inl ⟨rfl, rfl, rfl⟩
        · trivial
      exact ⟨key _, fun _ _ _ => key _⟩
  · refine ⟨until_away hL fun c => Prog.Until.bind (Q := True) ?_ fun _ _ => until_away hL fun _ => trivial, fun e1 e2 => absurd ⟨e1, e2⟩ hL⟩
    split
    · trivial
    · refine until_away hL fun c => Prog.Until.bind (Q := True) ?_ fun _ _ => hp.bind fun _ _ => until_away hL fun _ => trivial
      split_ifs
      · exact until_away hL fun _ => trivial
      · trivial

theorem atomProg_until (i prec : ℕ) {y : RN} {h : Field} {c₀ : h.Content} : (I.atomProg i prec).Until True y h c₀ ∧
    (.atom i = y → fieldNat prec = h → ¬ cachedIn prec h c₀ → (I.atomProg i prec).Until False y h c₀) := by
  unfold atomProg
  apply arfProg_until
  cases hi : atoms i with
  | random d => trivial
  | constrained m e d =>
    simp only
    split_ifs
    · exact (arfProg_until (p := .ret _) trivial).1.bind fun _ _ => trivial
    · trivial

theorem mulProg_until (w i n : ℕ) (ret : ℚ) {y : RN} {h : Field} {c₀ : h.Content} : (I.mulProg w i n ret).Until True y h c₀ := by
  induction n generalizing ret with
  | zero => trivial
  | succ n ih => exact (I.atomProg_until i w).1.bind fun _ _ => ih _

theorem prodProg_until (w : ℕ) (m : Mono) (ret : ℚ) {y : RN} {h : Field} {c₀ : h.Content} : (I.prodProg w m ret).Until True y h c₀ := by
  induction m generalizing ret with
  | nil => trivial
  | cons p m ih => exact (I.mulProg_until w p.1 p.2 ret).bind fun _ _ => ih _

theorem prog_until (x : RN) (prec : ℤ) {y : RN} {h : Field} {c₀ : h.Content} : (I.prog x prec).Until True y h c₀ ∧
    (x = y → fieldNat prec.toNat = h → ¬ cachedIn prec.toNat h c₀ → (I.prog x prec).Until False y h c₀) := by
  unfold prog
  cases x with
  | rat q => exact arfProg_until (p := .ret _) trivial
  | atom i => exact I.atomProg_until i prec.toNat
  | prod m => exact arfProg_until ((I.prodProg_until _ m 1).bind fun _ _ => trivial)

theorem thread_until (cs : List (RN × ℤ)) {y : RN} {h : Field} {c₀ : h.Content} : (I.thread cs).Until True y h c₀ := by
  induction cs with
  | nil => trivial
  | cons c cs ih => exact (I.prog_until c.1 c.2).1.bind fun _ _ => ih.bind fun _ _ => trivial

theorem thread_until_false {cs : List (RN × ℤ)} {x : RN} {prec : ℤ} (hc : (x, prec) ∈ cs) {c₀ : (fieldNat prec.toNat).Content}
    (hn : ¬ cachedIn prec.toNat _ c₀) : (I.thread cs).Until False x (fieldNat prec.toNat) c₀ := by
  induction cs with
  | nil => simp at hc
  | cons c cs ih =>
    rcases List.mem_cons.1 hc with rfl | hc
    · exact ((I.prog_until x prec).2 rfl rfl hn).bind fun hf => hf.elim
    · exact (I.prog_until c.1 c.2).1.bind fun _ _ => (ih hc).bind fun hf => hf.elim

theorem arfProg_must (x : RN) (prec : ℕ) (p : Prog ℚ) : (arfProg x prec p).Must fun a => a.obj = x ∧ a.field = fieldNat prec := by
  unfold arfProg fieldNat
  split_ifs <;> exact Or.inl ⟨rfl, rfl⟩

theorem prog_must (x : RN) (prec : ℤ) : (I.prog x prec).Must fun a => a.obj = x ∧ a.field = fieldNat prec.toNat := by
  unfold prog
  cases x <;> exact arfProg_must _ _ _

theorem arfProg_must_bracket (x : RN) {prec : ℕ} (hf : fieldNat prec = .large) (p : Prog ℚ) :
    (arfProg x prec p).Must fun a => a = ⟨x, .large, .bracket⟩ := by
  unfold fieldNat at hf
  unfold arfProg
  split_ifs at hf ⊢
  exact Or.inr fun c => Prog.Must.bind (Or.inr fun _ => Or.inl rfl)

theorem prog_must_bracket (x : RN) {prec : ℤ} (hf : fieldNat prec.toNat = .large) : (I.prog x prec).Must fun a => a = ⟨x, .large, .bracket⟩ := by
  unfold prog
  cases x <;> exact arfProg_must_bracket _ hf _

theorem thread_must {P : Access → Prop} {cs : List (RN × ℤ)} {x : RN} {prec : ℤ} (hc : (x, prec) ∈ cs) (hp : (I.prog x prec).Must P) :
    (I.thread cs).Must P := by
  induction cs with
  | nil => simp at hc
  | cons c cs ih =>
    rcases List.mem_cons.1 hc with rfl | hc
    · exact Prog.Must.bind (Or.inl hp)
    · exact Prog.Must.bind (Or.inr fun _ => Prog.Must.bind (Or.inl (ih hc)))

theorem fieldOf_eq (prec : ℤ) : fieldOf prec = fieldNat prec.toNat := by
  unfold fieldOf fieldNat
  by_cases h1 : prec = 54
  · subst h1; rfl
  by_cases h2 : prec = 64
  · subst h2; rfl
  rw [if_neg h1, if_neg h2, if_neg (by omega), if_neg (by omega)]

theorem cachedIn_congr {prec : ℕ} {f g : Field} (e : f = g) {c : ArfCache} : cachedIn prec f (c.get f) ↔ cachedIn prec g (c.get g) := by
  subst e; rfl

theorem isCached_iff (σ : Caches) (x : RN) (prec : ℤ) :
    IsCached σ x prec ↔ cachedIn prec.toNat (fieldNat prec.toNat) ((σ x).get (fieldNat prec.toNat)) := by
  unfold IsCached
  by_cases h1 : prec = 54
  · subst h1; rfl
  by_cases h2 : prec = 64
  · subst h2; rfl
  have h1' : ¬ prec.toNat = 54 := by omega
  have h2' : ¬ prec.toNat = 64 := by omega
  have e : fieldNat prec.toNat = .large := by rw [fieldNat, if_neg h1', if_neg h2']
  rw [if_neg h1, if_neg h2]
  exact (cachedIn_congr e).symm

/-! ### Products -/

theorem mustIf_at {α : Type} {P : Access → Prop} {y : RN} {h : Field} {c₀ : h.Content} {g : h.Content → h.Content} {k : h.Content → Prog α}
    (hk : (k c₀).MustIf P y h c₀) : (Prog.access y h .read g k).MustIf P y h c₀ :=
  Or.inr (Or.inl ⟨⟨rfl, rfl⟩, rfl, hk⟩)

/-- When an approximation is not cached, it is computed, if nobody else changes the cache. -/
theorem arfProg_mustIf {P : Access → Prop} {x : RN} {prec : ℕ} {p : Prog ℚ} (hm : p.Must P) {h : Field} (hf : fieldNat prec = h) {c₀ : h.Content}
    (hn : ¬ cachedIn prec h c₀) (hp : p.MustIf P x h c₀) : (arfProg x prec p).MustIf P x h c₀ := by
  unfold arfProg
  unfold fieldNat at hf
  split_ifs at hf ⊢ <;> subst hf
  · cases c₀ with
    | some v => exact absurd (Option.some_ne_none v) hn
    | none => exact mustIf_at (Prog.MustIf.bind (Prog.MustIf.bind hp))
  · cases c₀ with
    | some v => exact absurd (Option.some_ne_none v) hn
    | none => exact mustIf_at (Prog.MustIf.bind (Prog.MustIf.bind hp))
  · change List (ℕ × ℚ) at c₀
    have hc : c₀.lookup prec = none := not_not.1 hn
    refine mustIf_at (Prog.MustIf.bind ?_)
    simp only [hc]
    refine mustIf_at ?_
    split_ifs
    · exact Or.inr (Or.inr (Or.inr fun _ => Prog.Must.bind (Or.inr fun _ => Prog.Must.bind (Or.inl hm))))
    · change Prog.MustIf P x .large c₀ (p.bind _)
      exact Prog.MustIf.bind hp

theorem mulProg_must {P : Access → Prop} {w i n : ℕ} (hn : 0 < n) (hp : (I.atomProg i w).Must P) (ret : ℚ) : (I.mulProg w i n ret).Must P := by
  cases n with
  | zero => exact absurd hn (lt_irrefl 0)
  | succ n => exact Prog.Must.bind (Or.inl hp)

theorem prodProg_must {P : Access → Prop} {w i n : ℕ} (hn : 0 < n) {m : Mono} (hi : (i, n) ∈ m) (hp : (I.atomProg i w).Must P) (ret : ℚ) :
    (I.prodProg w m ret).Must P := by
  induction m generalizing ret with
  | nil => simp at hi
  | cons p m ih =>
    rcases List.mem_cons.1 hi with rfl | hi
    · exact Prog.Must.bind (Or.inl (I.mulProg_must hn hp ret))
    · exact Prog.Must.bind (Or.inr fun ret => ih hi ret)

theorem must_mustIf {α : Type} {P : Access → Prop} {y : RN} {h : Field} {c₀ : h.Content} {p : Prog α} (hp : p.Must P) : p.MustIf P y h c₀ := by
  cases p with
  | ret a => exact hp
  | access x f kind g k => exact hp.elim Or.inl fun h => Or.inr (Or.inr (Or.inr h))

/-- A product asks its factors for approximations when its approximation has not been computed before. -/
theorem prod_mustIf {P : Access → Prop} {m : Mono} {prec : ℤ} {i n : ℕ} (hn : 0 < n) (hi : (i, n) ∈ m)
    (hp : (I.atomProg i (workingPrec prec.toNat (m.map Prod.snd).sum)).Must P) {c₀ : (fieldNat prec.toNat).Content}
    (hc : ¬ cachedIn prec.toNat _ c₀) : (I.prog (.prod m) prec).MustIf P (.prod m) (fieldNat prec.toNat) c₀ := by
  unfold prog
  have hm := Prog.Must.bind (h := fun ret => .ret (Arf.round .near (prec.toNat + 1) ret)) (Or.inl (I.prodProg_must hn hi hp 1))
  exact arfProg_mustIf hm rfl hc (must_mustIf hm)

/-! ### Cached approximations -/

theorem arfProg_quiet {x : RN} {prec : ℕ} {p : Prog ℚ} {σ : Caches} (hok : Caches.Ok atoms σ)
    (hc : cachedIn prec (fieldNat prec) ((σ x).get (fieldNat prec))) :
    (arfProg x prec p).Quiet (fun a => a.kind = .read ∨ a.kind = .bracket ∧ fieldNat prec = .large) σ (x.arf_ atoms prec) := by
  unfold arfProg
  split_ifs with h1 h2
  · subst h1
    cases hv : (σ x).arf54 with
    | none => exact absurd hv hc
    | some v =>
      refine ⟨Or.inl rfl, rfl, ?_⟩
      simp only [ArfCache.get, hv, Prog.bind]
      refine ⟨Or.inl rfl, rfl, ?_⟩
      simp only [ArfCache.get, hv, Prog.Quiet, Option.getD_some]
      exact hok.arf54 x v hv
  · subst h2
    cases hv : (σ x).arf64 with
    | none => exact absurd hv hc
    | some v =>
      refine ⟨Or.inl rfl, rfl, ?_⟩
      simp only [ArfCache.get, hv, Prog.bind]
      refine ⟨Or.inl rfl, rfl, ?_⟩
      simp only [ArfCache.get, hv, Prog.Quiet, Option.getD_some]
      exact hok.arf64 x v hv
  · have e : fieldNat prec = .large := by rw [fieldNat, if_neg h1, if_neg h2]
    rw [cachedIn_congr e] at hc
    cases hv : (σ x).large.lookup prec with
    | none => exact absurd hv hc
    | some v =>
      refine ⟨Or.inl rfl, rfl, ?_⟩
      simp only [ArfCache.get, hv, Prog.bind]
      refine ⟨Or.inr ⟨rfl, e⟩, bracketLarge_some hv, ?_⟩
      simp only [ArfCache.get, hv, Prog.Quiet, Option.getD_some]
      exact hok.large x prec v (mem_of_lookup_eq hv)

theorem Quiet.weaken {α : Type} {P Q : Access → Prop} {σ : Caches} {v : α} {p : Prog α} (hp : p.Quiet P σ v) (h : ∀ a, P a → Q a) :
    p.Quiet Q σ v := by
  induction p with
  | ret a => exact hp
  | access x f kind g k ih => exact ⟨h _ hp.1, hp.2.1, ih _ hp.2.2⟩

theorem thread_quiet {cs : List (RN × ℤ)} {σ : Caches} (hok : Caches.Ok atoms σ) (hc : ∀ c ∈ cs, IsCached σ c.1 c.2) :
    (I.thread cs).Quiet (fun a => a.kind = .read ∨ a.kind = .bracket ∧ ∃ c ∈ cs, fieldOf c.2 = .large) σ (cs.map fun c => c.1.arf atoms c.2) := by
  induction cs with
  | nil => exact rfl
  | cons c cs ih =>
    have h1 : (I.prog c.1 c.2).Quiet (fun a => a.kind = .read ∨ a.kind = .bracket ∧ fieldNat c.2.toNat = .large) σ (c.1.arf atoms c.2) := by
      have := (isCached_iff _ _ _).1 (hc c List.mem_cons_self)
      rcases c with ⟨x, prec⟩
      unfold prog
      cases x <;> exact arfProg_quiet hok this
    have h2 := ih fun c hc' => hc c (List.mem_cons_of_mem _ hc')
    refine Prog.Quiet.bind (Quiet.weaken h1 ?_) (Prog.Quiet.bind (Quiet.weaken h2 ?_) rfl)
    · rintro a (h | ⟨h, h'⟩)
      · exact Or.inl h
      · exact Or.inr ⟨h, c, List.mem_cons_self, by rw [fieldOf_eq]; exact h'⟩
    · rintro a (h | ⟨h, c, hc, h'⟩)
      · exact Or.inl h
      · exact Or.inr ⟨h, c, List.mem_cons_of_mem _ hc, h'⟩

end Inner

namespace Props

/-- C62. When several threads ask for approximations and no number is involved in the calls of two threads, then there is no data race and every
thread gets what uncached computations would return.
Missing: numbers involved in the calls of several threads, where the claim is false (`threads_race`). -/
theorem threads_disjoint_partial {atoms : Atoms} (I : Inner atoms) (calls : ℕ → List (RN × ℤ)) {σ : Caches} (hσ : Caches.Ok atoms σ)
    (hd : ∀ t u, t ≠ u → ∀ c ∈ calls t, ∀ c' ∈ calls u, ∀ y, ¬ (Involved I c.1 y ∧ Involved I c'.1 y))
    {tr : List (ℕ × Access)} {s : Threads (List ℚ)} (h : (I.threads calls σ).Exec tr s) :
    ¬ Race Standard tr ∧ ∀ t v, Returned s t v → v = (calls t).map fun c => c.1.arf atoms c.2 := by
  have hall := fun t => I.thread_all (calls t)
  have hF : ∀ t u x, (∃ c ∈ calls t, Involved I c.1 x) → (∃ c ∈ calls u, Involved I c.1 x) → t = u := by
    rintro t u x ⟨c, hc, h1⟩ ⟨c', hc', h2⟩
    by_contra hne
    exact hd t u hne c hc c' hc' x ⟨h1, h2⟩
  refine ⟨?_, fun t v hv => ?_⟩
  · rintro ⟨e, he, e', he', hne, ho, -⟩
    have h1 := h.all (P := fun t a => ∃ c ∈ calls t, Involved I c.1 a.obj) hall e he
    have h2 := h.all (P := fun t a => ∃ c ∈ calls t, Involved I c.1 a.obj) hall e' he'
    rw [← ho] at h2
    exact hne (hF _ _ _ h1 h2)
  · rw [← h.disjoint hall hF t v hv]
    change ((I.thread (calls t)).run σ).2 = _
    rw [I.thread_does _ σ hσ]
    exact (I.calls_ok _ hσ).1

/-- C62. When several threads ask for approximations that have all been computed before, then they get the right approximations and, if `operator[]`
with a key that is present is taken to be a read, there is no data race. With precisions 54 and 64 only, there is no data race by the C++ standard.
Missing: approximations that have not been computed before, where the claim is false (`threads_race`). -/
theorem threads_cached_partial {atoms : Atoms} (I : Inner atoms) (calls : ℕ → List (RN × ℤ)) {σ : Caches} (hσ : Caches.Ok atoms σ)
    (hc : ∀ t, ∀ c ∈ calls t, IsCached σ c.1 c.2) {tr : List (ℕ × Access)} {s : Threads (List ℚ)} (h : (I.threads calls σ).Exec tr s) :
    ¬ Race Lenient tr ∧ ((∀ t, ∀ c ∈ calls t, c.2 = 54 ∨ c.2 = 64) → ¬ Race Standard tr) ∧
      ∀ t v, Returned s t v → v = (calls t).map fun c => c.1.arf atoms c.2 := by
  have hq := fun t => I.thread_quiet hσ (hc t)
  obtain ⟨h1, -, h3⟩ := h.quiet (P := fun a => a.kind = .read ∨ a.kind = .bracket ∧ ∃ t, ∃ c ∈ calls t, fieldOf c.2 = .large)
    fun t => Inner.Quiet.weaken (hq t) fun a ha => ha.imp id fun ⟨h1, h2⟩ => ⟨h1, t, h2⟩
  have key : ∀ e ∈ tr, ¬ Lenient e.2.kind := by
    intro e he hw
    unfold Lenient at hw
    rcases h1 e he with h | ⟨h, -⟩ <;> rw [h] at hw <;> cases hw
  refine ⟨?_, fun h54 => ?_, h3⟩
  · rintro ⟨e, he, e', he', -, -, -, hw | hw⟩
    · exact key e he hw
    · exact key e' he' hw
  · have key' : ∀ e ∈ tr, ¬ Standard e.2.kind := by
      intro e he hw
      rcases h1 e he with h | ⟨-, t, c, hc, hf⟩
      · exact hw h
      · unfold fieldOf at hf
        rcases h54 t c hc with h | h <;> rw [h] at hf <;> simp at hf
    rintro ⟨e, he, e', he', -, -, -, hw | hw⟩
    · exact key' e he hw
    · exact key' e' he' hw

/-- C62. Two threads that ask the same number for approximations that are kept in the same member, one of which has not been computed before: however
their accesses (and the ones of any other threads) are interleaved, once both have returned there has been a data race. -/
theorem threads_race {atoms : Atoms} (I : Inner atoms) (calls : ℕ → List (RN × ℤ)) {σ : Caches} {t u : ℕ} (hne : t ≠ u) {x : RN} {prec prec' : ℤ}
    (ht : (x, prec) ∈ calls t) (hu : (x, prec') ∈ calls u) (hf : fieldOf prec = fieldOf prec') (hc : ¬ IsCached σ x prec)
    {tr : List (ℕ × Access)} {s : Threads (List ℚ)} (h : (I.threads calls σ).Exec tr s) {v w : List ℚ} (hv : Returned s t v) (hw : Returned s u w) :
    Race Lenient tr := by
  rw [Inner.isCached_iff] at hc
  rw [Inner.fieldOf_eq, Inner.fieldOf_eq] at hf
  obtain ⟨e, he, h1⟩ := h.until (t := t) (y := x) (f₀ := Inner.fieldNat prec.toNat) (c₀ := (σ x).get _) rfl (fun w => I.thread_until (calls w))
    (I.thread_until_false ht hc) hv
  obtain ⟨a, ha, ha1, ha2⟩ := h.must (t := t) (I.thread_must ht (I.prog_must x prec)) hv
  obtain ⟨b, hb, hb1, hb2⟩ := h.must (t := u) (I.thread_must hu (I.prog_must x prec')) hw
  by_cases het : e.1 = t
  · refine ⟨e, he, (u, b), hb, by rw [het]; exact hne, ?_, ?_, Or.inl ?_⟩
    · rw [h1]; exact hb1.symm
    · rw [h1]; exact hf.trans hb2.symm
    · rw [h1]; rfl
  · refine ⟨e, he, (t, a), ha, het, ?_, ?_, Or.inl ?_⟩
    · rw [h1]; exact ha1.symm
    · rw [h1]; exact ha2.symm
    · rw [h1]; rfl

/-- C62. Two threads that ask the same number for approximations with precisions other than 54 and 64: once both have returned, there has been a data
race by the C++ standard, no matter what was cached. -/
theorem threads_race_large {atoms : Atoms} (I : Inner atoms) (calls : ℕ → List (RN × ℤ)) {σ : Caches} {t u : ℕ} (hne : t ≠ u) {x : RN}
    {prec prec' : ℤ} (ht : (x, prec) ∈ calls t) (hu : (x, prec') ∈ calls u) (hp : prec ≠ 54 ∧ prec ≠ 64) (hp' : prec' ≠ 54 ∧ prec' ≠ 64)
    {tr : List (ℕ × Access)} {s : Threads (List ℚ)} (h : (I.threads calls σ).Exec tr s) {v w : List ℚ} (hv : Returned s t v) (hw : Returned s u w) :
    Race Standard tr := by
  have hf : ∀ p : ℤ, p ≠ 54 ∧ p ≠ 64 → Inner.fieldNat p.toNat = .large := by
    intro p hp; rw [← Inner.fieldOf_eq, fieldOf, if_neg hp.1, if_neg hp.2]
  obtain ⟨a, ha, rfl⟩ := h.must (t := t) (I.thread_must ht (I.prog_must_bracket x (hf _ hp))) hv
  obtain ⟨b, hb, rfl⟩ := h.must (t := u) (I.thread_must hu (I.prog_must_bracket x (hf _ hp'))) hw
  exact ⟨_, ha, _, hb, hne, rfl, rfl, Or.inl (by unfold Standard; simp)⟩

/-- C62. Different products share their factors: two threads that ask two different products with a common factor for approximations that have not
been computed before have a data race by the C++ standard, once both have returned (unless the precision that is needed for the factor is 54 or 64). -/
theorem threads_race_products {atoms : Atoms} (I : Inner atoms) {m m' : Mono} (hm : m ≠ m') {i n n' : ℕ} (hn : 0 < n) (hn' : 0 < n')
    (hi : (i, n) ∈ m) (hi' : (i, n') ∈ m') {prec prec' : ℤ} {σ : Caches} (hc : ¬ IsCached σ (.prod m) prec) (hc' : ¬ IsCached σ (.prod m') prec')
    (hp : fieldOf (workingPrec prec.toNat (m.map Prod.snd).sum) = .large) (hp' : fieldOf (workingPrec prec'.toNat (m'.map Prod.snd).sum) = .large)
    {t u : ℕ} (hne : t ≠ u) {calls : ℕ → List (RN × ℤ)} (ht : calls t = [(.prod m, prec)]) (hu : calls u = [(.prod m', prec')])
    (ho : ∀ w, w ≠ t → w ≠ u → calls w = []) {tr : List (ℕ × Access)} {s : Threads (List ℚ)} (h : (I.threads calls σ).Exec tr s) {v w : List ℚ}
    (hv : Returned s t v) (hw : Returned s u w) : Race Standard tr := by
  rw [Inner.isCached_iff] at hc hc'
  rw [Inner.fieldOf_eq, Int.toNat_natCast] at hp hp'
  have hall : ∀ e ∈ tr, ∃ c ∈ calls e.1, Involved I c.1 e.2.obj :=
    h.all (P := fun t a => ∃ c ∈ calls t, Involved I c.1 a.obj) fun t => I.thread_all (calls t)
  have hprod : ∀ e ∈ tr, ∀ k, e.2.obj = .prod k → ∃ c ∈ calls e.1, c.1 = .prod k := by
    intro e he k hk
    obtain ⟨c, hc, h1⟩ := hall e he
    rw [hk] at h1
    rcases h1 with h1 | ⟨j, -, h1 | h1⟩
    · exact ⟨c, hc, h1.symm⟩
    · cases h1
    · cases h1
  have key : ∀ (t u : ℕ), t ≠ u → ∀ (m m' : Mono) (prec prec' : ℤ) (n : ℕ) (v : List ℚ), m ≠ m' → 0 < n → (i, n) ∈ m →
      ¬ Inner.cachedIn prec.toNat _ ((σ (.prod m)).get (Inner.fieldNat prec.toNat)) →
      Inner.fieldNat (workingPrec prec.toNat (m.map Prod.snd).sum) = .large → calls t = [(.prod m, prec)] → calls u = [(.prod m', prec')] →
      (∀ w, w ≠ t → w ≠ u → calls w = []) → Returned s t v → ((t, ⟨.atom i, .large, .bracket⟩) : ℕ × Access) ∈ tr := by
    intro t u hne m m' prec prec' n v hm hn hi hc hp ht hu ho hv
    have hM : ((I.threads calls σ).rest t).MustIf (fun a => a = ⟨.atom i, .large, .bracket⟩) (.prod m) (Inner.fieldNat prec.toNat)
        ((σ (.prod m)).get (Inner.fieldNat prec.toNat)) := by
      change (I.thread (calls t)).MustIf _ _ _ _
      rw [ht]
      exact Prog.MustIf.bind (I.prod_mustIf hn hi (Inner.arfProg_must_bracket _ hp _) hc)
    rcases h.mustIf rfl hM hv with ⟨a, ha, rfl⟩ | ⟨x, a, hx, ha, ha1, -, -⟩
    · exact ha
    · exfalso
      obtain ⟨c, hc1, hc2⟩ := hprod _ ha m ha1
      by_cases hxu : x = u
      · subst hxu
        rw [hu, List.mem_singleton] at hc1
        rw [hc1] at hc2
        injection hc2 with hc2
        exact hm hc2.symm
      · rw [ho x hx hxu] at hc1; simp at hc1
  exact ⟨_, key t u hne m m' prec prec' n v hm hn hi hc hp ht hu ho hv, _,
    key u t hne.symm m' m prec' prec n' w hm.symm hn' hi' hc' hp' hu ht (fun w h1 h2 => ho w h2 h1) hw, hne, rfl, rfl, Or.inl (by unfold Standard; simp)⟩

/-- Every set of threads has executions in which two given threads return, so the statements above are about something. -/
example {atoms : Atoms} (I : Inner atoms) (calls : ℕ → List (RN × ℤ)) (σ : Caches) {t u : ℕ} (hne : t ≠ u) :
    ∃ tr s v w, (I.threads calls σ).Exec tr s ∧ Returned s t v ∧ Returned s u w := Threads.Exec.both _ hne

/-- Two products with a common factor, from empty caches. -/
example {atoms : Atoms} (I : Inner atoms) : ∃ (tr : List (ℕ × Access)) (s : Threads (List ℚ)),
    (I.threads (fun t => if t = 0 then [(.prod [(0, 1), (1, 1)], 100)] else if t = 1 then [(.prod [(0, 1), (2, 1)], 100)] else [])
      fun _ => .empty).Exec tr s ∧ Race Standard tr := by
  obtain ⟨tr, s, v, w, h, hv, hw⟩ := Threads.Exec.both (I.threads (fun t => if t = 0 then [(.prod [(0, 1), (1, 1)], 100)] else if t = 1 then
    [(.prod [(0, 1), (2, 1)], 100)] else []) fun _ => .empty) (t := 0) (u := 1) (by simp)
  refine ⟨tr, s, h, threads_race_products I (m := [(0, 1), (1, 1)]) (m' := [(0, 1), (2, 1)]) (by simp) (i := 0) (n := 1) (n' := 1) (by simp) (by simp)
    (by simp) (by simp) (prec := 100) (prec' := 100) (σ := fun _ => .empty) ?_ ?_ ?_ ?_ (t := 0) (u := 1) (by simp) rfl rfl ?_ h hv hw⟩
  · simp [IsCached, ArfCache.empty]
  · simp [IsCached, ArfCache.empty]
  · decide +kernel
  · decide +kernel
  · intro w h0 h1; simp [h0, h1]

/-- Two threads that ask two different random numbers. -/
example (d : Digits) : ∃ (atoms : Atoms) (I : Inner atoms), atoms 1 = .random d ∧ ∀ tr s,
    (I.threads (fun t => if t < 2 then [(.atom t, 100), (.atom t, 54)] else []) fun _ => .empty).Exec tr s → ¬ Race Standard tr := by
  refine ⟨fun _ => .random d, ⟨id, fun _ _ _ _ h => by cases h⟩, rfl, fun tr s h => ?_⟩
  refine (threads_disjoint_partial _ _ (ok_empty _) ?_ h).1
  intro t u hne c hc c' hc' y
  split_ifs at hc hc'
  · have hc1 : c.1 = .atom t := by simp only [List.mem_cons, List.not_mem_nil, or_false] at hc; rcases hc with rfl | rfl <;> rfl
    have hc2 : c'.1 = .atom u := by simp only [List.mem_cons, List.not_mem_nil, or_false] at hc'; rcases hc' with rfl | rfl <;> rfl
    have key : ∀ k : ℕ, Involved (⟨id, fun _ _ _ _ h => by cases h⟩ : Inner fun _ => Atom.random d) (.atom k) y → y = .atom k := by
      rintro k (h | ⟨i, h | ⟨m, h, -⟩, h' | h'⟩)
      · exact h
      · rw [h', h]
      · rw [h', h]; rfl
      · cases h
      · cases h
    rw [hc1, hc2]
    rintro ⟨h1, h2⟩
    have := (key t h1).symm.trans (key u h2)
    injection this with this
    exact hne this
  all_goals simp at *

end Props

end ExactReal
