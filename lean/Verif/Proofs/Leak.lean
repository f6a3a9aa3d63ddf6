import Verif.Proofs.Progress
/-!
# Leaked locks
-/
namespace Visigoth

/-! ## Who leaks -/

theorem holds_iff {H : Tid → Held} {s : Shared} (k : Link H s) (m : Mu) (t : Tid) : s.holds m t ↔ (H t).get m ≠ .none := by
  unfold Shared.holds
  rw [(k m).mem, (k m).wr]
  cases (H t).get m <;> simp

/-- What a returned call holds. -/
theorem returned_end {c : Config} {H : Tid → Held} (i : LockInv c H) {t : Tid} {x : Thread} {r : Ret}
    (hx : c.calls[t]? = some x) (hr : x.prog = .ret r) : endOf x.op (H t) r := by
  obtain ⟨d, hd⟩ := (i.good t x hx).some
  rw [hr] at hd
  exact hd.2

/-! ## A leaked lock stays -/

theorem readers_other {cfg : Cfg} {o : Oracle} {u : Tid} {β : Type} {a : Act β} {s s' : Shared} {b : β}
    (he : exec cfg o u a s = .ok b s') {t : Tid} (htu : t ≠ u) (m : Mu) (ht : t ∈ (s.mu m).readers) :
    t ∈ (s'.mu m).readers := by
  by_cases hl : a.isLock = false
  · have := exec_data_mu hl he
    have : s'.mu m = s.mu m := by cases m; exact this.1; exact this.2
    rwa [this]
  · cases a <;> simp [Act.isLock] at hl <;> rename_i m' <;> simp only [exec] at he <;> split at he <;>
      first
      | (injection he with _ he; subst he; rw [mu_setMu]; split
         · next h => subst h; first | exact List.mem_cons_of_mem _ ht | exact (List.mem_erase_of_ne htu).2 ht | exact ht
         · exact ht)
      | (split at he <;> first | (injection he with _ he; subst he; exact ht) | exact absurd he (by simp))
      | exact absurd he (by simp)

theorem writer_other {cfg : Cfg} {o : Oracle} {u : Tid} {β : Type} {a : Act β} {s s' : Shared} {b : β}
    (he : exec cfg o u a s = .ok b s') {t : Tid} (htu : t ≠ u) (m : Mu) (ht : (s.mu m).writer = some t) :
    (s'.mu m).writer = some t := by
  by_cases hl : a.isLock = false
  · have := exec_data_mu hl he
    have : s'.mu m = s.mu m := by cases m; exact this.1; exact this.2
    rwa [this]
  · cases a <;> simp [Act.isLock] at hl <;> rename_i m' <;> simp only [exec] at he <;> split at he <;>
      first
      | (injection he with _ he; subst he; rw [mu_setMu]; split
         · next h => subst h; simp_all
         · exact ht)
      | (split at he <;> first | (injection he with _ he; subst he; exact ht) | exact absurd he (by simp))
      | exact absurd he (by simp)

/-- A call that is over stays over and keeps what it holds. -/
structure Over (c : Config) (t : Tid) (rd wr : Mu → Bool) : Prop where
  over : ∃ x, c.calls[t]? = some x ∧ ¬ x.running
  rd : ∀ m, rd m = true → t ∈ (c.sh.mu m).readers
  wr : ∀ m, wr m = true → (c.sh.mu m).writer = some t

theorem over_step {cfg : Cfg} {c c' : Config} {t : Tid} {rd wr : Mu → Bool} (h : Over c t rd wr) (hs : Step cfg c c') :
    Over c' t rd wr := by
  obtain ⟨⟨x, hx, hrun⟩, hrd, hwr⟩ := h
  cases hs with
  | invoke op o =>
    refine ⟨⟨x, ?_, hrun⟩, hrd, hwr⟩
    simp only
    rw [List.getElem?_append_left (List.getElem?_eq_some_iff.1 hx).1]
    exact hx
  | move u hm =>
    cases hm with
    | act h he =>
      have htu : t ≠ u := by
        rintro rfl
        simp only at hx
        rw [h] at hx
        injection hx with hx; subst hx
        exact hrun trivial
      refine ⟨⟨x, ?_, hrun⟩, fun m hm => readers_other he htu m (hrd m hm), fun m hm => writer_other he htu m (hwr m hm)⟩
      simp only
      rw [List.getElem?_set_ne (Ne.symm htu)]
      exact hx
    | crash h he =>
      have htu : t ≠ u := by
        rintro rfl
        simp only at hx
        rw [h] at hx
        injection hx with hx; subst hx
        exact hrun trivial
      refine ⟨⟨x, ?_, hrun⟩, hrd, hwr⟩
      simp only
      rw [List.getElem?_set_ne (Ne.symm htu)]
      exact hx

/-! ## Programs that cannot return without a lock -/

/-- Every path of the program to a result in `P` performs an action of `bar`. -/
def Barred {α : Type} (bar : {β : Type} → Act β → Bool) (P : α → Prop) : Prog α → Prop
  | .ret r => ¬ P r
  | .crash _ => True
  | .act a k => bar a = true ∨ ∀ b, Barred bar P (k b)

variable {bar : {β : Type} → Act β → Bool}

theorem barred_bind {α β : Type} {P : β → Prop} (p : Prog α) (f : α → Prog β) (h : ∀ a, Barred bar P (f a)) :
    Barred bar P (p >>= f) := by
  show Barred bar P (p.bind f)
  induction p with
  | ret a => exact h a
  | crash e => trivial
  | act a k ih => exact Or.inr fun b => ih b

theorem barred_bind_left {α β : Type} {P : β → Prop} (p : Prog α) (f : α → Prog β)
    (h : Barred bar (fun a => ¬ Barred bar P (f a)) p) : Barred bar P (p >>= f) := by
  show Barred bar P (p.bind f)
  induction p with
  | ret a => exact Classical.not_not.1 h
  | crash e => trivial
  | act a k ih =>
    rcases h with h | h
    · exact Or.inl h
    · exact Or.inr fun b => ih b (h b)

theorem barred_map {α β : Type} {P : β → Prop} (p : Prog α) (f : α → β) (h : Barred bar (fun a => P (f a)) p) :
    Barred bar P (do return f (← p)) := by
  refine barred_bind_left p _ ?_
  have : (fun a => ¬ Barred (bar := bar) P (pure (f a) : Prog β)) = fun a => P (f a) := by
    funext a
    exact propext Classical.not_not
  rw [this]; exact h

/-- `h.indicesMu.Lock()` -/
def barI : {β : Type} → Act β → Bool
  | _, .acquire .indices => true
  | _, _ => false

/-- any use of the alias mutex -/
def barA : {β : Type} → Act β → Bool
  | _, .rlock .aliases => true
  | _, .announce .aliases => true
  | _, _ => false

/-- As long as the actions of `bar` cannot be performed, a barred call does not return. -/
theorem barred_step {cfg : Cfg} {c c' : Config} {u : Tid} {x x' : Thread} {P : Ret → Prop}
    (hb : ∀ {β : Type} (a : Act β) (o : Oracle) (b : β) (s' : Shared), bar a = true → exec cfg o u a c.sh ≠ .ok b s')
    (hs : Step cfg c c') (hx : c.calls[u]? = some x) (hx' : c'.calls[u]? = some x')
    (h : Barred bar P x.prog) : Barred bar P x'.prog ∧ x'.op = x.op := by
  cases hs with
  | invoke op o =>
    simp only at hx'
    rw [List.getElem?_append_left (List.getElem?_eq_some_iff.1 hx).1, hx] at hx'
    injection hx' with hx'; subst hx'
    exact ⟨h, rfl⟩
  | move t hm =>
    cases hm with
    | @act s s' calls op o β a k b h0 he =>
      simp only at hx hx'
      by_cases htu : t = u
      · subst htu
        rw [h0] at hx
        injection hx with hx; subst hx
        rw [List.getElem?_set_self (List.getElem?_eq_some_iff.1 h0).1] at hx'
        injection hx' with hx'; subst hx'
        rcases h with h | h
        · exact absurd he (hb a o b s' h)
        · exact ⟨h b, rfl⟩
      · rw [List.getElem?_set_ne htu, hx] at hx'
        injection hx' with hx'; subst hx'
        exact ⟨h, rfl⟩
    | @crash s calls op o β a k e h0 he =>
      simp only at hx hx'
      by_cases htu : t = u
      · subst htu
        rw [h0] at hx
        injection hx with hx; subst hx
        rw [List.getElem?_set_self (List.getElem?_eq_some_iff.1 h0).1] at hx'
        injection hx' with hx'; subst hx'
        exact ⟨trivial, rfl⟩
      · rw [List.getElem?_set_ne htu, hx] at hx'
        injection hx' with hx'; subst hx'
        exact ⟨h, rfl⟩

theorem calls_grow {cfg : Cfg} {c c' : Config} (hs : Step cfg c c') {u : Tid} (hu : c'.calls.length ≤ u) :
    c.calls.length ≤ u := by
  cases hs with
  | invoke op o =>
    simp only [List.length_append, List.length_cons, List.length_nil] at hu
    exact Nat.le_of_succ_le hu
  | move t hm =>
    cases hm <;> simpa using hu

/-- The same, for calls made after the leak. -/
theorem barred_later {cfg : Cfg} {c c' : Config} {t : Tid} {rd wr : Mu → Bool} (h : Over c t rd wr)
    (hb : ∀ {β : Type} (a : Act β) (o : Oracle) (u : Tid) (b : β) (s s' : Shared), bar a = true → u ≠ t →
      (∀ m, rd m = true → t ∈ (s.mu m).readers) → (∀ m, wr m = true → (s.mu m).writer = some t) →
      exec cfg o u a s ≠ .ok b s')
    (P : Op → Ret → Prop) (hP : ∀ op, Barred bar (P op) (op.prog cfg)) (hs : Steps cfg c c') :
    Over c' t rd wr ∧ ∀ u x, c.calls.length ≤ u → c'.calls[u]? = some x → Barred bar (P x.op) x.prog := by
  induction hs with
  | refl =>
    refine ⟨h, fun u x hu hx => ?_⟩
    rw [List.getElem?_eq_none hu] at hx
    cases hx
  | @tail c₁ c₂ _ hs ih =>
    obtain ⟨hov, ih⟩ := ih
    refine ⟨over_step hov hs, fun u x hu hx => ?_⟩
    cases hx1 : c₁.calls[u]? with
    | some y =>
      have hut : u ≠ t := by
        rintro rfl
        obtain ⟨z, hz, _⟩ := h.over
        have := (List.getElem?_eq_some_iff.1 hz).1
        exact absurd hu (Nat.not_le_of_lt this)
      have := barred_step (bar := bar) (u := u) (fun a o b s' h => hb a o u b _ s' h hut hov.rd hov.wr) hs hx1 hx
        (ih u y hu hx1)
      rw [this.2]
      exact this.1
    | none =>
      have hle : c₁.calls.length ≤ u := List.getElem?_eq_none_iff.1 hx1
      cases hs with
      | invoke op o =>
        simp only at hx
        rw [List.getElem?_append_right hle] at hx
        cases hh : u - c₁.calls.length with
        | zero =>
          rw [hh] at hx
          simp only [List.getElem?_cons_zero, Option.some.injEq] at hx
          subst hx
          exact hP op
        | succ n => rw [hh] at hx; simp at hx
      | move t hm =>
        have : c₂.calls.length ≤ u := by cases hm <;> simpa using hle
        rw [List.getElem?_eq_none this] at hx
        cases hx

/-! ## What the methods need -/

theorem barred_false {α : Type} (p : Prog α) : Barred bar (fun _ => False) p := by
  induction p with
  | ret a => exact id
  | crash e => trivial
  | act a k ih => exact Or.inr ih

theorem barI_lock {α : Type} {P : α → Prop} (f : Unit → Prog α) : Barred barI P (Repo.lock .indices >>= f) :=
  Or.inr fun _ => Or.inl rfl

theorem barA_lock {α : Type} {P : α → Prop} (f : Unit → Prog α) : Barred barA P (Repo.lock .aliases >>= f) :=
  Or.inl rfl

theorem barred_needsI (cfg : Cfg) (op : Op) : Barred barI (needsI op) (op.prog cfg) := by
  cases op with
  | put n doc =>
    refine barred_map _ (fun _ => Ret.unit) ?_
    unfold Repo.put
    exact barred_bind _ _ fun r => barI_lock _
  | rename o n =>
    refine barred_map _ Ret.bool ?_
    unfold Repo.rename
    exact barI_lock _
  | drop n =>
    refine barred_map _ Ret.bool ?_
    unfold Repo.drop
    refine Or.inr fun _ => Or.inr fun p => ?_
    cases p with
    | none => exact Or.inr fun _ => (show ¬ (Ret.bool false = Ret.bool true) by simp)
    | some p => exact Or.inr fun _ => barI_lock _
  | _ => exact barred_false _

theorem barred_needsA (cfg : Cfg) (op : Op) : Barred barA (needsA op) (op.prog cfg) := by
  cases op with
  | hasAlias n => exact Or.inl rfl
  | listAliases => exact Or.inl rfl
  | unAlias a i =>
    refine barred_map _ Ret.bool ?_
    unfold Repo.unAlias
    split
    · exact barA_lock _
    · next hi =>
      refine Or.inr fun _ => Or.inr fun p => ?_
      cases p with
      | none =>
        simp only [needsA]
        rintro (rfl | h)
        · exact hi rfl
        · cases h
      | some p => exact Or.inr fun _ => barA_lock _
  | alias a i =>
    refine barred_map _ Ret.bool ?_
    unfold Repo.alias
    refine Or.inr fun _ => Or.inr fun p => ?_
    cases p with
    | none => exact Or.inr fun _ => (show ¬ (Ret.bool false = Ret.bool true) by simp)
    | some p => exact barA_lock _
  | drop n =>
    refine barred_map _ Ret.bool ?_
    unfold Repo.drop
    refine Or.inr fun _ => Or.inr fun p => ?_
    cases p with
    | none => exact Or.inr fun _ => (show ¬ (Ret.bool false = Ret.bool true) by simp)
    | some p => exact Or.inr fun _ => Or.inr fun _ => Or.inr fun _ => barA_lock _
  | search n ts e =>
    refine barred_bind_left _ _ ?_
    unfold Repo.search
    refine Or.inr fun _ => Or.inr fun p => ?_
    cases p with
    | some p =>
      refine barred_bind (Repo.searchTargets [some p] ts e) _ fun res => Or.inr fun _ => ?_
      show ¬ ¬ ¬ (Ret.results res = Ret.noIndex)
      simp
    | none => exact Or.inl rfl
  | _ => exact barred_false _

theorem barI_blocked {cfg : Cfg} {t : Tid} {β : Type} (a : Act β) (o : Oracle) (u : Tid) (b : β) (s s' : Shared)
    (hb : barI a = true) (hr : t ∈ s.imu.readers) : exec cfg o u a s ≠ .ok b s' := by
  intro he
  cases a <;> simp only [barI, reduceCtorEq] at hb
  next m =>
    cases m <;> simp at hb
    have hne : s.imu.readers ≠ [] := by intro h; rw [h] at hr; cases hr
    by_cases hw : s.imu.writer = some u <;> simp [exec, Shared.mu, hw, hne] at he

theorem barA_blocked {cfg : Cfg} {t : Tid} {β : Type} (a : Act β) (o : Oracle) (u : Tid) (b : β) (s s' : Shared)
    (hb : barA a = true) (hr : s.amu.writer = some t) : exec cfg o u a s ≠ .ok b s' := by
  intro he
  cases a <;> simp only [barA, reduceCtorEq] at hb <;> rename_i m <;> cases m <;>
    simp_all [exec, Shared.mu]

end Visigoth
