import Verif.Proofs.Atomic
/-!
# Interleaved executions are matched by executions of atomic steps
-/
namespace Visigoth

variable {cfg : Cfg}

/-- The link between an interleaved execution and an execution of atomic steps. -/
def Linked (d : Discipline) (cfg : Cfg) (c : Config) (A : AConfig) : Prop :=
  ∃ H C ph, LockInv c H ∧ Rel d cfg c C H ph ∧ ARel cfg C A

theorem linked_init (d : Discipline) (cfg : Cfg) : Linked d cfg Config.init AConfig.init :=
  ⟨_, _, _, lockInv_init, rel_init d cfg, aRel_init cfg⟩

/-- Calls that are over need not follow the discipline. -/
theorem linked_fits {d : Discipline} {c c' : Config} {A : AConfig} (h : Linked d cfg c A) (hsuit' : ∀ x ∈ c.calls, Copes d x)
    (hsuit : ∀ x ∈ c'.calls, Copes d x) (hs : Step cfg c c') : ∃ A', AMove cfg A A' ∧ Linked d cfg c' A' := by
  obtain ⟨H, C, ph, h1, h2, h3⟩ := h
  obtain ⟨H', C', ph', g1, g2, g3⟩ := rel_step h1 h2 hsuit' hsuit hs
  obtain ⟨A', h4, h5⟩ := aRel_move h3 g2
  exact ⟨A', h4, H', C', ph', g1, g3, h5⟩

theorem linked_step {d : Discipline} {c c' : Config} {A : AConfig} (h : Linked d cfg c A)
    (hsuit : ∀ x ∈ c'.calls, Suits d x.op) (hs : Step cfg c c') : ∃ A', ASteps cfg A A' ∧ Linked d cfg c' A' := by
  refine (linked_fits h (fun x hx => ?_) (fun x hx => .inl (hsuit x hx)) hs).imp fun _ h => ⟨h.1.steps, h.2⟩
  obtain ⟨t, ht⟩ := List.getElem?_of_mem hx
  obtain ⟨x', h1, h2, _⟩ := step_calls hs ht
  exact .inl (h2 ▸ hsuit x' (List.mem_of_getElem? h1))

theorem Shows.of {s : Shared} {a : ObjState} (h : AbsO cfg s a) : Shows cfg s a :=
  ⟨fun n => (h.index n).symm, h.objs, h.bound, fun n => (h.view n).symm⟩

/-- Nothing may be written without a lock. -/
def WriteGuarded (d : Discipline) : Prop := ∀ l, d.wr l {} = false

theorem Suits.guarded {d : Discipline} {op : Op} (h : Suits d op) : WriteGuarded d := by
  rcases h with ⟨h, _⟩ | ⟨h, _⟩ <;> subst h <;> intro l <;> cases l <;> rfl

theorem linked_observed {d : Discipline} (hd : WriteGuarded d) {c : Config} {A : AConfig} (h : Linked d cfg c A) : Observed cfg c A := by
  obtain ⟨H, C, ph, h1, h2, h3⟩ := h
  refine ⟨?_, ?_, ?_, ?_⟩
  · apply List.ext_getElem?
    intro t
    rw [List.getElem?_map, List.getElem?_map]
    cases hx : c.calls[t]? with
    | none =>
      have : A.tasks.length ≤ t := by
        rw [h3.size, h2.size]; exact List.getElem?_eq_none_iff.1 hx
      rw [List.getElem?_eq_none_iff.2 this]; rfl
    | some x =>
      obtain ⟨q, hq, _⟩ := h2.thread t x hx
      obtain ⟨k, hk, _⟩ := h3.task t _ hq
      rw [hk]; rfl
  · intro t x r hx hr
    obtain ⟨k, hk, hst⟩ := h3.task t x (rel_over h2 hx (by unfold Thread.running; rw [hr]; exact id))
    rw [hr] at hst
    generalize hp : (Prog.ret r : Prog Ret) = p at hst
    cases hst with
    | over r' v hv => injection hp with hp; subst hp; exact ⟨v, hk, hv⟩
    | dead e => cases hp
    | putting n d ts hb => cases hp
    | dropping n => cases hp
    | unAliasing al i => cases hp
    | call op =>
      obtain ⟨β, a, k, hk⟩ := prog_acts cfg op
      rw [hk] at hp; cases hp
  · intro t x e hx hr
    obtain ⟨k, hk, hst⟩ := h3.task t x (rel_over h2 hx (by unfold Thread.running; rw [hr]; exact id))
    rw [hr] at hst
    generalize hp : (Prog.crash e : Prog Ret) = p at hst
    cases hst with
    | over r' v hv => cases hp
    | dead e => injection hp with hp; subst hp; exact hk
    | putting n d ts hb => cases hp
    | dropping n => cases hp
    | unAliasing al i => cases hp
    | call op =>
      obtain ⟨β, a, k, hk⟩ := prog_acts cfg op
      rw [hk] at hp; cases hp
  · intro hall
    have hph : ∀ t, ph t = false → ¬ ∃ x, c.calls[t]? = some x := by
      intro t hf ⟨x, hx⟩
      obtain ⟨q, _, _, h4⟩ := h2.thread t x hx
      rw [hf] at h4
      simp only [Bool.false_eq_true, if_false] at h4
      have := hall x (List.mem_of_getElem? hx)
      unfold Thread.running at this
      cases hp : x.prog with
      | ret a => rw [hp] at h4; cases h4.1
      | crash e => rw [hp] at h4; cases h4.1
      | act a k => rw [hp] at this; exact this trivial
    have hsame : SameData c.sh C.sh := by
      intro l
      rcases h2.data l with h | ⟨t, h4, h5⟩
      · exact h
      · exfalso
        have hle : c.calls.length ≤ t := by
          apply Nat.le_of_not_lt
          intro hlt
          exact hph t h4 ⟨_, List.getElem?_eq_getElem hlt⟩
        rw [h1.fresh t hle, hd l] at h5
        cases h5
    exact .of (h3.abs.same hsame)

end Visigoth
