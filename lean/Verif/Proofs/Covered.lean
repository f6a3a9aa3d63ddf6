import Verif.Proofs.AtomicInv
/-!
# The executions for which calls are linked to atomic steps
-/
namespace Visigoth

variable {cfg : Cfg}

theorem steps_suits {d : Discipline} {c c' : Config} (hs : Steps cfg c c') (h : ∀ x ∈ c'.calls, Suits d x.op) :
    ∀ x ∈ c.calls, Suits d x.op := by
  induction hs with
  | refl => exact h
  | tail _ hs ih => exact ih (step_suits hs h)

/-- The executions for which the link is proved. -/
def Covered (c : Config) : Prop := (∀ x ∈ c.calls, x.op.isRename = false) ∨ (∀ x ∈ c.calls, x.op.isUnAlias = false)

theorem Covered.suits {c : Config} (h : Covered c) : ∃ d, WriteGuarded d ∧ ∀ x ∈ c.calls, Suits d x.op := by
  rcases h with h | h
  · exact ⟨strict, fun l => by cases l <;> rfl, fun x hx => .inl ⟨rfl, h x hx⟩⟩
  · exact ⟨broad, fun l => by cases l <;> rfl, fun x hx => .inr ⟨rfl, h x hx⟩⟩

theorem linked_reachable {d : Discipline} {c : Config} (hr : ConcReachable cfg c) (hsuit : ∀ x ∈ c.calls, Suits d x.op) :
    ∃ A, AReachable cfg A ∧ Linked d cfg c A := linked_steps (linked_init d cfg) hr hsuit

end Visigoth
