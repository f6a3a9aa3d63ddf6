import Verif.Proofs.Covered
import Verif.Proofs.Alone
import Verif.Proofs.OneName
/-!
# From any state at rest

Whatever calls were made before, a repository at rest is one that executions of atomic steps can start from.
-/
namespace Visigoth

variable {cfg : Cfg}

theorem heapOk_objs {P : DocRequest → Prop} {tok : Tokenizer} : ∀ {Hp : List MemoryIndex}, HeapOk P tok Hp →
    ∃ objs : List (List DocRequest), Hp.length = objs.length ∧
      ∀ (p : Nat) rs, objs[p]? = some rs → ∃ nm, Hp[p]? = some (buildIndex tok nm rs)
  | [], _ => ⟨[], rfl, fun p rs h => by simp at h⟩
  | mi :: Hp, h => by
    obtain ⟨objs, h1, h2⟩ := heapOk_objs fun m hm => h m (.tail _ hm)
    obtain ⟨nm, rs, h3, _⟩ := h mi (.head _)
    refine ⟨rs :: objs, by simp [h1], fun p rs' hp => ?_⟩
    cases p with
    | zero => simp only [List.getElem?_cons_zero, Option.some.injEq] at hp; subst hp; exact ⟨nm, by rw [h3]; rfl⟩
    | succ p => exact h2 p rs' hp

/-- The task of a call that is over. -/
def Thread.task (s : Shared) (x : Thread) : Task :=
  match x.prog with
  | .ret r => .over (r.view s)
  | .crash e => .dead e
  | .act _ _ => .call x.op

theorem linked_rest (d : Discipline) {c : Config} (hr : ConcReachable cfg c) (hq : c.quiet) :
    ∃ A, Tidy A.st ∧ Linked d cfg c A ∧ A.tasks = c.calls.map fun x => (x.op, x.task c.sh) := by
  obtain ⟨H, i, w⟩ := whole_reachable (P := fun _ => True) hr fun _ _ _ _ => trivial
  obtain ⟨objs, ho1, ho2⟩ := heapOk_objs (w.quiet i hq)
  obtain ⟨hinj, hN⟩ := inj_quiet hr hq
  obtain ⟨_, _, P, _, v⟩ := rowsInv_reachable hr
  have hst : ∀ x ∈ c.calls, (∃ r, x.prog = .ret r) ∨ ∃ e, x.prog = .crash e := by
    intro x hx
    have := hq x hx
    unfold Thread.running at this
    cases hp : x.prog with
    | ret r => exact .inl ⟨r, rfl⟩
    | crash e => exact .inr ⟨e, rfl⟩
    | act a k => rw [hp] at this; exact absurd trivial this
  have hb : ∀ n p, c.sh.indices.get n = some p → p < objs.length := fun n p h => ho1 ▸ hN.bound n p h
  refine ⟨⟨⟨fun n => c.sh.indices.get n, objs, fun n => alView c.sh.arrays c.sh.aliases n⟩,
    c.calls.map fun x => (x.op, x.task c.sh)⟩, ⟨hb, hinj⟩, ⟨H, c, fun _ => true, i, ⟨rfl, ?_, fun l => .inl (SameAt.refl _ _)⟩,
    ⟨⟨fun _ => rfl, hN.nodup, hinj, ho1, ho2, hb, v.table.ok, fun _ => rfl⟩, by simp, ?_⟩⟩, rfl⟩
  · intro t x hx
    refine ⟨x.prog, hx, ?_⟩
    rcases hst x (List.mem_of_getElem? hx) with ⟨r, h⟩ | ⟨e, h⟩
    · rw [h]; exact ⟨trivial, rfl⟩
    · rw [h]; exact ⟨trivial, rfl⟩
  · intro t x hx
    refine ⟨x.task c.sh, by simp [hx], ?_⟩
    unfold Thread.task
    rcases hst x (List.mem_of_getElem? hx) with ⟨r, h⟩ | ⟨e, h⟩
    · rw [h]; exact .over _ _ (agrees_view _ _)
    · rw [h]; exact .dead _

/-- The calls of a state at rest stay as they are. -/
theorem step_take {c0 c c' : Config} (hq : c0.quiet) (h : c.calls.take c0.calls.length = c0.calls) (hs : Step cfg c c') :
    c'.calls.take c0.calls.length = c0.calls := by
  have hlen : c0.calls.length ≤ c.calls.length := by
    have := congrArg List.length h
    simp only [List.length_take] at this
    omega
  cases hs with
  | invoke op o => simp only; rw [List.take_append_of_le_length hlen]; exact h
  | move t hm =>
    have key : ∀ (calls : List Thread) (x y : Thread), calls.take c0.calls.length = c0.calls → calls[t]? = some x → x.running →
        (calls.set t y).take c0.calls.length = c0.calls := by
      intro calls x y h hx hr
      have hlt : c0.calls.length ≤ t := by
        apply Nat.le_of_not_lt
        intro hlt
        refine hq x ?_ hr
        rw [← h]
        refine List.mem_of_getElem? (i := t) ?_
        rw [List.getElem?_take_of_lt hlt]
        exact hx
      rw [List.take_set_of_le hlt]
      exact h
    cases hm with
    | act hx he => exact key _ _ _ h hx trivial
    | crash hx he => exact key _ _ _ h hx trivial

theorem fits_of {d : Discipline} {c0 c : Config} (hq : c0.quiet) (h : c.calls.take c0.calls.length = c0.calls)
    (hn : ∀ x ∈ c.calls.drop c0.calls.length, Suits d x.op) : ∀ x ∈ c.calls, Copes d x := by
  intro x hx
  rw [← List.take_append_drop c0.calls.length c.calls, List.mem_append] at hx
  rcases hx with hx | hx
  · rw [h] at hx; exact .inr (hq x hx)
  · exact .inl (hn x hx)

/-- From a state at rest on. -/
theorem linked_since {d : Discipline} {c0 c c' : Config} {A : AConfig} (hq : c0.quiet) (ht : c.calls.take c0.calls.length = c0.calls)
    (h : Linked d cfg c A) (hn : ∀ x ∈ c'.calls.drop c0.calls.length, Suits d x.op) (hs : Step cfg c c') :
    ∃ A', ASteps cfg A A' ∧ Linked d cfg c' A' :=
  (linked_fits h (fits_of hq ht (step_new (P := Suits d) hs hn)) (fits_of hq (step_take hq ht hs) hn) hs).imp fun _ h => ⟨h.1.steps, h.2⟩

theorem tidy_move {A A' : AConfig} (h : Tidy A.st) (hs : AStep cfg A A') : Tidy A'.st := by
  cases hs with
  | invoke op => exact h
  | run t ht hs => exact tidy_atomic h hs

theorem tidy_moves {A A' : AConfig} (h : Tidy A.st) (hs : ASteps cfg A A') : Tidy A'.st := by
  induction hs with
  | refl => exact h
  | tail _ hs ih => exact tidy_move ih hs

theorem tidy_succession {A : AConfig} (h : Tidy A.st) : A.succession cfg := fun _ _ _ hs =>
  ⟨fun _ hk => alone_spec h (hk ▸ hs), fun _ hk => alone_crash h (hk ▸ hs)⟩

/-- Executions from a state at rest. -/
theorem rest_atomic (d : Discipline) (hd : WriteGuarded d) {c0 : Config} (hr : ConcReachable cfg c0) (hq : c0.quiet) :
    ∃ (R : Config → AConfig → Prop) (A0 : AConfig), R c0 A0 ∧ (∀ c A, R c A → Observed cfg c A ∧ A.succession cfg) ∧
    ∀ c A c', R c A → (∀ x ∈ c'.calls.drop c0.calls.length, Suits d x.op) → Step cfg c c' → ∃ A', ASteps cfg A A' ∧ R c' A' := by
  obtain ⟨A0, h1, h2, _⟩ := linked_rest d hr hq
  refine ⟨fun c A => Linked d cfg c A ∧ Tidy A.st ∧ c.calls.take c0.calls.length = c0.calls, A0, ⟨h2, h1, List.take_length⟩,
    fun c A h => ⟨linked_observed hd h.1, tidy_succession h.2.1⟩, fun c A c' h hn hs => ?_⟩
  obtain ⟨A', g1, g2⟩ := linked_since hq h.2.2 h.1 hn hs
  exact ⟨A', g1, g2, tidy_moves h.2.1 g1, step_take hq h.2.2 hs⟩

end Visigoth
