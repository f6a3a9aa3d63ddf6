import Verif.Proofs.Linked
import Verif.Proofs.WholeInv
/-!
# Invariants of executions of atomic steps
-/
namespace Visigoth

variable {cfg : Cfg}

theorem step_suits {d : Discipline} {c c' : Config} (hs : Step cfg c c') (h : ∀ x ∈ c'.calls, Suits d x.op) :
    ∀ x ∈ c.calls, Suits d x.op := by
  intro x hx
  obtain ⟨t, ht⟩ := List.getElem?_of_mem hx
  obtain ⟨x', hx', hop, _⟩ := step_calls hs ht
  exact hop ▸ h x' (List.mem_of_getElem? hx')

theorem linked_steps {d : Discipline} {c c' : Config} {A : AConfig} (h : Linked d cfg c A) (hs : Steps cfg c c')
    (hsuit : ∀ x ∈ c'.calls, Suits d x.op) : ∃ A', ASteps cfg A A' ∧ Linked d cfg c' A' := by
  induction hs with
  | refl => exact ⟨A, .refl _, h⟩
  | tail _ hs ih =>
    obtain ⟨A1, h1, h2⟩ := ih (step_suits hs hsuit)
    obtain ⟨A2, h3, h4⟩ := linked_step h2 hsuit hs
    exact ⟨A2, h1.trans h3, h4⟩

/-- Every step uses up one of the steps a call has left. -/
theorem atomic_left {a a' : ObjState} {k k' : Task} (h : Atomic cfg a k a' k') : k'.left < k.left := by
  cases h <;> simp_all [Task.left, Op.isRead] <;> rename_i op _ _ _ <;> cases op <;> simp_all

/-- The table of a repository on which no `Rename` has been called. -/
structure Closed (a : ObjState) : Prop where
  bound : ∀ n p, a.index n = some p → p < a.objs.length
  inj : ∀ n m p, a.index n = some p → a.index m = some p → n = m
  known : ∀ al l i, a.aliases al = some l → i ∈ l → (a.index i).isSome = true
  nodup : ∀ al l, a.aliases al = some l → l.Nodup

/-- The stages of a call when no `Rename` is called. -/
def Task.sane (op : Op) : Task → Prop
  | .call op' => op' = op
  | .putting n d ts => op = .put n d ∧ ∀ l, ts = some l → none ∉ l ∧ l.Nodup
  | .dropping n => op = .drop n
  | .unAliasing al i => op = .unAlias al i
  | .over _ => True
  | .dead e => e = .engine

theorem nodup_map_on {α β : Type} {f : α → β} : ∀ {l : List α}, l.Nodup → (∀ x ∈ l, ∀ y ∈ l, f x = f y → x = y) → (l.map f).Nodup
  | [], _, _ => by simp
  | x :: xs, h, hf => by
    simp only [List.nodup_cons, List.map_cons] at h ⊢
    refine ⟨?_, nodup_map_on h.2 fun y hy z hz => hf y (.tail _ hy) z (.tail _ hz)⟩
    intro hm
    obtain ⟨y, hy, he⟩ := List.mem_map.1 hm
    exact h.1 (hf y (.tail _ hy) x (.head _) he ▸ hy)

theorem closed_targets {a : ObjState} (h : Closed a) {n : Name} {l : List (Option Nat)} (hl : a.targets n = some l) :
    none ∉ l ∧ l.Nodup := by
  unfold ObjState.targets at hl
  split at hl
  · cases hl; simp
  · cases ha : a.aliases n with
    | none => rw [ha] at hl; cases hl
    | some xs =>
      rw [ha] at hl
      cases hl
      constructor
      · intro hm
        obtain ⟨i, hi, hn⟩ := List.mem_map.1 hm
        have := h.known n xs i ha hi
        rw [hn] at this; cases this
      · refine nodup_map_on (h.nodup n xs ha) fun x hx y hy he => ?_
        obtain ⟨p, hp⟩ := Option.isSome_iff_exists.1 (h.known n xs x ha hx)
        exact h.inj x y p hp (he ▸ hp)

theorem putObjs_length (objs : List (List DocRequest)) (ps : List Nat) (d : DocRequest) :
    (putObjs objs ps d).length = objs.length := by simp [putObjs]

theorem closed_docs {a : ObjState} (h : Closed a) {n : Name} (hn : (a.index n).isSome = true) : (a.docs n).isSome = true := by
  obtain ⟨p, hp⟩ := Option.isSome_iff_exists.1 hn
  simp [ObjState.docs, hp, h.bound n p hp]

theorem upd_same {β : Type} (f : Name → β) (n : Name) (v : β) : upd f n v n = v := by simp [upd]

theorem upd_other {β : Type} (f : Name → β) {n m : Name} (v : β) (h : m ≠ n) : upd f n v m = f m := by simp [upd, h]

theorem closed_atomic {a a' : ObjState} {k k' : Task} {op : Op} (h : Closed a) (hk : k.sane op) (hop : op.isRename = false)
    (hs : Atomic cfg a k a' k') : Closed a' ∧ k'.sane op := by
  cases hs with
  | read hr _ => exact ⟨h, trivial⟩
  | @searchDies n ts e c hc =>
    refine ⟨h, ?_⟩
    obtain ⟨l, hl, ⟨hc, m, hm, hd⟩ | ⟨hc, _⟩⟩ := hc
    · exfalso
      unfold SpecState.resolve at hl
      split at hl
      · next hn =>
        cases hl
        rw [List.mem_singleton] at hm
        subst hm
        rw [hd] at hn; cases hn
      · have := closed_docs h (h.known n l m hl hm)
        have hd : a.docs m = none := hd
        rw [hd] at this; cases this
    · exact hc
  | aliasUnknown _ => exact ⟨h, trivial⟩
  | aliasThere _ _ _ => exact ⟨h, trivial⟩
  | @aliasAdd al i hi hn =>
    refine ⟨⟨h.bound, h.inj, ?_, ?_⟩, trivial⟩
    · intro al' l j hl hj
      simp only at hl
      by_cases he : al' = al
      · subst he
        rw [upd_same] at hl
        cases hl
        rcases List.mem_append.1 hj with hj | hj
        · cases ha : a.aliases al' with
          | none => rw [ha] at hj; cases hj
          | some xs => rw [ha] at hj; exact h.known al' xs j ha hj
        · rw [List.mem_singleton] at hj; subst hj; exact hi
      · rw [upd_other _ _ he] at hl
        exact h.known al' l j hl hj
    · intro al' l hl
      simp only at hl
      by_cases he : al' = al
      · subst he
        rw [upd_same] at hl
        cases hl
        rw [List.nodup_append]
        refine ⟨?_, by simp, ?_⟩
        · cases ha : a.aliases al' with
          | none => simp
          | some xs => exact h.nodup al' xs ha
        · intro x hx y hy
          rw [List.mem_singleton] at hy
          subst hy
          intro hxy
          exact hn (hxy ▸ hx)
      · rw [upd_other _ _ he] at hl
        exact h.nodup al' l hl
  | @unAliasAll al =>
    refine ⟨⟨h.bound, h.inj, ?_, ?_⟩, trivial⟩
    · intro al' l j hl hj
      simp only [upd] at hl
      split at hl
      · cases hl
      · exact h.known al' l j hl hj
    · intro al' l hl
      simp only [upd] at hl
      split at hl
      · cases hl
      · exact h.nodup al' l hl
  | unAliasUnknown _ _ => exact ⟨h, trivial⟩
  | unAliasFound _ _ => exact ⟨h, hk.symm⟩
  | unAliasMissing _ => exact ⟨h, trivial⟩
  | @unAliasRemove al i xs hx =>
    refine ⟨⟨h.bound, h.inj, ?_, ?_⟩, trivial⟩
    · intro al' l j hl hj
      simp only [upd] at hl
      split at hl
      · cases hl
        exact h.known al xs j hx (List.mem_filter.1 hj).1
      · exact h.known al' l j hl hj
    · intro al' l hl
      simp only [upd] at hl
      split at hl
      · cases hl
        exact (h.nodup al xs hx).filter _
      · exact h.nodup al' l hl
  | putResolve => exact ⟨h, hk.symm, fun l hl => closed_targets h hl⟩
  | @putNew n d =>
    refine ⟨⟨?_, ?_, ?_, h.nodup⟩, trivial⟩
    · intro m p hm
      simp only [List.length_append, List.length_singleton]
      simp only [upd] at hm
      split at hm
      · cases hm; exact Nat.lt_succ_self _
      · exact Nat.lt_succ_of_lt (h.bound m p hm)
    · intro m m' p hm hm'
      simp only [upd] at hm hm'
      split at hm
      · next he =>
        split at hm'
        · next he' => rw [he, he']
        · cases hm; exact absurd (h.bound _ _ hm') (Nat.lt_irrefl _)
      · split at hm'
        · cases hm'; exact absurd (h.bound _ _ hm) (Nat.lt_irrefl _)
        · exact h.inj m m' p hm hm'
    · intro al l i hl hi
      simp only [upd]
      split
      · rfl
      · exact h.known al l i hl hi
  | putAll _ => exact ⟨⟨fun n p hp => by simp only [putObjs_length]; exact h.bound n p hp, h.inj, h.known, h.nodup⟩, trivial⟩
  | putNil hn => exact absurd hn (hk.2 _ rfl).1
  | putTwice hn =>
    exfalso
    apply hn
    have := (hk.2 _ rfl).2
    rw [List.Nodup, List.pairwise_map] at this
    exact this.imp fun {x y} h (e : x = y) => h (by rw [e])
  | renameUnknown _ => exact ⟨h, trivial⟩
  | rename _ => cases hk; cases hop
  | dropUnknown _ => exact ⟨h, trivial⟩
  | dropFound _ => exact ⟨h, hk.symm⟩
  | @dropRemove n =>
    refine ⟨⟨?_, ?_, ?_, ?_⟩, trivial⟩
    · intro m p hm
      simp only [upd] at hm
      split at hm
      · cases hm
      · exact h.bound m p hm
    · intro m m' p hm hm'
      simp only [upd] at hm hm'
      split at hm
      · cases hm
      · split at hm'
        · cases hm'
        · exact h.inj m m' p hm hm'
    · intro al l i hl hi
      simp only at hl ⊢
      cases ha : a.aliases al with
      | none => rw [ha] at hl; cases hl
      | some xs =>
        rw [ha] at hl
        simp only [Option.bind_some] at hl
        split at hl
        · cases hl
        · cases hl
          obtain ⟨hi, hne⟩ := List.mem_filter.1 hi
          rw [upd_other _ _ (of_decide_eq_true hne)]
          exact h.known al xs i ha hi
    · intro al l hl
      simp only at hl
      cases ha : a.aliases al with
      | none => rw [ha] at hl; cases hl
      | some xs =>
        rw [ha] at hl
        simp only [Option.bind_some] at hl
        split at hl
        · cases hl
        · cases hl
          exact (h.nodup al xs ha).filter _

/-- Without `Rename` nothing dangles and only an engine can die. -/
structure Sane (A : AConfig) : Prop where
  closed : Closed A.st
  tasks : ∀ (t : Nat) op k, A.tasks[t]? = some (op, k) → k.sane op

theorem sane_init : Sane AConfig.init := by
  refine ⟨⟨?_, ?_, ?_, ?_⟩, ?_⟩ <;> intros <;> simp_all [AConfig.init, ObjState.empty]

theorem sane_step {A A' : AConfig} (h : Sane A) (hop : ∀ x ∈ A.tasks, x.1.isRename = false) (hs : AStep cfg A A') : Sane A' := by
  cases hs with
  | invoke op =>
    refine ⟨h.closed, ?_⟩
    intro t op' k ht
    simp only at ht
    rw [List.getElem?_append] at ht
    split at ht
    · exact h.tasks t op' k ht
    · rw [List.getElem?_singleton] at ht
      split at ht
      · cases ht; rfl
      · cases ht
  | @run a a' ts t op k k' ht hs =>
    have := closed_atomic h.closed (h.tasks t op k ht) (hop _ (List.mem_of_getElem? ht)) hs
    refine ⟨this.1, ?_⟩
    intro u op' k1 hu
    simp only at hu
    rw [List.getElem?_set] at hu
    split at hu
    · split at hu
      · cases hu; exact this.2
      · cases hu
    · exact h.tasks u op' k1 hu

theorem aStep_ops {A A' : AConfig} (hs : AStep cfg A A') : ∃ l, A'.tasks.map (·.1) = A.tasks.map (·.1) ++ l := by
  cases hs with
  | invoke _ op => exact ⟨[op], by simp⟩
  | @run a a' ts t op k k' ht hs =>
    refine ⟨[], ?_⟩
    simp only [List.append_nil]
    apply List.ext_getElem?
    intro u
    simp only [List.getElem?_map, List.getElem?_set]
    split
    · next he =>
      subst he
      rw [ht]
      simp [(List.getElem?_eq_some_iff.1 ht).1]
    · rfl

theorem sane_steps {A A' : AConfig} (h : Sane A) (hs : ASteps cfg A A') (hop : ∀ x ∈ A'.tasks, x.1.isRename = false) : Sane A' := by
  induction hs with
  | refl => exact h
  | @tail A1 A2 _ hs ih =>
    have hop' : ∀ x ∈ A1.tasks, x.1.isRename = false := by
      intro x hx
      obtain ⟨l, hl⟩ := aStep_ops hs
      have : x.1 ∈ A2.tasks.map (fun y : Op × Task => y.1) := hl ▸ List.mem_append_left _ (List.mem_map_of_mem (f := fun y : Op × Task => y.1) hx)
      obtain ⟨y, hy, he⟩ := List.mem_map.1 this
      exact he ▸ hop y hy
    exact sane_step (ih hop') hop' hs

end Visigoth
