import Verif.Spec.OneMoment
import Verif.Proofs.RowsShown
import Verif.Proofs.Covered
import Verif.Proofs.Alone
import Verif.Proofs.Naming
/-!
# Calls whose second atomic step finds what the first one found
-/
namespace Visigoth

variable {cfg : Cfg}

theorem LSteps.trans {L L' L'' : LConfig} (h : LSteps cfg L L') (h' : LSteps cfg L' L'') : LSteps cfg L L'' := by
  induction h' with
  | refl => exact h
  | tail _ hs ih => exact ih.tail hs

/-- What is seen of a task. -/
def Task.fate : Task → Fate
  | .call _ | .putting .. | .dropping _ | .unAliasing .. => .waiting
  | .over v => .over v
  | .dead e => .dead e

def Task.ended : Task → Prop
  | .over _ | .dead _ => True
  | _ => False

/-- The two specifications are in the same state. -/
structure Merged (A : AConfig) (L : LConfig) : Prop where
  docs : L.docs = A.st.docs
  aliases : L.aliases = A.st.aliases
  calls : L.calls = A.tasks.map fun x => (x.1, x.2.fate)

def AConfig.merged (A : AConfig) : LConfig := ⟨A.st.docs, A.st.aliases, A.tasks.map fun x => (x.1, x.2.fate)⟩

theorem merged_self (A : AConfig) : Merged A A.merged := ⟨rfl, rfl, rfl⟩

theorem Merged.seq {A : AConfig} {L : LConfig} (h : Merged A L) : L.seq = A.st.spec := by
  unfold LConfig.seq ObjState.spec; rw [h.docs, h.aliases]

/-- A task that could be in its stage also if the call began now. -/
inductive Fresh (a : ObjState) : Op → Task → Prop where
  | call (op : Op) : Fresh a op (.call op)
  | put (n : Name) (d : DocRequest) : Fresh a (.put n d) (.putting n d (a.targets n))
  | drop {n : Name} (h : (a.index n).isSome = true) : Fresh a (.drop n) (.dropping n)
  | unAlias {al i : Name} (hi : i ≠ []) (h : (a.index i).isSome = true) : Fresh a (.unAlias al i) (.unAliasing al i)

theorem Fresh.alone {a a' : ObjState} {op : Op} {k k' : Task} (h : Fresh a op k) (hs : Atomic cfg a k a' k') :
    Alone cfg a (.call op) a' k' := by
  cases h with
  | call => exact .step hs (.done _ _)
  | put n d => exact .step .putResolve (.step hs (.done _ _))
  | drop h => exact .step (.dropFound h) (.step hs (.done _ _))
  | unAlias hi h => exact .step (.unAliasFound hi h) (.step hs (.done _ _))

theorem fate_set (ts : List (Op × Task)) (t : Nat) (op : Op) (k : Task) :
    (ts.set t (op, k)).map (fun x => (x.1, x.2.fate)) = (ts.map fun x => (x.1, x.2.fate)).set t (op, k.fate) := by
  rw [List.map_set]

theorem merged_run {a a' : ObjState} {ts : List (Op × Task)} {L : LConfig} (h : Merged ⟨a, ts⟩ L) (hT : Tidy a) {t : Tid}
    {op : Op} {k k' : Task} (ht : ts[t]? = some (op, k)) (hf : Fresh a op k) (hs : Atomic cfg a k a' k') :
    ∃ L', LSteps cfg L L' ∧ Merged ⟨a', ts.set t (op, k')⟩ L' := by
  have halone := hf.alone hs
  have hw : L.calls[t]? = some (op, .waiting) := by
    rw [h.calls, List.getElem?_map, ht]
    have : k.fate = .waiting := by cases hs <;> rfl
    simp [this]
  cases hk : k' with
  | over v =>
    subst hk
    obtain ⟨h1, h2, h3⟩ := alone_spec hT halone
    refine ⟨_, .tail (.refl _) (.take t hw (h.seq ▸ h1)), ?_, ?_, ?_⟩
    · show (L.seq.next op).docs = _
      rw [h.seq, ← h2]
    · show (L.seq.next op).aliases = _
      rw [h.seq, ← h3]
    · show L.calls.set t _ = _
      rw [h.calls, fate_set]; rfl
  | dead e =>
    subst hk
    obtain ⟨h1, h2⟩ := alone_crash hT halone
    subst h2
    refine ⟨_, .tail (.refl _) (.die t hw (h.seq ▸ h1)), h.docs, h.aliases, ?_⟩
    show L.calls.set t _ = _
    rw [h.calls, fate_set]; rfl
  | _ =>
    subst hk
    refine ⟨L, .refl _, ?_⟩
    have ha : a' = a := by cases hs <;> rfl
    subst ha
    refine ⟨h.docs, h.aliases, ?_⟩
    rw [fate_set, ← h.calls]
    obtain ⟨hlt, he⟩ := List.getElem?_eq_some_iff.1 hw
    apply List.ext_getElem?
    intro u
    rw [List.getElem?_set]
    split
    · next hu => subst hu; simp [hlt, he, Task.fate]
    · rfl

theorem merged_invoke {A : AConfig} {L : LConfig} (h : Merged A L) (op : Op) :
    ∃ L', LSteps cfg L L' ∧ Merged ⟨A.st, A.tasks ++ [(op, .call op)]⟩ L' := by
  refine ⟨_, .tail (.refl _) (.invoke L op), h.docs, h.aliases, ?_⟩
  show L.calls ++ _ = _
  rw [h.calls]; simp [Task.fate]

/-- Every task made since is fresh, every older one has ended. -/
structure Young (m : Nat) (A : AConfig) : Prop where
  old : ∀ (t : Nat) op k, t < m → A.tasks[t]? = some (op, k) → k.ended
  size : m ≤ A.tasks.length
  fresh : ∀ (t : Nat) op k, m ≤ t → A.tasks[t]? = some (op, k) → k.ended ∨ Fresh A.st op k

theorem ended_stays {a a' : ObjState} {k k' : Task} (h : k.ended) (hs : Atomic cfg a k a' k') : False := by
  cases hs <;> exact h

theorem merged_step {m : Nat} {A A' : AConfig} {L : LConfig} (h : Merged A L) (hT : Tidy A.st) (hY : Young m A)
    (hs : AStep cfg A A') : ∃ L', LSteps cfg L L' ∧ Merged A' L' := by
  cases hs with
  | invoke op => exact merged_invoke h _
  | @run a a' ts t op k k' ht hs =>
    refine merged_run h hT ht ?_ hs
    by_cases hm : t < m
    · exact (ended_stays (hY.old t op k hm ht) hs).elim
    · rcases hY.fresh t op k (Nat.le_of_not_lt hm) ht with he | hf
      · exact (ended_stays he hs).elim
      · exact hf

theorem tidy_step {A A' : AConfig} (h : Tidy A.st) (hs : AStep cfg A A') : Tidy A'.st := by
  cases hs with
  | invoke => exact h
  | run t _ hs => exact tidy_atomic h hs

/-! ## Settled names -/

/-- `Op.settled`, of a specification. -/
def Op.calm (I : Name → Option Nat) (al : Name → Option (List Name)) (free : Name → Prop) : Op → Prop
  | .put n _ => (I n).isSome = true ∨ ((al n).isSome = true ∧ ¬ free n)
  | .alias al _ | .unAlias al _ => free al
  | .rename _ _ | .drop _ => False
  | _ => True

structure Settled (I : Name → Option Nat) (al : Name → Option (List Name)) (free : Name → Prop) (m : Nat)
    (A : AConfig) : Prop extends Young m A where
  tidy : Tidy A.st
  index : A.st.index = I
  kept : ∀ n, ¬ free n → A.st.aliases n = al n

/-- The names are as before: the tasks stay fresh. -/
theorem fresh_same {I : Name → Option Nat} {al : Name → Option (List Name)} {free : Name → Prop} {a a' : ObjState} {op : Op}
    {k : Task} (hop : op.calm I al free) (hi : a.index = I) (hi' : a'.index = I) (hk : ∀ n, ¬ free n → a.aliases n = al n)
    (hk' : ∀ n, ¬ free n → a'.aliases n = al n) (h : Fresh a op k) : Fresh a' op k := by
  cases h with
  | call => exact .call _
  | unAlias hne hs => exact .unAlias hne (by rw [hi', ← hi]; exact hs)
  | drop => exact hop.elim
  | put n d =>
    have : a.targets n = a'.targets n := by
      unfold ObjState.targets
      rw [hi, hi']
      rcases hop with ho | ⟨_, ho⟩
      · obtain ⟨p, hp⟩ := Option.isSome_iff_exists.1 ho
        rw [hp]
      · rw [hk n ho, hk' n ho]
    rw [this]
    exact .put n d

theorem settled_atomic {I : Name → Option Nat} {al : Name → Option (List Name)} {free : Name → Prop} {a a' : ObjState} {op : Op}
    {k k' : Task} (hop : op.calm I al free) (hi : a.index = I) (hk : ∀ n, ¬ free n → a.aliases n = al n) (hf : Fresh a op k)
    (hs : Atomic cfg a k a' k') :
    a'.index = I ∧ (∀ n, ¬ free n → a'.aliases n = al n) ∧ (k'.ended ∨ Fresh a' op k') := by
  cases hf with
  | call =>
    cases hs with
    | @aliasAdd al' _ h1 h2 =>
      have hfree : free al' := hop
      refine ⟨hi, fun n hn => ?_, .inl trivial⟩
      show upd _ _ _ n = _
      rw [upd_other _ _ (fun he : n = al' => hn (he ▸ hfree)), hk n hn]
    | @unAliasAll al' =>
      have hfree : free al' := hop
      refine ⟨hi, fun n hn => ?_, .inl trivial⟩
      show upd _ _ _ n = _
      rw [upd_other _ _ (fun he : n = al' => hn (he ▸ hfree)), hk n hn]
    | rename => exact hop.elim
    | unAliasFound h1 h2 => exact ⟨hi, hk, .inr (.unAlias h1 h2)⟩
    | putResolve => exact ⟨hi, hk, .inr (.put _ _)⟩
    | dropFound => exact hop.elim
    | _ => exact ⟨hi, hk, .inl trivial⟩
  | @unAlias al' i h1 h2 =>
    have hfree : free al' := hop
    cases hs with
    | unAliasMissing => exact ⟨hi, hk, .inl trivial⟩
    | unAliasRemove h =>
      refine ⟨hi, fun n hn => ?_, .inl trivial⟩
      show upd _ _ _ n = _
      rw [upd_other _ _ (fun he : n = al' => hn (he ▸ hfree)), hk n hn]
  | drop => exact hop.elim
  | put n d =>
    generalize htt : a.targets n = tt at hs
    cases hs with
    | putNew =>
      exfalso
      unfold ObjState.targets at htt
      rcases hop with ho | ⟨ho, ho'⟩
      · obtain ⟨p, hp⟩ := Option.isSome_iff_exists.1 ho
        rw [hi, hp] at htt
        cases htt
      · obtain ⟨l, hl⟩ := Option.isSome_iff_exists.1 ho
        rw [hk n ho', hl] at htt
        split at htt <;> cases htt
    | putAll => exact ⟨hi, hk, .inl trivial⟩
    | putNil => exact ⟨hi, hk, .inl trivial⟩
    | putTwice => exact ⟨hi, hk, .inl trivial⟩

theorem settled_step {I : Name → Option Nat} {al : Name → Option (List Name)} {free : Name → Prop} {m : Nat} {A A' : AConfig}
    (h : Settled I al free m A) (hs : AStep cfg A A')
    (hop : ∀ (t : Nat) x, m ≤ t → A'.tasks[t]? = some x → x.1.calm I al free) : Settled I al free m A' := by
  have hT := tidy_step h.tidy hs
  cases hs with
  | invoke op =>
    refine { tidy := hT, index := h.index, kept := h.kept, old := ?_, size := ?_, fresh := ?_ }
    · intro t o k ht hx
      rw [List.getElem?_append_left (Nat.lt_of_lt_of_le ht h.size)] at hx
      exact h.old t o k ht hx
    · have := h.size
      simp only [List.length_append]; omega
    · intro t o k ht hx
      simp only at hx
      rw [List.getElem?_append] at hx
      split at hx
      · exact h.fresh t o k ht hx
      · rw [List.getElem?_singleton] at hx
        split at hx
        · cases hx; exact .inr (.call _)
        · cases hx
  | @run a a' ts t op k k' ht hs =>
    have hlt := (List.getElem?_eq_some_iff.1 ht).1
    have hmt : m ≤ t := Nat.le_of_not_lt fun hlt => ended_stays (h.old t op k hlt ht) hs
    have hget : (ts.set t (op, k'))[t]? = some (op, k') := by simp [hlt]
    have hfr : Fresh a op k := (h.fresh t op k hmt ht).resolve_left fun he => ended_stays he hs
    obtain ⟨g1, g2, g3⟩ := settled_atomic (hop t (op, k') hmt hget) h.index h.kept hfr hs
    refine { tidy := hT, index := g1, kept := g2, old := ?_, size := ?_, fresh := ?_ }
    · intro u o k1 hu hx
      simp only at hx
      rw [List.getElem?_set_ne (by omega)] at hx
      exact h.old u o k1 hu hx
    · have := h.size; simpa using this
    · intro u o k1 hu hx
      simp only at hx
      by_cases hut : t = u
      · subst hut; rw [hget] at hx; cases hx; exact g3
      · have hx' := hx
        rw [List.getElem?_set_ne hut] at hx'
        rcases h.fresh u o k1 hu hx' with he | hf
        · exact .inl he
        · exact .inr (fresh_same (hop u (o, k1) hu hx) h.index g1 h.kept g2 hf)

/-! ## Calls of one step -/

structure OneLook (m : Nat) (A : AConfig) : Prop where
  tidy : Tidy A.st
  size : m ≤ A.tasks.length
  old : ∀ (t : Nat) op k, t < m → A.tasks[t]? = some (op, k) → k.ended
  new : ∀ (t : Nat) op k, m ≤ t → A.tasks[t]? = some (op, k) → k.ended ∨ k = .call op

theorem OneLook.young {m : Nat} {A : AConfig} (h : OneLook m A) : Young m A :=
  ⟨h.old, h.size, fun t op k ht hx => (h.new t op k ht hx).imp id fun (he : k = .call op) => he ▸ Fresh.call op⟩

theorem once_atomic {a a' : ObjState} {op : Op} {k' : Task} (h : op.looksOnce = true) (hs : Atomic cfg a (.call op) a' k') : k'.ended := by
  cases hs <;> first | trivial | (simp [Op.looksOnce] at h; done) | (next hi _ => exact absurd (by simpa [Op.looksOnce] using h) hi)

theorem once_step {m : Nat} {A A' : AConfig} (h : OneLook m A) (hs : AStep cfg A A')
    (hop : ∀ (t : Nat) x, m ≤ t → A'.tasks[t]? = some x → x.1.looksOnce = true) : OneLook m A' := by
  have hT := tidy_step h.tidy hs
  cases hs with
  | invoke op =>
    refine ⟨hT, ?_, ?_, ?_⟩
    · have := h.size
      simp only [List.length_append]; omega
    · intro t o k ht hx
      rw [List.getElem?_append_left (Nat.lt_of_lt_of_le ht h.size)] at hx
      exact h.old t o k ht hx
    · intro t o k ht hx
      simp only at hx
      rw [List.getElem?_append] at hx
      split at hx
      · exact h.new t o k ht hx
      · rw [List.getElem?_singleton] at hx
        split at hx
        · cases hx; exact .inr rfl
        · cases hx
  | @run a a' ts t op k k' ht hs =>
    have hlt := (List.getElem?_eq_some_iff.1 ht).1
    have hmt : m ≤ t := Nat.le_of_not_lt fun hlt => ended_stays (h.old t op k hlt ht) hs
    have hget : (ts.set t (op, k'))[t]? = some (op, k') := by simp [hlt]
    have hk : k = .call op := (h.new t op k hmt ht).resolve_left fun he => ended_stays he hs
    subst hk
    refine ⟨hT, ?_, ?_, ?_⟩
    · have := h.size; simpa using this
    · intro u o k1 hu hx
      simp only at hx
      rw [List.getElem?_set_ne (by omega)] at hx
      exact h.old u o k1 hu hx
    · intro u o k1 hu hx
      simp only at hx
      by_cases hut : t = u
      · subst hut; rw [hget] at hx; cases hx
        exact .inl (once_atomic (hop t (op, k') hmt hget) hs)
      · rw [List.getElem?_set_ne hut] at hx
        exact h.new u o k1 hu hx

/-! ## The link -/

theorem seenAs_of {c : Config} {A : AConfig} {L : LConfig} (h : Observed cfg c A) (hm : Merged A L) : SeenAs cfg c L := by
  refine ⟨?_, ?_, ?_, ?_⟩
  · rw [hm.calls, ← h.calls]; simp
  · intro t x r hx hr
    obtain ⟨v, h1, h2⟩ := h.returned t x r hx hr
    exact ⟨v, by rw [hm.calls, List.getElem?_map, h1]; rfl, h2⟩
  · intro t x e hx he
    rw [hm.calls, List.getElem?_map, h.crashed t x e hx he]; rfl
  · intro hq
    have hS := h.state hq
    refine ⟨?_, ?_, ?_⟩
    · intro n hn
      rw [hS.index]
      rw [hm.docs] at hn
      cases hi : A.st.index n with
      | none => rfl
      | some p => simp [ObjState.docs, hi, hS.bound n p hi] at hn
    · intro n rs hn
      rw [hm.docs] at hn
      unfold ObjState.docs at hn
      cases hi : A.st.index n with
      | none => rw [hi] at hn; cases hn
      | some p =>
        rw [hi, Option.bind_some] at hn
        obtain ⟨nm, hh⟩ := hS.objs p rs hn
        exact ⟨p, nm, by rw [hS.index, hi], hh⟩
    · intro n; rw [hS.aliases, hm.aliases]

/-- At rest, every task has ended. -/
theorem observed_ended {c : Config} {A : AConfig} (h : Observed cfg c A) (hq : c.quiet) {t : Nat} {op : Op} {k : Task}
    (ht : A.tasks[t]? = some (op, k)) : k.ended := by
  have hlen : A.tasks.length = c.calls.length := by simpa using congrArg List.length h.calls
  have hlt : t < c.calls.length := hlen ▸ (List.getElem?_eq_some_iff.1 ht).1
  have hx := List.getElem?_eq_getElem hlt
  have hnr := hq _ (List.mem_of_getElem? hx)
  cases hp : (c.calls[t]).prog with
  | ret r =>
    obtain ⟨v, h1, _⟩ := h.returned t _ r hx hp
    rw [ht] at h1; cases h1; trivial
  | crash e =>
    have h1 := h.crashed t _ e hx hp
    rw [ht] at h1; cases h1; trivial
  | act a k => exact absurd (by unfold Thread.running; rw [hp]; trivial) hnr

/-- From an invariant of the executions of atomic steps to calls that take effect at one moment. -/
theorem linear_from {c0 : Config} (hq : c0.quiet) {ok : Op → Prop} (K : Config → AConfig → Prop) {A0 : AConfig} (h1 : Tidy A0.st)
    (h2 : K c0 A0) (hobs : ∀ c A, K c A → Observed cfg c A)
    (hK : ∀ c A c', c.calls.take c0.calls.length = c0.calls → K c A → (∀ x ∈ c'.calls.drop c0.calls.length, ok x.op) → Step cfg c c' →
      ∃ A', ASteps cfg A A' ∧ K c' A')
    (S : Config → LConfig → Prop) (hS : ∀ c A L, K c A → Merged A L → S c L)
    (J : AConfig → AConfig → Prop) (hJ0 : ∀ A, Tidy A.st → Observed cfg c0 A → J A A)
    (hJ : ∀ A0 A, J A0 A → Young c0.calls.length A ∧ Tidy A.st)
    (hstep : ∀ A0 A A', Observed cfg c0 A0 → J A0 A → AStep cfg A A' →
      (∀ (t : Nat) x, c0.calls.length ≤ t → A'.tasks[t]? = some x → ok x.1) → J A0 A') :
    ∃ (R : Config → LConfig → Prop) (L0 : LConfig), R c0 L0 ∧ (∀ c L, R c L → SeenAs cfg c L ∧ S c L) ∧
      ∀ c L c', R c L → (∀ x ∈ c'.calls.drop c0.calls.length, ok x.op) → Step cfg c c' → ∃ L', LSteps cfg L L' ∧ R c' L' := by
  have ho := hobs _ _ h2
  refine ⟨fun c L => ∃ A, K c A ∧ J A0 A ∧ Merged A L ∧ c.calls.take c0.calls.length = c0.calls, A0.merged,
    ⟨A0, h2, hJ0 A0 h1 ho, merged_self A0, List.take_length⟩,
    fun c L ⟨A, g1, _, g3, _⟩ => ⟨seenAs_of (hobs _ _ g1) g3, hS _ _ _ g1 g3⟩, ?_⟩
  rintro c L c' ⟨A, g1, g2, g3, g4⟩ hops hs
  have hold := step_take hq g4 hs
  obtain ⟨A', g5, g6⟩ := hK c A c' g4 g1 hops hs
  have ho' := hobs _ _ g6
  have hops' : ∀ (t : Nat) x, c0.calls.length ≤ t → A'.tasks[t]? = some x → ok x.1 := by
    intro t x ht hx
    have he : (A'.tasks.map (·.1))[t]? = some x.1 := by rw [List.getElem?_map, hx]; rfl
    rw [ho'.calls, List.getElem?_map] at he
    cases hy : c'.calls[t]? with
    | none => rw [hy] at he; cases he
    | some y =>
      rw [hy] at he
      simp only [Option.map_some, Option.some.injEq] at he
      rw [← he]
      refine hops y ?_
      refine List.mem_of_getElem? (i := t - c0.calls.length) ?_
      rw [List.getElem?_drop, Nat.add_sub_cancel' ht]
      exact hy
  clear ho'
  have key : ∀ A', ASteps cfg A A' → (∀ (t : Nat) x, c0.calls.length ≤ t → A'.tasks[t]? = some x → ok x.1) →
      ∃ L', LSteps cfg L L' ∧ J A0 A' ∧ Merged A' L' := by
    intro A' hAs
    induction hAs with
    | refl => exact fun _ => ⟨L, .refl _, g2, g3⟩
    | @tail A1 A2 _ hs ih =>
      intro hok2
      obtain ⟨l, hl⟩ := aStep_ops hs
      obtain ⟨L1, k1, k2, k3⟩ := ih (by
        intro t x ht hx
        have he : (A2.tasks.map (·.1))[t]? = some x.1 := by
          rw [hl, List.getElem?_append_left (by simpa using (List.getElem?_eq_some_iff.1 hx).1), List.getElem?_map, hx]; rfl
        rw [List.getElem?_map] at he
        cases hy : A2.tasks[t]? with
        | none => rw [hy] at he; cases he
        | some y =>
          rw [hy] at he
          simp only [Option.map_some, Option.some.injEq] at he
          rw [← he]; exact hok2 t y ht hy)
      obtain ⟨L2, k4, k5⟩ := merged_step k3 (hJ _ _ k2).2 (hJ _ _ k2).1 hs
      exact ⟨L2, k1.trans k4, hstep A0 A1 A2 ho k2 hs hok2, k5⟩
  obtain ⟨L', k1, k2, k3⟩ := key A' g5 hops'
  exact ⟨L', k1, A', ‹_›, k2, k3, hold⟩

theorem linear_of {d : Discipline} (hd : WriteGuarded d) {c0 : Config} (hr : ConcReachable cfg c0) (hq : c0.quiet)
    {ok : Op → Prop} (hok : ∀ op, ok op → Suits d op)
    (J : AConfig → AConfig → Prop) (hJ0 : ∀ A, Tidy A.st → Observed cfg c0 A → J A A)
    (hJ : ∀ A0 A, J A0 A → Young c0.calls.length A ∧ Tidy A.st)
    (hstep : ∀ A0 A A', Observed cfg c0 A0 → J A0 A → AStep cfg A A' →
      (∀ (t : Nat) x, c0.calls.length ≤ t → A'.tasks[t]? = some x → ok x.1) → J A0 A') : Linearizable cfg c0 ok := by
  obtain ⟨A0, h1, h2, _⟩ := linked_rest d hr hq
  obtain ⟨R, L0, g1, g2, g3⟩ := linear_from hq (Linked d cfg) h1 h2 (fun _ _ => linked_observed hd)
    (fun c A c' ht h hops hs => linked_since hq ht h (fun x hx => hok _ (hops x hx)) hs) (fun _ _ => True) (fun _ _ _ _ _ => trivial)
    J hJ0 hJ hstep
  exact ⟨R, L0, g1, fun c L h => (g2 c L h).1, g3⟩

/-- Without `Rename`. -/
theorem fully_linear_of {c0 : Config} (hr : ConcReachable cfg c0) (hq : c0.quiet)
    {ok : Op → Prop} (hok : ∀ op, ok op → op.isRename = false)
    (J : AConfig → AConfig → Prop) (hJ0 : ∀ A, Tidy A.st → Observed cfg c0 A → J A A)
    (hJ : ∀ A0 A, J A0 A → Young c0.calls.length A ∧ Tidy A.st)
    (hstep : ∀ A0 A A', Observed cfg c0 A0 → J A0 A → AStep cfg A A' →
      (∀ (t : Nat) x, c0.calls.length ≤ t → A'.tasks[t]? = some x → ok x.1) → J A0 A') : FullyLinearizable cfg c0 ok := by
  obtain ⟨A0, h1, h2, h3⟩ := linked_rest strict hr hq
  exact linear_from hq (fun c A => Linked strict cfg c A ∧ RowsLink cfg c A) h1 ⟨h2, rowsLink_rest hr hq h3⟩
    (fun _ _ h => linked_observed strict_guarded h.1)
    (fun c A c' ht h hops hs => rowsLink_since hq ht h.1 h.2 (fun x hx => hok _ (hops x hx)) hs) RowsSeen
    (fun c A L h hm t x r hx hr => by rw [hm.calls, List.getElem?_map, h.2.shown t x r hx hr]; rfl) J hJ0 hJ hstep

/-! ## The order in which the calls take effect -/

theorem lstep_over {L L' : LConfig} (hs : LStep cfg L L') {t : Tid} {op : Op} {v : SRet} (h : L.calls[t]? = some (op, .over v)) :
    L'.calls[t]? = some (op, .over v) := by
  cases hs with
  | invoke op' => rw [List.getElem?_append_left (List.getElem?_eq_some_iff.1 h).1]; exact h
  | take u hu _ =>
    have hne : u ≠ t := by rintro rfl; rw [hu] at h; cases h
    show (L.calls.set u _)[t]? = _
    rw [List.getElem?_set_ne hne]; exact h
  | die u hu _ =>
    have hne : u ≠ t := by rintro rfl; rw [hu] at h; cases h
    show (L.calls.set u _)[t]? = _
    rw [List.getElem?_set_ne hne]; exact h

theorem replay_later {L L' : LConfig} (hs : LStep cfg L L') {a b : SpecState} {ts : List Tid} (h : Replay cfg L.calls a ts b) :
    Replay cfg L'.calls a ts b := by
  induction h with
  | nil => exact .nil _
  | cons ht hv _ ih => exact .cons (lstep_over hs ht) hv ih

theorem replay_snoc {calls : List (Op × Fate)} {a b : SpecState} {ts : List Tid} {t : Tid} {op : Op} {v : SRet}
    (h : Replay cfg calls a ts b) (ht : calls[t]? = some (op, .over v)) (hv : b.allows cfg op v) :
    Replay cfg calls a (ts ++ [t]) ⟨(b.next op).docs, (b.next op).aliases, 0, false⟩ := by
  induction h with
  | nil => exact .cons ht hv (.nil _)
  | cons ht' hv' _ ih => exact .cons ht' hv' (ih hv)

theorem lsteps_order {L L' : LConfig} (hs : LSteps cfg L L') : ∃ ts : List Tid, ts.Nodup ∧
    (∀ t, t ∈ ts ↔ L'.returned t ∧ ¬ L.returned t) ∧ Replay cfg L'.calls L.seq ts L'.seq := by
  induction hs with
  | refl => exact ⟨[], .nil, fun t => ⟨fun h => (nomatch h), fun h => absurd h.1 h.2⟩, .nil _⟩
  | @tail L1 L2 h0 hs ih =>
    obtain ⟨ts, h1, h2, h3⟩ := ih
    have hmono : ∀ t, L1.returned t → L2.returned t := fun t ⟨op, v, h⟩ => ⟨op, v, lstep_over hs h⟩
    have h3' := replay_later hs h3
    cases hs with
    | invoke op =>
      refine ⟨ts, h1, fun t => ?_, h3'⟩
      rw [h2]
      refine and_congr_left fun _ => ⟨hmono t, ?_⟩
      rintro ⟨o, v, h⟩
      simp only at h
      rw [List.getElem?_append] at h
      split at h
      · exact ⟨o, v, h⟩
      · rw [List.getElem?_singleton] at h
        split at h <;> cases h
    | @die u op e hu he =>
      refine ⟨ts, h1, fun t => ?_, h3'⟩
      rw [h2]
      refine and_congr_left fun _ => ⟨hmono t, ?_⟩
      rintro ⟨o, v, h⟩
      simp only at h
      rw [List.getElem?_set] at h
      split at h
      · split at h <;> cases h
      · exact ⟨o, v, h⟩
    | @take u op v hu hv =>
      have hlt := (List.getElem?_eq_some_iff.1 hu).1
      have hnot : ¬ L1.returned u := by rintro ⟨o, w, h⟩; rw [hu] at h; cases h
      have hnot0 : ¬ L.returned u := by
        rintro ⟨o, w, h⟩
        apply hnot
        clear h2 h3 h3' hmono hu hlt hnot hv h1
        induction h0 with
        | refl => exact ⟨o, w, h⟩
        | tail _ hs ih => obtain ⟨o, w, h⟩ := ih; exact ⟨o, w, lstep_over hs h⟩
      refine ⟨ts ++ [u], ?_, fun t => ?_, replay_snoc h3' (t := u) (op := op) (v := v) (by simp [hlt]) hv⟩
      · rw [List.nodup_append]
        refine ⟨h1, by simp, ?_⟩
        intro x hx y hy hxy
        rw [List.mem_singleton] at hy
        subst hy; subst hxy
        exact hnot ((h2 x).1 hx).1
      · rw [List.mem_append, h2, List.mem_singleton]
        constructor
        · rintro (⟨ha, hb⟩ | rfl)
          · exact ⟨hmono t ha, hb⟩
          · exact ⟨⟨op, v, by simp [hlt]⟩, hnot0⟩
        · rintro ⟨⟨o, w, h⟩, hb⟩
          simp only at h
          rw [List.getElem?_set] at h
          split at h
          · next he => exact .inr he.symm
          · exact .inl ⟨⟨o, w, h⟩, hb⟩

theorem linear_steps {c0 : Config} {ok : Op → Prop} {R : Config → LConfig → Prop}
    (hR : ∀ c L c', R c L → (∀ x ∈ c'.calls.drop c0.calls.length, ok x.op) → Step cfg c c' → ∃ L', LSteps cfg L L' ∧ R c' L')
    {c c' : Config} {L : LConfig} (h : R c L) (hs : Steps cfg c c') (hok : ∀ x ∈ c'.calls.drop c0.calls.length, ok x.op) :
    ∃ L', LSteps cfg L L' ∧ R c' L' := by
  induction hs with
  | refl => exact ⟨L, .refl _, h⟩
  | tail _ hs ih =>
    obtain ⟨L1, h1, h2⟩ := ih (step_new (P := ok) hs hok)
    obtain ⟨L2, h3, h4⟩ := hR _ _ _ h2 hok hs
    exact ⟨L2, h1.trans h3, h4⟩

end Visigoth
