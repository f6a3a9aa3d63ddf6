import Verif.Proofs.Leak
import Verif.Props.Repo
/-!
# Concurrent calls: races, deadlocks, leaked locks (C49–C51)

All theorems are about every reachable configuration: any number of calls, any interleaving of their
steps, any choices of the Go runtime.
-/
namespace Visigoth

variable {cfg : Cfg}

/-! ## Concrete executions used as witnesses -/

theorem next_step {c c' : Config} {x : Sched} (hx : c.next cfg x = some c') : Step cfg c c' := by
  cases x with
  | call op o =>
    simp only [Config.next, Option.some.injEq] at hx
    subst hx
    exact .invoke c op o
  | go t =>
    obtain ⟨s, cs⟩ := c
    simp only [Config.next] at hx
    split at hx
    · next op o β a k hc =>
      split at hx
      · next b s' he => simp only [Option.some.injEq] at hx; subst hx; exact .move t (.act hc he)
      · cases hx
      · next e he => simp only [Option.some.injEq] at hx; subst hx; exact .move t (.crash hc he)
    · cases hx

/-- A played schedule is an execution. -/
theorem play_steps {c c' : Config} {xs : List Sched} (h : c.play cfg xs = some c') : Steps cfg c c' := by
  have front : ∀ {c c₁ c' : Config}, Step cfg c c₁ → Steps cfg c₁ c' → Steps cfg c c' := by
    intro c c₁ c' h1 h2
    induction h2 with
    | refl => exact .tail (.refl _) h1
    | tail _ hs ih => exact .tail ih hs
  induction xs generalizing c with
  | nil => simp only [Config.play, Option.some.injEq] at h; subst h; exact .refl _
  | cons x xs ih =>
    simp only [Config.play] at h
    split at h
    · next c₁ hx => exact front (next_step hx) (ih h)
    · cases h

/-- `n` steps of one call. -/
def goes (t : Tid) (n : Nat) : List Sched := List.replicate n (.go t)

def callNow (op : Op) : Sched := .call op sampleOracle

/-- What the calls of a played schedule have returned. -/
def playReturns (xs : List Sched) : Option (List (Option Ret)) :=
  (Config.init.play sampleCfg xs).map fun c => c.calls.map fun x =>
    match x.prog with
    | .ret r => some r
    | _ => none

/-! ## C51 -/

/-- The repository is free of data races. -/
def RaceFree (cfg : Cfg) : Prop := ∀ c t u l, ConcReachable cfg c → ¬ c.race t u l

/-- Put x; Alias a x; then a Rename is about to iterate over the alias map while an UnAlias is about
to write to it. -/
def raceSchedule : List Sched :=
  [callNow (.put (str "x") docD)] ++ goes 0 13 ++
  [callNow (.alias (str "a") (str "x"))] ++ goes 1 9 ++
  [callNow (.unAlias (str "a") (str "x")), callNow (.rename (str "x") (str "y"))] ++ goes 2 8 ++ goes 3 5

example : playReturns raceSchedule = some [some .unit, some (.bool true), none, none] := by decide +kernel

/-- False of the code: `Rename` uses the alias map without its mutex. -/
theorem C51_refuted : ¬ RaceFree sampleCfg := by
  intro h
  have key : ∃ c, Config.init.play sampleCfg raceSchedule = some c ∧
      (c.calls[2]?).bind Thread.writes = some .aliases ∧ (c.calls[3]?).bind Thread.reads = some .aliases := by
    have : ((Config.init.play sampleCfg raceSchedule).map fun c =>
        ((c.calls[2]?).bind Thread.writes, (c.calls[3]?).bind Thread.reads))
        = some (some .aliases, some .aliases) := by decide +kernel
    cases hc : Config.init.play sampleCfg raceSchedule with
    | none => rw [hc] at this; cases this
    | some c =>
      rw [hc] at this
      simp only [Option.map_some, Option.some.injEq, Prod.mk.injEq] at this
      exact ⟨c, rfl, this⟩
  obtain ⟨c, hc, h2, h3⟩ := key
  cases hx : c.calls[2]? with
  | none => rw [hx] at h2; cases h2
  | some x =>
    cases hy : c.calls[3]? with
    | none => rw [hy] at h3; cases h3
    | some y =>
      rw [hx] at h2
      rw [hy] at h3
      exact h c 2 3 .aliases (play_steps hc) ⟨by decide, x, y, hx, hy, h2, Or.inl h3⟩

/-- The only races are between a `Rename` and an `UnAlias`, on the alias table. -/
theorem C51_only_rename_unalias {c : Config} (hr : ConcReachable cfg c) {t u : Tid} {l : Loc} (h : c.race t u l) :
    l ≠ .indices ∧ ∃ x y, c.calls[t]? = some x ∧ c.calls[u]? = some y ∧
      ((x.op.isRename = true ∧ y.op.isUnAlias = true) ∨ (x.op.isUnAlias = true ∧ y.op.isRename = true)) := by
  obtain ⟨htu, x, y, hx, hy, hw, ho⟩ := h
  have := race_only hr htu hx hy hw ho
  exact ⟨this.2, x, y, hx, hy, this.1⟩

/-- Programs that do not use both `Rename` and `UnAlias` are race free; all accesses to the index map
and the indices always are. -/
theorem C51_race_free_partial {c : Config} (hr : ConcReachable cfg c) (t u : Tid) (l : Loc)
    (h : (∀ x ∈ c.calls, x.op.isRename = false) ∨ (∀ x ∈ c.calls, x.op.isUnAlias = false) ∨ l = .indices) :
    ¬ c.race t u l := by
  intro hrace
  obtain ⟨h1, x, y, hx, hy, h2⟩ := C51_only_rename_unalias hr hrace
  have mx := List.mem_of_getElem? hx
  have my := List.mem_of_getElem? hy
  rcases h with h | h | h
  · rcases h2 with ⟨h2, _⟩ | ⟨_, h2⟩
    · rw [h x mx] at h2; cases h2
    · rw [h y my] at h2; cases h2
  · rcases h2 with ⟨_, h2⟩ | ⟨h2, _⟩
    · rw [h y my] at h2; cases h2
    · rw [h x mx] at h2; cases h2
  · exact h1 h

/-! ## C49 -/

/-- As long as no finished call has kept a lock, some unfinished call can take a step. -/
theorem C49_no_deadlock {c : Config} (hr : ConcReachable cfg c) (hl : ¬ c.leaked) {t : Tid} {x : Thread}
    (hx : c.calls[t]? = some x) (hrun : x.running) : ∃ u, c.canMove cfg u :=
  no_deadlock hr hl hx hrun

/-- The calls in progress cannot go on forever: there is no infinite execution without new calls. -/
theorem C49_calls_terminate (f : Nat → Config) : ¬ ∀ i, Moves cfg (f i) (f (i + 1)) := by
  intro h
  have : ∀ c, ∀ i, f i ≠ c := by
    intro c
    induction c using (moves_wf cfg).induction with
    | _ c ih =>
      intro i hi
      exact ih (f (i + 1)) (hi ▸ h i) (i + 1) rfl
  exact this _ 0 rfl

/-- So, if no new call is made, the calls in progress reach a state where all are over or a lock is
leaked, whatever the scheduler does: every state where nothing moves is such a state, and one is
reached from every state. -/
theorem C49_calls_complete {c : Config} (hr : ConcReachable cfg c) (hstop : ∀ u, ¬ c.canMove cfg u) :
    (∀ x ∈ c.calls, ¬ x.running) ∨ c.leaked := by
  by_cases hl : c.leaked
  · exact Or.inr hl
  · refine Or.inl fun x hx hrun => ?_
    obtain ⟨t, ht⟩ := List.getElem?_of_mem hx
    obtain ⟨u, hu⟩ := C49_no_deadlock hr hl ht hrun
    exact hstop u hu

theorem C49_quiescence_reached (c : Config) : ∃ c', Steps cfg c c' ∧ ∀ u, ¬ c'.canMove cfg u := by
  induction c using (moves_wf cfg).induction with
  | _ c ih =>
    by_cases h : ∃ u, c.canMove cfg u
    · obtain ⟨u, c₁, hu⟩ := h
      obtain ⟨c', h1, h2⟩ := ih c₁ ⟨u, hu⟩
      refine ⟨c', ?_, h2⟩
      have front : ∀ {c' : Config}, Steps cfg c₁ c' → Steps cfg c c' := by
        intro c' h
        induction h with
        | refl => exact .tail (.refl _) (.move u hu)
        | tail _ hs ih => exact .tail ih hs
      exact front h1
    · exact ⟨c, .refl _, fun u hu => h ⟨u, hu⟩⟩

/-- Only `UnAlias` given an index and returning false, or a call that panicked, can have kept a lock. -/
theorem C49_who_leaks {c : Config} (hr : ConcReachable cfg c) {t : Tid} {x : Thread} {m : Mu}
    (hx : c.calls[t]? = some x) (hrun : ¬ x.running) (hh : c.sh.holds m t) :
    (∃ al i, x.op = .unAlias al i ∧ i ≠ [] ∧ x.prog = .ret (.bool false)) ∨ ∃ e, x.prog = .crash e := by
  obtain ⟨H, i⟩ := lockInv_reachable hr
  obtain ⟨op, o, p⟩ := x
  cases p with
  | act a k => exact absurd trivial hrun
  | crash e => exact Or.inr ⟨e, rfl⟩
  | ret r =>
    refine Or.inl ?_
    have he := returned_end i hx rfl
    have hg := (holds_iff i.link m t).1 hh
    have hne : H t ≠ {} := by intro h; rw [h] at hg; cases m <;> exact hg rfl
    cases op with
    | unAlias al j =>
      simp only [endOf] at he
      split at he
      · exact absurd he hne
      · next hj =>
        rcases he with ⟨_, h⟩ | ⟨h, _⟩
        · exact absurd h hne
        · exact ⟨al, j, rfl, by rintro rfl; exact hj rfl, by rw [h]⟩
    | _ => exact absurd he hne

/-- Two calls that contend for both mutexes: a `Drop` waits for a `Search` that is waiting for an
`Alias`; no lock has been leaked and the `Alias` can go on. -/
example : (Config.init.play sampleCfg
      ([callNow (.put (str "x") docD)] ++ goes 0 13 ++ [callNow (.alias (str "a") (str "x"))] ++ goes 1 4 ++
       [callNow (.search (str "a") (str "java") linearSearch)] ++ goes 2 2 ++ [callNow (.drop (str "x"))] ++ goes 3 4)).map
      (fun c => (c.sh.imu, c.sh.amu, (c.next sampleCfg (.go 2)).isSome, (c.next sampleCfg (.go 3)).isSome,
        (c.next sampleCfg (.go 1)).isSome))
    = some ({ readers := [2, 1], writer := some 3 }, { readers := [], writer := some 1 }, false, false, true) := by
  decide +kernel

/-! ## C50 -/

/-- A call that is over keeps its locks forever. -/
theorem C50_lock_never_released {c c' : Config} {t : Tid} {x : Thread} {m : Mu} (hx : c.calls[t]? = some x)
    (hrun : ¬ x.running) (hh : c.sh.holds m t) (hs : Steps cfg c c') : c'.sh.holds m t := by
  rcases hh with hh | hh
  · have h0 : Over c t (fun m' => decide (m' = m)) (fun _ => false) :=
      ⟨⟨x, hx, hrun⟩, fun m' h => by simp at h; subst h; exact hh, fun _ h => nomatch h⟩
    have : Over c' t (fun m' => decide (m' = m)) (fun _ => false) := by
      clear hx hh
      induction hs with
      | refl => exact h0
      | tail _ hs ih => exact over_step ih hs
    exact Or.inl (this.rd m (by simp))
  · have h0 : Over c t (fun _ => false) (fun m' => decide (m' = m)) :=
      ⟨⟨x, hx, hrun⟩, fun _ h => (nomatch h), fun m' h => by simp at h; subst h; exact hh⟩
    have : Over c' t (fun _ => false) (fun m' => decide (m' = m)) := by
      clear hx hh
      induction hs with
      | refl => exact h0
      | tail _ hs ih => exact over_step ih hs
    exact Or.inr (this.wr m (by simp))

/-- Once an `UnAlias` given an index has returned false it has leaked one of the two mutexes: the index
mutex for reading or the alias mutex for writing. -/
theorem C50_false_leaks {c : Config} (hr : ConcReachable cfg c) {t : Tid} {x : Thread} {al i : Name}
    (hx : c.calls[t]? = some x) (hop : x.op = .unAlias al i) (hi : i ≠ []) (hret : x.prog = .ret (.bool false)) :
    t ∈ c.sh.imu.readers ∨ c.sh.amu.writer = some t := by
  obtain ⟨H, inv⟩ := lockInv_reachable hr
  have he := returned_end inv hx hret
  rw [hop] at he
  have hl : i.length ≠ 0 := by cases i; exact absurd rfl hi; simp
  simp only [endOf, hl, if_false] at he
  rcases he with ⟨h, _⟩ | ⟨_, h | h⟩
  · cases h
  · exact Or.inl ((inv.link .indices).mem t |>.2 (by rw [h]; rfl))
  · exact Or.inr ((inv.link .aliases).wr t |>.2 (Or.inr (by rw [h]; rfl)))

/-- After a finished call kept the index mutex for reading, no later `Put` or `Rename` returns and no
later `Drop` returns true, in any schedule. -/
theorem C50_reader_leak_blocks {c c' : Config} {t u : Tid} {x y : Thread} {r : Ret} (hx : c.calls[t]? = some x)
    (hrun : ¬ x.running) (hh : t ∈ c.sh.imu.readers) (hs : Steps cfg c c') (hu : c.calls.length ≤ u)
    (hy : c'.calls[u]? = some y) (hret : y.prog = .ret r) : ¬ needsI y.op r := by
  have h0 : Over c t (fun m => decide (m = .indices)) (fun _ => false) :=
    ⟨⟨x, hx, hrun⟩, fun m h => by simp at h; subst h; exact hh, fun _ h => nomatch h⟩
  have := (barred_later (bar := barI) h0
    (fun a o u b s s' hb _ hr _ => barI_blocked a o u b s s' hb (hr .indices rfl)) needsI (barred_needsI cfg) hs).2 u y hu hy
  rw [hret] at this
  exact this

/-- After a finished call kept the alias mutex for writing, no later call gives a result that needs the
alias table, in any schedule. -/
theorem C50_writer_leak_blocks {c c' : Config} {t u : Tid} {x y : Thread} {r : Ret} (hx : c.calls[t]? = some x)
    (hrun : ¬ x.running) (hh : c.sh.amu.writer = some t) (hs : Steps cfg c c') (hu : c.calls.length ≤ u)
    (hy : c'.calls[u]? = some y) (hret : y.prog = .ret r) : ¬ needsA y.op r := by
  have h0 : Over c t (fun _ => false) (fun m => decide (m = .aliases)) :=
    ⟨⟨x, hx, hrun⟩, fun _ h => (nomatch h), fun m h => by simp at h; subst h; exact hh⟩
  have := (barred_later (bar := barA) h0
    (fun a o u b s s' hb _ _ hw => barA_blocked a o u b s s' hb (hw .aliases rfl)) needsA (barred_needsA cfg) hs).2 u y hu hy
  rw [hret] at this
  exact this

/-- The two leaks happen. -/
example : (Config.init.play sampleCfg ([callNow (.unAlias (str "a") (str "x"))] ++ goes 0 2)).map
    (fun c => (c.sh.imu.readers, c.sh.amu.writer)) = some ([0], none) := by decide +kernel
example : playReturns ([callNow (.unAlias (str "a") (str "x"))] ++ goes 0 2) = some [some (.bool false)] := by
  decide +kernel
example : (Config.init.play sampleCfg ([callNow (.put (str "x") docD)] ++ goes 0 13 ++
    [callNow (.unAlias (str "a") (str "x"))] ++ goes 1 6)).map
    (fun c => (c.sh.imu.readers, c.sh.amu.writer)) = some ([], some 1) := by decide +kernel
/-- A `Put` that can do no more than wait. -/
example : (Config.init.play sampleCfg ([callNow (.unAlias (str "a") (str "x"))] ++ goes 0 2 ++
    [callNow (.put (str "x") docD)] ++ goes 1 7)).map
    (fun c => (c.sh.imu.writer, (c.next sampleCfg (.go 1)).isSome)) = some (some 1, false) := by decide +kernel

end Visigoth
