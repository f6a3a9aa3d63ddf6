import Verif.Proofs.FineConverse
import Verif.Props.Conc
/-!
# C60, C61, C62: calls whose goroutines are interleaved with everything else

All theorems are about every configuration reachable from an empty repository by any number of calls,
any interleaving of the calls and of the goroutines they start.
-/
namespace Visigoth

variable {cfg : Cfg}

/-! ## C60 -/

/-- Interleaving the goroutines with everything else adds no behaviour: the calls, their outcomes and the
state of the repository are those of an execution in which the goroutines of a call run one after the
other. -/
theorem C60_nothing_new {c : FConfig} (h : FineReachable cfg c) : ∃ d, ConcReachable cfg d ∧ Alike c d := fine_alike h

/-- And it loses none. -/
theorem C60_nothing_lost {d : Config} (h : ConcReachable cfg d) : ∃ c, FineReachable cfg c ∧ Alike c d ∧ c.sh = d.sh := by
  obtain ⟨c, hr, m⟩ := comatch_reachable h
  exact ⟨c, hr, comatch_alike m, m.sh⟩

/-- What the calls of an execution were and what became of them. -/
def Config.outcomes (d : Config) : List (Op × Status) := d.calls.map fun y => (y.op, y.status)
def FConfig.outcomes (c : FConfig) : List (Op × Status) := c.calls.map fun x => (x.op, x.status)

theorem alike_outcomes {c : FConfig} {d : Config} (h : Alike c d) : c.outcomes = d.outcomes := by
  apply List.ext_getElem?
  intro t
  simp only [FConfig.outcomes, Config.outcomes, List.getElem?_map]
  cases hx : c.calls[t]? with
  | some x =>
    obtain ⟨y, hy, sc⟩ := h.calls t x hx
    rw [hy]
    simp [sc.op, sc.status]
  | none =>
    have : c.calls.length ≤ t := List.getElem?_eq_none_iff.1 hx
    rw [List.getElem?_eq_none (by rw [← h.len]; exact this)]
    rfl

/-- The outcomes that are possible are exactly the same. -/
theorem C60_same_outcomes (l : List (Op × Status)) :
    (∃ c, FineReachable cfg c ∧ c.outcomes = l) ↔ ∃ d, ConcReachable cfg d ∧ d.outcomes = l := by
  constructor
  · rintro ⟨c, hr, rfl⟩
    obtain ⟨d, hd, al⟩ := C60_nothing_new hr
    exact ⟨d, hd, (alike_outcomes al).symm⟩
  · rintro ⟨d, hr, rfl⟩
    obtain ⟨c, hc, al, _⟩ := C60_nothing_lost hr
    exact ⟨c, hc, alike_outcomes al⟩

/-- When no call is running, so are the states of the repository. -/
theorem C60_same_final_states (l : List (Op × Status)) (hl : ∀ x ∈ l, x.2 ≠ .running) (s : Shared) :
    (∃ c, FineReachable cfg c ∧ c.outcomes = l ∧ c.sh = s) ↔ ∃ d, ConcReachable cfg d ∧ d.outcomes = l ∧ d.sh = s := by
  constructor
  · rintro ⟨c, hr, rfl, rfl⟩
    obtain ⟨d, hd, al⟩ := C60_nothing_new hr
    refine ⟨d, hd, (alike_outcomes al).symm, ?_⟩
    have hh := al.heap (fun t x hx hrun =>
      absurd hrun (hl _ (List.mem_map_of_mem (f := fun x : FThread => (x.op, x.status)) (List.mem_of_getElem? hx))))
    have h1 := al.indices
    have h2 := al.aliases
    have h3 := al.arrays
    have h4 := al.imu
    have h5 := al.amu
    cases hc : c.sh
    cases hd : d.sh
    rw [hc, hd] at hh h1 h2 h3 h4 h5
    simp only at hh h1 h2 h3 h4 h5
    subst hh h1 h2 h3 h4 h5
    rfl
  · rintro ⟨d, hr, rfl, rfl⟩
    obtain ⟨c, hc, al, hs⟩ := C60_nothing_lost hr
    exact ⟨c, hc, alike_outcomes al, hs⟩

/-- `n` steps of the goroutine in which a call was made. -/
def fgoes (t : Tid) (n : Nat) : List FSched := List.replicate n (.go t)

/-- Steps of the goroutines started by a call. -/
def subs (t : Tid) (is : List Nat) : List FSched := is.map (.sub t)

def fcallNow (op : Op) : FSched := .call op sampleOracle

/-- What the calls of a played schedule have returned, and the documents of all indices. -/
def fplayReturns (xs : List FSched) : Option (List (Option Ret) × List (List Str)) :=
  (FConfig.init.play sampleCfg xs).map fun c => (c.calls.map fun x =>
    match x.st with
    | .run (.ret r) => some r
    | _ => none, c.sh.heap.map fun mi => mi.docs.map fun d => d.id)

/-- Two indices under one alias. -/
def fineSetup : List FSched :=
  [fcallNow (.put (str "x") docD)] ++ fgoes 0 13 ++ [fcallNow (.put (str "y") docD)] ++ fgoes 1 13 ++
  [fcallNow (.alias (str "a") (str "x"))] ++ fgoes 2 9 ++ [fcallNow (.alias (str "a") (str "y"))] ++ fgoes 3 10

/-- A Put through the alias: its two goroutines are in the middle of their work, then they end. -/
example : fplayReturns (fineSetup ++ [fcallNow (.put (str "a") docE)] ++ fgoes 4 13 ++ subs 4 [1, 0])
    = some ([some .unit, some .unit, some (.bool true), some (.bool true), none],
        [[str "d", str "e"], [str "d", str "e"]]) := by decide +kernel
example : fplayReturns (fineSetup ++ [fcallNow (.put (str "a") docE)] ++ fgoes 4 13 ++ subs 4 [1, 0, 0, 1] ++ fgoes 4 2)
    = some ([some .unit, some .unit, some (.bool true), some (.bool true), some .unit],
        [[str "d", str "e"], [str "d", str "e"]]) := by decide +kernel

/-- Two Searches through the alias at the same time, four goroutines interleaved. -/
def fineSearches : List FSched :=
  fineSetup ++ [fcallNow (.search (str "a") (str "java") linearSearch), fcallNow (.search (str "a") (str "java") linearSearch)] ++
  fgoes 4 10 ++ fgoes 5 10 ++ [.sub 4 1, .sub 5 0, .sub 4 0, .sub 5 1, .sub 4 1, .sub 5 0, .sub 4 1, .sub 5 0, .sub 4 1, .sub 5 0,
    .sub 4 0, .sub 4 0, .sub 4 0, .sub 5 1, .sub 5 1, .sub 5 1] ++ fgoes 4 2 ++ fgoes 5 2

example : (fplayReturns fineSearches).map (fun r => r.1.map fun x => (match x with
      | some (.results l) => l.length
      | _ => 0)) = some [0, 0, 0, 0, 2, 2] := by decide +kernel

/-! ## C61 -/

/-- The only data races between goroutines of the process, whether they were started by the package or
not, are between a `Rename` and an `UnAlias`, on the alias table. -/
theorem C61_only_rename_unalias {c : FConfig} (hr : FineReachable cfg c) {t u : Tid} {g h : Agent} {v : Var}
    (hrace : c.race t u g h v) :
    (v = .aliases ∨ v = .arrays) ∧ ∃ x y, c.calls[t]? = some x ∧ c.calls[u]? = some y ∧
      ((x.op.isRename = true ∧ y.op.isUnAlias = true) ∨ (x.op.isUnAlias = true ∧ y.op.isRename = true)) := by
  obtain ⟨hne, x, y, hx, hy, hw, ho⟩ := hrace
  have := fine_race_only hr hne hx hy hw ho
  exact ⟨this.1, x, y, hx, hy, this.2.2.2⟩

/-- The goroutines a call starts never race with anything. -/
theorem C61_started_goroutines_never_race {c : FConfig} (hr : FineReachable cfg c) {t u : Tid} {g h : Agent} {v : Var}
    (hs : g ≠ none ∨ h ≠ none) : ¬ c.race t u g h v := by
  rintro ⟨hne, x, y, hx, hy, hw, ho⟩
  have := fine_race_only hr hne hx hy hw ho
  rcases hs with hs | hs
  · exact hs this.2.1
  · exact hs this.2.2.1

/-- Without `Rename`, or without `UnAlias`, there are no data races at all. -/
theorem C61_race_free {c : FConfig} (hr : FineReachable cfg c)
    (hcalls : (∀ x ∈ c.calls, x.op.isRename = false) ∨ ∀ x ∈ c.calls, x.op.isUnAlias = false)
    (t u : Tid) (g h : Agent) (v : Var) : ¬ c.race t u g h v := by
  intro hrace
  obtain ⟨_, x, y, hx, hy, ho⟩ := C61_only_rename_unalias hr hrace
  have hx := List.mem_of_getElem? hx
  have hy := List.mem_of_getElem? hy
  rcases hcalls with hc | hc
  · rcases ho with ⟨h, _⟩ | ⟨_, h⟩
    · rw [hc x hx] at h; cases h
    · rw [hc y hy] at h; cases h
  · rcases ho with ⟨_, h⟩ | ⟨h, _⟩
    · rw [hc y hy] at h; cases h
    · rw [hc x hx] at h; cases h

/-- Put x; Alias a x; then UnAlias is about to write the alias map while Rename is about to iterate over it. -/
def fineRace : List FSched :=
  [fcallNow (.put (str "x") docD)] ++ fgoes 0 13 ++ [fcallNow (.alias (str "a") (str "x"))] ++ fgoes 1 9 ++
  [fcallNow (.unAlias (str "a") (str "x")), fcallNow (.rename (str "x") (str "y"))] ++ fgoes 2 8 ++ fgoes 3 5

/-- And these races do occur. -/
theorem C61_rename_unalias_race : ∃ c, FineReachable sampleCfg c ∧ c.race 2 3 none none .aliases := by
  have key : ((FConfig.init.play sampleCfg fineRace).map fun c =>
      ((c.calls[2]?).bind (·.writes 2 none), (c.calls[3]?).bind (·.reads 3 none)))
      = some (some .aliases, some .aliases) := by decide +kernel
  cases hc : FConfig.init.play sampleCfg fineRace with
  | none => rw [hc] at key; cases key
  | some c =>
    rw [hc] at key
    simp only [Option.map_some, Option.some.injEq, Prod.mk.injEq, Option.bind_eq_some_iff] at key
    obtain ⟨⟨x, hx, h1⟩, y, hy, h2⟩ := key
    exact ⟨c, play_fsteps hc, Or.inl (by decide), x, y, hx, hy, h1, Or.inl h2⟩

/-- While the goroutines of a `Put` write two indices, each is about to write its own; while those of a
`Search` are at work, one appends to `result` and another reads an index. -/
example : (FConfig.init.play sampleCfg (fineSetup ++ [fcallNow (.put (str "a") docE)] ++ fgoes 4 13 ++ subs 4 [1])).bind
      (fun c => (c.calls[4]?).map fun x => (x.writes 4 (some 0), x.writes 4 (some 1), x.writes 4 none))
    = some (some (.index 0), some (.index 1), none) := by decide +kernel
example : (FConfig.init.play sampleCfg (fineSetup ++ [fcallNow (.search (str "a") (str "java") linearSearch)] ++ fgoes 4 10 ++
      subs 4 [1, 1])).bind
      (fun c => (c.calls[4]?).map fun x => (x.reads 4 (some 0), x.writes 4 (some 1), x.reads 4 none))
    = some (some (.index 0), some (.result 4), none) := by decide +kernel

/-! ## C62 -/

/-- As long as no finished call has kept a lock, and some call has not finished, some goroutine can take
a step. -/
theorem C62_no_deadlock {c : FConfig} (hr : FineReachable cfg c) (hl : ¬ c.leaked) {t : Tid} {x : FThread}
    (hx : c.calls[t]? = some x) (hrun : x.status = .running) : ∃ u, c.canMove cfg u := fine_no_deadlock hr hl hx hrun

/-- The goroutines cannot go on forever: there is no infinite execution without new calls. -/
theorem C62_goroutines_terminate (f : Nat → FConfig) : ¬ ∀ i, FMoves cfg (f i) (f (i + 1)) := by
  intro h
  have : ∀ c, ∀ i, f i ≠ c := by
    intro c
    induction c using (fine_moves_wf cfg).induction with
    | _ c ih =>
      intro i hi
      exact ih (f (i + 1)) (hi ▸ h i) (i + 1) rfl
  exact this _ 0 rfl

/-- So every state where nothing moves is one where all calls are over or a lock is leaked. -/
theorem C62_calls_complete {c : FConfig} (hr : FineReachable cfg c) (hstop : ∀ u, ¬ c.canMove cfg u) :
    (∀ x ∈ c.calls, x.status ≠ .running) ∨ c.leaked := by
  by_cases hl : c.leaked
  · exact Or.inr hl
  · refine Or.inl fun x hx hrun => ?_
    obtain ⟨t, ht⟩ := List.getElem?_of_mem hx
    obtain ⟨u, hu⟩ := C62_no_deadlock hr hl ht hrun
    exact hstop u hu

/-- A call that waits for its goroutines is never stuck, whatever locks are leaked: one of them can move,
or it can go on. -/
theorem C62_waiting_moves {c : FConfig} (hr : FineReachable cfg c) {t : Tid} {x : FThread}
    (hx : c.calls[t]? = some x) (hw : x.waiting = true) : c.canMove cfg t := by
  obtain ⟨d, G, hd, sim⟩ := sim_reachable hr
  obtain ⟨y, hy, _, _, hst⟩ := sim.call t x hx
  refine sim_canMove hd sim ?_
  obtain ⟨op, o, st⟩ := x
  obtain ⟨yop, yo, yp⟩ := y
  simp only at hst
  generalize G t = g at hst
  cases hst with
  | run p hp => cases hw
  | putting => exact canMove_of hy (by simp [exec])
  | searching => exact canMove_of hy (by simp [exec])

end Visigoth
