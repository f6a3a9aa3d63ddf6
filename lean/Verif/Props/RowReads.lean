import Verif.Proofs.RowReads
import Verif.Props.Methods
/-!
# Going through the rows of `ListAliases` without a lock (C95)

`ListAliases` returns the slices of the alias table themselves.  A caller who goes through them reads cells of backing
arrays that calls may write at the same time.
-/
namespace Visigoth

variable {cfg : Cfg}

/-- The only cell of the arrays there are that an action can change is the one that `Act.cell` names. -/
theorem C95_cells {o : Oracle} {t : Tid} {β : Type} {a : Act β} {s s' : Shared} {b : β} (he : exec cfg o t a s = .ok b s')
    {j i : Nat} {x : List Name} (hx : s.arrays[j]? = some x) (hc : a.cell s ≠ some (j, i)) :
    ∃ x', s'.arrays[j]? = some x' ∧ x'[i]? = x[i]? := exec_cell he hx hc

/-- C95 as claimed, for a configuration of the package. -/
def RowsReadable (cfg : Cfg) : Prop := ∀ c t u, ConcReachable cfg c → ¬ c.rowRace t u

/-- The only calls that write into rows that `ListAliases` has returned are those of `Rename`, and they do so where the
row lists the old name.  In particular no `Alias` that appends in place does. -/
theorem C95_only_rename_writes {c : Config} (hr : ConcReachable cfg c) {t u : Tid} {x y : Thread} {rows : List (Name × SliceRef)}
    (hx : c.calls[t]? = some x) (hop : x.op = .listAliases) (hret : x.prog = .ret (.rows rows)) (hy : c.calls[u]? = some y)
    {e : Name × SliceRef} (he : e ∈ rows) {i : Nat} (hi : i < e.2.len) (hw : y.cell c.sh = some (e.2.arr, i)) :
    ∃ old new, y.op = .rename old new ∧ (c.sh.elems e.2)[i]? = some old :=
  rows_cell hr hx hop hret hy he hi hw

/-- C95 as long as no `Rename` is under way.  Missing: the calls of `Rename`, with which there are races
(`C95_refuted`). -/
theorem C95_no_race_partial {c : Config} (hr : ConcReachable cfg c) {t u : Tid} (hrace : c.rowRace t u) :
    ∃ y old new, c.calls[u]? = some y ∧ y.running ∧ y.op = .rename old new := by
  obtain ⟨x, y, rows, ⟨j, i⟩, hx, hop, hret, hy, hw, e, he, hj, hi⟩ := hrace
  simp only at hj hi
  subst hj
  obtain ⟨old, new, h, -⟩ := rows_cell hr hx hop hret hy he hi hw
  refine ⟨y, old, new, hy, ?_, h⟩
  unfold Thread.cell at hw
  unfold Thread.running
  split at hw
  · next hp => rw [hp]; trivial
  · cases hw

/-- The same with interleaved goroutines: the agent that writes is the caller of `Rename`, never a goroutine that the
package has started. -/
theorem C95_no_race_goroutines_partial {c : FConfig} (hr : FineReachable cfg c) {t u : Tid} {g : Agent} (hrace : c.rowRace t u g) :
    g = none ∧ ∃ y old new, c.calls[u]? = some y ∧ y.status = .running ∧ y.op = .rename old new := by
  obtain ⟨x, y, rows, ⟨j, i⟩, hx, hop, hret, hy, hw, e, he, hj, hi⟩ := hrace
  simp only at hj hi
  subst hj
  obtain ⟨rfl, old, new, h, -⟩ := fine_cell hr hx hop hret hy he hi hw
  refine ⟨rfl, y, old, new, hy, ?_, h⟩
  unfold FThread.cell at hw
  unfold FThread.status
  simp only at hw
  split at hw
  · next hp => rw [hp]
  · cases hw

/-- Two aliases of `x`, rows that show both, and a `Rename`. -/
def rowRaceSetup : List Sched :=
  twoAliases ++ [callNow .listAliases] ++ goes 3 5 ++ [callNow (.rename (str "x") (str "z"))]

/-- The rows that call `t` has returned. -/
def Config.rows (c : Config) (t : Tid) : Option (List (Name × SliceRef)) :=
  match c.calls[t]? with
  | some ⟨.listAliases, _, .ret (.rows rows)⟩ => some rows
  | _ => none

theorem Config.rows_eq {c : Config} {t : Tid} {rows : List (Name × SliceRef)} (h : c.rows t = some rows) :
    ∃ x, c.calls[t]? = some x ∧ x.op = .listAliases ∧ x.prog = .ret (.rows rows) := by
  unfold Config.rows at h
  split at h
  · next hc => cases h; exact ⟨_, hc, rfl, rfl⟩
  · cases h

/-- False: a `Rename` is about to write into a row that `ListAliases` had returned before it was called. -/
theorem C95_refuted : ¬ RowsReadable sampleCfg := by
  intro h
  have key : (Config.init.play sampleCfg (rowRaceSetup ++ goes 4 8)).map
      (fun c => (c.rows 3, (c.calls[4]?).bind (·.cell c.sh)))
      = some (some [(str "a", ⟨0, 1⟩), (str "b", ⟨1, 1⟩)], some (0, 0)) := by decide +kernel
  obtain ⟨c, hc, hf⟩ := play_fact key
  simp only [Prod.mk.injEq, Option.bind_eq_some_iff] at hf
  obtain ⟨h1, y, hy, h2⟩ := hf
  obtain ⟨x, hx, hop, hret⟩ := Config.rows_eq h1
  exact h c 3 4 (play_steps hc) ⟨x, y, _, _, hx, hop, hret, hy, h2, _, List.mem_cons_self, rfl, Nat.one_pos⟩

set_option synthInstance.maxSize 1024 in
/-- Exactly which methods can be used while rows are read: all sets that leave out one of `Put`, `Alias`, `ListAliases`
and `Rename`. -/
theorem C95_methods_exact (M : Method → Prop) :
    (∀ cfg c t u, ReachableWith cfg M c → ¬ c.rowRace t u) ↔ ¬ (M .put ∧ M .alias ∧ M .listAliases ∧ M .rename) := by
  constructor
  · rintro h ⟨hp, ha, hl, hn⟩
    have key : (Config.init.play sampleCfg (rowRaceSetup ++ goes 4 8)).map
        (fun c => (c.calls.map (·.op.method), c.rows 3, (c.calls[4]?).bind (·.cell c.sh)))
        = some ([.put, .alias, .alias, .listAliases, .rename], some [(str "a", ⟨0, 1⟩), (str "b", ⟨1, 1⟩)], some (0, 0)) := by
      decide +kernel
    obtain ⟨c, hc, hf⟩ := play_fact key
    simp only [Prod.mk.injEq, Option.bind_eq_some_iff] at hf
    obtain ⟨h0, h1, y, hy, h2⟩ := hf
    obtain ⟨x, hx, hop, hret⟩ := Config.rows_eq h1
    exact h sampleCfg c 3 4 ⟨play_steps hc, methods_of h0 (by simp [hp, ha, hl, hn])⟩
      ⟨x, y, _, _, hx, hop, hret, hy, h2, _, List.mem_cons_self, rfl, Nat.one_pos⟩
  · rintro h cfg c t u ⟨hr, hM⟩ hrace
    obtain ⟨y, old, new, hy, -, hren⟩ := C95_no_race_partial hr hrace
    have hn : M .rename := by
      have := hM y (List.mem_of_getElem? hy)
      rwa [hren] at this
    obtain ⟨x, -, rows, -, hx, hop, hret, -, -, e, he, -⟩ := hrace
    have hl : M .listAliases := by
      have := hM x (List.mem_of_getElem? hx)
      rwa [hop] at this
    obtain ⟨noI, hm⟩ := mute_of (M := M) (by
      by_cases hp : M .put
      · exact .inr fun ha => h ⟨hp, ha, hl, hn⟩
      · exact .inl hp)
    obtain ⟨s, ⟨c0, y, h0, h1, h2, h3, rfl⟩, hrows⟩ := C47_moment hr hx hop hret
    have hM0 := ops_of_steps (P := fun op => M op.method) h1 hM
    have := hrows.2 e he
    rw [(mute_reachable h0 fun y hy => hm _ (hM0 y hy)).aliases] at this
    cases this

/-- An `Alias` that appends in place to the array of a row: it is about to write the cell behind the row. -/
example : (Config.init.play sampleCfg ([callNow (.put (str "x") docD)] ++ goes 0 13 ++ [callNow (.put (str "y") docD)] ++ goes 1 13 ++
      [.call (.alias (str "a") (str "x")) reverseOracle] ++ goes 2 9 ++ [callNow .listAliases] ++ goes 3 4 ++
      [.call (.alias (str "a") (str "y")) reverseOracle] ++ goes 4 6)).map
        (fun c => (c.rows 3, (c.calls[4]?).bind (·.cell c.sh)))
    = some (some [(str "a", ⟨0, 1⟩)], some (0, 1)) := by decide +kernel

end Visigoth
