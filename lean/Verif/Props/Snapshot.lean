import Verif.Proofs.Snapshot
import Verif.Props.FineMore
/-!
# What becomes of the rows of `ListAliases` while other calls run (C47)

`C47_snapshot_partial` and `C47_guard_exact` are about calls that run one after the other.  Here any number of
calls run at once.
-/
namespace Visigoth

variable {cfg : Cfg}

/-- The rows that `ListAliases` returns were the alias table at one moment during the call. -/
theorem C47_moment {c : Config} (hr : ConcReachable cfg c) {t : Tid} {x : Thread} {rows : List (Name × SliceRef)}
    (hx : c.calls[t]? = some x) (hop : x.op = .listAliases) (hret : x.prog = .ret (.rows rows)) :
    ∃ s, Meanwhile cfg t c s ∧ RowsOf rows s := by
  obtain ⟨H, g, _, v⟩ := listInv_reachable hr (t := t) (fun y hy => by rw [hx] at hy; cases hy; exact hop)
  have h1 := v.prog x hx
  rw [hret] at h1
  obtain ⟨s, rows', rfl, hr', hs⟩ := h1
  cases hr'
  exact ⟨s, v.mode, hs⟩

/-- From the moment at which it is in the alias table, a slice is only changed by calls of `Rename`: at each step,
by a running `Rename old new` that puts `new` where there is `old`. -/
theorem C47_only_rename_rewrites {c c1 c2 : Config} (hr : ConcReachable cfg c) {n : Name} {q : SliceRef}
    (hq : c.sh.aliases.get n = some q) (h1 : Steps cfg c c1) (h2 : Step cfg c1 c2) : StepRewrites c1 c2 q := by
  obtain ⟨H, G, P, i, v⟩ := rowsInv_reachable hr
  obtain ⟨_, H1, G1, P1, i1, v1, hq1⟩ := rowsInv_entries i v h1 (v.table.vals n q hq)
  obtain ⟨_, _, _, _, _, _, h⟩ := rowsInv_step i1 v1 h2
  exact h q hq1

/-- The rows that `ListAliases` has returned were the alias table at a moment of the call, and whatever else runs,
an entry differs from what it was then, or from what it was when last looked at, only by calls of `Rename` that
have been under way since. -/
theorem C47_rows_follow_renames {c c' : Config} (hr : ConcReachable cfg c) (hs : Steps cfg c c') {t : Tid} {x : Thread}
    {rows : List (Name × SliceRef)} (hx : c.calls[t]? = some x) (hop : x.op = .listAliases) (hret : x.prog = .ret (.rows rows)) :
    (∃ c0 y, ConcReachable cfg c0 ∧ Steps cfg c0 c ∧ c0.calls[t]? = some y ∧ y.running ∧ RowsOf rows c0.sh ∧
      ∀ e ∈ rows, EntriesRenamed (c0.since c') (c0.sh.elems e.2) (c'.sh.elems e.2)) ∧
    ∀ e ∈ rows, EntriesRenamed (c.since c') (c.sh.elems e.2) (c'.sh.elems e.2) := by
  obtain ⟨s, ⟨c0, y, h0, h1, h2, h3, rfl⟩, hrows⟩ := C47_moment hr hx hop hret
  obtain ⟨H, G, P, i, v⟩ := rowsInv_reachable h0
  refine ⟨⟨c0, y, h0, h1, h2, h3, hrows, fun e he => ?_⟩, fun e he => ?_⟩
  · exact (rowsInv_entries i v (steps_trans h1 hs) (v.table.vals _ _ (hrows.2 e he))).1
  · obtain ⟨_, H1, G1, P1, i1, v1, hq1⟩ := rowsInv_entries i v h1 (v.table.vals _ _ (hrows.2 e he))
    exact (rowsInv_entries i1 v1 hs hq1).1

/-- C47 for any number of calls at once, as long as no `Rename` is under way when `ListAliases` returns and none is
called afterwards.  Missing: executions with such a `Rename`, for which `C47_rows_follow_renames` is what is left of
the claim and `C47_refuted` shows that it is false. -/
theorem C47_concurrent_snapshot_partial {c c' : Config} (hr : ConcReachable cfg c) (hs : Steps cfg c c') {t : Tid} {x : Thread}
    {rows : List (Name × SliceRef)} (hx : c.calls[t]? = some x) (hop : x.op = .listAliases) (hret : x.prog = .ret (.rows rows))
    (hren : ∀ op, c.since c' op → op.isRename = false) : ∀ e ∈ rows, c'.sh.elems e.2 = c.sh.elems e.2 :=
  fun e he => entries_none hren ((C47_rows_follow_renames hr hs hx hop hret).2 e he)

/-- If no call of `Rename` is made at all, the rows are and stay the alias table of a moment of the call. -/
theorem C47_concurrent_table_partial {c : Config} (hr : ConcReachable cfg c) {t : Tid} {x : Thread}
    {rows : List (Name × SliceRef)} (hx : c.calls[t]? = some x) (hop : x.op = .listAliases) (hret : x.prog = .ret (.rows rows))
    (hren : ∀ y ∈ c.calls, y.op.isRename = false) :
    ∃ s, Meanwhile cfg t c s ∧ RowsOf rows s ∧ ∀ e ∈ rows, c.sh.elems e.2 = s.elems e.2 := by
  obtain ⟨⟨c0, y, h0, h1, h2, h3, h4, h5⟩, _⟩ := C47_rows_follow_renames hr (.refl c) hx hop hret
  refine ⟨c0.sh, ⟨c0, y, h0, h1, h2, h3, rfl⟩, h4, fun e he => entries_none ?_ (h5 e he)⟩
  rintro op ⟨u, z, hz, rfl, _⟩
  exact hren z (List.mem_of_getElem? hz)

/-- `C47_concurrent_snapshot_partial` with interleaved goroutines; the condition is on the calls of the second
configuration: they are over in the first one or not of `Rename`. -/
theorem C47_goroutines_snapshot_partial {c c' : FConfig} (hr : FineReachable cfg c) (hs : FSteps cfg c c') {t : Tid} {x : FThread}
    {rows : List (Name × SliceRef)} (hx : c.calls[t]? = some x) (hop : x.op = .listAliases) (hret : x.status = .returned (.rows rows))
    (hren : ∀ (u : Tid) y', c'.calls[u]? = some y' → y'.op.isRename = true → ∃ y, c.calls[u]? = some y ∧ y.status ≠ .running) :
    ∀ e ∈ rows, c'.sh.elems e.2 = c.sh.elems e.2 := by
  obtain ⟨d, d', hd, hs', al, al'⟩ := fine_two hr hs
  obtain ⟨z, hz, sc⟩ := al.calls _ x hx
  intro e he
  rw [alike_elems al, alike_elems al']
  refine C47_concurrent_snapshot_partial hd hs' hz (sc.op.trans hop) (returned_of (sc.status.trans hret)) ?_ e he
  rintro op ⟨u, y', hy', rfl, h3⟩
  cases hb : y'.op.isRename with
  | false => rfl
  | true =>
    obtain ⟨z', hz', sc'⟩ := alike_back al' hy'
    obtain ⟨y, hy, hn⟩ := hren u z' hz' (by rw [← sc'.op]; exact hb)
    obtain ⟨w, hw, scw⟩ := al.calls _ y hy
    exact absurd ((scw.status.symm.trans (status_running.1 (h3 w hw)))) hn

/-! ## Executions -/

/-- The aliases `a` and `b` of `x`. -/
def twoAliases : List Sched :=
  [callNow (.put (str "x") docD)] ++ goes 0 13 ++ [callNow (.alias (str "a") (str "x"))] ++ goes 1 9 ++
    [callNow (.alias (str "b") (str "x"))] ++ goes 2 9

/-- What the rows of call `t` show. -/
def Config.shown (c : Config) (t : Tid) : List (Name × List Name) :=
  match (c.endings[t]?).join with
  | some (.inl (.rows rows)) => rows.map fun e => (e.1, c.sh.elems e.2)
  | _ => []

/-- While a `Rename` is under way, rows that `ListAliases` had returned before it was called show neither the table
before nor the one after it. -/
theorem C47_torn : ∃ c1 c2 c3 : Config, ConcReachable sampleCfg c1 ∧ Steps sampleCfg c1 c2 ∧ Steps sampleCfg c2 c3 ∧
    c1.shown 3 = [(str "a", [str "x"]), (str "b", [str "x"])] ∧ c1.calls.length = 4 ∧
    c2.shown 3 = [(str "a", [str "z"]), (str "b", [str "x"])] ∧
    c3.shown 3 = [(str "a", [str "z"]), (str "b", [str "z"])] := by
  have p1 : (Config.init.play sampleCfg (twoAliases ++ [callNow .listAliases] ++ goes 3 5)).map (fun c => (c.shown 3, c.calls.length))
      = some ([(str "a", [str "x"]), (str "b", [str "x"])], 4) := by decide +kernel
  have p2 : (Config.init.play sampleCfg ((twoAliases ++ [callNow .listAliases] ++ goes 3 5) ++
        ([callNow (.rename (str "x") (str "z"))] ++ goes 4 9))).map (·.shown 3)
      = some [(str "a", [str "z"]), (str "b", [str "x"])] := by decide +kernel
  have p3 : (Config.init.play sampleCfg (((twoAliases ++ [callNow .listAliases] ++ goes 3 5) ++
        ([callNow (.rename (str "x") (str "z"))] ++ goes 4 9)) ++ goes 4 4)).map (·.shown 3)
      = some [(str "a", [str "z"]), (str "b", [str "z"])] := by decide +kernel
  obtain ⟨c1, h1, s1⟩ := play_fact p1
  rw [play_append, play_append, h1, Option.bind_some] at p3
  rw [play_append, h1, Option.bind_some] at p2
  obtain ⟨c2, h2, s2⟩ := play_fact p2
  rw [h2, Option.bind_some] at p3
  obtain ⟨c3, h3, s3⟩ := play_fact p3
  exact ⟨c1, c2, c3, play_steps h1, play_steps h2, play_steps h3, congrArg Prod.fst s1, congrArg Prod.snd s1, s2, s3⟩

/-- An `UnAlias` that overtakes `ListAliases` leaves the rows alone: the call looked at the table before. -/
example : (Config.init.play sampleCfg (twoAliases ++ [callNow .listAliases] ++ goes 3 3 ++ [callNow (.unAlias (str "a") (str "x"))] ++
      goes 4 2 ++ goes 3 2 ++ goes 4 8)).map (fun c => (c.shown 3, (c.sh.aliases.get (str "a")).map c.sh.elems))
    = some ([(str "a", [str "x"]), (str "b", [str "x"])], some []) := by decide +kernel

/-- Without `Rename`, as in `C59_real_time_rows`: while a `ListAliases` reads the table, an `UnAlias` has looked up its
index; it then empties the list of `b`.  The rows still show what they showed. -/
example : (Config.init.play sampleCfg (twoAliases ++ [callNow (.unAlias (str "b") (str "x")), callNow .listAliases] ++ goes 3 3 ++ goes 4 5)).map
    (fun c => (c.shown 4, c.endings[3]?)) = some ([(str "a", [str "x"]), (str "b", [str "x"])], some none) := by decide +kernel
example : (Config.init.play sampleCfg (twoAliases ++ [callNow (.unAlias (str "b") (str "x")), callNow .listAliases] ++ goes 3 3 ++ goes 4 5 ++
      goes 3 7 ++ [callNow .listAliases] ++ goes 5 5)).map
    (fun c => (c.shown 4, c.shown 5)) = some ([(str "a", [str "x"]), (str "b", [str "x"])], [(str "a", [str "x"]), (str "b", [])]) := by decide +kernel

end Visigoth
