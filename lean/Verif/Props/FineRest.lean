import Verif.Props.FineContents
import Verif.Props.Reach
import Verif.Props.Snapshot
/-!
# C47, C50, C59 and C77 with interleaved goroutines
-/
namespace Visigoth

variable {cfg : Cfg}

/-! ## C47 -/

/-- `op` is a call of the execution between `c` and `c'`: at `c` it is under way or not yet made. -/
def FConfig.since (c c' : FConfig) (op : Op) : Prop :=
  ∃ (u : Tid) (x' : FThread), c'.calls[u]? = some x' ∧ x'.op = op ∧ ∀ x, c.calls[u]? = some x → x.status = .running

theorem alike_since {c c' : FConfig} {d d' : Config} (al : Alike c d) (al' : Alike c' d') {op : Op} (h : d.since d' op) : c.since c' op := by
  obtain ⟨u, y', hy', rfl, h3⟩ := h
  obtain ⟨x', hx', sc'⟩ := alike_back al' hy'
  refine ⟨u, x', hx', sc'.op.symm, fun x hx => ?_⟩
  obtain ⟨y, hy, sc⟩ := al.calls _ x hx
  exact sc.status.symm.trans (status_running.1 (h3 y hy))

/-- The rows that `ListAliases` has returned, looked at twice: an entry has changed only by calls of `Rename` that have been
under way since the first look. -/
theorem C47_rows_follow_renames_goroutines {c c' : FConfig} (hr : FineReachable cfg c) (hs : FSteps cfg c c') {t : Tid} {x : FThread}
    {rows : List (Name × SliceRef)} (hx : c.calls[t]? = some x) (hop : x.op = .listAliases) (hret : x.status = .returned (.rows rows)) :
    ∀ e ∈ rows, EntriesRenamed (c.since c') (c.sh.elems e.2) (c'.sh.elems e.2) := by
  obtain ⟨d, d', hd, hs', al, al'⟩ := fine_two hr hs
  obtain ⟨z, hz, sc⟩ := al.calls _ x hx
  intro e he
  rw [alike_elems al, alike_elems al']
  obtain ⟨h1, h2⟩ := (C47_rows_follow_renames hd hs' hz (sc.op.trans hop) (returned_of (sc.status.trans hret))).2 e he
  exact ⟨h1, fun j v w hv hw => (h2 j v w hv hw).mono fun _ => alike_since al al'⟩

/-- The same of a slice that is in the alias table at the first look. -/
theorem C47_table_follows_renames_goroutines {c c' : FConfig} (hr : FineReachable cfg c) (hs : FSteps cfg c c') {n : Name} {q : SliceRef}
    (hq : c.sh.aliases.get n = some q) : EntriesRenamed (c.since c') (c.sh.elems q) (c'.sh.elems q) := by
  obtain ⟨d, d', hd, hs', al, al'⟩ := fine_two hr hs
  rw [alike_elems al, alike_elems al']
  obtain ⟨H, G, P, i, v⟩ := rowsInv_reachable hd
  obtain ⟨h1, h2⟩ := (rowsInv_entries i v hs' (v.table.vals n q (al.aliases ▸ hq))).1
  exact ⟨h1, fun j v w hv hw => (h2 j v w hv hw).mono fun _ => alike_since al al'⟩

/-- A `Rename` under way has rewritten the row of `a` that `ListAliases` returned before. -/
example : ((FConfig.init.play sampleCfg ([fcallNow (.put (str "x") docD)] ++ fgoes 0 13 ++ [fcallNow (.alias (str "a") (str "x"))] ++ fgoes 1 9 ++
        [fcallNow .listAliases] ++ fgoes 2 4)).bind fun c =>
      (c.play sampleCfg ([fcallNow (.rename (str "x") (str "z"))] ++ fgoes 3 9)).map fun c' =>
        match (c.calls[2]?).map FThread.status with
        | some (Status.returned (.rows rows)) => rows.map fun e => (c.sh.elems e.2, c'.sh.elems e.2)
        | _ => [])
    = some [([str "x"], [str "z"])] := by decide +kernel

/-! ## C50 -/

theorem alike_holds {c : FConfig} {d : Config} (h : Alike c d) (m : Mu) (t : Tid) : c.sh.holds m t ↔ d.sh.holds m t := by
  cases m <;> simp [Shared.holds, Shared.mu, h.imu, h.amu]

/-- A mutex that a finished call holds is never released. -/
theorem C50_lock_never_released_goroutines {c c' : FConfig} (hr : FineReachable cfg c) {t : Tid} {x : FThread} {m : Mu}
    (hx : c.calls[t]? = some x) (hrun : x.status ≠ .running) (hh : c.sh.holds m t) (hs : FSteps cfg c c') : c'.sh.holds m t := by
  obtain ⟨d, d', _, hs', al, al'⟩ := fine_two hr hs
  obtain ⟨y, hy, sc⟩ := al.calls t x hx
  rw [alike_holds al']
  exact C50_lock_never_released hy (fun h => hrun (sc.status.symm.trans (status_running.1 h))) ((alike_holds al m t).1 hh) hs'

/-- An `UnAlias` of an index that has returned false holds a mutex. -/
theorem C50_false_leaks_goroutines {c : FConfig} (hr : FineReachable cfg c) {t : Tid} {x : FThread} {al i : Name}
    (hx : c.calls[t]? = some x) (hop : x.op = .unAlias al i) (hi : i ≠ []) (hret : x.status = .returned (.bool false)) :
    t ∈ c.sh.imu.readers ∨ c.sh.amu.writer = some t := by
  obtain ⟨d, hd, al'⟩ := fine_alike hr
  obtain ⟨y, hy, sc⟩ := al'.calls t x hx
  rw [al'.imu, al'.amu]
  exact C50_false_leaks hd hy (sc.op.trans hop) hi (returned_of (sc.status.trans hret))

/-! ## C77 -/

/-- What is stored in an index stays stored in it. -/
theorem C77_stays_stored_goroutines {c c' : FConfig} (hs : FSteps cfg c c') {p : Ptr} {d : DocRequest} (h : Stored cfg d c.sh p) :
    Stored cfg d c'.sh p := by
  obtain ⟨mi, i, h1, h2, h3⟩ := h
  obtain ⟨mi', g1, _, ⟨l, hl⟩, g4⟩ := C77_only_appended_goroutines hs h1
  refine ⟨mi', i, g1, ?_, ?_⟩
  · rw [← hl, List.getElem?_append_left (List.getElem?_eq_some_iff.1 h2).1, h2]
  · intro w hw
    obtain ⟨k, k1, k2⟩ := h3 w hw
    obtain ⟨k', k3, k4⟩ := g4 w k k1
    exact ⟨k', k3, k4.subset k2⟩

/-- It is found: while no call is writing, `LinearSearch` of the index with words of the statement returns the document. -/
theorem C77_stored_is_found_goroutines {c : FConfig} (hr : FineReachable cfg c) (hq : c.unwritten) {p : Ptr} {d : DocRequest}
    (h : Stored cfg d c.sh p) {ts : Str} (hne : cfg.tok ts ≠ []) (hts : ∀ w ∈ cfg.tok ts, w ∈ cfg.tok d.statement) :
    ∃ mi l, c.sh.heap[p]? = some mi ∧ mi.search cfg.cp cfg.tok ts linearSearch = some l ∧
      ∃ e ∈ l, e.document = newDoc d.id d.raw := by
  obtain ⟨d', hd, al⟩ := fine_alike hr
  unfold Stored at h
  rw [al.heap hq] at h ⊢
  exact C77_stored_is_found hd ((alike_unwritten al).1 hq) h hne hts

/-! ## C59 -/

/-- Several points of an execution. -/
theorem atomic_chain {n : Nat} {ok : Op → Prop} {R : Config → AConfig → Prop}
    (hR : ∀ c A c', R c A → (∀ x ∈ c'.calls.drop n, ok x.op) → Step cfg c c' → ∃ A', ASteps cfg A A' ∧ R c' A') :
    ∀ (ds : List Config) {d : Config} {A : AConfig}, R d A → Successive (Steps cfg) (d :: ds) →
      (∀ c ∈ ds, ∀ x ∈ c.calls.drop n, ok x.op) → ∃ As, Successive (ASteps cfg) (A :: As) ∧ As.length = ds.length ∧
        ∀ (i : Nat) c K, (d :: ds)[i]? = some c → (A :: As)[i]? = some K → R c K
  | [], d, A, h, _, _ => ⟨[], trivial, rfl, fun i c K hc hK => by
      cases i with
      | zero => cases hc; cases hK; exact h
      | succ i => simp at hc⟩
  | d1 :: ds, d, A, h, ⟨hs, hc⟩, hok => by
    have one : ∀ {d' : Config}, Steps cfg d d' → (∀ x ∈ d'.calls.drop n, ok x.op) → ∃ A', ASteps cfg A A' ∧ R d' A' := by
      intro d' hs
      induction hs with
      | refl => exact fun _ => ⟨A, .refl _, h⟩
      | tail _ hs ih =>
        intro hok
        obtain ⟨A1, h1, h2⟩ := ih (step_new (P := ok) hs hok)
        obtain ⟨A2, h3, h4⟩ := hR _ _ _ h2 hok hs
        exact ⟨A2, h1.trans h3, h4⟩
    obtain ⟨A1, h1, h2⟩ := one hs (hok d1 List.mem_cons_self)
    obtain ⟨As, g1, g2, g3⟩ := atomic_chain hR ds h2 hc fun c hc => hok c (List.mem_cons_of_mem _ hc)
    refine ⟨A1 :: As, ⟨h1, g1⟩, by simp [g2], fun i c K hc hK => ?_⟩
    cases i with
    | zero => cases hc; cases hK; exact h
    | succ i => exact g3 i c K hc hK

/-- Any number of points of an execution from `c0` on, as long as the new calls satisfy `ok`, agree with points, in the same
order, of an execution of atomic steps; `S` says what else is the same at each point. -/
def FineAtomic (cfg : Cfg) (S : FConfig → AConfig → Prop) (c0 : FConfig) (ok : Op → Prop) : Prop :=
  ∀ cs, Successive (FSteps cfg) (c0 :: cs) → (∀ c ∈ cs, ∀ x ∈ c.calls.drop c0.calls.length, ok x.op) →
    ∃ A0 As, Successive (ASteps cfg) (A0 :: As) ∧ As.length = cs.length ∧
      ∀ (i : Nat) c A, (c0 :: cs)[i]? = some c → (A0 :: As)[i]? = some A → FineObserved cfg c A ∧ A.succession cfg ∧ S c A

theorem fine_atomic {S : FConfig → AConfig → Prop} {T : Config → AConfig → Prop} (hST : ∀ c d A, Alike c d → T d A → S c A)
    {c0 : FConfig} (hc : FineReachable cfg c0) {ok : Op → Prop}
    (h : ∀ d0, ConcReachable cfg d0 → Alike c0 d0 → ∃ (R : Config → AConfig → Prop) (A0 : AConfig), R d0 A0 ∧
      (∀ c A, R c A → Observed cfg c A ∧ A.succession cfg ∧ T c A) ∧
      ∀ c A c', R c A → (∀ x ∈ c'.calls.drop d0.calls.length, ok x.op) → Step cfg c c' → ∃ A', ASteps cfg A A' ∧ R c' A') :
    FineAtomic cfg S c0 ok := by
  intro cs hcs hok
  obtain ⟨ds, h1, h2, h3⟩ := fine_chain (cs := c0 :: cs) ⟨hc, hcs⟩
  match ds, h2, h1, h3 with
  | d0 :: ds, h2, ⟨h0, h1⟩, h3 =>
    have h2 : ds.length = cs.length := by simpa using h2
    have al0 := h3 0 _ _ rfl rfl
    obtain ⟨R, A0, r0, hR, hstep⟩ := h d0 h0 al0
    obtain ⟨As, g1, g2, g3⟩ := atomic_chain hstep ds r0 h1 (by
      intro d hd
      obtain ⟨i, hi, rfl⟩ := List.mem_iff_getElem.1 hd
      have hi' : i < cs.length := h2 ▸ hi
      have al := h3 (i + 1) cs[i] ds[i] (by simp [hi']) (by simp [hi])
      exact alike_new al (P := ok) (al0.len ▸ hok cs[i] (List.getElem_mem _)))
    refine ⟨A0, As, g1, g2.trans h2, fun i c A hi hA => ?_⟩
    have hlt : i < (d0 :: ds).length := by
      have := (List.getElem?_eq_some_iff.1 hi).1
      simpa [h2] using this
    have hd : (d0 :: ds)[i]? = some (d0 :: ds)[i] := List.getElem?_eq_getElem hlt
    have al := h3 i c _ hi hd
    obtain ⟨k1, k2, k3⟩ := hR _ _ (g3 i _ A hd hA)
    exact ⟨alike_observed al k1, k2, hST _ _ _ al k3⟩

/-- What the caller sees in results, the slices in the rows of `ListAliases` included; see `RowsShown`. -/
def FineRowsShown (c : FConfig) (A : AConfig) : Prop :=
  ∀ (t : Nat) x r, c.calls[t]? = some x → x.status = .returned r → A.tasks[t]? = some (x.op, .over (r.view c.sh))

/-- From any state at rest, whatever was called before, and with interleaved goroutines: as long as no `Rename` is called the
execution is one of atomic steps, the slices in the rows of `ListAliases` included. -/
theorem C59_rest_without_rename_goroutines {c0 : FConfig} (hr : FineReachable cfg c0) (hq : c0.quiet) :
    FineAtomic cfg FineRowsShown c0 fun op => op.isRename = false :=
  fine_atomic (T := RowsShown) (fun c d A al ho t x r hx hr => by
    obtain ⟨y, hy, sc⟩ := al.calls t x hx
    have e : r.view c.sh = r.view d.sh := by cases r <;> simp [Ret.view, funext (alike_elems al)]
    rw [← sc.op, e]
    exact ho t y r hy (returned_of (sc.status.trans hr))) hr fun d0 hd al => by
    obtain ⟨R, A0, h1, h2, h3⟩ := C59_rest_without_rename hd (alike_quiet al hq)
    exact ⟨R, A0, h1, fun c A h => ⟨(h2 c A h).1, (h2 c A h).2.2, (h2 c A h).2.1⟩, h3⟩

/-- The same as long as no `UnAlias` is called, except for the slices in the rows. -/
theorem C59_rest_without_unAlias_goroutines {c0 : FConfig} (hr : FineReachable cfg c0) (hq : c0.quiet) :
    FineAtomic cfg (fun _ _ => True) c0 fun op => op.isUnAlias = false :=
  fine_atomic (T := fun _ _ => True) (fun _ _ _ _ _ => trivial) hr fun d0 hd al => by
    obtain ⟨R, A0, h1, h2, h3⟩ := C59_rest_without_unAlias hd (alike_quiet al hq)
    exact ⟨R, A0, h1, fun c A h => ⟨(h2 c A h).1, (h2 c A h).2, trivial⟩, h3⟩

/-- Two points of an execution: a `Put` has stored its document, then `UnAlias` keeps a lock. -/
example : ((FConfig.init.play sampleCfg ([fcallNow (.put (str "x") docD)] ++ fgoes 0 13)).bind fun c =>
      (c.play sampleCfg ([fcallNow (.unAlias (str "al") (str "y"))] ++ fgoes 1 2)).map fun c' =>
        (c.sh.heap.map (·.docs.map (·.name)), c'.sh.heap.map (·.docs.map (·.name)), c.sh.imu.readers, c'.sh.imu.readers))
    = some ([[str "d"]], [[str "d"]], [], [1]) := by decide +kernel

/-- At the first nobody is running; at the second `UnAlias` has returned false. -/
example : ((FConfig.init.play sampleCfg ([fcallNow (.put (str "x") docD)] ++ fgoes 0 13)).bind fun c =>
      (c.play sampleCfg ([fcallNow (.unAlias (str "al") (str "y"))] ++ fgoes 1 2)).map fun c' =>
        (c.calls.map fun x => match x.status with | .running => true | _ => false,
          c'.calls.map fun x => match x.status with | .returned (.bool b) => some b | _ => none))
    = some ([false], [none, some false]) := by decide +kernel

end Visigoth
