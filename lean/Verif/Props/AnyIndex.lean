import Verif.Proofs.AnyIndexAlone
import Verif.Proofs.AnyIndexBack
import Verif.Props.NoInvalid
import Verif.Props.ConcData
/-!
# C101: the repository works with any implementation of `Index`
-/
namespace Visigoth

variable {σ τ : Type}

/-- The methods of the repository that is given any indexes are those of the repository of memory indexes: with
the methods of the memory index written out, the programs are the same. -/
theorem C101_same_methods (cfg : Cfg) (op : Op) : op.iprog.withMemory cfg = op.prog cfg := withMemory_iprog cfg op

/-- Every execution of a repository of any indexes, with any interleaving of calls, is in step with an execution
of a repository of memory indexes with the same calls of the same methods with the same names: same names and
aliases, same holders of the mutexes, same number of index objects, and the same calls have returned the same or
panicked in the same way.  One can move on exactly if the other can. -/
theorem C101_any_index (I : IndexImpl σ) (xs : List Sched) (hs : NoString xs) :
    OptRel LooksLike ((IConfig.init σ).play I xs) (Config.init.play noCfg (xs.map (Sched.disguise I))) := by
  have h := inStep_play I xs _ _ hs (inStep_init I)
  revert h
  cases (IConfig.init σ).play I xs <;> cases Config.init.play noCfg (xs.map (Sched.disguise I)) <;> intro h
  · trivial
  · exact h
  · exact h
  · exact h.mirror.looks

theorem played_with (I : IndexImpl σ) {xs : List Sched} (hs : NoString xs) {c : IConfig σ}
    (hc : (IConfig.init σ).play I xs = some c) : ∃ c', InStep I c c' := by
  have h := inStep_play I xs _ _ hs (inStep_init I)
  rw [hc] at h
  revert h
  cases Config.init.play noCfg (xs.map (Sched.disguise I)) with
  | none => exact fun h => h.elim
  | some c' => exact fun h => ⟨c', h⟩

/-! ## Exchanging one implementation for another -/

theorem asEngine_same {I : IndexImpl σ} {J : IndexImpl τ} (h : SameAnswers I J) (terms : Str) (e : Engine) :
    I.asEngine terms e = J.asEngine terms e := by
  funext ts ix
  unfold IndexImpl.asEngine
  cases (List.range ix.len).filterMap ix.document with
  | nil => rfl
  | cons d ds => exact h _ _ _ terms e

theorem disguise_same {I : IndexImpl σ} {J : IndexImpl τ} (h : SameAnswers I J) : Sched.disguise I = Sched.disguise J := by
  funext x
  cases x with
  | go t => rfl
  | call op o =>
    cases op <;> first | rfl | skip
    show Sched.call (.search _ _ (I.asEngine _ _)) o = Sched.call (.search _ _ (J.asEngine _ _)) o
    rw [asEngine_same h]

/-- One implementation can be exchanged for another without anyone noticing, whatever the calls and however they
interleave, exactly if indexes with the same name and the same documents, at least one, answer every search
alike. -/
theorem C101_exchange_exact (I : IndexImpl σ) (J : IndexImpl τ) :
    (∀ xs, NoString xs → OptRel SameOutside ((IConfig.init σ).play I xs) ((IConfig.init τ).play J xs)) ↔
      SameAnswers I J := by
  constructor
  · intro H n d ds terms e
    have key : ∀ xs, NoString xs → ((IConfig.init σ).play I xs).map (fun c => c.calls.map IThread.status)
        = ((IConfig.init τ).play J xs).map fun c => c.calls.map IThread.status := by
      intro xs hx
      have := H xs hx
      revert this
      cases (IConfig.init σ).play I xs <;> cases (IConfig.init τ).play J xs <;> intro h
      · rfl
      · exact h.elim
      · exact h.elim
      · exact congrArg some h.calls
    have h3 := key (history n d ds ++ ([callNow (.search n terms e)] ++ goes (d :: ds).length 3))
      (noString_append (noString_history d ds) (noString_append (noString_call rfl) (noString_goes _ _)))
    have h4 := key (history n d ds ++ ([callNow (.search n terms e)] ++ goes (d :: ds).length 4))
      (noString_append (noString_history d ds) (noString_append (noString_call rfl) (noString_goes _ _)))
    rw [play_history, play_history] at h3 h4
    have hl : (d :: ds).length = (putsDone n (d :: ds)).length := by simp [putsDone]
    rw [hl] at h3 h4
    rw [(play_search _ _ terms e).1, (play_search _ _ terms e).1] at h3
    simp only [Option.some.injEq, List.append_cancel_left_eq, List.cons.injEq, and_true] at h3
    cases hI : I.search (I.after n (d :: ds)) terms e with
    | none =>
      rw [hI] at h3
      cases hJ : J.search (J.after n (d :: ds)) terms e with
      | none => rfl
      | some r => rw [hJ] at h3; cases h3
    | some r =>
      rw [hI] at h3
      cases hJ : J.search (J.after n (d :: ds)) terms e with
      | none => rw [hJ] at h3; cases h3
      | some r' =>
        rw [(play_search _ _ terms e).2 r hI, (play_search _ _ terms e).2 r' hJ] at h4
        simp only [Option.map_some, Option.some.injEq, List.map_append, List.map_cons, List.map_nil,
          List.append_cancel_left_eq, List.cons.injEq, and_true] at h4
        cases h4
        rfl
  · intro h xs hs
    have h1 := C101_any_index I xs hs
    have h2 := C101_any_index J xs hs
    rw [disguise_same h] at h1
    revert h1 h2
    cases (IConfig.init σ).play I xs <;> cases (IConfig.init τ).play J xs <;>
      cases Config.init.play noCfg (xs.map (Sched.disguise J)) <;> intro h1 h2
    · trivial
    · exact h1.elim
    · exact h2.elim
    · exact h1.elim
    · exact h1.elim
    · exact h2.elim
    · exact h1.elim
    · exact ⟨h1.indices.trans h2.indices.symm, h1.aliases.trans h2.aliases.symm, h1.arrays.trans h2.arrays.symm,
        h1.imu.trans h2.imu.symm, h1.amu.trans h2.amu.symm, h1.objs.trans h2.objs.symm, h1.calls.trans h2.calls.symm⟩

/-- An index that keeps the requests and reads them when it is searched. -/
def lazyImpl (cfg : Cfg) : IndexImpl (Name × List DocRequest) where
  make := fun n => (n, [])
  put := fun s d => (s.1, s.2 ++ [d])
  search := fun s terms e => (buildIndex cfg.tok s.1 s.2).search cfg.cp cfg.tok terms e

theorem lazy_after (cfg : Cfg) (n : Name) (ds : List DocRequest) : (lazyImpl cfg).after n ds = (n, ds) := by
  have : ∀ s, ds.foldl (lazyImpl cfg).put s = (s.1, s.2 ++ ds) := by
    induction ds with
    | nil => intro s; simp
    | cons d ds ih =>
      intro s
      rw [List.foldl_cons, ih]
      show (s.1, (s.2 ++ [d]) ++ ds) = _
      simp
  rw [IndexImpl.after, this]
  rfl

/-- The memory index can be exchanged for it. -/
example (cfg : Cfg) : SameAnswers (memoryImpl cfg) (lazyImpl cfg) := by
  intro n d ds terms e
  rw [lazy_after]
  rfl

/-- It cannot be exchanged for one that finds nothing. -/
example : ¬ SameAnswers (memoryImpl sampleCfg) { memoryImpl sampleCfg with search := fun _ _ _ => some [] } := by
  intro h
  have := h (str "x") docD [] (str "java") linearSearch
  revert this
  decide +kernel

/-! ## What an implementation can rely on -/

/-- While one call is about to `Put` to an index, no other call is about to `Put` to or to `Search` this or any
other index. -/
theorem C101_exclusive (I : IndexImpl σ) {xs : List Sched} (hs : NoString xs) {c : IConfig σ}
    (hc : (IConfig.init σ).play I xs = some c) {t u : Tid} {x y : IThread} (htu : t ≠ u)
    (hx : c.calls[t]? = some x) (hy : c.calls[u]? = some y) {p : Ptr} (hp : x.puts = some p) :
    y.puts = none ∧ y.searches = none := by
  obtain ⟨c', h⟩ := played_with I hs hc
  have hx' : c'.calls[t]? = some (x.mirror I) := by rw [h.mirror.calls, List.getElem?_map, hx]; rfl
  have hy' : c'.calls[u]? = some (y.mirror I) := by rw [h.mirror.calls, List.getElem?_map, hy]; rfl
  have hw : (x.mirror I).writes = some .indices := by
    obtain ⟨op, o, q⟩ := x
    cases q with
    | act a k => cases a <;> first | rfl | cases hp
    | _ => cases hp
  constructor
  · cases hq : y.puts with
    | none => rfl
    | some q =>
      exfalso
      refine (race_only h.reach htu hx' hy' hw (.inr ?_)).2 rfl
      obtain ⟨op, o, q⟩ := y
      cases q with
      | act a k => cases a <;> first | rfl | cases hq
      | _ => cases hq
  · cases hq : y.searches with
    | none => rfl
    | some q =>
      exfalso
      refine (race_only h.reach htu hx' hy' hw (.inl ?_)).2 rfl
      obtain ⟨op, o, q⟩ := y
      cases q with
      | act a k => cases a <;> first | rfl | cases hq
      | _ => cases hq

/-- Searches of the same index do overlap: `Search` has to be safe for that. -/
theorem C101_searches_overlap : ∃ xs c, NoString xs ∧ (IConfig.init _).play (memoryImpl sampleCfg) xs = some c ∧
    (c.calls.map IThread.searches) = [none, some 0, some 0] := by
  have key : ((IConfig.init _).play (memoryImpl sampleCfg) (history (str "x") docD [] ++
      ([callNow (.search (str "x") (str "java") linearSearch), callNow (.search (str "x") (str "go") linearSearch)] ++
        goes 1 2 ++ goes 2 2))).map (fun c => c.calls.map IThread.searches) = some [none, some 0, some 0] := by
    decide +kernel
  obtain ⟨c, h1, h2⟩ := Option.map_eq_some_iff.1 key
  refine ⟨_, c, noString_append (noString_history _ _) (noString_append (noString_append ?_ (noString_goes _ _))
    (noString_goes _ _)), h1, h2⟩
  exact noString_append (xs := [_]) (ys := [_]) (noString_call rfl) (noString_call rfl)

/-- An index about to be searched is the one the builder made for some name, after requests of `Put` calls, at
least one of them; it is not searched empty or in the middle. -/
theorem C101_search_sees_puts (I : IndexImpl σ) {xs : List Sched} (hs : NoString xs) {c : IConfig σ}
    (hc : (IConfig.init σ).play I xs = some c) {t : Tid} {x : IThread} (hx : c.calls[t]? = some x) {p : Ptr}
    (hp : x.searches = some p) : ∃ nm rs, c.sh.objs[p]? = some (I.after nm rs) ∧ rs ≠ [] ∧
      ∀ r ∈ rs, ∃ y ∈ c.calls, ∃ n, y.op = .put n r := by
  obtain ⟨c', h⟩ := played_with I hs hc
  have hx' : c'.calls[t]? = some (x.mirror I) := by rw [h.mirror.calls, List.getElem?_map, hx]; rfl
  obtain ⟨ts, e, k, hq⟩ : ∃ ts e k, (x.mirror I).prog = .act (.evalEngine p ts e) k := by
    obtain ⟨op, o, q⟩ := x
    cases q with
    | act a k =>
      cases a with
      | search q ts e =>
        simp only [IThread.searches, Option.some.injEq] at hp
        subst hp
        exact ⟨_, _, _, rfl⟩
      | _ => cases hp
    | _ => cases hp
  obtain ⟨nm, rs, h1, h2, h3⟩ := C48_search_sees_whole_puts h.reach hx' hq
  refine ⟨nm, rs.map fun r => unpackRequest r.content, ?_, by simpa using h3, ?_⟩
  · rw [h.mirror.objs, List.getElem?_map, h1, Option.map_some, IndexImpl.of, buildIndex_docs, List.map_map]
    congr 2
    have : ∀ rs : List DocRequest, (buildIndex noCfg.tok nm rs).name = nm := by
      intro rs
      induction rs using rev_ind with
      | h0 => rfl
      | h1 rs r ih => rw [buildIndex, List.foldl_append]; exact ih
    exact this rs
  · intro r hr
    obtain ⟨r', hr', rfl⟩ := List.mem_map.1 hr
    obtain ⟨y, hy, n, hop⟩ := h2 r' hr'
    rw [h.mirror.calls] at hy
    obtain ⟨z, hz, rfl⟩ := List.mem_map.1 hy
    refine ⟨z, hz, n, ?_⟩
    replace hop : z.op.disguise I = .put n r' := hop
    cases hzo : z.op <;> rw [hzo] at hop <;> simp only [Op.disguise, reduceCtorEq, Op.put.injEq] at hop
    obtain ⟨rfl, rfl⟩ := hop
    simp [disguised, unpack_pack]

/-! ## What holds of every implementation -/

/-- Which calls panic, and how, whatever the implementation: a `Put` with a nil index or an index it reaches
twice, a `Search` with a nil index or because the index panicked. -/
theorem C101_who_panics (I : IndexImpl σ) {xs : List Sched} (hs : NoString xs) {c : IConfig σ}
    (hc : (IConfig.init σ).play I xs = some c) {t : Tid} {x : IThread} {e : Crash} (hx : c.calls[t]? = some x)
    (he : x.status = .crashed e) : x.op.mayPanic e := by
  obtain ⟨c', h⟩ := played_with I hs hc
  have hx' : c'.calls[t]? = some (x.mirror I) := by rw [h.mirror.calls, List.getElem?_map, hx]; rfl
  have := C54_who_panics h.reach hx' (crashed_of ((mirror_status I x).trans he))
  obtain ⟨op, o, q⟩ := x
  cases op <;> exact this

/-- As long as no one calls `Rename`, no call panics unless the index does. -/
theorem C101_no_crash_without_rename (I : IndexImpl σ) {xs : List Sched} (hs : NoString xs) {c : IConfig σ}
    (hc : (IConfig.init σ).play I xs = some c) (hop : ∀ x ∈ c.calls, x.op.isRename = false) {t : Tid} {x : IThread}
    {e : Crash} (hx : c.calls[t]? = some x) (he : x.status = .crashed e) : e = .engine := by
  obtain ⟨c', h⟩ := played_with I hs hc
  have hx' : c'.calls[t]? = some (x.mirror I) := by rw [h.mirror.calls, List.getElem?_map, hx]; rfl
  refine C54_no_crash_without_rename h.reach ?_ hx' (crashed_of ((mirror_status I x).trans he))
  intro y hy
  rw [h.mirror.calls] at hy
  obtain ⟨z, hz, rfl⟩ := List.mem_map.1 hy
  have := hop z hz
  show (z.op.disguise I).isRename = false
  revert this
  cases z.op <;> exact id

/-- Unless some call that is over still holds a mutex, some running call can move. -/
theorem C101_no_deadlock (I : IndexImpl σ) {xs : List Sched} (hs : NoString xs) {c : IConfig σ}
    (hc : (IConfig.init σ).play I xs = some c)
    (hl : ∀ t x m, c.calls[t]? = some x → x.status ≠ .running → ¬ c.sh.sh.holds m t) {t : Tid} {x : IThread}
    (hx : c.calls[t]? = some x) (hrun : x.status = .running) : ∃ u, (c.next I (.go u)).isSome = true := by
  obtain ⟨c', h⟩ := played_with I hs hc
  have get : ∀ (t : Tid) y, c'.calls[t]? = some y → ∃ x, c.calls[t]? = some x ∧ y = x.mirror I := by
    intro t y hy
    rw [h.mirror.calls, List.getElem?_map] at hy
    obtain ⟨x, h1, h2⟩ := Option.map_eq_some_iff.1 hy
    exact ⟨x, h1, h2.symm⟩
  have run : ∀ x : IThread, (x.mirror I).running ↔ x.status = .running := by
    intro x
    obtain ⟨op, o, q⟩ := x
    cases q with
    | act a k => cases a <;> simp [IThread.mirror, IProg.mirror, Thread.running, IThread.status]
    | _ => simp [IThread.mirror, IProg.mirror, Thread.running, IThread.status]
  have hx' : c'.calls[t]? = some (x.mirror I) := by rw [h.mirror.calls, List.getElem?_map, hx]; rfl
  have hmu : ∀ m t, c'.sh.holds m t → c.sh.sh.holds m t := by
    intro m t hh
    rw [h.mirror.sh] at hh
    cases m <;> exact hh
  obtain ⟨u, c'', hstep⟩ := no_deadlock h.reach (by
    rintro ⟨t, y, m, hy, hnr, hh⟩
    obtain ⟨z, hz, rfl⟩ := get t y hy
    exact hl t z m hz (fun hr => hnr ((run z).2 hr)) (hmu m t hh)) hx' ((run x).2 hrun)
  refine ⟨u, ?_⟩
  have hn : ((c'.next noCfg (.go u))).isSome = true := by
    cases hstep with
    | act hg he => simp [Config.next, hg, he]
    | crash hg he => simp [Config.next, hg, he]
  have hm := mirror_next I h.reach h.filled h.mirror (.go u) (fun _ _ e => by cases e)
  revert hm
  cases c.next I (.go u) with
  | some d => intro _; rfl
  | none =>
    show OptRel _ none (c'.next noCfg (.go u)) → _
    cases hh : c'.next noCfg (.go u) with
    | some d => exact fun h => h.elim
    | none => rw [hh] at hn; cases hn

deriving instance DecidableEq for Status

/-! ## The `Index` that `Put` returns -/

/-- An implementation whose `Put` returns a new `Index` and leaves the receiver as it was. -/
def persistentImpl (cfg : Cfg) : IndexImpl MemoryIndex := { memoryImpl cfg with put := fun s _ => s }

/-- The signature `Put(doc) Index` invites such an implementation, but the repository ignores what `Put` returns
(repos_repo.go:224, 232): every document is lost, and every `Put` still succeeds. -/
theorem C101_returned_index_ignored (cfg : Cfg) (n : Name) (ds : List DocRequest) :
    (persistentImpl cfg).after n ds = newMemoryIndex n := by
  have : ∀ s, ds.foldl (persistentImpl cfg).put s = s := by
    induction ds with
    | nil => intro s; rfl
    | cons d ds ih => intro s; exact ih s
  exact this _

example : ((IConfig.init _).play (persistentImpl sampleCfg) (history (str "x") docD [] ++
      ([callNow (.search (str "x") (str "java") linearSearch)] ++ goes 1 4))).map (fun c => c.calls.map IThread.status)
    = some [.returned .unit, .returned (.results [])] := by
  decide +kernel

/-- With the memory index the document is found. -/
example : ((IConfig.init _).play (memoryImpl sampleCfg) (history (str "x") docD [] ++
      ([callNow (.search (str "x") (str "java") linearSearch)] ++ goes 1 4))).map (fun c => c.calls.map IThread.status)
    = some [.returned .unit, .returned (.results [{ document := newDoc (str "d") (str "java"), hits := 1 }])] := by
  decide +kernel

/-- Two puts, an alias, and a search that has to wait: something is stuck, and something can move. -/
example : ((IConfig.init _).play (lazyImpl sampleCfg) (history (str "x") docD [docE] ++
      [callNow (.alias (str "a") (str "x"))] ++ goes 2 9 ++ [callNow (.put (str "x") docD)] ++ goes 3 6 ++
      [callNow (.search (str "a") (str "java") linearSearch)])).map (fun c =>
        (c.calls.map IThread.status, c.calls.map IThread.puts, (c.next (lazyImpl sampleCfg) (.go 4)).isSome,
          (c.next (lazyImpl sampleCfg) (.go 3)).isSome))
    = some ([.returned .unit, .returned .unit, .returned (.bool true), .running, .running],
        [none, none, none, some 0, none], false, true) := by
  decide +kernel

end Visigoth
