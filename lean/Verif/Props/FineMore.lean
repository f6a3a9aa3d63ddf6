import Verif.Props.Fine
import Verif.Props.ConcAtomic
/-!
# Whole executions with interleaved goroutines (C60), and what follows for them

The theorems about concurrent calls in `Props/Conc.lean`, `Props/ConcData.lean` and
`Props/ConcAtomic.lean`, for executions in which every goroutine of every call is interleaved with
everything else.
-/
namespace Visigoth

variable {cfg : Cfg}

/-! ## C60 -/

/-- Any number of points of an execution look like points, in the same order, of one execution in which
the goroutines of a call run one after the other. -/
theorem C60_executions {cs : List FConfig} (h : Successive (FSteps cfg) (FConfig.init :: cs)) :
    ∃ ds : List Config, Successive (Steps cfg) (Config.init :: ds) ∧ ds.length = cs.length ∧
      ∀ (i : Nat) c d, cs[i]? = some c → ds[i]? = some d → Alike c d := fine_chain h

/-- And conversely. -/
theorem C60_executions_converse {ds : List Config} (h : Successive (Steps cfg) (Config.init :: ds)) :
    ∃ cs : List FConfig, Successive (FSteps cfg) (FConfig.init :: cs) ∧ cs.length = ds.length ∧
      ∀ (i : Nat) c d, cs[i]? = some c → ds[i]? = some d → Alike c d ∧ c.sh = d.sh := by
  obtain ⟨cs, h1, h2, h3⟩ := comatch_chain ds (.refl _) comatch_init h
  exact ⟨cs, h1, h2, fun i c d hc hd => ⟨comatch_alike (h3 i c d hc hd), (h3 i c d hc hd).sh⟩⟩

/-! ## What looks alike -/

theorem alike_unwritten {c : FConfig} {d : Config} (h : Alike c d) : c.unwritten ↔ d.unwritten := by
  unfold FConfig.unwritten Config.unwritten
  rw [h.imu]
  constructor
  · intro hw t y hy hrun
    have hl : t < c.calls.length := by rw [h.len]; exact (List.getElem?_eq_some_iff.1 hy).1
    obtain ⟨y', hy', sc⟩ := h.calls t _ (List.getElem?_eq_getElem hl)
    rw [hy] at hy'; cases hy'
    exact hw t _ (List.getElem?_eq_getElem hl) (sc.status.symm.trans (status_running.1 hrun))
  · intro hw t x hx hrun
    obtain ⟨y, hy, sc⟩ := h.calls t x hx
    exact hw t y hy (status_running.2 (sc.status.trans hrun))

/-- Every call of the second configuration has a counterpart. -/
theorem alike_back {c : FConfig} {d : Config} (h : Alike c d) {t : Tid} {y : Thread} (hy : d.calls[t]? = some y) :
    ∃ x, c.calls[t]? = some x ∧ SameCall x y := by
  have hl : t < c.calls.length := by rw [h.len]; exact (List.getElem?_eq_some_iff.1 hy).1
  obtain ⟨y', hy', sc⟩ := h.calls t _ (List.getElem?_eq_getElem hl)
  rw [hy] at hy'; cases hy'
  exact ⟨_, List.getElem?_eq_getElem hl, sc⟩

theorem alike_quiet {c : FConfig} {d : Config} (h : Alike c d) (hq : c.quiet) : d.quiet := by
  intro y hy hrun
  obtain ⟨t, ht⟩ := List.getElem?_of_mem hy
  obtain ⟨x, hx, sc⟩ := alike_back h ht
  exact hq x (List.mem_of_getElem? hx) (sc.status.symm.trans (status_running.1 hrun))

theorem alike_all {c : FConfig} {d : Config} (h : Alike c d) {P : Op → Status → Prop} (hc : ∀ x ∈ c.calls, P x.op x.status) :
    ∀ y ∈ d.calls, P y.op y.status := by
  intro y hy
  obtain ⟨t, ht⟩ := List.getElem?_of_mem hy
  obtain ⟨x, hx, sc⟩ := alike_back h ht
  rw [sc.op, sc.status]; exact hc x (List.mem_of_getElem? hx)

theorem alike_new {c : FConfig} {d : Config} (h : Alike c d) {N : Nat} {P : Op → Prop} (hc : ∀ x ∈ c.calls.drop N, P x.op) :
    ∀ y ∈ d.calls.drop N, P y.op := by
  intro y hy
  obtain ⟨t, ht⟩ := List.getElem?_of_mem hy
  rw [List.getElem?_drop] at ht
  obtain ⟨x, hx, sc⟩ := alike_back h ht
  rw [sc.op]
  refine hc x (List.mem_of_getElem? (i := t) ?_)
  rw [List.getElem?_drop]; exact hx

theorem returned_of {y : Thread} {r : Ret} (h : y.status = .returned r) : y.prog = .ret r := by
  unfold Thread.status at h
  split at h <;> simp_all

theorem crashed_of {y : Thread} {e : Crash} (h : y.status = .crashed e) : y.prog = .crash e := by
  unfold Thread.status at h
  split at h <;> simp_all

/-- What an outcome has put into `n`. -/
def putOutcome (n : Name) : Op × Status → Option DocRequest
  | (.put m d, .returned _) => if m = n then some d else none
  | _ => none

theorem putsReturned_outcomes (n : Name) (calls : List Thread) :
    putsReturned n calls = (calls.map fun y => (y.op, y.status)).filterMap (putOutcome n) := by
  rw [List.filterMap_map]
  unfold putsReturned
  congr 1; funext y
  obtain ⟨op, o, p⟩ := y
  cases op <;> first | rfl | (cases p <;> rfl)

theorem finePutsReturned_outcomes (n : Name) (calls : List FThread) :
    finePutsReturned n calls = (calls.map fun y => (y.op, y.status)).filterMap (putOutcome n) := by
  rw [List.filterMap_map]
  unfold finePutsReturned
  congr 1; funext y
  simp only [Function.comp]
  generalize y.op = op
  generalize y.status = st
  cases op <;> first | rfl | (cases st <;> rfl)

theorem alike_puts {c : FConfig} {d : Config} (h : Alike c d) (n : Name) (N : Nat) :
    finePutsReturned n (c.calls.drop N) = putsReturned n (d.calls.drop N) := by
  rw [putsReturned_outcomes, finePutsReturned_outcomes, List.map_drop, List.map_drop]
  rw [show c.calls.map (fun y : FThread => (y.op, y.status)) = d.calls.map (fun y : Thread => (y.op, y.status)) from alike_outcomes h]

theorem alike_elems {c : FConfig} {d : Config} (h : Alike c d) (r : SliceRef) : c.sh.elems r = d.sh.elems r := by
  unfold Shared.elems
  rw [h.arrays]

/-! ## C48 -/

/-- Whenever a goroutine started by `Search` is about to evaluate the engine on an index, that index is
the result of a whole number of complete `Put`s, at least one, of requests that calls of the execution put. -/
theorem C48_goroutine_sees_whole_puts {c : FConfig} (h : FineReachable cfg c) {t : Tid} {x : FThread} (hx : c.calls[t]? = some x)
    {result : List SearchResult} {rl : Option Nat} {gs : List Searcher} {ts : Str} {e : Engine} {k : List SearchResult → FProg Ret}
    (hst : x.st = .searching result rl gs ts e k) {p : Ptr} (hp : .start p ∈ gs) :
    ∃ nm rs, c.sh.heap[p]? = some (buildIndex cfg.tok nm rs) ∧ (∀ r ∈ rs, ∃ y ∈ c.calls, ∃ n, y.op = .put n r) ∧ rs ≠ [] :=
  fine_eval h hx hst hp

/-- Two goroutines of a `Search` are about to evaluate, while a `Put` waits for the mutex. -/
example : (FConfig.init.play sampleCfg (fineSetup ++ [fcallNow (.search (str "a") (str "java") linearSearch),
      fcallNow (.put (str "x") docE)] ++ fgoes 4 10 ++ subs 4 [1])).bind
      (fun c => (c.calls[4]?).map fun x => (x.reads 4 (some 0), x.reads 4 (some 1)))
    = some (some (.index 0), none) := by decide +kernel

/-! ## C49, C50 -/

/-- Only `UnAlias` given an index and returning false, or a call that panicked, can have kept a lock. -/
theorem C49_who_leaks_goroutines {c : FConfig} (hr : FineReachable cfg c) {t : Tid} {x : FThread} {m : Mu}
    (hx : c.calls[t]? = some x) (hrun : x.status ≠ .running) (hh : c.sh.holds m t) :
    (∃ al i, x.op = .unAlias al i ∧ i ≠ [] ∧ x.status = .returned (.bool false)) ∨ ∃ e, x.status = .crashed e := by
  obtain ⟨d, hd, al⟩ := fine_alike hr
  obtain ⟨y, hy, sc⟩ := al.calls t x hx
  have hh' : d.sh.holds m t := by
    cases m <;> simpa [Shared.holds, Shared.mu, al.imu, al.amu] using hh
  rcases C49_who_leaks hd hy (fun h => hrun (sc.status.symm.trans (status_running.1 h))) hh' with ⟨a, i, h1, h2, h3⟩ | ⟨e, h⟩
  · exact .inl ⟨a, i, sc.op.symm.trans h1, h2, sc.status.symm.trans (by rw [Thread.status, h3])⟩
  · exact .inr ⟨e, sc.status.symm.trans (by rw [Thread.status, h])⟩

/-- After a finished call kept the index mutex for reading, no later `Put` or `Rename` returns and no
later `Drop` returns true, in any interleaving of calls and goroutines. -/
theorem C50_reader_leak_blocks_goroutines {c c' : FConfig} {t u : Tid} {x y : FThread} {r : Ret} (hr : FineReachable cfg c)
    (hx : c.calls[t]? = some x) (hrun : x.status ≠ .running) (hh : t ∈ c.sh.imu.readers) (hs : FSteps cfg c c')
    (hu : c.calls.length ≤ u) (hy : c'.calls[u]? = some y) (hret : y.status = .returned r) : ¬ needsI y.op r := by
  obtain ⟨d, d', _, hs', al, al'⟩ := fine_two hr hs
  obtain ⟨x', hx', sx⟩ := al.calls t x hx
  obtain ⟨y', hy', sy⟩ := al'.calls u y hy
  rw [← sy.op]
  exact C50_reader_leak_blocks hx' (fun h => hrun (sx.status.symm.trans (status_running.1 h))) (by rw [← al.imu]; exact hh) hs'
    (by rw [← al.len]; exact hu) hy' (returned_of (sy.status.trans hret))

/-- After a finished call kept the alias mutex for writing, no later call gives a result that needs the
alias table. -/
theorem C50_writer_leak_blocks_goroutines {c c' : FConfig} {t u : Tid} {x y : FThread} {r : Ret} (hr : FineReachable cfg c)
    (hx : c.calls[t]? = some x) (hrun : x.status ≠ .running) (hh : c.sh.amu.writer = some t) (hs : FSteps cfg c c')
    (hu : c.calls.length ≤ u) (hy : c'.calls[u]? = some y) (hret : y.status = .returned r) : ¬ needsA y.op r := by
  obtain ⟨d, d', _, hs', al, al'⟩ := fine_two hr hs
  obtain ⟨x', hx', sx⟩ := al.calls t x hx
  obtain ⟨y', hy', sy⟩ := al'.calls u y hy
  rw [← sy.op]
  exact C50_writer_leak_blocks hx' (fun h => hrun (sx.status.symm.trans (status_running.1 h))) (by rw [← al.amu]; exact hh) hs'
    (by rw [← al.len]; exact hu) hy' (returned_of (sy.status.trans hret))

/-! ## C52 -/

/-- `C52_puts_kept_partial` with interleaved goroutines.  Not covered: `Put`s that create the index (see `C52_lone_put_kept_goroutines_partial`). -/
theorem C52_puts_kept_goroutines_partial {c0 c1 : FConfig} (hr : FineReachable cfg c0) {n : Name} {p : Ptr}
    (hn : c0.sh.indices.get n = some p)
    (hq0 : ∀ x ∈ c0.calls, x.status = .running → ¬ x.op.binds n ∧ ¬ x.op.unbinds n) (hs : FSteps cfg c0 c1)
    (hm : ∀ x ∈ c1.calls.drop c0.calls.length, ¬ x.op.moves n) (hq1 : c1.unwritten) :
    c1.sh.indices.get n = some p ∧ ∃ nm1 rs0 rs1 extra,
      (c0.unwritten → ∃ nm0, c0.sh.heap[p]? = some (buildIndex cfg.tok nm0 rs0)) ∧
      c1.sh.heap[p]? = some (buildIndex cfg.tok nm1 rs1) ∧
      rs1.Perm (rs0 ++ finePutsReturned n (c1.calls.drop c0.calls.length) ++ extra) := by
  obtain ⟨d0, d1, hd, hs', al0, al1⟩ := fine_two hr hs
  have hN := al0.len
  rw [al0.indices] at hn
  rw [hN] at hm ⊢
  obtain ⟨g1, nm1, rs0, rs1, ex, g2, g3, g4⟩ := C52_puts_kept_partial hd hn
    (fun y hy hrun => alike_all al0 (P := fun op st => st = .running → ¬ op.binds n ∧ ¬ op.unbinds n) hq0 y hy (status_running.1 hrun))
    hs' (alike_new al1 (P := fun op => ¬ op.moves n) hm) ((alike_unwritten al1).1 hq1)
  refine ⟨by rw [al1.indices]; exact g1, nm1, rs0, rs1, ex, fun hw => ?_, by rw [al1.heap hq1]; exact g3, ?_⟩
  · rw [al0.heap hw]; exact g2 ((alike_unwritten al0).1 hw)
  · rw [alike_puts al1]; exact g4

/-- `C52_search_sees_puts_partial` with interleaved goroutines.  Same restriction. -/
theorem C52_search_sees_puts_goroutines_partial {c0 c1 c2 : FConfig} (hr : FineReachable cfg c0) {n : Name} {p : Ptr}
    (hn : c0.sh.indices.get n = some p) (hq0 : ∀ x ∈ c0.calls, x.status = .running → ¬ x.op.binds n ∧ ¬ x.op.unbinds n)
    (hs : FSteps cfg c0 c1) (hs' : FSteps cfg c1 c2) (hm : ∀ x ∈ c2.calls.drop c0.calls.length, ¬ x.op.moves n)
    {u : Tid} {y : FThread} {ts : Str} {e : Engine} {r : Ret} (hu : c1.calls.length ≤ u) (hy : c2.calls[u]? = some y)
    (hop : y.op = .search n ts e) (hret : y.status = .returned r) :
    ∃ rs0 rs extra l, (c0.unwritten → ∃ nm0, c0.sh.heap[p]? = some (buildIndex cfg.tok nm0 rs0)) ∧
      rs.Perm (rs0 ++ finePutsReturned n (c1.calls.drop c0.calls.length) ++ extra) ∧
      specSearch cfg rs ts e = some l ∧ r = .results l := by
  obtain ⟨d0, d1, d2, hd, hs1, hs2, al0, al1, al2⟩ := fine_three hr hs hs'
  have hN := al0.len
  rw [al0.indices] at hn
  rw [hN] at hm ⊢
  obtain ⟨y', hy', sc⟩ := al2.calls u y hy
  obtain ⟨rs0, rs, ex, l, g1, g2, g3, g4⟩ := C52_search_sees_puts_partial hd hn
    (fun y hy hrun => alike_all al0 (P := fun op st => st = .running → ¬ op.binds n ∧ ¬ op.unbinds n) hq0 y hy (status_running.1 hrun))
    hs1 hs2 (alike_new al2 (P := fun op => ¬ op.moves n) hm) (by rw [← al1.len]; exact hu) hy' (sc.op.trans hop)
    (returned_of (sc.status.trans hret))
  refine ⟨rs0, rs, ex, l, fun hw => ?_, by rw [alike_puts al1]; exact g2, g3, g4⟩
  rw [al0.heap hw]; exact g1 ((alike_unwritten al0).1 hw)

/-- `C52_lone_put_kept_partial` with interleaved goroutines.  Not covered: `Put`s that overlap another `Put` to
their name, and `Put`s through an alias. -/
theorem C52_lone_put_kept_goroutines_partial {c0 c1 c2 : FConfig} (hr : FineReachable cfg c0) {n : Name} {d : DocRequest}
    (hq0 : ∀ x ∈ c0.calls, x.status = .running → ¬ x.op.binds n ∧ ¬ x.op.unbinds n) (hs : FSteps cfg c0 c1)
    {x : FThread} {r : Ret} (hx : c1.calls[c0.calls.length]? = some x) (hop : x.op = .put n d) (hret : x.status = .returned r)
    (hnew : ∀ y ∈ c1.calls.drop (c0.calls.length + 1), ¬ y.op.binds n ∧ ¬ y.op.unbinds n)
    (hal : ∀ y ∈ c1.calls, ∀ i, y.op ≠ .alias n i) (hs' : FSteps cfg c1 c2)
    (hm : ∀ y ∈ c2.calls.drop c1.calls.length, ¬ y.op.moves n) (hq2 : c2.unwritten) :
    ∃ p nm rs extra, c2.sh.indices.get n = some p ∧ c2.sh.heap[p]? = some (buildIndex cfg.tok nm rs) ∧ d ∈ rs ∧
      rs.Perm (finePutsReturned n (c2.calls.drop c0.calls.length) ++ extra) := by
  obtain ⟨d0, d1, d2, hd, hs1, hs2, al0, al1, al2⟩ := fine_three hr hs hs'
  have hN := al0.len
  rw [al1.len] at hm
  rw [hN] at hx hnew ⊢
  obtain ⟨x', hx', sc⟩ := al1.calls _ x hx
  obtain ⟨p, nm, rs, ex, g1, g2, g3, g4⟩ := C52_lone_put_kept_partial hd
    (fun y hy hrun => alike_all al0 (P := fun op st => st = .running → ¬ op.binds n ∧ ¬ op.unbinds n) hq0 y hy (status_running.1 hrun))
    hs1 hx' (sc.op.trans hop) (returned_of (sc.status.trans hret))
    (alike_new al1 (P := fun op => ¬ op.binds n ∧ ¬ op.unbinds n) hnew)
    (fun y hy => alike_all al1 (P := fun op _ => ∀ i, op ≠ .alias n i) hal y hy) hs2
    (alike_new al2 (P := fun op => ¬ op.moves n) hm) ((alike_unwritten al2).1 hq2)
  exact ⟨p, nm, rs, ex, by rw [al2.indices]; exact g1, by rw [al2.heap hq2]; exact g2, g3, by rw [alike_puts al2]; exact g4⟩

/-- A `Put` through an alias starts two goroutines while a `Put` to one of the indices waits; both
documents are there. -/
example : fplayReturns (fineSetup ++ [fcallNow (.put (str "a") docE), fcallNow (.put (str "x") docE)] ++ fgoes 5 3 ++ fgoes 4 13 ++
      subs 4 [1, 0, 0, 1] ++ fgoes 4 2 ++ fgoes 5 3 ++ subs 5 [0, 0] ++ fgoes 5 2)
    = some ([some .unit, some .unit, some (.bool true), some (.bool true), some .unit, some .unit],
        [[str "d", str "e", str "e"], [str "d", str "e"]]) := by decide +kernel

/-! ## C53 -/

/-- `C53_one_of_two_partial` with interleaved goroutines.  Not covered: overlapping `Drop`s. -/
theorem C53_one_of_two_goroutines_partial {c0 c1 c2 : FConfig} (hr : FineReachable cfg c0) {n : Name}
    (hover : ∀ x ∈ c0.calls, x.op.binds n → x.status ≠ .running) (hs : FSteps cfg c0 c1) (hs' : FSteps cfg c1 c2)
    (hnew : ∀ x ∈ c2.calls.drop c0.calls.length, ¬ x.op.binds n)
    {t u : Tid} {x y : FThread} (ht : c0.calls.length ≤ t) (hx : c1.calls[t]? = some x) (hxo : x.op = .drop n)
    (hxr : x.status = .returned (.bool true)) (hu : c1.calls.length ≤ u) (hy : c2.calls[u]? = some y) (hyo : y.op = .drop n) :
    y.status ≠ .returned (.bool true) := by
  intro hyr
  obtain ⟨d0, d1, d2, hd, hs1, hs2, al0, al1, al2⟩ := fine_three hr hs hs'
  obtain ⟨x', hx', sx⟩ := al1.calls t x hx
  obtain ⟨y', hy', sy⟩ := al2.calls u y hy
  have hN := al0.len
  rw [hN] at hnew
  exact C53_one_of_two_partial hd
    (fun y hy hb hrun => alike_all al0 (P := fun op st => op.binds n → st ≠ .running) hover y hy hb (status_running.1 hrun))
    hs1 hs2 (alike_new al2 (P := fun op => ¬ op.binds n) hnew) (by rw [← hN]; exact ht) hx' (sx.op.trans hxo)
    (returned_of (sx.status.trans hxr)) (by rw [← al1.len]; exact hu) hy' (sy.op.trans hyo) (returned_of (sy.status.trans hyr))

/-! ## C54 -/

/-- Without `Rename` no call and no goroutine ever panics, unless an engine does. -/
theorem C54_no_crash_without_rename_goroutines {c : FConfig} (hr : FineReachable cfg c) (hop : ∀ x ∈ c.calls, x.op.isRename = false)
    {t : Tid} {x : FThread} {e : Crash} (hx : c.calls[t]? = some x) (he : x.status = .crashed e) : e = .engine := by
  obtain ⟨d, hd, al⟩ := fine_alike hr
  obtain ⟨y, hy, sc⟩ := al.calls t x hx
  exact C54_no_crash_without_rename hd (alike_all al (P := fun op _ => op.isRename = false) hop) hy (crashed_of (sc.status.trans he))

/-- Without `Rename` every alias lists distinct existing indices whenever no call is running. -/
theorem C54_no_dangling_without_rename_goroutines {c : FConfig} (hr : FineReachable cfg c)
    (hop : ∀ x ∈ c.calls, x.op.isRename = false) (hq : c.quiet) {al : Name} {r : SliceRef} (hal : c.sh.aliases.get al = some r) :
    (c.sh.elems r).Nodup ∧ ∀ i ∈ c.sh.elems r, (c.sh.indices.get i).isSome = true := by
  obtain ⟨d, hd, al'⟩ := fine_alike hr
  rw [alike_elems al', al'.indices]
  rw [al'.aliases] at hal
  exact C54_no_dangling_without_rename hd (alike_all al' (P := fun op _ => op.isRename = false) hop) (alike_quiet al' hq) hal

/-! ## C59 -/

/-- What can be seen of an execution with interleaved goroutines agrees with an execution of atomic
steps; see `Observed`. -/
structure FineObserved (cfg : Cfg) (c : FConfig) (A : AConfig) : Prop where
  calls : A.tasks.map (·.1) = c.calls.map (·.op)
  returned : ∀ (t : Nat) x r, c.calls[t]? = some x → x.status = .returned r →
    ∃ v, A.tasks[t]? = some (x.op, .over v) ∧ r.agrees v
  crashed : ∀ (t : Nat) x e, c.calls[t]? = some x → x.status = .crashed e → A.tasks[t]? = some (x.op, .dead e)
  state : c.quiet → Shows cfg c.sh A.st

theorem alike_observed {c : FConfig} {d : Config} {A : AConfig} (h : Alike c d) (ho : Observed cfg d A) : FineObserved cfg c A := by
  refine ⟨?_, ?_, ?_, ?_⟩
  · rw [ho.calls]
    have := congrArg (List.map Prod.fst) (alike_outcomes h)
    simp only [FConfig.outcomes, Config.outcomes, List.map_map] at this
    exact this.symm
  · intro t x r hx hr
    obtain ⟨y, hy, sc⟩ := h.calls t x hx
    rw [← sc.op]
    exact ho.returned t y r hy (returned_of (sc.status.trans hr))
  · intro t x e hx he
    obtain ⟨y, hy, sc⟩ := h.calls t x hx
    rw [← sc.op]
    exact ho.crashed t y e hy (crashed_of (sc.status.trans he))
  · intro hq
    have hs := ho.state (alike_quiet h hq)
    have hh := h.heap fun t x hx hrun => absurd hrun (hq x (List.mem_of_getElem? hx))
    exact ⟨fun n => by rw [h.indices]; exact hs.index n, fun p rs hp => by rw [hh]; exact hs.objs p rs hp, hs.bound,
      fun n => by rw [h.aliases, funext (alike_elems h)]; exact hs.aliases n⟩

/-- Two points of an execution with interleaved goroutines: there are two points of one execution of
atomic steps that agree with them. -/
theorem C59_real_time_goroutines {c c' : FConfig} (hr : FineReachable cfg c) (hs : FSteps cfg c c')
    (h : (∀ x ∈ c'.calls, x.op.isRename = false) ∨ (∀ x ∈ c'.calls, x.op.isUnAlias = false)) :
    ∃ A A', AReachable cfg A ∧ ASteps cfg A A' ∧ FineObserved cfg c A ∧ FineObserved cfg c' A' := by
  obtain ⟨d, d', hd, hs', al, al'⟩ := fine_two hr hs
  obtain ⟨A, A', h1, h2, h3, h4⟩ := C59_real_time hd hs' (h.imp
    (fun h => alike_all al' (P := fun op _ => op.isRename = false) h) (fun h => alike_all al' (P := fun op _ => op.isUnAlias = false) h))
  exact ⟨A, A', h1, h2, alike_observed al h3, alike_observed al' h4⟩

/-- Without `Rename` the slices in the rows of `ListAliases` agree as well, at both points. -/
theorem C59_real_time_rows_goroutines {c c' : FConfig} (hr : FineReachable cfg c) (hs : FSteps cfg c c')
    (h : ∀ x ∈ c'.calls, x.op.isRename = false) :
    ∃ A A', AReachable cfg A ∧ ASteps cfg A A' ∧ FineObserved cfg c A ∧ FineObserved cfg c' A' ∧
      (∀ (t : Nat) x r, c.calls[t]? = some x → x.status = .returned r → A.tasks[t]? = some (x.op, .over (r.view c.sh))) ∧
      ∀ (t : Nat) x r, c'.calls[t]? = some x → x.status = .returned r → A'.tasks[t]? = some (x.op, .over (r.view c'.sh)) := by
  have key : ∀ {c : FConfig} {d : Config} {A : AConfig}, Alike c d → RowsShown d A → ∀ (t : Nat) x r, c.calls[t]? = some x →
      x.status = .returned r → A.tasks[t]? = some (x.op, .over (r.view c.sh)) := by
    intro c d A h ho t x r hx hr
    obtain ⟨y, hy, sc⟩ := h.calls t x hx
    have e : r.view c.sh = r.view d.sh := by cases r <;> simp [Ret.view, funext (alike_elems h)]
    rw [← sc.op, e]
    exact ho t y r hy (returned_of (sc.status.trans hr))
  obtain ⟨d, d', hd, hs', al, al'⟩ := fine_two hr hs
  obtain ⟨A, A', h1, h2, h3, h4, h5, h6⟩ := C59_real_time_rows hd hs' (alike_all al' (P := fun op _ => op.isRename = false) h)
  exact ⟨A, A', h1, h2, alike_observed al h3, alike_observed al' h5, key al h4, key al' h6⟩

end Visigoth
