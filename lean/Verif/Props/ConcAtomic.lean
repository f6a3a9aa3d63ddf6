import Verif.Proofs.Covered
import Verif.Proofs.KeepNew
import Verif.Proofs.Naming
import Verif.Proofs.Removed
import Verif.Proofs.Alone
import Verif.Proofs.RowsShown
import Verif.Props.Conc
/-!
# Concurrent calls as atomic steps (C59), lost Puts (C52), Drop (C53), crashes (C54)
-/
namespace Visigoth

variable {cfg : Cfg}

/-! ## Concrete executions used as witnesses -/

/-- How a call ended. -/
def Thread.ending (x : Thread) : Option (Ret ⊕ Crash) :=
  match x.prog with
  | .ret r => some (.inl r)
  | .crash e => some (.inr e)
  | .act _ _ => none

theorem ending_ret {x : Thread} {r : Ret} (h : x.ending = some (.inl r)) : x.prog = .ret r := by
  unfold Thread.ending at h
  split at h <;> simp_all

theorem ending_crash {x : Thread} {e : Crash} (h : x.ending = some (.inr e)) : x.prog = .crash e := by
  unfold Thread.ending at h
  split at h <;> simp_all

/-- What the calls of a configuration are and how they ended. -/
def Config.endings (c : Config) : List (Option (Ret ⊕ Crash)) := c.calls.map Thread.ending

theorem endings_call {c : Config} {t : Nat} {v : Option (Ret ⊕ Crash)} (h : c.endings[t]? = some v) :
    ∃ x, c.calls[t]? = some x ∧ x.ending = v := by
  unfold Config.endings at h
  rw [List.getElem?_map] at h
  cases hx : c.calls[t]? with
  | none => rw [hx] at h; cases h
  | some x => rw [hx] at h; exact ⟨x, rfl, by simpa using h⟩

theorem endings_quiet {c : Config} (h : c.endings.all Option.isSome = true) : c.quiet := by
  intro x hx hr
  have := List.all_eq_true.1 h _ (List.mem_map_of_mem (f := Thread.ending) hx)
  unfold Thread.ending at this
  unfold Thread.running at hr
  split at this <;> simp_all

/-- A played schedule together with facts computed from its result. -/
theorem play_fact {α : Type} {c0 : Config} {xs : List Sched} {f : Config → α} {v : α}
    (h : (c0.play cfg xs).map f = some v) : ∃ c, c0.play cfg xs = some c ∧ f c = v := by
  cases hc : c0.play cfg xs with
  | none => rw [hc] at h; cases h
  | some c => rw [hc] at h; exact ⟨c, rfl, by simpa using h⟩

theorem play_append {c : Config} (xs ys : List Sched) :
    c.play cfg (xs ++ ys) = (c.play cfg xs).bind fun c' => c'.play cfg ys := by
  induction xs generalizing c with
  | nil => rfl
  | cons x xs ih =>
    simp only [List.cons_append, Config.play]
    cases c.next cfg x with
    | none => rfl
    | some c' => exact ih

/-- Two successive schedules. -/
theorem play_facts {α β : Type} {xs ys : List Sched} {f : Config → α} {g : Config → β} {v : α} {w : β}
    (h : (Config.init.play cfg xs).map f = some v) (h' : (Config.init.play cfg (xs ++ ys)).map g = some w) :
    ∃ c c', ConcReachable cfg c ∧ Steps cfg c c' ∧ f c = v ∧ g c' = w := by
  obtain ⟨c, hc, hf⟩ := play_fact h
  rw [play_append, hc, Option.bind_some] at h'
  obtain ⟨c', hc', hg⟩ := play_fact h'
  exact ⟨c, c', play_steps hc, play_steps hc', hf, hg⟩

/-! ## C59 -/

/-- Executions without `Rename` are matched, step by step, by executions of atomic steps. -/
theorem C59_atomic_without_rename (cfg : Cfg) : ∃ R : Config → AConfig → Prop,
    R Config.init AConfig.init ∧ (∀ c A, R c A → Observed cfg c A ∧ RowsShown c A) ∧
    ∀ c A c', R c A → (∀ x ∈ c'.calls, x.op.isRename = false) → Step cfg c c' → ∃ A', ASteps cfg A A' ∧ R c' A' :=
  ⟨fun c A => Linked strict cfg c A ∧ RowsLink cfg c A, ⟨linked_init strict cfg, rowsLink_init cfg⟩,
    fun _ _ h => ⟨linked_observed strict_guarded h.1, h.2.shown⟩,
    fun _ _ _ h hop hs => rowsLink_step h.1 h.2 (fits_all hs hop).1 (fits_all hs hop).2 hs⟩

/-- Executions without `UnAlias` are matched, step by step, by executions of atomic steps. -/
theorem C59_atomic_without_unAlias (cfg : Cfg) : ∃ R : Config → AConfig → Prop,
    R Config.init AConfig.init ∧ (∀ c A, R c A → Observed cfg c A) ∧
    ∀ c A c', R c A → (∀ x ∈ c'.calls, x.op.isUnAlias = false) → Step cfg c c' → ∃ A', ASteps cfg A A' ∧ R c' A' :=
  ⟨Linked broad cfg, linked_init broad cfg, fun _ _ h => linked_observed (fun l => by cases l <;> rfl) h,
    fun _ _ _ h hop hs => linked_step h (fun x hx => .inr ⟨rfl, hop x hx⟩) hs⟩

/-- Two points of an execution: there are two points of one execution of atomic steps that agree with
them.  Calls that are over at the first point take all their steps before it, calls made later take all
their steps after it. -/
theorem C59_real_time {c c' : Config} (hr : ConcReachable cfg c) (hs : Steps cfg c c')
    (h : (∀ x ∈ c'.calls, x.op.isRename = false) ∨ (∀ x ∈ c'.calls, x.op.isUnAlias = false)) :
    ∃ A A', AReachable cfg A ∧ ASteps cfg A A' ∧ Observed cfg c A ∧ Observed cfg c' A' := by
  obtain ⟨d, hd, hsuit⟩ := Covered.suits h
  obtain ⟨A, h1, h2⟩ := linked_reachable hr (steps_suits hs hsuit)
  obtain ⟨A', h3, h4⟩ := linked_steps h2 hs hsuit
  exact ⟨A, A', h1, h3, linked_observed hd h2, linked_observed hd h4⟩

/-- Without `Rename` the slices in the rows of `ListAliases` agree as well, at both points. -/
theorem C59_real_time_rows {c c' : Config} (hr : ConcReachable cfg c) (hs : Steps cfg c c')
    (h : ∀ x ∈ c'.calls, x.op.isRename = false) :
    ∃ A A', AReachable cfg A ∧ ASteps cfg A A' ∧ Observed cfg c A ∧ RowsShown c A ∧ Observed cfg c' A' ∧ RowsShown c' A' := by
  obtain ⟨A, h1, h2, h3⟩ := shown_steps (linked_init strict cfg) (rowsLink_init cfg) hr (steps_ops (P := fun op => op.isRename = false) hs h)
  obtain ⟨A', h4, h5, h6⟩ := shown_steps h2 h3 hs h
  exact ⟨A, A', h1, h4, linked_observed strict_guarded h2, h3.shown, linked_observed strict_guarded h5, h6.shown⟩

/-- From any state at rest, whatever was called before, executions in which no `Rename` is called are matched, step by
step, by executions of atomic steps; the atomic steps of a call taken in succession are the call of the sequential
specification. -/
theorem C59_rest_without_rename {c0 : Config} (hr : ConcReachable cfg c0) (hq : c0.quiet) :
    ∃ (R : Config → AConfig → Prop) (A0 : AConfig), R c0 A0 ∧
    (∀ c A, R c A → Observed cfg c A ∧ RowsShown c A ∧ A.succession cfg) ∧
    ∀ c A c', R c A → (∀ x ∈ c'.calls.drop c0.calls.length, x.op.isRename = false) → Step cfg c c' →
      ∃ A', ASteps cfg A A' ∧ R c' A' := by
  obtain ⟨A0, h1, h2, h3⟩ := linked_rest strict hr hq
  refine ⟨fun c A => Linked strict cfg c A ∧ RowsLink cfg c A ∧ Tidy A.st ∧ c.calls.take c0.calls.length = c0.calls, A0,
    ⟨h2, rowsLink_rest hr hq h3, h1, List.take_length⟩,
    fun c A h => ⟨linked_observed strict_guarded h.1, h.2.1.shown, tidy_succession h.2.2.1⟩, fun c A c' h hn hs => ?_⟩
  obtain ⟨A', g1, g2, g3⟩ := rowsLink_since hq h.2.2.2 h.1 h.2.1 hn hs
  exact ⟨A', g1, g2, g3, tidy_moves h.2.2.1 g1, step_take hq h.2.2.2 hs⟩

/-- The same for executions in which no `UnAlias` is called. -/
theorem C59_rest_without_unAlias {c0 : Config} (hr : ConcReachable cfg c0) (hq : c0.quiet) :
    ∃ (R : Config → AConfig → Prop) (A0 : AConfig), R c0 A0 ∧ (∀ c A, R c A → Observed cfg c A ∧ A.succession cfg) ∧
    ∀ c A c', R c A → (∀ x ∈ c'.calls.drop c0.calls.length, x.op.isUnAlias = false) → Step cfg c c' →
      ∃ A', ASteps cfg A A' ∧ R c' A' := by
  obtain ⟨R, A0, h1, h2, h3⟩ := rest_atomic broad (fun l => by cases l <;> rfl) hr hq
  exact ⟨R, A0, h1, h2, fun c A c' h hop hs => h3 c A c' h (fun x hx => .inr ⟨rfl, hop x hx⟩) hs⟩

/-- A call takes at most two atomic steps, and at most one unless it is a `Put`, a `Drop` or an
`UnAlias` given an index. -/
theorem C59_two_steps {a a' : ObjState} {k k' : Task} (h : Atomic cfg a k a' k') :
    k'.left < k.left ∧ k.left ≤ 2 ∧
      ∀ op, k = .call op → k.left = 2 → (∃ n d, op = .put n d) ∨ (∃ n, op = .drop n) ∨ ∃ al i, op = .unAlias al i := by
  refine ⟨atomic_left h, ?_, ?_⟩
  · cases k with
    | call op => cases op <;> simp [Task.left]; split <;> omega
    | _ => simp [Task.left]
  · intro op hk h2
    subst hk
    cases op <;> simp [Task.left] at h2 ⊢

/-- The atomic steps of a call taken in succession are the call of the sequential specification: same
results, same effect, same panics. -/
theorem C59_alone {A : AConfig} (hr : AReachable cfg A) {op : Op} {a' : ObjState} {k : Task} (hs : Alone cfg A.st (.call op) a' k) :
    (∀ v, k = .over v → A.st.spec.allows cfg op v ∧ a'.docs = (A.st.spec.next op).docs ∧ a'.aliases = (A.st.spec.next op).aliases) ∧
    (∀ e, k = .dead e → A.st.spec.crashes cfg op e ∧ a' = A.st) :=
  ⟨fun _ hk => alone_spec (tidy_reachable hr) (hk ▸ hs), fun _ hk => alone_crash (tidy_reachable hr) (hk ▸ hs)⟩

/-- The returned calls of an execution returned what some execution of atomic steps returned: two
interleaved `Put`s, a `Drop` and a `Search`. -/
def busySchedule : List Sched :=
  [callNow (.put (str "x") docD), callNow (.put (str "y") docD)] ++ goes 0 6 ++ goes 1 6 ++ goes 0 7 ++
  [callNow (.drop (str "x"))] ++ goes 2 3 ++ goes 1 7 ++ [callNow (.search (str "x") (str "java") linearSearch)] ++ goes 3 1

example : playReturns busySchedule = some [some .unit, some .unit, none, none] := by decide +kernel

/-- A state at rest whose history has a `Rename` and an `UnAlias`, as in `C59_rest_without_rename`, and overlapping calls
from there: a `Put` has looked up its name before the `Drop` of it, and writes after it. -/
def bothBefore : List Sched :=
  [callNow (.put (str "x") docD)] ++ goes 0 13 ++ [callNow (.rename (str "x") (str "y"))] ++ goes 1 7 ++
    [callNow (.alias (str "a") (str "y"))] ++ goes 2 9 ++ [callNow (.unAlias (str "a") (str "y"))] ++ goes 3 10
example : playReturns bothBefore = some [some .unit, some (.bool true), some (.bool true), some (.bool true)] := by decide +kernel
example : playReturns (bothBefore ++ [callNow (.put (str "y") docE), callNow (.drop (str "y"))] ++ goes 4 3 ++ goes 5 13 ++ goes 4 6)
    = some [some .unit, some (.bool true), some (.bool true), some (.bool true), some .unit, some (.bool true)] := by decide +kernel

/-! ## C54 -/

/-- Without `Rename` no call ever panics, in any interleaving, unless an engine does: no nil index is
used, no index is written by two goroutines of one call, no lock is misused. -/
theorem C54_no_crash_without_rename {c : Config} (hr : ConcReachable cfg c) (hop : ∀ x ∈ c.calls, x.op.isRename = false)
    {t : Tid} {x : Thread} {e : Crash} (hx : c.calls[t]? = some x) (he : x.prog = .crash e) : e = .engine := by
  obtain ⟨A, h1, h2⟩ := linked_reachable (d := strict) hr fun x hx => .inl ⟨rfl, hop x hx⟩
  have ho := linked_observed (fun l => by cases l <;> rfl) h2
  have hA : ∀ x ∈ A.tasks, x.1.isRename = false := by
    intro x hx
    have : x.1 ∈ A.tasks.map (fun y : Op × Task => y.1) := List.mem_map_of_mem (f := fun y : Op × Task => y.1) hx
    rw [ho.calls] at this
    obtain ⟨y, hy, he⟩ := List.mem_map.1 this
    exact he ▸ hop y hy
  exact (sane_steps sane_init h1 hA).tasks t _ _ (ho.crashed t x e hx he)

/-- Without `Rename` every alias lists distinct existing indices whenever no call is running. -/
theorem C54_no_dangling_without_rename {c : Config} (hr : ConcReachable cfg c) (hop : ∀ x ∈ c.calls, x.op.isRename = false)
    (hq : c.quiet) {al : Name} {r : SliceRef} (hal : c.sh.aliases.get al = some r) :
    (c.sh.elems r).Nodup ∧ ∀ i ∈ c.sh.elems r, (c.sh.indices.get i).isSome = true := by
  obtain ⟨A, h1, h2⟩ := linked_reachable (d := strict) hr fun x hx => .inl ⟨rfl, hop x hx⟩
  have ho := linked_observed (fun l => by cases l <;> rfl) h2
  have hA : ∀ x ∈ A.tasks, x.1.isRename = false := by
    intro x hx
    have : x.1 ∈ A.tasks.map (fun y : Op × Task => y.1) := List.mem_map_of_mem (f := fun y : Op × Task => y.1) hx
    rw [ho.calls] at this
    obtain ⟨y, hy, he⟩ := List.mem_map.1 this
    exact he ▸ hop y hy
  have hc := (sane_steps sane_init h1 hA).closed
  have hst := ho.state hq
  have hv : A.st.aliases al = some (c.sh.elems r) := by rw [← hst.aliases al, hal]; rfl
  exact ⟨hc.nodup al _ hv, fun i hi => by rw [hst.index i]; exact hc.known al _ i hv hi⟩

/-- `al` lists `x` and `y`; while an `UnAlias al y` has read the list a `Rename x z` runs. -/
def danglingSchedule : List Sched :=
  [callNow (.put (str "x") docD)] ++ goes 0 13 ++ [callNow (.put (str "y") docD)] ++ goes 1 13 ++
  [callNow (.alias (str "al") (str "x"))] ++ goes 2 9 ++ [callNow (.alias (str "al") (str "y"))] ++ goes 3 10 ++
  [callNow (.unAlias (str "al") (str "y"))] ++ goes 4 8 ++ [callNow (.rename (str "x") (str "z"))] ++ goes 5 11 ++ goes 4 3

/-- With `Rename` and `UnAlias` together there is an execution after which, with no call running, an
alias lists a name that is no index although nothing was dropped; a search of the alias then panics. -/
theorem C54_rename_unAlias_dangles : ∃ c, ConcReachable sampleCfg c ∧ c.quiet ∧
    (∃ r, c.sh.aliases.get (str "al") = some r ∧ c.sh.elems r = [str "x"] ∧ c.sh.indices.get (str "x") = none) ∧
    ∃ c', Steps sampleCfg c c' ∧ ∃ (t : Nat) (x : Thread), c'.calls[t]? = some x ∧ x.prog = .crash .nilIndex := by
  obtain ⟨c, c', h1, h2, h3, h4⟩ := play_facts (cfg := sampleCfg) (xs := danglingSchedule)
    (ys := [callNow (.search (str "al") (str "java") linearSearch)] ++ goes 6 7)
    (f := fun c => (c.endings.all Option.isSome, (c.sh.aliases.get (str "al")).map c.sh.elems, c.sh.indices.get (str "x")))
    (g := fun c => c.endings[6]?) (v := (true, some [str "x"], none)) (w := some (some (.inr .nilIndex)))
    (by decide +kernel) (by decide +kernel)
  simp only [Prod.mk.injEq] at h3
  obtain ⟨h3, h5, h6⟩ := h3
  refine ⟨c, h1, endings_quiet h3, ?_, c', h2, ?_⟩
  · cases hr : c.sh.aliases.get (str "al") with
    | none => rw [hr] at h5; cases h5
    | some r => rw [hr] at h5; exact ⟨r, rfl, by simpa using h5, h6⟩
  · obtain ⟨x, hx, he⟩ := endings_call h4
    exact ⟨6, x, hx, ending_crash he⟩

/-! ## C52 -/

/-- Two `Put`s to one name that have both returned are both there when no call is running, in
executions of nothing but `Put`s. -/
def PutsNeverLost (cfg : Cfg) : Prop :=
  ∀ (c : Config) (t u : Nat) (x y : Thread) (n : Name) (d e : DocRequest), ConcReachable cfg c → c.quiet →
    (∀ z ∈ c.calls, ∃ m r, z.op = .put m r) → t ≠ u → c.calls[t]? = some x → c.calls[u]? = some y →
    x.op = .put n d → y.op = .put n e → x.prog = .ret .unit → y.prog = .ret .unit →
    ∃ p mi, c.sh.indices.get n = some p ∧ c.sh.heap[p]? = some mi ∧
      newDoc d.id d.raw ∈ mi.docs ∧ newDoc e.id e.raw ∈ mi.docs

/-- Two `Put`s to a new name; the first has seen that there is no index when the second runs. -/
def lostSchedule : List Sched :=
  [callNow (.put (str "x") docD), callNow (.put (str "x") docE)] ++ goes 0 6 ++ goes 1 13 ++ goes 0 7

example : playReturns lostSchedule = some [some .unit, some .unit] := by decide +kernel

/-- The name and the document of a `Put`. -/
def Op.putOf : Op → Option (Name × DocRequest)
  | .put n d => some (n, d)
  | _ => none

theorem putOf_eq {op : Op} {n : Name} {d : DocRequest} (h : op.putOf = some (n, d)) : op = .put n d := by
  cases op <;> simp_all [Op.putOf]

set_option synthInstance.maxSize 1024 in
/-- False of the code. -/
theorem C52_refuted : ¬ PutsNeverLost sampleCfg := by
  intro h
  have hplay : (Config.init.play sampleCfg lostSchedule).map (fun c : Config =>
      (c.calls.map fun x : Thread => (x.ending, x.op.putOf), (c.sh.indices.get (str "x")).bind fun p =>
        (c.sh.heap[p]?).map fun mi : MemoryIndex => decide (newDoc docE.id docE.raw ∈ mi.docs)))
      = some ([(some (.inl .unit), some (str "x", docD)), (some (.inl .unit), some (str "x", docE))], some false) := by
    decide +kernel
  obtain ⟨c, hc, hf⟩ := play_fact hplay
  simp only [Prod.mk.injEq] at hf
  obtain ⟨h1, h2⟩ := hf
  match hcl : c.calls, h1 with
  | [x, y], h1 =>
    simp only [List.map_cons, List.map_nil, List.cons.injEq, Prod.mk.injEq, and_true] at h1
    obtain ⟨⟨hx, hxo⟩, hy, hyo⟩ := h1
    have hq : c.quiet := endings_quiet (by simp [Config.endings, hcl, hx, hy])
    obtain ⟨p, mi, g1, g2, g3, g4⟩ := h c 0 1 x y (str "x") docD docE (play_steps hc) hq
      (by
        rw [hcl]
        intro z hz
        simp only [List.mem_cons, List.not_mem_nil, or_false] at hz
        rcases hz with hz | hz <;> subst hz
        · exact ⟨_, _, putOf_eq hxo⟩
        · exact ⟨_, _, putOf_eq hyo⟩)
      (by decide) (by rw [hcl]; rfl) (by rw [hcl]; rfl) (putOf_eq hxo) (putOf_eq hyo) (ending_ret hx) (ending_ret hy)
    rw [g1, Option.bind_some, g2] at h2
    simp [g4] at h2
  | [], h1 => simp at h1
  | [_], h1 => simp at h1
  | _ :: _ :: _ :: _, h1 => simp at h1

/-- What holds instead, in every execution: once a name is bound to an index and as long as no `Drop` or
`Rename` takes the index away, no `Put` is lost.  Whenever no running call has the index mutex to itself
the index has the documents it had before, those of the `Put`s that have been made since and have
returned, and possibly more (from `Put`s through aliases and `Put`s about to return).  Other calls may be
running at either point.
Not covered: `Put`s that create the index (refuted above). -/
theorem C52_puts_kept_partial {c0 c1 : Config} (hr : ConcReachable cfg c0) {n : Name} {p : Ptr} (hn : c0.sh.indices.get n = some p)
    (hq0 : ∀ x ∈ c0.calls, x.running → ¬ x.op.binds n ∧ ¬ x.op.unbinds n) (hs : Steps cfg c0 c1)
    (hm : ∀ x ∈ c1.calls.drop c0.calls.length, ¬ x.op.moves n) (hq1 : c1.unwritten) :
    c1.sh.indices.get n = some p ∧ ∃ nm1 rs0 rs1 extra,
      (c0.unwritten → ∃ nm0, c0.sh.heap[p]? = some (buildIndex cfg.tok nm0 rs0)) ∧
      c1.sh.heap[p]? = some (buildIndex cfg.tok nm1 rs1) ∧
      rs1.Perm (rs0 ++ putsReturned n (c1.calls.drop c0.calls.length) ++ extra) := by
  obtain ⟨H, A, rs0, i, w, v, h0⟩ := keep_start hr (fun x hx hrun => spares_of (hq0 x hx hrun)) hn
  obtain ⟨H', i', _, v'⟩ := keep_steps i w v hs hm
  obtain ⟨nm1, rs1, h1, ex, h2⟩ := v'.quiet i' hq1
  exact ⟨v'.index, nm1, rs0, rs1, ex, h0, h1, h2⟩

/-- A `Search` made after `Put`s have returned sees their documents, whatever else is going on.
Same restriction. -/
theorem C52_search_sees_puts_partial {c0 c1 c2 : Config} (hr : ConcReachable cfg c0) {n : Name} {p : Ptr}
    (hn : c0.sh.indices.get n = some p) (hq0 : ∀ x ∈ c0.calls, x.running → ¬ x.op.binds n ∧ ¬ x.op.unbinds n)
    (hs : Steps cfg c0 c1) (hs' : Steps cfg c1 c2) (hm : ∀ x ∈ c2.calls.drop c0.calls.length, ¬ x.op.moves n)
    {u : Tid} {y : Thread} {ts : Str} {e : Engine} {r : Ret} (hu : c1.calls.length ≤ u) (hy : c2.calls[u]? = some y)
    (hop : y.op = .search n ts e) (hret : y.prog = .ret r) :
    ∃ rs0 rs extra l, (c0.unwritten → ∃ nm0, c0.sh.heap[p]? = some (buildIndex cfg.tok nm0 rs0)) ∧
      rs.Perm (rs0 ++ putsReturned n (c1.calls.drop c0.calls.length) ++ extra) ∧
      specSearch cfg rs ts e = some l ∧ r = .results l := by
  obtain ⟨H, A, rs0, i, w, v, h0⟩ := keep_start hr (fun x hx hrun => spares_of (hq0 x hx hrun)) hn
  have hm1 : ∀ x ∈ c1.calls.drop c0.calls.length, ¬ x.op.moves n := by
    clear hy
    induction hs' with
    | refl => exact hm
    | tail _ hs ih => exact ih (step_new (P := fun op => ¬ op.moves n) hs hm)
  obtain ⟨H1, i1, w1, v1⟩ := keep_steps i w v hs hm1
  obtain ⟨H2, i2, _, v2⟩ := keep_steps i1 w1 v1.later hs' hm
  have hN := Nat.le_trans v1.size hu
  have hk := v2.knows u y (v2.new u hN) hy
  rw [hop, hret, if_pos hu] at hk
  have hf : foundFrom cfg n c0.calls.length u (rs0 ++ putsReturned n (c1.calls.drop c0.calls.length)) (.search n ts e) r := by
    unfold KeepKnows at hk
    split at hk
    · obtain ⟨_, _, _, _, h3⟩ := hk; exact h3.2
    · obtain ⟨_, h3⟩ := hk; exact h3.2
  obtain ⟨rs, l, ⟨ex, h1⟩, h2, h3⟩ := hf hN rfl
  exact ⟨rs0, rs, ex, l, h0, h1, h2, h3⟩

/-- A `Put` is not lost even if it creates the index, when from its call to its return no other call binds
or unbinds its name and the name is no alias: as long as no `Drop` or `Rename` takes the index away
afterwards, the index has its document and those of all the `Put`s that have returned since.  Any other calls
may be running meanwhile, and whether there was an index before does not matter.
Not covered: `Put`s that overlap another `Put` to their name (refuted above) and `Put`s through an alias. -/
theorem C52_lone_put_kept_partial {c0 c1 c2 : Config} (hr : ConcReachable cfg c0) {n : Name} {d : DocRequest}
    (hq0 : ∀ x ∈ c0.calls, x.running → ¬ x.op.binds n ∧ ¬ x.op.unbinds n) (hs : Steps cfg c0 c1)
    {x : Thread} {r : Ret} (hx : c1.calls[c0.calls.length]? = some x) (hop : x.op = .put n d) (hret : x.prog = .ret r)
    (hnew : ∀ y ∈ c1.calls.drop (c0.calls.length + 1), ¬ y.op.binds n ∧ ¬ y.op.unbinds n)
    (hal : ∀ y ∈ c1.calls, ∀ i, y.op ≠ .alias n i) (hs' : Steps cfg c1 c2)
    (hm : ∀ y ∈ c2.calls.drop c1.calls.length, ¬ y.op.moves n) (hq2 : c2.unwritten) :
    ∃ p nm rs extra, c2.sh.indices.get n = some p ∧ c2.sh.heap[p]? = some (buildIndex cfg.tok nm rs) ∧ d ∈ rs ∧
      rs.Perm (putsReturned n (c2.calls.drop c0.calls.length) ++ extra) := by
  have hm0 : ∀ y ∈ c2.calls.drop c0.calls.length, ¬ y.op.moves n := by
    intro y hy
    obtain ⟨j, hj⟩ := List.getElem?_of_mem hy
    rw [List.getElem?_drop] at hj
    by_cases hlt : c0.calls.length + j < c1.calls.length
    · have hx1 := List.getElem?_eq_getElem hlt
      rw [(steps_running hs' hx1 hj).1]
      by_cases hj0 : j = 0
      · subst hj0
        have : c1.calls[c0.calls.length + 0] = x := by
          rw [← Option.some_inj, ← hx1]; exact hx
        rw [this, hop]; exact id
      · refine (spares_of (hnew _ (List.mem_of_getElem? (i := j - 1) ?_))).2
        rw [List.getElem?_drop, ← hx1]; congr 1; omega
    · refine hm y (List.mem_of_getElem? (i := c0.calls.length + j - c1.calls.length) ?_)
      rw [List.getElem?_drop, Nat.add_sub_cancel' (Nat.le_of_not_lt hlt)]; exact hj
  have hd : d ∈ putsReturned n (c2.calls.drop c0.calls.length) := by
    have g1 := steps_returned hs' hx hret
    rw [putsReturned_eq, List.mem_filterMap]
    refine ⟨x, List.mem_of_getElem? (i := 0) (by rw [List.getElem?_drop]; exact g1), ?_⟩
    cases x with
    | mk op o q =>
      subst hop hret
      exact if_pos rfl
  have fin : ∀ {p nm rs0 rs ex}, c2.sh.indices.get n = some p → c2.sh.heap[p]? = some (buildIndex cfg.tok nm rs) →
      rs.Perm (rs0 ++ putsReturned n (c2.calls.drop c0.calls.length) ++ ex) →
      ∃ p nm rs extra, c2.sh.indices.get n = some p ∧ c2.sh.heap[p]? = some (buildIndex cfg.tok nm rs) ∧ d ∈ rs ∧
        rs.Perm (putsReturned n (c2.calls.drop c0.calls.length) ++ extra) := by
    intro p nm rs0 rs ex h1 h2 h3
    have h4 : rs.Perm (putsReturned n (c2.calls.drop c0.calls.length) ++ (rs0 ++ ex)) := by
      refine h3.trans ?_
      rw [List.append_assoc]
      exact List.perm_append_comm_assoc _ _ _
    exact ⟨p, nm, rs, _, h1, h2, h4.symm.subset (List.mem_append_left _ hd), h4⟩
  cases hn : c0.sh.indices.get n with
  | some p =>
    obtain ⟨g1, nm1, rs0, rs1, ex, _, g2, g3⟩ := C52_puts_kept_partial hr hn hq0 (steps_trans hs hs') hm0 hq2
    exact fin g1 g2 g3
  | none =>
    obtain ⟨r1, l1, v1⟩ := make_steps (d := d) hr hn hq0 hs (fun y hy => by rw [hx] at hy; cases hy; exact hop) hnew hal
    cases v1 with
    | before h _ => exact absurd (List.getElem?_eq_some_iff.1 hx).1 (Nat.not_lt.2 h)
    | making y o hy hmk _ _ => rw [hx] at hy; cases hy; rw [hret] at hmk; exact hmk.elim
    | made p H A M i w v =>
      obtain ⟨H', i', _, v'⟩ := keep_steps i w v hs' hm0
      obtain ⟨nm1, rs1, h1, ex, h2⟩ := v'.quiet i' hq2
      exact fin v'.index h1 h2

/-- A `Put` creates an index while a `Put` creates another; then two interleaved `Put`s to the first. -/
def loneSchedule : List Sched :=
  [callNow (.put (str "y") docE), callNow (.put (str "x") docD)] ++ goes 0 6 ++ goes 1 13

def loneAfter : List Sched :=
  [callNow (.put (str "x") docE), callNow (.put (str "x") docE)] ++ goes 2 3 ++ goes 0 7 ++ goes 3 9 ++ goes 2 6

set_option synthInstance.maxSize 1024 in
example : (Config.init.play sampleCfg loneSchedule).map (fun c : Config => (c.endings, c.sh.imu.writer, (c.sh.indices.get (str "x")).isSome))
    = some ([none, some (.inl .unit)], none, true) := by decide +kernel
example : playReturns (loneSchedule ++ loneAfter) = some [some .unit, some .unit, some .unit, some .unit] := by decide +kernel

/-- Two interleaved `Put`s to an existing index and a `Search`. -/
def keptSchedule : List Sched :=
  [callNow (.put (str "x") docE), callNow (.put (str "x") docE)] ++ goes 1 3 ++ goes 2 3 ++ goes 1 6 ++ goes 2 6

example : playReturns ([callNow (.put (str "x") docD)] ++ goes 0 13) = some [some .unit] := by decide +kernel
example : playReturns ([callNow (.put (str "x") docD)] ++ goes 0 13 ++ keptSchedule ++
    [callNow (.search (str "x") (str "go") linearSearch)] ++ goes 3 4) = some [some .unit, some .unit, some .unit,
      some (.results [⟨newDoc (str "e") (str "go"), 1⟩, ⟨newDoc (str "e") (str "go"), 1⟩])] := by decide +kernel

/-- A `Search` of an index and a `Put` to another are running; then there is a `Put` to the first index,
which returns while the other `Put` is still running, and a `Search` finds its document. -/
def runningSchedule : List Sched :=
  [callNow (.put (str "x") docD)] ++ goes 0 13 ++ [callNow (.search (str "x") (str "java") linearSearch), callNow (.put (str "y") docD)] ++
  goes 1 1

def thenSchedule : List Sched := [callNow (.put (str "x") docE)] ++ goes 1 3 ++ goes 2 6 ++ goes 3 9

example : (Config.init.play sampleCfg runningSchedule).map (fun c : Config => (c.endings, c.sh.imu.writer, (c.sh.indices.get (str "x")).isSome))
    = some ([some (.inl .unit), none, none], none, true) := by decide +kernel
example : (Config.init.play sampleCfg (runningSchedule ++ thenSchedule)).map (fun c : Config => (c.endings, c.sh.imu.writer)) =
    some ([some (.inl .unit), some (.inl (.results [⟨newDoc (str "d") (str "java"), 1⟩])), none, some (.inl .unit)], none) := by decide +kernel
example : playReturns (runningSchedule ++ thenSchedule ++ [callNow (.search (str "x") (str "go") linearSearch)] ++ goes 4 4) =
    some [some .unit, some (.results [⟨newDoc (str "d") (str "java"), 1⟩]), none, some .unit,
      some (.results [⟨newDoc (str "e") (str "go"), 1⟩])] := by decide +kernel

/-- A `Put` to an existing index while a `Rename` and an `UnAlias` work on another one. -/
def mixedSchedule : List Sched :=
  [callNow (.put (str "y") docE)] ++ goes 1 13 ++ [callNow (.alias (str "a") (str "y"))] ++ goes 2 9 ++
  [callNow (.put (str "x") docE), callNow (.rename (str "y") (str "z")), callNow (.unAlias (str "a") (str "y"))] ++
  goes 5 3 ++ goes 3 3 ++ goes 4 10 ++ goes 3 6 ++ goes 5 5

example : playReturns ([callNow (.put (str "x") docD)] ++ goes 0 13 ++ mixedSchedule)
    = some [some .unit, some .unit, some (.bool true), some .unit, some (.bool true), some (.bool true)] := by decide +kernel

/-! ## C53 -/

/-- When, starting with no call running, only `Drop`s and `Rename`s are made, every `Drop` that returns
true takes away one name (a `Rename` may take one away but never adds one). -/
def DropsRemove (cfg : Cfg) : Prop :=
  ∀ c0 c : Config, ConcReachable cfg c0 → c0.quiet → Steps cfg c0 c → c.quiet →
    (∀ x ∈ c.calls.drop c0.calls.length, x.op.isDropOrRename = true) →
    c.sh.indices.length + ((c.calls.drop c0.calls.length).filter Thread.dropped).length ≤ c0.sh.indices.length

/-- Two `Drop`s that have both found the index. -/
def twoDrops : List Sched :=
  [callNow (.drop (str "x")), callNow (.drop (str "x"))] ++ goes 1 3 ++ goes 2 3 ++ goes 1 8 ++ goes 2 8

/-- A `Drop` that has found the index before a `Rename` moves it. -/
def dropRename : List Sched :=
  [callNow (.drop (str "x")), callNow (.rename (str "x") (str "y"))] ++ goes 1 3 ++ goes 2 7 ++ goes 1 8

example : playReturns ([callNow (.put (str "x") docD)] ++ goes 0 13 ++ twoDrops)
    = some [some .unit, some (.bool true), some (.bool true)] := by decide +kernel
example : playReturns ([callNow (.put (str "x") docD)] ++ goes 0 13 ++ dropRename)
    = some [some .unit, some (.bool true), some (.bool true)] := by decide +kernel

/-- False of the code: both of two concurrent `Drop`s return true. -/
theorem C53_refuted : ¬ DropsRemove sampleCfg := by
  intro h
  obtain ⟨c, c', h1, h2, h3, h4⟩ := play_facts (cfg := sampleCfg) (xs := [callNow (.put (str "x") docD)] ++ goes 0 13)
    (ys := twoDrops) (f := fun c => (c.endings.all Option.isSome, c.calls.length, c.sh.indices.length))
    (g := fun c => (c.endings.all Option.isSome, (c.calls.drop 1).all (fun x => x.op.isDropOrRename),
      c.sh.indices.length + ((c.calls.drop 1).filter Thread.dropped).length))
    (v := (true, 1, 1)) (w := (true, true, 2)) (by decide +kernel) (by decide +kernel)
  simp only [Prod.mk.injEq] at h3 h4
  obtain ⟨h5, h6, h7⟩ := h3
  obtain ⟨h8, h9, h10⟩ := h4
  have := h c c' h1 (endings_quiet h5) h2 (endings_quiet h8) (by rw [h6]; exact List.all_eq_true.1 h9)
  rw [h6, h7, h10] at this
  exact absurd this (by decide)

/-- False of the code: a `Drop` returns true although the index it found has been renamed and survives. -/
theorem C53_refuted_by_rename : ¬ DropsRemove sampleCfg := by
  intro h
  obtain ⟨c, c', h1, h2, h3, h4⟩ := play_facts (cfg := sampleCfg) (xs := [callNow (.put (str "x") docD)] ++ goes 0 13)
    (ys := dropRename) (f := fun c => (c.endings.all Option.isSome, c.calls.length, c.sh.indices.length))
    (g := fun c => (c.endings.all Option.isSome, (c.calls.drop 1).all (fun x => x.op.isDropOrRename),
      c.sh.indices.length + ((c.calls.drop 1).filter Thread.dropped).length))
    (v := (true, 1, 1)) (w := (true, true, 2)) (by decide +kernel) (by decide +kernel)
  simp only [Prod.mk.injEq] at h3 h4
  obtain ⟨h5, h6, h7⟩ := h3
  obtain ⟨h8, h9, h10⟩ := h4
  have := h c c' h1 (endings_quiet h5) h2 (endings_quiet h8) (by rw [h6]; exact List.all_eq_true.1 h9)
  rw [h6, h7, h10] at this
  exact absurd this (by decide)

/-- What holds instead: a `Drop` that returns true has itself removed an index, if no other call that
may unbind the name is made.  Not covered: other `Drop`s or `Rename`s of the name (refuted above). -/
theorem C53_drop_true_removed_partial {c : Config} (hr : ConcReachable cfg c) {t : Tid} {x : Thread} {n : Name}
    (hx : c.calls[t]? = some x) (hop : x.op = .drop n) (hret : x.prog = .ret (.bool true))
    (hall : ∀ u y, u ≠ t → c.calls[u]? = some y → ¬ y.op.unbinds n) :
    ∃ c1 c2, ConcReachable cfg c1 ∧ TStep cfg t c1 c2 ∧ Steps cfg c2 c ∧
      (c1.sh.indices.get n).isSome = true ∧ c2.sh.indices.get n = none := by
  obtain ⟨ph, h⟩ := dropInv_reachable (t := t) (n := n) hr (fun y hy => by rw [hx] at hy; cases hy; exact hop) hall
  have := h.shape x hx
  rw [hret] at this
  rcases this with hg | hg
  · exact h.gone hg
  · exact absurd rfl hg

/-- What holds of every execution: while a `Drop` that returns true was running the index was taken away
from the name, by itself or by another `Drop` or `Rename` of the name that was running as well. -/
theorem C53_somebody_removed {c : Config} (hr : ConcReachable cfg c) {t : Tid} {x : Thread} {n : Name}
    (hx : c.calls[t]? = some x) (hop : x.op = .drop n) (hret : x.prog = .ret (.bool true)) :
    ∃ u, RemovedDuring cfg n t u c := by
  obtain ⟨ph, h⟩ := dropSome_reachable (t := t) (n := n) hr (fun y hy => by rw [hx] at hy; cases hy; exact hop)
  have := h.shape x hx
  rw [hret] at this
  rcases this with hg | hg
  · exact h.gone hg
  · exact absurd rfl hg

/-- What holds instead: a `Drop` that returns true has itself removed an index, if no other call did while it
was running.  Not covered: `Drop`s and `Rename`s of the name that overlap (refuted above). -/
theorem C53_removed_itself_partial {c : Config} (hr : ConcReachable cfg c) {t : Tid} {x : Thread} {n : Name}
    (hx : c.calls[t]? = some x) (hop : x.op = .drop n) (hret : x.prog = .ret (.bool true))
    (hall : ∀ u, u ≠ t → ¬ RemovedDuring cfg n t u c) : RemovedDuring cfg n t t c := by
  obtain ⟨u, hu⟩ := C53_somebody_removed hr hx hop hret
  by_cases h : u = t
  · exact h ▸ hu
  · exact absurd hu (hall u h)

/-- What holds instead: of two `Drop`s that do not overlap, the second does not return true, if the calls
that may bind the name were over before the first.  Not covered: overlapping `Drop`s (refuted above). -/
theorem C53_one_of_two_partial {c0 c1 c2 : Config} (hr : ConcReachable cfg c0) {n : Name}
    (hover : ∀ x ∈ c0.calls, x.op.binds n → ¬ x.running) (hs : Steps cfg c0 c1) (hs' : Steps cfg c1 c2)
    (hnew : ∀ x ∈ c2.calls.drop c0.calls.length, ¬ x.op.binds n)
    {t u : Tid} {x y : Thread} (ht : c0.calls.length ≤ t) (hx : c1.calls[t]? = some x) (hxo : x.op = .drop n)
    (hxr : x.prog = .ret (.bool true)) (hu : c1.calls.length ≤ u) (hy : c2.calls[u]? = some y) (hyo : y.op = .drop n) :
    y.prog ≠ .ret (.bool true) := by
  have hnew1 : ∀ x ∈ c1.calls.drop c0.calls.length, ¬ x.op.binds n := by
    clear hy
    induction hs' with
    | refl => exact hnew
    | tail _ hs ih => exact ih (step_new (P := fun op => ¬ op.binds n) hs hnew)
  have none0 : ∀ {c : Config} {t : Tid}, c.calls.length ≤ t → Drop2 n t c .unseen := by
    intro c t h
    refine ⟨fun x hx => ?_, fun h => nomatch h⟩
    rw [List.getElem?_eq_none_iff.2 h] at hx
    cases hx
  obtain ⟨ph, g1, g2, _⟩ := drop2_steps hr hover (Nat.le_refl _) (none0 ht)
    (fun z hz => by rw [hx] at hz; cases hz; exact hxo) hnew1 hs
  have hgone : c1.sh.indices.get n = none := by
    have := g1.shape x hx
    rw [hxr] at this
    rcases this with hg | hg
    · exact g1.gone hg
    · exact absurd rfl hg
  obtain ⟨ph', g3, _, g5⟩ := drop2_steps (steps_trans hr hs) g2 (steps_size hs) (none0 hu)
    (fun z hz => by rw [hy] at hz; cases hz; exact hyo) hnew hs'
  have hun := (g5 hgone).2 rfl
  subst hun
  intro hyr
  have := g3.shape y hy
  rw [hyr] at this
  rcases this with hg | hg
  · cases hg
  · exact hg rfl

/-- A `Drop` among other calls, then another `Drop`. -/
example : playReturns ([callNow (.put (str "x") docD)] ++ goes 0 13 ++ [callNow (.drop (str "x")), callNow (.put (str "y") docE)] ++
    goes 1 3 ++ goes 2 6 ++ goes 1 8 ++ goes 2 7 ++ [callNow (.drop (str "x"))] ++ goes 3 3)
    = some [some .unit, some (.bool true), some .unit, some (.bool false)] := by decide +kernel

end Visigoth
