import Verif.Proofs.Calls
import Verif.Props.Search
/-!
# Properties of the repository used by one caller (C30–C47)

`Abs cfg s a` says that the repository state `s` represents the specification state `a`
(`Spec/Repo.lean`): `a.docs n` is the list of requests put into index `n`, `a.aliases k` the list of
names alias `k` holds.  Every reachable state represents one (`Reachable.abs`).
-/
namespace Visigoth

variable {cfg : Cfg} {s : Shared} {a : SpecState}

/-! ## Concrete instances used as witnesses -/

def sampleCfg : Cfg := { tok := spaceTok, cp := plainCopy }
def sampleOracle : Oracle := { keyOrder := id, tokenOrder := fun _ => id, schedule := id, capacity := id }
/-- Reverses every choice. -/
def reverseOracle : Oracle where
  keyOrder := List.reverse
  tokenOrder := fun _ => List.reverse
  schedule := List.reverse
  capacity := (· * 2)

/-- A sequence of calls, all with the same choices. -/
def calls (ops : List Op) : List Call := ops.map fun op => ⟨sampleOracle, 0, op⟩

/-- What a sequence of calls on a new repository returns (`none` if a call does not return). -/
def returned (ops : List Op) : Option (List SRet) :=
  match runCalls sampleCfg (calls ops) newIndexRepo with
  | .ok rets _ => some rets
  | _ => none

/-- The sequence ends in a call that never returns. -/
def getsStuck (ops : List Op) : Bool :=
  match runCalls sampleCfg (calls ops) newIndexRepo with
  | .hang _ => true
  | _ => false

/-- The sequence ends in a crash of the process. -/
def crashesWith (ops : List Op) : Option Crash :=
  match runCalls sampleCfg (calls ops) newIndexRepo with
  | .crash c => some c
  | _ => none

/-- The state after a sequence of calls. -/
def stateAfter (ops : List Op) : Shared :=
  match runCalls sampleCfg (calls ops) newIndexRepo with
  | .ok _ s => s
  | .hang s => s
  | .crash _ => newIndexRepo

def docD : DocRequest := newDocRequest (str "d") (str "java")
def docE : DocRequest := newDocRequest (str "e") (str "go")

/-! ## C30 -/

/-- Every sequence of completed calls agrees with the specification, whatever the calls. -/
theorem C30_calls_refine_specification (cs : List Call) (rets : List SRet)
    (hrun : runCalls cfg cs newIndexRepo = .ok rets s) :
    ∃ a, SpecState.runs cfg SpecState.empty (cs.map Call.op) rets a ∧ Abs cfg s a :=
  runCalls_refines (abs_empty cfg) hrun

/-- A guarded sequence of calls always completes. -/
theorem C30_guarded_calls_complete (cs : List Call)
    (hg : Guarded cfg SpecState.empty (cs.map Call.op)) :
    ∃ rets s a, runCalls cfg cs newIndexRepo = .ok rets s ∧
      SpecState.runs cfg SpecState.empty (cs.map Call.op) rets a ∧ Abs cfg s a ∧ Healthy a :=
  runCalls_guarded (abs_empty cfg) healthy_empty hg

/-- The guard is exact for hanging and crashing: a call hangs or crashes iff the specification says
so, in every state. -/
theorem C30_hang_exact (h : Abs cfg s a) (op : Op) (o : Oracle) (t : Tid) :
    (∃ s', run cfg o t (op.prog cfg) s = .hang s') ↔ a.hangs op :=
  ⟨fun ⟨_, hr⟩ => step_hang h hr, step_hangs o t h⟩

theorem C30_crash_exact (h : Abs cfg s a) (op : Op) (o : Oracle) (t : Tid) :
    (∃ c, run cfg o t (op.prog cfg) s = .crash c) ↔ ¬ a.hangs op ∧ ∃ c, a.crashes cfg op c := by
  constructor
  · rintro ⟨c, hr⟩
    have := step_crash h hr
    exact ⟨this.1, c, this.2⟩
  · rintro ⟨h1, c, h2⟩
    cases hrun : run cfg o t (op.prog cfg) s with
    | ok r s' => exact absurd h2 ((step_ok h hrun).2.1 c)
    | hang s' => exact absurd (step_hang h hrun) h1
    | crash c' => exact ⟨c', rfl⟩

/-- The engines of the package satisfy the guard. -/
theorem C30_package_engines_safe (sort : List SearchResult → List SearchResult) :
    ∀ e ∈ [linearSearch, hitsSearch sort, noopZeroSearch, noopAllSearch], EngineSafe cfg e :=
  fun e he rs ts => C27_no_panic sort cfg.cp cfg.tok [] rs ts e he

example : Guarded sampleCfg SpecState.empty
    [.put (str "x") docD, .alias (str "a") (str "x"), .put (str "a") docE, .rename (str "x") (str "y"),
     .unAlias (str "a") (str "y"), .search (str "y") (str "go") linearSearch, .drop (str "y")] := by
  refine ⟨trivial, trivial, trivial, Or.inr (by decide +kernel), Or.inr (by decide +kernel),
    C30_package_engines_safe id _ (by simp), trivial, trivial⟩

example : returned [.put (str "x") docD, .alias (str "a") (str "x"), .put (str "a") docE,
      .rename (str "x") (str "y"), .search (str "a") (str "go") linearSearch, .list, .drop (str "y"),
      .hasAlias (str "a")]
    = some [.unit, .bool true, .unit, .bool true,
        .results [{ document := { name := str "e", content := str "go" }, hits := 1 }],
        .names [str "y"], .bool true, .bool false] := by decide +kernel

/-! ## C31 -/

theorem C31_list_agrees_with_has (hr : Reachable cfg s) (o : Oracle) (t : Tid) :
    ∃ l, run cfg o t (Op.prog cfg .list) s = .ok (.names l) s ∧ l.Nodup ∧
      ∀ n o' t', run cfg o' t' (Op.prog cfg (.has n)) s = .ok (.bool (decide (n ∈ l))) s := by
  obtain ⟨a, h⟩ := hr.abs
  obtain ⟨r, s', h1, ⟨l, h2, h3, h4⟩, _, h6⟩ := step_completes (op := .list) o t h id (fun _ => id)
  have := h6.2 rfl; subst this
  cases r <;> simp only [Ret.view, SRet.names.injEq, reduceCtorEq] at h2
  subst h2
  refine ⟨_, h1, h3, fun n o' t' => ?_⟩
  obtain ⟨r, s', g1, g2, _, g6⟩ := step_completes (op := .has n) o' t' h id (fun _ => id)
  have := g6.2 rfl; subst this
  rw [g1]
  have g2' : r.view s' = .bool (a.docs n).isSome := g2
  cases r <;> simp only [Ret.view, SRet.bool.injEq, reduceCtorEq] at g2'
  subst g2'
  congr 2
  rw [Bool.eq_iff_iff, decide_eq_true_iff, h4]

theorem C31_listAliases_agrees_with_hasAlias (hr : Reachable cfg s) (hw : s.amu.writer = none)
    (o : Oracle) (t : Tid) :
    ∃ rows, run cfg o t (Op.prog cfg .listAliases) s = .ok (.rows rows) s ∧ (rows.map (·.1)).Nodup ∧
      ∀ n o' t', run cfg o' t' (Op.prog cfg (.hasAlias n)) s
        = .ok (.bool (decide (n ∈ rows.map (·.1)))) s := by
  obtain ⟨a, h⟩ := hr.abs
  have hlw : a.leakedWriter = false := h.amuW_false.2 hw
  have hnh : ∀ n, ¬ a.hangs (.hasAlias n) := fun n hh => by
    simp only [SpecState.hangs, hlw] at hh; simp at hh
  obtain ⟨r, s', h1, ⟨l, h2, h3, h4⟩, _, h6⟩ := step_completes (op := .listAliases) o t h (hnh []) (fun _ => id)
  have := h6.2 rfl; subst this
  cases r <;> simp only [Ret.view, SRet.rows.injEq, reduceCtorEq] at h2
  rename_i rows
  subst h2
  rw [List.map_map] at h3
  refine ⟨_, h1, h3, fun n o' t' => ?_⟩
  obtain ⟨r, s', g1, g2, _, g6⟩ := step_completes (op := .hasAlias n) o' t' h (hnh n) (fun _ => id)
  have := g6.2 rfl; subst this
  rw [g1]
  have g2' : r.view s' = .bool (a.aliases n).isSome := g2
  cases r <;> simp only [Ret.view, SRet.bool.injEq, reduceCtorEq] at g2'
  subst g2'
  congr 2
  rw [Bool.eq_iff_iff, decide_eq_true_iff, Option.isSome_iff_exists]
  constructor
  · rintro ⟨v, hv⟩
    obtain ⟨e, he, hh⟩ := List.mem_map.1 ((h4 n v).2 hv)
    injection hh with hh _
    exact List.mem_map.2 ⟨e, he, hh⟩
  · intro hm
    obtain ⟨e, he, hh⟩ := List.mem_map.1 hm
    exact ⟨s'.elems e.2, (h4 n _).1 (List.mem_map.2 ⟨e, he, by rw [hh]⟩)⟩

example : Reachable sampleCfg newIndexRepo ∧ newIndexRepo.amu.writer = none := ⟨reachable_empty, rfl⟩

/-! ## C32 -/

theorem C32_alias_contract (h : Abs cfg s a) (hw : a.leakedWriter = false) (al i : Name) (o : Oracle)
    (t : Tid) :
    ∃ b s', run cfg o t (Op.prog cfg (.alias al i)) s = .ok (.bool b) s' ∧
      (b = true ↔ (a.docs i).isSome ∧ i ∉ (a.aliases al).getD []) ∧
      Abs cfg s' (if b then { a with aliases := upd a.aliases al (some ((a.aliases al).getD [] ++ [i])) }
        else a) := by
  obtain ⟨r, s', h1, h2, h3, _⟩ := step_completes (op := .alias al i) o t h
    (fun hh => by simp only [SpecState.hangs, hw] at hh; simp at hh) (fun _ => id)
  simp only [SpecState.allows] at h2
  cases r <;> simp only [Ret.view, SRet.bool.injEq, reduceCtorEq] at h2
  rename_i b
  refine ⟨b, s', h1, ?_, ?_⟩
  · rw [h2, Bool.and_eq_true, decide_eq_true_iff]
  · simp only [SpecState.next] at h3
    by_cases hd : (a.docs i).isSome = true
    · rw [if_pos hd] at h3
      cases hal : a.aliases al with
      | none =>
        rw [hal] at h3 h2
        simp [hd] at h2
        subst h2
        exact h3
      | some l =>
        rw [hal] at h3 h2
        simp only [Option.getD_some] at h2 ⊢
        by_cases hm : i ∈ l
        · simp [hd, hm] at h2 h3; subst h2; simpa using h3
        · simp [hd, hm] at h2 h3; subst h2; simpa using h3
    · rw [if_neg hd] at h3
      simp [hd] at h2
      subst h2
      simpa using h3

example : returned [.put (str "x") docD, .alias (str "a") (str "x"), .alias (str "a") (str "x"),
    .alias (str "a") (str "nope")] = some [.unit, .bool true, .bool false, .bool false] := by decide +kernel

/-! ## C33 -/

theorem C33_remove_whole_alias (h : Abs cfg s a) (hw : a.leakedWriter = false) (al : Name) (o : Oracle)
    (t : Tid) :
    ∃ s', run cfg o t (Op.prog cfg (.unAlias al [])) s = .ok (.bool (a.aliases al).isSome) s' ∧
      Abs cfg s' { a with aliases := upd a.aliases al none } := by
  obtain ⟨r, s', h1, h2, h3, _⟩ := step_completes (op := .unAlias al []) o t h
    (fun hh => by simp only [SpecState.hangs, hw] at hh; simp at hh) (fun _ => id)
  simp only [SpecState.allows, if_true] at h2
  cases r <;> simp only [Ret.view, SRet.bool.injEq, reduceCtorEq] at h2
  subst h2
  exact ⟨s', h1, by simpa [SpecState.next] using h3⟩

theorem C33_remove_entry (h : Abs cfg s a) (hw : a.leakedWriter = false) (al i : Name) (hi : i ≠ [])
    (hd : (a.docs i).isSome) (l : List Name) (hl : a.aliases al = some l) (o : Oracle) (t : Tid) :
    ∃ s', run cfg o t (Op.prog cfg (.unAlias al i)) s = .ok (.bool true) s' ∧
      Abs cfg s' { a with aliases := upd a.aliases al (some (l.filter fun x => x ≠ i)) } := by
  obtain ⟨r, s', h1, h2, h3, _⟩ := step_completes (op := .unAlias al i) o t h
    (fun hh => by simp only [SpecState.hangs, hw] at hh; simp at hh) (fun _ => id)
  simp only [SpecState.allows, if_neg hi, hd, hl, Option.isSome_some, Bool.and_self] at h2
  cases r <;> simp only [Ret.view, SRet.bool.injEq, reduceCtorEq] at h2
  subst h2
  refine ⟨s', h1, ?_⟩
  simp only [SpecState.next, if_neg hi, hd, if_true, hl] at h3
  exact h3

/-- An alias keeps existing when its last index is removed, and `true` is returned even when nothing
was removed. -/
theorem C33_last_entry : returned [.put (str "x") docD, .alias (str "a") (str "x"), .unAlias (str "a") (str "x"),
    .hasAlias (str "a"), .unAlias (str "a") (str "x")]
    = some [.unit, .bool true, .bool true, .bool true, .bool true] := by decide +kernel

/-! ## C34 -/

/-- Full statement of C34: after `UnAlias` returned false every other call completes. -/
def FailedUnAliasHarmless (cfg : Cfg) (s : Shared) (al i : Name) : Prop :=
  ∀ o t s', run cfg o t (Op.prog cfg (.unAlias al i)) s = .ok (.bool false) s' →
    ∀ (op : Op) o' t' s'', run cfg o' t' (op.prog cfg) s' ≠ .hang s''

/-- False: after `UnAlias` of an unknown index `Put` never returns, after `UnAlias` of an unknown
alias `HasAlias` never returns. -/
theorem C34_refuted :
    returned [.put (str "x") docD, .unAlias (str "a") (str "nope")] = some [.unit, .bool false] ∧
    getsStuck [.put (str "x") docD, .unAlias (str "a") (str "nope"), .put (str "x") docE] = true ∧
    getsStuck [.put (str "x") docD, .unAlias (str "a") (str "nope"), .drop (str "x")] = true ∧
    getsStuck [.put (str "x") docD, .unAlias (str "a") (str "nope"), .rename (str "x") (str "y")] = true ∧
    returned [.put (str "x") docD, .unAlias (str "a") (str "x")] = some [.unit, .bool false] ∧
    getsStuck [.put (str "x") docD, .unAlias (str "a") (str "x"), .hasAlias (str "a")] = true := by
  decide +kernel

/-- The negation of the full statement, in a reachable state. -/
theorem C34_refuted_statement :
    ∃ s, Reachable sampleCfg s ∧ ¬ FailedUnAliasHarmless sampleCfg s (str "a") (str "nope") := by
  refine ⟨stateAfter [.put (str "x") docD], ⟨calls [.put (str "x") docD], [.unit], by decide +kernel⟩, fun hk => ?_⟩
  have hrun : run sampleCfg sampleOracle 0 (Op.prog sampleCfg (.unAlias (str "a") (str "nope")))
      (stateAfter [.put (str "x") docD])
      = .ok (.bool false) (stateAfter [.put (str "x") docD, .unAlias (str "a") (str "nope")]) := by
    decide +kernel
  refine hk sampleOracle 0 _ hrun (.put (str "x") docE) sampleOracle 0
    (stateAfter [.put (str "x") docD, .unAlias (str "a") (str "nope"), .put (str "x") docE]) ?_
  decide +kernel

/-- C34 when the whole alias is removed (`index = ""`), in a state with no leaked lock.  Missing:
exactly the calls with a non-empty index, for which a false return always leaks a lock
(`C34_false_always_leaks`). -/
theorem C34_whole_alias_partial (h : Abs cfg s a) (hh : Healthy a) (al : Name) :
    FailedUnAliasHarmless cfg s al [] := by
  intro o t s' hrun op o' t' s'' hop
  obtain ⟨_, _, _, h4, _⟩ := step_ok h hrun
  exact (hh.next (cfg := cfg) (.unAlias al []) (Or.inl rfl)).no_hang op (step_hang h4 hop)

/-- A false return with a non-empty index always leaks exactly one lock. -/
theorem C34_false_always_leaks (h : Abs cfg s a) (al i : Name) (hi : i ≠ []) (o : Oracle) (t : Tid)
    (s' : Shared) (hrun : run cfg o t (Op.prog cfg (.unAlias al i)) s = .ok (.bool false) s') :
    (a.docs i = none ∧ Abs cfg s' { a with leakedReaders := a.leakedReaders + 1 }) ∨
    ((a.docs i).isSome ∧ a.aliases al = none ∧ Abs cfg s' { a with leakedWriter := true }) := by
  obtain ⟨_, _, h3, h4, _⟩ := step_ok h hrun
  simp only [SpecState.allows, if_neg hi, Ret.view, SRet.bool.injEq] at h3
  simp only [SpecState.next, if_neg hi] at h4
  cases hd : a.docs i with
  | none =>
    left
    simp only [hd, Option.isSome_none, Bool.false_eq_true, if_false] at h4
    exact ⟨rfl, h4⟩
  | some rs =>
    right
    simp only [hd, Option.isSome_some, if_true] at h3 h4
    cases hal : a.aliases al with
    | none => rw [hal] at h4; exact ⟨rfl, rfl, h4⟩
    | some l => rw [hal] at h3; simp at h3

/-- With a leaked read lock no `Put`, and no `Rename`, ever returns, and no `Drop` of an existing
index. -/
theorem C34_leaked_reader_blocks (h : Abs cfg s a) (hl : 0 < a.leakedReaders) (op : Op)
    (hop : (∃ n d, op = .put n d) ∨ (∃ x y, op = .rename x y) ∨ ∃ n, op = .drop n ∧ (a.docs n).isSome)
    (o : Oracle) (t : Tid) : ∃ s', run cfg o t (op.prog cfg) s = .hang s' := by
  apply step_hangs o t h
  rcases hop with ⟨n, d, rfl⟩ | ⟨x, y, rfl⟩ | ⟨n, rfl, hn⟩
  · exact Or.inr hl
  · exact hl
  · exact ⟨hn, Or.inl hl⟩

/-- With a leaked write lock no call that looks at the aliases returns. -/
theorem C34_leaked_writer_blocks (h : Abs cfg s a) (hl : a.leakedWriter = true) (op : Op)
    (hop : op = .listAliases ∨ (∃ n, op = .hasAlias n) ∨ (∃ x y, op = .alias x y ∧ (a.docs y).isSome) ∨
      (∃ x, op = .unAlias x []) ∨ (∃ n d, op = .put n d ∧ a.docs n = none) ∨
      (∃ n ts e, op = .search n ts e ∧ a.docs n = none) ∨ ∃ n, op = .drop n ∧ (a.docs n).isSome)
    (o : Oracle) (t : Tid) : ∃ s', run cfg o t (op.prog cfg) s = .hang s' := by
  apply step_hangs o t h
  rcases hop with rfl | ⟨n, rfl⟩ | ⟨x, y, rfl, hy⟩ | ⟨x, rfl⟩ | ⟨n, d, rfl, hn⟩ | ⟨n, ts, e, rfl, hn⟩ | ⟨n, rfl, hn⟩
  · exact hl
  · exact hl
  · exact ⟨hy, hl⟩
  · exact ⟨Or.inl rfl, hl⟩
  · exact Or.inl ⟨hn, hl⟩
  · exact ⟨hn, hl⟩
  · exact ⟨hn, Or.inr hl⟩

/-! ## C35 -/

theorem C35_rename_moves (h : Abs cfg s a) (hl : a.leakedReaders = 0) (old new : Name)
    (rs : List DocRequest) (hold : a.docs old = some rs) (hne : new ≠ old) (o : Oracle) (t : Tid) :
    ∃ s' a', run cfg o t (Op.prog cfg (.rename old new)) s = .ok (.bool true) s' ∧ Abs cfg s' a' ∧
      a'.docs new = some rs ∧ a'.docs old = none ∧
      (∀ m, m ≠ old → m ≠ new → a'.docs m = a.docs m) ∧
      (∀ k, a'.aliases k = (a.aliases k).map (List.map fun x => if x = old then new else x)) ∧
      a'.leakedReaders = a.leakedReaders ∧ a'.leakedWriter = a.leakedWriter := by
  obtain ⟨r, s', h1, h2, h3, _⟩ := step_completes (op := .rename old new) o t h
    (fun hh => by simp only [SpecState.hangs] at hh; omega) (fun _ => id)
  simp only [SpecState.allows, hold, Option.isSome_some] at h2
  cases r <;> simp only [Ret.view, SRet.bool.injEq, reduceCtorEq] at h2
  subst h2
  refine ⟨s', _, h1, h3, ?_, ?_, ?_, ?_, ?_, ?_⟩ <;> simp only [SpecState.next, hold, upd]
  · simp [hne]
  · simp
  · intro m hm hm'; simp [hm, hm']
  · intro k; trivial

theorem C35_rename_unknown (h : Abs cfg s a) (hl : a.leakedReaders = 0) (old new : Name)
    (hold : a.docs old = none) (o : Oracle) (t : Tid) :
    ∃ s', run cfg o t (Op.prog cfg (.rename old new)) s = .ok (.bool false) s' ∧ Abs cfg s' a := by
  obtain ⟨r, s', h1, h2, h3, _⟩ := step_completes (op := .rename old new) o t h
    (fun hh => by simp only [SpecState.hangs] at hh; omega) (fun _ => id)
  simp only [SpecState.allows, hold] at h2
  cases r <;> simp only [Ret.view, SRet.bool.injEq, reduceCtorEq] at h2
  subst h2
  exact ⟨s', h1, by simpa [SpecState.next, hold] using h3⟩

/-! ## C37 -/

theorem C37_drop (h : Abs cfg s a) (hl : a.leakedReaders = 0) (hw : a.leakedWriter = false) (n : Name)
    (hn : (a.docs n).isSome) (o : Oracle) (t : Tid) :
    ∃ s' a', run cfg o t (Op.prog cfg (.drop n)) s = .ok (.bool true) s' ∧ Abs cfg s' a' ∧
      a'.docs n = none ∧ (∀ m, m ≠ n → a'.docs m = a.docs m) ∧
      (∀ k l, a'.aliases k = some l ↔
        l ≠ [] ∧ ∃ l0, a.aliases k = some l0 ∧ l = l0.filter fun x => x ≠ n) ∧
      (∀ k l, a'.aliases k = some l → n ∉ l) ∧
      (∀ k l, a.aliases k = some l → l ≠ [] → n ∉ l → a'.aliases k = some l) := by
  obtain ⟨r, s', h1, h2, h3, _⟩ := step_completes (op := .drop n) o t h
    (fun hh => by simp only [SpecState.hangs, hl, hw] at hh; simp at hh) (fun _ => id)
  simp only [SpecState.allows, hn] at h2
  cases r <;> simp only [Ret.view, SRet.bool.injEq, reduceCtorEq] at h2
  subst h2
  have hal : ∀ k l, (a.next (.drop n)).aliases k = some l ↔
        l ≠ [] ∧ ∃ l0, a.aliases k = some l0 ∧ l = l0.filter fun x => x ≠ n := by
    intro k l
    simp only [SpecState.next, hn, if_true]
    rw [Option.bind_eq_some_iff]
    constructor
    · rintro ⟨l0, h4, h5⟩
      split at h5
      · simp at h5
      · rename_i hne; injection h5 with h5; subst h5; exact ⟨hne, l0, h4, rfl⟩
    · rintro ⟨hne, l0, h4, rfl⟩
      exact ⟨l0, h4, by rw [if_neg hne]⟩
  refine ⟨s', _, h1, h3, ?_, ?_, hal, ?_, ?_⟩
  · simp [SpecState.next, hn, upd]
  · intro m hm; simp [SpecState.next, hn, upd, hm]
  · intro k l hk
    obtain ⟨_, l0, _, rfl⟩ := (hal k l).1 hk
    simp
  · intro k l hk hne hnl
    rw [hal]
    refine ⟨hne, l, hk, ?_⟩
    rw [List.filter_eq_self.2]
    intro x hx
    simp only [ne_eq, decide_eq_true_eq]
    intro he; subst he; exact hnl hx

theorem C37_drop_unknown (h : Abs cfg s a) (n : Name) (hn : a.docs n = none) (o : Oracle) (t : Tid) :
    ∃ s', run cfg o t (Op.prog cfg (.drop n)) s = .ok (.bool false) s' ∧ Abs cfg s' a := by
  obtain ⟨r, s', h1, h2, h3, _⟩ := step_completes (op := .drop n) o t h
    (fun hh => by simp only [SpecState.hangs, hn] at hh; simp at hh) (fun _ => id)
  simp only [SpecState.allows, hn] at h2
  cases r <;> simp only [Ret.view, SRet.bool.injEq, reduceCtorEq] at h2
  subst h2
  exact ⟨s', h1, by simpa [SpecState.next, hn] using h3⟩

/-- `Drop` also deletes aliases that were empty before and had nothing to do with the index. -/
theorem C37_drop_deletes_unrelated_empty_alias :
    returned [.put (str "x") docD, .put (str "y") docE, .alias (str "a") (str "x"),
      .unAlias (str "a") (str "x"), .hasAlias (str "a"), .drop (str "y"), .hasAlias (str "a")]
    = some [.unit, .unit, .bool true, .bool true, .bool true, .bool true, .bool false] := by decide +kernel

/-! ## C38 -/

/-- Full statement of C38 for one state. -/
def NoDangling (a : SpecState) : Prop := ∀ k l, a.aliases k = some l → ∀ n ∈ l, (a.docs n).isSome

/-- False: `Rename` of an aliased index to itself leaves a dangling alias; searching or putting
through it dereferences a nil index. -/
theorem C38_refuted :
    returned [.put (str "x") docD, .alias (str "a") (str "x"), .rename (str "x") (str "x")]
      = some [.unit, .bool true, .bool true] ∧
    crashesWith [.put (str "x") docD, .alias (str "a") (str "x"), .rename (str "x") (str "x"),
      .search (str "a") (str "java") linearSearch] = some .nilIndex ∧
    crashesWith [.put (str "x") docD, .alias (str "a") (str "x"), .rename (str "x") (str "x"),
      .put (str "a") docE] = some .nilIndex := by decide +kernel

/-- C38 for call sequences that never rename an index to itself.  Missing: exactly those renames. -/
theorem C38_no_dangling_partial (cs : List Call) (rets : List SRet)
    (hren : ∀ c ∈ cs, ∀ x, c.op ≠ .rename x x)
    (hrun : runCalls cfg cs newIndexRepo = .ok rets s) :
    ∃ a, Abs cfg s a ∧ NoDangling a := by
  have key : ∀ (cs : List Call) (s0 : Shared) (a0 : SpecState) (rets : List SRet),
      (∀ c ∈ cs, ∀ x, c.op ≠ .rename x x) → Abs cfg s0 a0 → NoDangling a0 →
      runCalls cfg cs s0 = .ok rets s → ∃ a, Abs cfg s a ∧ NoDangling a := by
    intro cs
    induction cs with
    | nil =>
      intro s0 a0 rets _ h hd hrun
      simp only [runCalls, Outcome.ok.injEq] at hrun
      exact ⟨a0, hrun.2 ▸ h, hd⟩
    | cons c cs ih =>
      intro s0 a0 rets hren h hd hrun
      simp only [runCalls] at hrun
      cases hr : run cfg c.oracle c.tid (c.op.prog cfg) s0 with
      | hang _ => rw [hr] at hrun; simp at hrun
      | crash _ => rw [hr] at hrun; simp at hrun
      | ok r s1 =>
        rw [hr] at hrun
        simp only [andThen_ok] at hrun
        cases hrs : runCalls cfg cs s1 with
        | hang _ => rw [hrs] at hrun; simp at hrun
        | crash _ => rw [hrs] at hrun; simp at hrun
        | ok rs s2 =>
          rw [hrs] at hrun
          simp only [andThen_ok, Outcome.ok.injEq] at hrun
          obtain ⟨_, _, _, h4, _⟩ := step_ok h hr
          refine ih s1 _ rs (fun c hc => hren c (List.mem_cons_of_mem _ hc)) h4 ?_ (by rw [hrs, hrun.2])
          -- the invariant, call by call
          have hop := hren c (by simp)
          generalize c.op = op at hop
          cases op with
          | list => exact hd
          | listAliases => exact hd
          | string => exact hd
          | has n => exact hd
          | hasAlias n => exact hd
          | search n ts e => exact hd
          | alias al i =>
            intro k l hk n hn
            by_cases hdi : (a0.docs i).isSome = true
            · cases hal : a0.aliases al with
              | none =>
                simp only [SpecState.next, hdi, hal, if_true] at hk ⊢
                simp only [upd] at hk
                split at hk
                · injection hk with hk; subst hk
                  simp only [List.mem_singleton] at hn; subst hn; exact hdi
                · exact hd k l hk n hn
              | some l0 =>
                by_cases hm : i ∈ l0
                · simp only [SpecState.next, hdi, hal, if_true, hm] at hk ⊢
                  exact hd k l hk n hn
                · simp only [SpecState.next, hdi, hal, if_true, hm, if_false] at hk ⊢
                  simp only [upd] at hk
                  split at hk
                  · injection hk with hk; subst hk
                    rcases List.mem_append.1 hn with hn | hn
                    · exact hd al l0 hal n hn
                    · simp only [List.mem_singleton] at hn; subst hn; exact hdi
                  · exact hd k l hk n hn
            · simp only [SpecState.next, hdi] at hk ⊢
              exact hd k l hk n hn
          | unAlias al i =>
            intro k l hk n hn
            by_cases hi : i = []
            · simp only [SpecState.next, hi, if_true] at hk ⊢
              simp only [upd] at hk
              split at hk
              · simp at hk
              · exact hd k l hk n hn
            · by_cases hdi : (a0.docs i).isSome = true
              · cases hal : a0.aliases al with
                | none =>
                  simp only [SpecState.next, hi, hdi, hal, if_true, if_false] at hk ⊢
                  exact hd k l hk n hn
                | some l0 =>
                  simp only [SpecState.next, hi, hdi, hal, if_true, if_false] at hk ⊢
                  simp only [upd] at hk
                  split at hk
                  · injection hk with hk; subst hk
                    exact hd al l0 hal n (List.mem_filter.1 hn).1
                  · exact hd k l hk n hn
              · simp only [SpecState.next, hi, hdi, if_false] at hk ⊢
                exact hd k l hk n hn
          | put n d =>
            intro k l hk m hm
            cases hres : a0.resolve n with
            | none =>
              simp only [SpecState.next, hres, upd] at hk ⊢
              split
              · rfl
              · exact hd k l hk m hm
            | some l0 =>
              simp only [SpecState.next, hres] at hk ⊢
              split
              · rw [Option.isSome_map]; exact hd k l hk m hm
              · exact hd k l hk m hm
          | rename old new =>
            have hne : new ≠ old := by
              intro he
              exact hop old (by rw [he])
            intro k l hk m hm
            cases hold : a0.docs old with
            | none =>
              simp only [SpecState.next, hold] at hk ⊢
              exact hd k l hk m hm
            | some rs0 =>
              simp only [SpecState.next, hold, upd] at hk ⊢
              obtain ⟨l0, hl0, rfl⟩ := Option.map_eq_some_iff.1 hk
              obtain ⟨x, hx, rfl⟩ := List.mem_map.1 hm
              by_cases hxo : x = old
              · rw [if_pos hxo, if_neg hne, if_pos rfl]; rfl
              · rw [if_neg hxo, if_neg hxo]
                split
                · rfl
                · exact hd k l0 hl0 x hx
          | drop n =>
            intro k l hk m hm
            simp only [SpecState.next] at hk ⊢
            split at hk
            · rename_i hdn
              rw [if_pos hdn]
              obtain ⟨l0, hl0, hk⟩ := Option.bind_eq_some_iff.1 hk
              split at hk
              · simp at hk
              · injection hk with hk; subst hk
                rw [List.mem_filter] at hm
                have hmn : m ≠ n := by simpa using hm.2
                simp only [upd, if_neg hmn]
                exact hd k l0 hl0 m hm.1
            · rename_i hdn; rw [if_neg hdn]; exact hd k l hk m hm
  exact key cs newIndexRepo SpecState.empty rets hren (abs_empty cfg) (by simp [NoDangling, SpecState.empty]) hrun

/-- Without dangling aliases no search and no put dereferences a nil index. -/
theorem C38_no_nil_index (h : Abs cfg s a) (hd : NoDangling a) (op : Op) (o : Oracle) (t : Tid) :
    run cfg o t (op.prog cfg) s ≠ .crash .nilIndex := by
  intro hrun
  have hc := (step_crash h hrun).2
  have hlive : ∀ n l, a.resolve n = some l → ∀ m ∈ l, (a.docs m).isSome := by
    intro n l hr m hm
    unfold SpecState.resolve at hr
    split at hr
    · rename_i hd'; injection hr with hr; subst hr; simp only [List.mem_singleton] at hm; subst hm; exact hd'
    · exact hd n l hr m hm
  cases op with
  | put n d =>
    obtain ⟨l, h1, h2⟩ := hc
    rcases h2 with ⟨_, m, hm, hn⟩ | ⟨h0, _⟩
    · have := hlive n l h1 m hm; rw [hn] at this; simp at this
    · simp at h0
  | search n ts e =>
    obtain ⟨l, h1, h2⟩ := hc
    rcases h2 with ⟨_, m, hm, hn⟩ | ⟨h0, _⟩
    · have := hlive n l h1 m hm; rw [hn] at this; simp at this
    · simp at h0
  | _ => exact hc

/-! ## C39 -/

/-- False: `Rename` onto an index of the same alias makes the alias list it twice; a search then
reports every document twice, and a put through the alias writes one index from two goroutines. -/
theorem C39_refuted :
    returned [.put (str "x") docD, .put (str "y") docE, .alias (str "a") (str "x"), .alias (str "a") (str "y"),
        .rename (str "x") (str "y"), .search (str "a") (str "java") linearSearch, .listAliases]
      = some [.unit, .unit, .bool true, .bool true, .bool true,
        .results [{ document := { name := str "d", content := str "java" }, hits := 1 },
                  { document := { name := str "d", content := str "java" }, hits := 1 }],
        .rows [(str "a", [str "y", str "y"])]] ∧
    crashesWith [.put (str "x") docD, .put (str "y") docE, .alias (str "a") (str "x"), .alias (str "a") (str "y"),
        .rename (str "x") (str "y"), .put (str "a") docD] = some .race := by decide +kernel

/-- C39 for guarded call sequences (no `Rename` onto an existing index).  Missing: call sequences
with such a `Rename`. -/
theorem C39_entries_distinct_partial (cs : List Call) (hg : Guarded cfg SpecState.empty (cs.map Call.op)) :
    ∃ rets s a, runCalls cfg cs newIndexRepo = .ok rets s ∧ Abs cfg s a ∧
      ∀ k l, a.aliases k = some l → l.Nodup := by
  obtain ⟨rets, s, a, h1, _, h3, h4⟩ := C30_guarded_calls_complete cs hg
  exact ⟨rets, s, a, h1, h3, h4.nodup⟩

/-! ## C40 -/

/-- A search resolves to the index of that name, else to the alias, else it is an error. -/
theorem C40_search_resolution (h : Abs cfg s a) (n : Name) (ts : Str) (e : Engine) (o : Oracle) (t : Tid)
    (r : Ret) (s' : Shared) (hrun : run cfg o t (Op.prog cfg (.search n ts e)) s = .ok r s') :
    (∀ rs, a.docs n = some rs → ∃ l, r = .results l ∧ specSearch cfg rs ts e = some l) ∧
    (a.docs n = none → a.aliases n = none → r = .noIndex) ∧
    (∀ l, a.docs n = none → a.aliases n = some l → ∃ order : List Name, order.Perm l ∧
      ∃ parts : List (List SearchResult),
        order.map (fun m => (a.docs m).bind fun rs => specSearch cfg rs ts e) = parts.map some ∧
        r = .results parts.flatten) := by
  obtain ⟨_, _, h3, _, _⟩ := step_ok h hrun
  refine ⟨fun rs hrs => ?_, fun h1 h2 => ?_, fun l h1 h2 => ?_⟩
  · have hres : a.resolve n = some [n] := by simp [SpecState.resolve, hrs]
    simp only [SpecState.allows, hres] at h3
    obtain ⟨order, h4, parts, h5, h6⟩ := h3
    have : order = [n] := List.perm_singleton.1 h4
    subst this
    simp only [List.map_cons, List.map_nil, hrs, Option.bind_some] at h5
    cases r <;> simp only [Ret.view, SRet.results.injEq, reduceCtorEq] at h6
    subst h6
    cases parts with
    | nil => simp at h5
    | cons p ps =>
      cases ps with
      | cons _ _ => simp at h5
      | nil =>
        simp only [List.map_cons, List.map_nil, List.cons.injEq, and_true] at h5
        exact ⟨_, rfl, by simpa using h5⟩
  · have hres : a.resolve n = none := by simp [SpecState.resolve, h1, h2]
    simp only [SpecState.allows, hres] at h3
    cases r <;> simp only [Ret.view, reduceCtorEq] at h3
    rfl
  · have hres : a.resolve n = some l := by simp [SpecState.resolve, h1, h2]
    simp only [SpecState.allows, hres] at h3
    obtain ⟨order, h4, parts, h5, h6⟩ := h3
    cases r <;> simp only [Ret.view, SRet.results.injEq, reduceCtorEq] at h6
    subst h6
    exact ⟨order, h4, parts, h5, rfl⟩

/-- A put resolves in the same way; a name that is neither an index nor an alias becomes an index with
exactly that document. -/
theorem C40_put_resolution (h : Abs cfg s a) (n : Name) (d : DocRequest) (o : Oracle) (t : Tid)
    (r : Ret) (s' : Shared) (hrun : run cfg o t (Op.prog cfg (.put n d)) s = .ok r s') :
    ∃ a', Abs cfg s' a' ∧ a'.aliases = a.aliases ∧
    (∀ rs, a.docs n = some rs → a'.docs = upd a.docs n (some (rs ++ [d]))) ∧
    (a.docs n = none → a.aliases n = none → a'.docs = upd a.docs n (some [d])) ∧
    (∀ l, a.docs n = none → a.aliases n = some l →
      ∀ m, a'.docs m = if m ∈ l then (a.docs m).map (· ++ [d]) else a.docs m) := by
  obtain ⟨_, _, _, h4, _⟩ := step_ok h hrun
  refine ⟨_, h4, ?_, fun rs hrs => ?_, fun h1 h2 => ?_, fun l h1 h2 m => ?_⟩
  · simp only [SpecState.next]; split <;> rfl
  · have hres : a.resolve n = some [n] := by simp [SpecState.resolve, hrs]
    simp only [SpecState.next, hres]
    funext m
    simp only [List.mem_singleton, upd]
    split
    · rename_i hm; subst hm; simp [hrs]
    · rfl
  · have hres : a.resolve n = none := by simp [SpecState.resolve, h1, h2]
    simp only [SpecState.next, hres]
  · have hres : a.resolve n = some l := by simp [SpecState.resolve, h1, h2]
    simp only [SpecState.next, hres]

/-- An index shadows an alias of the same name. -/
example : returned [.put (str "x") docD, .alias (str "y") (str "x"), .put (str "z") docE,
      .rename (str "z") (str "y"), .search (str "y") (str "go") linearSearch]
    = some [.unit, .bool true, .unit, .bool true,
        .results [{ document := { name := str "e", content := str "go" }, hits := 1 }]] := by decide +kernel

/-- What a direct search of an index returns. -/
theorem search_direct (h : Abs cfg s a) {m : Name} {rs : List DocRequest} (hrs : a.docs m = some rs) {ts : Str}
    {e : Engine} {l : List SearchResult} (hs : specSearch cfg rs ts e = some l) (o : Oracle) (t : Tid) :
    run cfg o t (Op.prog cfg (.search m ts e)) s = .ok (.results l) s := by
  have hres : a.resolve m = some [m] := by simp [SpecState.resolve, hrs]
  obtain ⟨r, s'', g1, _, _, g4⟩ := step_completes (op := .search m ts e) o t h
    (fun hh => by simp only [SpecState.hangs, hrs] at hh; simp at hh)
    (by
      rintro c ⟨l', e1, e2⟩
      rw [hres] at e1; injection e1 with e1; subst e1
      rcases e2 with ⟨_, m', hm', hd⟩ | ⟨_, _, m', hm', rs', hrs', hn⟩
      · simp only [List.mem_singleton] at hm'; subst hm'; rw [hrs] at hd; simp at hd
      · simp only [List.mem_singleton] at hm'; subst hm'
        rw [hrs] at hrs'; injection hrs' with hrs'; subst hrs'
        rw [hs] at hn; simp at hn)
  have := g4.2 rfl; subst this
  obtain ⟨q, hq1, hq2⟩ := (C40_search_resolution h m ts e o t r _ g1).1 rs hrs
  rw [hs] at hq2; injection hq2 with hq2; subst hq2
  rw [g1, hq1]

/-- What `Has` returns. -/
theorem has_direct (h : Abs cfg s a) (n : Name) (o : Oracle) (t : Tid) :
    run cfg o t (Op.prog cfg (.has n)) s = .ok (.bool (a.docs n).isSome) s := by
  obtain ⟨r, s', g1, g2, _, g6⟩ := step_completes (op := .has n) o t h id (fun _ => id)
  have := g6.2 rfl; subst this
  rw [g1]
  have g2' : r.view s' = .bool (a.docs n).isSome := g2
  cases r <;> simp only [Ret.view, SRet.bool.injEq, reduceCtorEq] at g2'
  rw [g2']

/-! ## C36 -/

/-- Full statement of C36: after a true `Rename`, for every index there is a name under which every
query gives what it gave before. -/
def RenameKeepsDocuments (cfg : Cfg) (s : Shared) (old new : Name) : Prop :=
  ∀ o t s', run cfg o t (Op.prog cfg (.rename old new)) s = .ok (.bool true) s' →
    ∀ m, run cfg o t (Op.prog cfg (.has m)) s = .ok (.bool true) s →
      ∃ m', ∀ ts e l, run cfg o t (Op.prog cfg (.search m ts e)) s = .ok (.results l) s →
        run cfg o t (Op.prog cfg (.search m' ts e)) s' = .ok (.results l) s'

/-- False: `Rename` onto an existing index destroys it, and `Rename` of an index to itself destroys
it. -/
theorem C36_refuted :
    returned [.put (str "x") docD, .put (str "y") docE, .rename (str "x") (str "y"), .list,
        .search (str "y") (str "go") linearSearch]
      = some [.unit, .unit, .bool true, .names [str "y"], .results []] ∧
    returned [.put (str "x") docD, .rename (str "x") (str "x"), .list]
      = some [.unit, .bool true, .names []] := by decide +kernel

/-- The negation of the full statement, in a reachable state. -/
theorem C36_refuted_statement :
    ∃ s, Reachable sampleCfg s ∧ ¬ RenameKeepsDocuments sampleCfg s (str "x") (str "y") := by
  have hre : Reachable sampleCfg (stateAfter [.put (str "x") docD, .put (str "y") docE]) :=
    ⟨calls [.put (str "x") docD, .put (str "y") docE], [.unit, .unit], by decide +kernel⟩
  refine ⟨_, hre, fun hk => ?_⟩
  have hrun : run sampleCfg sampleOracle 0 (Op.prog sampleCfg (.rename (str "x") (str "y")))
      (stateAfter [.put (str "x") docD, .put (str "y") docE])
      = .ok (.bool true) (stateAfter [.put (str "x") docD, .put (str "y") docE, .rename (str "x") (str "y")]) := by
    decide +kernel
  obtain ⟨m', hm'⟩ := hk sampleOracle 0 _ hrun (str "y") (by decide +kernel)
  have hg := hm' (str "go") linearSearch [{ document := { name := str "e", content := str "go" }, hits := 1 }]
    (by decide +kernel)
  obtain ⟨a', ha'⟩ := (hre.step hrun).abs
  have hlist := (step_ok (o := sampleOracle) (t := 0) (op := .list) (r := .names [str "y"])
    (s' := stateAfter [.put (str "x") docD, .put (str "y") docE, .rename (str "x") (str "y")]) ha' (by decide +kernel)).2.2.1
  have hal := (step_ok (o := sampleOracle) (t := 0) (op := .listAliases) (r := .rows [])
    (s' := stateAfter [.put (str "x") docD, .put (str "y") docE, .rename (str "x") (str "y")]) ha' (by decide +kernel)).2.2.1
  obtain ⟨l, h1, _, h2⟩ := hlist
  simp only [Ret.view, SRet.names.injEq] at h1
  subst h1
  obtain ⟨l, h3, _, h4⟩ := hal
  simp only [Ret.view, SRet.rows.injEq, List.map_nil] at h3
  subst h3
  by_cases hy : m' = str "y"
  · subst hy
    revert hg
    decide +kernel
  · have hd : a'.docs m' = none := by
      cases hd : a'.docs m' with
      | none => rfl
      | some _ =>
        have := (h2 m').2 (by rw [hd]; rfl)
        simp only [List.mem_singleton] at this
        exact absurd this hy
    have hn : a'.aliases m' = none := by
      cases hn : a'.aliases m' with
      | none => rfl
      | some v => exact absurd ((h4 m' v).2 hn) (by simp)
    have := (C40_search_resolution ha' m' _ _ _ _ _ _ hg).2.1 hd hn
    simp at this

/-- C36 when the new name is free.  Missing: the renames to an existing name (including the name itself),
which lose its documents (`C36_overwrite`, `C36_rename_to_itself`) unless another index looks the same
(`C36_guard_exact`). -/
theorem C36_rename_to_free_name_partial (hr : Reachable cfg s) (old new : Name)
    (hnew : ∀ o t, run cfg o t (Op.prog cfg (.has new)) s = .ok (.bool false) s) :
    RenameKeepsDocuments cfg s old new := by
  obtain ⟨a, h⟩ := hr.abs
  intro o t s' hrun m hm
  have hnew : a.docs new = none := by
    have := (step_ok h (hnew o t)).2.2.1
    simp only [SpecState.allows, Ret.view, SRet.bool.injEq] at this
    simpa using this.symm
  have hm : (a.docs m).isSome = true := by
    have := (step_ok h hm).2.2.1
    simp only [SpecState.allows, Ret.view, SRet.bool.injEq] at this
    exact this.symm
  obtain ⟨rs, hrs⟩ := Option.isSome_iff_exists.1 hm
  obtain ⟨_, _, h3, h4, _⟩ := step_ok h hrun
  have : ∃ m', (a.next (.rename old new)).docs m' = some rs := by
    simp only [SpecState.next]
    cases hold : a.docs old with
    | none => exact ⟨m, by simpa using hrs⟩
    | some rs0 =>
      have hne : new ≠ old := by intro he; rw [he, hold] at hnew; simp at hnew
      by_cases hmo : m = old
      · subst hmo
        rw [hrs] at hold; injection hold with hold; subst hold
        exact ⟨new, by simp [upd, hne]⟩
      · have hmn : m ≠ new := by intro he; rw [he, hnew] at hrs; simp at hrs
        exact ⟨m, by simp [upd, hmo, hmn, hrs]⟩
  obtain ⟨m', hm'⟩ := this
  refine ⟨m', fun ts e l hl => ?_⟩
  obtain ⟨l0, g1, g2⟩ := (C40_search_resolution h m ts e o t _ s hl).1 rs hrs
  injection g1 with g1; subst g1
  exact search_direct h4 hm' g2 o t

/-- `Rename` of an index to itself removes it. -/
theorem C36_rename_to_itself (h : Abs cfg s a) (hl : a.leakedReaders = 0) (n : Name)
    (hn : (a.docs n).isSome) (o : Oracle) (t : Tid) :
    ∃ s' a', run cfg o t (Op.prog cfg (.rename n n)) s = .ok (.bool true) s' ∧ Abs cfg s' a' ∧
      a'.docs n = none ∧ a'.aliases = a.aliases := by
  obtain ⟨rs, hrs⟩ := Option.isSome_iff_exists.1 hn
  obtain ⟨r, s', h1, h2, h3, _⟩ := step_completes (op := .rename n n) o t h
    (fun hh => by simp only [SpecState.hangs] at hh; omega) (fun _ => id)
  simp only [SpecState.allows, hrs, Option.isSome_some] at h2
  cases r <;> simp only [Ret.view, SRet.bool.injEq, reduceCtorEq] at h2
  subst h2
  refine ⟨s', _, h1, h3, ?_, ?_⟩ <;> simp only [SpecState.next, hrs]
  · simp [upd]
  · funext k
    cases a.aliases k with
    | none => rfl
    | some l =>
      have : (l.map fun x => if x = n then n else x) = l := by
        conv => rhs; rw [← List.map_id l]
        apply List.map_congr_left
        intro x _
        by_cases hx : x = n <;> simp [hx]
      simp [this]

/-- What is lost, exactly: after `Rename` onto an existing index its documents are gone. -/
theorem C36_overwrite (h : Abs cfg s a) (hl : a.leakedReaders = 0) (old new : Name)
    (rs rs' : List DocRequest) (hold : a.docs old = some rs)
    (hne : new ≠ old) (o : Oracle) (t : Tid) :
    ∃ s' a', run cfg o t (Op.prog cfg (.rename old new)) s = .ok (.bool true) s' ∧ Abs cfg s' a' ∧
      a'.docs new = some rs ∧ ∀ m, m ≠ new → a'.docs m = some rs' → a.docs m = some rs' ∧ m ≠ old := by
  obtain ⟨s', a', h1, h2, h3, h4, h5, _⟩ := C35_rename_moves h hl old new rs hold hne o t
  refine ⟨s', a', h1, h2, h3, fun m hm hh => ?_⟩
  have hmo : m ≠ old := by intro he; rw [he, h4] at hh; simp at hh
  exact ⟨(h5 m hmo hm) ▸ hh, hmo⟩

/-! ## C35–C38 as seen by a caller -/

/-- After a true `Rename` to another name, every query of `new` gives what it gave for `old`, and `old`
is gone. -/
theorem C35_rename_observed (hr : Reachable cfg s) (old new : Name) (hne : new ≠ old) (o : Oracle) (t : Tid)
    (s' : Shared) (hrun : run cfg o t (Op.prog cfg (.rename old new)) s = .ok (.bool true) s') :
    (∀ ts e l o' t', run cfg o' t' (Op.prog cfg (.search old ts e)) s = .ok (.results l) s →
      ∀ o'' t'', run cfg o'' t'' (Op.prog cfg (.search new ts e)) s' = .ok (.results l) s') ∧
    (∀ o' t', run cfg o' t' (Op.prog cfg (.has old)) s' = .ok (.bool false) s') ∧
    (∀ o' t', run cfg o' t' (Op.prog cfg (.has new)) s' = .ok (.bool true) s') := by
  obtain ⟨a, h⟩ := hr.abs
  obtain ⟨hh, _, h3, h4, _⟩ := step_ok h hrun
  simp only [SpecState.allows, Ret.view, SRet.bool.injEq] at h3
  obtain ⟨rs, hrs⟩ := Option.isSome_iff_exists.1 h3.symm
  have hnew : (a.next (.rename old new)).docs new = some rs := by simp [SpecState.next, hrs, upd, hne]
  have hold : (a.next (.rename old new)).docs old = none := by simp [SpecState.next, hrs, upd]
  refine ⟨fun ts e l o' t' hl o'' t'' => ?_, fun o' t' => ?_, fun o' t' => ?_⟩
  · obtain ⟨l0, g1, g2⟩ := (C40_search_resolution h old ts e o' t' _ s hl).1 rs hrs
    injection g1 with g1; subst g1
    exact search_direct h4 hnew g2 o'' t''
  · have := has_direct h4 old o' t'; rw [hold] at this; exact this
  · have := has_direct h4 new o' t'; rw [hnew] at this; exact this

/-- After a true `Drop` the index is gone and no row of `ListAliases` mentions it or is empty. -/
theorem C37_drop_observed (hr : Reachable cfg s) (n : Name) (o : Oracle) (t : Tid) (s' : Shared)
    (hrun : run cfg o t (Op.prog cfg (.drop n)) s = .ok (.bool true) s') :
    (∀ o' t', run cfg o' t' (Op.prog cfg (.has n)) s' = .ok (.bool false) s') ∧
    (∀ o' t' rows s'', run cfg o' t' (Op.prog cfg .listAliases) s' = .ok (.rows rows) s'' →
      ∀ e ∈ rows, n ∉ s''.elems e.2 ∧ s''.elems e.2 ≠ []) := by
  obtain ⟨a, h⟩ := hr.abs
  obtain ⟨hh, _, h3, h4, _⟩ := step_ok h hrun
  simp only [SpecState.allows, Ret.view, SRet.bool.injEq] at h3
  obtain ⟨rs, hrs⟩ := Option.isSome_iff_exists.1 h3.symm
  refine ⟨fun o' t' => ?_, fun o' t' rows s'' hl e he => ?_⟩
  · have := has_direct h4 n o' t'
    rw [this]; simp [SpecState.next, hrs, upd]
  · obtain ⟨l, g1, _, g2⟩ := (step_ok h4 hl).2.2.1
    simp only [Ret.view, SRet.rows.injEq] at g1
    subst g1
    have hk := (g2 e.1 (s''.elems e.2)).1 (List.mem_map.2 ⟨e, he, rfl⟩)
    simp only [SpecState.next, hrs, Option.isSome_some, if_true] at hk
    obtain ⟨l0, _, hk⟩ := Option.bind_eq_some_iff.1 hk
    split at hk
    · simp at hk
    · rename_i hne
      injection hk with hk
      rw [← hk]
      exact ⟨by simp, hne⟩

/-- Every name in a row of `ListAliases` is an index, for histories that never rename an index to
itself. -/
theorem C38_rows_exist_partial (cs : List Call) (rets : List SRet) (hren : ∀ c ∈ cs, ∀ x, c.op ≠ .rename x x)
    (hrun : runCalls cfg cs newIndexRepo = .ok rets s) (o : Oracle) (t : Tid) (rows : List (Name × SliceRef))
    (hl : run cfg o t (Op.prog cfg .listAliases) s = .ok (.rows rows) s) :
    ∀ e ∈ rows, ∀ n ∈ s.elems e.2, ∀ o' t', run cfg o' t' (Op.prog cfg (.has n)) s = .ok (.bool true) s := by
  obtain ⟨a, h, hd⟩ := C38_no_dangling_partial cs rets hren hrun
  intro e he n hn o' t'
  obtain ⟨l, g1, _, g2⟩ := (step_ok h hl).2.2.1
  simp only [Ret.view, SRet.rows.injEq] at g1
  subst g1
  have hk := (g2 e.1 (s.elems e.2)).1 (List.mem_map.2 ⟨e, he, rfl⟩)
  have := has_direct h n o' t'
  rw [this, hd e.1 _ hk n hn]

/-! ## C41 -/

/-- For every schedule the result of an alias search is the concatenation, in some order of the
alias's indices, of what searching each index directly returns. -/
theorem C41_alias_search_merges (h : Abs cfg s a) (k : Name) (hk : a.docs k = none) (l : List Name)
    (hl : a.aliases k = some l) (ts : Str) (e : Engine) (o : Oracle) (t : Tid) (r : Ret) (s' : Shared)
    (hrun : run cfg o t (Op.prog cfg (.search k ts e)) s = .ok r s') :
    ∃ order : List Name, order.Perm l ∧ ∃ parts : List (List SearchResult), r = .results parts.flatten ∧
      Forall2 (fun m part => ∀ o' t', run cfg o' t' (Op.prog cfg (.search m ts e)) s = .ok (.results part) s)
        order parts := by
  obtain ⟨order, h1, parts, h2, h3⟩ := (C40_search_resolution h k ts e o t r s' hrun).2.2 l hk hl
  refine ⟨order, h1, parts, h3, ?_⟩
  clear h1 h3
  induction order generalizing parts with
  | nil =>
    cases parts with
    | nil => exact .nil
    | cons p ps => simp at h2
  | cons m order ih =>
    cases parts with
    | nil => simp at h2
    | cons p ps =>
      simp only [List.map_cons, List.cons.injEq] at h2
      refine .cons ?_ (ih ps h2.2)
      intro o' t'
      obtain ⟨rs, hrs, hs⟩ := Option.bind_eq_some_iff.1 h2.1
      exact search_direct h hrs hs o' t'

/-- A one-index alias returns exactly the results of its index. -/
theorem C41_single_index_alias (h : Abs cfg s a) (k m : Name) (hk : a.docs k = none)
    (hl : a.aliases k = some [m]) (ts : Str) (e : Engine) (o : Oracle) (t : Tid) (r : Ret) (s' : Shared)
    (hrun : run cfg o t (Op.prog cfg (.search k ts e)) s = .ok r s') (o' : Oracle) (t' : Tid) :
    run cfg o' t' (Op.prog cfg (.search m ts e)) s = .ok r s := by
  obtain ⟨order, h1, parts, h2, h3⟩ := C41_alias_search_merges h k hk [m] hl ts e o t r s' hrun
  have : order = [m] := List.perm_singleton.1 h1
  subst this
  cases h3 with
  | cons hx hr =>
    cases hr
    subst h2
    simpa using hx o' t'

/-! ## C42 -/

/-- Two indices with one document each. -/
def twoIndexAlias : List Op :=
  [.put (str "x") docD, .put (str "y") docD, .put (str "y") docE, .alias (str "a") (str "x"),
   .alias (str "a") (str "y")]

/-- False: with two indices in an alias the order of the results depends on the scheduler. -/
theorem C42_refuted :
    ∃ r r' : Ret, r ≠ r' ∧
      run sampleCfg sampleOracle 0 (Op.prog sampleCfg (.search (str "a") [] noopAllSearch))
        (stateAfter twoIndexAlias) = .ok r (stateAfter twoIndexAlias) ∧
      run sampleCfg reverseOracle 0 (Op.prog sampleCfg (.search (str "a") [] noopAllSearch))
        (stateAfter twoIndexAlias) = .ok r' (stateAfter twoIndexAlias) := by
  refine ⟨.results (List.map (fun d => { document := docOf d, hits := 0 }) [docD, docD, docE]),
    .results (List.map (fun d => { document := docOf d, hits := 0 }) [docD, docE, docD]), ?_⟩
  decide +kernel

/-- C42 when the name resolves to at most one index.  Missing: aliases with several indices, for
which only the multiset of results is determined (`C42_same_results`). -/
theorem C42_single_index_partial (h : Abs cfg s a) (n : Name) (ts : Str) (e : Engine)
    (hone : ∀ l, a.resolve n = some l → l.length ≤ 1) (o o' : Oracle) (t t' : Tid) (r r' : Ret)
    (s' s'' : Shared)
    (hrun : run cfg o t (Op.prog cfg (.search n ts e)) s = .ok r s')
    (hrun' : run cfg o' t' (Op.prog cfg (.search n ts e)) s' = .ok r' s'') : r = r' := by
  obtain ⟨_, _, h3, _, hf⟩ := step_ok h hrun
  have := hf.2 rfl; subst this
  obtain ⟨_, _, h3', _, _⟩ := step_ok h hrun'
  have hview : r.view s' = r'.view s'' := by
    simp only [SpecState.allows] at h3 h3'
    cases hres : a.resolve n with
    | none => rw [hres] at h3 h3'; simp only at h3 h3'; rw [h3, h3']
    | some l =>
      rw [hres] at h3 h3'
      simp only at h3 h3'
      obtain ⟨order, p1, parts, p2, p3⟩ := h3
      obtain ⟨order', q1, parts', q2, q3⟩ := h3'
      have hl := hone l hres
      have : order = order' := by
        match l, hl with
        | [], _ => rw [List.perm_nil.1 p1, List.perm_nil.1 q1]
        | [m], _ => rw [List.perm_singleton.1 p1, List.perm_singleton.1 q1]
      subst this
      have : parts = parts' := by
        have hm := p2.symm.trans q2
        exact (List.map_inj_right fun _ _ h => Option.some.inj h).1 hm
      subst this
      rw [p3, q3]
  have hsearch : ∀ (x : Ret) (st : Shared), x.view st = .noIndex ∨ (∃ l, x.view st = .results l) →
      ∀ (y : Ret) (st' : Shared), x.view st = y.view st' → x = y := by
    intro x st hx y st' hxy
    cases x <;> cases y <;> simp_all [Ret.view]
  refine hsearch r s' ?_ r' s'' hview
  simp only [SpecState.allows] at h3
  split at h3
  · exact Or.inl h3
  · obtain ⟨_, _, parts, _, p3⟩ := h3; exact Or.inr ⟨_, p3⟩

/-- In general two searches return the same results up to order. -/
theorem C42_same_results (h : Abs cfg s a) (n : Name) (ts : Str) (e : Engine) (o o' : Oracle) (t t' : Tid)
    (l l' : List SearchResult) (s' s'' : Shared)
    (hrun : run cfg o t (Op.prog cfg (.search n ts e)) s = .ok (.results l) s')
    (hrun' : run cfg o' t' (Op.prog cfg (.search n ts e)) s' = .ok (.results l') s'') : l.Perm l' := by
  obtain ⟨_, _, h3, _, hf⟩ := step_ok h hrun
  have := hf.2 rfl; subst this
  obtain ⟨_, _, h3', _, _⟩ := step_ok h hrun'
  simp only [SpecState.allows] at h3 h3'
  cases hres : a.resolve n with
  | none => rw [hres] at h3; simp [Ret.view] at h3
  | some ns =>
    rw [hres] at h3 h3'
    simp only [Ret.view, SRet.results.injEq] at h3 h3'
    obtain ⟨order, p1, parts, p2, rfl⟩ := h3
    obtain ⟨order', q1, parts', q2, rfl⟩ := h3'
    have hp : (parts.map some).Perm (parts'.map some) := by
      rw [← p2, ← q2]
      exact (p1.trans q1.symm).map _
    obtain ⟨ys, hy1, hy2⟩ := perm_map_inv hp
    have : ys = parts := ((List.map_inj_right fun _ _ h => Option.some.inj h).1 hy2).symm
    subst this
    exact hy1.flatten

/-! ## C43 -/

/-- After a put through an alias each listed index has exactly one more document, the one put, every
other index is unchanged, and the aliases are unchanged. -/
theorem C43_put_through_alias (h : Abs cfg s a) (hh : Healthy a) (k : Name) (hk : a.docs k = none)
    (l : List Name) (hl : a.aliases k = some l) (d : DocRequest) (o : Oracle) (t : Tid) :
    ∃ s' a', run cfg o t (Op.prog cfg (.put k d)) s = .ok .unit s' ∧ Abs cfg s' a' ∧
      (∀ m ∈ l, ∃ rs, a.docs m = some rs ∧ a'.docs m = some (rs ++ [d])) ∧
      (∀ m, m ∉ l → a'.docs m = a.docs m) ∧ a'.aliases = a.aliases := by
  obtain ⟨r, s', h1, h2, h3, _⟩ := step_completes (op := .put k d) o t h (hh.no_hang _)
    (hh.no_crash (cfg := cfg) (.put k d) trivial)
  have hres : a.resolve k = some l := by simp [SpecState.resolve, hk, hl]
  simp only [SpecState.allows] at h2
  cases r <;> simp only [Ret.view, reduceCtorEq] at h2
  refine ⟨s', _, h1, h3, ?_, ?_, ?_⟩ <;> simp only [SpecState.next, hres]
  · intro m hm
    obtain ⟨rs, hrs⟩ := Option.isSome_iff_exists.1 (hh.live k l hl m hm)
    exact ⟨rs, hrs, by simp [hm, hrs]⟩
  · intro m hm; rw [if_neg hm]

/-! ## C44 -/

/-- Full statement of C44: after a put a search of the same name with `NoopAllSearch` reports the
document. -/
def PutIsFound (cfg : Cfg) (s : Shared) (n : Name) (d : DocRequest) : Prop :=
  ∀ o t r s', run cfg o t (Op.prog cfg (.put n d)) s = .ok r s' →
    ∀ o' t' r' s'' ts, run cfg o' t' (Op.prog cfg (.search n ts noopAllSearch)) s' = .ok r' s'' →
      ∃ l, r' = .results l ∧ { document := docOf d, hits := 0 } ∈ l

/-- False: a put through an alias that lists no index is silently discarded. -/
theorem C44_refuted :
    returned [.put (str "x") docD, .alias (str "a") (str "x"), .unAlias (str "a") (str "x"),
      .put (str "a") docE, .search (str "a") [] noopAllSearch, .list]
    = some [.unit, .bool true, .bool true, .unit, .results [], .names [str "x"]] := by decide +kernel

/-- The negation of the full statement, in a reachable state. -/
theorem C44_refuted_statement :
    ∃ s, Reachable sampleCfg s ∧ ¬ PutIsFound sampleCfg s (str "a") docE := by
  refine ⟨stateAfter [.put (str "x") docD, .alias (str "a") (str "x"), .unAlias (str "a") (str "x")],
    ⟨calls [.put (str "x") docD, .alias (str "a") (str "x"), .unAlias (str "a") (str "x")],
      [.unit, .bool true, .bool true], by decide +kernel⟩, fun hk => ?_⟩
  obtain ⟨l, h1, h2⟩ := hk sampleOracle 0 .unit
    (stateAfter [.put (str "x") docD, .alias (str "a") (str "x"), .unAlias (str "a") (str "x")])
    (by decide +kernel) sampleOracle 0 (.results [])
    (stateAfter [.put (str "x") docD, .alias (str "a") (str "x"), .unAlias (str "a") (str "x")]) []
    (by decide +kernel)
  injection h1 with h1
  subst h1
  simp at h2

/-- C44 unless the name is an alias with no index.  Missing: exactly that case. -/
theorem C44_put_is_found_partial (h : Abs cfg s a) (n : Name) (hne : a.resolve n ≠ some []) (d : DocRequest) :
    PutIsFound cfg s n d := by
  intro o t r s' hrun o' t' r' s'' ts hrun'
  obtain ⟨_, hnc, _, h4, _⟩ := step_ok h hrun
  have hdoc : ∀ rs, specSearch cfg (rs ++ [d]) ts noopAllSearch
      = some ((rs ++ [d]).map fun r => { document := docOf r, hits := 0 }) := by
    intro rs
    unfold specSearch
    rw [search_runs_engine, noopAll_eq]
  cases hres : a.resolve n with
  | none =>
    have hd : a.docs n = none := by
      unfold SpecState.resolve at hres
      split at hres
      · simp at hres
      · rename_i hd; simpa using hd
    obtain ⟨l, h5, h6⟩ := (C40_search_resolution h4 n ts _ o' t' r' s'' hrun').1 [d]
      (by simp [SpecState.next, hres, upd])
    have := hdoc []
    simp only [List.nil_append] at this
    rw [this] at h6; injection h6 with h6; subst h6
    exact ⟨_, h5, by simp⟩
  | some l =>
    -- every resolved name exists, otherwise the put would have crashed
    have hlive : ∀ m ∈ l, (a.docs m).isSome := by
      intro m hm
      cases hd : a.docs m with
      | some _ => rfl
      | none => exact absurd ⟨l, hres, Or.inl ⟨rfl, m, hm, hd⟩⟩ (hnc .nilIndex)
    have hlne : l ≠ [] := by intro he; exact hne (by rw [hres, he])
    obtain ⟨m, hm⟩ := List.exists_mem_of_ne_nil l hlne
    obtain ⟨rs, hrs⟩ := Option.isSome_iff_exists.1 (hlive m hm)
    have hm' : (a.next (.put n d)).docs m = some (rs ++ [d]) := by
      simp [SpecState.next, hres, hm, hrs]
    have hres' : (a.next (.put n d)).resolve n = some l := by
      unfold SpecState.resolve at hres ⊢
      simp only [SpecState.next, SpecState.resolve] at *
      split at hres
      · rename_i hd
        injection hres with hres; subst hres
        simp [hd]
      · rename_i hd
        have hd' : a.docs n = none := by simpa using hd
        simp only [hd, Bool.false_eq_true, if_false, hres]
        by_cases hnl : n ∈ l
        · have := hlive n hnl; rw [hd'] at this; simp at this
        · simp [hnl, hd']
    obtain ⟨_, _, g3, _, _⟩ := step_ok h4 hrun'
    simp only [SpecState.allows, hres'] at g3
    obtain ⟨order, p1, parts, p2, p3⟩ := g3
    cases r' <;> simp only [Ret.view, SRet.results.injEq, reduceCtorEq] at p3
    rename_i res
    subst p3
    refine ⟨_, rfl, ?_⟩
    have hmem : (some ((rs ++ [d]).map fun r => ({ document := docOf r, hits := 0 } : SearchResult)))
        ∈ parts.map some := by
      rw [← p2]
      exact List.mem_map.2 ⟨m, p1.mem_iff.2 hm, by rw [hm']; exact hdoc rs⟩
    obtain ⟨p, hp, he⟩ := List.mem_map.1 hmem
    injection he with he
    subst he
    exact List.mem_flatten.2 ⟨_, hp, by simp⟩

/-! ## C45 -/

/-- The indices a call may change. -/
def touched (a : SpecState) : Op → List Name
  | .put n _ => match a.resolve n with
    | none => [n]
    | some l => l
  | .rename old new => [old, new]
  | .drop n => [n]
  | _ => []

/-- A call never changes what a direct search of another index returns. -/
theorem C45_isolation (h : Abs cfg s a) (op : Op) (m : Name) (hm : m ∉ touched a op)
    (hex : (a.docs m).isSome) (o : Oracle) (t : Tid) (r : Ret) (s' : Shared)
    (hrun : run cfg o t (op.prog cfg) s = .ok r s') (ts : Str) (e : Engine) (o' o'' : Oracle) (t' t'' : Tid)
    (l : List SearchResult)
    (hs : run cfg o' t' (Op.prog cfg (.search m ts e)) s = .ok (.results l) s) :
    run cfg o'' t'' (Op.prog cfg (.search m ts e)) s' = .ok (.results l) s' := by
  obtain ⟨_, _, _, h4, _⟩ := step_ok h hrun
  obtain ⟨rs, hrs⟩ := Option.isSome_iff_exists.1 hex
  have hdocs : (a.next op).docs m = some rs := by
    rw [← hrs]
    cases op with
    | list => rfl
    | listAliases => rfl
    | string => rfl
    | has n => rfl
    | hasAlias n => rfl
    | search n ts e => rfl
    | alias al i =>
      simp only [SpecState.next]
      split
      · split
        · rfl
        · split <;> rfl
      · rfl
    | unAlias al i =>
      simp only [SpecState.next]
      split
      · rfl
      · split
        · split <;> rfl
        · rfl
    | put n d =>
      simp only [SpecState.next]
      simp only [touched] at hm
      split
      · rename_i hres
        rw [hres] at hm
        simp only [List.mem_singleton] at hm
        simp [upd, hm]
      · rename_i l hres
        rw [hres] at hm
        simp only at hm ⊢
        rw [if_neg hm]
    | rename old new =>
      simp only [touched, List.mem_cons, List.not_mem_nil, or_false, not_or] at hm
      simp only [SpecState.next]
      split
      · rfl
      · simp [upd, hm.1, hm.2]
    | drop n =>
      simp only [touched, List.mem_singleton] at hm
      simp only [SpecState.next]
      split
      · simp [upd, hm]
      · rfl
  obtain ⟨l0, g1, g2⟩ := (C40_search_resolution h m ts e o' t' _ s hs).1 rs hrs
  injection g1 with g1; subst g1
  exact search_direct h4 hdocs g2 o'' t''

/-! ## C46 -/

/-- A completed read leaves the state exactly as it was, locks included. -/
theorem C46_reads_change_nothing (hr : Reachable cfg s) (op : Op) (hop : op.isRead = true) (o : Oracle)
    (t : Tid) (r : Ret) (s' : Shared) (hrun : run cfg o t (op.prog cfg) s = .ok r s') : s' = s := by
  obtain ⟨a, h⟩ := hr.abs
  exact (step_ok h hrun).2.2.2.2.2 hop

example : (Op.search (str "x") [] linearSearch).isRead = true ∧ Op.list.isRead = true := ⟨rfl, rfl⟩

/-! ## C47 -/

/-- False: a later `Rename` changes the rows returned earlier. -/
theorem C47_refuted :
    ∃ rows : List (Name × SliceRef), ∃ s1 s2 : Shared,
      run sampleCfg sampleOracle 0 (Op.prog sampleCfg .listAliases) (stateAfter twoIndexAlias)
        = .ok (.rows rows) s1 ∧
      run sampleCfg sampleOracle 0 (Op.prog sampleCfg (.rename (str "x") (str "z"))) s1 = .ok (.bool true) s2 ∧
      (rows.map fun e => s1.elems e.2) = [[str "x", str "y"]] ∧
      (rows.map fun e => s2.elems e.2) = [[str "z", str "y"]] :=
  ⟨[(str "a", ⟨1, 2⟩)], stateAfter twoIndexAlias, stateAfter (twoIndexAlias ++ [.rename (str "x") (str "z")]),
    by decide +kernel⟩

/-- C47 for histories without `Rename`.  Missing: histories with a `Rename`, which rewrites rows
already handed out. -/
theorem C47_snapshot_partial (h : Abs cfg s a) (o : Oracle) (t : Tid) (rows : List (Name × SliceRef))
    (s1 : Shared) (hrun : run cfg o t (Op.prog cfg .listAliases) s = .ok (.rows rows) s1)
    (cs : List Call) (hren : ∀ c ∈ cs, c.op.isRename = false) (rets : List SRet) (s2 : Shared)
    (hcs : runCalls cfg cs s1 = .ok rets s2) :
    ∀ e ∈ rows, s2.elems e.2 = s1.elems e.2 := by
  have hs1 := (step_ok h hrun).2.2.2.2.2 rfl
  subst hs1
  -- the rows are slices of the current alias table
  have hsnap : ∀ e ∈ rows, Snap s1.arrays s1.aliases e.2 := by
    have hr2 := hrun
    simp only [Op.prog, Repo.listAliases, run_bind] at hr2
    by_cases hw : s1.amu.writer = none
    · rw [run_rlock .aliases s1 hw] at hr2
      simp only [andThen_ok] at hr2
      rw [run_perform] at hr2
      simp only [exec, Exec.outcome, andThen_ok, Shared.setMu, Shared.mu] at hr2
      have hp := choosePerm_perm o.keyOrder s1.aliases.keys
      obtain ⟨rows', g1, g2, g3⟩ := run_listRows (cfg := cfg) (o := o) (t := t)
        (choosePerm o.keyOrder s1.aliases.keys)
        { s1 with amu := { readers := t :: s1.amu.readers, writer := s1.amu.writer } }
        (fun k hk => by
          obtain ⟨v, hv⟩ := (GoMap.mem_keys_iff _ _).1 (hp.mem_iff.1 hk)
          simp [hv])
      rw [g1] at hr2
      simp only [andThen_ok] at hr2
      rw [run_runlock .aliases _ s1.amu.readers rfl] at hr2
      simp only [andThen_ok, run_pure, Outcome.ok.injEq, Ret.rows.injEq] at hr2
      obtain ⟨rfl, _⟩ := hr2
      intro e he
      exact h.al.snap (g3 e he)
    · rw [run_rlock_blocked .aliases s1 hw] at hr2
      simp at hr2
  clear hrun
  intro e he
  have hse := hsnap e he
  clear hsnap he
  induction cs generalizing s1 a rets with
  | nil =>
    simp only [runCalls, Outcome.ok.injEq] at hcs
    rw [hcs.2]
  | cons c cs ih =>
    simp only [runCalls] at hcs
    cases hr : run cfg c.oracle c.tid (c.op.prog cfg) s1 with
    | hang _ => rw [hr] at hcs; simp at hcs
    | crash _ => rw [hr] at hcs; simp at hcs
    | ok r s1' =>
      rw [hr] at hcs
      simp only [andThen_ok] at hcs
      obtain ⟨_, _, _, k4, k5⟩ := step_ok h hr
      have hk := k5.1 (hren c (by simp)) e.2 hse
      cases hrs : runCalls cfg cs s1' with
      | hang _ => rw [hrs] at hcs; simp at hcs
      | crash _ => rw [hrs] at hcs; simp at hcs
      | ok rs s2' =>
        rw [hrs] at hcs
        simp only [andThen_ok, Outcome.ok.injEq] at hcs
        have := ih s1' (fun c hc => hren c (List.mem_cons_of_mem _ hc)) rs (by rw [hrs, hcs.2]) k4 hk.1
        exact this.trans hk.2

end Visigoth
