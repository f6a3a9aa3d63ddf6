import Verif.Proofs.RestState
import Verif.Proofs.Produce
import Verif.Props.Complete
import Verif.Props.Fine
import Verif.Props.ConcAtomic
/-!
# When all concurrent calls have returned (C92, C93)
-/
namespace Visigoth

variable {cfg : Cfg}

/-! ## C92 -/

/-- When all calls have returned, whatever they were and however they were interleaved, the repository is in a state of
the specification for one caller: no two names share an index, every index is the result of a whole number of `Put`s, at
least one, of requests that were put, and the only locks kept are one for each `UnAlias` of an index that returned
false. -/
theorem C92_state {c : Config} (hr : ConcReachable cfg c) (hd : c.done) : ∃ a, Abs cfg c.sh a ∧
    (∀ n rs, a.docs n = some rs → rs ≠ [] ∧ ∀ r ∈ rs, ∃ x ∈ c.calls, ∃ n, x.op = .put n r) ∧
    a.leakedReaders + a.leakedWriter.toNat = c.calls.countP Thread.leaks := abs_done hr hd

/-- The same with interleaved goroutines. -/
theorem C92_state_goroutines {c : FConfig} (hr : FineReachable cfg c) (hd : c.done) : ∃ a, Abs cfg c.sh a ∧
    ∀ n rs, a.docs n = some rs → rs ≠ [] ∧ ∀ r ∈ rs, ∃ x ∈ c.calls, ∃ n, x.op = .put n r := by
  obtain ⟨d, h1, h2⟩ := C60_nothing_new hr
  have back : ∀ (t : Nat) y, d.calls[t]? = some y → ∃ x ∈ c.calls, SameCall x y := by
    intro t y hy
    have hlt : t < c.calls.length := by rw [h2.len]; exact (List.getElem?_eq_some_iff.1 hy).1
    obtain ⟨y', hy', h⟩ := h2.calls t _ (List.getElem?_eq_getElem hlt)
    rw [hy] at hy'; cases hy'
    exact ⟨_, List.getElem_mem hlt, h⟩
  have hdone : d.done := by
    intro y hy
    obtain ⟨t, ht⟩ := List.getElem?_of_mem hy
    obtain ⟨x, hx, h⟩ := back t y ht
    obtain ⟨r, hr⟩ := hd x hx
    have := h.status
    rw [hr] at this
    unfold Thread.status at this
    split at this
    · exact ⟨_, by assumption⟩
    · cases this
    · cases this
  have hsh : c.sh = d.sh := by
    have hheap := h2.heap (fun t x hx hrun => by
      obtain ⟨r, hr⟩ := hd x (List.mem_of_getElem? hx)
      rw [hr] at hrun; cases hrun)
    have := h2.indices; have := h2.aliases; have := h2.arrays; have := h2.imu; have := h2.amu
    cases hc : c.sh; cases hdd : d.sh
    simp_all
  obtain ⟨a, g1, g2, _⟩ := abs_done h1 hdone
  refine ⟨a, hsh ▸ g1, fun n rs h => ⟨(g2 n rs h).1, fun r hr => ?_⟩⟩
  obtain ⟨y, hy, m, hm⟩ := (g2 n rs h).2 r hr
  obtain ⟨t, ht⟩ := List.getElem?_of_mem hy
  obtain ⟨x, hx, hs⟩ := back t y ht
  exact ⟨x, hx, m, hs.op ▸ hm⟩

/-- A call made when no other is running does what it does when run from start to end: it returns, panics or waits for
ever in the same way. -/
theorem C92_lone_call {c c1 : Config} (hq : c.quiet) (hs : Steps cfg c c1) {x : Thread} (hc : c1.calls = c.calls ++ [x]) :
    (∀ r, x.prog = .ret r → run cfg x.oracle c.calls.length (x.op.prog cfg) c.sh = .ok r c1.sh) ∧
    (∀ e, x.prog = .crash e → run cfg x.oracle c.calls.length (x.op.prog cfg) c.sh = .crash e) ∧
    (x.running → (∀ t, ¬ c1.canMove cfg t) → run cfg x.oracle c.calls.length (x.op.prog cfg) c.sh = .hang c1.sh) := by
  have h := lone_run hq hs hc
  refine ⟨fun r hr => ?_, fun e he => ?_, fun hrun hstuck => ?_⟩
  · rcases h with h | ⟨e, h, _⟩
    · rw [hr] at h; exact h.symm
    · rw [hr] at h; cases h
  · rcases h with h | ⟨e', h, h'⟩
    · rw [he] at h; exact h.symm
    · rw [he] at h; cases h; exact h'
  · obtain ⟨op, o, p⟩ := x
    cases p with
    | ret r => exact absurd hrun id
    | crash e => exact absurd hrun id
    | act a k =>
      rcases h with h | ⟨e, h, _⟩
      · rw [← h]
        have hx : c1.calls[c.calls.length]? = some ⟨op, o, .act a k⟩ := by rw [hc]; simp
        simp only [run]
        cases he : exec cfg o c.calls.length a c1.sh with
        | blocked => rfl
        | crash e =>
          have : c1 = ⟨c1.sh, c1.calls⟩ := rfl
          exact absurd ⟨_, TStep.crash hx he⟩ (hstuck c.calls.length)
        | ok b s' => exact absurd ⟨_, TStep.act hx he⟩ (hstuck c.calls.length)
      · cases h

/-- So one caller goes on as the specification says, in any number of calls: every value returned is one it allows and
the repository stays in the states it says. -/
theorem C92_one_caller_goes_on {c : Config} (hr : ConcReachable cfg c) (hd : c.done) : ∃ a, Abs cfg c.sh a ∧
    ∀ ops rets c', OneByOne cfg c ops rets c' → ∃ a', SpecState.runs cfg a ops rets a' ∧ Abs cfg c'.sh a' := by
  obtain ⟨a, ha, -⟩ := abs_done hr hd
  refine ⟨a, ha, fun ops rets c' h => ?_⟩
  have hq := hd
  clear hr hd
  induction h generalizing a with
  | nil c => exact ⟨a, ⟨rfl, rfl⟩, ha⟩
  | @cons c c1 c2 x r ops rets hs hc hret _ ih =>
    have hrun := (C92_lone_call (Config.done.quiet hq) hs hc).1 r hret
    obtain ⟨h1, h2, h3, h4, _⟩ := step_ok ha hrun
    have hd1 : c1.done := by
      intro y hy
      rw [hc, List.mem_append, List.mem_singleton] at hy
      rcases hy with hy | rfl
      · exact hq y hy
      · exact ⟨r, hret⟩
    obtain ⟨a', g1, g2⟩ := ih _ h4 hd1
    exact ⟨a', ⟨_, _, rfl, h1, h2, h3, g1⟩, g2⟩

/-- And panics or waits for ever exactly when the specification says so. -/
theorem C92_ends_as_specified {c : Config} {a : SpecState} (hq : c.quiet) (ha : Abs cfg c.sh a) (op : Op) (o : Oracle) :
    ∃ c1 x, Steps cfg c c1 ∧ c1.calls = c.calls ++ [x] ∧ x.op = op ∧
      ((a.hangs op ∧ x.running ∧ ∀ t, ¬ c1.canMove cfg t) ∨
       (¬ a.hangs op ∧ ∃ e, a.crashes cfg op e ∧ x.prog = .crash e) ∨
       (¬ a.hangs op ∧ (∀ e, ¬ a.crashes cfg op e) ∧ ∃ r, x.prog = .ret r ∧ a.allows cfg op (r.view c1.sh) ∧ Abs cfg c1.sh (a.next op))) := by
  have front : ∀ {c c1 c2 : Config}, Step cfg c c1 → Steps cfg c1 c2 → Steps cfg c c2 := by
    intro c c1 c2 h1 h2
    induction h2 with
    | refl => exact .tail (.refl _) h1
    | tail _ hs ih => exact .tail ih hs
  have h0 : Step cfg c ⟨c.sh, c.calls ++ [⟨op, o, op.prog cfg⟩]⟩ := .invoke c op o
  have h := run_lone (cfg := cfg) c.calls op o (op.prog cfg) c.sh
  cases hrun : run cfg o c.calls.length (op.prog cfg) c.sh with
  | ok r s' =>
    rw [hrun] at h
    obtain ⟨h1, h2, h3, h4, _⟩ := step_ok ha hrun
    exact ⟨_, _, front h0 h, rfl, rfl, .inr (.inr ⟨h1, h2, r, rfl, h3, h4⟩)⟩
  | crash e =>
    rw [hrun] at h
    obtain ⟨s', h⟩ := h
    obtain ⟨h1, h2⟩ := step_crash ha hrun
    exact ⟨_, _, front h0 h, rfl, rfl, .inr (.inl ⟨h1, e, h2, rfl⟩)⟩
  | hang s' =>
    rw [hrun] at h
    obtain ⟨β, act, k, h, hb⟩ := h
    refine ⟨_, _, front h0 h, rfl, rfl, .inl ⟨step_hang ha hrun, trivial, fun t ⟨c', hm⟩ => ?_⟩⟩
    have at' : ∀ {op' : Op} {o' : Oracle} {β' : Type} {a' : Act β'} {k' : β' → Prog Ret},
        (c.calls ++ [⟨op, o, .act act k⟩])[t]? = some (⟨op', o', .act a' k'⟩ : Thread) →
        t = c.calls.length ∧ (⟨op', o', .act a' k'⟩ : Thread) = ⟨op, o, .act act k⟩ := by
      intro op' o' β' a' k' hx
      by_cases hlt : t < c.calls.length
      · rw [List.getElem?_append_left hlt] at hx
        exact absurd trivial (hq _ (List.mem_of_getElem? hx))
      · rw [List.getElem?_append_right (Nat.le_of_not_lt hlt)] at hx
        have hz : t - c.calls.length = 0 := by
          have := (List.getElem?_eq_some_iff.1 hx).1
          simp at this
          exact this
        rw [hz] at hx
        simp at hx
        exact ⟨Nat.le_antisymm (Nat.le_of_sub_eq_zero hz) (Nat.le_of_not_lt hlt), by rw [hx.1, hx.2.1]; congr 1; exact (Prog.act.injEq .. ▸ hx.2.2).symm ▸ rfl⟩
    cases hm with
    | act hx he =>
      obtain ⟨rfl, h⟩ := at' hx
      cases h
      rw [hb] at he; cases he
    | crash hx he =>
      obtain ⟨rfl, h⟩ := at' hx
      cases h
      rw [hb] at he; cases he

/-- Two `Put`s of a new name overlap, then a `Rename` and an `UnAlias`; all have returned. -/
def busyBefore : List Sched :=
  [callNow (.put (str "x") docD), callNow (.put (str "x") docE)] ++ goes 0 6 ++ goes 1 6 ++ goes 0 7 ++ goes 1 7 ++
    [callNow (.rename (str "x") (str "y"))] ++ goes 2 7 ++ [callNow (.unAlias (str "a") (str "x"))] ++ goes 3 2

/-- As in `C92_state`: one lock is kept. -/
example : (Config.init.play sampleCfg busyBefore).map (fun c => (c.endings, c.calls.countP Thread.leaks, c.sh.imu.readers.length))
    = some ([some (.inl .unit), some (.inl .unit), some (.inl (.bool true)), some (.inl (.bool false))], 1, 1) := by decide +kernel

/-- One caller goes on from there. -/
example : playReturns (busyBefore ++ [callNow (.has (str "y"))] ++ goes 4 3 ++ [callNow (.search (str "y") (str "go") linearSearch)] ++ goes 5 4)
    = some [some .unit, some .unit, some (.bool true), some (.bool false), some (.bool true),
      some (.results [⟨newDoc (str "e") (str "go"), 1⟩])] := by decide +kernel

/-! ## C93 -/

/-- The answers a repository can give one caller: the values returned by a sequence of calls. -/
def CanAnswer (cfg : Cfg) (s : Shared) (ops : List Op) (rets : List SRet) : Prop :=
  ∃ cs s', cs.map Call.op = ops ∧ runCalls cfg cs s = .ok rets s'

/-- Every call that returns for a caller of the one can return the same value for a caller of the other, and they go on
alike.  The text of `String` is left out: it shows labels, see C65. -/
def Follows (cfg : Cfg) (R : Shared → Shared → Prop) (s s' : Shared) : Prop :=
  ∀ op : Op, op ≠ .string → ∀ o t r s1, run cfg o t (op.prog cfg) s = .ok r s1 →
    ∃ o' r' s1', run cfg o' t (op.prog cfg) s' = .ok r' s1' ∧ r'.view s1' = r.view s1 ∧ R s1 s1'

/-- Repositories that one caller cannot tell apart, whatever is called and however often. -/
def Indistinct (cfg : Cfg) (s s' : Shared) : Prop := ∃ R : Shared → Shared → Prop, R s s' ∧ ∀ x x', R x x' →
  Follows cfg R x x' ∧ Follows cfg (fun y y' => R y' y) x' x ∧ ∀ (op : Op) o t,
    ((∃ s', run cfg o t (op.prog cfg) x = .hang s') ↔ ∃ s', run cfg o t (op.prog cfg) x' = .hang s') ∧
    ∀ e, run cfg o t (op.prog cfg) x = .crash e ↔ run cfg o t (op.prog cfg) x' = .crash e

theorem follows_of {s s' : Shared} {a : SpecState} (h : Abs cfg s a) (h' : Abs cfg s' a) :
    Follows cfg (fun y y' => ∃ a, Abs cfg y a ∧ Abs cfg y' a) s s' := by
  intro op hop o t r s1 hk
  obtain ⟨o', r', s2', hk', hv⟩ := (C66_returns_exact h' op hop t _).2 ((C66_returns_exact h op hop t _).1 ⟨_, _, _, hk, rfl⟩)
  exact ⟨o', r', s2', hk', hv, _, (step_ok h hk).2.2.2.1, (step_ok h' hk').2.2.2.1⟩

theorem indistinct_of {s s' : Shared} {a : SpecState} (h : Abs cfg s a) (h' : Abs cfg s' a) : Indistinct cfg s s' := by
  refine ⟨fun y y' => ∃ a, Abs cfg y a ∧ Abs cfg y' a, ⟨a, h, h'⟩, ?_⟩
  rintro x x' ⟨a, h, h'⟩
  refine ⟨follows_of h h', ?_, fun op o t => ⟨?_, fun e => ?_⟩⟩
  · intro op hop o t r s1 hk
    obtain ⟨o', r', s1', e1, e2, b, e3, e4⟩ := follows_of h' h op hop o t r s1 hk
    exact ⟨o', r', s1', e1, e2, b, e4, e3⟩
  · rw [C66_hang_exact h, C66_hang_exact h']
  · rw [C66_crash_exact h, C66_crash_exact h']

/-- So no sequence of calls of one caller tells them apart by what it returns. -/
theorem indistinct_answers {s s' : Shared} (h : Indistinct cfg s s') {ops : List Op} (hns : ∀ op ∈ ops, op ≠ .string)
    (rets : List SRet) : CanAnswer cfg s ops rets ↔ CanAnswer cfg s' ops rets := by
  obtain ⟨R, hR, hb⟩ := h
  have one : ∀ (Q : Shared → Shared → Prop), (∀ x x', Q x x' → Follows cfg Q x x') → ∀ (cs : List Call) (rets : List SRet) (s s' s1 : Shared),
      Q s s' → (∀ op ∈ cs.map Call.op, op ≠ .string) → runCalls cfg cs s = .ok rets s1 → CanAnswer cfg s' (cs.map Call.op) rets := by
    intro Q hQ cs
    induction cs with
    | nil =>
      intro rets s s' s1 _ _ hrun
      simp only [runCalls, Outcome.ok.injEq] at hrun
      exact ⟨[], s', rfl, by rw [runCalls, hrun.1]⟩
    | cons k cs ih =>
      intro rets s s' s1 hq hns hrun
      simp only [runCalls] at hrun
      cases hk : run cfg k.oracle k.tid (k.op.prog cfg) s with
      | hang s2 => rw [hk] at hrun; cases hrun
      | crash e => rw [hk] at hrun; cases hrun
      | ok r s2 =>
        rw [hk] at hrun
        simp only [Outcome.andThen] at hrun
        cases hc : runCalls cfg cs s2 with
        | hang s3 => rw [hc] at hrun; cases hrun
        | crash e => rw [hc] at hrun; cases hrun
        | ok rs s3 =>
          rw [hc] at hrun
          simp only [Outcome.ok.injEq] at hrun
          obtain ⟨rfl, rfl⟩ := hrun
          obtain ⟨o', r', s2', hk', hv, hq'⟩ := hQ s s' hq k.op (hns k.op (by simp)) _ _ _ _ hk
          obtain ⟨cs', s3', e1, e2⟩ := ih rs s2 s2' s3 hq' (fun op ho => hns op (.tail _ ho)) hc
          refine ⟨⟨o', k.tid, k.op⟩ :: cs', s3', by simp [e1], ?_⟩
          simp only [runCalls, hk', Outcome.andThen, e2, hv]
  constructor
  · rintro ⟨cs, s1, rfl, hr⟩
    exact one R (fun x x' h => (hb x x' h).1) cs rets s s' s1 hR hns hr
  · rintro ⟨cs, s1, rfl, hr⟩
    exact one (fun y y' => R y' y) (fun x x' h => (hb x' x h).2.1) cs rets s' s s1 hR hns hr

/-- Any state of the specification with finitely many names and no index without documents is brought about by one
caller, up to what one caller can tell. -/
theorem one_caller_reaches {s0 : Shared} {a : SpecState} (ha : Abs cfg s0 a) (hne : ∀ n rs, a.docs n = some rs → rs ≠ []) :
    ∃ s, Reachable cfg s ∧ Indistinct cfg s0 s := by
  have hkeys : ∀ (n : Name), (a.docs n).isSome ↔ n ∈ s0.indices.keys := by
    intro n
    rw [← ha.idx.isSome, GoMap.mem_keys_iff]
    exact Option.isSome_iff_exists
  have akeys : ∀ (n : Name), (a.aliases n).isSome ↔ n ∈ s0.aliases.keys := by
    intro n
    rw [ha.view, GoMap.mem_keys_iff, alView, Option.isSome_map]
    exact Option.isSome_iff_exists
  obtain ⟨ops, rets, hruns⟩ := leads_any (cfg := cfg) a _ _ hkeys akeys ha.al.nodup hne
  obtain ⟨rets', s, h1, h2⟩ := runs_realised (abs_empty cfg) hruns ⟨id, fun _ => id, id, id⟩ 0
  exact ⟨s, ⟨_, _, h1⟩, indistinct_of ha h2⟩

/-- Concurrency brings about no new states: when all calls have returned, there are calls of one caller that lead to a
repository which one caller cannot tell from it. -/
theorem C93_no_new_states {c : Config} (hr : ConcReachable cfg c) (hd : c.done) : ∃ s, Reachable cfg s ∧ Indistinct cfg c.sh s := by
  obtain ⟨a, ha, hne, _⟩ := abs_done hr hd
  exact one_caller_reaches ha fun n rs h => (hne n rs h).1

/-- The same with interleaved goroutines. -/
theorem C93_no_new_states_goroutines {c : FConfig} (hr : FineReachable cfg c) (hd : c.done) :
    ∃ s, Reachable cfg s ∧ Indistinct cfg c.sh s := by
  obtain ⟨a, ha, hne⟩ := C92_state_goroutines hr hd
  exact one_caller_reaches ha fun n rs h => (hne n rs h).1

/-- In particular later calls of one caller can be answered in the same ways. -/
theorem C93_no_new_answers {c : Config} (hr : ConcReachable cfg c) (hd : c.done) : ∃ s, Reachable cfg s ∧
    ∀ ops : List Op, (∀ op ∈ ops, op ≠ .string) → ∀ rets, CanAnswer cfg c.sh ops rets ↔ CanAnswer cfg s ops rets := by
  obtain ⟨s, h1, h2⟩ := C93_no_new_states hr hd
  exact ⟨s, h1, fun _ hns rets => indistinct_answers h2 hns rets⟩

/-- As in `C93_no_new_states`, after the overlapping calls above: one caller puts `e` in `y` and gives up a lock in the
same way.  The document `d` of the other `Put` is lost. -/
def quietly : List Call := [.put (str "y") docE, .unAlias (str "a") (str "x")].map (⟨sampleOracle, 0, ·⟩)

def laterOn : List Call :=
  [.list, .listAliases, .search (str "y") (str "go") linearSearch, .search (str "y") (str "java") linearSearch,
    .has (str "x")].map (⟨sampleOracle, 0, ·⟩)

def answered : Outcome (List SRet) → Option (List SRet)
  | .ok rs _ => some rs
  | _ => none

example : (answered (runCalls sampleCfg (quietly ++ laterOn) newIndexRepo)).map (·.drop 2) =
      some [.names [str "y"], .rows [], .results [⟨newDoc (str "e") (str "go"), 1⟩], .results [], .bool false] ∧
    (Config.init.play sampleCfg busyBefore).bind (fun c => answered (runCalls sampleCfg laterOn c.sh)) =
      some [.names [str "y"], .rows [], .results [⟨newDoc (str "e") (str "go"), 1⟩], .results [], .bool false] := by
  decide +kernel

/-- In both, a later `Drop` waits for ever. -/
def waits : Outcome Ret → Bool
  | .hang _ => true
  | _ => false

example : (match runCalls sampleCfg quietly newIndexRepo with
      | .ok _ s => waits (run sampleCfg sampleOracle 0 (Op.prog sampleCfg (.drop (str "y"))) s)
      | _ => false) = true ∧
    (Config.init.play sampleCfg busyBefore).map (fun c => waits (run sampleCfg sampleOracle 0 (Op.prog sampleCfg (.drop (str "y"))) c.sh))
      = some true := by
  decide +kernel

end Visigoth
