import Verif.Proofs.Twins
import Verif.Props.Fine
/-!
# C90: names do not depend on documents

`Op.forget`, `Ret.forget`, `Status.forget` and `SameNames` (`Spec/Twins.lean`) say what is left when documents,
queries, engines and the contents of indices are forgotten.
-/
namespace Visigoth

variable {cfg cfg' : Cfg}

theorem twin_status {p p' : Prog Ret} {op op' : Op} {o o' : Oracle} (h : Twin cfg cfg' RetLike p p')
    (hr : (Thread.mk op o p).status ≠ .running) :
    (Thread.mk op' o' p').status.forget = (Thread.mk op o p).status.forget := by
  cases h with
  | ret h => exact congrArg Status.returned h
  | crash e => rfl
  | act => exact absurd rfl hr
  | eval => exact absurd rfl hr
  | render => exact absurd rfl hr
  | doc => exact absurd rfl hr
  | post => exact absurd rfl hr

/-- Take any execution, replace documents, queries and engines by others, even the tokenizer: the same calls can be
made such that the same names stand for the same objects, the aliases are the same, the same locks are held by
the same calls; every call that has ended has ended in the same way, with the same answer except for search
results and texts of indices; every call that waits, waits. -/
theorem C90_documents_do_not_matter {c : Config} (hr : ConcReachable cfg c) (hs : ∀ x ∈ c.calls, x.op.noPanic cfg)
    (ops : List Op) (ho : ops.map Op.forget = c.calls.map fun x => x.op.forget) (hs' : ∀ op ∈ ops, op.noPanic cfg') :
    ∃ c', ConcReachable cfg' c' ∧ c'.calls.map (·.op) = ops ∧ SameNames c.sh c'.sh ∧
      ∀ (t : Tid) x, c.calls[t]? = some x → ∃ x', c'.calls[t]? = some x' ∧
        (x.status ≠ .running → x'.status.forget = x.status.forget) ∧
        (¬ c.canMove cfg t → ¬ c'.canMove cfg' t) := by
  obtain ⟨c', hr', ho', tw⟩ := twin_reachable hr ho hs hs'
  refine ⟨c', hr', ho', tw.sh, fun t x hx => ?_⟩
  obtain ⟨x', hx', _, _, hp⟩ := tw.calls t x hx
  exact ⟨x', hx', twin_status hp, twin_stuck hr tw⟩

theorem quiet_status {c : Config} (h : c.quiet) {x : Thread} (hx : x ∈ c.calls) : x.status ≠ .running := by
  have := h x hx
  obtain ⟨op, o, p⟩ := x
  cases p with
  | ret r => exact nofun
  | crash e => exact nofun
  | act a k => exact absurd trivial this

theorem status_quiet {x : Thread} (h : x.status ≠ .running) : ¬ x.running := by
  obtain ⟨op, o, p⟩ := x
  cases p with
  | ret r => exact nofun
  | crash e => exact nofun
  | act a k => exact absurd rfl h

/-- What can come of some calls when all have ended: their ends without search results and texts, and the state
without the contents of the indices. -/
def Ends (cfg : Cfg) (ops : List Op) (ends : List Status) (s : Shared) : Prop :=
  ∃ c, ConcReachable cfg c ∧ c.calls.map (·.op) = ops ∧ c.quiet ∧ c.calls.map (·.status.forget) = ends ∧ SameNames c.sh s

/-- It does not depend on documents, queries, engines and tokenizer. -/
theorem C90_same_ends (ops ops' : List Op) (ho : ops'.map Op.forget = ops.map Op.forget) (hs : ∀ op ∈ ops, op.noPanic cfg)
    (hs' : ∀ op ∈ ops', op.noPanic cfg') (ends : List Status) (s : Shared) :
    Ends cfg ops ends s ↔ Ends cfg' ops' ends s := by
  have key : ∀ {cfg cfg' : Cfg} {ops ops' : List Op}, ops'.map Op.forget = ops.map Op.forget →
      (∀ op ∈ ops, op.noPanic cfg) → (∀ op ∈ ops', op.noPanic cfg') → Ends cfg ops ends s → Ends cfg' ops' ends s := by
    intro cfg cfg' ops ops' ho hs hs'
    rintro ⟨c, hr, rfl, hq, rfl, hn⟩
    obtain ⟨c', hr', ho', hn', hc⟩ := C90_documents_do_not_matter (cfg' := cfg') hr
      (fun x hx => hs _ (List.mem_map_of_mem (f := fun y : Thread => y.op) hx)) ops'
      (by rw [ho, List.map_map]; rfl) hs'
    have hlen : c'.calls.length = c.calls.length := by
      have h1 := congrArg List.length ho'
      have h2 := congrArg List.length ho
      simp at h1 h2
      omega
    have hst : ∀ (t : Tid), (c'.calls[t]?).map (·.status.forget) = (c.calls[t]?).map (·.status.forget) := by
      intro t
      cases hx : c.calls[t]? with
      | none =>
        rw [List.getElem?_eq_none_iff] at hx
        rw [List.getElem?_eq_none_iff.2 (by omega)]
      | some x =>
        obtain ⟨x', hx', h1, _⟩ := hc t x hx
        rw [hx']
        exact congrArg some (h1 (quiet_status hq (List.mem_of_getElem? hx)))
    refine ⟨c', hr', ho', ?_, ?_, hn'.symm.trans hn⟩
    · intro x' hx'
      obtain ⟨t, ht⟩ := List.getElem?_of_mem hx'
      have hlt : t < c.calls.length := by rw [← hlen]; exact (List.getElem?_eq_some_iff.1 ht).1
      obtain ⟨y, hy, h1, _⟩ := hc t _ (List.getElem?_eq_getElem hlt)
      rw [ht] at hy
      cases hy
      have h2 := h1 (quiet_status hq (List.getElem_mem hlt))
      apply status_quiet
      intro h3
      rw [h3] at h2
      have := quiet_status hq (List.getElem_mem hlt)
      cases h4 : (c.calls[t]).status with
      | running => exact this h4
      | returned r => rw [h4] at h2; cases h2
      | crashed e => rw [h4] at h2; cases h2
    · apply List.ext_getElem?
      intro t
      rw [List.getElem?_map, List.getElem?_map]
      exact hst t
  exact ⟨key ho hs hs', key ho.symm hs' hs⟩

/-- The same with the goroutines of all calls interleaved. -/
theorem C90_goroutines {c : FConfig} (hr : FineReachable cfg c) (hs : ∀ x ∈ c.calls, x.op.noPanic cfg)
    (ops : List Op) (ho : ops.map Op.forget = c.calls.map fun x => x.op.forget) (hs' : ∀ op ∈ ops, op.noPanic cfg') :
    ∃ c', FineReachable cfg' c' ∧ c'.calls.map (·.op) = ops ∧
      c'.sh.indices = c.sh.indices ∧ c'.sh.aliases = c.sh.aliases ∧ c'.sh.arrays = c.sh.arrays ∧
      c'.sh.imu = c.sh.imu ∧ c'.sh.amu = c.sh.amu ∧
      ∀ (t : Tid) x, c.calls[t]? = some x → ∃ x', c'.calls[t]? = some x' ∧
        (x.status ≠ .running → x'.status.forget = x.status.forget) := by
  obtain ⟨d, hd, al⟩ := C60_nothing_new hr
  have hout := alike_outcomes al
  have hops : d.calls.map (·.op) = c.calls.map (·.op) := by
    have := congrArg (List.map Prod.fst) hout
    simpa [FConfig.outcomes, Config.outcomes, List.map_map, Function.comp_def] using this.symm
  obtain ⟨d', hd', ho', hn, hc⟩ := C90_documents_do_not_matter (cfg' := cfg') hd
    (fun x hx => by
      have : x.op ∈ d.calls.map (·.op) := List.mem_map_of_mem (f := fun y : Thread => y.op) hx
      rw [hops] at this
      obtain ⟨y, hy, e⟩ := List.mem_map.1 this
      rw [← e]; exact hs y hy) ops
    (by
      have := congrArg (List.map Op.forget) hops
      rw [ho]
      simpa [List.map_map, Function.comp_def] using this.symm) hs'
  obtain ⟨c', hc', al', hsh⟩ := C60_nothing_lost hd'
  have hout' := alike_outcomes al'
  refine ⟨c', hc', ?_, ?_, ?_, ?_, ?_, ?_, ?_⟩
  · have := congrArg (List.map Prod.fst) hout'
    rw [← ho']
    simpa [FConfig.outcomes, Config.outcomes, List.map_map, Function.comp_def] using this
  · rw [hsh, hn.indices, al.indices]
  · rw [hsh, hn.aliases, al.aliases]
  · rw [hsh, hn.arrays, al.arrays]
  · rw [hsh, hn.imu, al.imu]
  · rw [hsh, hn.amu, al.amu]
  · intro t x hx
    obtain ⟨y, hy, sc⟩ := al.calls t x hx
    obtain ⟨y', hy', h1, _⟩ := hc t y hy
    have hlt : t < c'.calls.length := by rw [al'.len]; exact (List.getElem?_eq_some_iff.1 hy').1
    obtain ⟨y2, hy2, sc'⟩ := al'.calls t _ (List.getElem?_eq_getElem hlt)
    rw [hy'] at hy2
    cases hy2
    refine ⟨_, List.getElem?_eq_getElem hlt, fun hne => ?_⟩
    rw [← sc'.status, ← sc.status]
    exact h1 (by rw [sc.status]; exact hne)

/-- The engines of the package satisfy the condition, whatever the tokenizer. -/
theorem C90_package_engines (cfg : Cfg) (sort : List SearchResult → List SearchResult) (n : Name) (ts : Str) :
    ∀ e ∈ [linearSearch, hitsSearch sort, noopZeroSearch, noopAllSearch], (Op.search n ts e).noPanic cfg :=
  fun e he => C30_package_engines_safe sort e he

/-- Two lists of calls that differ in everything but the names, and two tokenizers. -/
def namesOne : List Op :=
  [.put (str "x") docD, .alias (str "al") (str "x"), .put (str "al") docE, .search (str "al") (str "java") linearSearch,
    .rename (str "x") (str "y"), .hasAlias (str "al"), .drop (str "x"), .unAlias (str "al") (str "z")]

def namesTwo : List Op :=
  [.put (str "x") (newDocRequest [] []), .alias (str "al") (str "x"), .put (str "al") (newDocRequest (str "e") (str "a b c d e f")),
    .search (str "al") [] (hitsSearch id), .rename (str "x") (str "y"), .hasAlias (str "al"), .drop (str "x"),
    .unAlias (str "al") (str "z")]

def wordlessCfg : Cfg := { tok := fun _ => [], cp := nonNilCopy }

example : namesTwo.map Op.forget = namesOne.map Op.forget ∧ (∀ op ∈ namesOne, op.noPanic sampleCfg) ∧
    ∀ op ∈ namesTwo, op.noPanic wordlessCfg := by
  refine ⟨rfl, ?_, ?_⟩
  · simp only [namesOne, List.forall_mem_cons, Op.noPanic, true_and, List.not_mem_nil, false_imp_iff, implies_true, and_true]
    exact C30_package_engines_safe id _ (by simp)
  · simp only [namesTwo, List.forall_mem_cons, Op.noPanic, true_and, List.not_mem_nil, false_imp_iff, implies_true, and_true]
    exact C30_package_engines_safe id _ (by simp)

/-- What became of the calls, for evaluation. -/
def forgotten (c : Config) : List (Option (Ret ⊕ Crash)) :=
  c.endings.map fun e => e.map fun
    | .inl r => .inl r.forget
    | .inr e => .inr e

/-- One call after the other, each as far as it gets in 20 steps. -/
def inTurn (cfg : Cfg) (ops : List Op) : Config :=
  ops.foldl (fun c op => (callNow op :: goes c.calls.length 20).foldl (fun c x => (c.next cfg x).getD c) c) Config.init

/-- They end alike, although the numbers of steps differ.  The last call leaves a read lock behind in both. -/
example : (forgotten (inTurn sampleCfg namesOne), (inTurn sampleCfg namesOne).sh.imu.readers)
      = ([some (.inl .unit), some (.inl (.bool true)), some (.inl .unit), some (.inl (.results [])), some (.inl (.bool true)),
        some (.inl (.bool true)), some (.inl (.bool false)), some (.inl (.bool false))], [7]) ∧
    (forgotten (inTurn wordlessCfg namesTwo), (inTurn wordlessCfg namesTwo).sh.imu.readers)
      = (forgotten (inTurn sampleCfg namesOne), (inTurn sampleCfg namesOne).sh.imu.readers) := by decide +kernel

/-- The condition on engines is needed: with an engine that panics the search keeps a read lock. -/
example : (forgotten (inTurn sampleCfg [.put (str "x") docD, .search (str "x") [] fun _ _ => none]),
      (inTurn sampleCfg [.put (str "x") docD, .search (str "x") [] fun _ _ => none]).sh.imu.readers)
        = ([some (.inl .unit), some (.inr .engine)], [1]) ∧
    (forgotten (inTurn sampleCfg [.put (str "x") docD, .search (str "x") [] linearSearch]),
      (inTurn sampleCfg [.put (str "x") docD, .search (str "x") [] linearSearch]).sh.imu.readers)
        = ([some (.inl .unit), some (.inl (.results []))], []) := by decide +kernel

end Visigoth
