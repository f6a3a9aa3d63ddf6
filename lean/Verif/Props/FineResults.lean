import Verif.Props.FineContents
import Verif.Props.Realised
import Verif.Props.States
/-!
# C92, C93, C94 and C96 with interleaved goroutines
-/
namespace Visigoth

variable {cfg : Cfg}

theorem results_quiet {c : FConfig} {vs : List (Op × SRet)} (h : ResultsOnly c.outcomes vs) : c.quiet := by
  intro x hx hrun
  obtain ⟨t, ht⟩ := List.getElem?_of_mem hx
  have hl : t < vs.length := by
    rw [← h.1]; simpa [FConfig.outcomes] using (List.getElem?_eq_some_iff.1 ht).1
  obtain ⟨r, h1, _⟩ := h.2 t vs[t].1 vs[t].2 (List.getElem?_eq_getElem hl)
  simp only [FConfig.outcomes, List.getElem?_map, ht, Option.map_some, Option.some.injEq, Prod.mk.injEq] at h1
  rw [hrun] at h1
  cases h1.2

/-- The results that calls can have with interleaved goroutines are exactly those of atomic steps, the slices in the rows of
`ListAliases` included, if there is no `Rename`. -/
theorem C96_results_goroutines_exact (vs : List (Op × SRet)) (hk : KeptNothing vs) (hr : ∀ x ∈ vs, x.1.isRename = false) :
    (∃ c, FineReachable cfg c ∧ Results c.outcomes c.sh vs) ↔
      ∃ A, AReachable cfg A ∧ A.tasks = vs.map fun x => (x.1, .over x.2) := by
  rw [← C96_results_exact vs hk hr]
  constructor
  · rintro ⟨c, hc, h⟩
    obtain ⟨d, hd, al⟩ := fine_alike hc
    exact ⟨d, hd, by rw [← alike_outcomes al, ← alike_shared al (results_quiet (results_only h))]; exact h⟩
  · rintro ⟨d, hd, h⟩
    obtain ⟨c, hc, al, hs⟩ := C60_nothing_lost hd
    exact ⟨c, hc, by rw [alike_outcomes al, hs]; exact h⟩

/-- If there is a `Rename`, but no `UnAlias`, the same holds except for the slices in the rows of `ListAliases`. -/
theorem C96_results_rename_goroutines_exact (vs : List (Op × SRet)) (hk : ∀ x ∈ vs, x.1 ≠ .string ∧ x.1.isUnAlias = false) :
    (∃ c, FineReachable cfg c ∧ ResultsOnly c.outcomes vs) ↔
      ∃ (A : AConfig) (ws : List (Op × SRet)), AReachable cfg A ∧ A.tasks = ws.map (fun x => (x.1, .over x.2)) ∧ ws.length = vs.length ∧
        ∀ (t : Nat) op v, vs[t]? = some (op, v) → ∃ w, ws[t]? = some (op, w) ∧ v.roughly w := by
  rw [← C96_results_exact_rename vs hk]
  constructor
  · rintro ⟨c, hc, h⟩
    obtain ⟨d, hd, al⟩ := fine_alike hc
    exact ⟨d, hd, by rw [← alike_outcomes al]; exact h⟩
  · rintro ⟨d, hd, h⟩
    obtain ⟨c, hc, al, _⟩ := C60_nothing_lost hd
    exact ⟨c, hc, by rw [alike_outcomes al]; exact h⟩

/-- What one caller can be answered after calls with interleaved goroutines have all returned can be answered after calls of
one caller. -/
theorem C93_no_new_answers_goroutines {c : FConfig} (hr : FineReachable cfg c) (hd : c.done) : ∃ s, Reachable cfg s ∧
    ∀ ops : List Op, (∀ op ∈ ops, op ≠ .string) → ∀ rets, CanAnswer cfg c.sh ops rets ↔ CanAnswer cfg s ops rets := by
  obtain ⟨s, h1, h2⟩ := C93_no_new_states_goroutines hr hd
  exact ⟨s, h1, fun _ hns rets => indistinct_answers h2 hns rets⟩

/-- The states that calls with interleaved goroutines can leave behind when all have returned are no others than those of C94. -/
theorem C94_states_goroutines {c : FConfig} (hr : FineReachable cfg c) (hd : c.done) : ∃ a, Abs cfg c.sh a ∧ a.finite ∧ a.filled := by
  obtain ⟨a, ha, hne⟩ := C92_state_goroutines hr hd
  exact ⟨a, ha, abs_finite ha, fun n h => (hne n [] h).1 rfl⟩

/-- The call is an `UnAlias` of an index that returned false; see `Thread.leaks`. -/
def FThread.leaks (x : FThread) : Bool :=
  match x.op, x.status with
  | .unAlias _ i, .returned (.bool false) => i ≠ []
  | _, _ => false

theorem leaks_alike {x : FThread} {y : Thread} (h : SameCall x y) : x.leaks = y.leaks := by
  unfold FThread.leaks Thread.leaks
  rw [← h.op, ← h.status]
  unfold Thread.status
  cases y.op <;> cases y.prog <;> try rfl
  rename_i r
  cases r <;> try rfl
  rename_i b
  cases b <;> rfl

/-- When all calls have returned, with interleaved goroutines, the only locks kept are one for each `UnAlias` of an index that
returned false. -/
theorem C92_locks_goroutines {c : FConfig} (hr : FineReachable cfg c) (hd : c.done) : ∃ a, Abs cfg c.sh a ∧
    a.leakedReaders + a.leakedWriter.toNat = c.calls.countP FThread.leaks := by
  obtain ⟨d, h1, al⟩ := fine_alike hr
  have hq : c.quiet := by
    intro x hx hrun
    obtain ⟨r, h⟩ := hd x hx
    rw [h] at hrun
    cases hrun
  have hdone : d.done := by
    intro y hy
    obtain ⟨t, ht⟩ := List.getElem?_of_mem hy
    obtain ⟨x, hx, sc⟩ := alike_back al ht
    obtain ⟨r, h⟩ := hd x (List.mem_of_getElem? hx)
    exact ⟨r, returned_of (sc.status.trans h)⟩
  obtain ⟨a, g1, _, g2⟩ := C92_state h1 hdone
  refine ⟨a, alike_shared al hq ▸ g1, g2.trans ?_⟩
  have hm : d.calls.map Thread.leaks = c.calls.map FThread.leaks := by
    apply List.ext_getElem?
    intro t
    rw [List.getElem?_map, List.getElem?_map]
    cases hx : c.calls[t]? with
    | none =>
      have : d.calls[t]? = none := by rw [List.getElem?_eq_none_iff, ← al.len]; exact List.getElem?_eq_none_iff.1 hx
      rw [this]; rfl
    | some x =>
      obtain ⟨y, hy, sc⟩ := al.calls t x hx
      rw [hy, Option.map_some, Option.map_some, leaks_alike sc]
  have := congrArg (List.countP id) hm
  rwa [List.countP_map, List.countP_map] at this

/-- A `Put`, and an `UnAlias` of an index that keeps a read lock: all calls have returned. -/
example : ((FConfig.init.play sampleCfg ([fcallNow (.put (str "x") docD)] ++ fgoes 0 13 ++
      [fcallNow (.unAlias (str "al") (str "y"))] ++ fgoes 1 2)).map fun c =>
      (c.calls.map fun x => match x.status with | .returned r => some r | _ => none, c.calls.countP FThread.leaks, c.sh.imu.readers))
    = some ([some .unit, some (.bool false)], 1, [1]) := by decide +kernel

/-- As in `C96_results_goroutines_exact`: calls and results that have neither `Rename` nor a kept mutex. -/
example : KeptNothing [(.put nameX docD, .unit), (.has nameX, .bool true)] ∧
    ∀ x ∈ [(Op.put nameX docD, SRet.unit), (.has nameX, .bool true)], x.1.isRename = false := by
  constructor
  · intro x hx
    simp only [List.mem_cons, List.not_mem_nil, or_false] at hx
    rcases hx with rfl | rfl <;> simp
  · intro x hx
    simp only [List.mem_cons, List.not_mem_nil, or_false] at hx
    rcases hx with rfl | rfl <;> rfl

end Visigoth
