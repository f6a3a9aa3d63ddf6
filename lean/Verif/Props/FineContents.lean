import Verif.Props.SameContents
import Verif.Props.FineMore
/-!
# C97 with interleaved goroutines

What calls can be answered from a repository at rest depends on its documents and aliases only, also when the goroutines
that `Put` and `Search` start are interleaved with everything else.
-/
namespace Visigoth

variable {cfg : Cfg}

/-- From `c` calls can be made, all of them have returned in `c'`, and these are they and their results, the slices in
the rows of `ListAliases` included. -/
def FAnswered (cfg : Cfg) (c c' : FConfig) (vs : List (Op × SRet)) : Prop :=
  FSteps cfg c c' ∧ Results (c'.outcomes.drop c.calls.length) c'.sh vs

/-- The same; the slices in the rows of `ListAliases` are not compared. -/
def FAnsweredOnly (cfg : Cfg) (c c' : FConfig) (vs : List (Op × SRet)) : Prop :=
  FSteps cfg c c' ∧ ResultsOnly (c'.outcomes.drop c.calls.length) vs

theorem steps_take {c0 c : Config} (hq : c0.quiet) (h : Steps cfg c0 c) : c.calls.take c0.calls.length = c0.calls := by
  induction h with
  | refl => exact List.take_length
  | tail _ hs ih => exact step_take hq ih hs

theorem quiet_alike {c : FConfig} {d : Config} (al : Alike c d) (hq : d.quiet) : c.quiet := by
  intro x hx hrun
  obtain ⟨t, ht⟩ := List.getElem?_of_mem hx
  obtain ⟨y, hy, sc⟩ := al.calls t x ht
  exact hq y (List.mem_of_getElem? hy) (status_running.2 (sc.status.trans hrun))

/-- At rest nothing can be told apart. -/
theorem alike_shared {c : FConfig} {d : Config} (al : Alike c d) (hq : c.quiet) : c.sh = d.sh := by
  have hh := al.heap fun t x hx hrun => absurd hrun (hq x (List.mem_of_getElem? hx))
  have h1 := al.indices
  have h2 := al.aliases
  have h3 := al.arrays
  have h4 := al.imu
  have h5 := al.amu
  generalize c.sh = s at *
  generalize d.sh = s' at *
  cases s; cases s'
  simp_all

/-- An execution can go on from any configuration at rest. -/
theorem comatch_rest {c : FConfig} {d : Config} (al : Alike c d) (hq : c.quiet) : CoMatch cfg d c := by
  refine ⟨alike_shared al hq, al.len, fun t y hy => ?_⟩
  obtain ⟨x, hx, sc⟩ := alike_back al hy
  have hn := hq x (List.mem_of_getElem? hx)
  refine ⟨x, hx, sc.op.symm, ⟨sc.keyOrder.symm, sc.capacity.symm, fun h => absurd (sc.status.symm.trans h) hn⟩, sc.status, ?_⟩
  cases hst : x.status with
  | running => exact absurd hst hn
  | returned r =>
    rw [returned_of (sc.status.trans hst)]
    have : x.st = .run (.ret r) := by
      unfold FThread.status at hst
      split at hst <;> cases hst
      assumption
    rw [this]
    exact .run (.ret r)
  | crashed e =>
    rw [crashed_of (sc.status.trans hst)]
    have : x.st = .run (.crash e) := by
      unfold FThread.status at hst
      split at hst <;> cases hst
      assumption
    rw [this]
    exact .run (.crash e)

/-- Answers from a configuration at rest are answers from what looks like it. -/
theorem answered_alike {c0 c : FConfig} (hc : FineReachable cfg c0) (hq : c0.quiet) {vs : List (Op × SRet)} (h : FAnsweredOnly cfg c0 c vs) :
    ∃ d0 d, ConcReachable cfg d0 ∧ d0.quiet ∧ c0.sh = d0.sh ∧ AnsweredOnly cfg d0 d vs ∧ c.sh = d.sh ∧
      c.outcomes.drop c0.calls.length = d.outcomes.drop d0.calls.length := by
  obtain ⟨hs, hres⟩ := h
  obtain ⟨d0, d, hd0, hs', al0, al⟩ := fine_two hc hs
  have ho : c.outcomes.drop c0.calls.length = d.outcomes.drop d0.calls.length := by rw [alike_outcomes al, al0.len]
  have hq0 := alike_quiet al0 hq
  rw [ho] at hres
  have hqd := outcomes_quiet hq0 (steps_take hq0 hs') hres
  exact ⟨d0, d, hd0, hq0, alike_shared al0 hq, ⟨hs', hres⟩, alike_shared al (quiet_alike al hqd), ho⟩

/-- And back. -/
theorem answered_back {c0 : FConfig} {d0 d : Config} (hd : ConcReachable cfg d0) (al : Alike c0 d0) (hq : c0.quiet) (hs : Steps cfg d0 d) :
    ∃ c, FSteps cfg c0 c ∧ c.sh = d.sh ∧ c.outcomes.drop c0.calls.length = d.outcomes.drop d0.calls.length := by
  obtain ⟨c, h1, m⟩ := comatch_steps hd (comatch_rest al hq) hs
  exact ⟨c, h1, m.sh, by rw [alike_outcomes (comatch_alike m), al.len]⟩

/-- From two repositories at rest with the same contents the same answers are possible, and they leave the same
contents, in any interleaving of calls and goroutines.  As in `C97_same_answers` none of the calls may be `Rename` or
`String`, or an `UnAlias` that keeps a mutex, and none may be kept when they start. -/
theorem C97_same_answers_goroutines {c0 d0 c : FConfig} (hc : FineReachable cfg c0) (hd : FineReachable cfg d0) (hqc : c0.quiet)
    (hqd : d0.quiet) (hu : d0.sh.noLocks) (he : SameContents cfg c0.sh d0.sh) {vs : List (Op × SRet)} (hk : KeptNothing vs)
    (hr : ∀ x ∈ vs, x.1.isRename = false) (h : FAnswered cfg c0 c vs) :
    ∃ d, FAnswered cfg d0 d vs ∧ SameContents cfg c.sh d.sh := by
  obtain ⟨hs, hres⟩ := h
  obtain ⟨a0, a, g1, g2, g3, ⟨g4, _⟩, g5, g6⟩ := answered_alike hc hqc ⟨hs, results_only hres⟩
  obtain ⟨b0, hb, al⟩ := fine_alike hd
  have hsh := alike_shared al hqd
  rw [g6, g5] at hres
  obtain ⟨b, ⟨k1, k2⟩, k3⟩ := C97_same_answers g1 hb g2 (alike_quiet al hqd) (hsh ▸ hu) (g3 ▸ hsh ▸ he) hk hr ⟨g4, hres⟩
  obtain ⟨d, l1, l2, l3⟩ := answered_back hb al hqd k1
  exact ⟨d, ⟨l1, by rw [l2, l3]; exact k2⟩, by rw [g5, l2]; exact k3⟩

/-- The same answers are possible from both. -/
theorem C97_answers_goroutines_exact {c0 d0 : FConfig} (hc : FineReachable cfg c0) (hd : FineReachable cfg d0) (hqc : c0.quiet)
    (hqd : d0.quiet) (hu : c0.sh.noLocks) (hu' : d0.sh.noLocks) (he : SameContents cfg c0.sh d0.sh) (vs : List (Op × SRet))
    (hk : KeptNothing vs) (hr : ∀ x ∈ vs, x.1.isRename = false) : (∃ c, FAnswered cfg c0 c vs) ↔ ∃ d, FAnswered cfg d0 d vs :=
  ⟨fun ⟨_, h⟩ => (C97_same_answers_goroutines hc hd hqc hqd hu' he hk hr h).imp fun _ h => h.1,
    fun ⟨_, h⟩ => (C97_same_answers_goroutines hd hc hqd hqc hu (sameContents_symm he) hk hr h).imp fun _ h => h.1⟩

/-- With `Rename`, but without `UnAlias`, the same holds except for the slices in the rows of `ListAliases`. -/
theorem C97_same_answers_rename_goroutines {c0 d0 c : FConfig} (hc : FineReachable cfg c0) (hd : FineReachable cfg d0) (hqc : c0.quiet)
    (hqd : d0.quiet) (hu : d0.sh.noLocks) (he : SameContents cfg c0.sh d0.sh) {vs : List (Op × SRet)}
    (hk : ∀ x ∈ vs, x.1 ≠ .string ∧ x.1.isUnAlias = false) (h : FAnsweredOnly cfg c0 c vs) :
    ∃ d, FAnsweredOnly cfg d0 d vs ∧ SameContents cfg c.sh d.sh := by
  obtain ⟨a0, a, g1, g2, g3, g4, g5, _⟩ := answered_alike hc hqc h
  obtain ⟨b0, hb, al⟩ := fine_alike hd
  have hsh := alike_shared al hqd
  obtain ⟨b, ⟨k1, k2⟩, k3⟩ := C97_same_answers_rename g1 hb g2 (alike_quiet al hqd) (hsh ▸ hu) (g3 ▸ hsh ▸ he) hk g4
  obtain ⟨d, l1, l2, l3⟩ := answered_back hb al hqd k1
  exact ⟨d, ⟨l1, by rw [l3]; exact k2⟩, by rw [g5, l2]; exact k3⟩

/-- The same answers are possible from both. -/
theorem C97_answers_rename_goroutines_exact {c0 d0 : FConfig} (hc : FineReachable cfg c0) (hd : FineReachable cfg d0) (hqc : c0.quiet)
    (hqd : d0.quiet) (hu : c0.sh.noLocks) (hu' : d0.sh.noLocks) (he : SameContents cfg c0.sh d0.sh) (vs : List (Op × SRet))
    (hk : ∀ x ∈ vs, x.1 ≠ .string ∧ x.1.isUnAlias = false) : (∃ c, FAnsweredOnly cfg c0 c vs) ↔ ∃ d, FAnsweredOnly cfg d0 d vs :=
  ⟨fun ⟨_, h⟩ => (C97_same_answers_rename_goroutines hc hd hqc hqd hu' he hk h).imp fun _ h => h.1,
    fun ⟨_, h⟩ => (C97_same_answers_rename_goroutines hd hc hqd hqc hu (sameContents_symm he) hk h).imp fun _ h => h.1⟩

/-- Two repositories at rest with the same contents and different labels, reached with interleaved goroutines. -/
example : ∃ c0 d0, FineReachable sampleCfg c0 ∧ FineReachable sampleCfg d0 ∧ c0.quiet ∧ d0.quiet ∧ c0.sh.noLocks ∧ d0.sh.noLocks ∧
    SameContents sampleCfg c0.sh d0.sh ∧ (c0.sh.heap.map (·.name)) = [nameX] ∧ (d0.sh.heap.map (·.name)) = [str "z", nameY] := by
  obtain ⟨c0, d0, h1, h2, h3, h4, h5⟩ := differing_repos
  obtain ⟨c, g1, g2, g3⟩ := C60_nothing_lost h1
  obtain ⟨d, k1, k2, k3⟩ := C60_nothing_lost h2
  refine ⟨c, d, g1, k1, quiet_alike g2 h3, quiet_alike k2 h4, ?_⟩
  rw [g3, k3]
  exact h5

/-- Calls and their results: a `Put` and then a `Has`, from a new repository. -/
example : ∃ c, FAnswered sampleCfg FConfig.init c [(.put nameX docD, .unit), (.has nameX, .bool true)] := by
  have key : ((FConfig.init.play sampleCfg ([fcallNow (.put nameX docD)] ++ fgoes 0 13 ++ [fcallNow (.has nameX)] ++ fgoes 1 3)).map fun c =>
      c.calls.map fun x => (x.op, match x.status with | .returned r => some r | _ => none))
      = some [(.put nameX docD, some .unit), (.has nameX, some (.bool true))] := by with_unfolding_all rfl
  obtain ⟨c, hc, h⟩ := Option.map_eq_some_iff.1 key
  have hl : c.calls.length = 2 := by have := congrArg List.length h; simpa using this
  refine ⟨c, play_fsteps hc, by simp [FConfig.outcomes, FConfig.init, hl], fun t op v hv => ?_⟩
  have get : ∀ (t : Nat) op r, (c.calls.map fun x => (x.op, match x.status with | .returned r => some r | _ => none))[t]? = some (op, some r) →
      (c.outcomes.drop FConfig.init.calls.length)[t]? = some (op, .returned r) := by
    intro t op r h
    rw [List.getElem?_map, Option.map_eq_some_iff] at h
    obtain ⟨x, hx, he⟩ := h
    simp only [Prod.mk.injEq] at he
    have hst : x.status = .returned r := by
      obtain ⟨_, he⟩ := he
      split at he
      · rename_i h; cases he; exact h
      · cases he
    simp [FConfig.outcomes, FConfig.init, hx, he.1, hst]
  match t, hv with
  | 0, hv => cases hv; exact ⟨.unit, get 0 _ _ (by rw [h]; rfl), rfl⟩
  | 1, hv => cases hv; exact ⟨.bool true, get 1 _ _ (by rw [h]; rfl), rfl⟩

end Visigoth
