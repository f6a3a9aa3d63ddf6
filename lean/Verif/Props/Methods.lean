import Verif.Proofs.Mute
import Verif.Props.NoInvalid
import Verif.Props.Snapshot
import Verif.Props.Render
import Verif.Props.Fine
import Verif.Props.FineMore
/-!
# Which methods can be used together (C79)

For each thing that can go wrong in some execution of concurrent calls, exactly which sets of methods exclude it.
(`C51_methods_exact` is the same question for data races.)
-/
namespace Visigoth

set_option synthInstance.maxSize 1000

variable {cfg : Cfg}

/-- An execution in which only these methods are called. -/
def ReachableWith (cfg : Cfg) (M : Method → Prop) (c : Config) : Prop :=
  ConcReachable cfg c ∧ ∀ x ∈ c.calls, M x.op.method

/-- No call panics, unless the engine it was given does. -/
def PanicFreeWith (cfg : Cfg) (M : Method → Prop) : Prop :=
  ∀ c, ReachableWith cfg M c → ∀ x ∈ c.calls, ∀ e, x.prog = .crash e → e = .engine

/-- Whenever no call is running, every alias lists distinct existing indices. -/
def ConsistentWith (cfg : Cfg) (M : Method → Prop) : Prop :=
  ∀ c, ReachableWith cfg M c → c.quiet → ∀ al r, c.sh.aliases.get al = some r →
    (c.sh.elems r).Nodup ∧ ∀ i ∈ c.sh.elems r, (c.sh.indices.get i).isSome = true

/-- When no call can go on, all calls are over (or one has panicked). -/
def CompletesWith (cfg : Cfg) (M : Method → Prop) : Prop :=
  ∀ c, ReachableWith cfg M c → (∀ u, ¬ c.canMove cfg u) → c.quiet ∨ ∃ x ∈ c.calls, ∃ e, x.prog = .crash e

/-- What `ListAliases` has returned is never changed afterwards. -/
def RowsStayWith (cfg : Cfg) (M : Method → Prop) : Prop :=
  ∀ c c', ConcReachable cfg c → Steps cfg c c' → (∀ x ∈ c'.calls, M x.op.method) → ∀ (t : Tid) (x : Thread) (rows : List (Name × SliceRef)),
    c.calls[t]? = some x → x.op = .listAliases → x.prog = .ret (.rows rows) → ∀ e ∈ rows, c'.sh.elems e.2 = c.sh.elems e.2

/-- Every index carries the name it is found by. -/
def LabelledWith (cfg : Cfg) (M : Method → Prop) : Prop :=
  ∀ c, ReachableWith cfg M c → ∀ n p, c.sh.indices.get n = some p → ∃ mi, c.sh.heap[p]? = some mi ∧ mi.name = n

/-! ## Executions that show what goes wrong -/

/-- `Put x`, `Alias al x`. -/
def aliased : List Sched :=
  [callNow (.put (str "x") docD)] ++ goes 0 13 ++ [callNow (.alias (str "al") (str "x"))] ++ goes 1 9

/-- Renaming `x` to itself loses the index; `al` still lists it. -/
def selfRenamed : List Sched := aliased ++ [callNow (.rename (str "x") (str "x"))] ++ goes 2 10

theorem methods_of {c : Config} {l : List Method} (h : c.calls.map (·.op.method) = l) {M : Method → Prop} (hl : ∀ m ∈ l, M m) :
    ∀ x ∈ c.calls, M x.op.method := fun _ hx => hl _ (h ▸ List.mem_map_of_mem (f := fun x : Thread => x.op.method) hx)

theorem canMove_next {c : Config} {u : Tid} (h : c.canMove cfg u) : (c.next cfg (.go u)).isSome = true := by
  obtain ⟨c', h⟩ := h
  cases h with
  | act hget he => simp [Config.next, hget, he]
  | crash hget he => simp [Config.next, hget, he]

/-- Two calls, of which neither can go on. -/
theorem stuck_of {c : Config} (hl : c.calls.length = 2) (h : (c.next cfg (.go 0)).isSome = false ∧ (c.next cfg (.go 1)).isSome = false) :
    ∀ u, ¬ c.canMove cfg u := by
  intro u hu
  have hn := canMove_next hu
  match u with
  | 0 => rw [h.1] at hn; cases hn
  | 1 => rw [h.2] at hn; cases hn
  | u + 2 =>
    obtain ⟨c', hu⟩ := hu
    cases hu with
    | act hget he =>
      have := (List.getElem?_eq_some_iff.1 hget).1
      simp only at hl
      omega
    | crash hget he =>
      have := (List.getElem?_eq_some_iff.1 hget).1
      simp only at hl
      omega

theorem not_quiet {c : Config} {t : Nat} (h : c.endings[t]? = some none) : ¬ c.quiet := by
  obtain ⟨x, hx, he⟩ := endings_call h
  intro hq
  have := hq x (List.mem_of_getElem? hx)
  unfold Thread.ending at he
  unfold Thread.running at this
  split at he <;> simp_all

theorem no_crash_of {c : Config} (h : c.endings.all (fun e => match e with | some (.inr _) => false | _ => true) = true) :
    ¬ ∃ x ∈ c.calls, ∃ e, x.prog = .crash e := by
  rintro ⟨x, hx, e, he⟩
  have := List.all_eq_true.1 h _ (List.mem_map_of_mem (f := Thread.ending) hx)
  unfold Thread.ending at this
  rw [he] at this
  cases this

/-! ## The five questions -/

theorem noRename_of {M : Method → Prop} (h : ¬ M .rename) {op : Op} (ho : M op.method) : op.isRename = false := by
  cases op <;> first | rfl | exact absurd ho h

theorem mute_of {M : Method → Prop} (h : ¬ M .put ∨ ¬ M .alias) : ∃ noI, ∀ op : Op, M op.method → op.mute noI := by
  rcases h with h | h
  · exact ⟨true, fun op ho hm => h (hm ▸ ho)⟩
  · exact ⟨false, fun op ho hm => h (hm ▸ ho)⟩

/-- `Put`, `Alias` and `Rename` together can make a call panic; if one of them is not used, no call ever panics. -/
theorem C79_panics_exact (M : Method → Prop) :
    (∀ cfg, PanicFreeWith cfg M) ↔ ¬ (M .put ∧ M .alias ∧ M .rename) := by
  constructor
  · rintro h ⟨hp, ha, hn⟩
    obtain ⟨c, hc, hf⟩ := play_fact (cfg := sampleCfg) (c0 := .init) (xs := selfRenamed ++ [callNow (.put (str "al") docD)] ++ goes 3 10)
      (f := fun c => (c.calls.map (·.op.method), c.endings[3]?)) (v := ([.put, .alias, .rename, .put], some (some (.inr .nilIndex))))
      (by decide +kernel)
    simp only [Prod.mk.injEq] at hf
    obtain ⟨x, hx, he⟩ := endings_call hf.2
    have := h sampleCfg c ⟨play_steps hc, methods_of hf.1 (by simp [hp, ha, hn])⟩ x (List.mem_of_getElem? hx) _ (ending_crash he)
    cases this
  · intro h cfg c ⟨hr, hM⟩ x hx e he
    by_cases hn : M .rename
    · obtain ⟨noI, hm⟩ := mute_of (M := M) (by
        by_cases hp : M .put
        · exact .inr fun ha => h ⟨hp, ha, hn⟩
        · exact .inl hp)
      exact mute_crash (mute_reachable hr fun y hy => hm _ (hM y hy)) hx he
    · obtain ⟨t, ht⟩ := List.getElem?_of_mem hx
      exact C54_no_crash_without_rename hr (fun y hy => noRename_of hn (hM y hy)) ht he

/-- The same three can leave an alias that lists an index that does not exist. -/
theorem C79_aliases_exact (M : Method → Prop) :
    (∀ cfg, ConsistentWith cfg M) ↔ ¬ (M .put ∧ M .alias ∧ M .rename) := by
  constructor
  · rintro h ⟨hp, ha, hn⟩
    obtain ⟨c, hc, hf⟩ := play_fact (cfg := sampleCfg) (c0 := .init) (xs := selfRenamed)
      (f := fun c => (c.calls.map (·.op.method), c.endings.all Option.isSome, c.sh.aliases.get (str "al"), c.sh.arrays, c.sh.indices.get (str "x")))
      (v := ([.put, .alias, .rename], true, some ⟨0, 1⟩, [[str "x"]], none)) (by decide +kernel)
    simp only [Prod.mk.injEq] at hf
    obtain ⟨h1, h2, h3, h4, h5⟩ := hf
    have := (h sampleCfg c ⟨play_steps hc, methods_of h1 (by simp [hp, ha, hn])⟩ (endings_quiet h2) _ _ h3).2 (str "x") (by
      simp [Shared.elems, h4])
    rw [h5] at this
    cases this
  · intro h cfg c ⟨hr, hM⟩ hq al r hal
    by_cases hn : M .rename
    · obtain ⟨noI, hm⟩ := mute_of (M := M) (by
        by_cases hp : M .put
        · exact .inr fun ha => h ⟨hp, ha, hn⟩
        · exact .inl hp)
      rw [(mute_reachable hr fun y hy => hm _ (hM y hy)).aliases] at hal
      cases hal
    · exact C54_no_dangling_without_rename hr (fun y hy => noRename_of hn (hM y hy)) hq hal

/-- Without `Put` and `Rename` nobody asks for the index mutex to write under it. -/
theorem mute_no_writer {c : Config} (hr : ConcReachable cfg c) (hp : ∀ x ∈ c.calls, x.op.method ≠ .put)
    (hn : ∀ x ∈ c.calls, x.op.method ≠ .rename) : (c.sh.mu .indices).writer = none := by
  have i := mute_reachable (noI := true) hr hp
  cases h : (c.sh.mu .indices).writer with
  | none => rfl
  | some u =>
    obtain ⟨y, hy, ha⟩ := i.writer rfl _ _ h
    have := hn y (List.mem_of_getElem? hy)
    cases ho : y.op <;> rw [ho] at ha this <;> simp [Op.announces, Op.method] at ha this

/-- Nor does a call that returned keep the alias mutex. -/
theorem mute_aliases_unleaked {c : Config} (hr : ConcReachable cfg c) (hp : ∀ x ∈ c.calls, x.op.method ≠ .put)
    (hc : ¬ ∃ x ∈ c.calls, ∃ e, x.prog = .crash e) : ¬ c.leaks .aliases := by
  have i := mute_reachable (noI := true) hr hp
  obtain ⟨H, inv⟩ := lockInv_reachable hr
  rintro ⟨u, y, hy, hyr, hh⟩
  rcases C49_who_leaks hr hy hyr hh with ⟨al, j, ho, hj, hret⟩ | ⟨e, he⟩
  · have hend := returned_end inv hy hret
    rw [ho] at hend
    have hlen : j.length ≠ 0 := by cases j; exact absurd rfl hj; simp
    simp only [endOf, hlen, if_false] at hend
    rcases hh with hh | hh
    · have := (inv.link .aliases).mem u |>.1 hh
      rcases hend with ⟨h, _⟩ | ⟨_, h | h⟩
      · cases h
      · rw [h] at this; cases this
      · rw [h] at this; cases this
    · obtain ⟨z, hz, ha⟩ := i.writer rfl _ _ hh
      rw [hy] at hz; cases hz
      rw [ho] at ha
      exact hj ha.1
  · exact hc ⟨y, List.mem_of_getElem? hy, e, he⟩

/-- Without `Put` and `Rename` no call waits for ever, whatever `UnAlias` has left locked. -/
theorem mute_progress {c : Config} (hr : ConcReachable cfg c) (hp : ∀ x ∈ c.calls, x.op.method ≠ .put)
    (hn : ∀ x ∈ c.calls, x.op.method ≠ .rename) (hc : ¬ ∃ x ∈ c.calls, ∃ e, x.prog = .crash e) {t : Tid} {x : Thread}
    (hx : c.calls[t]? = some x) (hrun : x.running) : ∃ u, c.canMove cfg u := by
  obtain ⟨H, inv⟩ := lockInv_reachable hr
  have hw := mute_no_writer hr hp hn
  have hl := mute_aliases_unleaked hr hp hc
  by_cases hA : ∃ u, (H u).amu ≠ .none
  · obtain ⟨u, hu⟩ := hA
    exact moves_any_amu inv hl hu
  · have hA : ∀ u, (H u).amu = .none := fun u => Classical.byContradiction fun h => hA ⟨u, h⟩
    obtain ⟨op, o, p⟩ := x
    cases p with
    | ret r => exact hrun.elim
    | crash e => exact hrun.elim
    | act a k =>
      obtain ⟨d, hd⟩ := (inv.good t _ hx).allowed
      refine ⟨t, canMove_of hx (not_blocked (fun m hm => ?_) fun m hm => ?_)⟩
      · cases m
        · exact hw
        · exact writer_of inv hA
      · have := allowed_acquires hd hm
        cases m
        · have h2 := (inv.link .indices).wr t |>.2 (.inl this)
          rw [hw] at h2; cases h2
        · simp only [Held.get] at this
          rw [hA t] at this; cases this

/-- `UnAlias` with `Put` or with `Rename` can make calls wait for ever; otherwise all calls complete. -/
theorem C79_completion_exact (M : Method → Prop) :
    (∀ cfg, CompletesWith cfg M) ↔ ¬ (M .unAlias ∧ (M .put ∨ M .rename)) := by
  constructor
  · rintro h ⟨hu, hpn⟩
    rcases hpn with hp | hn
    · obtain ⟨c, hc, hf⟩ := play_fact (cfg := sampleCfg) (c0 := .init)
        (xs := [callNow (.unAlias (str "al") (str "x"))] ++ goes 0 2 ++ [callNow (.put (str "x") docD)] ++ goes 1 7)
        (f := fun c => (c.calls.map (·.op.method), (c.endings[1]?, c.endings.all (fun e => match e with | some (.inr _) => false | _ => true)),
          c.calls.length, (c.next sampleCfg (.go 0)).isSome, (c.next sampleCfg (.go 1)).isSome))
        (v := ([.unAlias, .put], (some none, true), 2, false, false)) (by decide +kernel)
      simp only [Prod.mk.injEq] at hf
      obtain ⟨h1, ⟨h2, h3⟩, h4, h5⟩ := hf
      rcases h sampleCfg c ⟨play_steps hc, methods_of h1 (by simp [hp, hu])⟩ (stuck_of h4 h5) with h | h
      · exact not_quiet h2 h
      · exact no_crash_of h3 h
    · obtain ⟨c, hc, hf⟩ := play_fact (cfg := sampleCfg) (c0 := .init)
        (xs := [callNow (.unAlias (str "al") (str "x"))] ++ goes 0 2 ++ [callNow (.rename (str "x") (str "y"))] ++ goes 1 1)
        (f := fun c => (c.calls.map (·.op.method), (c.endings[1]?, c.endings.all (fun e => match e with | some (.inr _) => false | _ => true)),
          c.calls.length, (c.next sampleCfg (.go 0)).isSome, (c.next sampleCfg (.go 1)).isSome))
        (v := ([.unAlias, .rename], (some none, true), 2, false, false)) (by decide +kernel)
      simp only [Prod.mk.injEq] at hf
      obtain ⟨h1, ⟨h2, h3⟩, h4, h5⟩ := hf
      rcases h sampleCfg c ⟨play_steps hc, methods_of h1 (by simp [hn, hu])⟩ (stuck_of h4 h5) with h | h
      · exact not_quiet h2 h
      · exact no_crash_of h3 h
  · intro h cfg c ⟨hr, hM⟩ hstop
    by_cases hc : ∃ x ∈ c.calls, ∃ e, x.prog = .crash e
    · exact .inr hc
    · refine .inl ?_
      by_cases hu : M .unAlias
      · intro x hx hrun
        obtain ⟨t, ht⟩ := List.getElem?_of_mem hx
        obtain ⟨u, hu'⟩ := mute_progress hr (fun y hy e => h ⟨hu, .inl (e ▸ hM y hy)⟩) (fun y hy e => h ⟨hu, .inr (e ▸ hM y hy)⟩) hc ht hrun
        exact hstop u hu'
      · rcases C49_calls_complete hr hstop with h | ⟨t, x, m, hx, hrun, hh⟩
        · exact h
        · rcases C49_who_leaks hr hx hrun hh with ⟨al, j, ho, _⟩ | ⟨e, he⟩
          · have := hM x (List.mem_of_getElem? hx)
            rw [ho] at this
            exact absurd this hu
          · exact absurd ⟨x, List.mem_of_getElem? hx, e, he⟩ hc

/-- What `ListAliases` has returned can change afterwards exactly if `Put`, `Alias` and `Rename` are used as well. -/
theorem C79_rows_exact (M : Method → Prop) :
    (∀ cfg, RowsStayWith cfg M) ↔ ¬ (M .put ∧ M .alias ∧ M .listAliases ∧ M .rename) := by
  constructor
  · rintro h ⟨hp, ha, hl, hn⟩
    obtain ⟨c, c', h1, h2, h3, h4⟩ := play_facts (cfg := sampleCfg) (xs := aliased ++ [callNow .listAliases] ++ goes 2 4)
      (ys := [callNow (.rename (str "x") (str "y"))] ++ goes 3 10)
      (f := fun c => (c.calls.map (·.op.method), c.endings[2]?, c.sh.arrays)) (g := fun c => (c.calls.map (·.op.method), c.sh.arrays))
      (v := ([.put, .alias, .listAliases], some (some (.inl (.rows [(str "al", ⟨0, 1⟩)]))), [[str "x"]]))
      (w := ([.put, .alias, .listAliases, .rename], [[str "y"]])) (by decide +kernel) (by decide +kernel)
    simp only [Prod.mk.injEq] at h3 h4
    obtain ⟨x, hx, he⟩ := endings_call h3.2.1
    have hop : x.op = .listAliases := by
      have h5 := h3.1
      have : (c.calls.map (·.op.method))[2]? = some .listAliases := by rw [h5]; rfl
      rw [List.getElem?_map, hx, Option.map_some, Option.some.injEq] at this
      cases ho : x.op <;> rw [ho] at this <;> simp [Op.method] at this ⊢
    have := h sampleCfg c c' h1 h2 (methods_of h4.1 (by simp [hp, ha, hl, hn])) 2 x _ hx hop (ending_ret he) (str "al", ⟨0, 1⟩) (by simp)
    simp only [Shared.elems, h3.2.2, h4.2] at this
    exact absurd this (by decide +kernel)
  · intro h cfg c c' hr hs hM t x rows hx hop hret e he
    have hl : M .listAliases := by
      have := ops_of_steps (P := fun op => M op.method) hs hM x (List.mem_of_getElem? hx)
      rwa [hop] at this
    by_cases hn : M .rename
    · obtain ⟨noI, hm⟩ := mute_of (M := M) (by
        by_cases hp : M .put
        · exact .inr fun ha => h ⟨hp, ha, hl, hn⟩
        · exact .inl hp)
      obtain ⟨s, ⟨c0, y, h0, h1, h2, h3, rfl⟩, hrows⟩ := C47_moment hr hx hop hret
      have hM0 := ops_of_steps (P := fun op => M op.method) (steps_trans h1 hs) hM
      have := hrows.2 e he
      rw [(mute_reachable h0 fun y hy => hm _ (hM0 y hy)).aliases] at this
      cases this
    · refine C47_concurrent_snapshot_partial hr hs hx hop hret ?_ e he
      rintro op ⟨u, z, hz, rfl, _⟩
      exact noRename_of hn (hM z (List.mem_of_getElem? hz))

/-- `Put` and `Rename` together can leave an index that carries another name than the one it is found by. -/
theorem C79_labels_exact (M : Method → Prop) : (∀ cfg, LabelledWith cfg M) ↔ ¬ (M .put ∧ M .rename) := by
  constructor
  · rintro h ⟨hp, hn⟩
    obtain ⟨c, hc, hf⟩ := play_fact (cfg := sampleCfg) (c0 := .init)
      (xs := [callNow (.put (str "x") docD)] ++ goes 0 13 ++ [callNow (.rename (str "x") (str "y"))] ++ goes 1 7)
      (f := fun c => (c.calls.map (·.op.method), c.sh.indices.get (str "y"), (c.sh.heap[0]?).map (·.name)))
      (v := ([.put, .rename], some 0, some (str "x"))) (by decide +kernel)
    simp only [Prod.mk.injEq] at hf
    obtain ⟨h1, h2, h3⟩ := hf
    obtain ⟨mi, hmi, hname⟩ := h sampleCfg c ⟨play_steps hc, methods_of h1 (by simp [hp, hn])⟩ _ _ h2
    rw [hmi, Option.map_some, hname] at h3
    exact absurd h3 (by decide +kernel)
  · intro h cfg c ⟨hr, hM⟩ n p hnp
    by_cases hp : M .put
    · refine C65_label_is_name_partial hr hnp fun x hx old ho => h ⟨hp, ?_⟩
      have := hM x hx
      rwa [ho] at this
    · have i := mute_reachable (noI := true) hr fun y hy (e : y.op.method = .put) => hp (e ▸ hM y hy)
      rw [i.indices rfl n] at hnp
      cases hnp

/-! ## With interleaved goroutines -/

/-- `C79_panics_exact` with interleaved goroutines. -/
theorem C79_panics_goroutines_exact (M : Method → Prop) :
    (∀ cfg c, FineReachable cfg c → (∀ x ∈ c.calls, M x.op.method) → ∀ x ∈ c.calls, ∀ e, x.status = .crashed e → e = .engine) ↔
      ¬ (M .put ∧ M .alias ∧ M .rename) := by
  rw [← C79_panics_exact]
  constructor
  · intro h cfg d ⟨hd, hM⟩ y hy e he
    obtain ⟨c, hc, al, _⟩ := C60_nothing_lost hd
    obtain ⟨t, ht⟩ := List.getElem?_of_mem hy
    obtain ⟨x, hx, sc⟩ := alike_back al ht
    refine h cfg c hc (fun z hz => ?_) x (List.mem_of_getElem? hx) e ?_
    · obtain ⟨u, hu⟩ := List.getElem?_of_mem hz
      obtain ⟨w, hw, sw⟩ := al.calls u z hu
      rw [← sw.op]
      exact hM w (List.mem_of_getElem? hw)
    · rw [← sc.status]
      simp [Thread.status, he]
  · intro h cfg c hc hM x hx e he
    obtain ⟨d, hd, al⟩ := fine_alike hc
    obtain ⟨t, ht⟩ := List.getElem?_of_mem hx
    obtain ⟨y, hy, sc⟩ := al.calls t x ht
    exact h cfg d ⟨hd, alike_all al (P := fun op _ => M op.method) hM⟩ y (List.mem_of_getElem? hy) e
      (crashed_of (sc.status.trans he))

/-- `C79_aliases_exact` with interleaved goroutines. -/
theorem C79_aliases_goroutines_exact (M : Method → Prop) :
    (∀ cfg c, FineReachable cfg c → (∀ x ∈ c.calls, M x.op.method) → c.quiet → ∀ al r, c.sh.aliases.get al = some r →
      (c.sh.elems r).Nodup ∧ ∀ i ∈ c.sh.elems r, (c.sh.indices.get i).isSome = true) ↔ ¬ (M .put ∧ M .alias ∧ M .rename) := by
  rw [← C79_aliases_exact]
  constructor
  · intro h cfg d ⟨hd, hM⟩ hq n r hn
    obtain ⟨c, hc, al, hs⟩ := C60_nothing_lost hd
    rw [← hs] at hn ⊢
    refine h cfg c hc (fun z hz => ?_) (fun z hz hrun => ?_) n r hn
    · obtain ⟨u, hu⟩ := List.getElem?_of_mem hz
      obtain ⟨w, hw, sw⟩ := al.calls u z hu
      rw [← sw.op]
      exact hM w (List.mem_of_getElem? hw)
    · obtain ⟨u, hu⟩ := List.getElem?_of_mem hz
      obtain ⟨w, hw, sw⟩ := al.calls u z hu
      exact hq w (List.mem_of_getElem? hw) (status_running.2 (sw.status.trans hrun))
  · intro h cfg c hc hM hq n r hn
    obtain ⟨d, hd, al⟩ := fine_alike hc
    rw [alike_elems al, al.indices]
    rw [al.aliases] at hn
    exact h cfg d ⟨hd, alike_all al (P := fun op _ => M op.method) hM⟩ (alike_quiet al hq) n r hn

/-- All calls and goroutines complete unless `UnAlias` is used with `Put` or with `Rename`. -/
theorem C79_completion_goroutines {M : Method → Prop} (hM : ¬ (M .unAlias ∧ (M .put ∨ M .rename))) {c : FConfig}
    (hr : FineReachable cfg c) (hall : ∀ x ∈ c.calls, M x.op.method) (hstop : ∀ u, ¬ c.canMove cfg u) :
    c.quiet ∨ ∃ x ∈ c.calls, ∃ e, x.status = .crashed e := by
  obtain ⟨d, G, hd, sim⟩ := sim_reachable hr
  obtain ⟨_, _, ⟨F, hF⟩, hR⟩ := nsteps_reachable hd
  have al := sim_alike hd sim F
  rcases (C79_completion_exact M).2 hM cfg _ ⟨hR F hF, alike_all al (P := fun op _ => M op.method) hall⟩
    (fun u hu => hstop u (sim_canMove hd sim (canMove_withSchedules hu))) with h | ⟨y, hy, e, he⟩
  · refine .inl fun x hx hrun => ?_
    obtain ⟨t, ht⟩ := List.getElem?_of_mem hx
    obtain ⟨y, hy, sc⟩ := al.calls t x ht
    exact h y (List.mem_of_getElem? hy) (status_running.2 (sc.status.trans hrun))
  · obtain ⟨t, ht⟩ := List.getElem?_of_mem hy
    obtain ⟨x, hx, sc⟩ := alike_back al ht
    exact .inr ⟨x, List.mem_of_getElem? hx, e, by rw [← sc.status]; simp [Thread.status, he]⟩

/-- The call is over, or waits for a mutex. -/
def FThread.atRest (cfg : Cfg) (s : Shared) (t : Tid) (x : FThread) : Bool :=
  match x.st with
  | .run (.ret _) | .run (.crash _) => true
  | .run (.act a _) => match exec cfg x.oracle t a s with | .blocked => true | _ => false
  | _ => false

theorem fine_stuck {c : FConfig} (h : (c.calls.mapIdx fun t x => x.atRest cfg c.sh t).all id = true) :
    ∀ u, ¬ c.canMove cfg u := by
  rintro u ⟨c', hm⟩
  have key : ∀ x, c.calls[u]? = some x → x.atRest cfg c.sh u = true := by
    intro x hx
    rw [List.all_eq_true] at h
    exact h (x.atRest cfg c.sh u) (List.mem_iff_getElem?.2 ⟨u, by rw [List.getElem?_mapIdx, hx]; rfl⟩)
  cases hm with
  | act hx he => have := key _ hx; simp [FThread.atRest, he] at this
  | crash hx he => have := key _ hx; simp [FThread.atRest, he] at this
  | forkPut hx => have := key _ hx; simp [FThread.atRest] at this
  | put hx hs => have := key _ hx; simp [FThread.atRest] at this
  | putPanic hx he => have := key _ hx; simp [FThread.atRest] at this
  | putJoin hx hd => have := key _ hx; simp [FThread.atRest] at this
  | forkSearch hx => have := key _ hx; simp [FThread.atRest] at this
  | search hx hs => have := key _ hx; simp [FThread.atRest] at this
  | searchPanic hx he => have := key _ hx; simp [FThread.atRest] at this
  | searchJoin hx hd => have := key _ hx; simp [FThread.atRest] at this

/-- With interleaved goroutines: when nothing can go on, all calls are over (or one has panicked). -/
def FCompletesWith (cfg : Cfg) (M : Method → Prop) : Prop :=
  ∀ c, FineReachable cfg c → (∀ x ∈ c.calls, M x.op.method) → (∀ u, ¬ c.canMove cfg u) →
    c.quiet ∨ ∃ x ∈ c.calls, ∃ e, x.status = .crashed e

/-- `C79_completion_exact` with interleaved goroutines. -/
theorem C79_completion_goroutines_exact (M : Method → Prop) :
    (∀ cfg, FCompletesWith cfg M) ↔ ¬ (M .unAlias ∧ (M .put ∨ M .rename)) := by
  constructor
  · rintro h ⟨hu, hpn⟩
    have go : ∀ (op : Op) (n : Nat), M op.method →
        ((FConfig.init.play sampleCfg ([fcallNow (.unAlias (str "al") (str "x"))] ++ fgoes 0 2 ++ [fcallNow op] ++ fgoes 1 n)).map fun c =>
          (c.calls.map (·.op.method), (c.calls.mapIdx fun t x => x.atRest sampleCfg c.sh t).all id,
            c.calls.map fun x => match x.status with | .running => 0 | .crashed _ => 1 | _ => 2))
          = some ([.unAlias, op.method], true, [2, 0]) → False := by
      intro op n hop key
      obtain ⟨c, hc, key⟩ := Option.map_eq_some_iff.1 key
      simp only [Prod.mk.injEq] at key
      obtain ⟨h1, h2, h3⟩ := key
      have hM : ∀ x ∈ c.calls, M x.op.method := by
        intro x hx
        have : x.op.method ∈ c.calls.map (·.op.method) := List.mem_map_of_mem hx
        rw [h1] at this
        simp only [List.mem_cons, List.not_mem_nil, or_false] at this
        rcases this with e | e <;> rw [e] <;> assumption
      rcases h sampleCfg c (play_fsteps hc) hM (fine_stuck h2) with hq | ⟨x, hx, e, he⟩
      · have : (0 : Nat) ∈ c.calls.map fun x => match x.status with | .running => 0 | .crashed _ => 1 | _ => 2 := by
          rw [h3]; decide
        obtain ⟨x, hx, he⟩ := List.mem_map.1 this
        have hr := hq x hx
        cases hs : x.status with
        | running => exact hr hs
        | returned r => rw [hs] at he; cases he
        | crashed e => rw [hs] at he; cases he
      · have := List.mem_map_of_mem (f := fun x : FThread => match x.status with | .running => 0 | .crashed _ => 1 | _ => 2) hx
        rw [h3, he] at this
        simp at this
    rcases hpn with hp | hn
    · exact go (.put (str "x") docD) 7 hp (by decide +kernel)
    · exact go (.rename (str "x") (str "y")) 1 hn (by decide +kernel)
  · exact fun hM cfg c hr hall hstop => C79_completion_goroutines hM hr hall hstop

/-- A race between goroutines is a race between calls. -/
theorem fine_race_calls {c : FConfig} (hr : FineReachable cfg c) {t u : Tid} {g h : Agent} {v : Var} (hrace : c.race t u g h v) :
    ∃ d l, ConcReachable cfg d ∧ Alike c d ∧ d.race t u l := by
  obtain ⟨hne, x, y, hx, hy, hw, ho⟩ := hrace
  obtain ⟨hv, rfl, rfl, _⟩ := fine_race_only hr hne hx hy hw ho
  have htu : t ≠ u := hne.elim id fun h => absurd rfl h
  obtain ⟨d, G, hd, sim⟩ := sim_reachable hr
  obtain ⟨H, i, w⟩ := nsteps_inv hd
  obtain ⟨_, _, ⟨F, hF⟩, hR⟩ := nsteps_reachable hd
  obtain ⟨x', hx', -⟩ := sim.call t x hx
  obtain ⟨y', hy', -⟩ := sim.call u y hy
  have ax := ((sim_access sim i w hx hx' none v).1 hw).1
  have ay := ho.imp (fun ho => ((sim_access sim i w hy hy' none v).2 ho).1) (fun ho => ((sim_access sim i w hy hy' none v).1 ho).1)
  have conv : ∀ l, x'.writes = some l → (y'.reads = some l ∨ y'.writes = some l) →
      ∃ d l, ConcReachable cfg d ∧ Alike c d ∧ d.race t u l := fun l h1 h2 =>
    ⟨_, l, hR F hF, sim_alike hd sim F, htu, _, _, withSchedules_get hx', withSchedules_get hy', h1, h2⟩
  rcases hv with rfl | rfl
  · exact conv .aliases ax ay
  · exact conv .arrays ax ay

/-- `C51_methods_exact` with interleaved goroutines. -/
theorem C61_methods_exact (M : Method → Prop) :
    (∀ cfg c, FineReachable cfg c → (∀ x ∈ c.calls, M x.op.method) → ∀ t u g h v, ¬ c.race t u g h v) ↔
      ¬ (M .put ∧ M .rename ∧ M .unAlias) := by
  constructor
  · rintro H ⟨hp, hn, hu⟩
    have key : ((FConfig.init.play sampleCfg ([fcallNow (.put (str "x") docD)] ++ fgoes 0 13 ++
        [fcallNow (.unAlias (str "a") []), fcallNow (.rename (str "x") (str "y"))] ++ fgoes 1 3 ++ fgoes 2 5)).map fun c =>
        (c.calls.map (·.op.method), (c.calls[1]?).bind (·.writes 1 none), (c.calls[2]?).bind (·.reads 2 none)))
        = some ([.put, .unAlias, .rename], some .aliases, some .aliases) := by decide +kernel
    obtain ⟨c, hc, key⟩ := Option.map_eq_some_iff.1 key
    simp only [Prod.mk.injEq, Option.bind_eq_some_iff] at key
    obtain ⟨h1, ⟨x, hx, h2⟩, y, hy, h3⟩ := key
    refine H sampleCfg c (play_fsteps hc) (fun z hz => ?_) 1 2 none none .aliases ⟨.inl (by decide), x, y, hx, hy, h2, .inl h3⟩
    have : z.op.method ∈ c.calls.map (·.op.method) := List.mem_map_of_mem hz
    rw [h1] at this
    simp only [List.mem_cons, List.not_mem_nil, or_false] at this
    rcases this with e | e | e <;> rw [e] <;> assumption
  · intro H cfg c hr hM t u g h v hrace
    obtain ⟨d, l, hd, al, hrd⟩ := fine_race_calls hr hrace
    exact (C51_methods_exact M).2 H cfg d hd (alike_all al (P := fun op _ => M op.method) hM) t u l hrd

/-- Concrete cases.  A program that does not use `Rename` and `UnAlias` has none of these problems, nor a race; one
that uses all methods has all of them. -/
example : ∃ M : Method → Prop, (∀ m, M m ↔ m ≠ .rename ∧ m ≠ .unAlias) ∧ RaceFreeWith sampleCfg M ∧ PanicFreeWith sampleCfg M ∧
    ConsistentWith sampleCfg M ∧ CompletesWith sampleCfg M ∧ RowsStayWith sampleCfg M ∧ LabelledWith sampleCfg M := by
  refine ⟨fun m => m ≠ .rename ∧ m ≠ .unAlias, fun _ => .rfl, (C51_methods_exact _).2 ?_ _, (C79_panics_exact _).2 ?_ _,
    (C79_aliases_exact _).2 ?_ _, (C79_completion_exact _).2 ?_ _, (C79_rows_exact _).2 ?_ _, (C79_labels_exact _).2 ?_ _⟩ <;> simp

example : ¬ (∀ cfg, PanicFreeWith cfg fun _ => True) ∧ ¬ (∀ cfg, ConsistentWith cfg fun _ => True) ∧
    ¬ (∀ cfg, CompletesWith cfg fun _ => True) ∧ ¬ (∀ cfg, RowsStayWith cfg fun _ => True) ∧ ¬ ∀ cfg, LabelledWith cfg fun _ => True := by
  rw [C79_panics_exact, C79_aliases_exact, C79_completion_exact, C79_rows_exact, C79_labels_exact]
  simp

end Visigoth
