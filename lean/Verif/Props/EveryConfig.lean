import Verif.Proofs.AnyCfg
import Verif.Proofs.AnyCfgFine
import Verif.Props.Methods
import Verif.Props.RaceGuard
import Verif.Props.RowReads
/-!
# Which methods can be used together, configuration by configuration (C51, C61, C79, C95)

`C51_methods_exact`, `C61_methods_exact`, the theorems of C79 and `C95_methods_exact` say that a set of methods is safe for all tokenizers,
copies and builders exactly if it leaves certain methods out.  Here the same holds for each of them: no tokenizer, however
chosen, makes one of the other sets safe.
-/
namespace Visigoth

set_option synthInstance.maxSize 1024

/-- C51 for each configuration. -/
theorem C51_methods_every (cfg : Cfg) (M : Method → Prop) : RaceFreeWith cfg M ↔ ¬ (M .put ∧ M .rename ∧ M .unAlias) := by
  refine ⟨?_, fun h => (C51_methods_exact M).2 h cfg⟩
  rintro h ⟨hp, hn, hu⟩
  obtain ⟨mi, -, -, hr⟩ := bound_reachable cfg (str "x") docD
  obtain ⟨c, hc, hf⟩ := reach_fact hr
    (xs := [callNow (.unAlias (str "a") []), callNow (.rename (str "x") (str "y"))] ++ goes 1 3 ++ goes 2 5)
    (f := fun c => (c.calls.map (·.op.method), (c.calls[1]?).bind Thread.writes, (c.calls[2]?).bind Thread.reads))
    (v := ([.put, .unAlias, .rename], some .aliases, some .aliases)) (by with_unfolding_all rfl)
  simp only [Prod.mk.injEq] at hf
  obtain ⟨h1, h2, h3⟩ := hf
  obtain ⟨x, hx, h2⟩ := Option.bind_eq_some_iff.1 h2
  obtain ⟨y, hy, h3⟩ := Option.bind_eq_some_iff.1 h3
  exact h c hc (methods_of h1 (by simp [hp, hn, hu])) 1 2 .aliases ⟨by decide, x, y, hx, hy, h2, .inl h3⟩

/-- Panics, for each configuration. -/
theorem C79_panics_every (cfg : Cfg) (M : Method → Prop) : PanicFreeWith cfg M ↔ ¬ (M .put ∧ M .alias ∧ M .rename) := by
  refine ⟨?_, fun h => (C79_panics_exact M).2 h cfg⟩
  rintro h ⟨hp, ha, hn⟩
  obtain ⟨mi, -, -, hr⟩ := bound_reachable cfg (str "x") docD
  have hr := reach_play (reach_play hr (aliased_play cfg mi)) (selfRenamed_play cfg mi)
  obtain ⟨c, hc, hf⟩ := reach_fact hr (xs := [callNow (.put (str "al") docD)] ++ goes 3 10)
    (f := fun c => (c.calls.map (·.op.method), c.endings[3]?)) (v := ([.put, .alias, .rename, .put], some (some (.inr .nilIndex))))
    (by with_unfolding_all rfl)
  simp only [Prod.mk.injEq] at hf
  obtain ⟨x, hx, he⟩ := endings_call hf.2
  have := h c ⟨hc, methods_of hf.1 (by simp [hp, ha, hn])⟩ x (List.mem_of_getElem? hx) _ (ending_crash he)
  cases this

/-- Aliases of missing indices, for each configuration. -/
theorem C79_aliases_every (cfg : Cfg) (M : Method → Prop) : ConsistentWith cfg M ↔ ¬ (M .put ∧ M .alias ∧ M .rename) := by
  refine ⟨?_, fun h => (C79_aliases_exact M).2 h cfg⟩
  rintro h ⟨hp, ha, hn⟩
  obtain ⟨mi, -, -, hr⟩ := bound_reachable cfg (str "x") docD
  have hr := reach_play (reach_play hr (aliased_play cfg mi)) (selfRenamed_play cfg mi)
  obtain ⟨c, hc, hf⟩ := reach_fact hr (xs := [])
    (f := fun c => (c.calls.map (·.op.method), c.endings.all Option.isSome, c.sh.aliases.get (str "al"), c.sh.arrays, c.sh.indices.get (str "x")))
    (v := ([.put, .alias, .rename], true, some ⟨0, 1⟩, [[str "x"]], none)) (by with_unfolding_all rfl)
  simp only [Prod.mk.injEq] at hf
  obtain ⟨h1, h2, h3, h4, h5⟩ := hf
  have := (h c ⟨hc, methods_of h1 (by simp [hp, ha, hn])⟩ (endings_quiet h2) _ _ h3).2 (str "x") (by simp [Shared.elems, h4])
  rw [h5] at this
  cases this

/-- Waiting for ever, for each configuration. -/
theorem C79_completion_every (cfg : Cfg) (M : Method → Prop) :
    CompletesWith cfg M ↔ ¬ (M .unAlias ∧ (M .put ∨ M .rename)) := by
  refine ⟨?_, fun h => (C79_completion_exact M).2 h cfg⟩
  rintro h ⟨hu, hpn⟩
  rcases hpn with hp | hn
  · obtain ⟨c, hc, hf⟩ := play_fact (cfg := cfg) (c0 := .init)
      (xs := [callNow (.unAlias (str "al") (str "x"))] ++ goes 0 2 ++ [callNow (.put (str "x") docD)] ++ goes 1 7)
      (f := fun c => (c.calls.map (·.op.method), (c.endings[1]?, c.endings.all (fun e => match e with | some (.inr _) => false | _ => true)),
        c.calls.length, (c.next cfg (.go 0)).isSome, (c.next cfg (.go 1)).isSome))
      (v := ([.unAlias, .put], (some none, true), 2, false, false)) (by with_unfolding_all rfl)
    simp only [Prod.mk.injEq] at hf
    obtain ⟨h1, ⟨h2, h3⟩, h4, h5⟩ := hf
    rcases h c ⟨play_steps hc, methods_of h1 (by simp [hp, hu])⟩ (stuck_of h4 h5) with h | h
    · exact not_quiet h2 h
    · exact no_crash_of h3 h
  · obtain ⟨c, hc, hf⟩ := play_fact (cfg := cfg) (c0 := .init)
      (xs := [callNow (.unAlias (str "al") (str "x"))] ++ goes 0 2 ++ [callNow (.rename (str "x") (str "y"))] ++ goes 1 1)
      (f := fun c => (c.calls.map (·.op.method), (c.endings[1]?, c.endings.all (fun e => match e with | some (.inr _) => false | _ => true)),
        c.calls.length, (c.next cfg (.go 0)).isSome, (c.next cfg (.go 1)).isSome))
      (v := ([.unAlias, .rename], (some none, true), 2, false, false)) (by with_unfolding_all rfl)
    simp only [Prod.mk.injEq] at hf
    obtain ⟨h1, ⟨h2, h3⟩, h4, h5⟩ := hf
    rcases h c ⟨play_steps hc, methods_of h1 (by simp [hn, hu])⟩ (stuck_of h4 h5) with h | h
    · exact not_quiet h2 h
    · exact no_crash_of h3 h

/-- What `ListAliases` has returned, for each configuration. -/
theorem C79_rows_every (cfg : Cfg) (M : Method → Prop) :
    RowsStayWith cfg M ↔ ¬ (M .put ∧ M .alias ∧ M .listAliases ∧ M .rename) := by
  refine ⟨?_, fun h => (C79_rows_exact M).2 h cfg⟩
  rintro h ⟨hp, ha, hl, hn⟩
  obtain ⟨mi, -, -, hr⟩ := bound_reachable cfg (str "x") docD
  have hr := reach_play (reach_play hr (aliased_play cfg mi)) (listed_play cfg mi)
  obtain ⟨c', hc', h4⟩ := play_fact (cfg := cfg) (c0 := listedConfig mi) (xs := [callNow (.rename (str "x") (str "y"))] ++ goes 3 10)
    (f := fun c => (c.calls.map (·.op.method), c.sh.arrays))
    (v := ([.put, .alias, .listAliases, .rename], [[str "y"]])) (by with_unfolding_all rfl)
  simp only [Prod.mk.injEq] at h4
  have := h _ c' hr (play_steps hc') (methods_of h4.1 (by simp [hp, ha, hl, hn])) 2 _ _ rfl rfl rfl (str "al", ⟨0, 1⟩) List.mem_cons_self
  simp only [Shared.elems, h4.2] at this
  have this : [str "y"] = [str "x"] := this
  exact absurd this (by decide +kernel)

/-- Labels, for each configuration. -/
theorem C79_labels_every (cfg : Cfg) (M : Method → Prop) : LabelledWith cfg M ↔ ¬ (M .put ∧ M .rename) := by
  refine ⟨?_, fun h => (C79_labels_exact M).2 h cfg⟩
  rintro h ⟨hp, hn⟩
  obtain ⟨mi, hmi, -, hr⟩ := bound_reachable cfg (str "x") docD
  obtain ⟨c, hc, hf⟩ := reach_fact hr (xs := [callNow (.rename (str "x") (str "y"))] ++ goes 1 7)
    (f := fun c => (c.calls.map (·.op.method), c.sh.indices.get (str "y"), (c.sh.heap[0]?).map (·.name)))
    (v := ([.put, .rename], some 0, some mi.name)) (by with_unfolding_all rfl)
  simp only [Prod.mk.injEq] at hf
  obtain ⟨h1, h2, h3⟩ := hf
  obtain ⟨mi', hmi', hname⟩ := h c ⟨hc, methods_of h1 (by simp [hp, hn])⟩ _ _ h2
  rw [hmi', Option.map_some, hname, hmi] at h3
  exact absurd h3 (by decide +kernel)

/-- C95 for each configuration. -/
theorem C95_methods_every (cfg : Cfg) (M : Method → Prop) :
    (∀ c t u, ReachableWith cfg M c → ¬ c.rowRace t u) ↔ ¬ (M .put ∧ M .alias ∧ M .listAliases ∧ M .rename) := by
  refine ⟨?_, fun h => (C95_methods_exact M).2 h cfg⟩
  rintro h ⟨hp, ha, hl, hn⟩
  obtain ⟨mi, -, -, hr⟩ := bound_reachable cfg (str "x") docD
  have hr := reach_play (reach_play (reach_play hr (aliasedA_play cfg mi)) (twoAliases_play cfg mi)) (twoListed_play cfg mi)
  obtain ⟨c, hc, hf⟩ := reach_fact hr (xs := [callNow (.rename (str "x") (str "z"))] ++ goes 4 8)
    (f := fun c => (c.calls.map (·.op.method), c.rows 3, (c.calls[4]?).bind (·.cell c.sh)))
    (v := ([.put, .alias, .alias, .listAliases, .rename], some [(str "a", ⟨0, 1⟩), (str "b", ⟨1, 1⟩)], some (0, 0)))
    (by with_unfolding_all rfl)
  simp only [Prod.mk.injEq, Option.bind_eq_some_iff] at hf
  obtain ⟨h0, h1, y, hy, h2⟩ := hf
  obtain ⟨x, hx, hop, hret⟩ := Config.rows_eq h1
  exact h c 3 4 ⟨hc, methods_of h0 (by simp [hp, ha, hl, hn])⟩
    ⟨x, y, _, _, hx, hop, hret, hy, h2, _, List.mem_cons_self, rfl, Nat.one_pos⟩

/-! ## With interleaved goroutines -/

/-- Panics with interleaved goroutines, for each configuration. -/
theorem C79_panics_goroutines_every (cfg : Cfg) (M : Method → Prop) :
    (∀ c, FineReachable cfg c → (∀ x ∈ c.calls, M x.op.method) → ∀ x ∈ c.calls, ∀ e, x.status = .crashed e → e = .engine) ↔
      ¬ (M .put ∧ M .alias ∧ M .rename) := by
  refine ⟨fun h => ?_, fun h => (C79_panics_goroutines_exact M).2 h cfg⟩
  rw [← C79_panics_every cfg]
  intro d ⟨hd, hM⟩ y hy e he
  obtain ⟨c, hc, al, _⟩ := C60_nothing_lost hd
  obtain ⟨t, ht⟩ := List.getElem?_of_mem hy
  obtain ⟨x, hx, sc⟩ := alike_back al ht
  refine h c hc (fun z hz => ?_) x (List.mem_of_getElem? hx) e ?_
  · obtain ⟨u, hu⟩ := List.getElem?_of_mem hz
    obtain ⟨w, hw, sw⟩ := al.calls u z hu
    rw [← sw.op]
    exact hM w (List.mem_of_getElem? hw)
  · rw [← sc.status]
    simp [Thread.status, he]

/-- Aliases of missing indices with interleaved goroutines, for each configuration. -/
theorem C79_aliases_goroutines_every (cfg : Cfg) (M : Method → Prop) :
    (∀ c, FineReachable cfg c → (∀ x ∈ c.calls, M x.op.method) → c.quiet → ∀ al r, c.sh.aliases.get al = some r →
      (c.sh.elems r).Nodup ∧ ∀ i ∈ c.sh.elems r, (c.sh.indices.get i).isSome = true) ↔ ¬ (M .put ∧ M .alias ∧ M .rename) := by
  refine ⟨fun h => ?_, fun h => (C79_aliases_goroutines_exact M).2 h cfg⟩
  rw [← C79_aliases_every cfg]
  intro d ⟨hd, hM⟩ hq n r hn
  obtain ⟨c, hc, al, hs⟩ := C60_nothing_lost hd
  rw [← hs] at hn ⊢
  refine h c hc (fun z hz => ?_) (fun z hz hrun => ?_) n r hn
  · obtain ⟨u, hu⟩ := List.getElem?_of_mem hz
    obtain ⟨w, hw, sw⟩ := al.calls u z hu
    rw [← sw.op]
    exact hM w (List.mem_of_getElem? hw)
  · obtain ⟨u, hu⟩ := List.getElem?_of_mem hz
    obtain ⟨w, hw, sw⟩ := al.calls u z hu
    exact hq w (List.mem_of_getElem? hw) (status_running.2 (sw.status.trans hrun))

/-- Waiting for ever with interleaved goroutines, for each configuration. -/
theorem C79_completion_goroutines_every (cfg : Cfg) (M : Method → Prop) :
    FCompletesWith cfg M ↔ ¬ (M .unAlias ∧ (M .put ∨ M .rename)) := by
  refine ⟨?_, fun h => (C79_completion_goroutines_exact M).2 h cfg⟩
  rintro h ⟨hu, hpn⟩
  have go : ∀ (op : Op) (n : Nat), M op.method →
      ((FConfig.init.play cfg ([fcallNow (.unAlias (str "al") (str "x"))] ++ fgoes 0 2 ++ [fcallNow op] ++ fgoes 1 n)).map fun c =>
        (c.calls.map (·.op.method), (c.calls.mapIdx fun t x => x.atRest cfg c.sh t).all id,
          c.calls.map fun x => match x.status with | .running => 0 | .crashed _ => 1 | _ => 2))
        = some ([.unAlias, op.method], true, [2, 0]) → False := by
    intro op n hop key
    obtain ⟨c, hc, key⟩ := Option.map_eq_some_iff.1 key
    simp only [Prod.mk.injEq] at key
    obtain ⟨h1, h2, h3⟩ := key
    have hM : ∀ x ∈ c.calls, M x.op.method := by
      intro x hx
      have : x.op.method ∈ c.calls.map (·.op.method) := List.mem_map_of_mem hx
      rw [h1] at this
      simp only [List.mem_cons, List.not_mem_nil, or_false] at this
      rcases this with e | e <;> rw [e] <;> assumption
    rcases h c (play_fsteps hc) hM (fine_stuck h2) with hq | ⟨x, hx, e, he⟩
    · have : (0 : Nat) ∈ c.calls.map fun x => match x.status with | .running => 0 | .crashed _ => 1 | _ => 2 := by
        rw [h3]; decide
      obtain ⟨x, hx, he⟩ := List.mem_map.1 this
      have hr := hq x hx
      cases hs : x.status with
      | running => exact hr hs
      | returned r => rw [hs] at he; cases he
      | crashed e => rw [hs] at he; cases he
    · have := List.mem_map_of_mem (f := fun x : FThread => match x.status with | .running => 0 | .crashed _ => 1 | _ => 2) hx
      rw [h3, he] at this
      simp at this
  rcases hpn with hp | hn
  · exact go (.put (str "x") docD) 7 hp (by with_unfolding_all rfl)
  · exact go (.rename (str "x") (str "y")) 1 hn (by with_unfolding_all rfl)

/-- C61 for each configuration. -/
theorem C61_methods_every (cfg : Cfg) (M : Method → Prop) :
    (∀ c, FineReachable cfg c → (∀ x ∈ c.calls, M x.op.method) → ∀ t u g h v, ¬ c.race t u g h v) ↔
      ¬ (M .put ∧ M .rename ∧ M .unAlias) := by
  refine ⟨?_, fun h => (C61_methods_exact M).2 h cfg⟩
  rintro H ⟨hp, hn, hu⟩
  obtain ⟨mi, -, hr⟩ := fbound_reachable cfg (str "x") docD
  have key : (((fboundConfig (str "x") docD mi).play cfg
      ([fcallNow (.unAlias (str "a") []), fcallNow (.rename (str "x") (str "y"))] ++ fgoes 1 3 ++ fgoes 2 5)).map fun c =>
      (c.calls.map (·.op.method), (c.calls[1]?).bind (·.writes 1 none), (c.calls[2]?).bind (·.reads 2 none)))
      = some ([.put, .unAlias, .rename], some .aliases, some .aliases) := by with_unfolding_all rfl
  obtain ⟨c, hc, key⟩ := Option.map_eq_some_iff.1 key
  simp only [Prod.mk.injEq, Option.bind_eq_some_iff] at key
  obtain ⟨h1, ⟨x, hx, h2⟩, y, hy, h3⟩ := key
  refine H c (FSteps.trans hr (play_fsteps hc)) (fun z hz => ?_) 1 2 none none .aliases ⟨.inl (by decide), x, y, hx, hy, h2, .inl h3⟩
  have : z.op.method ∈ c.calls.map (·.op.method) := List.mem_map_of_mem hz
  rw [h1] at this
  simp only [List.mem_cons, List.not_mem_nil, or_false] at this
  rcases this with e | e | e <;> rw [e] <;> assumption

/-- A configuration whose tokenizer gives nothing. -/
example : ¬ RaceFreeWith { sampleCfg with tok := fun _ => [] } (fun _ => True) ∧
    ¬ PanicFreeWith { sampleCfg with tok := fun _ => [] } (fun _ => True) ∧
    CompletesWith { sampleCfg with tok := fun _ => [] } (· ≠ .unAlias) ∧
    ¬ CompletesWith { sampleCfg with tok := fun _ => [] } (· ≠ .rename) := by
  rw [C51_methods_every, C79_panics_every, C79_completion_every, C79_completion_every]
  simp

end Visigoth
