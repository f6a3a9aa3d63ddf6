import Verif.Props.EveryConfig
import Verif.Props.HappensBefore
import Verif.Props.GoroutineOrder
import Verif.Props.OneMomentSets
/-!
# What is false whatever the tokenizer does (C51, C52, C53, C91, C95, C98, C99)

The refutations of these claims are executions of one configuration.  Here each claim is false for every tokenizer and
builder.
-/
namespace Visigoth

set_option synthInstance.maxSize 1024

variable {cfg : Cfg}

/-- C98 for each configuration. -/
theorem C98_methods_every (cfg : Cfg) (M : Method → Prop) : OrderedWith cfg M ↔ ¬ (M .put ∧ M .rename ∧ M .unAlias) := by
  refine ⟨fun h => ?_, fun h => (C98_methods_exact M).2 h cfg⟩
  refine (C51_methods_every cfg M).1 fun c hc hM t u l hrace => ?_
  obtain ⟨es, c', ht, hops, hno⟩ := race_unordered hc hrace
  refine hno (h es c' ht fun x hx => ?_)
  have : x.op ∈ c'.calls.map (·.op) := List.mem_map_of_mem hx
  rw [hops] at this
  obtain ⟨y, hy, hyo⟩ := List.mem_map.1 this
  rw [← hyo]
  exact hM y hy

/-- C99 for each configuration. -/
theorem C99_methods_every (cfg : Cfg) (M : Method → Prop) :
    (∀ es c, GTraced cfg FConfig.init es c → (∀ x ∈ c.calls, M x.op.method) →
      GOrdered es ∧ ∀ x ∈ c.calls, x.status ≠ .crashed .race) ↔
      ¬ (M .put ∧ M .rename ∧ (M .unAlias ∨ M .alias)) := by
  refine ⟨?_, fun h => (C99_methods_exact M).2 h cfg⟩
  rintro H ⟨hp, hn, hu | ha⟩
  · refine (C61_methods_every cfg M).1 (fun c hr hM t u g k v hrace => ?_) ⟨hp, hn, hu⟩
    obtain ⟨es, c', ht, hops, hno⟩ := grace_unordered hr hrace
    refine hno (H es c' ht fun x hx => ?_).1
    have : x.op ∈ c'.calls.map (·.op) := List.mem_map_of_mem hx
    rw [hops] at this
    obtain ⟨y, hy, hyo⟩ := List.mem_map.1 this
    rw [← hyo]; exact hM y hy
  · obtain ⟨d, hd, hops, y, hy, he⟩ := race_reachable cfg
    obtain ⟨c, hc, al, _⟩ := C60_nothing_lost hd
    obtain ⟨es, ht⟩ := fsteps_gtraced hc
    obtain ⟨x, hx, sc⟩ := alike_back al hy
    refine (H es c ht fun z hz => ?_).2 x (List.mem_of_getElem? hx) (by rw [← sc.status]; simp [Thread.status, he])
    obtain ⟨u, hu⟩ := List.getElem?_of_mem hz
    obtain ⟨w, hw, sw⟩ := al.calls u z hu
    rw [← sw.op]
    have hops' : d.calls.map (·.op.method) = [.put, .put, .alias, .alias, .rename, .put] := by
      have := congrArg (List.map Op.method) hops
      simpa [Function.comp_def, Op.method] using this
    exact methods_of hops' (by simp [hp, hn, ha]) w (List.mem_of_getElem? hw)

theorem C51_refuted_every (cfg : Cfg) : ¬ RaceFree cfg := fun h =>
  (C51_methods_every cfg fun _ => True).1 (fun c hc _ t u l => h c t u l hc) ⟨trivial, trivial, trivial⟩

theorem C98_refuted_every (cfg : Cfg) : ¬ AllOrdered cfg := fun h =>
  (C98_methods_every cfg fun _ => True).1 (fun es c ht _ => h es c ht) ⟨trivial, trivial, trivial⟩

theorem C95_refuted_every (cfg : Cfg) : ¬ RowsReadable cfg := fun h =>
  (C95_methods_every cfg fun _ => True).1 (fun c t u hr => h c t u hr.1) ⟨trivial, trivial, trivial, trivial⟩

/-- Two `Put`s of a new name: one document is lost, whatever the documents and the tokenizer are. -/
theorem C52_refuted_every (cfg : Cfg) : ¬ PutsNeverLost cfg := by
  intro h
  obtain ⟨mi, mi', h1, h2, hr⟩ := twice_reachable cfg docD docE
  obtain ⟨p, i, g1, g2, g3, g4⟩ := h _ 0 1 _ _ (str "x") docD docE hr (endings_quiet rfl)
    (by
      intro z hz
      simp only [twiceConfig, List.mem_cons, List.not_mem_nil, or_false] at hz
      rcases hz with rfl | rfl <;> exact ⟨_, _, rfl⟩)
    (by decide) rfl rfl rfl rfl rfl rfl
  have e1 : (twiceConfig (str "x") docD docE mi mi').sh.indices.get (str "x") = some 1 := by with_unfolding_all rfl
  rw [e1] at g1
  cases g1
  have e2 : (twiceConfig (str "x") docD docE mi mi').sh.heap[1]? = some mi' := rfl
  rw [e2] at g2
  cases g2
  rw [h2] at g4
  exact absurd g4 (by decide +kernel)

/-- Both of two `Drop`s return true. -/
theorem C53_refuted_every (cfg : Cfg) : ¬ DropsRemove cfg := by
  intro h
  obtain ⟨mi, -, -, hr⟩ := bound_reachable cfg (str "x") docD
  have := h _ _ hr (endings_quiet rfl) (drops_steps cfg mi) (endings_quiet rfl) (by
    intro x hx
    simp [thenTwo, boundConfig] at hx
    subst hx
    rfl)
  exact absurd (show 0 + 2 ≤ 1 from this) (by decide)

/-- A `Drop` returns true although the index it found has been renamed. -/
theorem C53_refuted_by_rename_every (cfg : Cfg) : ¬ DropsRemove cfg := by
  intro h
  obtain ⟨mi, -, -, hr⟩ := bound_reachable cfg (str "x") docD
  have := h _ _ hr (endings_quiet rfl) (dropRename_steps cfg mi) (endings_quiet rfl) (by
    intro x hx
    simp [thenTwo, boundConfig] at hx
    rcases hx with rfl | rfl <;> rfl)
  exact absurd (show 1 + 1 ≤ 1 from this) (by decide)

/-! ## C91 -/

/-- Two `Put`s of a new name. -/
theorem unmatched_new_names (cfg : Cfg) : ¬ Matched cfg Config.init fun op => op.method = .put := by
  intro h
  obtain ⟨mi, mi', -, hdocs, hr⟩ := twice_reachable cfg docD docE
  generalize hc : twiceConfig (str "x") docD docE mi mi' = c at hr
  have hend : c.endings = [some (.inl .unit), some (.inl .unit)] := by rw [← hc]; rfl
  have hops : c.calls.map (·.op) = [.put (str "x") docD, .put (str "x") docE] := by rw [← hc]; rfl
  have hheld : c.held (str "x") = some [str "d"] := by
    have : c.held (str "x") = some (mi'.docs.map (·.name)) := by rw [← hc]; with_unfolding_all rfl
    rw [this, hdocs]
    decide +kernel
  obtain ⟨L0, L1, L2, s0, s1, s2, -, ts, t1, t2, t3⟩ := matched_order h (.refl _) hr (by
    intro x hx
    have : x.op ∈ c.calls.map (·.op) := List.mem_map_of_mem (List.mem_of_mem_drop hx)
    rw [hops] at this
    simp at this
    rcases this with h | h <;> rw [h] <;> rfl)
  obtain ⟨v0, e0, _⟩ := seen_over s2 (t := 0) (r := .unit) (by rw [hend]; rfl) (by rw [hops]; rfl)
  obtain ⟨v1, e1, _⟩ := seen_over s2 (t := 1) (r := .unit) (by rw [hend]; rfl) (by rw [hops]; rfl)
  have hnone : ∀ t, ¬ L1.returned t := fun t => seen_none s1 (Nat.zero_le _)
  have hts := nodup_two t1 (a := 0) (b := 1) (fun t => by
    rw [t2]
    constructor
    · rintro ⟨hr, _⟩
      by_cases ht : 2 ≤ t
      · exact absurd hr (seen_none s2 (by rw [hend]; exact ht))
      · omega
    · rintro (rfl | rfl)
      · exact ⟨⟨_, _, e0⟩, hnone _⟩
      · exact ⟨⟨_, _, e1⟩, hnone _⟩) (by decide)
  have hd0 : ∀ n, L1.docs n = none := fun n => by
    have := holds_held (s1.state (fun _ hx => nomatch hx)) n
    cases hn : L1.docs n with
    | none => rfl
    | some rs => rw [hn] at this; cases this
  have ha0 : ∀ n, L1.aliases n = none := fun n => ((s1.state (fun _ hx => nomatch hx)).aliases n).symm
  have hh := holds_held (s2.state (endings_quiet (by rw [hend]; rfl))) (str "x")
  rw [hheld] at hh
  rcases hts with rfl | rfl
  · have k := replay_nil (replay_take (replay_take t3 e0).2 e1).2
    have hL : L2.docs (str "x") = _ := congrArg (fun a : SpecState => a.docs (str "x")) k
    simp [SpecState.next, SpecState.resolve, LConfig.seq, hd0, ha0, upd] at hL
    rw [hL] at hh
    exact absurd hh (by decide +kernel)
  · have k := replay_nil (replay_take (replay_take t3 e1).2 e0).2
    have hL : L2.docs (str "x") = _ := congrArg (fun a : SpecState => a.docs (str "x")) k
    simp [SpecState.next, SpecState.resolve, LConfig.seq, hd0, ha0, upd] at hL
    rw [hL] at hh
    exact absurd hh (by decide +kernel)

/-- Two `Drop`s of an index. -/
theorem unmatched_drops (cfg : Cfg) : ∃ c0, ConcReachable cfg c0 ∧ c0.quiet ∧ ¬ Matched cfg c0 fun op => op.method = .drop := by
  obtain ⟨mi, -, -, hr⟩ := bound_reachable cfg (str "x") docD
  refine ⟨_, hr, endings_quiet rfl, fun h => ?_⟩
  have hs := drops_steps cfg mi
  generalize hc : thenTwo mi [] (.drop (str "x")) (.drop (str "x")) (.ret (.bool true)) (.ret (.bool true)) = c at hs
  have hend : c.endings = [some (.inl .unit), some (.inl (.bool true)), some (.inl (.bool true))] := by rw [← hc]; rfl
  have hops : c.calls.map (·.op) = [.put (str "x") docD, .drop (str "x"), .drop (str "x")] := by rw [← hc]; rfl
  obtain ⟨L0, L1, L2, s0, s1, s2, -, ts, t1, t2, t3⟩ := matched_order h (.refl _) hs (by
    intro x hx
    rw [← hc] at hx
    simp [thenTwo, boundConfig] at hx
    subst hx
    rfl)
  obtain ⟨_, e0, _⟩ := seen_over s1 (t := 0) (r := .unit) rfl (op := .put (str "x") docD) rfl
  obtain ⟨v1, e1, a1⟩ := seen_over s2 (t := 1) (r := .bool true) (by rw [hend]; rfl) (op := .drop (str "x")) (by rw [hops]; rfl)
  obtain ⟨v2, e2, a2⟩ := seen_over s2 (t := 2) (r := .bool true) (by rw [hend]; rfl) (op := .drop (str "x")) (by rw [hops]; rfl)
  have hts := nodup_two t1 (a := 1) (b := 2) (fun t => by
    rw [t2]
    constructor
    · rintro ⟨hr, hn⟩
      by_cases ht : 3 ≤ t
      · exact absurd hr (seen_none s2 (by rw [hend]; exact ht))
      · have : t ≠ 0 := fun h => hn (h ▸ ⟨_, _, e0⟩)
        omega
    · rintro (rfl | rfl)
      · exact ⟨⟨_, _, e1⟩, seen_none s1 (show 1 ≤ 1 by decide)⟩
      · exact ⟨⟨_, _, e2⟩, seen_none s1 (show 1 ≤ 2 by decide)⟩) (by decide)
  have key : ∀ (a : SpecState) (v : SRet), SpecState.allows cfg ⟨(a.next (.drop (str "x"))).docs, (a.next (.drop (str "x"))).aliases, 0, false⟩
      (.drop (str "x")) v → v = .bool false := by
    intro a v hv
    simp only [SpecState.allows, SpecState.next] at hv
    rw [hv]
    split <;> simp_all [upd]
  rcases hts with rfl | rfl
  · rw [key _ _ (replay_take (replay_take t3 e1).2 e2).1] at a2
    simp [Ret.agrees] at a2
  · rw [key _ _ (replay_take (replay_take t3 e2).2 e1).1] at a1
    simp [Ret.agrees] at a1

/-- An `UnAlias` and a `Rename` of its index. -/
theorem unmatched_unalias (cfg : Cfg) : ∃ c0, ConcReachable cfg c0 ∧ c0.quiet ∧
    ¬ Matched cfg c0 fun op => op.method = .unAlias ∨ op.method = .rename := by
  obtain ⟨mi, -, -, hr⟩ := bound_reachable cfg (str "x") docD
  refine ⟨_, reach_play hr (aliased_play cfg mi), endings_quiet rfl, fun h => ?_⟩
  have hs := moved_steps cfg mi
  generalize hc : thenMoved mi (str "y") (.ret (.bool true)) [⟨.rename (str "x") (str "y"), sampleOracle, .ret (.bool true)⟩] = c at hs
  have hend : c.endings = [some (.inl .unit), some (.inl (.bool true)), some (.inl (.bool true)), some (.inl (.bool true))] := by
    rw [← hc]; rfl
  have hops : c.calls.map (·.op) = [.put (str "x") docD, .alias (str "al") (str "x"), .unAlias (str "al") (str "x"),
    .rename (str "x") (str "y")] := by rw [← hc]; rfl
  have hal : (c.sh.aliases.get (str "al")).map c.sh.elems = some [str "y"] := by rw [← hc]; with_unfolding_all rfl
  have hal1 : ((aliasedConfig (str "al") mi).sh.aliases.get (str "al")).map (aliasedConfig (str "al") mi).sh.elems = some [str "x"] := by
    with_unfolding_all rfl
  have hheld : (aliasedConfig (str "al") mi).held (str "x") = some (mi.docs.map (·.name)) := by with_unfolding_all rfl
  obtain ⟨L0, L1, L2, s0, s1, s2, -, ts, t1, t2, t3⟩ := matched_order h (.refl _) hs (by
    intro x hx
    rw [← hc] at hx
    simp [thenMoved, aliasedConfig, boundConfig] at hx
    rcases hx with rfl | rfl
    · exact .inl rfl
    · exact .inr rfl)
  obtain ⟨_, e0, _⟩ := seen_over s1 (t := 0) (r := .unit) rfl (op := .put (str "x") docD) rfl
  obtain ⟨_, e1, _⟩ := seen_over s1 (t := 1) (r := .bool true) rfl (op := .alias (str "al") (str "x")) rfl
  obtain ⟨v2, e2, a2⟩ := seen_over s2 (t := 2) (r := .bool true) (by rw [hend]; rfl) (op := .unAlias (str "al") (str "x")) (by rw [hops]; rfl)
  obtain ⟨v3, e3, _⟩ := seen_over s2 (t := 3) (r := .bool true) (by rw [hend]; rfl) (op := .rename (str "x") (str "y")) (by rw [hops]; rfl)
  have hts := nodup_two t1 (a := 2) (b := 3) (fun t => by
    rw [t2]
    constructor
    · rintro ⟨hr, hn⟩
      by_cases ht : 4 ≤ t
      · exact absurd hr (seen_none s2 (by rw [hend]; exact ht))
      · have h0 : t ≠ 0 := fun h => hn (h ▸ ⟨_, _, e0⟩)
        have h1 : t ≠ 1 := fun h => hn (h ▸ ⟨_, _, e1⟩)
        omega
    · rintro (rfl | rfl)
      · exact ⟨⟨_, _, e2⟩, seen_none s1 (show 2 ≤ 2 by decide)⟩
      · exact ⟨⟨_, _, e3⟩, seen_none s1 (show 2 ≤ 3 by decide)⟩) (by decide)
  have hq1 := s1.state (endings_quiet rfl)
  have hq2 := s2.state (endings_quiet (by rw [hend]; rfl))
  have ha1 : L1.aliases (str "al") = some [str "x"] := by rw [← hq1.aliases, hal1]
  have ha2 : L2.aliases (str "al") = some [str "y"] := by rw [← hq2.aliases, hal]
  have hx1 := holds_held hq1 (str "x")
  rw [hheld] at hx1
  have hxy : str "x" ≠ str "y" := by decide +kernel
  have hne : str "x" ≠ [] := by decide +kernel
  cases hrs : L1.docs (str "x") with
  | none => rw [hrs] at hx1; cases hx1
  | some rs =>
  rcases hts with rfl | rfl
  · have k := replay_nil (replay_take (replay_take t3 e2).2 e3).2
    have hL : L2.aliases (str "al") = _ := congrArg (fun a : SpecState => a.aliases (str "al")) k
    simp [SpecState.next, LConfig.seq, hrs, ha1, upd, hne] at hL
    rw [ha2] at hL
    cases hL
  · have hv := (replay_take (replay_take t3 e3).2 e2).1
    simp [SpecState.allows, SpecState.next, LConfig.seq, hrs, upd, hne] at hv
    rw [hv] at a2
    simp [Ret.agrees] at a2

/-- Two `Put`s of a new name do not take effect at one moment each. -/
theorem C91_new_names_every (cfg : Cfg) : ¬ Linearizable cfg Config.init fun op => op.method = .put :=
  fun h => unmatched_new_names cfg h.matched

/-- Nor do two `Drop`s. -/
theorem C91_drops_every (cfg : Cfg) : ∃ c0, ConcReachable cfg c0 ∧ c0.quiet ∧ ¬ Linearizable cfg c0 fun op => op.method = .drop :=
  (unmatched_drops cfg).imp fun _ h => ⟨h.1, h.2.1, fun h' => h.2.2 h'.matched⟩

/-- Nor do an `UnAlias` and a `Rename`. -/
theorem C91_unalias_every (cfg : Cfg) : ∃ c0, ConcReachable cfg c0 ∧ c0.quiet ∧
    ¬ Linearizable cfg c0 fun op => op.method = .unAlias ∨ op.method = .rename :=
  (unmatched_unalias cfg).imp fun _ h => ⟨h.1, h.2.1, fun h' => h.2.2 h'.matched⟩

/-- C91 for each configuration. -/
theorem C91_methods_every (cfg : Cfg) (M : Method → Prop) :
    (∀ c0, ConcReachable cfg c0 → c0.quiet → Linearizable cfg c0 fun op => M op.method) ↔
      ¬ M .put ∧ ¬ M .drop ∧ ¬ (M .rename ∧ M .unAlias) := by
  refine ⟨fun h => ⟨fun hp => ?_, fun hd => ?_, fun ⟨hn, hu⟩ => ?_⟩, fun h => (C91_methods_exact M).2 h cfg⟩
  · exact C91_new_names_every cfg ((h Config.init (.refl _) (fun _ hx => nomatch hx)).mono fun op hop => hop ▸ hp)
  · obtain ⟨c0, h1, h2, h3⟩ := C91_drops_every cfg
    exact h3 ((h c0 h1 h2).mono fun op hop => hop ▸ hd)
  · obtain ⟨c0, h1, h2, h3⟩ := C91_unalias_every cfg
    refine h3 ((h c0 h1 h2).mono fun op hop => ?_)
    rcases hop with hop | hop
    · exact hop ▸ hu
    · exact hop ▸ hn

/-- A configuration whose tokenizer gives nothing. -/
example : (¬ ∀ c0, ConcReachable { sampleCfg with tok := fun _ => [] } c0 → c0.quiet →
      Linearizable { sampleCfg with tok := fun _ => [] } c0 fun op => op.method = .drop) ∧
    ∀ c0, ConcReachable { sampleCfg with tok := fun _ => [] } c0 → c0.quiet →
      Linearizable { sampleCfg with tok := fun _ => [] } c0 fun op => op.method = .rename ∨ op.method = .alias := by
  have h1 := C91_methods_every { sampleCfg with tok := fun _ => [] } (· = .drop)
  have h2 := C91_methods_every { sampleCfg with tok := fun _ => [] } (fun m => m = .rename ∨ m = .alias)
  exact ⟨fun h => (h1.1 h).2.1 rfl, h2.2 (by simp)⟩

end Visigoth
