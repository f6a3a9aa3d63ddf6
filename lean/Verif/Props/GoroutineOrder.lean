import Verif.Proofs.GoroutineOrder
import Verif.Props.HappensBefore
import Verif.Props.Methods
/-!
# The accesses of goroutines are ordered (C99)
-/
namespace Visigoth

variable {cfg : Cfg}

/-- The executions with events are the executions. -/
theorem C99_executions (c : FConfig) : FineReachable cfg c ↔ ∃ es, GTraced cfg FConfig.init es c :=
  ⟨fsteps_gtraced, fun ⟨_, h⟩ => gtraced_fsteps h⟩

/-- Conflicting accesses of goroutines are ordered, except of a `Rename` and an `UnAlias`, to the alias table. -/
theorem C99_only_rename_unalias {es : List GEvent} {c : FConfig} (h : GTraced cfg FConfig.init es c) {i j : Nat} {e e' : GEvent}
    {v : Var} (hij : i < j) (hi : es[i]? = some e) (hj : es[j]? = some e') (hc : e.conflicts e' v) :
    GHB es i j ∨ (v = .aliases ∨ v = .arrays) ∧ ∃ x y, c.calls[e.tid]? = some x ∧ c.calls[e'.tid]? = some y ∧
      ((x.op.isRename = true ∧ y.op.isUnAlias = true) ∨ (x.op.isUnAlias = true ∧ y.op.isRename = true)) :=
  ghb_only h hij hi hj hc

/-- What is accessed by a goroutine that `Put` or `Search` started is not the alias table. -/
theorem started_uses {es : List GEvent} {c : FConfig} (h : GTraced cfg FConfig.init es c) {n : Nat} {e : GEvent}
    (hn : es[n]? = some e) (ha : e.agent ≠ none) {v : Var} (hu : e.uses v) : v ≠ .aliases ∧ v ≠ .arrays := by
  have hs := (gtraced_suits h hn).2
  cases hg : e.agent with
  | none => exact absurd hg ha
  | some g =>
    rw [hg] at hs
    simp only [GEvent.uses, GEvent.reads, GEvent.writes] at hu
    cases hd : e.deed <;> rw [hd] at hs hu
    case act a =>
      obtain ⟨ps, q, -, -, -, p4⟩ := hs
      rw [p4 v hu]; exact ⟨nofun, nofun⟩
    case eval p => rcases hu with h | h <;> cases h; exact ⟨nofun, nofun⟩
    case append => rcases hu with h | h <;> cases h; exact ⟨nofun, nofun⟩
    case lock => rcases hu with h | h <;> cases h
    case unlock => rcases hu with h | h <;> cases h
    all_goals exact hs.elim

/-- Whatever else is called: an access by a goroutine that `Put` or `Search` started is ordered with all that conflict. -/
theorem C99_started {es : List GEvent} {c : FConfig} (h : GTraced cfg FConfig.init es c) {i j : Nat} {e e' : GEvent}
    {v : Var} (hij : i < j) (hi : es[i]? = some e) (hj : es[j]? = some e') (hc : e.conflicts e' v)
    (hs : e.agent ≠ none ∨ e'.agent ≠ none) : GHB es i j := by
  refine (ghb_only h hij hi hj hc).resolve_right fun ⟨hv, _⟩ => ?_
  have : v ≠ .aliases ∧ v ≠ .arrays := hs.elim (fun x => started_uses h hi x hc.2.1) fun x => started_uses h hj x hc.2.2.1
  exact hv.elim this.1 this.2

/-- So are all accesses to the index map, the indices and the results. -/
theorem C99_indices {es : List GEvent} {c : FConfig} (h : GTraced cfg FConfig.init es c) {i j : Nat} {e e' : GEvent}
    {v : Var} (hij : i < j) (hi : es[i]? = some e) (hj : es[j]? = some e') (hc : e.conflicts e' v)
    (hv : v ≠ .aliases ∧ v ≠ .arrays) : GHB es i j :=
  (ghb_only h hij hi hj hc).resolve_right fun ⟨hv', _⟩ => hv'.elim hv.1 hv.2

/-- Within a call all conflicting accesses are ordered. -/
theorem C99_same_call {es : List GEvent} {c : FConfig} (h : GTraced cfg FConfig.init es c) {i j : Nat} {e e' : GEvent}
    {v : Var} (hij : i < j) (hi : es[i]? = some e) (hj : es[j]? = some e') (hc : e.conflicts e' v)
    (ht : e.tid = e'.tid) : GHB es i j :=
  ghb_within h hij hi hj ht (hc.1.resolve_left fun x => x ht) hc.2.1 hc.2.2.1 hc.2.2.2

/-- A goroutine starts after all that its call did before, and the call goes on after all that it did, unless it panicked. -/
theorem C99_fork_join {es : List GEvent} {c : FConfig} (h : GTraced cfg FConfig.init es c) {i j : Nat} {e e' : GEvent}
    (hij : i < j) (hi : es[i]? = some e) (hj : es[j]? = some e') (ht : e.tid = e'.tid) :
    (e.agent = none → GHB es i j) ∧ (e'.agent = none → e'.deed ≠ .panic → GHB es i j) :=
  ⟨from_main h hij hi hj ht, to_main h hij hi hj ht⟩

/-- The exception is real. -/
theorem C99_unordered : ∃ es c, GTraced sampleCfg FConfig.init es c ∧ ¬ GOrdered es := by
  obtain ⟨c, hc, hrace⟩ := C61_rename_unalias_race
  obtain ⟨es, c', h, -, hn⟩ := grace_unordered hc hrace
  exact ⟨es, c', h, hn⟩

/-- Goroutines that can race, in the sense of C61, can make conflicting accesses that nothing orders. -/
theorem C99_race_unordered {c : FConfig} (hr : FineReachable cfg c) {t u : Tid} {g k : Agent} {v : Var} (h : c.race t u g k v) :
    ∃ es c', GTraced cfg FConfig.init es c' ∧ c'.calls.map (·.op) = c.calls.map (·.op) ∧ ¬ GOrdered es :=
  grace_unordered hr h

/-- The same without interleaved goroutines. -/
theorem fine_access {c : FConfig} (hr : FineReachable cfg c) {t : Tid} {x : FThread} {v : Var} (hx : c.calls[t]? = some x)
    (hv : v = .aliases ∨ v = .arrays) (hl : x.reads t none = some v ∨ x.writes t none = some v) :
    ∃ d y l, ConcReachable cfg d ∧ Alike c d ∧ d.calls[t]? = some y ∧ (y.reads = some l ∨ y.writes = some l) ∧ l ≠ .indices := by
  obtain ⟨d, G, hd, sim⟩ := sim_reachable hr
  obtain ⟨H, i, w⟩ := nsteps_inv hd
  obtain ⟨_, _, ⟨F, hF⟩, hR⟩ := nsteps_reachable hd
  obtain ⟨x', hx', -⟩ := sim.call t x hx
  have ax := hl.imp (fun hl => ((sim_access sim i w hx hx' none v).2 hl).1) (fun hl => ((sim_access sim i w hx hx' none v).1 hl).1)
  rcases hv with rfl | rfl
  · exact ⟨_, _, .aliases, hR F hF, sim_alike hd sim F, withSchedules_get hx', ax, nofun⟩
  · exact ⟨_, _, .arrays, hR F hF, sim_alike hd sim F, withSchedules_get hx', ax, nofun⟩

/-- The access of an event is what the call was about to do. -/
theorem gstep_access {c c' : FConfig} {e : GEvent} (h : GStep cfg e c c') {v : Var} (hv : v = .aliases ∨ v = .arrays)
    (ha : e.agent = none) (hu : e.uses v) :
    ∃ x, c.calls[e.tid]? = some x ∧ (x.reads e.tid none = some v ∨ x.writes e.tid none = some v) := by
  cases h with
  | act h he => exact ⟨_, h, hu⟩
  | crash h he => exact ⟨_, h, hu⟩
  | searchJoin h hd => rcases hu with x | x <;> cases x; rcases hv with x | x <;> cases x
  | put => cases ha
  | putCrash => cases ha
  | eval => cases ha
  | evalPanic => cases ha
  | lock => cases ha
  | append => cases ha
  | unlock => cases ha
  | _ => rcases hu with x | x <;> cases x

/-- Exactly which methods can be used together so that no two goroutines ever make unordered conflicting accesses.  A `Put`
through an alias that names an index twice would write it from two goroutines; here it ends in `race` instead. -/
theorem C99_methods_exact (M : Method → Prop) :
    (∀ cfg es c, GTraced cfg FConfig.init es c → (∀ x ∈ c.calls, M x.op.method) →
      GOrdered es ∧ ∀ x ∈ c.calls, x.status ≠ .crashed .race) ↔
      ¬ (M .put ∧ M .rename ∧ (M .unAlias ∨ M .alias)) := by
  constructor
  · rintro H ⟨hp, hn, hu | ha⟩
    · refine (C61_methods_exact M).1 (fun cfg c hr hM t u g k v hrace => ?_) ⟨hp, hn, hu⟩
      obtain ⟨es, c', ht, hops, hno⟩ := grace_unordered hr hrace
      refine hno (H cfg es c' ht fun x hx => ?_).1
      have : x.op ∈ c'.calls.map (·.op) := List.mem_map_of_mem hx
      rw [hops] at this
      obtain ⟨y, hy, hyo⟩ := List.mem_map.1 this
      rw [← hyo]; exact hM y hy
    · have key : ((FConfig.init.play sampleCfg (fineSetup ++ [fcallNow (.rename (str "x") (str "y"))] ++ fgoes 4 11 ++
          [fcallNow (.put (str "a") docD)] ++ fgoes 5 12)).map fun c =>
          (c.calls.map (·.op.method), (c.calls[5]?).map fun x => match x.status with
            | .crashed .race => true
            | _ => false)) = some ([.put, .put, .alias, .alias, .rename, .put], some true) := by decide +kernel
      obtain ⟨c, hc, key⟩ := Option.map_eq_some_iff.1 key
      simp only [Prod.mk.injEq, Option.map_eq_some_iff] at key
      obtain ⟨h1, x, hx, h2⟩ := key
      obtain ⟨es, ht⟩ := fsteps_gtraced (play_fsteps hc)
      refine (H sampleCfg es c ht fun z hz => ?_).2 x (List.mem_of_getElem? hx) ?_
      · have : z.op.method ∈ c.calls.map (·.op.method) := List.mem_map_of_mem hz
        rw [h1] at this
        simp only [List.mem_cons, List.not_mem_nil, or_false] at this
        rcases this with e | e | e | e | e | e <;> rw [e] <;> assumption
      · split at h2
        · assumption
        · cases h2
  · intro H cfg es c ht hM
    refine ⟨fun i j e e' v hij hi hj hc => ?_, fun x hx he => ?_⟩
    · refine (ghb_only ht hij hi hj hc).resolve_right ?_
      rintro ⟨hv, x, y, hx, hy, hxy⟩
      have mx := List.mem_of_getElem? hx
      have my := List.mem_of_getElem? hy
      have ren : ∀ op : Op, op.isRename = true → op.method = .rename := by intro op; cases op <;> simp [Op.isRename, Op.method]
      have una : ∀ op : Op, op.isUnAlias = true → op.method = .unAlias := by intro op; cases op <;> simp [Op.isUnAlias, Op.method]
      by_cases hp : ∃ z ∈ c.calls, z.op.method = .put
      · obtain ⟨z, hz, hzm⟩ := hp
        refine H ⟨hzm ▸ hM z hz, ?_⟩
        rcases hxy with ⟨h1, h2⟩ | ⟨h1, h2⟩
        · exact ⟨ren _ h1 ▸ hM x mx, .inl (una _ h2 ▸ hM y my)⟩
        · exact ⟨ren _ h2 ▸ hM y my, .inl (una _ h1 ▸ hM x mx)⟩
      · have key : ∀ {n : Nat} {f : GEvent} {z : FThread}, es[n]? = some f → c.calls[f.tid]? = some z → z.op.isRename = true →
            f.uses v → False := by
          intro n f z hn hz hzr hu
          have hag : f.agent = none := Classical.byContradiction fun ha => by
            have := started_uses ht hn ha hu
            exact hv.elim this.1 this.2
          obtain ⟨c', c'', h1, h2, h3⟩ := gtraced_at ht hn
          obtain ⟨w, hw, hl⟩ := gstep_access h2 hv hag hu
          obtain ⟨d, y, l, hd, al, hy, hl, hne⟩ := fine_access (gtraced_fsteps h1) hw hv hl
          have hops : z.op = w.op := by
            obtain ⟨r, hr⟩ := h3
            have : (c.calls.map (·.op))[f.tid]? = some w.op := by
              rw [← hr, List.getElem?_append_left (by simpa using (List.getElem?_eq_some_iff.1 hw).1)]
              simp [hw]
            rw [List.getElem?_map, hz] at this
            simpa using this
          have noPut : ∀ q ∈ c'.calls, q.op.method ≠ .put := fun q hq hqm => by
            have : q.op ∈ c.calls.map (·.op) := h3.subset (List.mem_map_of_mem hq)
            obtain ⟨o, ho, hoo⟩ := List.mem_map.1 this
            exact hp ⟨o, ho, by rw [hoo]; exact hqm⟩
          have inv := noIndex_reachable hd (alike_all al (P := fun op _ => op.method ≠ .put) noPut)
          have := inv.prog _ (List.mem_of_getElem? hy)
          obtain ⟨w', hw', sc⟩ := alike_back al hy
          rw [hw] at hw'; cases hw'
          have hyr : y.op.isRename = true := by rw [sc.op, ← hops]; exact hzr
          obtain ⟨yo, yor, yp⟩ := y
          cases yp with
          | ret r => rcases hl with h | h <;> cases h
          | crash r => rcases hl with h | h <;> cases h
          | act a k =>
            refine hne ?_
            cases a <;> exact this.1 hyr l hl
        obtain ⟨-, hu, hu', -⟩ := hc
        rcases hxy with ⟨h1, -⟩ | ⟨-, h2⟩
        · exact key hi hx h1 hu
        · exact key hj hy h2 hu'
    · have := (C79_panics_goroutines_exact M).2 (fun ⟨h1, h2, h3⟩ => H ⟨h1, h3, .inr h2⟩) cfg c (gtraced_fsteps ht) hM x hx _ he
      cases this

/-! ## Concrete cases -/

/-- The event of a scheduled step. -/
def FConfig.events (c : FConfig) : FSched → List GEvent
  | .call _ _ => []
  | .go t =>
    match c.calls[t]? with
    | some { op := _, oracle := _, st := .run (.act a _) } => [⟨t, none, .act a⟩]
    | some { op := _, oracle := _, st := .run (.forkPut ps _ _) } => [⟨t, none, .forkPut ps⟩]
    | some { op := _, oracle := _, st := .run (.forkSearch _ _ _ _) } => [⟨t, none, .forkSearch⟩]
    | some { op := _, oracle := _, st := .putting _ _ } => [⟨t, none, .putJoin⟩]
    | some { op := _, oracle := _, st := .searching _ _ _ _ _ _ } => [⟨t, none, .searchJoin⟩]
    | _ => []
  | .sub t i =>
    match c.calls[t]? with
    | some { op := _, oracle := _, st := .putting gs _ } =>
      match gs[i]? with
      | some (.act a _) => [⟨t, some i, .act a⟩]
      | _ => []
    | some { op := _, oracle := _, st := .searching _ _ gs _ _ _ } =>
      match gs[i]? with
      | some (.start p) => [⟨t, some i, .eval p⟩]
      | some (.evaluated _) => [⟨t, some i, .lock⟩]
      | some (.appending (_ :: _)) => [⟨t, some i, .append⟩]
      | some (.appending []) => [⟨t, some i, .unlock⟩]
      | _ => []
    | _ => []

def FConfig.playEvents (cfg : Cfg) (c : FConfig) : List FSched → List GEvent
  | [] => []
  | x :: xs =>
    match c.next cfg x with
    | some c' => c.events x ++ c'.playEvents cfg xs
    | none => []

theorem next_gtraced {c₀ c c' : FConfig} {es : List GEvent} {x : FSched} (h : GTraced cfg c₀ es c) (hx : c.next cfg x = some c') :
    GTraced cfg c₀ (es ++ c.events x) c' := by
  obtain ⟨s, calls⟩ := c
  cases x with
  | call op o => cases hx; simpa [FConfig.events] using h.call op o
  | go t =>
    simp only [FConfig.next] at hx
    split at hx
    · next op o β a k hc =>
      simp only [FConfig.events, hc]
      split at hx
      · next b s' he => cases hx; exact h.step (.act hc he)
      · cases hx
      · next e he => cases hx; exact h.step (.crash hc he)
    · next hc => cases hx; simp only [FConfig.events, hc]; exact h.step (.forkPut hc)
    · next hc => cases hx; simp only [FConfig.events, hc]; exact h.step (.forkSearch hc)
    · next hc =>
      split at hx
      · next hd => cases hx; simp only [FConfig.events, hc]; exact h.step (.putJoin hc (doneB_done hd))
      · cases hx
    · next hc =>
      split at hx
      · next hd => cases hx; simp only [FConfig.events, hc]; exact h.step (.searchJoin hc hd)
      · cases hx
    · cases hx
  | sub t i =>
    simp only [FConfig.next] at hx
    split at hx
    · next hc =>
      split at hx
      · next p hp =>
        cases hx
        simp only [FConfig.events, hc]
        simp only [Pool.next] at hp
        split at hp
        · next a k hg =>
          split at hp
          · next b s' he => cases hp; rw [hg]; exact h.step (.put hc hg he)
          · cases hp
        · cases hp
      · cases hx
    · next hc =>
      split at hx
      · next p hp =>
        cases hx
        simp only [FConfig.events, hc]
        simp only [SearchPool.next] at hp
        split at hp
        · next q hg =>
          split at hp
          · next mi hm =>
            split at hp
            · next sr he => cases hp; rw [hg]; exact h.step (.eval hc hg hm he)
            · cases hp
          · cases hp
        · next sr hg =>
          split at hp
          · next => cases hp; rw [hg]; exact h.step (.lock hc hg)
          · cases hp
        · next y rest hg => cases hp; rw [hg]; exact h.step (.append hc hg)
        · next hg => cases hp; rw [hg]; exact h.step (.unlock hc hg)
        · cases hp
      · cases hx
    · cases hx

theorem play_gtraced {c₀ c c' : FConfig} {es : List GEvent} {xs : List FSched} (h : GTraced cfg c₀ es c)
    (hp : c.play cfg xs = some c') : GTraced cfg c₀ (es ++ c.playEvents cfg xs) c' := by
  induction xs generalizing c es with
  | nil => simp only [FConfig.play, Option.some.injEq] at hp; subst hp; simpa [FConfig.playEvents] using h
  | cons x xs ih =>
    simp only [FConfig.play] at hp
    split at hp
    · next c₁ hx =>
      simp only [FConfig.playEvents, hx]
      rw [← List.append_assoc]
      exact ih (next_gtraced h hx) hp
    · cases hp

/-- The events of a schedule that can be played, from the empty repository. -/
theorem gtraced_play {xs : List FSched} (h : (FConfig.init.play cfg xs).isSome = true) :
    ∃ c, GTraced cfg FConfig.init (FConfig.init.playEvents cfg xs) c := by
  obtain ⟨c, hc⟩ := Option.isSome_iff_exists.1 h
  have := play_gtraced (es := []) .start hc
  rw [List.nil_append] at this
  exact ⟨c, this⟩

/-- What an event accesses. -/
def GEvent.access (e : GEvent) : Tid × Agent × Option Var × Option Var := (e.tid, e.agent, e.reads, e.writes)

/-- Two Searches through an alias at the same time: both goroutines of call 4 append to its `result`, those of call 5 to
another variable. -/
example : ((FConfig.init.playEvents sampleCfg fineSearches).map GEvent.access)[71]? = some (4, some 1, none, some (.result 4)) ∧
    ((FConfig.init.playEvents sampleCfg fineSearches).map GEvent.access)[72]? = some (5, some 0, none, some (.result 5)) ∧
    ((FConfig.init.playEvents sampleCfg fineSearches).map GEvent.access)[76]? = some (4, some 0, none, some (.result 4)) := by
  refine ⟨?_, ?_, ?_⟩ <;> decide +kernel

/-- The appends are ordered. -/
example : GHB (FConfig.init.playEvents sampleCfg fineSearches) 71 76 := by
  obtain ⟨c, h⟩ := gtraced_play (cfg := sampleCfg) (xs := fineSearches) (by decide +kernel)
  have h1 : ((FConfig.init.playEvents sampleCfg fineSearches).map GEvent.access)[71]? = some (4, some 1, none, some (.result 4)) := by
    decide +kernel
  have h2 : ((FConfig.init.playEvents sampleCfg fineSearches).map GEvent.access)[76]? = some (4, some 0, none, some (.result 4)) := by
    decide +kernel
  rw [List.getElem?_map, Option.map_eq_some_iff] at h1 h2
  obtain ⟨e, he, h1⟩ := h1
  obtain ⟨e', he', h2⟩ := h2
  simp only [GEvent.access, Prod.mk.injEq] at h1 h2
  refine C99_same_call h (by decide) he he' ⟨.inr ?_, .inr h1.2.2.2, .inr h2.2.2.2, .inl h1.2.2.2⟩ (h1.1.trans h2.1.symm)
  rw [h1.2.1, h2.2.1]; decide

/-- A Put through an alias, then a Search through it. -/
def putThenSearch : List FSched :=
  fineSetup ++ [fcallNow (.put (str "a") docE), fcallNow (.search (str "a") (str "java") linearSearch)] ++ fgoes 4 13 ++
  subs 4 [1, 0, 0, 1] ++ fgoes 4 2 ++ fgoes 5 10 ++ subs 5 [1]

/-- What a goroutine of the Put writes happens before what a goroutine of the Search reads. -/
example : GHB (FConfig.init.playEvents sampleCfg putThenSearch) 58 74 := by
  obtain ⟨c, h⟩ := gtraced_play (cfg := sampleCfg) (xs := putThenSearch) (by decide +kernel)
  have h1 : ((FConfig.init.playEvents sampleCfg putThenSearch).map GEvent.access)[58]? = some (4, some 1, none, some (.index 1)) := by
    decide +kernel
  have h2 : ((FConfig.init.playEvents sampleCfg putThenSearch).map GEvent.access)[74]? = some (5, some 1, some (.index 1), none) := by
    decide +kernel
  rw [List.getElem?_map, Option.map_eq_some_iff] at h1 h2
  obtain ⟨e, he, h1⟩ := h1
  obtain ⟨e', he', h2⟩ := h2
  simp only [GEvent.access, Prod.mk.injEq] at h1 h2
  refine C99_started h (by decide) he he' ⟨.inl ?_, .inr h1.2.2.2, .inl h2.2.2.1, .inl h1.2.2.2⟩ (.inl ?_)
  · rw [h1.1, h2.1]; decide
  · rw [h1.2.1]; nofun

/-- Nothing orders the goroutines of a Put: what they write next to each other, each to its own index. -/
example : ¬ GHB (FConfig.init.playEvents sampleCfg putThenSearch) 58 59 := by
  intro h
  have h1 : ((FConfig.init.playEvents sampleCfg putThenSearch).map GEvent.access)[58]? = some (4, some 1, none, some (.index 1)) := by
    decide +kernel
  have h2 : ((FConfig.init.playEvents sampleCfg putThenSearch).map GEvent.access)[59]? = some (4, some 0, none, some (.index 0)) := by
    decide +kernel
  rw [List.getElem?_map, Option.map_eq_some_iff] at h1 h2
  obtain ⟨e, he, h1⟩ := h1
  obtain ⟨e', he', h2⟩ := h2
  simp only [GEvent.access, Prod.mk.injEq] at h1 h2
  rcases ghb_next he he' h with h | h | h | h | h
  · rw [h1.2.1, h2.2.1] at h; cases h.2
  · obtain ⟨β, γ, a, b, m, p, q, d1, d2, d3, _⟩ := h
    rw [uses_no_release (.inr h1.2.2.2) d1] at d3; cases d3
  · have := h1.2.2.2
    simp [GEvent.writes, h.2.1] at this
  · rw [h1.2.1] at h; cases h.2.1
  · rw [h2.2.1] at h; cases h.2.2.1

/-- Concrete cases of the theorem about methods. -/
example : (∀ cfg es c, GTraced cfg FConfig.init es c → (∀ x ∈ c.calls, x.op.method ≠ .rename) → GOrdered es) ∧
    ¬ ∀ cfg es c, GTraced cfg FConfig.init es c → (∀ x ∈ c.calls, x.op.method ≠ .unAlias) →
      GOrdered es ∧ ∀ x ∈ c.calls, x.status ≠ .crashed .race := by
  refine ⟨fun cfg es c h hM => ((C99_methods_exact (· ≠ .rename)).2 (by simp) cfg es c h hM).1, ?_⟩
  rw [C99_methods_exact (· ≠ .unAlias)]
  simp

end Visigoth
