import Verif.Proofs.HappensBefore
import Verif.Props.RaceGuard
/-!
# Conflicting accesses are ordered by the mutexes (C98)
-/
namespace Visigoth

variable {cfg : Cfg}

/-- In every execution conflicting accesses are ordered by happens-before. -/
def AllOrdered (cfg : Cfg) : Prop := ∀ es c, Traced cfg Config.init es c → Ordered es

/-- The same for the executions that call only these methods. -/
def OrderedWith (cfg : Cfg) (M : Method → Prop) : Prop :=
  ∀ es c, Traced cfg Config.init es c → (∀ x ∈ c.calls, M x.op.method) → Ordered es

/-- The event of a scheduled step. -/
def Config.events (c : Config) : Sched → List Event
  | .call _ _ => []
  | .go t =>
    match c.calls[t]? with
    | some { op := _, oracle := _, prog := .act a _ } => [{ tid := t, act := a }]
    | _ => []

/-- The events of a schedule. -/
def Config.playEvents (cfg : Cfg) (c : Config) : List Sched → List Event
  | [] => []
  | x :: xs =>
    match c.next cfg x with
    | some c' => c.events x ++ c'.playEvents cfg xs
    | none => []

theorem play_traced {c₀ c c' : Config} {es : List Event} {xs : List Sched} (h : Traced cfg c₀ es c)
    (hp : c.play cfg xs = some c') : Traced cfg c₀ (es ++ c.playEvents cfg xs) c' := by
  induction xs generalizing c es with
  | nil => simp only [Config.play, Option.some.injEq] at hp; subst hp; simpa [Config.playEvents] using h
  | cons x xs ih =>
    simp only [Config.play] at hp
    split at hp
    · next c₁ hx =>
      simp only [Config.playEvents, hx]
      rw [← List.append_assoc]
      refine ih ?_ hp
      cases x with
      | call op o =>
        simp only [Config.next, Option.some.injEq] at hx
        subst hx
        simpa [Config.events] using h.call op o
      | go t =>
        obtain ⟨s, cs⟩ := c
        simp only [Config.next] at hx
        split at hx
        · next op o β a k hc =>
          simp only [Config.events, hc]
          split at hx
          · next b s' he => simp only [Option.some.injEq] at hx; subst hx; exact h.act hc he
          · cases hx
          · next e he => simp only [Option.some.injEq] at hx; subst hx; exact h.crash hc he
        · cases hx
    · cases hp

/-- Calls that can race, in the sense of C51, can make conflicting accesses that nothing orders. -/
theorem C98_race_unordered {c : Config} (hr : ConcReachable cfg c) {t u : Tid} {l : Loc} (h : c.race t u l) :
    ∃ es c', Traced cfg Config.init es c' ∧ c'.calls.map (·.op) = c.calls.map (·.op) ∧ ¬ Ordered es :=
  race_unordered hr h

/-- False of the code: `Rename` uses the alias map without its mutex. -/
theorem C98_refuted : ¬ AllOrdered sampleCfg := by
  intro h
  obtain ⟨c, hc, -, hrace⟩ := methodSchedule_race
  obtain ⟨es, c', ht, -, hn⟩ := race_unordered hc hrace
  exact hn (h es c' ht)

/-- Conflicting accesses are ordered, except of a `Rename` and an `UnAlias`, to the alias table. -/
theorem C98_only_rename_unalias {es : List Event} {c : Config} (h : Traced cfg Config.init es c) {i j : Nat} {e e' : Event}
    {l : Loc} (hij : i < j) (hi : es[i]? = some e) (hj : es[j]? = some e') (hc : e.conflicts e' l) :
    HB es i j ∨ l ≠ .indices ∧ ∃ x y, c.calls[e.tid]? = some x ∧ c.calls[e'.tid]? = some y ∧
      ((x.op.isRename = true ∧ y.op.isUnAlias = true) ∨ (x.op.isUnAlias = true ∧ y.op.isRename = true)) :=
  hb_only h hij hi hj hc

/-- All accesses to the index map and the indices are ordered, whatever is called. -/
theorem C98_indices {es : List Event} {c : Config} (h : Traced cfg Config.init es c) {i j : Nat} {e e' : Event} (hij : i < j)
    (hi : es[i]? = some e) (hj : es[j]? = some e') (hc : e.conflicts e' .indices) : HB es i j :=
  (hb_only h hij hi hj hc).resolve_right fun hn => hn.1 rfl

/-- Conflicting accesses are ordered in every execution that does not have both `Rename` and `UnAlias`. -/
theorem C98_ordered_partial {es : List Event} {c : Config} (h : Traced cfg Config.init es c)
    (hM : (∀ x ∈ c.calls, x.op.isRename = false) ∨ ∀ x ∈ c.calls, x.op.isUnAlias = false) : Ordered es := by
  intro i j e e' l hij hi hj hc
  refine (hb_only h hij hi hj hc).resolve_right ?_
  rintro ⟨-, x, y, hx, hy, hxy⟩
  have mx := List.mem_of_getElem? hx
  have my := List.mem_of_getElem? hy
  rcases hM with hM | hM <;> rcases hxy with ⟨h1, h2⟩ | ⟨h1, h2⟩
  · rw [hM x mx] at h1; cases h1
  · rw [hM y my] at h2; cases h2
  · rw [hM y my] at h2; cases h2
  · rw [hM x mx] at h1; cases h1

/-- Exactly which methods can be used together so that conflicting accesses are always ordered. -/
theorem C98_methods_exact (M : Method → Prop) :
    (∀ cfg, OrderedWith cfg M) ↔ ¬ (M .put ∧ M .rename ∧ M .unAlias) := by
  constructor
  · rintro h ⟨hp, hn, hu⟩
    obtain ⟨c, hc, hops, hrace⟩ := methodSchedule_race
    obtain ⟨es, c', ht, hops', hno⟩ := race_unordered hc hrace
    refine hno (h sampleCfg es c' ht fun x hx => ?_)
    have e : c'.calls.map (·.op.method) = c.calls.map (·.op.method) := by
      have := congrArg (List.map Op.method) hops'
      simpa [Function.comp_def] using this
    have : x.op.method ∈ c'.calls.map (·.op.method) := List.mem_map_of_mem hx
    rw [e, hops] at this
    simp only [List.mem_cons, List.not_mem_nil, or_false] at this
    rcases this with e | e | e <;> rw [e] <;> assumption
  · intro h cfg es c ht hM i j e e' l hij hi hj hc
    refine (hb_only ht hij hi hj hc).resolve_right ?_
    rintro ⟨hl, x, y, hx, hy, hxy⟩
    have mx := List.mem_of_getElem? hx
    have my := List.mem_of_getElem? hy
    have ren : ∀ op : Op, op.isRename = true → op.method = .rename := by intro op; cases op <;> simp [Op.isRename, Op.method]
    have una : ∀ op : Op, op.isUnAlias = true → op.method = .unAlias := by intro op; cases op <;> simp [Op.isUnAlias, Op.method]
    by_cases hp : ∃ z ∈ c.calls, z.op.method = .put
    · obtain ⟨z, hz, hzm⟩ := hp
      refine h ⟨hzm ▸ hM z hz, ?_⟩
      rcases hxy with ⟨h1, h2⟩ | ⟨h1, h2⟩
      · exact ⟨ren _ h1 ▸ hM x mx, una _ h2 ▸ hM y my⟩
      · exact ⟨ren _ h2 ▸ hM y my, una _ h1 ▸ hM x mx⟩
    · have key : ∀ {n : Nat} {f : Event} {z : Thread}, es[n]? = some f → c.calls[f.tid]? = some z → z.op.isRename = true →
          f.uses l → False := by
        intro n f z hn hz hzr hu
        obtain ⟨c', op, o, k, h1, h2, h3⟩ := traced_at ht hn
        have hop : z.op = op := by
          obtain ⟨r, hr⟩ := h3
          have : (c.calls.map (·.op))[f.tid]? = some op := by
            rw [← hr, List.getElem?_append_left (by simpa using (List.getElem?_eq_some_iff.1 h2).1)]
            simp [h2]
          rw [List.getElem?_map, hz] at this
          simpa using this
        have inv := noIndex_reachable (traced_steps h1) fun w hw hwm => by
          have : w.op ∈ c.calls.map (·.op) := h3.subset (List.mem_map_of_mem hw)
          obtain ⟨v, hv, hvo⟩ := List.mem_map.1 this
          exact hp ⟨v, hv, by rw [hvo]; exact hwm⟩
        have := inv.prog _ (List.mem_of_getElem? h2)
        simp only [← hop, hzr] at this
        refine hl ?_
        obtain ⟨ft, fa⟩ := f
        cases fa <;> exact this.1 rfl l hu
      obtain ⟨-, hu, hu', -⟩ := hc
      rcases hxy with ⟨h1, -⟩ | ⟨-, h2⟩
      · exact key hi hx h1 hu
      · exact key hj hy h2 hu'

/-- Two calls of `Put x`, one after the other. -/
def twoPuts : List Sched :=
  [callNow (.put (str "x") docD), callNow (.put (str "x") docD)] ++ goes 0 13 ++ goes 1 2

/-- The conflicting accesses and the lock operations between them: call 0 makes the index (8), releases the mutex (12); call
1 takes it (13) and looks the name up (14). -/
example : (Config.init.play sampleCfg twoPuts).isSome = true ∧
    ((Config.init.playEvents sampleCfg twoPuts).map fun e => (e.tid, e.act.reads, e.act.writes))[8]? = some (0, none, some .indices) ∧
    ((Config.init.playEvents sampleCfg twoPuts).map fun e => (e.tid, e.act.releases))[12]? = some (0, some (.indices, true)) ∧
    ((Config.init.playEvents sampleCfg twoPuts).map fun e => (e.tid, e.act.takes))[13]? = some (1, some (.indices, false)) ∧
    ((Config.init.playEvents sampleCfg twoPuts).map fun e => (e.tid, e.act.reads, e.act.writes))[14]? = some (1, some .indices, none) := by
  decide +kernel

/-- So 8 happens before 14. -/
example : HB (Config.init.playEvents sampleCfg twoPuts) 8 14 := by
  have h1 : ((Config.init.playEvents sampleCfg twoPuts).map fun e => (e.tid, e.act.reads, e.act.writes))[8]? =
    some (0, none, some .indices) := by decide +kernel
  have h2 : ((Config.init.playEvents sampleCfg twoPuts).map fun e => (e.tid, e.act.reads, e.act.writes))[14]? =
    some (1, some .indices, none) := by decide +kernel
  have h3 : (Config.init.play sampleCfg twoPuts).isSome = true := by decide +kernel
  obtain ⟨c, hc⟩ := Option.isSome_iff_exists.1 h3
  have ht : Traced sampleCfg Config.init (Config.init.playEvents sampleCfg twoPuts) c := by
    have := play_traced (es := []) .start hc
    rw [List.nil_append] at this
    exact this
  rw [List.getElem?_map, Option.map_eq_some_iff] at h1 h2
  obtain ⟨e, he, h1⟩ := h1
  obtain ⟨e', he', h2⟩ := h2
  simp only [Prod.mk.injEq] at h1 h2
  refine C98_indices ht (by decide) he he' ⟨?_, .inr h1.2.2, .inl h2.2.1, .inl h1.2.2⟩
  rw [h1.1, h2.1]; decide

/-- Two read locks order nothing: two calls of `Has`, none of whose events happens before one of the other. -/
example : ∀ i j, i < 3 → 3 ≤ j →
    ¬ HB (Config.init.playEvents sampleCfg ([callNow (.has (str "x")), callNow (.has (str "x"))] ++ goes 0 3 ++ goes 1 3)) i j := by
  intro i j hi hj h
  have key : ∀ i j : Nat, HB (Config.init.playEvents sampleCfg
      ([callNow (.has (str "x")), callNow (.has (str "x"))] ++ goes 0 3 ++ goes 1 3)) i j → ¬ (i < 3 ∧ 3 ≤ j) := by
    intro i j h
    have hev : ((Config.init.playEvents sampleCfg ([callNow (.has (str "x")), callNow (.has (str "x"))] ++ goes 0 3 ++ goes 1 3)).map
        fun e => (e.tid, e.act.takes.map (·.2) == some true, e.act.releases.map (·.2) == some true)) =
        [(0, false, false), (0, false, false), (0, false, false), (1, false, false), (1, false, false), (1, false, false)] := by
      decide +kernel
    generalize Config.init.playEvents sampleCfg
      ([callNow (.has (str "x")), callNow (.has (str "x"))] ++ goes 0 3 ++ goes 1 3) = es at h hev
    have at' : ∀ {n : Nat} {e : Event}, es[n]? = some e → e.tid = (if n < 3 then 0 else 1) ∧
        (e.act.takes.map (·.2) == some true) = false ∧ (e.act.releases.map (·.2) == some true) = false := by
      intro n e he
      have h1 := congrArg (fun l => l[n]?) hev
      simp only [List.getElem?_map, he, Option.map_some] at h1
      match n, h1 with
      | 0, h1 | 1, h1 | 2, h1 | 3, h1 | 4, h1 | 5, h1 => simpa using h1
      | n + 6, h1 => simp at h1
    induction h with
    | po _ h1 h2 h3 =>
      rintro ⟨a, b⟩
      have e1 := (at' h1).1
      have e2 := (at' h2).1
      rw [if_pos a] at e1
      rw [if_neg (by omega)] at e2
      rw [e1, e2] at h3; cases h3
    | sync _ h1 h2 h3 =>
      obtain ⟨m, x, y, g1, g2, g3⟩ := h3
      have e1 := (at' h1).2.2
      have e2 := (at' h2).2.1
      rw [g1] at e1
      rw [g2] at e2
      rcases g3 with rfl | rfl
      · simp at e1
      · simp at e2
    | @trans i j k _ _ ih1 ih2 =>
      rintro ⟨a, b⟩
      by_cases hj : j < 3
      · exact ih2 ⟨hj, b⟩
      · exact ih1 ⟨a, by omega⟩
  exact key i j h ⟨hi, hj⟩

/-- Concrete cases of the theorems about methods. -/
example : OrderedWith sampleCfg (· ≠ .unAlias) ∧ OrderedWith sampleCfg (· ≠ .rename) ∧ OrderedWith sampleCfg (· ≠ .put) ∧
    ¬ ∀ cfg, OrderedWith cfg fun _ => True := by
  refine ⟨(C98_methods_exact (· ≠ .unAlias)).2 (by simp) _, (C98_methods_exact (· ≠ .rename)).2 (by simp) _,
    (C98_methods_exact (· ≠ .put)).2 (by simp) _, ?_⟩
  rw [C98_methods_exact]
  simp

end Visigoth
