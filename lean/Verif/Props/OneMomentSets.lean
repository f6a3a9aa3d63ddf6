import Verif.Props.OneMoment
import Verif.Props.Methods
/-!
# Which methods take effect at one moment (C91)
-/
namespace Visigoth

variable {cfg : Cfg}

/-- An index and an alias that lists it. -/
def oneListed : List Sched := [callNow (.put nameX docD)] ++ goes 0 13 ++ [callNow (.alias nameAl nameX)] ++ goes 1 9
/-- An `UnAlias` that has found its index; a `Rename` of that index; the rest of the `UnAlias`. -/
def renamedInside : List Sched :=
  [callNow (.unAlias nameAl nameX), callNow (.rename nameX nameY)] ++ goes 2 3 ++ goes 3 10 ++ goes 2 5

/-- False of the code: an `UnAlias` and a `Rename` of its index.  Both return true and the alias lists the new name. -/
theorem C91_refuted_by_unalias : ∃ c0, ConcReachable sampleCfg c0 ∧ c0.quiet ∧
    (c0.sh.aliases.get nameAl).map c0.sh.elems = some [nameX] ∧
    ¬ Linearizable sampleCfg c0 fun op => op = .unAlias nameAl nameX ∨ op = .rename nameX nameY := by
  obtain ⟨c0, c1, c2, p0, p1, p2, g0, g1, g2⟩ := play_three (cfg := sampleCfg) (xs := oneListed)
    (ys := []) (zs := renamedInside) (f0 := Config.look) (f1 := Config.look) (f2 := Config.look)
    (v0 := ⟨[some (.inl .unit), some (.inl (.bool true))], [some [str "d"], none, none], 1, some [nameX]⟩)
    (v1 := ⟨[some (.inl .unit), some (.inl (.bool true))], [some [str "d"], none, none], 1, some [nameX]⟩)
    (v2 := ⟨[some (.inl .unit), some (.inl (.bool true)), some (.inl (.bool true)), some (.inl (.bool true))],
      [none, some [str "d"], none], 1, some [nameY]⟩)
    (by decide +kernel) (by decide +kernel) (by decide +kernel)
  simp only [Config.look, Glance.mk.injEq, List.cons.injEq] at g0 g1 g2
  refine ⟨c0, play_steps p0, endings_quiet (by rw [g0.1]; rfl), g0.2.2.2, fun h => ?_⟩
  obtain ⟨L0, L1, L2, s0, s1, s2, -, ts, t1, t2, t3⟩ := played_points p1 p2 h (by
    intro op hop
    have : op ∈ [Op.unAlias nameAl nameX, .rename nameX nameY] := hop
    simpa using this)
  have o0 : c0.calls.map (·.op) = [.put nameX docD, .alias nameAl nameX] := play_ops p0
  have o1 := play_ops p1
  have o2 := play_ops p2
  rw [o0] at o1
  rw [o1] at o2
  obtain ⟨_, e0, _⟩ := seen_over s1 (t := 0) (r := .unit) (by rw [g1.1]; rfl) (op := .put nameX docD) (by rw [o1]; rfl)
  obtain ⟨_, e1, _⟩ := seen_over s1 (t := 1) (r := .bool true) (by rw [g1.1]; rfl) (op := .alias nameAl nameX) (by rw [o1]; rfl)
  obtain ⟨v2, e2, a2⟩ := seen_over s2 (t := 2) (r := .bool true) (by rw [g2.1]; rfl) (op := .unAlias nameAl nameX) (by rw [o2]; rfl)
  obtain ⟨v3, e3, _⟩ := seen_over s2 (t := 3) (r := .bool true) (by rw [g2.1]; rfl) (op := .rename nameX nameY) (by rw [o2]; rfl)
  have hts := nodup_two t1 (a := 2) (b := 3) (fun t => by
    rw [t2]
    constructor
    · rintro ⟨hr, hn⟩
      by_cases ht : 4 ≤ t
      · exact absurd hr (seen_none s2 (by rw [g2.1]; exact ht))
      · have h0 : t ≠ 0 := fun h => hn (h ▸ ⟨_, _, e0⟩)
        have h1 : t ≠ 1 := fun h => hn (h ▸ ⟨_, _, e1⟩)
        omega
    · rintro (rfl | rfl)
      · exact ⟨⟨_, _, e2⟩, seen_none s1 (by rw [g1.1]; decide)⟩
      · exact ⟨⟨_, _, e3⟩, seen_none s1 (by rw [g1.1]; decide)⟩) (by decide)
  have hq1 := s1.state (endings_quiet (by rw [g1.1]; rfl))
  have hq2 := s2.state (endings_quiet (by rw [g2.1]; rfl))
  have ha1 : L1.aliases nameAl = some [nameX] := by rw [← hq1.aliases, g1.2.2.2]
  have ha2 : L2.aliases nameAl = some [nameY] := by rw [← hq2.aliases, g2.2.2.2]
  have hx1 := holds_held hq1 nameX
  rw [g1.2.1.1] at hx1
  have hxy : nameX ≠ nameY := by decide +kernel
  have hne : nameX ≠ [] := by decide +kernel
  cases hrs : L1.docs nameX with
  | none => rw [hrs] at hx1; cases hx1
  | some rs =>
  rcases hts with rfl | rfl
  · have k := replay_nil (replay_take (replay_take t3 e2).2 e3).2
    have hL : L2.aliases nameAl = _ := congrArg (fun a : SpecState => a.aliases nameAl) k
    simp [SpecState.next, LConfig.seq, hrs, ha1, upd, hne] at hL
    rw [ha2] at hL
    cases hL
  · have hv := (replay_take (replay_take t3 e3).2 e2).1
    simp [SpecState.allows, SpecState.next, LConfig.seq, hrs, upd, hne] at hv
    rw [hv] at a2
    simp [Ret.agrees] at a2

/-- From every state at rest, whatever was called before, every call of the methods of `M` takes effect at one moment
exactly if there is no `Put` and no `Drop` among them, and not both `Rename` and `UnAlias`. -/
theorem C91_methods_exact (M : Method → Prop) :
    (∀ cfg c0, ConcReachable cfg c0 → c0.quiet → Linearizable cfg c0 fun op => M op.method) ↔
      ¬ M .put ∧ ¬ M .drop ∧ ¬ (M .rename ∧ M .unAlias) := by
  constructor
  · intro h
    refine ⟨fun hp => ?_, fun hd => ?_, fun ⟨hn, hu⟩ => ?_⟩
    · exact C91_refuted_by_new_names ((h sampleCfg Config.init (.refl _) (fun _ hx => nomatch hx)).mono
        fun op ⟨d, hop⟩ => hop ▸ hp)
    · obtain ⟨c0, h1, h2, _, h3⟩ := C91_refuted_by_drops
      exact h3 ((h _ c0 h1 h2).mono fun op hop => hop ▸ hd)
    · obtain ⟨c0, h1, h2, _, h3⟩ := C91_refuted_by_unalias
      refine h3 ((h _ c0 h1 h2).mono fun op hop => ?_)
      rcases hop with rfl | rfl
      · exact hu
      · exact hn
  · rintro ⟨hp, hd, hru⟩ cfg c0 hr hq
    by_cases hu : M .unAlias
    · have hn : ¬ M .rename := fun hn => hru ⟨hn, hu⟩
      refine Linearizable.mono (C91_settled_partial hr hq fun _ => True).linear fun op hop => ?_
      cases op <;> first | trivial | exact absurd hop hp | exact absurd hop hd | exact absurd hop hn
    · refine (C91_one_look_partial hr hq).mono fun op hop => ?_
      cases op <;> first | exact ⟨rfl, rfl⟩ | exact absurd hop hp | exact absurd hop hd | exact absurd hop hu

end Visigoth
