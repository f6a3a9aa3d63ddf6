import Verif.Proofs.SameContents
import Verif.Props.OneMoment
/-!
# C97: what callers can be answered depends on the documents and aliases only

The state of a repository has much that is not contents: the labels the indices were made with, addresses, capacities
of slices, what is no longer reachable.  None of it makes a difference to what calls, concurrent ones included, can
return.
-/
namespace Visigoth

variable {cfg : Cfg}

theorem sameContents_symm {s s' : Shared} (h : SameContents cfg s s') : SameContents cfg s' s :=
  h.imp fun _ h => ⟨h.2, h.1⟩

theorem outcomes_at {c : Config} {n t : Nat} {op : Op} {r : Ret} (h : (c.outcomes.drop n)[t]? = some (op, .returned r)) :
    ∃ x, c.calls[n + t]? = some x ∧ x.op = op ∧ x.prog = .ret r := by
  rw [List.getElem?_drop] at h
  simp only [Config.outcomes, List.getElem?_map, Option.map_eq_some_iff, Prod.mk.injEq] at h
  obtain ⟨x, hx, hop, hst⟩ := h
  unfold Thread.status at hst
  split at hst <;> cases hst
  exact ⟨x, hx, hop, by assumption⟩

theorem outcomes_quiet {c0 c : Config} (hq : c0.quiet) (ht : c.calls.take c0.calls.length = c0.calls) {vs : List (Op × SRet)}
    (h : ResultsOnly (c.outcomes.drop c0.calls.length) vs) : c.quiet := by
  intro x hx
  obtain ⟨t, hlt, rfl⟩ := List.mem_iff_getElem.1 hx
  by_cases htn : t < c0.calls.length
  · refine hq _ ?_
    rw [← ht]
    exact List.mem_of_getElem? ((List.getElem?_take_of_lt htn).trans (List.getElem?_eq_getElem hlt))
  · have hl : t - c0.calls.length < vs.length := by
      rw [← h.1]; simp [Config.outcomes]; omega
    obtain ⟨r, h1, _⟩ := h.2 _ vs[t - c0.calls.length].1 vs[t - c0.calls.length].2 (List.getElem?_eq_getElem hl)
    obtain ⟨x, hx', _, hp⟩ := outcomes_at h1
    rw [Nat.add_sub_of_le (Nat.le_of_not_lt htn), List.getElem?_eq_getElem hlt] at hx'
    injection hx' with hx'
    subst hx'
    unfold Thread.running
    rw [hp]
    exact id

theorem results_only {l : List (Op × Status)} {s : Shared} {vs : List (Op × SRet)} (h : Results l s vs) : ResultsOnly l vs :=
  ⟨h.1, fun t op v hv => by
    obtain ⟨r, h1, h2⟩ := h.2 t op v hv
    exact ⟨r, h1, h2 ▸ agrees_view s r⟩⟩

theorem results_ops {P : Op → Prop} {c : Config} {n : Nat} {vs : List (Op × SRet)} (h : ResultsOnly (c.outcomes.drop n) vs)
    (hP : ∀ x ∈ vs, P x.1) : ∀ x ∈ c.calls.drop n, P x.op := by
  intro x hx
  obtain ⟨t, hlt, rfl⟩ := List.mem_iff_getElem.1 hx
  have hl : t < vs.length := by
    rw [← h.1]; simpa [Config.outcomes] using hlt
  obtain ⟨r, h1, _⟩ := h.2 t vs[t].1 vs[t].2 (List.getElem?_eq_getElem hl)
  obtain ⟨y, hy, hop, _⟩ := outcomes_at h1
  have : (c.calls.drop n)[t]? = some y := by rw [List.getElem?_drop]; exact hy
  rw [List.getElem?_eq_getElem hlt] at this
  injection this with this
  rw [this, hop]
  exact hP _ (List.getElem_mem _)

theorem size_drop {c : Config} {A : AConfig} {n : Nat} {vs : List (Op × SRet)} (hn : n ≤ c.calls.length) (h : ResultsOnly (c.outcomes.drop n) vs)
    (hA : A.tasks.length = c.calls.length) : A.tasks.length = n + vs.length := by
  rw [← h.1, hA]; simp [Config.outcomes]; omega

/-- The later tasks of the other execution. -/
theorem like_over {n m : Nat} {A B : AConfig} {D : Nat → Prop} {f : Nat → Nat} {ws : List (Op × SRet)} (h : LikeConfig n m A B D f)
    (hl : A.tasks.length = n + ws.length) (hw : ∀ (t : Nat) op w, ws[t]? = some (op, w) → A.tasks[n + t]? = some (op, .over w)) :
    B.tasks.length = m + ws.length ∧ ∀ (t : Nat) op w, ws[t]? = some (op, w) → B.tasks[m + t]? = some (op, .over w) := by
  refine ⟨by have := h.size; omega, fun t op w ht => ?_⟩
  obtain ⟨k2, h1, h2⟩ := h.task t op _ (hw t op w ht)
  cases h2
  exact h1

theorem tidily_later {m : Nat} {B : AConfig} {ws : List (Op × SRet)} (hk : KeptNothing ws) (hl : B.tasks.length = m + ws.length)
    (hw : ∀ (t : Nat) op w, ws[t]? = some (op, w) → B.tasks[m + t]? = some (op, .over w)) :
    ∀ (t : Nat) x, m ≤ t → B.tasks[t]? = some x → ∃ y ∈ ws, x = (y.1, .over y.2) ∧ Tidily x := by
  intro t x hm hx
  obtain ⟨i, rfl⟩ : ∃ i, t = m + i := ⟨t - m, (Nat.add_sub_of_le hm).symm⟩
  have hlt : i < ws.length := by have := (List.getElem?_eq_some_iff.1 hx).1; omega
  have := hw i ws[i].1 ws[i].2 (List.getElem?_eq_getElem hlt)
  rw [hx] at this
  injection this with this
  refine ⟨ws[i], List.getElem_mem _, this, ?_⟩
  rw [this]
  exact tidily_of hk _ (List.mem_map.2 ⟨ws[i], List.getElem_mem _, rfl⟩)

/-- What the calls look like that have got as far as `B`. -/
theorem outcomes_later {d : Config} {B : AConfig} (hrel : ARel cfg d B) {m t : Nat} {op : Op} {w : SRet}
    (h : B.tasks[m + t]? = some (op, .over w)) :
    ∃ x r, d.calls[m + t]? = some x ∧ x.op = op ∧ x.prog = .ret r ∧ r.agrees w ∧ (d.outcomes.drop m)[t]? = some (op, .returned r) := by
  obtain ⟨st, h1, h2⟩ := (realises_of (s := d.sh) (L := d.calls) hrel).call (m + t) op _ h
  cases st with
  | running => exact absurd h2 id
  | crashed e => exact absurd h2 id
  | returned r =>
    have h3 : (d.outcomes.drop m)[t]? = some (op, .returned r) := by rw [List.getElem?_drop]; exact h1
    obtain ⟨x, hx, hop, hp⟩ := outcomes_at h3
    exact ⟨x, r, hx, hop, hp, h2, h3⟩

theorem same_shows {c d : Config} {A B : AConfig} {D : Nat → Prop} {f : Nat → Nat} (hA : Shows cfg c.sh A.st) (hB : Shows cfg d.sh B.st)
    (h : Likeness D f A.st B.st) : SameContents cfg c.sh d.sh := by
  refine ⟨⟨A.st.docs, A.st.aliases, []⟩, holds_shows hA, ?_⟩
  have := holds_shows hB (l := [])
  rw [h.docs, h.aliases] at this
  exact this

/-- From two repositories at rest with the same contents the same answers are possible, the slices in the rows of
`ListAliases` included, and they leave the same contents: whatever calls can be answered from the one, concurrent calls
included, they can be answered from the other.  None of the calls may be `Rename` or `String`, or an `UnAlias` that
keeps a mutex, and none may be kept when they start. -/
theorem C97_same_answers {c0 d0 c : Config} (hc : ConcReachable cfg c0) (hd : ConcReachable cfg d0) (hqc : c0.quiet) (hqd : d0.quiet)
    (hu : d0.sh.noLocks) (he : SameContents cfg c0.sh d0.sh) {vs : List (Op × SRet)} (hk : KeptNothing vs)
    (hr : ∀ x ∈ vs, x.1.isRename = false) (h : Answered cfg c0 c vs) :
    ∃ d, Answered cfg d0 d vs ∧ SameContents cfg c.sh d.sh := by
  obtain ⟨K, hK1, hK2⟩ := he
  obtain ⟨A0, a1, a2, a3, a4, a5, a6⟩ := rest_given strict hc hqc hK1
  obtain ⟨B0, b1, b2, b3, b4, b5, b6⟩ := rest_given strict hd hqd hK2
  obtain ⟨hs, hres⟩ := h
  have hro := results_only hres
  obtain ⟨A, g1, g2, g3, g4⟩ := strict_from hc hqc a3 a4 hs (results_ops (P := fun op => op.isRename = false) hro hr)
  have hobs := linked_observed strict_guarded g2
  have hle : c0.calls.length ≤ c.calls.length := by
    have := congrArg List.length g4; simp only [List.length_take] at this; omega
  have hAl : A.tasks.length = c.calls.length := by simpa using congrArg List.length hobs.calls
  have hl := size_drop hle hro hAl
  have hover : ∀ (t : Nat) op w, vs[t]? = some (op, w) → A.tasks[c0.calls.length + t]? = some (op, .over w) := by
    intro t op w hv
    obtain ⟨r, h1, h2⟩ := hres.2 t op w hv
    obtain ⟨x, hx, hop, hp⟩ := outcomes_at h1
    rw [g3.shown _ x r hx hp, hop, h2]
  have hA0 : A0.tasks.length = c0.calls.length := by rw [a4]; simp
  have hB0 : B0.tasks.length = d0.calls.length := by rw [b4]; simp
  have hlike := likeConfig_rest a1 b1 (a5.trans b5.symm) (a6.trans b6.symm) (rest_ended hqc a4)
  rw [hA0, hB0] at hlike
  obtain ⟨B, D, f, k1, k2⟩ := like_steps hlike g1
  obtain ⟨l1, l2⟩ := like_over k2 hl hover
  have hlater := tidily_later hk l1 l2
  obtain ⟨d, m1, m2, m3⟩ := realised_from hd hqd hu b2 b4 k1 fun t x hm hx => (hlater t x hm hx).choose_spec.2.2
  refine ⟨d, ⟨m1, ?_, fun t op v hv => ?_⟩, same_shows (hobs.state (outcomes_quiet hqc g4 hro)) (Shows.of m2.abs) k2.state⟩
  · have := m2.size
    simp only [Config.outcomes, List.length_drop, List.length_map]
    omega
  · obtain ⟨x, r, hx, hop, hp, _, hout⟩ := outcomes_later m2 (l2 t op v hv)
    refine ⟨r, hout, m3.2 (fun u y hmu hy => ?_) _ x r v hx hp (hop ▸ l2 t op v hv)⟩
    obtain ⟨z, hz, rfl, _⟩ := hlater u y hmu hy
    exact hr z hz

/-- The same answers are possible from both. -/
theorem C97_answers_exact {c0 d0 : Config} (hc : ConcReachable cfg c0) (hd : ConcReachable cfg d0) (hqc : c0.quiet) (hqd : d0.quiet)
    (hu : c0.sh.noLocks) (hu' : d0.sh.noLocks) (he : SameContents cfg c0.sh d0.sh) (vs : List (Op × SRet)) (hk : KeptNothing vs)
    (hr : ∀ x ∈ vs, x.1.isRename = false) : (∃ c, Answered cfg c0 c vs) ↔ ∃ d, Answered cfg d0 d vs :=
  ⟨fun ⟨_, h⟩ => (C97_same_answers hc hd hqc hqd hu' he hk hr h).imp fun _ h => h.1,
    fun ⟨_, h⟩ => (C97_same_answers hd hc hqd hqc hu (sameContents_symm he) hk hr h).imp fun _ h => h.1⟩

/-- With `Rename`, but without `UnAlias`, the same holds except for the slices in the rows of `ListAliases`. -/
theorem C97_same_answers_rename {c0 d0 c : Config} (hc : ConcReachable cfg c0) (hd : ConcReachable cfg d0) (hqc : c0.quiet) (hqd : d0.quiet)
    (hu : d0.sh.noLocks) (he : SameContents cfg c0.sh d0.sh) {vs : List (Op × SRet)}
    (hk : ∀ x ∈ vs, x.1 ≠ .string ∧ x.1.isUnAlias = false) (h : AnsweredOnly cfg c0 c vs) :
    ∃ d, AnsweredOnly cfg d0 d vs ∧ SameContents cfg c.sh d.sh := by
  obtain ⟨K, hK1, hK2⟩ := he
  obtain ⟨A0, a1, a2, a3, a4, a5, a6⟩ := rest_given broad hc hqc hK1
  obtain ⟨B0, b1, b2, b3, b4, b5, b6⟩ := rest_given broad hd hqd hK2
  obtain ⟨hs, hro⟩ := h
  obtain ⟨A, g1, g2, g4⟩ := broad_from hqc a3 hs (results_ops (P := fun op => op.isUnAlias = false) hro fun x hx => (hk x hx).2)
  have hobs := linked_observed (fun l => by cases l <;> rfl) g2
  have hle : c0.calls.length ≤ c.calls.length := by
    have := congrArg List.length g4; simp only [List.length_take] at this; omega
  have hAl : A.tasks.length = c.calls.length := by simpa using congrArg List.length hobs.calls
  have hl := size_drop hle hro hAl
  have hex : ∃ ws : List (Op × SRet), ws.length = vs.length ∧
      ∀ (t : Nat) op v, vs[t]? = some (op, v) → ∃ w, ws[t]? = some (op, w) ∧ A.tasks[c0.calls.length + t]? = some (op, .over w) ∧ v.roughly w := by
    have hone : ∀ i (hi : i < vs.length), ∃ w, A.tasks[c0.calls.length + i]? = some (vs[i].1, .over w) ∧ vs[i].2.roughly w := by
      intro i hi
      obtain ⟨r, h1, h2⟩ := hro.2 i vs[i].1 vs[i].2 (List.getElem?_eq_getElem hi)
      obtain ⟨x, hx, hop, hp⟩ := outcomes_at h1
      obtain ⟨w, hw, hag⟩ := hobs.returned _ x r hx hp
      exact ⟨w, hop ▸ hw, agrees_roughly h2 hag⟩
    refine ⟨List.ofFn fun i : Fin vs.length => (vs[i].1, (hone i i.2).choose), by simp, fun t op v hv => ?_⟩
    obtain ⟨hlt, he⟩ := List.getElem?_eq_some_iff.1 hv
    have hc := (hone t hlt).choose_spec
    have h1 : vs[t].1 = op := by rw [he]
    have h2 : vs[t].2 = v := by rw [he]
    refine ⟨(hone t hlt).choose, ?_, hc.1.trans (congrArg (fun z => some (z, _)) h1), h2 ▸ hc.2⟩
    rw [List.getElem?_ofFn, dif_pos hlt]
    simp [he]
  obtain ⟨ws, hwl, hws⟩ := hex
  have hvw : ∀ (t : Nat) op w, ws[t]? = some (op, w) → ∃ v, vs[t]? = some (op, v) ∧ A.tasks[c0.calls.length + t]? = some (op, .over w) ∧ v.roughly w := by
    intro t op w hw
    have hlt : t < vs.length := by rw [← hwl]; exact (List.getElem?_eq_some_iff.1 hw).1
    obtain ⟨w', h1, h2, h3⟩ := hws t vs[t].1 vs[t].2 (List.getElem?_eq_getElem hlt)
    rw [hw] at h1
    simp only [Option.some.injEq, Prod.mk.injEq] at h1
    obtain ⟨h4, rfl⟩ := h1
    exact ⟨vs[t].2, by rw [List.getElem?_eq_getElem hlt, h4], h4 ▸ h2, h3⟩
  have hkept : KeptNothing ws := by
    intro x hx
    obtain ⟨t, ht, rfl⟩ := List.mem_iff_getElem.1 hx
    obtain ⟨v, hv, _⟩ := hvw t ws[t].1 ws[t].2 (List.getElem?_eq_getElem ht)
    have := hk _ (List.mem_of_getElem? hv)
    exact ⟨this.1, fun al i h1 => by have h2 := this.2; rw [h1] at h2; cases h2⟩
  have hA0 : A0.tasks.length = c0.calls.length := by rw [a4]; simp
  have hB0 : B0.tasks.length = d0.calls.length := by rw [b4]; simp
  have hlike := likeConfig_rest a1 b1 (a5.trans b5.symm) (a6.trans b6.symm) (rest_ended hqc a4)
  rw [hA0, hB0] at hlike
  obtain ⟨B, D, f, k1, k2⟩ := like_steps hlike g1
  obtain ⟨l1, l2⟩ := like_over k2 (hwl ▸ hl) fun t op w hw => by obtain ⟨_, _, h, _⟩ := hvw t op w hw; exact h
  have hlater := tidily_later hkept l1 l2
  obtain ⟨d, m1, m2, m3⟩ := realised_from hd hqd hu b2 b4 k1 fun t x hm hx => (hlater t x hm hx).choose_spec.2.2
  refine ⟨d, ⟨m1, ?_, fun t op v hv => ?_⟩, same_shows (hobs.state (outcomes_quiet hqc g4 hro)) (Shows.of m2.abs) k2.state⟩
  · have := m2.size
    simp only [Config.outcomes, List.length_drop, List.length_map]
    omega
  · obtain ⟨w, hw, _, hrw⟩ := hws t op v hv
    obtain ⟨x, r, hx, hop, hp, hag, hout⟩ := outcomes_later m2 (l2 t op w hw)
    exact ⟨r, hout, roughly_agrees hrw hag⟩

/-- The same answers are possible from both. -/
theorem C97_answers_exact_rename {c0 d0 : Config} (hc : ConcReachable cfg c0) (hd : ConcReachable cfg d0) (hqc : c0.quiet) (hqd : d0.quiet)
    (hu : c0.sh.noLocks) (hu' : d0.sh.noLocks) (he : SameContents cfg c0.sh d0.sh) (vs : List (Op × SRet))
    (hk : ∀ x ∈ vs, x.1 ≠ .string ∧ x.1.isUnAlias = false) : (∃ c, AnsweredOnly cfg c0 c vs) ↔ ∃ d, AnsweredOnly cfg d0 d vs :=
  ⟨fun ⟨_, h⟩ => (C97_same_answers_rename hc hd hqc hqd hu' he hk h).imp fun _ h => h.1,
    fun ⟨_, h⟩ => (C97_same_answers_rename hd hc hqd hqc hu (sameContents_symm he) hk h).imp fun _ h => h.1⟩

/-! ## Two repositories that differ -/

/-- A document is put in `x`, which is then renamed to `y`. -/
def relabelledBefore : List Sched := [callNow (.put nameX docD)] ++ goes 0 13 ++ [callNow (.rename nameX nameY)] ++ goes 1 7

/-- It is put in `y`; before it an index `z` was made and dropped. -/
def droppedBefore : List Sched :=
  [callNow (.put (str "z") docE)] ++ goes 0 13 ++ [callNow (.drop (str "z"))] ++ goes 1 11 ++ [callNow (.put nameY docD)] ++ goes 2 13

/-- As in `C97_answers_exact`: two repositories at rest with the same contents.  They are not the same: the labels of the
indices differ, and so do their addresses. -/
theorem differing_repos : ∃ c0 d0, ConcReachable sampleCfg c0 ∧ ConcReachable sampleCfg d0 ∧ c0.quiet ∧ d0.quiet ∧ c0.sh.noLocks ∧ d0.sh.noLocks ∧
    SameContents sampleCfg c0.sh d0.sh ∧ (c0.sh.heap.map (·.name)) = [nameX] ∧ (d0.sh.heap.map (·.name)) = [str "z", nameY] := by
  have hq : ∀ {c : Config}, (c.calls.all fun x => match x.prog with | .ret _ => true | _ => false) = true → c.quiet := by
    intro c h x hx hrun
    have := List.all_eq_true.1 h x hx
    unfold Thread.running at hrun
    cases hp : x.prog <;> rw [hp] at hrun this <;> first | exact hrun | cases this
  obtain ⟨c0, h1, h2⟩ := play_fact (cfg := sampleCfg) (c0 := Config.init) (xs := relabelledBefore)
    (f := fun c => (c.calls.all (fun x => match x.prog with | .ret _ => true | _ => false), c.sh))
    (v := (true, { newIndexRepo with heap := [buildIndex sampleCfg.tok nameX [docD]], indices := [(nameY, 0)] })) (by decide +kernel)
  obtain ⟨d0, g1, g2⟩ := play_fact (cfg := sampleCfg) (c0 := Config.init) (xs := droppedBefore)
    (f := fun c => (c.calls.all (fun x => match x.prog with | .ret _ => true | _ => false), c.sh))
    (v := (true, { newIndexRepo with heap := [buildIndex sampleCfg.tok (str "z") [docE], buildIndex sampleCfg.tok nameY [docD]], indices := [(nameY, 1)] }))
    (by decide +kernel)
  simp only [Prod.mk.injEq] at h2 g2
  refine ⟨c0, d0, play_steps h1, play_steps g1, hq h2.1, hq g2.1, by rw [h2.2]; exact ⟨rfl, rfl⟩, by rw [g2.2]; exact ⟨rfl, rfl⟩,
    ⟨⟨fun n => if n = nameY then some [docD] else none, fun _ => none, []⟩, ?_, ?_⟩, by rw [h2.2]; decide +kernel, by rw [g2.2]; decide +kernel⟩
  · rw [h2.2]
    refine ⟨fun n hn => ?_, fun n rs hn => ?_, fun n => rfl⟩
    · simp only at hn
      split at hn
      · cases hn
      · rename_i hne; simp [GoMap.get, Ne.symm hne]
    · simp only at hn
      split at hn
      · rename_i he; cases hn; subst he; exact ⟨0, nameX, by decide +kernel, rfl⟩
      · cases hn
  · rw [g2.2]
    refine ⟨fun n hn => ?_, fun n rs hn => ?_, fun n => rfl⟩
    · simp only at hn
      split at hn
      · cases hn
      · rename_i hne; simp [GoMap.get, Ne.symm hne]
    · simp only at hn
      split at hn
      · rename_i he; cases hn; subst he; exact ⟨1, nameY, by decide +kernel, rfl⟩
      · cases hn

end Visigoth
