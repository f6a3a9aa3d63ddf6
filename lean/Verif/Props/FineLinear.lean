import Verif.Props.EveryRefuted
import Verif.Props.FineContents
/-!
# C91 with interleaved goroutines

Whether calls take effect at one moment, when the goroutines that `Put` and `Search` start are interleaved with everything
else.
-/
namespace Visigoth

variable {cfg : Cfg}

/-- What can be seen of an execution with interleaved goroutines: the calls made, their results, and the state when no
call is running; see `SeenAs`. -/
structure FineSeenAs (cfg : Cfg) (c : FConfig) (L : LConfig) : Prop where
  calls : L.calls.map (·.1) = c.calls.map (·.op)
  returned : ∀ (t : Nat) x r, c.calls[t]? = some x → x.status = .returned r → ∃ v, L.calls[t]? = some (x.op, .over v) ∧ r.agrees v
  crashed : ∀ (t : Nat) x e, c.calls[t]? = some x → x.status = .crashed e → L.calls[t]? = some (x.op, .dead e)
  state : c.quiet → Holds cfg c.sh L

/-- The slices in the rows of `ListAliases` as the caller sees them; see `RowsSeen`. -/
def FineRowsSeen (c : FConfig) (L : LConfig) : Prop :=
  ∀ (t : Nat) x r, c.calls[t]? = some x → x.status = .returned r → L.calls[t]? = some (x.op, .over (r.view c.sh))

/-- From `c0` on, as long as the calls satisfy `ok`, any number of points of an execution are matched by points, in the same
order, of an execution in which every call takes effect at one moment; `S` says what else is the same at each point. -/
def FineMatched (cfg : Cfg) (S : FConfig → LConfig → Prop) (c0 : FConfig) (ok : Op → Prop) : Prop :=
  ∀ cs, Successive (FSteps cfg) (c0 :: cs) → (∀ c ∈ cs, ∀ x ∈ c.calls.drop c0.calls.length, ok x.op) →
    ∃ L0 Ls, Successive (LSteps cfg) (L0 :: Ls) ∧ Ls.length = cs.length ∧
      ∀ (i : Nat) c L, (c0 :: cs)[i]? = some c → (L0 :: Ls)[i]? = some L → FineSeenAs cfg c L ∧ S c L

/-- Every call takes effect at one moment. -/
def FineLinearizable (cfg : Cfg) : FConfig → (Op → Prop) → Prop := FineMatched cfg fun _ _ => True

/-- The same, the slices in the rows of `ListAliases` compared as well. -/
def FineFullyLinearizable (cfg : Cfg) : FConfig → (Op → Prop) → Prop := FineMatched cfg FineRowsSeen

theorem alike_seen {c : FConfig} {d : Config} {L : LConfig} (h : Alike c d) (ho : SeenAs cfg d L) : FineSeenAs cfg c L := by
  refine ⟨?_, ?_, ?_, ?_⟩
  · rw [ho.calls]
    have := congrArg (List.map Prod.fst) (alike_outcomes h)
    simp only [FConfig.outcomes, Config.outcomes, List.map_map] at this
    exact this.symm
  · intro t x r hx hr
    obtain ⟨y, hy, sc⟩ := h.calls t x hx
    rw [← sc.op]
    exact ho.returned t y r hy (returned_of (sc.status.trans hr))
  · intro t x e hx he
    obtain ⟨y, hy, sc⟩ := h.calls t x hx
    rw [← sc.op]
    exact ho.crashed t y e hy (crashed_of (sc.status.trans he))
  · intro hq
    rw [alike_shared h hq]
    exact ho.state (alike_quiet h hq)

theorem seen_alike {c : FConfig} {d : Config} {L : LConfig} (h : Alike c d) (ho : FineSeenAs cfg c L) : SeenAs cfg d L := by
  refine ⟨?_, ?_, ?_, ?_⟩
  · rw [ho.calls]
    have := congrArg (List.map Prod.fst) (alike_outcomes h)
    simp only [FConfig.outcomes, Config.outcomes, List.map_map] at this
    exact this
  · intro t y r hy hr
    obtain ⟨x, hx, sc⟩ := alike_back h hy
    rw [sc.op]
    exact ho.returned t x r hx (by rw [← sc.status]; simp [Thread.status, hr])
  · intro t y e hy he
    obtain ⟨x, hx, sc⟩ := alike_back h hy
    rw [sc.op]
    exact ho.crashed t x e hx (by rw [← sc.status]; simp [Thread.status, he])
  · intro hq
    have hq' := quiet_alike h hq
    rw [← alike_shared h hq']
    exact ho.state hq'

theorem alike_rowsSeen {c : FConfig} {d : Config} {L : LConfig} (h : Alike c d) (ho : RowsSeen d L) : FineRowsSeen c L := by
  intro t x r hx hr
  obtain ⟨y, hy, sc⟩ := h.calls t x hx
  have e : r.view c.sh = r.view d.sh := by cases r <;> simp [Ret.view, funext (alike_elems h)]
  rw [← sc.op, e]
  exact ho t y r hy (returned_of (sc.status.trans hr))

/-- Several points of an execution. -/
theorem linear_chain {n : Nat} {ok : Op → Prop} {R : Config → LConfig → Prop}
    (hR : ∀ c L c', R c L → (∀ x ∈ c'.calls.drop n, ok x.op) → Step cfg c c' → ∃ L', LSteps cfg L L' ∧ R c' L') :
    ∀ (ds : List Config) {d : Config} {L : LConfig}, R d L → Successive (Steps cfg) (d :: ds) →
      (∀ c ∈ ds, ∀ x ∈ c.calls.drop n, ok x.op) → ∃ Ls, Successive (LSteps cfg) (L :: Ls) ∧ Ls.length = ds.length ∧
        ∀ (i : Nat) c K, (d :: ds)[i]? = some c → (L :: Ls)[i]? = some K → R c K
  | [], d, L, h, _, _ => ⟨[], trivial, rfl, fun i c K hc hK => by
      cases i with
      | zero => cases hc; cases hK; exact h
      | succ i => simp at hc⟩
  | d1 :: ds, d, L, h, ⟨hs, hc⟩, hok => by
    have one : ∀ {d' : Config}, Steps cfg d d' → (∀ x ∈ d'.calls.drop n, ok x.op) → ∃ L', LSteps cfg L L' ∧ R d' L' := by
      intro d' hs
      induction hs with
      | refl => exact fun _ => ⟨L, .refl _, h⟩
      | tail _ hs ih =>
        intro hok
        obtain ⟨L1, h1, h2⟩ := ih (step_new (P := ok) hs hok)
        obtain ⟨L2, h3, h4⟩ := hR _ _ _ h2 hok hs
        exact ⟨L2, h1.trans h3, h4⟩
    obtain ⟨L1, h1, h2⟩ := one hs (hok d1 List.mem_cons_self)
    obtain ⟨Ls, g1, g2, g3⟩ := linear_chain hR ds h2 hc fun c hc => hok c (List.mem_cons_of_mem _ hc)
    refine ⟨L1 :: Ls, ⟨h1, g1⟩, by simp [g2], fun i c K hc hK => ?_⟩
    cases i with
    | zero => cases hc; cases hK; exact h
    | succ i => exact g3 i c K hc hK

/-- From executions in which the goroutines of a call run one after the other to interleaved goroutines. -/
theorem fine_matched {S : FConfig → LConfig → Prop} {T : Config → LConfig → Prop} (hST : ∀ c d L, Alike c d → T d L → S c L)
    {c0 : FConfig} (hc : FineReachable cfg c0) {ok : Op → Prop}
    (h : ∀ d0, ConcReachable cfg d0 → Alike c0 d0 → ∃ (R : Config → LConfig → Prop) (L0 : LConfig), R d0 L0 ∧
      (∀ c L, R c L → SeenAs cfg c L ∧ T c L) ∧
      ∀ c L c', R c L → (∀ x ∈ c'.calls.drop d0.calls.length, ok x.op) → Step cfg c c' → ∃ L', LSteps cfg L L' ∧ R c' L') :
    FineMatched cfg S c0 ok := by
  intro cs hcs hok
  obtain ⟨ds, h1, h2, h3⟩ := fine_chain (cs := c0 :: cs) ⟨hc, hcs⟩
  match ds, h2, h1, h3 with
  | d0 :: ds, h2, ⟨h0, h1⟩, h3 =>
    have h2 : ds.length = cs.length := by simpa using h2
    have al0 := h3 0 _ _ rfl rfl
    obtain ⟨R, L0, r0, hR, hstep⟩ := h d0 h0 al0
    obtain ⟨Ls, g1, g2, g3⟩ := linear_chain hstep ds r0 h1 (by
      intro d hd
      obtain ⟨i, hi, rfl⟩ := List.mem_iff_getElem.1 hd
      have hi' : i < cs.length := h2 ▸ hi
      have al := h3 (i + 1) cs[i] ds[i] (by simp [hi']) (by simp [hi])
      exact alike_new al (P := ok) (al0.len ▸ hok cs[i] (List.getElem_mem _)))
    refine ⟨L0, Ls, g1, g2.trans h2, fun i c L hi hL => ?_⟩
    have hlt : i < (d0 :: ds).length := by
      have := (List.getElem?_eq_some_iff.1 hi).1
      simpa [h2] using this
    have hd : (d0 :: ds)[i]? = some (d0 :: ds)[i] := List.getElem?_eq_getElem hlt
    have al := h3 i c _ hi hd
    obtain ⟨k1, k2⟩ := hR _ _ (g3 i _ L hd hL)
    exact ⟨alike_seen al k1, hST _ _ _ al k2⟩

theorem fine_linear {c0 : FConfig} (hc : FineReachable cfg c0) {ok : Op → Prop}
    (h : ∀ d0, ConcReachable cfg d0 → Alike c0 d0 → Linearizable cfg d0 ok) : FineLinearizable cfg c0 ok :=
  fine_matched (T := fun _ _ => True) (fun _ _ _ _ _ => trivial) hc fun d0 hd al => by
    obtain ⟨R, L0, h0, hR, hs⟩ := h d0 hd al
    exact ⟨R, L0, h0, fun c L h => ⟨hR c L h, trivial⟩, hs⟩

theorem fine_fully {c0 : FConfig} (hc : FineReachable cfg c0) {ok : Op → Prop}
    (h : ∀ d0, ConcReachable cfg d0 → Alike c0 d0 → FullyLinearizable cfg d0 ok) : FineFullyLinearizable cfg c0 ok :=
  fine_matched (T := RowsSeen) (fun _ _ _ => alike_rowsSeen) hc h

/-- And back: three points of an execution whose goroutines run one after the other. -/
theorem matched_of_fine {c0 : FConfig} {d0 : Config} (hd : ConcReachable cfg d0) (al : Alike c0 d0) (hq : c0.quiet) {ok : Op → Prop}
    (h : FineLinearizable cfg c0 ok) : Matched cfg d0 ok := by
  intro d1 d2 hs hs' hok
  obtain ⟨c1, g1, m1⟩ := comatch_steps hd (comatch_rest al hq) hs
  obtain ⟨c2, g2, m2⟩ := comatch_steps (steps_trans hd hs) m1 hs'
  have hok1 : ∀ x ∈ d1.calls.drop d0.calls.length, ok x.op := by
    clear g2 m2
    induction hs' with
    | refl => exact hok
    | tail _ hs ih => exact ih (step_new (P := ok) hs hok)
  have back : ∀ {c : FConfig} {d : Config}, Alike c d → (∀ x ∈ d.calls.drop d0.calls.length, ok x.op) →
      ∀ x ∈ c.calls.drop c0.calls.length, ok x.op := by
    intro c d al' hok x hx
    obtain ⟨t, ht⟩ := List.getElem?_of_mem hx
    rw [List.getElem?_drop] at ht
    obtain ⟨y, hy, sc⟩ := al'.calls _ x ht
    rw [← sc.op]
    refine hok y (List.mem_of_getElem? (i := t) ?_)
    rw [List.getElem?_drop, ← al.len]
    exact hy
  obtain ⟨L0, Ls, k1, k2, k3⟩ := h [c1, c2] ⟨g1, g2, trivial⟩ (by
    intro c hc
    simp only [List.mem_cons, List.not_mem_nil, or_false] at hc
    rcases hc with rfl | rfl
    · exact back (comatch_alike m1) hok1
    · exact back (comatch_alike m2) hok)
  match Ls, k2, k1, k3 with
  | [L1, L2], _, ⟨l1, l2, _⟩, k3 =>
    exact ⟨L0, L1, L2, seen_alike al (k3 0 _ _ rfl rfl).1, seen_alike (comatch_alike m1) (k3 1 _ _ rfl rfl).1,
      seen_alike (comatch_alike m2) (k3 2 _ _ rfl rfl).1, l1, l2⟩

/-- `C91_settled_partial` with interleaved goroutines: as long as no `Rename` and no `Drop` is called, every `Put` names an
index that is there, or an alias that is there and that no call changes, every call takes effect at one moment. -/
theorem C91_settled_goroutines_partial {c0 : FConfig} (hr : FineReachable cfg c0) (hq : c0.quiet) (free : Name → Prop) :
    FineFullyLinearizable cfg c0 (Op.settled c0.sh free) :=
  fine_fully hr fun d0 hd al => by
    rw [alike_shared al hq]
    exact C91_settled_partial hd (alike_quiet al hq) free

/-- `C91_one_look_rows_partial` with interleaved goroutines. -/
theorem C91_one_look_rows_goroutines_partial {c0 : FConfig} (hr : FineReachable cfg c0) (hq : c0.quiet) :
    FineFullyLinearizable cfg c0 fun op => op.looksOnce = true ∧ op.isRename = false :=
  fine_fully hr fun _ hd al => C91_one_look_rows_partial hd (alike_quiet al hq)

/-- `C91_one_look_partial` with interleaved goroutines. -/
theorem C91_one_look_goroutines_partial {c0 : FConfig} (hr : FineReachable cfg c0) (hq : c0.quiet) :
    FineLinearizable cfg c0 fun op => op.looksOnce = true ∧ op.isUnAlias = false :=
  fine_linear hr fun _ hd al => C91_one_look_partial hd (alike_quiet al hq)

/-- With interleaved goroutines too, whatever the tokenizer: from every state at rest every call of the methods of `M` takes
effect at one moment exactly if there is no `Put` and no `Drop` among them, and not both `Rename` and `UnAlias`. -/
theorem C91_methods_goroutines_every (cfg : Cfg) (M : Method → Prop) :
    (∀ c0, FineReachable cfg c0 → c0.quiet → FineLinearizable cfg c0 fun op => M op.method) ↔
      ¬ M .put ∧ ¬ M .drop ∧ ¬ (M .rename ∧ M .unAlias) := by
  constructor
  · intro h
    have main : ∀ d0, ConcReachable cfg d0 → d0.quiet → Matched cfg d0 fun op => M op.method := by
      intro d0 hd hq
      obtain ⟨c0, hc, al, _⟩ := C60_nothing_lost hd
      exact matched_of_fine hd al (quiet_alike al hq) (h c0 hc (quiet_alike al hq))
    have mono : ∀ {d0 : Config} {ok ok' : Op → Prop}, Matched cfg d0 ok → (∀ op, ok' op → ok op) → Matched cfg d0 ok' :=
      fun h hi c1 c2 hs hs' hok => h c1 c2 hs hs' fun x hx => hi _ (hok x hx)
    refine ⟨fun hp => ?_, fun hd => ?_, fun ⟨hn, hu⟩ => ?_⟩
    · exact unmatched_new_names cfg (mono (main Config.init (.refl _) (fun _ hx => nomatch hx)) fun op hop => hop ▸ hp)
    · obtain ⟨c0, h1, h2, h3⟩ := unmatched_drops cfg
      exact h3 (mono (main c0 h1 h2) fun op hop => hop ▸ hd)
    · obtain ⟨c0, h1, h2, h3⟩ := unmatched_unalias cfg
      refine h3 (mono (main c0 h1 h2) fun op hop => ?_)
      rcases hop with hop | hop
      · exact hop ▸ hu
      · exact hop ▸ hn
  · intro h c0 hc hq
    exact fine_linear hc fun d0 hd al => (C91_methods_every cfg M).2 h d0 hd (alike_quiet al hq)

/-- A state at rest that has an index: all calls of `Put` to it take effect at one moment. -/
example : ∃ c0, FineReachable sampleCfg c0 ∧ c0.quiet ∧ (∀ d, Op.settled c0.sh (fun _ => True) (.put nameX d)) ∧
    FineFullyLinearizable sampleCfg c0 (Op.settled c0.sh fun _ => True) := by
  obtain ⟨d0, h1, h2⟩ := play_fact (cfg := sampleCfg) (c0 := Config.init) (xs := [callNow (.put nameX docD)] ++ goes 0 13)
    (f := fun c => (c.calls.all (fun x => match x.prog with | .ret _ => true | _ => false), (c.sh.indices.get nameX).isSome))
    (v := (true, true)) (by decide +kernel)
  simp only [Prod.mk.injEq] at h2
  have hq : d0.quiet := by
    intro x hx hrun
    have := List.all_eq_true.1 h2.1 x hx
    unfold Thread.running at hrun
    cases hp : x.prog <;> rw [hp] at hrun this <;> first | exact hrun | cases this
  obtain ⟨c0, hc, al, hs⟩ := C60_nothing_lost (play_steps h1)
  refine ⟨c0, hc, quiet_alike al hq, fun d => .inl ?_, C91_settled_goroutines_partial hc (quiet_alike al hq) _⟩
  rw [hs]
  exact h2.2

/-- With a tokenizer that gives nothing: `Put` is not safe, `Rename` and `Alias` are. -/
example : (¬ ∀ c0, FineReachable { sampleCfg with tok := fun _ => [] } c0 → c0.quiet →
      FineLinearizable { sampleCfg with tok := fun _ => [] } c0 fun op => op.method = .put) ∧
    ∀ c0, FineReachable { sampleCfg with tok := fun _ => [] } c0 → c0.quiet →
      FineLinearizable { sampleCfg with tok := fun _ => [] } c0 fun op => op.method = .rename ∨ op.method = .alias := by
  have h1 := C91_methods_goroutines_every { sampleCfg with tok := fun _ => [] } (· = .put)
  have h2 := C91_methods_goroutines_every { sampleCfg with tok := fun _ => [] } (fun m => m = .rename ∨ m = .alias)
  exact ⟨fun h => (h1.1 h).1 rfl, h2.2 (by simp)⟩

end Visigoth
