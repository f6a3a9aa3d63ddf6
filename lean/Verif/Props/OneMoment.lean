import Verif.Proofs.OneMoment
import Verif.Props.ConcAtomic
/-!
# Calls that take effect at one moment (C91)
-/
namespace Visigoth

set_option linter.unusedSimpArgs false

variable {cfg : Cfg}

/-! ## What linearizable means -/

theorem Linearizable.matched {c0 : Config} {ok : Op → Prop} (h : Linearizable cfg c0 ok) : Matched cfg c0 ok := by
  intro c1 c2 hs hs' hok
  obtain ⟨R, L0, h0, hR, hstep⟩ := h
  have hok1 : ∀ x ∈ c1.calls.drop c0.calls.length, ok x.op := by
    induction hs' with
    | refl => exact hok
    | tail _ hs ih => exact ih (step_new (P := ok) hs hok)
  obtain ⟨L1, h1, h2⟩ := linear_steps hstep h0 hs hok1
  obtain ⟨L2, h3, h4⟩ := linear_steps hstep h2 hs' hok
  exact ⟨L0, L1, L2, hR _ _ h0, hR _ _ h2, hR _ _ h4, h1, h3⟩

theorem matched_order {c0 c1 c2 : Config} {ok : Op → Prop} (h : Matched cfg c0 ok) (hs : Steps cfg c0 c1) (hs' : Steps cfg c1 c2)
    (hok : ∀ x ∈ c2.calls.drop c0.calls.length, ok x.op) :
    ∃ L0 L1 L2, SeenAs cfg c0 L0 ∧ SeenAs cfg c1 L1 ∧ SeenAs cfg c2 L2 ∧
      (∃ ts : List Tid, ts.Nodup ∧ (∀ t, t ∈ ts ↔ L1.returned t ∧ ¬ L0.returned t) ∧ Replay cfg L1.calls L0.seq ts L1.seq) ∧
      (∃ ts : List Tid, ts.Nodup ∧ (∀ t, t ∈ ts ↔ L2.returned t ∧ ¬ L1.returned t) ∧ Replay cfg L2.calls L1.seq ts L2.seq) := by
  obtain ⟨L0, L1, L2, s0, s1, s2, h1, h2⟩ := h c1 c2 hs hs' hok
  exact ⟨L0, L1, L2, s0, s1, s2, lsteps_order h1, lsteps_order h2⟩

/-- Three points of an execution: there are states that agree with them, and orders in which the calls take effect
between them, one after the other, as a single caller would make them. -/
theorem C91_order {c0 c1 c2 : Config} {ok : Op → Prop} (h : Linearizable cfg c0 ok) (hs : Steps cfg c0 c1) (hs' : Steps cfg c1 c2)
    (hok : ∀ x ∈ c2.calls.drop c0.calls.length, ok x.op) :
    ∃ L0 L1 L2, SeenAs cfg c0 L0 ∧ SeenAs cfg c1 L1 ∧ SeenAs cfg c2 L2 ∧
      (∃ ts : List Tid, ts.Nodup ∧ (∀ t, t ∈ ts ↔ L1.returned t ∧ ¬ L0.returned t) ∧ Replay cfg L1.calls L0.seq ts L1.seq) ∧
      (∃ ts : List Tid, ts.Nodup ∧ (∀ t, t ∈ ts ↔ L2.returned t ∧ ¬ L1.returned t) ∧ Replay cfg L2.calls L1.seq ts L2.seq) :=
  matched_order h.matched hs hs' hok

theorem Linearizable.mono {c0 : Config} {ok ok' : Op → Prop} (h : Linearizable cfg c0 ok) (hi : ∀ op, ok' op → ok op) :
    Linearizable cfg c0 ok' := by
  obtain ⟨R, L0, h0, hR, hstep⟩ := h
  exact ⟨R, L0, h0, hR, fun c L c' h1 h2 h3 => hstep c L c' h1 (fun x hx => hi _ (h2 x hx)) h3⟩

theorem FullyLinearizable.linear {c0 : Config} {ok : Op → Prop} (h : FullyLinearizable cfg c0 ok) : Linearizable cfg c0 ok := by
  obtain ⟨R, L0, h0, hR, hstep⟩ := h
  exact ⟨R, L0, h0, fun c L h => (hR c L h).1, hstep⟩

/-! ## Where it holds -/

theorem settled_calm {s : Shared} {a : ObjState} (h : Shows cfg s a) {free : Name → Prop} {op : Op} (hop : op.settled s free) :
    op.calm a.index a.aliases free := by
  cases op <;> try exact hop
  case put n d =>
    rcases hop with ho | ⟨ho, hf⟩
    · exact .inl (by rw [← h.index]; exact ho)
    · refine .inr ⟨?_, hf⟩
      rw [← h.aliases]
      simpa using ho

theorem settled_linear {c0 : Config} (hr : ConcReachable cfg c0) (hq : c0.quiet)
    (free : Name → Prop) {ok : Op → Prop} (hok : ∀ op, ok op → op.isRename = false)
    (hset : ∀ op, ok op → op.settled c0.sh free) : FullyLinearizable cfg c0 ok := by
  refine fully_linear_of hr hq hok (fun A0 A => Settled A0.st.index A0.st.aliases free c0.calls.length A) ?_
    (fun A0 A h => ⟨h.toYoung, h.tidy⟩) ?_
  · intro A h1 h2
    have hlen : A.tasks.length = c0.calls.length := by simpa using congrArg List.length h2.calls
    exact { tidy := h1, index := rfl, kept := fun _ _ => rfl,
            old := fun t op k _ ht => observed_ended h2 hq ht, size := Nat.le_of_eq hlen.symm,
            fresh := fun t op k _ ht => .inl (observed_ended h2 hq ht) }
  · intro A0 A A' h0 h hs hops
    exact settled_step h hs fun t x ht hx => settled_calm (h0.state hq) (hset _ (hops t x ht hx))

/-- From any state at rest, whatever was called before: as long as no `Rename` and no `Drop` is called, every `Put`
names an index that is there, or an alias that is there and that no call changes, every call takes effect at one
moment.  Not covered: the calls excluded (refuted below). -/
theorem C91_settled_partial {c0 : Config} (hr : ConcReachable cfg c0) (hq : c0.quiet) (free : Name → Prop) :
    FullyLinearizable cfg c0 (Op.settled c0.sh free) :=
  settled_linear hr hq free (fun op h => by cases op <;> first | rfl | exact h.elim) fun _ h => h

/-- From any state at rest, whatever was called before: as long as only `Alias`, `UnAlias` of all indices and the methods
that read are called, every call takes effect at one moment. -/
theorem C91_one_look_rows_partial {c0 : Config} (hr : ConcReachable cfg c0) (hq : c0.quiet) :
    FullyLinearizable cfg c0 fun op => op.looksOnce = true ∧ op.isRename = false := by
  refine fully_linear_of hr hq (fun op h => h.2) (fun _ A => OneLook c0.calls.length A) ?_ (fun A0 A h => ⟨h.young, h.tidy⟩) ?_
  · intro A h1 h2
    have hlen : A.tasks.length = c0.calls.length := by simpa using congrArg List.length h2.calls
    exact ⟨h1, Nat.le_of_eq hlen.symm, fun t op k _ ht => observed_ended h2 hq ht,
      fun t op k _ ht => .inl (observed_ended h2 hq ht)⟩
  · intro A0 A A' _ h hs hops
    exact once_step h hs fun t x ht hx => (hops t x ht hx).1

/-- From any state at rest, whatever was called before: as long as only `Alias`, `Rename` and the methods that read
are called, every call takes effect at one moment.  The slices in the rows of `ListAliases` are not compared: a
`Rename` rewrites them later (C47). -/
theorem C91_one_look_partial {c0 : Config} (hr : ConcReachable cfg c0) (hq : c0.quiet) :
    Linearizable cfg c0 fun op => op.looksOnce = true ∧ op.isUnAlias = false := by
  refine linear_of (d := broad) (fun l => by cases l <;> rfl) hr hq (fun op h => .inr ⟨rfl, h.2⟩)
    (fun _ A => OneLook c0.calls.length A) ?_ (fun A0 A h => ⟨h.young, h.tidy⟩) ?_
  · intro A h1 h2
    have hlen : A.tasks.length = c0.calls.length := by simpa using congrArg List.length h2.calls
    exact ⟨h1, Nat.le_of_eq hlen.symm, fun t op k _ ht => observed_ended h2 hq ht,
      fun t op k _ ht => .inl (observed_ended h2 hq ht)⟩
  · intro A0 A A' _ h hs hops
    exact once_step h hs fun t x ht hx => (hops t x ht hx).1

/-! ## Where it fails -/

/-- The operations of a schedule. -/
def Sched.op? : Sched → Option Op
  | .call op _ => some op
  | .go _ => none

theorem next_ops {c c' : Config} {x : Sched} (h : c.next cfg x = some c') :
    c'.calls.map (·.op) = c.calls.map (·.op) ++ x.op?.toList := by
  cases x with
  | call op o => cases h; simp [Sched.op?]
  | go t =>
    simp only [Config.next] at h
    have hset : ∀ (op : Op) (o : Oracle) (p p' : Prog Ret), c.calls[t]? = some ⟨op, o, p⟩ →
        (c.calls.set t ⟨op, o, p'⟩).map (·.op) = c.calls.map (·.op) := by
      intro op o p p' hx
      apply List.ext_getElem?
      intro u
      simp only [List.getElem?_map, List.getElem?_set]
      split
      · next he => subst he; rw [hx]; simp [(List.getElem?_eq_some_iff.1 hx).1]
      · rfl
    split at h
    · next op o _ a k hx =>
      split at h
      · cases h
        rw [hset op o _ _ hx]; simp [Sched.op?]
      · cases h
      · cases h
        rw [hset op o _ _ hx]; simp [Sched.op?]
    · cases h

theorem play_ops {c c' : Config} {xs : List Sched} (h : c.play cfg xs = some c') :
    c'.calls.map (·.op) = c.calls.map (·.op) ++ xs.filterMap Sched.op? := by
  induction xs generalizing c with
  | nil => cases h; simp
  | cons x xs ih =>
    simp only [Config.play] at h
    cases hn : c.next cfg x with
    | none => rw [hn] at h; cases h
    | some c1 =>
      rw [hn] at h
      rw [ih h, next_ops hn]
      cases hx : x.op? <;> simp [hx]

/-- The IDs of the documents under a name, in order. -/
def Config.held (c : Config) (n : Name) : Option (List Str) :=
  (c.sh.indices.get n).bind fun p => (c.sh.heap[p]?).map fun i => i.docs.map (·.name)

theorem holds_held {c : Config} {L : LConfig} (h : Holds cfg c.sh L) (n : Name) :
    c.held n = (L.docs n).map (List.map fun r => (docOf r).name) := by
  unfold Config.held
  cases hn : L.docs n with
  | none => rw [h.unnamed n hn]; rfl
  | some rs =>
    obtain ⟨p, nm, h1, h2⟩ := h.named n rs hn
    rw [h1, Option.bind_some, h2]
    simp [buildIndex_docs]

theorem seen_over {c : Config} {L : LConfig} (h : SeenAs cfg c L) {t : Nat} {r : Ret} (ht : c.endings[t]? = some (some (.inl r)))
    {op : Op} (ho : (c.calls.map (·.op))[t]? = some op) : ∃ v, L.calls[t]? = some (op, .over v) ∧ r.agrees v := by
  obtain ⟨x, hx, he⟩ := endings_call ht
  rw [List.getElem?_map, hx] at ho
  cases ho
  exact h.returned t x r hx (ending_ret he)

theorem seen_none {c : Config} {L : LConfig} (h : SeenAs cfg c L) {t : Nat} (ht : c.endings.length ≤ t) : ¬ L.returned t := by
  rintro ⟨op, v, hL⟩
  have h1 : L.calls.length = c.calls.length := by simpa using congrArg List.length h.calls
  have h2 : c.endings.length = c.calls.length := by simp [Config.endings]
  have := (List.getElem?_eq_some_iff.1 hL).1
  omega

theorem nodup_two {a b : Nat} {ts : List Nat} (h : ts.Nodup) (hm : ∀ t, t ∈ ts ↔ t = a ∨ t = b) (hab : a ≠ b) :
    ts = [a, b] ∨ ts = [b, a] := by
  match ts, h, hm with
  | [], _, hm => exact absurd ((hm a).2 (.inl rfl)) (by simp)
  | [x], _, hm =>
    have h1 := (hm a).2 (.inl rfl)
    have h2 := (hm b).2 (.inr rfl)
    simp only [List.mem_singleton] at h1 h2
    exact absurd (h1.trans h2.symm) hab
  | [x, y], h, hm =>
    have hx := (hm x).1 (by simp)
    have hy := (hm y).1 (by simp)
    simp only [List.nodup_cons, List.mem_singleton] at h
    rcases hx with rfl | rfl <;> rcases hy with rfl | rfl <;> simp_all
  | x :: y :: z :: r, h, hm =>
    have hx := (hm x).1 (by simp)
    have hy := (hm y).1 (by simp)
    have hz := (hm z).1 (by simp)
    simp only [List.nodup_cons, List.mem_cons, not_or] at h
    exfalso
    rcases hx with rfl | rfl <;> rcases hy with rfl | rfl <;> rcases hz with rfl | rfl <;> simp_all

theorem nodup_one {a : Nat} {ts : List Nat} (h : ts.Nodup) (hm : ∀ t, t ∈ ts ↔ t = a) : ts = [a] := by
  match ts, h, hm with
  | [], _, hm => exact absurd ((hm a).2 rfl) (by simp)
  | [x], _, hm => rw [(hm x).1 (by simp)]
  | x :: y :: r, h, hm =>
    have hx := (hm x).1 (by simp)
    have hy := (hm y).1 (by simp)
    simp only [List.nodup_cons, List.mem_cons, not_or] at h
    exact absurd (hx.trans hy.symm) h.1.1

theorem replay_take {calls : List (Op × Fate)} {a b : SpecState} {t : Tid} {ts : List Tid} {op : Op} {v : SRet}
    (h : Replay cfg calls a (t :: ts) b) (ht : calls[t]? = some (op, .over v)) :
    a.allows cfg op v ∧ Replay cfg calls ⟨(a.next op).docs, (a.next op).aliases, 0, false⟩ ts b := by
  generalize hl : t :: ts = l at h
  cases h with
  | nil => cases hl
  | cons ht' hv h =>
    cases hl
    rw [ht] at ht'
    cases ht'
    exact ⟨hv, h⟩

theorem replay_nil {calls : List (Op × Fate)} {a b : SpecState} (h : Replay cfg calls a [] b) : b = a := by
  generalize hl : ([] : List Tid) = l at h
  cases h with
  | nil => rfl
  | cons => cases hl

theorem nodup_zero {ts : List Nat} (hm : ∀ t, t ∉ ts) : ts = [] := List.eq_nil_iff_forall_not_mem.2 hm

def nameX : Name := str "x"
def nameY : Name := str "y"
def nameAl : Name := str "al"
def docF : DocRequest := newDocRequest (str "f") (str "go")

/-- Two `Put`s that have both found no index. -/
def newTwice : List Sched :=
  [callNow (.put nameX docD), callNow (.put nameX docE)] ++ goes 0 6 ++ goes 1 6 ++ goes 0 7 ++ goes 1 7

/-- False of the code: two `Put`s of a new name, from the empty repository. -/
theorem C91_refuted_by_new_names : ¬ Linearizable sampleCfg Config.init fun op => ∃ d, op = .put nameX d := by
  intro h
  obtain ⟨c, hc, hf⟩ := play_fact (cfg := sampleCfg) (c0 := Config.init) (xs := newTwice)
    (f := fun c => (c.endings, c.held nameX)) (v := ([some (.inl .unit), some (.inl .unit)], some [str "e"])) (by decide +kernel)
  simp only [Prod.mk.injEq] at hf
  obtain ⟨hend, hheld⟩ := hf
  have hops : c.calls.map (·.op) = [.put nameX docD, .put nameX docE] := play_ops hc
  obtain ⟨L0, L1, L2, s0, s1, s2, -, ts, t1, t2, t3⟩ := C91_order h (.refl _) (play_steps hc) (by
    intro x hx
    have : x.op ∈ c.calls.map (·.op) := List.mem_map_of_mem (List.mem_of_mem_drop hx)
    rw [hops] at this
    simp at this
    rcases this with h | h <;> exact ⟨_, h⟩)
  obtain ⟨v0, e0, _⟩ := seen_over s2 (t := 0) (r := .unit) (by rw [hend]; rfl) (by rw [hops]; rfl)
  obtain ⟨v1, e1, _⟩ := seen_over s2 (t := 1) (r := .unit) (by rw [hend]; rfl) (by rw [hops]; rfl)
  have hnone : ∀ t, ¬ L1.returned t := fun t => seen_none s1 (Nat.zero_le _)
  have hts := nodup_two t1 (a := 0) (b := 1) (fun t => by
    rw [t2]
    constructor
    · rintro ⟨hr, _⟩
      by_cases ht : 2 ≤ t
      · exact absurd hr (seen_none s2 (by rw [hend]; exact ht))
      · omega
    · rintro (rfl | rfl)
      · exact ⟨⟨_, _, e0⟩, hnone _⟩
      · exact ⟨⟨_, _, e1⟩, hnone _⟩) (by decide)
  have hd0 : ∀ n, L1.docs n = none := fun n => by
    have := holds_held (s1.state (fun _ hx => nomatch hx)) n
    cases hn : L1.docs n with
    | none => rfl
    | some rs => rw [hn] at this; cases this
  have ha0 : ∀ n, L1.aliases n = none := fun n => ((s1.state (fun _ hx => nomatch hx)).aliases n).symm
  have hh := holds_held (s2.state (endings_quiet (by rw [hend]; rfl))) nameX
  rw [hheld] at hh
  rcases hts with rfl | rfl
  · have k := replay_nil (replay_take (replay_take t3 e0).2 e1).2
    have hL : L2.docs nameX = _ := congrArg (fun a : SpecState => a.docs nameX) k
    simp [SpecState.next, SpecState.resolve, LConfig.seq, hd0, ha0, upd] at hL
    rw [hL] at hh
    exact absurd hh (by decide +kernel)
  · have k := replay_nil (replay_take (replay_take t3 e1).2 e0).2
    have hL : L2.docs nameX = _ := congrArg (fun a : SpecState => a.docs nameX) k
    simp [SpecState.next, SpecState.resolve, LConfig.seq, hd0, ha0, upd] at hL
    rw [hL] at hh
    exact absurd hh (by decide +kernel)


/-- The points of a played execution, and what a linearization would give. -/
theorem played_points {ys zs : List Sched} {c0 c1 c2 : Config} {ok : Op → Prop} (h1 : c0.play cfg ys = some c1) (h2 : c1.play cfg zs = some c2) (h : Linearizable cfg c0 ok)
    (hok : ∀ op ∈ (ys ++ zs).filterMap Sched.op?, ok op) :
    ∃ L0 L1 L2, SeenAs cfg c0 L0 ∧ SeenAs cfg c1 L1 ∧ SeenAs cfg c2 L2 ∧
      (∃ ts : List Tid, ts.Nodup ∧ (∀ t, t ∈ ts ↔ L1.returned t ∧ ¬ L0.returned t) ∧ Replay cfg L1.calls L0.seq ts L1.seq) ∧
      (∃ ts : List Tid, ts.Nodup ∧ (∀ t, t ∈ ts ↔ L2.returned t ∧ ¬ L1.returned t) ∧ Replay cfg L2.calls L1.seq ts L2.seq) := by
  refine C91_order h (play_steps h1) (play_steps h2) ?_
  intro x hx
  have e1 := play_ops h1
  have e2 := play_ops h2
  have hlen : (c0.calls.map (·.op)).length = c0.calls.length := by simp
  have : x.op ∈ (c2.calls.map (·.op)).drop c0.calls.length := by
    rw [← List.map_drop]; exact List.mem_map_of_mem hx
  rw [e2, e1, List.append_assoc, ← hlen, List.drop_left, ← List.filterMap_append] at this
  exact hok _ this

theorem play_three {xs ys zs : List Sched} {α : Type} {f0 f1 f2 : Config → α} {v0 v1 v2 : α}
    (h0 : (Config.init.play cfg xs).map f0 = some v0) (h1 : (Config.init.play cfg (xs ++ ys)).map f1 = some v1)
    (h2 : (Config.init.play cfg (xs ++ ys ++ zs)).map f2 = some v2) :
    ∃ c0 c1 c2, Config.init.play cfg xs = some c0 ∧ c0.play cfg ys = some c1 ∧ c1.play cfg zs = some c2 ∧
      f0 c0 = v0 ∧ f1 c1 = v1 ∧ f2 c2 = v2 := by
  obtain ⟨c0, e0, g0⟩ := play_fact h0
  rw [play_append, e0, Option.bind_some] at h1
  obtain ⟨c1, e1, g1⟩ := play_fact h1
  rw [play_append, play_append, e0, Option.bind_some, e1, Option.bind_some] at h2
  obtain ⟨c2, e2, g2⟩ := play_fact h2
  exact ⟨c0, c1, c2, e0, e1, e2, g0, g1, g2⟩

/-- What is compared of a state: how the calls ended, the documents of three names, the number of aliases and one of them. -/
structure Glance where
  endings : List (Option (Ret ⊕ Crash))
  docs : List (Option (List Str))
  aliases : Nat
  al : Option (List Name)
deriving DecidableEq

def Config.look (c : Config) : Glance :=
  ⟨c.endings, [c.held nameX, c.held nameY, c.held nameAl], c.sh.aliases.length,
    (c.sh.aliases.get nameAl).map c.sh.elems⟩

/-- Two `Drop`s of one index. -/
def dropTwice : List Sched :=
  [callNow (.drop nameX), callNow (.drop nameX)] ++ goes 1 3 ++ goes 2 3 ++ goes 1 8 ++ goes 2 8

/-- False of the code: two `Drop`s of an index. -/
theorem C91_refuted_by_drops : ∃ c0, ConcReachable sampleCfg c0 ∧ c0.quiet ∧ (c0.held nameX).isSome = true ∧
    ¬ Linearizable sampleCfg c0 fun op => op = .drop nameX := by
  obtain ⟨c0, c1, c2, p0, p1, p2, g0, g1, g2⟩ := play_three (cfg := sampleCfg) (xs := [callNow (.put nameX docD)] ++ goes 0 13)
    (ys := []) (zs := dropTwice) (f0 := Config.look) (f1 := Config.look) (f2 := Config.look)
    (v0 := ⟨[some (.inl .unit)], [some [str "d"], none, none], 0, none⟩)
    (v1 := ⟨[some (.inl .unit)], [some [str "d"], none, none], 0, none⟩)
    (v2 := ⟨[some (.inl .unit), some (.inl (.bool true)), some (.inl (.bool true))], [none, none, none], 0, none⟩)
    (by decide +kernel) (by decide +kernel) (by decide +kernel)
  simp only [Config.look, Glance.mk.injEq, List.cons.injEq] at g0 g1 g2
  refine ⟨c0, play_steps p0, endings_quiet (by rw [g0.1]; rfl), by rw [g0.2.1.1]; rfl, fun h => ?_⟩
  obtain ⟨L0, L1, L2, s0, s1, s2, -, ts, t1, t2, t3⟩ := played_points p1 p2 h (by
    intro op hop
    have : op ∈ [Op.drop nameX, .drop nameX] := hop
    simpa using this)
  have o0 : c0.calls.map (·.op) = [.put nameX docD] := play_ops p0
  have o1 := play_ops p1
  have o2 := play_ops p2
  rw [o0] at o1
  rw [o1] at o2
  obtain ⟨_, e0, _⟩ := seen_over s1 (t := 0) (r := .unit) (by rw [g1.1]; rfl) (op := .put nameX docD) (by rw [o1]; rfl)
  obtain ⟨v1, e1, a1⟩ := seen_over s2 (t := 1) (r := .bool true) (by rw [g2.1]; rfl) (op := .drop nameX) (by rw [o2]; rfl)
  obtain ⟨v2, e2, a2⟩ := seen_over s2 (t := 2) (r := .bool true) (by rw [g2.1]; rfl) (op := .drop nameX) (by rw [o2]; rfl)
  have hts := nodup_two t1 (a := 1) (b := 2) (fun t => by
    rw [t2]
    constructor
    · rintro ⟨hr, hn⟩
      by_cases ht : 3 ≤ t
      · exact absurd hr (seen_none s2 (by rw [g2.1]; exact ht))
      · have : t ≠ 0 := fun h => hn (h ▸ ⟨_, _, e0⟩)
        omega
    · rintro (rfl | rfl)
      · exact ⟨⟨_, _, e1⟩, seen_none s1 (by rw [g1.1]; decide)⟩
      · exact ⟨⟨_, _, e2⟩, seen_none s1 (by rw [g1.1]; decide)⟩) (by decide)
  have key : ∀ (a : SpecState) (v : SRet), SpecState.allows sampleCfg ⟨(a.next (.drop nameX)).docs, (a.next (.drop nameX)).aliases, 0, false⟩
      (.drop nameX) v → v = .bool false := by
    intro a v hv
    simp only [SpecState.allows, SpecState.next] at hv
    rw [hv]
    split <;> simp_all [upd]
  rcases hts with rfl | rfl
  · rw [key _ _ (replay_take (replay_take t3 e1).2 e2).1] at a2
    simp [Ret.agrees] at a2
  · rw [key _ _ (replay_take (replay_take t3 e2).2 e1).1] at a1
    simp [Ret.agrees] at a1

/-- Of three calls the second is over at the first point, the first one perhaps. -/
theorem three_orders {L0 L1 L2 : LConfig} {k : Nat} {ts us : List Tid} (hold : ∀ t : Nat, t < k → L0.returned t) (hold1 : ∀ t : Nat, t < k → L1.returned t)
    (hnew : ∀ t : Nat, k ≤ t → ¬ L0.returned t)
    (h1 : L1.returned (k + 1)) (h1' : ∀ t : Nat, k + 2 ≤ t → ¬ L1.returned t) (h2 : L2.returned k) (h2' : L2.returned (k + 2))
    (h2'' : ∀ t : Nat, k + 3 ≤ t → ¬ L2.returned t) (hts : ts.Nodup) (hus : us.Nodup)
    (mts : ∀ t : Nat, t ∈ ts ↔ L1.returned t ∧ ¬ L0.returned t) (mus : ∀ t : Nat, t ∈ us ↔ L2.returned t ∧ ¬ L1.returned t) :
    ((ts = [k, k + 1] ∨ ts = [k + 1, k]) ∧ us = [k + 2]) ∨ (ts = [k + 1] ∧ (us = [k, k + 2] ∨ us = [k + 2, k])) := by
  have hlow : ∀ t : Nat, L1.returned t ∧ ¬ L0.returned t → t = k ∨ t = k + 1 := by
    rintro (t : Nat) ⟨a, b⟩
    have c1 : ¬ k + 2 ≤ t := fun h => h1' t h a
    have c2 : ¬ t < k := fun h => b (hold t h)
    omega
  have hhigh : ∀ t : Nat, L2.returned t ∧ ¬ L1.returned t → t = k ∨ t = k + 2 := by
    rintro (t : Nat) ⟨a, b⟩
    have c1 : ¬ k + 3 ≤ t := fun h => h2'' t h a
    have c2 : ¬ t < k := fun h => b (hold1 t h)
    have c3 : t ≠ k + 1 := fun h => b (h ▸ h1)
    omega
  by_cases hk : L1.returned k
  · refine .inl ⟨nodup_two hts (fun t => ?_) (by omega), nodup_one hus fun t => ?_⟩
    · rw [mts]
      refine ⟨hlow t, ?_⟩
      rintro (rfl | rfl)
      · exact ⟨hk, hnew _ (Nat.le_refl _)⟩
      · exact ⟨h1, hnew _ (by omega)⟩
    · rw [mus]
      constructor
      · intro h
        rcases hhigh t h with rfl | rfl
        · exact absurd hk h.2
        · rfl
      · rintro rfl
        exact ⟨h2', h1' _ (Nat.le_refl _)⟩
  · refine .inr ⟨nodup_one hts fun t => ?_, nodup_two hus (fun t => ?_) (by omega)⟩
    · rw [mts]
      constructor
      · intro h
        rcases hlow t h with rfl | rfl
        · exact absurd h.1 hk
        · rfl
      · rintro rfl
        exact ⟨h1, hnew _ (by omega)⟩
    · rw [mus]
      refine ⟨hhigh t, ?_⟩
      rintro (rfl | rfl)
      · exact ⟨h2, hk⟩
      · exact ⟨h2', h1' _ (Nat.le_refl _)⟩

/-- Two indices. -/
def renameBefore : List Sched :=
  [callNow (.put nameX docD)] ++ goes 0 13 ++ [callNow (.put nameY docE)] ++ goes 1 13
/-- A `Put` that has found its index, then a `Rename` of that index. -/
def renameDuring : List Sched := [callNow (.put nameX docF), callNow (.rename nameX nameY)] ++ goes 2 3 ++ goes 3 7
/-- A `Put` of the new name, then the rest of the first `Put`. -/
def renameAfter : List Sched := [callNow (.put nameY docE)] ++ goes 4 9 ++ goes 2 6

/-- False of the code: a `Rename` and `Put`s, all of them of indices that are there. -/
theorem C91_refuted_by_rename : ∃ c0, ConcReachable sampleCfg c0 ∧ c0.quiet ∧ (c0.held nameX).isSome = true ∧
    (c0.held nameY).isSome = true ∧
    ¬ Linearizable sampleCfg c0 fun op => (∃ d, op = .put nameX d ∨ op = .put nameY d) ∨ op = .rename nameX nameY := by
  obtain ⟨c0, c1, c2, p0, p1, p2, g0, g1, g2⟩ := play_three (cfg := sampleCfg) (xs := renameBefore)
    (ys := renameDuring) (zs := renameAfter) (f0 := Config.look) (f1 := Config.look) (f2 := Config.look)
    (v0 := ⟨[some (.inl .unit), some (.inl .unit)], [some [str "d"], some [str "e"], none], 0, none⟩)
    (v1 := ⟨[some (.inl .unit), some (.inl .unit), none, some (.inl (.bool true))], [none, some [str "d"], none], 0, none⟩)
    (v2 := ⟨[some (.inl .unit), some (.inl .unit), some (.inl .unit), some (.inl (.bool true)), some (.inl .unit)],
      [none, some [str "d", str "e", str "f"], none], 0, none⟩)
    (by decide +kernel) (by decide +kernel) (by decide +kernel)
  simp only [Config.look, Glance.mk.injEq, List.cons.injEq] at g0 g1 g2
  refine ⟨c0, play_steps p0, endings_quiet (by rw [g0.1]; rfl), by rw [g0.2.1.1]; rfl, by rw [g0.2.1.2.1]; rfl, fun h => ?_⟩
  obtain ⟨L0, L1, L2, s0, s1, s2, ⟨ts, t1, t2, t3⟩, us, u1, u2, u3⟩ := played_points p1 p2 h (by
    intro op hop
    have : op ∈ [Op.put nameX docF, .rename nameX nameY, .put nameY docE] := hop
    simp at this
    rcases this with h | h | h
    · exact .inl ⟨_, .inl h⟩
    · exact .inr h
    · exact .inl ⟨_, .inr h⟩)
  have o0 : c0.calls.map (·.op) = [.put nameX docD, .put nameY docE] := play_ops p0
  have o1 := play_ops p1
  have o2 := play_ops p2
  rw [o0] at o1
  rw [o1] at o2
  have old0 : ∀ t, t < 2 → L0.returned t := by
    intro t ht
    match t, ht with
    | 0, _ => obtain ⟨v, e, _⟩ := seen_over s0 (t := 0) (r := .unit) (by rw [g0.1]; rfl) (op := .put nameX docD) (by rw [o0]; rfl); exact ⟨_, _, e⟩
    | 1, _ => obtain ⟨v, e, _⟩ := seen_over s0 (t := 1) (r := .unit) (by rw [g0.1]; rfl) (op := .put nameY docE) (by rw [o0]; rfl); exact ⟨_, _, e⟩
  have old1 : ∀ t, t < 2 → L1.returned t := by
    intro t ht
    match t, ht with
    | 0, _ => obtain ⟨v, e, _⟩ := seen_over s1 (t := 0) (r := .unit) (by rw [g1.1]; rfl) (op := .put nameX docD) (by rw [o1]; rfl); exact ⟨_, _, e⟩
    | 1, _ => obtain ⟨v, e, _⟩ := seen_over s1 (t := 1) (r := .unit) (by rw [g1.1]; rfl) (op := .put nameY docE) (by rw [o1]; rfl); exact ⟨_, _, e⟩
  obtain ⟨v3, e3, _⟩ := seen_over s1 (t := 3) (r := .bool true) (by rw [g1.1]; rfl) (op := .rename nameX nameY) (by rw [o1]; rfl)
  obtain ⟨w2, f2, _⟩ := seen_over s2 (t := 2) (r := .unit) (by rw [g2.1]; rfl) (op := .put nameX docF) (by rw [o2]; rfl)
  obtain ⟨w4, f4, _⟩ := seen_over s2 (t := 4) (r := .unit) (by rw [g2.1]; rfl) (op := .put nameY docE) (by rw [o2]; rfl)
  have hcase := three_orders (k := 2) (ts := ts) (us := us) old0 old1 (fun t ht => seen_none s0 (by rw [g0.1]; exact ht)) ⟨_, _, e3⟩
    (fun t ht => seen_none s1 (by rw [g1.1]; exact ht)) ⟨_, _, f2⟩ ⟨_, _, f4⟩ (fun t ht => seen_none s2 (by rw [g2.1]; exact ht)) t1 u1 t2 u2
  have hq0 := s0.state (endings_quiet (by rw [g0.1]; rfl))
  have hq2 := s2.state (endings_quiet (by rw [g2.1]; rfl))
  have ha0 : ∀ n, L0.aliases n = none := fun n => by
    rw [← hq0.aliases n]
    have : c0.sh.aliases = [] := List.eq_nil_of_length_eq_zero g0.2.2.1
    rw [this]; rfl
  have hx0 := holds_held hq0 nameX
  have hy0 := holds_held hq0 nameY
  have hx2 := holds_held hq2 nameX
  have hy2 := holds_held hq2 nameY
  rw [g0.2.1.1] at hx0; rw [g0.2.1.2.1] at hy0
  rw [g2.2.1.1] at hx2; rw [g2.2.1.2.1] at hy2
  have hxy : nameX ≠ nameY := by decide +kernel
  have hxy' : nameY ≠ nameX := by decide +kernel
  cases hrs : L0.docs nameX with
  | none => rw [hrs] at hx0; cases hx0
  | some rs =>
  cases hss : L0.docs nameY with
  | none => rw [hss] at hy0; cases hy0
  | some ss =>
  rw [hrs] at hx0
  have hx2' : L2.docs nameX = none := by
    cases h : L2.docs nameX with
    | none => rfl
    | some l => rw [h] at hx2; cases hx2
  have over1 : L1.returned 2 → ∃ v, L1.calls[2]? = some (.put nameX docF, .over v) := by
    rintro ⟨op, v, h⟩
    have : (L1.calls.map (·.1))[2]? = some (.put nameX docF) := by rw [s1.calls, o1]; rfl
    rw [List.getElem?_map, h] at this
    cases this
    exact ⟨v, h⟩
  rcases hcase with ⟨hts, rfl⟩ | ⟨rfl, hus⟩
  · have hr2 : L1.returned 2 := ((t2 2).1 (by rcases hts with rfl | rfl <;> simp)).1
    obtain ⟨w, e2⟩ := over1 hr2
    have k2 := replay_nil (replay_take u3 f4).2
    rcases hts with rfl | rfl
    · have k1 := replay_nil (replay_take (replay_take t3 e2).2 e3).2
      rw [k1] at k2
      have hL : L2.docs nameY = _ := congrArg (fun a : SpecState => a.docs nameY) k2
      simp [SpecState.next, SpecState.resolve, LConfig.seq, hrs, hss, ha0, upd, hxy, hxy'] at hL
      rw [hL] at hy2
      simp only [Option.map_some, Option.some.injEq] at hx0 hy2
      rw [List.map_append, ← hx0] at hy2
      exact absurd hy2 (by decide +kernel)
    · have k1 := replay_nil (replay_take (replay_take t3 e3).2 e2).2
      rw [k1] at k2
      have hL : L2.docs nameX = _ := congrArg (fun a : SpecState => a.docs nameX) k2
      simp [SpecState.next, SpecState.resolve, LConfig.seq, hrs, hss, ha0, upd, hxy, hxy'] at hL
      rw [hx2'] at hL; cases hL
  · have k1 := replay_nil (replay_take t3 e3).2
    rw [k1] at u3
    rcases hus with rfl | rfl
    · have k2 := replay_nil (replay_take (replay_take u3 f2).2 f4).2
      have hL : L2.docs nameX = _ := congrArg (fun a : SpecState => a.docs nameX) k2
      simp [SpecState.next, SpecState.resolve, LConfig.seq, hrs, hss, ha0, upd, hxy, hxy'] at hL
      rw [hx2'] at hL; cases hL
    · have k2 := replay_nil (replay_take (replay_take u3 f4).2 f2).2
      have hL : L2.docs nameX = _ := congrArg (fun a : SpecState => a.docs nameX) k2
      simp [SpecState.next, SpecState.resolve, LConfig.seq, hrs, hss, ha0, upd, hxy, hxy'] at hL
      rw [hx2'] at hL; cases hL

/-- Two indices, one of them under an alias. -/
def aliasBefore : List Sched :=
  [callNow (.put nameX docD)] ++ goes 0 13 ++ [callNow (.put nameY docD)] ++ goes 1 13 ++ [callNow (.alias nameAl nameX)] ++ goes 2 9
/-- A `Put` that has looked up the alias, then an `Alias` that adds an index to it. -/
def aliasDuring : List Sched := [callNow (.put nameAl docE), callNow (.alias nameAl nameY)] ++ goes 3 8 ++ goes 4 10
/-- Another `Put` of the alias, then the rest of the first one. -/
def aliasAfter : List Sched := [callNow (.put nameAl docF)] ++ goes 5 18 ++ goes 3 6

/-- False of the code: an `Alias` and `Put`s of the same alias. -/
theorem C91_refuted_by_alias : ∃ c0, ConcReachable sampleCfg c0 ∧ c0.quiet ∧ (c0.sh.aliases.get nameAl).isSome = true ∧
    ¬ Linearizable sampleCfg c0 fun op => (∃ d, op = .put nameAl d) ∨ op = .alias nameAl nameY := by
  obtain ⟨c0, c1, c2, p0, p1, p2, g0, g1, g2⟩ := play_three (cfg := sampleCfg) (xs := aliasBefore)
    (ys := aliasDuring) (zs := aliasAfter) (f0 := Config.look) (f1 := Config.look) (f2 := Config.look)
    (v0 := ⟨[some (.inl .unit), some (.inl .unit), some (.inl (.bool true))], [some [str "d"], some [str "d"], none],
      1, some [nameX]⟩)
    (v1 := ⟨[some (.inl .unit), some (.inl .unit), some (.inl (.bool true)), none, some (.inl (.bool true))],
      [some [str "d"], some [str "d"], none], 1, some [nameX, nameY]⟩)
    (v2 := ⟨[some (.inl .unit), some (.inl .unit), some (.inl (.bool true)), some (.inl .unit), some (.inl (.bool true)),
      some (.inl .unit)], [some [str "d", str "f", str "e"], some [str "d", str "f"], none], 1, some [nameX, nameY]⟩)
    (by decide +kernel) (by decide +kernel) (by decide +kernel)
  simp only [Config.look, Glance.mk.injEq, List.cons.injEq] at g0 g1 g2
  have hal := g0.2.2.2
  refine ⟨c0, play_steps p0, endings_quiet (by rw [g0.1]; rfl), ?_, fun h => ?_⟩
  · cases hg : c0.sh.aliases.get nameAl with
    | none => rw [hg] at hal; cases hal
    | some r => rfl
  obtain ⟨L0, L1, L2, s0, s1, s2, ⟨ts, t1, t2, t3⟩, us, u1, u2, u3⟩ := played_points p1 p2 h (by
    intro op hop
    have : op ∈ [Op.put nameAl docE, .alias nameAl nameY, .put nameAl docF] := hop
    simp at this
    rcases this with h | h | h
    · exact .inl ⟨_, h⟩
    · exact .inr h
    · exact .inl ⟨_, h⟩)
  have o0 : c0.calls.map (·.op) = [.put nameX docD, .put nameY docD, .alias nameAl nameX] := play_ops p0
  have o1 := play_ops p1
  have o2 := play_ops p2
  rw [o0] at o1
  rw [o1] at o2
  have old0 : ∀ t, t < 3 → L0.returned t := by
    intro t ht
    match t, ht with
    | 0, _ => obtain ⟨v, e, _⟩ := seen_over s0 (t := 0) (r := .unit) (by rw [g0.1]; rfl) (op := .put nameX docD) (by rw [o0]; rfl); exact ⟨_, _, e⟩
    | 1, _ => obtain ⟨v, e, _⟩ := seen_over s0 (t := 1) (r := .unit) (by rw [g0.1]; rfl) (op := .put nameY docD) (by rw [o0]; rfl); exact ⟨_, _, e⟩
    | 2, _ => obtain ⟨v, e, _⟩ := seen_over s0 (t := 2) (r := .bool true) (by rw [g0.1]; rfl) (op := .alias nameAl nameX) (by rw [o0]; rfl); exact ⟨_, _, e⟩
  have old1 : ∀ t, t < 3 → L1.returned t := by
    intro t ht
    match t, ht with
    | 0, _ => obtain ⟨v, e, _⟩ := seen_over s1 (t := 0) (r := .unit) (by rw [g1.1]; rfl) (op := .put nameX docD) (by rw [o1]; rfl); exact ⟨_, _, e⟩
    | 1, _ => obtain ⟨v, e, _⟩ := seen_over s1 (t := 1) (r := .unit) (by rw [g1.1]; rfl) (op := .put nameY docD) (by rw [o1]; rfl); exact ⟨_, _, e⟩
    | 2, _ => obtain ⟨v, e, _⟩ := seen_over s1 (t := 2) (r := .bool true) (by rw [g1.1]; rfl) (op := .alias nameAl nameX) (by rw [o1]; rfl); exact ⟨_, _, e⟩
  obtain ⟨v4, e4, _⟩ := seen_over s1 (t := 4) (r := .bool true) (by rw [g1.1]; rfl) (op := .alias nameAl nameY) (by rw [o1]; rfl)
  obtain ⟨w3, f3, _⟩ := seen_over s2 (t := 3) (r := .unit) (by rw [g2.1]; rfl) (op := .put nameAl docE) (by rw [o2]; rfl)
  obtain ⟨w5, f5, _⟩ := seen_over s2 (t := 5) (r := .unit) (by rw [g2.1]; rfl) (op := .put nameAl docF) (by rw [o2]; rfl)
  have hcase := three_orders (k := 3) (ts := ts) (us := us) old0 old1 (fun t ht => seen_none s0 (by rw [g0.1]; exact ht)) ⟨_, _, e4⟩
    (fun t ht => seen_none s1 (by rw [g1.1]; exact ht)) ⟨_, _, f3⟩ ⟨_, _, f5⟩ (fun t ht => seen_none s2 (by rw [g2.1]; exact ht)) t1 u1 t2 u2
  have hq0 := s0.state (endings_quiet (by rw [g0.1]; rfl))
  have hq2 := s2.state (endings_quiet (by rw [g2.1]; rfl))
  have ha0 : L0.aliases nameAl = some [nameX] := by rw [← hq0.aliases, hal]
  have hx0 := holds_held hq0 nameX
  have hy0 := holds_held hq0 nameY
  have hl0 := holds_held hq0 nameAl
  have hx2 := holds_held hq2 nameX
  have hy2 := holds_held hq2 nameY
  rw [g0.2.1.1] at hx0; rw [g0.2.1.2.1] at hy0; rw [g0.2.1.2.2.1] at hl0
  rw [g2.2.1.1] at hx2; rw [g2.2.1.2.1] at hy2
  have n1 : nameX ≠ nameY := by decide +kernel
  have n2 : nameY ≠ nameX := by decide +kernel
  have n3 : nameX ≠ nameAl := by decide +kernel
  have n4 : nameAl ≠ nameX := by decide +kernel
  have n5 : nameY ≠ nameAl := by decide +kernel
  have n6 : nameAl ≠ nameY := by decide +kernel
  cases hrs : L0.docs nameX with
  | none => rw [hrs] at hx0; cases hx0
  | some rs =>
  cases hss : L0.docs nameY with
  | none => rw [hss] at hy0; cases hy0
  | some ss =>
  cases hll : L0.docs nameAl with
  | some ll => rw [hll] at hl0; cases hl0
  | none =>
  rw [hrs] at hx0
  rw [hss] at hy0
  simp only [Option.map_some, Option.some.injEq] at hx0 hy0
  have over1 : L1.returned 3 → ∃ v, L1.calls[3]? = some (.put nameAl docE, .over v) := by
    rintro ⟨op, v, h⟩
    have : (L1.calls.map (·.1))[3]? = some (.put nameAl docE) := by rw [s1.calls, o1]; rfl
    rw [List.getElem?_map, h] at this
    cases this
    exact ⟨v, h⟩
  rcases hcase with ⟨hts, rfl⟩ | ⟨rfl, hus⟩
  · have hr3 : L1.returned 3 := ((t2 3).1 (by rcases hts with rfl | rfl <;> simp)).1
    obtain ⟨w, e3⟩ := over1 hr3
    have k2 := replay_nil (replay_take u3 f5).2
    rcases hts with rfl | rfl
    · have k1 := replay_nil (replay_take (replay_take t3 e3).2 e4).2
      rw [k1] at k2
      have hL : L2.docs nameX = _ := congrArg (fun a : SpecState => a.docs nameX) k2
      simp [SpecState.next, SpecState.resolve, LConfig.seq, hrs, hss, hll, ha0, upd, n1, n2, n3, n4, n5, n6] at hL
      rw [hL] at hx2
      simp only [Option.map_some, Option.some.injEq] at hx2
      rw [List.map_append, ← hx0] at hx2
      exact absurd hx2 (by decide +kernel)
    · have k1 := replay_nil (replay_take (replay_take t3 e4).2 e3).2
      rw [k1] at k2
      have hL : L2.docs nameY = _ := congrArg (fun a : SpecState => a.docs nameY) k2
      simp [SpecState.next, SpecState.resolve, LConfig.seq, hrs, hss, hll, ha0, upd, n1, n2, n3, n4, n5, n6] at hL
      rw [hL] at hy2
      simp only [Option.map_some, Option.some.injEq] at hy2
      rw [List.map_append, ← hy0] at hy2
      exact absurd hy2 (by decide +kernel)
  · have k1 := replay_nil (replay_take t3 e4).2
    rw [k1] at u3
    rcases hus with rfl | rfl
    · have k2 := replay_nil (replay_take (replay_take u3 f3).2 f5).2
      have hL : L2.docs nameY = _ := congrArg (fun a : SpecState => a.docs nameY) k2
      simp [SpecState.next, SpecState.resolve, LConfig.seq, hrs, hss, hll, ha0, upd, n1, n2, n3, n4, n5, n6] at hL
      rw [hL] at hy2
      simp only [Option.map_some, Option.some.injEq] at hy2
      rw [List.map_append, ← hy0] at hy2
      exact absurd hy2 (by decide +kernel)
    · have k2 := replay_nil (replay_take (replay_take u3 f5).2 f3).2
      have hL : L2.docs nameY = _ := congrArg (fun a : SpecState => a.docs nameY) k2
      simp [SpecState.next, SpecState.resolve, LConfig.seq, hrs, hss, hll, ha0, upd, n1, n2, n3, n4, n5, n6] at hL
      rw [hL] at hy2
      simp only [Option.map_some, Option.some.injEq] at hy2
      rw [List.map_append, ← hy0] at hy2
      exact absurd hy2 (by decide +kernel)

/-- The full statement: from any state at rest, whatever is called.  False of the code. -/
theorem C91_refuted : ¬ ∀ c0, ConcReachable sampleCfg c0 → c0.quiet → Linearizable sampleCfg c0 fun _ => True :=
  fun h => C91_refuted_by_new_names ((h Config.init (.refl _) (fun _ hx => nomatch hx)).mono fun _ _ => trivial)

/-! ## Concrete executions -/

/-- Two indices and an alias; then one index is renamed, and the alias told to forget it. -/
def renamedBefore : List Sched :=
  aliasBefore ++ [callNow (.rename nameY (str "z"))] ++ goes 3 9 ++ [callNow (.unAlias nameAl (str "z"))] ++ goes 4 8

/-- A state at rest as in `C91_settled_partial`, whose history has a `Rename` and an `UnAlias`: `Put`s of an index and
of the alias, a `Search` and `Alias`es of another name may follow. -/
example : ∃ c0, ConcReachable sampleCfg c0 ∧ c0.quiet ∧ (∃ x ∈ c0.calls, x.op.isRename = true) ∧
    (∃ x ∈ c0.calls, x.op.isUnAlias = true) ∧
    ∀ op ∈ [Op.put nameX docE, .put nameAl docF, .search nameAl (str "go") linearSearch, .alias (str "b") nameX,
      .unAlias (str "b") nameX], op.settled c0.sh fun n => n ≠ nameAl := by
  obtain ⟨c, hc, hf⟩ := play_fact (cfg := sampleCfg) (c0 := Config.init) (xs := renamedBefore)
    (f := fun c => ((c.endings.all Option.isSome, c.calls.any fun x => x.op.isRename), c.calls.any fun x => x.op.isUnAlias,
      (c.sh.indices.get nameX).isSome, (c.sh.aliases.get nameAl).isSome)) (v := ((true, true), true, true, true)) (by decide +kernel)
  simp only [Prod.mk.injEq] at hf
  refine ⟨c, play_steps hc, endings_quiet hf.1.1, by simpa using List.any_eq_true.1 hf.1.2, by simpa using List.any_eq_true.1 hf.2.1, ?_⟩
  intro op hop
  simp only [List.mem_cons, List.not_mem_nil, or_false] at hop
  rcases hop with rfl | rfl | rfl | rfl | rfl
  · exact .inl hf.2.2.1
  · exact .inr ⟨hf.2.2.2, fun h => h rfl⟩
  · trivial
  · exact (by decide +kernel : str "b" ≠ nameAl)
  · exact (by decide +kernel : str "b" ≠ nameAl)

/-- They overlap: both `Put`s have looked up their names before either writes. -/
example : ((Config.init.play sampleCfg (renamedBefore ++ [callNow (.put nameX docE), callNow (.put nameAl docF)] ++ goes 5 3 ++ goes 6 8 ++
    goes 5 6 ++ goes 6 6)).map Config.look).map (·.docs)
    = some [some [str "d", str "e", str "f"], none, none] := by decide +kernel

end Visigoth
