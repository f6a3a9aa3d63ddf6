import Verif.Proofs.Fine
import Verif.Spec.Fine
/-!
# Consequences of the simulation: outcomes, races, deadlocks and termination at goroutine level
-/
namespace Visigoth

variable {cfg : Cfg}

/-! ## Outcomes -/

theorem flat_status (op op' : Op) (o o' : Oracle) (p : FProg Ret) :
    (Thread.status { op := op, oracle := o, prog := p.flat cfg }) = FThread.status { op := op', oracle := o', st := .run p } := by
  cases p <;> rfl

theorem sim_status {s s0 : Shared} {g : Ghost} {x : FThread} {y : Thread} (h : SimState cfg s s0 g x.st y.prog) :
    y.status = x.status := by
  obtain ⟨op, o, st⟩ := x
  obtain ⟨op', o', p⟩ := y
  simp only at h
  cases h with
  | run p hp => exact flat_status _ _ _ _ p
  | putting => rfl
  | searching => rfl

theorem sim_writes {s s0 : Shared} {g : Ghost} {x : FThread} {p : Prog Ret} (h : SimState cfg s s0 g x.st p)
    {q : Ptr} (hq : q ∈ g.writing) : x.status = .running := by
  obtain ⟨op, o, st⟩ := x
  simp only at h
  cases h with
  | run p hp => cases hq
  | putting => rfl
  | searching => cases hq

theorem sim_alike {c : FConfig} {d : Config} {G : Tid → Ghost} (hd : NSteps cfg Config.init d) (sim : Sim cfg c d G) (F : Tid → List Ptr → List Ptr) :
    Alike c (d.withSchedules F) := by
  have hr := sim.rest
  refine ⟨?_, ?_, ?_, ?_, ?_, ?_, ?_, sim.heapLen, ?_⟩
  · simpa [Config.withSchedules] using sim.len
  · intro t x hx
    obtain ⟨y, hy, hop, hor, hst⟩ := sim.call t x hx
    refine ⟨_, withSchedules_get hy, hop, ?_, ?_, ?_⟩
    · show y.oracle.keyOrder = _; rw [hor]
    · show y.oracle.capacity = _; rw [hor]
    · exact sim_status hst
  · rw [hr]; rfl
  · rw [hr]; rfl
  · rw [hr]; rfl
  · rw [hr]; rfl
  · rw [hr]; rfl
  · intro hw
    obtain ⟨H, i, w⟩ := nsteps_inv hd
    apply List.ext_getElem?
    intro q
    refine sim.heap q fun t hq => ?_
    rcases Nat.lt_or_ge t c.calls.length with hl | hl
    · obtain ⟨y, hy, _, _, hst⟩ := sim.call t _ (List.getElem?_eq_getElem hl)
      have ht := (sim_writing sim i w hq).1
      refine hw t _ (List.getElem?_eq_getElem hl) (sim_writes hst hq) ?_
      rw [hr]
      exact ⟨((i.link .indices).wr t).2 (Or.inr ht), (i.link .indices).excl t ht⟩
    · rw [sim.fresh t hl] at hq; cases hq

theorem fine_alike {c : FConfig} (h : FineReachable cfg c) : ∃ d, ConcReachable cfg d ∧ Alike c d := by
  obtain ⟨d, G, hd, sim⟩ := sim_reachable h
  obtain ⟨_, _, ⟨F, hF⟩, hR⟩ := nsteps_reachable hd
  exact ⟨_, hR F hF, sim_alike hd sim F⟩

/-! ## Progress -/

/-- Several points of an execution. -/
theorem sim_chain : ∀ (cs : List FConfig) {c : FConfig} {d : Config} {G : Tid → Ghost}, NSteps cfg Config.init d → Sim cfg c d G →
    Successive (FSteps cfg) (c :: cs) → ∃ ds : List Config, Successive (NSteps cfg) (d :: ds) ∧ ds.length = cs.length ∧
      ∀ (i : Nat) c d, cs[i]? = some c → ds[i]? = some d → NSteps cfg Config.init d ∧ ∃ G, Sim cfg c d G
  | [], _, _, _, _, _, _ => ⟨[], trivial, rfl, fun i c d h => by simp at h⟩
  | c1 :: cs, c, d, G, hd, m, ⟨h, hc⟩ => by
    obtain ⟨d1, G1, hs, m1⟩ := sim_steps m hd h
    obtain ⟨ds, h1, h2, h3⟩ := sim_chain cs (hd.trans hs) m1 hc
    refine ⟨d1 :: ds, ⟨hs, h1⟩, by simp [h2], ?_⟩
    intro i c d hc hd
    cases i with
    | zero => cases hc; cases hd; exact ⟨NSteps.trans ‹_› hs, G1, m1⟩
    | succ i => exact h3 i c d hc hd

theorem fine_chain {cs : List FConfig} (h : Successive (FSteps cfg) (FConfig.init :: cs)) :
    ∃ ds : List Config, Successive (Steps cfg) (Config.init :: ds) ∧ ds.length = cs.length ∧
      ∀ (i : Nat) c d, cs[i]? = some c → ds[i]? = some d → Alike c d := by
  obtain ⟨ds, h1, h2, h3⟩ := sim_chain cs (.refl _) sim_init h
  obtain ⟨F, _, hch⟩ := nsteps_chain ds recorded_init ⟨fun _ => id, agrees_none _⟩ h1
  have h0 : Config.init.withSchedules F = Config.init := rfl
  rw [List.map_cons, h0] at hch
  refine ⟨ds.map (·.withSchedules F), hch, by simpa using h2, ?_⟩
  intro i c d hc hd
  simp only [List.getElem?_map, Option.map_eq_some_iff] at hd
  obtain ⟨d', hd', rfl⟩ := hd
  obtain ⟨hn, G, sim⟩ := h3 i c d' hc hd'
  exact sim_alike hn sim F

theorem fine_two {c0 c1 : FConfig} (h : FineReachable cfg c0) (h1 : FSteps cfg c0 c1) :
    ∃ d0 d1, ConcReachable cfg d0 ∧ Steps cfg d0 d1 ∧ Alike c0 d0 ∧ Alike c1 d1 := by
  obtain ⟨ds, h2, h3, h4⟩ := fine_chain (cs := [c0, c1]) ⟨h, h1, trivial⟩
  match ds, h3, h2, h4 with
  | [d0, d1], _, ⟨g0, g1, _⟩, h4 => exact ⟨d0, d1, g0, g1, h4 0 _ _ rfl rfl, h4 1 _ _ rfl rfl⟩

theorem fine_three {c0 c1 c2 : FConfig} (h : FineReachable cfg c0) (h1 : FSteps cfg c0 c1) (h2 : FSteps cfg c1 c2) :
    ∃ d0 d1 d2, ConcReachable cfg d0 ∧ Steps cfg d0 d1 ∧ Steps cfg d1 d2 ∧ Alike c0 d0 ∧ Alike c1 d1 ∧ Alike c2 d2 := by
  obtain ⟨ds, h2, h3, h4⟩ := fine_chain (cs := [c0, c1, c2]) ⟨h, h1, h2, trivial⟩
  match ds, h3, h2, h4 with
  | [d0, d1, d2], _, ⟨g0, g1, g2, _⟩, h4 =>
    exact ⟨d0, d1, d2, g0, g1, g2, h4 0 _ _ rfl rfl, h4 1 _ _ rfl rfl, h4 2 _ _ rfl rfl⟩

/-- What a goroutine of `Search` is about to read. -/
theorem fine_eval {c : FConfig} (h : FineReachable cfg c) {t : Tid} {x : FThread} (hx : c.calls[t]? = some x)
    {result : List SearchResult} {rl : Option Nat} {gs : List Searcher} {ts : Str} {e : Engine} {k : List SearchResult → FProg Ret}
    (hst : x.st = .searching result rl gs ts e k) {p : Ptr} (hp : .start p ∈ gs) :
    ∃ nm rs, c.sh.heap[p]? = some (buildIndex cfg.tok nm rs) ∧ (∀ r ∈ rs, ∃ y ∈ c.calls, ∃ n, y.op = .put n r) ∧ rs ≠ [] := by
  obtain ⟨d, G, hd, sim⟩ := sim_reachable h
  obtain ⟨H, i, w⟩ := nsteps_whole (P := fun r => ∃ y ∈ c.calls, ∃ n, y.op = .put n r) hd (by
    intro y hy r hr
    obtain ⟨u, hu⟩ := List.getElem?_of_mem hy
    have hl : u < c.calls.length := Nat.lt_of_lt_of_eq (List.getElem?_eq_some_iff.1 hu).1 sim.len.symm
    obtain ⟨y', hy', hop, _, _⟩ := sim.call u _ (List.getElem?_eq_getElem hl)
    rw [hu] at hy'; cases hy'
    refine ⟨_, List.getElem_mem hl, ?_⟩
    rw [← hop]
    cases hop : y.op <;> rw [hop] at hr <;> simp only [Op.puts, reduceCtorEq, Option.some.injEq] at hr
    subst hr
    exact ⟨_, rfl⟩)
  obtain ⟨y, hy, _, _, hs⟩ := sim.call t x hx
  rw [hst] at hs
  generalize hg : G t = g at hs
  generalize hpr : y.prog = pr at hs
  cases hs with
  | searching ps _ _ _ _ _ order _ hk hinv =>
    obtain ⟨j, hj⟩ := List.getElem?_of_mem hp
    have hm := List.mem_of_getElem? (hinv.start j p hj)
    have hf := fork_search i w hy hpr hm
    have hsame := sim_same sim i w hf.1 (by rw [hg]; rfl)
    have hnw : (H t).imu ≠ .write := by
      intro hh
      have hkn := w.knows t y hy
      rw [hpr] at hkn
      unfold Knows at hkn
      rw [if_pos hh] at hkn
      exact hkn (p :: ps.erase p) (perm_front hm)
    have hok := w.ok fun u hu => by
      by_cases hut : u = t
      · subst hut; exact hnw hu
      · exact excl_shared i.link (Ne.symm hut) hu hf.1
    rw [hsame]
    obtain ⟨nm, rs, h3, h4⟩ := hok _ (List.getElem_mem hf.2)
    exact ⟨nm, rs, by rw [List.getElem?_eq_getElem hf.2, h3], h4⟩

theorem status_running {x : Thread} : x.running ↔ x.status = .running := by
  obtain ⟨op, o, p⟩ := x
  cases p <;> simp [Thread.running, Thread.status]

theorem alike_leaked {c : FConfig} {d : Config} (h : Alike c d) : c.leaked ↔ d.leaked := by
  have hh : ∀ m t, c.sh.holds m t ↔ d.sh.holds m t := by
    intro m t
    cases m <;> simp [Shared.holds, Shared.mu, h.imu, h.amu]
  constructor
  · rintro ⟨t, x, m, hx, hs, hm⟩
    obtain ⟨y, hy, sc⟩ := h.calls t x hx
    exact ⟨t, y, m, hy, by rw [status_running, sc.status]; exact hs, (hh m t).1 hm⟩
  · rintro ⟨t, y, m, hy, hs, hm⟩
    have hl : t < c.calls.length := by rw [h.len]; exact (List.getElem?_eq_some_iff.1 hy).1
    obtain ⟨y', hy', sc⟩ := h.calls t _ (List.getElem?_eq_getElem hl)
    rw [hy] at hy'; cases hy'
    refine ⟨t, _, m, List.getElem?_eq_getElem hl, ?_, (hh m t).2 hm⟩
    rw [← sc.status, Ne, ← status_running]; exact hs

theorem onHeap_not_blocked {o : Oracle} {t : Tid} {β : Type} {a : Act β} {s : Shared} (ha : a.onHeap = true) :
    exec cfg o t a s ≠ .blocked :=
  not_blocked (fun m h => by cases a <;> simp_all [Act.onHeap, Act.locks]) (fun m h => by cases a <;> simp_all [Act.onHeap, Act.acquires])

/-- If a call can move in the execution without interleaved goroutines, it can move here. -/
theorem sim_canMove {c : FConfig} {d : Config} {G : Tid → Ghost} (hd : NSteps cfg Config.init d) (sim : Sim cfg c d G)
    {t : Tid} (h : d.canMove cfg t) : c.canMove cfg t := by
  obtain ⟨H, i, w⟩ := nsteps_inv hd
  have key : ∀ {op : Op} {o : Oracle} {β : Type} {a : Act β} {k : β → Prog Ret},
      d.calls[t]? = some { op := op, oracle := o, prog := .act a k } → exec cfg o t a d.sh ≠ .blocked → c.canMove cfg t := by
    intro op o β a k hy hb
    have hl : t < c.calls.length := by rw [sim.len]; exact (List.getElem?_eq_some_iff.1 hy).1
    have hx := List.getElem?_eq_getElem hl
    obtain ⟨⟨xop, xo, st⟩, hxe⟩ : ∃ x, c.calls[t] = x := ⟨_, rfl⟩
    rw [hxe] at hx
    obtain ⟨y, hy', hop, hor, hst⟩ := sim.call t _ hx
    rw [hy] at hy'; cases hy'
    simp only at hop hor hst
    subst hop hor
    have hrest := sim.rest
    have hsim := sim
    obtain ⟨s, calls⟩ := c
    simp only at hx hst hrest
    generalize hg : G t = g at hst
    generalize hp : Prog.act a k = p at hst
    cases hst with
    | run p hdis =>
      cases p with
      | ret r => cases hp
      | crash e => cases hp
      | forkPut ps doc k => exact ⟨_, .forkPut hx⟩
      | forkSearch ps terms engine k => exact ⟨_, .forkSearch hx⟩
      | act a' k' =>
        cases hp
        have hb' : exec cfg o t a s ≠ .blocked := by
          by_cases ha : a.onHeap = true
          · exact onHeap_not_blocked ha
          · rw [hrest, exec_withHeap (by simpa using ha)]
            intro he
            cases hx : exec cfg o t a d.sh with
            | blocked => exact hb hx
            | ok b s' => rw [hx] at he; cases he
            | crash e => rw [hx] at he; cases he
        cases he : exec cfg o t a s with
        | ok b s' => exact ⟨_, .act hx he⟩
        | blocked => exact absurd he hb'
        | crash e => exact ⟨_, .crash hx he⟩
    | putting ps doc gs ns k' hnd hk hinv =>
      by_cases hdone : Pool.done { sh := s, gs := gs }
      · exact ⟨_, .putJoin hx hdone⟩
      · simp only [Pool.done, Classical.not_forall] at hdone
        obtain ⟨g, hgm, hne⟩ := hdone
        obtain ⟨j, hj, rfl⟩ := List.mem_iff_getElem.1 hgm
        have hl : j < ps.length := Nat.lt_of_lt_of_eq hj hinv.len
        have hl' : j < ns.length := by rw [hinv.nlen]; exact hl
        obtain ⟨mi, mi', e1, e2, hga⟩ := hinv.at_ j _ _ _ (List.getElem?_eq_getElem hl)
          (List.getElem?_eq_getElem hj) (List.getElem?_eq_getElem hl')
        rcases hga.act (o := o) (t := t) s e2 with ⟨e, _⟩ | ⟨β, a', k'', b, mi'', n', e, he, _⟩
        · exact absurd e hne
        · exact ⟨_, .put hx (.move j (by rw [List.getElem?_eq_getElem hj, e]) he)⟩
    | searching ps result rl gs terms engine order k' hk hinv =>
      have hin : ∀ q ∈ ps, q < d.sh.heap.length := fun q hq => (fork_search i w hy hp hq).2
      rcases search_progress hin hinv with hf | hp' | ⟨c', hs⟩
      · exact ⟨_, .searchJoin hx hf⟩
      · exact ⟨_, .searchPanic hx hp'⟩
      · have hsh : c'.sh = s := (search_left hs).1
        obtain ⟨s', r', rl', gs'⟩ := c'
        simp only at hsh
        subst hsh
        exact ⟨_, .search hx hs⟩
  obtain ⟨d', h⟩ := h
  cases h with
  | act h he => exact key h (by rw [he]; simp)
  | crash h he => exact key h (by rw [he]; simp)

theorem canMove_withSchedules {d : Config} {F : Tid → List Ptr → List Ptr} {t : Tid}
    (h : (d.withSchedules F).canMove cfg t) : d.canMove cfg t := by
  have key : ∀ {op : Op} {o : Oracle} {β : Type} {a : Act β} {k : β → Prog Ret},
      (d.withSchedules F).calls[t]? = some { op := op, oracle := o, prog := .act a k } → exec cfg o t a d.sh ≠ .blocked →
        d.canMove cfg t := by
    intro op o β a k hy hb
    simp only [Config.withSchedules, List.getElem?_mapIdx, Option.map_eq_some_iff] at hy
    obtain ⟨⟨op', o', p⟩, hx, he⟩ := hy
    cases he
    refine canMove_of hx ?_
    by_cases ha : a.isSchedule = true
    · exact not_blocked (fun m h => by cases a <;> simp_all [Act.isSchedule, Act.locks])
        (fun m h => by cases a <;> simp_all [Act.isSchedule, Act.acquires])
    · rw [← exec_withSchedule (by simpa using ha)]; exact hb
  obtain ⟨d', h⟩ := h
  generalize hc : d.withSchedules F = c at h
  have hs : d.sh = c.sh := by rw [← hc]; rfl
  cases h with
  | act h he => exact key (by rw [hc]; exact h) (by rw [hs, he]; simp)
  | crash h he => exact key (by rw [hc]; exact h) (by rw [hs, he]; simp)

theorem fine_no_deadlock {c : FConfig} (h : FineReachable cfg c) (hl : ¬ c.leaked) {t : Tid} {x : FThread}
    (hx : c.calls[t]? = some x) (hrun : x.status = .running) : ∃ u, c.canMove cfg u := by
  obtain ⟨d, G, hd, sim⟩ := sim_reachable h
  obtain ⟨_, _, ⟨F, hF⟩, hR⟩ := nsteps_reachable hd
  have al := sim_alike hd sim F
  obtain ⟨y, hy, sc⟩ := al.calls t x hx
  obtain ⟨u, hu⟩ := no_deadlock (hR F hF) (fun h => hl ((alike_leaked al).2 h)) hy
    (status_running.2 (sc.status.trans hrun))
  exact ⟨u, sim_canMove hd sim (canMove_withSchedules hu)⟩

/-! ## Termination -/

/-- One element of the list takes a step. -/
def ListStep {α : Type _} (R : α → α → Prop) (l l' : List α) : Prop :=
  ∃ (i : Nat) (x y : α), l[i]? = some x ∧ R x y ∧ l' = l.set i y

theorem list_acc {α : Type _} {R : α → α → Prop} (hR : ∀ x, Acc (fun b a => R a b) x) (l : List α) :
    Acc (fun b a => ListStep R a b) l := by
  induction l with
  | nil => exact ⟨_, fun y ⟨i, x, _, h, _⟩ => by simp at h⟩
  | cons x l ih =>
    have hx := hR x
    revert l
    induction hx with
    | intro x _ ihx =>
      intro l hl
      induction hl with
      | intro l hl ihl =>
        refine ⟨_, ?_⟩
        rintro l' ⟨i, z, y, hz, hzy, rfl⟩
        cases i with
        | zero =>
          simp only [List.getElem?_cons_zero, Option.some.injEq] at hz
          subst hz
          exact ihx y hzy l ⟨_, hl⟩
        | succ i => exact ihl _ ⟨i, z, y, by simpa using hz, hzy, rfl⟩

/-- A program takes a step. -/
inductive ProgStep {α : Type} : Prog α → Prog α → Prop where
  | act {β : Type} (a : Act β) (k : β → Prog α) (b : β) : ProgStep (.act a k) (k b)
  | crash {β : Type} (a : Act β) (k : β → Prog α) (e : Crash) : ProgStep (.act a k) (.crash e)

theorem prog_acc {α : Type} (p : Prog α) : Acc (fun b a => ProgStep a b) p := by
  have hc : ∀ e, Acc (fun b a => ProgStep a b) (Prog.crash e : Prog α) := fun e => ⟨_, fun y h => nomatch h⟩
  induction p with
  | ret a => exact ⟨_, fun y h => nomatch h⟩
  | crash e => exact hc e
  | act a k ih =>
    refine ⟨_, fun y h => ?_⟩
    cases h with
    | act _ _ b => exact ih b
    | crash _ _ e => exact hc e

/-- A search goroutine takes a step. -/
inductive SearcherStep : Searcher → Searcher → Prop where
  | eval (p : Ptr) (sr : List SearchResult) : SearcherStep (.start p) (.evaluated sr)
  | panic (p : Ptr) : SearcherStep (.start p) .panicked
  | lock (sr : List SearchResult) : SearcherStep (.evaluated sr) (.appending sr)
  | append (x : SearchResult) (rest : List SearchResult) : SearcherStep (.appending (x :: rest)) (.appending rest)
  | unlock : SearcherStep (.appending []) .done

theorem searcher_acc (g : Searcher) : Acc (fun b a => SearcherStep a b) g := by
  have hd : Acc (fun b a => SearcherStep a b) Searcher.done := ⟨_, fun y h => nomatch h⟩
  have hp : Acc (fun b a => SearcherStep a b) Searcher.panicked := ⟨_, fun y h => nomatch h⟩
  have ha : ∀ l, Acc (fun b a => SearcherStep a b) (Searcher.appending l) := by
    intro l
    induction l with
    | nil => exact ⟨_, fun y h => by cases h; exact hd⟩
    | cons x l ih => exact ⟨_, fun y h => by cases h; exact ih⟩
  have he : ∀ l, Acc (fun b a => SearcherStep a b) (Searcher.evaluated l) := fun l => ⟨_, fun y h => by cases h; exact ha l⟩
  cases g with
  | start p => exact ⟨_, fun y h => by cases h; exact he _; exact hp⟩
  | evaluated l => exact he l
  | appending l => exact ha l
  | done => exact hd
  | panicked => exact hp

/-- A call or one of its goroutines takes a step. -/
inductive FStateStep : FState → FState → Prop where
  | act {β : Type} (a : Act β) (k : β → FProg Ret) (b : β) : FStateStep (.run (.act a k)) (.run (k b))
  | crash {β : Type} (a : Act β) (k : β → FProg Ret) (e : Crash) : FStateStep (.run (.act a k)) (.run (.crash e))
  | forkPut (ps : List Ptr) (doc : DocRequest) (k : FProg Ret) (gs : List (Prog Unit)) :
      FStateStep (.run (.forkPut ps doc k)) (.putting gs k)
  | put {gs gs' : List (Prog Unit)} (k : FProg Ret) (h : ListStep ProgStep gs gs') : FStateStep (.putting gs k) (.putting gs' k)
  | putPanic (gs : List (Prog Unit)) (k : FProg Ret) (e : Crash) : FStateStep (.putting gs k) (.run (.crash e))
  | putJoin (gs : List (Prog Unit)) (k : FProg Ret) : FStateStep (.putting gs k) (.run k)
  | forkSearch (ps : List Ptr) (terms : Str) (engine : Engine) (k : List SearchResult → FProg Ret) (r : List SearchResult)
      (rl : Option Nat) (gs : List Searcher) (terms' : Str) (engine' : Engine) :
      FStateStep (.run (.forkSearch ps terms engine k)) (.searching r rl gs terms' engine' k)
  | search {gs gs' : List Searcher} (r r' : List SearchResult) (rl rl' : Option Nat) (terms : Str) (engine : Engine)
      (k : List SearchResult → FProg Ret) (h : ListStep SearcherStep gs gs') :
      FStateStep (.searching r rl gs terms engine k) (.searching r' rl' gs' terms engine k)
  | searchPanic (gs : List Searcher) (r : List SearchResult) (rl : Option Nat) (terms : Str) (engine : Engine)
      (k : List SearchResult → FProg Ret) (e : Crash) : FStateStep (.searching r rl gs terms engine k) (.run (.crash e))
  | searchJoin (gs : List Searcher) (r : List SearchResult) (rl : Option Nat) (terms : Str) (engine : Engine)
      (k : List SearchResult → FProg Ret) : FStateStep (.searching r rl gs terms engine k) (.run (k r))

theorem fstate_acc (x : FState) : Acc (fun b a => FStateStep a b) x := by
  have hc : ∀ e, Acc (fun b a => FStateStep a b) (FState.run (.crash e)) := fun e => ⟨_, fun y h => nomatch h⟩
  have hput : ∀ k, Acc (fun b a => FStateStep a b) (FState.run k) → ∀ gs, Acc (fun b a => FStateStep a b) (FState.putting gs k) := by
    intro k hk gs
    have hg := list_acc (R := ProgStep) (fun p => prog_acc (α := Unit) p) gs
    induction hg with
    | intro gs _ ih =>
      refine ⟨_, fun y h => ?_⟩
      cases h with
      | put _ h => exact ih _ h
      | putPanic _ _ e => exact hc e
      | putJoin => exact hk
  have hsearch : ∀ k, (∀ r, Acc (fun b a => FStateStep a b) (FState.run (k r))) → ∀ gs r rl terms engine,
      Acc (fun b a => FStateStep a b) (FState.searching r rl gs terms engine k) := by
    intro k hk gs
    have hg := list_acc (R := SearcherStep) searcher_acc gs
    induction hg with
    | intro gs _ ih =>
      intro r rl terms engine
      refine ⟨_, fun y h => ?_⟩
      cases h with
      | search _ _ _ _ _ _ _ h => exact ih _ h _ _ _ _
      | searchPanic => exact hc _
      | searchJoin => exact hk _
  have hrun : ∀ p, Acc (fun b a => FStateStep a b) (FState.run p) := by
    intro p
    induction p with
    | ret a => exact ⟨_, fun y h => nomatch h⟩
    | crash e => exact hc e
    | act a k ih =>
      refine ⟨_, fun y h => ?_⟩
      cases h with
      | act _ _ b => exact ih b
      | crash => exact hc _
    | forkPut ps doc k ih =>
      refine ⟨_, fun y h => ?_⟩
      cases h with
      | forkPut => exact hput _ ih _
    | forkSearch ps terms engine k ih =>
      refine ⟨_, fun y h => ?_⟩
      cases h with
      | forkSearch => exact hsearch _ ih _ _ _ _ _
  cases x with
  | run p => exact hrun p
  | putting gs k => exact hput k (hrun k) gs
  | searching r rl gs terms engine k => exact hsearch k (fun r => hrun (k r)) gs r rl terms engine

theorem fstate_set {calls : List FThread} {t : Tid} {op : Op} {o : Oracle} {x y : FState}
    (h : calls[t]? = some { op := op, oracle := o, st := x }) (hs : FStateStep x y) :
    ListStep FStateStep (calls.map (·.st)) ((calls.set t { op := op, oracle := o, st := y }).map (·.st)) :=
  ⟨t, x, y, by simp [h], hs, by rw [List.map_set]⟩

theorem fine_moves_wf (cfg : Cfg) : WellFounded (fun c' c => FMoves cfg c c') := by
  have hsub : Subrelation (fun c' c => FMoves cfg c c')
      (InvImage (fun b a => ListStep FStateStep a b) fun c : FConfig => c.calls.map (·.st)) := by
    rintro c' c ⟨t, h⟩
    cases h with
    | act h he => exact fstate_set h (.act ..)
    | crash h he => exact fstate_set h (.crash ..)
    | forkPut h => exact fstate_set h (.forkPut ..)
    | put h hs =>
      refine fstate_set h (.put _ ?_)
      cases hs with
      | move i h he => exact ⟨i, _, _, h, .act .., rfl⟩
      | panic i h he => exact ⟨i, _, _, h, .crash .., rfl⟩
      | env h => exact h.elim
    | putPanic h he => exact fstate_set h (.putPanic ..)
    | putJoin h hd => exact fstate_set h (.putJoin ..)
    | forkSearch h => exact fstate_set h (.forkSearch ..)
    | search h hs =>
      refine fstate_set h (.search _ _ _ _ _ _ _ ?_)
      cases hs with
      | eval i h hp he => exact ⟨i, _, _, h, .eval .., rfl⟩
      | panic i h hp he => exact ⟨i, _, _, h, .panic .., rfl⟩
      | lock i h hl => exact ⟨i, _, _, h, .lock .., rfl⟩
      | append i h => exact ⟨i, _, _, h, .append .., rfl⟩
      | unlock i h => exact ⟨i, _, _, h, .unlock, rfl⟩
      | env h => exact h.elim
    | searchPanic h he => exact fstate_set h (.searchPanic ..)
    | searchJoin h hd => exact fstate_set h (.searchJoin ..)
  exact hsub.wf (InvImage.wf _ ⟨list_acc fstate_acc⟩)

/-! ## Races -/

theorem var_indices_w {β : Type} {a : Act β} {v : Var} (h : a.writesVar = some v) :
    a.writes = some (match v with | .aliases => .aliases | .arrays => .arrays | _ => Loc.indices) ∧ ∀ t, v ≠ .result t := by
  cases a <;> simp only [Act.writesVar, Option.some.injEq, reduceCtorEq] at h <;> subst h <;> exact ⟨rfl, fun t => by simp⟩

theorem var_indices_r {β : Type} {a : Act β} {v : Var} (h : a.readsVar = some v) :
    a.reads = some (match v with | .aliases => .aliases | .arrays => .arrays | _ => Loc.indices) ∧ ∀ t, v ≠ .result t := by
  cases a <;> simp only [Act.readsVar, Option.some.injEq, reduceCtorEq] at h <;> subst h <;> exact ⟨rfl, fun t => by simp⟩

theorem gAt_var {p : Ptr} {doc : DocRequest} {mi mi' : MemoryIndex} {β : Type} {a : Act β} {k : β → Prog Unit} {n : Nat}
    (h : GAt cfg p doc mi (.act a k) mi' n) : a.readsVar = none ∧ a.writesVar = some (.index p) := by
  generalize hg : Prog.act a k = g at h
  cases h with
  | start => cases hg; exact ⟨rfl, rfl⟩
  | post done rest hd =>
    cases rest with
    | nil => cases hg
    | cons x rest => cases hg; exact ⟨rfl, rfl⟩

/-- Whose turn it is to access what, in the configuration without interleaved goroutines. -/
def VarHeld (H : Tid → Held) (y : Thread) (t : Tid) (write : Bool) : Var → Prop
  | .names | .index _ => if write then (H t).imu = .write else (H t).imu.shared = true
  | .aliases => if write then y.writes = some .aliases else y.reads = some .aliases
  | .arrays => if write then y.writes = some .arrays else y.reads = some .arrays
  | .result u => u = t

/-- The state of a goroutine of `Put`. -/
theorem pool_at {doc : DocRequest} {s s0 : Shared} {ps : List Ptr} {gs : List (Prog Unit)} {ns : List Nat}
    (hinv : PoolInv cfg doc s0 ps { sh := s, gs := gs } ns) {j : Nat} {g : Prog Unit} (hj : gs[j]? = some g) :
    ∃ p mi mi' n, ps[j]? = some p ∧ GAt cfg p doc mi g mi' n := by
  have hj' := (List.getElem?_eq_some_iff.1 hj).1
  have hl : j < ps.length := Nat.lt_of_lt_of_eq hj' hinv.len
  have hl' : j < ns.length := by rw [hinv.nlen]; exact hl
  obtain ⟨mi, mi', _, _, hga⟩ := hinv.at_ j _ _ _ (List.getElem?_eq_getElem hl) hj (List.getElem?_eq_getElem hl')
  exact ⟨_, mi, mi', _, List.getElem?_eq_getElem hl, hga⟩

theorem sim_access {c : FConfig} {d : Config} {G : Tid → Ghost} {H : Tid → Held} (sim : Sim cfg c d G)
    (i : LockInv d H) (w : WholeInv (fun _ => True) cfg.tok d H) {t : Tid} {x : FThread} {y : Thread}
    (hx : c.calls[t]? = some x) (hy : d.calls[t]? = some y) (g : Agent) (v : Var) :
    (x.writes t g = some v → VarHeld H y t true v ∧ ((v = .aliases ∨ v = .arrays) → g = none)) ∧
    (x.reads t g = some v → VarHeld H y t false v ∧ ((v = .aliases ∨ v = .arrays) → g = none)) := by
  obtain ⟨y', hy', hop, hor, hst⟩ := sim.call t x hx
  rw [hy] at hy'; cases hy'
  have hgood := i.good t y hy
  obtain ⟨xop, xo, st⟩ := x
  simp only at hop hor hst
  generalize hg : G t = gh at hst
  generalize hp : y.prog = p at hst
  cases hst with
  | run p hdis =>
    cases g with
    | some j => exact ⟨fun h => (by cases h), fun h => (by cases h)⟩
    | none =>
      cases p with
      | act a k =>
        rw [hp] at hgood
        refine ⟨fun h => ⟨?_, fun _ => rfl⟩, fun h => ⟨?_, fun _ => rfl⟩⟩
        · have h := var_indices_w (a := a) h
          have hyw : y.writes = a.writes := by unfold Thread.writes; rw [hp]; rfl
          cases v with
          | names => exact good_writes hgood h.1
          | index p => exact good_writes hgood h.1
          | aliases => exact hyw.trans h.1
          | arrays => exact hyw.trans h.1
          | result u => exact absurd rfl (h.2 u)
        · have h := var_indices_r (a := a) h
          have hyw : y.reads = a.reads := by unfold Thread.reads; rw [hp]; rfl
          cases v with
          | names => exact good_reads hgood h.1
          | index p => exact good_reads hgood h.1
          | aliases => exact hyw.trans h.1
          | arrays => exact hyw.trans h.1
          | result u => exact absurd rfl (h.2 u)
      | _ => exact ⟨fun h => (by cases h), fun h => (by cases h)⟩
  | putting ps doc gs ns k hnd hk hinv =>
    cases g with
    | none => exact ⟨fun h => (by cases h), fun h => (by cases h)⟩
    | some j =>
      constructor
      · intro h
        simp only [FThread.writes] at h
        split at h
        · next a k' hj =>
          obtain ⟨p, _, _, _, hpj, hga⟩ := pool_at hinv hj
          rw [(gAt_var hga).2] at h
          cases h
          exact ⟨(fork_put i w hy hp (List.mem_of_getElem? hpj)).1, fun h => by rcases h with h | h <;> cases h⟩
        · cases h
      · intro h
        simp only [FThread.reads] at h
        split at h
        · next a k' hj =>
          obtain ⟨p, _, _, _, hpj, hga⟩ := pool_at hinv hj
          rw [(gAt_var hga).1] at h
          cases h
        · cases h
  | searching ps result rl gs terms engine order k hk hinv =>
    cases g with
    | none =>
      refine ⟨fun h => (by cases h), fun h => ?_⟩
      simp only [FThread.reads] at h
      split at h
      · cases h; exact ⟨rfl, fun _ => rfl⟩
      · cases h
    | some j =>
      constructor
      · intro h
        simp only [FThread.writes] at h
        split at h
        · cases h; exact ⟨rfl, fun h => by rcases h with h | h <;> cases h⟩
        · cases h
      · intro h
        simp only [FThread.reads] at h
        split at h
        · next p hj =>
          cases h
          have hm := List.mem_of_getElem? (hinv.start j p hj)
          exact ⟨(fork_search i w hy hp hm).1, fun h => by rcases h with h | h <;> cases h⟩
        · cases h

/-- The goroutines of one call do not race. -/
theorem sim_own {c : FConfig} {d : Config} {G : Tid → Ghost} (sim : Sim cfg c d G) {t : Tid} {x : FThread}
    (hx : c.calls[t]? = some x) {g h : Agent} (hgh : g ≠ h) {v : Var} (hw : x.writes t g = some v)
    (ho : x.reads t h = some v ∨ x.writes t h = some v) : False := by
  obtain ⟨y, hy, hop, hor, hst⟩ := sim.call t x hx
  obtain ⟨xop, xo, st⟩ := x
  simp only at hop hor hst
  generalize hg : G t = gh at hst
  generalize hp : y.prog = p at hst
  cases hst with
  | run p hdis =>
    cases g with
    | some j => cases hw
    | none =>
      cases h with
      | none => exact hgh rfl
      | some j => rcases ho with ho | ho <;> cases ho
  | putting ps doc gs ns k hnd hk hinv =>
    cases g with
    | none => cases hw
    | some i =>
      cases h with
      | none => rcases ho with ho | ho <;> cases ho
      | some j =>
        simp only [FThread.writes, FThread.reads] at hw ho
        split at hw
        case h_2 => cases hw
        next a k1 h1 =>
        split at ho
        case h_2 => rcases ho with ho | ho <;> cases ho
        next a' k2 h2 =>
        obtain ⟨p, _, _, _, hp1, hga1⟩ := pool_at hinv h1
        obtain ⟨q, _, _, _, hq1, hga2⟩ := pool_at hinv h2
        rw [(gAt_var hga1).2] at hw
        rw [(gAt_var hga2).1, (gAt_var hga2).2] at ho
        cases hw
        rcases ho with ho | ho
        · cases ho
        · cases ho
          obtain ⟨l1, e1⟩ := List.getElem?_eq_some_iff.1 hp1
          obtain ⟨l2, e2⟩ := List.getElem?_eq_some_iff.1 hq1
          exact hgh (congrArg some (nodup_pos hnd l1 l2 (e1.trans e2.symm)))
  | searching ps result rl gs terms engine order k hk hinv =>
    cases g with
    | none => cases hw
    | some i =>
      simp only [FThread.writes] at hw
      split at hw
      case h_2 => cases hw
      next sr rest h1 =>
      cases hw
      rcases ho with ho | ho
      · cases h with
        | none =>
          simp only [FThread.reads] at ho
          split at ho
          · next hall => cases hall _ (List.mem_of_getElem? h1)
          · cases ho
        | some j =>
          simp only [FThread.reads] at ho
          split at ho <;> cases ho
      · cases h with
        | none => cases ho
        | some j =>
          simp only [FThread.writes] at ho
          split at ho
          · next _ _ h2 =>
            have e1 := hinv.hold i _ h1
            have e2 := hinv.hold j _ h2
            rw [e1] at e2
            exact hgh e2
          · cases ho

theorem fine_race_only {c : FConfig} (hr : FineReachable cfg c) {t u : Tid} {g h : Agent} {v : Var} {x y : FThread}
    (hne : t ≠ u ∨ g ≠ h) (hx : c.calls[t]? = some x) (hy : c.calls[u]? = some y) (hw : x.writes t g = some v)
    (ho : y.reads u h = some v ∨ y.writes u h = some v) :
    (v = .aliases ∨ v = .arrays) ∧ g = none ∧ h = none ∧
    ((x.op.isRename = true ∧ y.op.isUnAlias = true) ∨ (x.op.isUnAlias = true ∧ y.op.isRename = true)) := by
  obtain ⟨d, G, hd, sim⟩ := sim_reachable hr
  obtain ⟨H, i, w⟩ := nsteps_inv hd
  by_cases htu : t = u
  · subst htu
    rw [hx] at hy; cases hy
    rcases hne with hne | hne
    · exact absurd rfl hne
    · exact (sim_own sim hx hne hw ho).elim
  obtain ⟨x', hx', hopx, _, _⟩ := sim.call t x hx
  obtain ⟨y', hy', hopy, _, _⟩ := sim.call u y hy
  have ax := (sim_access sim i w hx hx' g v).1 hw
  have ay : (VarHeld H y' u false v ∨ VarHeld H y' u true v) ∧ ((v = .aliases ∨ v = .arrays) → h = none) := by
    rcases ho with ho | ho
    · have := (sim_access sim i w hy hy' h v).2 ho; exact ⟨Or.inl this.1, this.2⟩
    · have := (sim_access sim i w hy hy' h v).1 ho; exact ⟨Or.inr this.1, this.2⟩
  have excl : (H t).imu = .write → ((H u).imu.shared = true ∨ (H u).imu = .write) → False := by
    intro h1 h2
    refine excl_shared i.link (Ne.symm htu) h1 ?_
    rcases h2 with h2 | h2
    · exact h2
    · rw [h2]; rfl
  have conv : (v = .aliases ∨ v = .arrays) → ∀ l, x'.writes = some l → (y'.reads = some l ∨ y'.writes = some l) →
      (v = .aliases ∨ v = .arrays) ∧ g = none ∧ h = none ∧
      ((x.op.isRename = true ∧ y.op.isUnAlias = true) ∨ (x.op.isUnAlias = true ∧ y.op.isRename = true)) := by
    intro hv l h1 h2
    obtain ⟨_, _, ⟨F, hF⟩, hR⟩ := nsteps_reachable hd
    have := race_only (hR F hF) htu (withSchedules_get hx') (withSchedules_get hy') h1 h2
    rw [← hopx, ← hopy]
    exact ⟨hv, ax.2 hv, ay.2 hv, this.1⟩
  cases v with
  | names => exact (excl ax.1 ay.1).elim
  | index p => exact (excl ax.1 ay.1).elim
  | aliases => exact conv (Or.inl rfl) .aliases ax.1 ay.1
  | arrays => exact conv (Or.inr rfl) .arrays ax.1 ay.1
  | result r =>
    have e1 : r = t := ax.1
    have e2 : r = u := ay.1.elim id id
    exact absurd (e1.symm.trans e2) htu

/-! ## Playing schedules -/

/-- One scheduled step; `none` if it is not possible. -/
def FConfig.next (cfg : Cfg) (c : FConfig) : FSched → Option FConfig
  | .call op o => some { c with calls := c.calls ++ [{ op := op, oracle := o, st := .run (op.fine cfg) }] }
  | .go t =>
    match c.calls[t]? with
    | some { op := op, oracle := o, st := .run (.act a k) } =>
      match exec cfg o t a c.sh with
      | .ok b s' => some { sh := s', calls := c.calls.set t { op := op, oracle := o, st := .run (k b) } }
      | .blocked => none
      | .crash e => some { sh := c.sh, calls := c.calls.set t { op := op, oracle := o, st := .run (.crash e) } }
    | some { op := op, oracle := o, st := .run (.forkPut ps doc k) } =>
      some { sh := c.sh, calls := c.calls.set t { op := op, oracle := o, st := .putting (putPool cfg doc c.sh ps).gs k } }
    | some { op := op, oracle := o, st := .run (.forkSearch ps terms engine k) } =>
      some { sh := c.sh, calls := c.calls.set t
              { op := op, oracle := o, st := .searching [] none (searchPool c.sh ps).gs terms engine k } }
    | some { op := op, oracle := o, st := .putting gs k } =>
      if Pool.doneB { sh := c.sh, gs := gs } then
        some { sh := c.sh, calls := c.calls.set t { op := op, oracle := o, st := .run k } }
      else none
    | some { op := op, oracle := o, st := .searching result _ gs _ _ k } =>
      if ∀ g ∈ gs, g = .done then
        some { sh := c.sh, calls := c.calls.set t { op := op, oracle := o, st := .run (k result) } }
      else none
    | _ => none
  | .sub t i =>
    match c.calls[t]? with
    | some { op := op, oracle := o, st := .putting gs k } =>
      match Pool.next cfg o t { sh := c.sh, gs := gs } i with
      | some p => some { sh := p.sh, calls := c.calls.set t { op := op, oracle := o, st := .putting p.gs k } }
      | none => none
    | some { op := op, oracle := o, st := .searching result rl gs terms engine k } =>
      match SearchPool.next cfg terms engine { sh := c.sh, result := result, rl := rl, gs := gs } i with
      | some p =>
        some { sh := c.sh, calls := c.calls.set t
                { op := op, oracle := o, st := .searching p.result p.rl p.gs terms engine k } }
      | none => none
    | _ => none

/-- A whole schedule. -/
def FConfig.play (cfg : Cfg) (c : FConfig) : List FSched → Option FConfig
  | [] => some c
  | x :: xs =>
    match c.next cfg x with
    | some c' => c'.play cfg xs
    | none => none

theorem FSteps.front {c c' c'' : FConfig} (hs : FStep cfg c c') (h : FSteps cfg c' c'') : FSteps cfg c c'' := by
  induction h with
  | refl => exact .tail (.refl _) hs
  | tail _ hs ih => exact .tail ih hs

theorem next_poolStep {o : Oracle} {t : Tid} {env : Shared → Shared → Prop} {c c' : Pool} {i : Nat}
    (h : c.next cfg o t i = some c') : PoolStep cfg o t env c c' := by
  obtain ⟨s, gs⟩ := c
  unfold Pool.next at h
  split at h
  · next a k hg =>
    split at h
    · next b s' he => cases h; exact .move i hg he
    · cases h
  · cases h

theorem next_sameSh {terms : Str} {engine : Engine} {c c' : SearchPool} {i : Nat}
    (h : c.next cfg terms engine i = some c') : c'.sh = c.sh :=
  (search_left (next_searchStep h)).1

theorem next_fstep {c c' : FConfig} {x : FSched} (hx : c.next cfg x = some c') : FStep cfg c c' := by
  obtain ⟨s, calls⟩ := c
  cases x with
  | call op o => cases hx; exact .invoke _ op o
  | go t =>
    simp only [FConfig.next] at hx
    split at hx
    · next op o β a k hc =>
      split at hx
      · next b s' he => cases hx; exact .move t (.act hc he)
      · cases hx
      · next e he => cases hx; exact .move t (.crash hc he)
    · next hc => cases hx; exact .move t (.forkPut hc)
    · next hc => cases hx; exact .move t (.forkSearch hc)
    · next hc =>
      split at hx
      · next hd => cases hx; exact .move t (.putJoin hc (doneB_done hd))
      · cases hx
    · next hc =>
      split at hx
      · next hd => cases hx; exact .move t (.searchJoin hc hd)
      · cases hx
    · cases hx
  | sub t i =>
    simp only [FConfig.next] at hx
    split at hx
    · next hc =>
      split at hx
      · next p hp => cases hx; exact .move t (.put hc (next_poolStep hp))
      · cases hx
    · next hc =>
      split at hx
      · next p hp =>
        have := next_sameSh hp
        obtain ⟨ps, r, rl, gs⟩ := p
        simp only at this
        subst this
        cases hx; exact .move t (.search hc (next_searchStep hp))
      · cases hx
    · cases hx

theorem play_fsteps {c c' : FConfig} {xs : List FSched} (h : c.play cfg xs = some c') : FSteps cfg c c' := by
  induction xs generalizing c with
  | nil => cases h; exact .refl _
  | cons x xs ih =>
    simp only [FConfig.play] at h
    split at h
    · next c1 hx => exact .front (next_fstep hx) (ih h)
    · cases h

end Visigoth
