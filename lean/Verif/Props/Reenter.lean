import Verif.Proofs.Reenter
import Verif.Props.RepoExact
/-!
# C80: engines and tokenizers that call the repository
-/
namespace Visigoth

variable {cfg : Cfg}

/-! ## Without calls, nothing new -/

private theorem searchAllC_ret (ts : Str) (e : Engine) (ps : List Ptr) :
    Repo.searchAllC cfg ts (fun _ => .ret e) ps = Repo.searchAll ts e ps := by
  induction ps with
  | nil => rfl
  | cons p ps ih => simp only [Repo.searchAllC, ih]; rfl

private theorem putAllC_ret (doc : DocRequest) (ps : List Ptr) :
    Repo.putAllC cfg doc (.ret ()) ps = Repo.putAll cfg doc ps := by
  induction ps with
  | nil => rfl
  | cons p ps ih => simp only [Repo.putAllC, ih]; rfl

/-- With an engine or tokenizer that makes no calls, `Search` and `Put` are the methods of
`Model/Repo.lean`. -/
theorem C80_without_calls (n : Name) (ts : Str) (e : Engine) (d : DocRequest) :
    COp.prog cfg (.search n ts fun _ => .ret e) = Op.prog cfg (.search n ts e) ∧
    COp.prog cfg (.put n d (.ret ())) = Op.prog cfg (.put n d) := by
  have h1 : ∀ is, Repo.searchTargetsC cfg is ts (fun _ => .ret e) = Repo.searchTargets is ts e := by
    intro is
    unfold Repo.searchTargetsC Repo.searchTargets
    cases Repo.nonNil is with
    | none => rfl
    | some ps =>
      match ps with
      | [] => simp only [searchAllC_ret]
      | [p] => rfl
      | p :: q :: ps => simp only [searchAllC_ret]
  have h2 : ∀ is, Repo.putTargetsC cfg is d (.ret ()) = Repo.putTargets cfg is d := by
    intro is
    unfold Repo.putTargetsC Repo.putTargets
    cases Repo.nonNil is with
    | none => rfl
    | some ps => simp only [putAllC_ret]
  constructor
  · simp only [COp.prog, Op.prog, Repo.searchC, Repo.search, h1]
    rfl
  · simp only [COp.prog, Op.prog, Repo.putC, Repo.put, h2]
    rfl

/-! ## Waiting for oneself -/

/-- A call that holds a read lock and asks for the mutex again, by a read lock while another call waits
to write or by a write lock of its own, never moves again; nor does the waiting call. -/
theorem C80_nested_forever {P : COp → Prop} {c c' : Config} {m : Mu} {t w : Tid} (hr : t ∈ (c.sh.mu m).readers)
    (hw : (c.sh.mu m).writer = some w) (hwait : ∃ y, c.calls[w]? = some y ∧ y.awaits = some m)
    (hagain : t = w ∨ ∃ x, c.calls[t]? = some x ∧ x.takes = some m) (hs : CSteps cfg P c c') :
    c'.calls[t]? = c.calls[t]? ∧ c'.calls[w]? = c.calls[w]? := by
  have key : Frozen c' m t w ∧ c'.calls[t]? = c.calls[t]? ∧ c'.calls[w]? = c.calls[w]? := by
    induction hs with
    | refl => exact ⟨⟨hr, hw, hwait, hagain⟩, rfl, rfl⟩
    | tail _ hs ih =>
      obtain ⟨f, e1, e2⟩ := ih
      cases hs with
      | move u h =>
        obtain ⟨f', e3, e4⟩ := frozen_move f h
        exact ⟨f', e3.trans e1, e4.trans e2⟩
      | invoke x o hx =>
        have f' := frozen_add f (x.thread cfg o)
        obtain ⟨y, hy, _⟩ := f.waits
        have old : ∀ {u : Tid} {z : Thread}, ‹Config›.calls[u]? = some z →
            (‹Config›.calls ++ [x.thread cfg o])[u]? = some z := by
          intro u z h
          rw [List.getElem?_append_left (List.getElem?_eq_some_iff.1 h).1]; exact h
        refine ⟨f', ?_, ?_⟩
        · rcases f.again with rfl | ⟨z, hz, _⟩
          · rw [← e1, hy]; exact old hy
          · rw [← e1, hz]; exact old hz
        · rw [← e2, hy]; exact old hy
  exact key.2

/-- A call that holds a write lock and asks for the mutex again never moves again. -/
theorem C80_under_write_forever {P : COp → Prop} {c c' : Config} {m : Mu} {t : Tid} {x : Thread}
    (hw : (c.sh.mu m).writer = some t) (hx : c.calls[t]? = some x) (ht : x.takes = some m) (hs : CSteps cfg P c c') :
    c'.calls[t]? = some x := by
  have key : (c'.sh.mu m).writer = some t ∧ c'.calls[t]? = some x := by
    induction hs with
    | refl => exact ⟨hw, hx⟩
    | tail _ hs ih =>
      obtain ⟨h1, h2⟩ := ih
      cases hs with
      | move u h =>
        have hu : u ≠ t := by rintro rfl; exact takes_blocked h2 ht h1 h
        obtain ⟨_, _, _, _, _, _, _, hk⟩ := tstep_cases h
        exact ⟨(tstep_keeps hu h m).2 h1, by rw [hk t (Ne.symm hu)]; exact h2⟩
      | invoke y o hy =>
        exact ⟨h1, by rw [List.getElem?_append_left (List.getElem?_eq_some_iff.1 h2).1]; exact h2⟩
  exact key.2

/-! ## Which calls are safe -/

private theorem only_mono {P P' : Op → Prop} (h : ∀ op, P op → P' op) {α : Type} (k : Client α) (hk : k.Only P) : k.Only P' := by
  induction k with
  | ret => trivial
  | call op f ih => exact ⟨h op hk.1, fun r => ih r (hk.2 r)⟩

private theorem lockInv_only {P Q : Op → Prop} (hP : ∀ op, P op → op.aliasOnly) (hQ : ∀ op, Q op → op.aliasOnly)
    {c : Config} (hr : CSteps cfg (COp.Only P Q) Config.init c) : ∃ H, LockInv c H :=
  lockInv_client (P := COp.Only P Q) (by
    intro x hx
    cases x with
    | plain op => trivial
    | search n ts e => exact fun p => only_mono hP _ (hx p)
    | put n d t => exact only_mono hQ _ hx) hr

/-- Engines and tokenizers that leave the index mutex alone cause no deadlock, whatever else is going on. -/
theorem C80_no_deadlock_partial {P Q : Op → Prop} (hP : ∀ op, P op → op.aliasOnly) (hQ : ∀ op, Q op → op.aliasOnly)
    {c : Config} (hr : CSteps cfg (COp.Only P Q) Config.init c) : ¬ c.deadlock cfg := by
  rintro ⟨⟨t, x, hx, hrun⟩, hstop, hl⟩
  obtain ⟨H, i⟩ := lockInv_only hP hQ hr
  obtain ⟨u, hu⟩ := no_deadlock_inv i hl hx hrun
  exact hstop u hu

/-- Nor do they cause races: as without them, only `Rename` and `UnAlias` race. -/
theorem C80_races {P Q : Op → Prop} (hP : ∀ op, P op → op.aliasOnly) (hQ : ∀ op, Q op → op.aliasOnly)
    {c : Config} (hr : CSteps cfg (COp.Only P Q) Config.init c) {t u : Tid} {l : Loc} (h : c.race t u l) :
    l ≠ .indices ∧ ∃ x y, c.calls[t]? = some x ∧ c.calls[u]? = some y ∧
      ((x.op.isRename = true ∧ y.op.isUnAlias = true) ∨ (x.op.isUnAlias = true ∧ y.op.isRename = true)) := by
  obtain ⟨htu, x, y, hx, hy, hw, ho⟩ := h
  obtain ⟨H, i⟩ := lockInv_only hP hQ hr
  obtain ⟨h1, h2⟩ := race_only_inv i htu hx hy hw ho
  exact ⟨h2, x, y, hx, hy, h1⟩

/-- All other calls start by taking the index mutex. -/
private theorem starts (op : Op) (h : ¬ op.aliasOnly) :
    (∃ k, op.prog cfg = .act (.rlock .indices) k) ∨
    ∃ k, op.prog cfg = .act (.announce .indices) fun _ => .act (.acquire .indices) k := by
  cases op with
  | listAliases => exact absurd trivial h
  | hasAlias n => exact absurd trivial h
  | rename o n => exact Or.inr ⟨_, rfl⟩
  | unAlias a i =>
    have : i.length ≠ 0 := by
      cases i with
      | nil => exact absurd rfl h
      | cons b bs => simp
    refine Or.inl ?_
    simp only [Op.prog, Repo.unAlias, if_neg this]
    exact ⟨_, rfl⟩
  | _ => exact Or.inl ⟨_, rfl⟩

/-- A document. -/
private def doc0 : DocRequest := newDocRequest [] []

/-- A search of the index named by the empty string whose engine makes the call `op`. -/
private def asking (op : Op) : COp := .search [] [] fun _ => .call op fun _ => .ret noopZeroSearch

private theorem asking_read {op : Op} {k : Unit → Prog Ret} (h : op.prog cfg = .act (.rlock .indices) k) :
    ∃ K, (asking op).prog cfg = .act (.rlock .indices) (fun _ => .act (.idxGet []) K) ∧
      ∀ p, ∃ k', K (some p) = .act (.rlock .indices) k' := by
  refine ⟨_, rfl, fun p => ?_⟩
  show ∃ k', ((Client.prog cfg (.call op fun _ => .ret noopZeroSearch) >>= fun e => Repo.searchIndex p [] e) >>= _) >>= _ = _
  simp only [Client.prog, h]
  exact ⟨_, rfl⟩

private theorem asking_rename {op : Op} {k : Unit → Prog Ret}
    (h : op.prog cfg = .act (.announce .indices) fun _ => .act (.acquire .indices) k) :
    ∃ K, (asking op).prog cfg = .act (.rlock .indices) (fun _ => .act (.idxGet []) K) ∧
      ∀ p, ∃ k', K (some p) = .act (.announce .indices) (fun _ => .act (.acquire .indices) k') := by
  refine ⟨_, rfl, fun p => ?_⟩
  show ∃ k', ((Client.prog cfg (.call op fun _ => .ret noopZeroSearch) >>= fun e => Repo.searchIndex p [] e) >>= _) >>= _ = _
  simp only [Client.prog, h]
  exact ⟨_, rfl⟩

/-- After one `Put` nothing is locked and the index exists. -/
private theorem one_put (cfg : Cfg) (P : COp → Prop) (hP : ∀ op, P (.plain op)) : ∃ s r p,
    CSteps cfg P Config.init { sh := s, calls := [⟨.put [] doc0, sampleOracle, .ret r⟩] } ∧
    s.indices.get [] = some p ∧ s.imu = { readers := [], writer := none } ∧ s.amu = { readers := [], writer := none } := by
  have h := refine_op (o := sampleOracle) (t := 0) (abs_empty cfg) (.put [] doc0)
  cases hr : run cfg sampleOracle 0 (Op.prog cfg (.put [] doc0)) newIndexRepo with
  | hang s => rw [hr] at h; simp [Refines, SpecState.hangs, SpecState.empty] at h
  | crash e => rw [hr] at h; simp [Refines, SpecState.crashes, SpecState.resolve, SpecState.empty] at h
  | ok r s =>
    rw [hr] at h
    obtain ⟨_, _, _, ha, _⟩ := h
    have hget : (s.indices.get []).isSome = true := by
      rw [ha.idx.isSome]
      simp [SpecState.next, SpecState.resolve, SpecState.empty, upd]
    obtain ⟨p, hp⟩ := Option.isSome_iff_exists.1 hget
    refine ⟨s, r, p, ?_, hp, ?_, ?_⟩
    · refine csteps_trans (.tail (.refl _) (.invoke _ (.plain (.put [] doc0)) sampleOracle (hP _))) ?_
      exact run_csteps (t := 0) (op := .put [] doc0) (o := sampleOracle) (Op.prog cfg (.put [] doc0))
        (c := { sh := newIndexRepo, calls := [⟨.put [] doc0, sampleOracle, Op.prog cfg (.put [] doc0)⟩] }) rfl hr
    · have h1 := ha.imuR
      have h2 := ha.imuW
      cases hm : s.imu with
      | mk R W =>
      rw [hm] at h1 h2
      simp only [SpecState.next, SpecState.resolve, SpecState.empty] at h1
      simp only at h2
      have : R = [] := List.length_eq_zero_iff.1 (by simpa using h1)
      rw [this, h2]
    · have h1 := ha.amuR
      have h2 := ha.amuW
      cases hm : s.amu with
      | mk R W =>
      rw [hm] at h1 h2
      simp only [SpecState.next, SpecState.resolve, SpecState.empty] at h2
      simp only at h1
      have : W = none := by simpa using h2
      rw [this, h1]

private theorem calls2 {x y : Thread} {t : Tid} {z : Thread} (h : [x, y][t]? = some z) : (t = 0 ∧ z = x) ∨ (t = 1 ∧ z = y) := by
  match t with
  | 0 => exact Or.inl ⟨rfl, by simpa using h.symm⟩
  | 1 => exact Or.inr ⟨rfl, by simpa using h.symm⟩
  | t + 2 => simp at h

private theorem calls3 {x y w : Thread} {t : Tid} {z : Thread} (h : [x, y, w][t]? = some z) :
    (t = 0 ∧ z = x) ∨ (t = 1 ∧ z = y) ∨ (t = 2 ∧ z = w) := by
  match t with
  | 0 => exact Or.inl ⟨rfl, by simpa using h.symm⟩
  | 1 => exact Or.inr (Or.inl ⟨rfl, by simpa using h.symm⟩)
  | 2 => exact Or.inr (Or.inr ⟨rfl, by simpa using h.symm⟩)
  | t + 3 => simp at h

private theorem running_takes {x : Thread} {m : Mu} (h : x.takes = some m) : x.running := by
  obtain ⟨op, o, p⟩ := x
  cases p with
  | act a k => trivial
  | ret r => cases h
  | crash e => cases h

private theorem running_awaits {x : Thread} {m : Mu} (h : x.awaits = some m) : x.running := by
  obtain ⟨op, o, p⟩ := x
  cases p with
  | act a k => trivial
  | ret r => cases h
  | crash e => cases h

private theorem deadlock3 {s : Shared} {x y z : Thread} (hx : ¬ x.running) (hy : y.takes = some .indices)
    (hz : z.awaits = some .indices) (hi : s.imu = { readers := [1], writer := some 2 })
    (ha : s.amu = { readers := [], writer := none }) : Config.deadlock cfg { sh := s, calls := [x, y, z] } := by
  refine ⟨⟨1, y, rfl, running_takes hy⟩, ?_, ?_⟩
  · rintro t ⟨c', h⟩
    obtain ⟨op, o, β, a, k, hg, _⟩ := tstep_cases h
    rcases calls3 hg with ⟨rfl, h1⟩ | ⟨rfl, _⟩ | ⟨rfl, _⟩
    · exact hx (h1 ▸ trivial)
    · exact takes_blocked (m := .indices) (w := 2) (x := y) rfl hy (by simp [Shared.mu, hi]) h
    · exact awaits_blocked (m := .indices) (t := 1) (x := z) rfl hz (by simp [Shared.mu, hi]) (by simp [Shared.mu, hi]) h
  · rintro ⟨t, w, m, hg, hrun, hh⟩
    rcases calls3 hg with ⟨rfl, _⟩ | ⟨rfl, rfl⟩ | ⟨rfl, rfl⟩
    · cases m <;> simp [Shared.holds, Shared.mu, hi, ha] at hh
    · exact hrun (running_takes hy)
    · exact hrun (running_awaits hz)

private theorem deadlock2 {s : Shared} {x y : Thread} (hx : ¬ x.running) (hy : y.awaits = some .indices)
    (hi : s.imu = { readers := [1], writer := some 1 }) (ha : s.amu = { readers := [], writer := none }) :
    Config.deadlock cfg { sh := s, calls := [x, y] } := by
  refine ⟨⟨1, y, rfl, running_awaits hy⟩, ?_, ?_⟩
  · rintro t ⟨c', h⟩
    obtain ⟨op, o, β, a, k, hg, _⟩ := tstep_cases h
    rcases calls2 hg with ⟨rfl, h1⟩ | ⟨rfl, _⟩
    · exact hx (h1 ▸ trivial)
    · exact awaits_blocked (m := .indices) (t := 1) (x := y) rfl hy (by simp [Shared.mu, hi]) (by simp [Shared.mu, hi]) h
  · rintro ⟨t, w, m, hg, hrun, hh⟩
    rcases calls2 hg with ⟨rfl, _⟩ | ⟨rfl, rfl⟩
    · cases m <;> simp [Shared.holds, Shared.mu, hi, ha] at hh
    · exact hrun (running_awaits hy)

/-- An engine that makes any other call deadlocks, with one `Rename` beside it. -/
private theorem engine_deadlock (cfg : Cfg) {P Q : Op → Prop} {op : Op} (hop : ¬ op.aliasOnly) (hP : P op) :
    ∃ c, CSteps cfg (COp.Only P Q) Config.init c ∧ c.deadlock cfg := by
  obtain ⟨s, r, p, h0, hp, hi, ha⟩ := one_put cfg (COp.Only P Q) (fun _ => trivial)
  have hask : COp.Only P Q (asking op) := fun _ => ⟨hP, fun _ => trivial⟩
  rcases starts (cfg := cfg) op hop with ⟨k, hk⟩ | ⟨k, hk⟩
  · obtain ⟨K, hK, hK'⟩ := asking_read hk
    obtain ⟨k', hk'⟩ := hK' p
    have h1 := CSteps.tail h0 (.invoke _ (asking op) sampleOracle hask)
    have h2 := CSteps.tail h1 (.move 1 (.act (cfg := cfg) (t := 1) (op := (asking op).op) (o := sampleOracle) (a := .rlock .indices)
      (k := fun _ => .act (.idxGet []) K) (b := ()) (s' := { s with imu := { readers := [1], writer := none } })
      (by simp [COp.thread, hK]) (by simp [exec, Shared.mu, hi, Shared.setMu])))
    have h3 := CSteps.tail h2 (.move 1 (.act (cfg := cfg) (t := 1) (op := (asking op).op) (o := sampleOracle) (a := .idxGet [])
      (k := K) (b := some p) (by simp) (by simp [exec, hp]; rfl)))
    rw [hk'] at h3
    have h4 := CSteps.tail h3 (.invoke _ (.plain (.rename [] [])) sampleOracle trivial)
    have h5 := CSteps.tail h4 (.move 2 (.act (cfg := cfg) (t := 2) (op := .rename [] []) (o := sampleOracle) (a := .announce .indices)
      (b := ()) (s' := { s with imu := { readers := [1], writer := some 2 } })
      (by simp [COp.thread, COp.prog, COp.op]; rfl) (by simp [exec, Shared.mu, Shared.setMu])))
    exact ⟨_, h5, deadlock3 (fun h => h) rfl rfl rfl ha⟩
  · obtain ⟨K, hK, hK'⟩ := asking_rename hk
    obtain ⟨k', hk'⟩ := hK' p
    have h1 := CSteps.tail h0 (.invoke _ (asking op) sampleOracle hask)
    have h2 := CSteps.tail h1 (.move 1 (.act (cfg := cfg) (t := 1) (op := (asking op).op) (o := sampleOracle) (a := .rlock .indices)
      (k := fun _ => .act (.idxGet []) K) (b := ()) (s' := { s with imu := { readers := [1], writer := none } })
      (by simp [COp.thread, hK]) (by simp [exec, Shared.mu, hi, Shared.setMu])))
    have h3 := CSteps.tail h2 (.move 1 (.act (cfg := cfg) (t := 1) (op := (asking op).op) (o := sampleOracle) (a := .idxGet [])
      (k := K) (b := some p) (by simp) (by simp [exec, hp]; rfl)))
    rw [hk'] at h3
    have h4 := CSteps.tail h3 (.move 1 (.act (cfg := cfg) (t := 1) (op := (asking op).op) (o := sampleOracle) (a := .announce .indices)
      (b := ()) (s' := { s with imu := { readers := [1], writer := some 1 } })
      (by simp; rfl) (by simp [exec, Shared.mu, Shared.setMu])))
    exact ⟨_, h4, deadlock2 (fun h => h) rfl rfl ha⟩

/-- A `Put` whose tokenizer makes the call `op`. -/
private def splitting (op : Op) : COp := .put [] doc0 (.call op fun _ => .ret ())

/-- A tokenizer that makes any other call deadlocks on its own. -/
private theorem splitting_hangs (op : Op) (hop : ¬ op.aliasOnly) :
    ∃ s, run cfg sampleOracle 0 ((splitting op).prog cfg) newIndexRepo = .hang s := by
  simp only [splitting, COp.prog, Repo.putC, Repo.putIndexC, Client.prog]
  rcases starts (cfg := cfg) op hop with ⟨k, hk⟩ | ⟨k, hk⟩ <;> rw [hk] <;> exact ⟨_, rfl⟩

private theorem tokenizer_deadlock (cfg : Cfg) {P Q : Op → Prop} {op : Op} (hop : ¬ op.aliasOnly) (hQ : Q op) :
    ∃ c, CSteps cfg (COp.Only P Q) Config.init c ∧ c.deadlock cfg := by
  obtain ⟨s, hs⟩ := splitting_hangs (cfg := cfg) op hop
  have h1 : CSteps cfg (COp.Only P Q) Config.init { sh := newIndexRepo, calls := [(splitting op).thread cfg sampleOracle] } :=
    .tail (.refl _) (.invoke _ (splitting op) sampleOracle ⟨hQ, fun _ => trivial⟩)
  obtain ⟨β, a, k, h2, hb⟩ := run_hang_csteps (cfg := cfg) (P := COp.Only P Q) (op := (splitting op).op) (o := sampleOracle) (t := 0)
    ((splitting op).prog cfg) (c := { sh := newIndexRepo, calls := [(splitting op).thread cfg sampleOracle] }) rfl hs
  refine ⟨_, csteps_trans h1 h2, ⟨0, _, rfl, trivial⟩, ?_, ?_⟩
  · rintro t ⟨c', h⟩
    obtain ⟨op', o, β', a', k', hg, he, _⟩ := tstep_cases h
    match t with
    | 0 =>
      cases hg
      rcases he with ⟨b, he⟩ | ⟨_, e, he⟩ <;> rw [hb] at he <;> cases he
    | t + 1 => simp [List.set] at hg
  · rintro ⟨t, x, m, hg, hrun, _⟩
    match t with
    | 0 => cases hg; exact hrun trivial
    | t + 1 => simp [List.set] at hg

/-- Exactly: if engines make calls in `P` and tokenizers calls in `Q`, and anything else may go on at the
same time, then no deadlock is possible if and only if all those calls leave the index mutex alone: they are
`HasAlias`, `ListAliases` and `UnAlias` of a whole alias. -/
theorem C80_calls_exact (cfg : Cfg) (P Q : Op → Prop) :
    (∀ c, CSteps cfg (COp.Only P Q) Config.init c → ¬ c.deadlock cfg) ↔
      (∀ op, P op → op.aliasOnly) ∧ ∀ op, Q op → op.aliasOnly := by
  refine ⟨fun h => ⟨fun op hP => Classical.byContradiction fun hop => ?_, fun op hQ => Classical.byContradiction fun hop => ?_⟩,
    fun h c hr => C80_no_deadlock_partial h.1 h.2 hr⟩
  · obtain ⟨c, hc, hd⟩ := engine_deadlock cfg (P := P) (Q := Q) hop hP
    exact h c hc hd
  · obtain ⟨c, hc, hd⟩ := tokenizer_deadlock cfg (P := P) (Q := Q) hop hQ
    exact h c hc hd

/-- False of the code: engines may not make any call they like. -/
theorem C80_refuted (cfg : Cfg) : ¬ ∀ c, CSteps cfg (fun _ => True) Config.init c → ¬ c.deadlock cfg := by
  intro h
  obtain ⟨c, hc, hd⟩ := engine_deadlock cfg (P := fun _ => True) (Q := fun _ => True) (op := .list) id trivial
  refine h c ?_ hd
  clear hd
  induction hc with
  | refl => exact .refl _
  | tail _ hs ih =>
    refine .tail ih ?_
    cases hs with
    | move t h => exact .move t h
    | invoke x o _ => exact .invoke _ x o trivial

/-! ## One caller -/

/-- One more read lock. -/
private def SpecState.more (a : SpecState) : SpecState := { a with leakedReaders := a.leakedReaders + 1 }

private theorem abs_more {s : Shared} {a : SpecState} (h : Abs cfg s a) (t : Tid) :
    Abs cfg (s.setMu .indices { s.imu with readers := t :: s.imu.readers }) a.more := by
  obtain ⟨idx, al, view, imuR, imuW, amuR, amuW⟩ := h
  exact ⟨idx, al, view, by simp [Shared.setMu, SpecState.more, imuR], imuW, amuR, amuW⟩

private theorem next_more (a : SpecState) (op : Op) : a.more.next op = (a.next op).more := by
  cases op with
  | «alias» al i =>
    by_cases h : (a.docs i).isSome = true
    · cases hk : a.aliases al with
      | none => simp [SpecState.next, SpecState.more, h, hk]
      | some l => by_cases hm : i ∈ l <;> simp [SpecState.next, SpecState.more, h, hk, hm]
    · simp [SpecState.next, SpecState.more, h]
  | unAlias al i =>
    by_cases h0 : i = []
    · simp [SpecState.next, SpecState.more, h0]
    · by_cases h : (a.docs i).isSome = true
      · cases hk : a.aliases al <;> simp [SpecState.next, SpecState.more, h0, h, hk]
      · simp [SpecState.next, SpecState.more, h0, h]
  | put n d =>
    have hr : a.more.resolve n = a.resolve n := rfl
    cases hk : a.resolve n <;> simp [SpecState.next, hr, hk] <;> rfl
  | rename o n => cases hk : a.docs o <;> simp [SpecState.next, SpecState.more, hk]
  | drop n => by_cases h : (a.docs n).isSome = true <;> simp [SpecState.next, SpecState.more, h]
  | _ => rfl

/-- A search of an index whose engine makes the call `op` and then searches as `e` of the answer. -/
def nested (n : Name) (ts : Str) (op : Op) (e : Ret → Engine) : COp := .search n ts fun _ => .call op fun r => .ret (e r)

private theorem run_nested {s : Shared} {n : Name} {p : Ptr} (hp : s.indices.get n = some p) (hw : s.imu.writer = none)
    (o : Oracle) (t : Tid) (ts : Str) (op : Op) (e : Ret → Engine) :
    run cfg o t ((nested n ts op e).prog cfg) s
      = (run cfg o t (op.prog cfg) (s.setMu .indices { s.imu with readers := t :: s.imu.readers })).andThen fun r s2 =>
          (run cfg o t (Repo.searchIndex p ts (e r)) s2).andThen fun res s3 =>
            (run cfg o t (perform (.runlock .indices)) s3).andThen fun _ s4 => .ok (.results res) s4 := by
  have h1 : (nested n ts op e).prog cfg = perform (.rlock .indices) >>= fun _ => perform (.idxGet n) >>= fun x =>
      (match x with
      | some i => do
        let res ← Repo.searchTargetsC cfg [some i] ts fun _ => .call op fun r => .ret (e r)
        perform (.runlock .indices)
        return some res
      | none => do
        perform (.rlock .aliases)
        match ← perform (.alGet n) with
        | none =>
          perform (.runlock .aliases)
          perform (.runlock .indices)
          return none
        | some aliasedIndices =>
          let indices ← Repo.resolveFrom aliasedIndices 0 aliasedIndices.len
          perform (.runlock .aliases)
          let res ← Repo.searchTargetsC cfg indices ts fun _ => .call op fun r => .ret (e r)
          perform (.runlock .indices)
          return some res) >>= fun y => match y with
        | some r => return .results r
        | none => return .noIndex := rfl
  rw [h1, run_bind, run_rlock .indices s hw, andThen_ok, run_bind, run_perform]
  have h2 : (s.setMu .indices { s.mu .indices with readers := t :: (s.mu .indices).readers }).indices.get n = some p := hp
  simp only [exec, Exec.outcome, andThen_ok, h2]
  show run cfg o t (((do
        let e ← (Client.call op fun r => .ret (e r)).prog cfg
        Repo.searchIndex p ts e) >>= fun res => perform (.runlock .indices) >>= fun _ => pure (some res)) >>= _) _ = _
  simp only [Client.prog, run_bind]
  show Outcome.andThen _ _ = _
  have hmu : s.mu .indices = s.imu := rfl
  simp only [hmu]
  cases run cfg o t (op.prog cfg) (s.setMu .indices { s.imu with readers := t :: s.imu.readers }) with
  | hang s2 => rfl
  | crash c => rfl
  | ok r s2 =>
    simp only [andThen_ok, run_pure]
    cases run cfg o t (Repo.searchIndex p ts (e r)) s2 with
    | hang s3 => rfl
    | crash c => rfl
    | ok res s3 =>
      simp only [andThen_ok]
      cases run cfg o t (perform (.runlock .indices)) s3 <;> rfl

private theorem searchIndex_outcome {s : Shared} {p : Ptr} {mi : MemoryIndex} (hp : s.heap[p]? = some mi) (o : Oracle) (t : Tid)
    (ts : Str) (e : Engine) : run cfg o t (Repo.searchIndex p ts e) s
      = match mi.search cfg.cp cfg.tok ts e with
        | some res => .ok res s
        | none => .crash .engine := by
  simp only [Repo.searchIndex, run_bind, run_perform, exec, hp, Exec.outcome, andThen_ok]
  cases mi.search cfg.cp cfg.tok ts e <;> rfl

private theorem run_nested_tail {s2 : Shared} {p : Ptr} (o : Oracle) (t : Tid) (ts : Str) (e : Engine) (s' : Shared) :
    ((run cfg o t (Repo.searchIndex p ts e) s2).andThen fun res s3 =>
      (run cfg o t (perform (.runlock .indices)) s3).andThen fun _ s4 => Outcome.ok (Ret.results res) s4) ≠ .hang s' := by
  have h1 : ∀ s', run cfg o t (Repo.searchIndex p ts e) s2 ≠ .hang s' := by
    intro s' h
    simp only [Repo.searchIndex, run_bind, run_perform, exec] at h
    cases hh : s2.heap[p]? with
    | none => rw [hh] at h; cases h
    | some mi =>
      rw [hh] at h
      simp only [Exec.outcome, andThen_ok] at h
      cases hm : mi.search cfg.cp cfg.tok ts e <;> rw [hm] at h <;> cases h
  cases h : run cfg o t (Repo.searchIndex p ts e) s2 with
  | hang s3 => exact absurd h (h1 s3)
  | crash c => intro h; cases h
  | ok res s3 =>
    rw [andThen_ok, run_perform]
    simp only [exec]
    split <;> (intro h; cases h)

/-- One caller: such a search hangs exactly if the call would with a read lock of the index mutex left
behind. -/
theorem C80_alone_hangs {s : Shared} {a : SpecState} (h : Abs cfg s a) {n : Name} (hn : (a.docs n).isSome) (ts : Str)
    (op : Op) (e : Ret → Engine) (o : Oracle) (t : Tid) :
    (∃ s', run cfg o t ((nested n ts op e).prog cfg) s = .hang s') ↔
      SpecState.hangs { a with leakedReaders := a.leakedReaders + 1 } op := by
  rw [← h.idx.isSome] at hn
  obtain ⟨p, hp⟩ := Option.isSome_iff_exists.1 hn
  rw [run_nested hp h.imuW]
  have hr := refine_op (o := o) (t := t) (abs_more h t) op
  cases ho : run cfg o t (op.prog cfg) (s.setMu .indices { s.imu with readers := t :: s.imu.readers }) with
  | hang s2 => rw [ho] at hr; exact ⟨fun _ => hr, fun _ => ⟨s2, rfl⟩⟩
  | crash c => rw [ho] at hr; exact ⟨fun ⟨_, h⟩ => (by cases h), fun h => absurd h hr.1⟩
  | ok r s2 =>
    rw [ho] at hr
    refine ⟨fun ⟨s', h⟩ => ?_, fun h => absurd h hr.1⟩
    rw [andThen_ok] at h
    exact absurd h (run_nested_tail o t ts (e r) s')

/-- As long as no lock is left behind, that is: exactly if the call is a `Put`, a `Rename` or the `Drop` of
an index. -/
theorem C80_alone_hangs_exact {s : Shared} {a : SpecState} (h : Abs cfg s a) (h0 : a.leakedReaders = 0)
    (h1 : a.leakedWriter = false) {n : Name} (hn : (a.docs n).isSome) (ts : Str) (op : Op) (e : Ret → Engine) (o : Oracle) (t : Tid) :
    (∃ s', run cfg o t ((nested n ts op e).prog cfg) s = .hang s') ↔
      (∃ m d, op = .put m d) ∨ (∃ m m', op = .rename m m') ∨ ∃ m, op = .drop m ∧ (a.docs m).isSome := by
  rw [C80_alone_hangs h hn]
  cases op <;> simp [SpecState.hangs, h0, h1]

/-- No action writes the index table or an index. -/
private def Mild {α : Type} : Prog α → Prop
  | .ret _ => True
  | .crash _ => True
  | .act a k => a.writes ≠ some .indices ∧ ∀ b, Mild (k b)

private theorem mild_bind {α β : Type} {f : α → Prog β} {p : Prog α} (h : Mild p) (hf : ∀ a, Mild (f a)) : Mild (p >>= f) := by
  induction p with
  | ret a => exact hf a
  | crash c => trivial
  | act a k ih => exact ⟨h.1, fun b => ih b (h.2 b)⟩

private theorem mild_run {α : Type} {o : Oracle} {t : Tid} {r : α} {s' : Shared} (p : Prog α) (hp : Mild p) :
    ∀ {s : Shared}, run cfg o t p s = .ok r s' → s'.heap = s.heap ∧ s'.indices = s.indices := by
  induction p with
  | ret a => intro s h; cases h; exact ⟨rfl, rfl⟩
  | crash c => intro s h; cases h
  | @act β a k ih =>
    intro s h
    simp only [run] at h
    cases he : exec cfg o t a s with
    | ok b s1 =>
      rw [he] at h
      obtain ⟨h1, h2⟩ := ih b (hp.2 b) h
      have : s1.heap = s.heap ∧ s1.indices = s.indices := by
        have hw := hp.1
        cases a <;> simp only [Act.writes, ne_eq, not_true, reduceCtorEq, not_false_eq_true] at hw <;>
          simp only [exec] at he <;> (repeat' split at he) <;> cases he <;>
          first
          | exact ⟨rfl, rfl⟩
          | (rename_i m _; cases m <;> exact ⟨rfl, rfl⟩)
      exact ⟨h1.trans this.1, h2.trans this.2⟩
    | blocked => rw [he] at h; cases h
    | crash e => rw [he] at h; cases h

private theorem mild_sliceHas (r : SliceRef) (i : Name) (n : Nat) : ∀ j, Mild (Repo.sliceHas r i j n) := by
  induction n with
  | zero => intro j; trivial
  | succ n ih =>
    intro j
    refine ⟨nofun, fun b => ?_⟩
    show Mild (if b = i then _ else _)
    split
    · trivial
    · exact ih _

private theorem mild_readFrom (r : SliceRef) (n : Nat) : ∀ j, Mild (Repo.readFrom r j n) := by
  induction n with
  | zero => intro j; trivial
  | succ n ih =>
    intro j
    exact ⟨nofun, fun b => mild_bind (p := Repo.readFrom r (j + 1) n) (ih _) fun _ => trivial⟩

private theorem mild_alias (al i : Name) : Mild (Op.prog cfg (.alias al i)) := by
  refine mild_bind (p := Repo.alias al i) ⟨nofun, fun _ => ⟨nofun, fun v => ?_⟩⟩ fun _ => trivial
  cases v with
  | none => exact ⟨nofun, fun _ => trivial⟩
  | some p =>
    refine ⟨nofun, fun _ => ⟨nofun, fun _ => ⟨nofun, fun x => ?_⟩⟩⟩
    cases x with
    | none => exact ⟨nofun, fun _ => ⟨nofun, fun _ => ⟨nofun, fun _ => ⟨nofun, fun _ => trivial⟩⟩⟩⟩
    | some r =>
      refine mild_bind (p := Repo.sliceHas r i 0 r.len) (mild_sliceHas r i _ 0) fun b => ?_
      cases b with
      | true => exact ⟨nofun, fun _ => ⟨nofun, fun _ => trivial⟩⟩
      | false => exact ⟨nofun, fun _ => ⟨nofun, fun _ => ⟨nofun, fun _ => ⟨nofun, fun _ => trivial⟩⟩⟩⟩

private theorem mild_unAlias (al i : Name) : Mild (Op.prog cfg (.unAlias al i)) := by
  refine mild_bind (p := Repo.unAlias al i) ?_ fun _ => trivial
  unfold Repo.unAlias
  split
  · exact ⟨nofun, fun _ => ⟨nofun, fun _ => ⟨nofun, fun _ => ⟨nofun, fun _ => ⟨nofun, fun _ => trivial⟩⟩⟩⟩⟩
  · refine ⟨nofun, fun _ => ⟨nofun, fun v => ?_⟩⟩
    cases v with
    | none => trivial
    | some p =>
      refine ⟨nofun, fun _ => ⟨nofun, fun _ => ⟨nofun, fun _ => ⟨nofun, fun x => ?_⟩⟩⟩⟩
      cases x with
      | none => trivial
      | some r =>
        refine mild_bind (p := Repo.readSlice r) (mild_readFrom r _ 0) fun xs => ?_
        dsimp only
        split
        · exact ⟨nofun, fun _ => ⟨nofun, fun _ => ⟨nofun, fun _ => trivial⟩⟩⟩
        · exact ⟨nofun, fun _ => trivial⟩

/-- And if it returns, the call was answered as the specification says, the results are those of the
engine chosen for that answer, and nothing but the call has changed the repository. -/
theorem C80_alone_returns {s s' : Shared} {a : SpecState} (h : Abs cfg s a) {n : Name} (hn : (a.docs n).isSome) {ts : Str}
    {op : Op} {e : Ret → Engine} {o : Oracle} {t : Tid} {r' : Ret}
    (hrun : run cfg o t ((nested n ts op e).prog cfg) s = .ok r' s') :
    ∃ r s2 rs res, a.allows cfg op (Ret.view s2 r) ∧ (a.next op).docs n = some rs ∧
      specSearch cfg rs ts (e r) = some res ∧ r' = .results res ∧ Abs cfg s' (a.next op) := by
  rw [← h.idx.isSome] at hn
  obtain ⟨p, hp⟩ := Option.isSome_iff_exists.1 hn
  rw [run_nested hp h.imuW] at hrun
  have hr := refine_op (o := o) (t := t) (abs_more h t) op
  cases ho : run cfg o t (op.prog cfg) (s.setMu .indices { s.imu with readers := t :: s.imu.readers }) with
  | hang s2 => rw [ho] at hrun; cases hrun
  | crash c => rw [ho] at hrun; cases hrun
  | ok r s2 =>
    rw [ho] at hr hrun
    obtain ⟨hh, hc, hal, hab, hfr⟩ := hr
    rw [next_more] at hab
    have hsame : s2.heap = s.heap ∧ s2.indices = s.indices := by
      by_cases hrd : op.isRead = true
      · rw [hfr.2 hrd]; exact ⟨rfl, rfl⟩
      · cases op with
        | «alias» al i => have := mild_run _ (mild_alias al i) ho; exact ⟨this.1, this.2⟩
        | unAlias al i => have := mild_run _ (mild_unAlias al i) ho; exact ⟨this.1, this.2⟩
        | put m d => exact absurd (Or.inr (Nat.succ_pos _)) hh
        | rename m m' => exact absurd (Nat.succ_pos _) hh
        | drop m =>
          have hm : a.docs m = none := by
            cases hm : a.docs m with
            | none => rfl
            | some rs => exact absurd ⟨by simp [SpecState.more, hm], Or.inl (Nat.succ_pos _)⟩ hh
          have hg : s.indices.get m = none := by
            have := h.idx.isSome m
            rw [hm] at this
            cases hg : s.indices.get m with
            | none => rfl
            | some q => rw [hg] at this; cases this
          simp only [Op.prog, Repo.drop, run_bind, run_perform, exec, Shared.mu, Shared.setMu, h.imuW, if_true, Exec.outcome,
            andThen_ok, hg, List.mem_cons, true_or, run_pure] at ho
          cases ho
          exact ⟨rfl, rfl⟩
        | _ => exact absurd rfl hrd
    obtain ⟨nm, rs, hrs, hheap⟩ := hab.idx.rep n p (by rw [hsame.2]; exact hp)
    rw [andThen_ok, searchIndex_outcome hheap] at hrun
    cases hm : (buildIndex cfg.tok nm rs).search cfg.cp cfg.tok ts (e r) with
    | none => rw [hm] at hrun; cases hrun
    | some res =>
      rw [hm] at hrun
      simp only [andThen_ok, run_perform] at hrun
      cases hx : exec cfg o t (.runlock .indices) s2 with
      | blocked => rw [hx] at hrun; cases hrun
      | crash c => rw [hx] at hrun; cases hrun
      | ok b s4 =>
        rw [hx] at hrun
        simp only [exec] at hx
        split at hx
        · next ht =>
          cases hx
          cases hrun
          refine ⟨r, s2, rs, res, hal, hrs, ?_, rfl, ?_⟩
          · rw [← hm]; exact search_name ..
          · obtain ⟨idx, al, view, imuR, imuW, amuR, amuW⟩ := hab
            refine ⟨idx, al, view, ?_, imuW, amuR, amuW⟩
            show (s2.imu.readers.erase t).length = _
            rw [List.length_erase_of_mem (show t ∈ s2.imu.readers from ht), imuR]
            rfl
        · cases hx

private theorem starts_hang {op : Op} (hop : ¬ op.aliasOnly) {s : Shared} {o : Oracle} {t u : Tid} (h : s.imu.writer = some u) :
    ∃ s', run cfg o t (op.prog cfg) s = .hang s' := by
  rcases starts (cfg := cfg) op hop with ⟨k, hk⟩ | ⟨k, hk⟩
  · rw [hk]
    refine ⟨s, ?_⟩
    simp [run, exec, Shared.mu, h]
  · rw [hk]
    refine ⟨s, ?_⟩
    simp [run, exec, Shared.mu, h]

/-- One caller: a `Put` whose tokenizer starts with a call that does not leave the index mutex alone hangs
unless the name stands for something that crashes it, or for no index at all. -/
theorem C80_alone_put_hangs {s : Shared} {a : SpecState} (h : Abs cfg s a) (n : Name) (d : DocRequest) (op : Op)
    (hop : ¬ op.aliasOnly) (k : Ret → Client Unit) (o : Oracle) (t : Tid) :
    (∃ s', run cfg o t (COp.prog cfg (.put n d (.call op k))) s = .hang s') ↔
      a.hangs (.put n d) ∨ ((∀ c, ¬ a.crashes cfg (.put n d) c) ∧ a.resolve n ≠ some []) := by
  have hR := h.imuR_nil
  have hgi := run_getIndices (o := o) (t := t) h n
  obtain ⟨idx, hal, view, imuR, imuW, amuR, amuW⟩ := h
  simp only [COp.prog, Repo.putC, run_bind]
  by_cases hgo : (a.docs n).isSome ∨ a.leakedWriter = false
  · rw [hgi.1 hgo]
    simp only [andThen_ok]
    by_cases hr : s.imu.readers = []
    · have hnh : ¬ a.hangs (.put n d) := by
        rintro (hh | hh)
        · rcases hgo with h0 | h0
          · rw [hh.1] at h0; simp at h0
          · rw [hh.2] at h0; simp at h0
        · exact hR.1 hr hh
      rw [run_lock .indices]
      case h => exact imuW
      case hr => exact hr
      simp only [andThen_ok, Shared.setMu]
      cases hres : a.resolve n with
      | none =>
        have hnc : ∀ c, ¬ a.crashes cfg (.put n d) c := by
          rintro c ⟨l, h1, _⟩; rw [hres] at h1; simp at h1
        refine ⟨fun _ => Or.inr ⟨hnc, nofun⟩, fun _ => ?_⟩
        simp only [Option.map_none, run_bind]
        rw [run_perform]
        simp only [exec, Exec.outcome, andThen_ok]
        rw [run_perform]
        simp only [exec, Exec.outcome, andThen_ok, Repo.putIndexC, Client.prog, run_bind]
        obtain ⟨s', hs'⟩ := starts_hang (cfg := cfg) hop (o := o) (t := t) (u := t)
          (s := { s with heap := s.heap ++ [newMemoryIndex n], indices := GoMap.set s.indices n s.heap.length,
                         imu := { readers := [], writer := some t } }) rfl
        rw [hs']
        exact ⟨s', rfl⟩
      | some l =>
        simp only [Option.map_some, run_bind, Repo.putTargetsC]
        rw [nonNil_eq]
        by_cases hall : ∀ m ∈ l, (a.docs m).isSome
        · rw [ptrs_of_names idx l hall]
          simp only
          by_cases hnd : l.Nodup
          · rw [if_pos ((nodup_ptrs idx l hall).2 hnd)]
            have hnc : ∀ c, ¬ a.crashes cfg (.put n d) c := by
              rintro c ⟨l', g1, g2⟩
              rw [hres] at g1; injection g1 with g1; subst g1
              rcases g2 with ⟨_, m, hm, hd⟩ | ⟨_, _, hn⟩
              · have := hall m hm; rw [hd] at this; simp at this
              · exact hn hnd
            have hperm := choosePerm_perm o.schedule (l.map fun m => (s.indices.get m).getD 0)
            simp only [run_bind]
            rw [run_perform]
            simp only [exec, Exec.outcome, andThen_ok]
            cases hc : choosePerm o.schedule (l.map fun m => (s.indices.get m).getD 0) with
            | nil =>
              rw [hc] at hperm
              have hl : l = [] := by simpa using hperm.length_eq.symm
              subst hl
              constructor
              · rintro ⟨s', hs'⟩
                simp only [Repo.putAllC, run_pure, andThen_ok] at hs'
                rw [run_unlock .indices _ rfl] at hs'
                cases hs'
              · rintro (h | h)
                · exact absurd h hnh
                · exact absurd rfl h.2
            | cons p ps =>
              rw [hc] at hperm
              refine ⟨fun _ => Or.inr ⟨hnc, ?_⟩, fun _ => ?_⟩
              · intro h
                cases h
                exact absurd hperm.length_eq (by simp)
              · simp only [Repo.putAllC, Repo.putIndexC, Client.prog, run_bind]
                obtain ⟨s', hs'⟩ := starts_hang (cfg := cfg) hop (o := o) (t := t) (u := t)
                  (s := { s with imu := { readers := [], writer := some t } }) rfl
                rw [hs']
                exact ⟨s', rfl⟩
          · rw [if_neg (fun hh => hnd ((nodup_ptrs idx l hall).1 hh))]
            refine ⟨fun ⟨_, h⟩ => (by cases h), ?_⟩
            rintro (h | h)
            · exact absurd h hnh
            · exact absurd ⟨l, hres, Or.inr ⟨rfl, hall, hnd⟩⟩ (h.1 .race)
        · have hex : ∃ m ∈ l, a.docs m = none := by
            apply Classical.byContradiction
            intro hn
            apply hall
            intro m hm
            cases hd : a.docs m with
            | none => exact absurd ⟨m, hm, hd⟩ hn
            | some _ => rfl
          rw [ptrs_none idx l hex]
          refine ⟨fun ⟨_, h⟩ => (by cases h), ?_⟩
          rintro (h | h)
          · exact absurd h hnh
          · exact absurd ⟨l, hres, Or.inl ⟨rfl, hex⟩⟩ (h.1 .nilIndex)
    · obtain ⟨s', hs'⟩ := run_lock_blocked (cfg := cfg) (o := o) (t := t) .indices s (Or.inr hr)
      rw [hs']
      exact ⟨fun _ => Or.inl (Or.inr (Classical.not_not.1 (fun hn => hr (hR.2 hn)))), fun _ => ⟨s', rfl⟩⟩
  · obtain ⟨s', hs'⟩ := hgi.2 hgo
    rw [hs']
    refine ⟨fun _ => Or.inl (Or.inl ⟨?_, ?_⟩), fun _ => ⟨s', rfl⟩⟩
    · cases hd : a.docs n with
      | none => rfl
      | some _ => exact absurd (Or.inl (by rw [hd]; rfl)) hgo
    · cases hw : a.leakedWriter with
      | true => rfl
      | false => exact absurd (Or.inr hw) hgo

/-! ## Examples -/

/-- An index "x" with one document, and an alias "a" of it. -/
private def small : Shared := stateAfter [.put (str "x") docD, .alias (str "a") (str "x")]

/-- What a call returns, or `none` if it does not. -/
private def answer (x : COp) : Option SRet :=
  match run sampleCfg sampleOracle 0 (x.prog sampleCfg) small with
  | .ok r s => some (r.view s)
  | _ => none

private def hangs (x : COp) : Bool :=
  match run sampleCfg sampleOracle 0 (x.prog sampleCfg) small with
  | .hang _ => true
  | _ => false

/-- Searches only if its question is answered with yes. -/
private def ifTrue (r : Ret) : Engine :=
  match r with
  | .bool true => linearSearch
  | _ => noopZeroSearch

example : answer (nested (str "x") (str "java") (.hasAlias (str "a")) ifTrue)
    = some (.results [{ document := { name := str "d", content := str "java" }, hits := 1 }]) ∧
    answer (nested (str "x") (str "java") (.hasAlias (str "b")) ifTrue) = some (.results []) := by decide +kernel

/-- Alone, an engine may read. -/
example : answer (nested (str "x") (str "java") (.has (str "x")) ifTrue)
    = some (.results [{ document := { name := str "d", content := str "java" }, hits := 1 }]) := by decide +kernel

/-- But not write. -/
example : hangs (nested (str "x") (str "java") (.put (str "y") docE) ifTrue) = true ∧
    hangs (nested (str "x") (str "java") (.rename (str "x") (str "y")) ifTrue) = true ∧
    hangs (nested (str "x") (str "java") (.drop (str "x")) ifTrue) = true ∧
    hangs (nested (str "x") (str "java") (.drop (str "y")) ifTrue) = false := by decide +kernel

/-- A tokenizer may do neither. -/
example : hangs (.put (str "x") docE (.call (.has (str "x")) fun _ => .ret ())) = true ∧
    hangs (.put (str "y") docE (.call (.list) fun _ => .ret ())) = true ∧
    hangs (.put (str "a") docE (.call (.put (str "z") docD) fun _ => .ret ())) = true ∧
    hangs (.put (str "a") docE (.call (.hasAlias (str "z")) fun _ => .ret ())) = false := by decide +kernel

/-- The search of `C80_nested_forever` has started and asks whether an index exists while a `Put` waits. -/
private def stuck : Config :=
  { sh := { small with imu := { readers := [0], writer := some 1 } }
    calls := [{ op := .has (str "x"), oracle := sampleOracle, prog := Op.prog sampleCfg (.has (str "x")) },
              { op := .put (str "x") docE, oracle := sampleOracle,
                prog := .act (.acquire .indices) fun _ => .ret .unit }] }

example : (0 : Tid) ∈ (stuck.sh.mu .indices).readers ∧ (stuck.sh.mu .indices).writer = some 1 ∧
    (∃ y, stuck.calls[1]? = some y ∧ y.awaits = some .indices) ∧
    ∃ x, stuck.calls[0]? = some x ∧ x.takes = some .indices :=
  ⟨by simp [stuck, Shared.mu], rfl, ⟨_, rfl, rfl⟩, ⟨_, rfl, rfl⟩⟩

/-- A tokenizer that asks whether an index exists, under the write lock of its `Put`. -/
private def stuckPut : Config :=
  { sh := { small with imu := { readers := [], writer := some 0 } }
    calls := [{ op := .put (str "x") docE, oracle := sampleOracle, prog := Op.prog sampleCfg (.has (str "x")) }] }

example : (stuckPut.sh.mu .indices).writer = some 0 ∧
    ∃ x, stuckPut.calls[0]? = some x ∧ x.takes = some .indices := ⟨rfl, _, rfl, rfl⟩

/-- A search that asks for an alias, with a `Put` at the same time: within the guard of `C80_no_deadlock_partial`. -/
example : COp.Only (fun op => ∃ n, op = .hasAlias n) (fun _ => False)
    (nested (str "x") (str "java") (.hasAlias (str "a")) ifTrue) ∧
    (∀ op : Op, (∃ n, op = .hasAlias n) → op.aliasOnly) :=
  ⟨fun _ => ⟨⟨_, rfl⟩, fun _ => trivial⟩, by rintro _ ⟨n, rfl⟩; trivial⟩

/-- A state as in the theorems on one caller. -/
example : ∃ a, Abs sampleCfg small a ∧ (a.docs (str "x")).isSome ∧ a.leakedReaders = 0 ∧ a.leakedWriter = false := by
  have hre : Reachable sampleCfg small := ⟨calls [.put (str "x") docD, .alias (str "a") (str "x")], [.unit, .bool true], by decide +kernel⟩
  obtain ⟨a, h⟩ := hre.abs
  refine ⟨a, h, ?_, ?_, ?_⟩
  · rw [← h.idx.isSome]; decide +kernel
  · rw [← h.imuR]; decide +kernel
  · exact h.amuW_false.2 (by decide +kernel)

end Visigoth
