import Verif.Proofs.Locks
/-!
# Races, deadlocks and termination
-/
namespace Visigoth

/-- What two calls hold at the same time. -/
def Compat (h h' : Held) : Prop :=
  ∀ m, ((h.get m).excl = true → (h'.get m).shared = false) ∧ ((h'.get m).excl = true → (h.get m).shared = false)

theorem link_excl {H : Tid → Held} {s : Shared} (k : Link H s) {t u : Tid} (htu : t ≠ u) (m : Mu)
    (hm : ((H t).get m).excl = true) : ((H u).get m).shared = false := by
  have hw : (H t).get m = .write := by simpa [Mode.excl] using hm
  have h1 := ((k m).wr t).2 (Or.inr hw)
  have h2 := (k m).excl t hw
  have h3 := (k m).mem u
  have h4 := (k m).wr u
  rw [h2] at h3
  rw [h1] at h4
  simp [htu] at h4
  cases hg : (H u).get m <;> simp [hg] at h3 h4 <;> rfl

theorem link_compat {H : Tid → Held} {s : Shared} (k : Link H s) {t u : Tid} (htu : t ≠ u) : Compat (H t) (H u) :=
  fun m => ⟨link_excl k htu m, link_excl k (Ne.symm htu) m⟩

theorem strict_compat {h h' : Held} (hc : Compat h h') (l : Loc) (hw : strict.wr l h = true) : strict.rd l h' = false := by
  have h1 := hc .indices
  have h2 := hc .aliases
  cases l <;> simp_all [strict, Held.get]

theorem broad_compat {h h' : Held} (hc : Compat h h') (l : Loc) (hw : broad.wr l h = true) : broad.rd l h' = false := by
  have h1 := hc .indices
  have h2 := hc .aliases
  obtain ⟨a, b⟩ := h
  obtain ⟨a', b'⟩ := h'
  clear hc
  simp only [Held.get] at h1 h2
  revert hw h1 h2
  cases l <;> cases a <;> cases b <;> cases a' <;> cases b' <;> decide

theorem wr_rd_strict (l : Loc) (h : Held) (hw : strict.wr l h = true) : strict.rd l h = true := by
  obtain ⟨a, b⟩ := h
  cases l <;> cases a <;> cases b <;> simp_all [strict, Mode.shared, Mode.excl]

theorem wr_rd_broad (l : Loc) (h : Held) (hw : broad.wr l h = true) : broad.rd l h = true := by
  obtain ⟨a, b⟩ := h
  cases l <;> cases a <;> cases b <;> simp_all [broad, Mode.shared, Mode.excl]

/-- A disciplined call only accesses what it may. -/
theorem allowed_call {d : Discipline} {Q : Held → Ret → Prop} {h : Held} {x : Thread} (ho : Obeys d Q h x.prog) (l : Loc) :
    (x.reads = some l → d.rd l h = true) ∧ (x.writes = some l → d.wr l h = true) := by
  unfold Thread.reads Thread.writes
  cases hp : x.prog with
  | ret a => simp
  | crash e => simp
  | act a k =>
    rw [hp] at ho
    have ha := ho.1
    cases a <;> first | exact ⟨fun h => ha.2.1 l h, fun h => ha.2.2 l h⟩ | exact ⟨fun h => (by cases h), fun h => (by cases h)⟩

theorem no_race_of {d : Discipline} (hwr : ∀ l h, d.wr l h = true → d.rd l h = true)
    (hc : ∀ h h', Compat h h' → ∀ l, d.wr l h = true → d.rd l h' = false)
    {c : Config} {H : Tid → Held} (i : LockInv c H) {t u : Tid} {l : Loc} {x y : Thread} (htu : t ≠ u)
    {Q Q' : Held → Ret → Prop}
    (hx : Obeys d Q (H t) x.prog) (hy : Obeys d Q' (H u) y.prog) (h1 : x.writes = some l)
    (h2 : y.reads = some l ∨ y.writes = some l) : False := by
  have a := (allowed_call hx l).2 h1
  have b := hc _ _ (link_compat i.link htu) l a
  rcases h2 with h2 | h2
  · rw [(allowed_call hy l).1 h2] at b; cases b
  · rw [hwr _ _ ((allowed_call hy l).2 h2)] at b; cases b

theorem race_only_inv {c : Config} {H : Tid → Held} (i : LockInv c H) {t u : Tid} {l : Loc} {x y : Thread}
    (htu : t ≠ u) (hx : c.calls[t]? = some x) (hy : c.calls[u]? = some y) (hw : x.writes = some l)
    (ho : y.reads = some l ∨ y.writes = some l) :
    ((x.op.isRename = true ∧ y.op.isUnAlias = true) ∨ (x.op.isUnAlias = true ∧ y.op.isRename = true)) ∧ l ≠ .indices := by
  have gx := i.good t x hx
  have gy := i.good u y hy
  have hS : ¬ (x.op.isRename = false ∧ y.op.isRename = false) := fun h =>
    no_race_of wr_rd_strict (fun _ _ => strict_compat) i htu (gx.1 h.1) (gy.1 h.2) hw ho
  have hB : ¬ (x.op.isUnAlias = false ∧ y.op.isUnAlias = false) := fun h =>
    no_race_of wr_rd_broad (fun _ _ => broad_compat) i htu (gx.2 h.1) (gy.2 h.2) hw ho
  refine ⟨?_, ?_⟩
  · cases hxo : x.op <;> cases hyo : y.op <;> simp [Op.isRename, Op.isUnAlias, hxo, hyo] at hS hB ⊢
  · rintro rfl
    obtain ⟨d, hd⟩ := gx.some
    obtain ⟨d', hd'⟩ := gy.some
    have e1 : (H t).imu.excl = true := by
      by_cases hR : x.op.isRename = false
      · exact (allowed_call (gx.1 hR) .indices).2 hw
      · have : x.op.isUnAlias = false := by cases hxo : x.op <;> simp [Op.isRename, Op.isUnAlias, hxo] at hR ⊢
        exact (allowed_call (gx.2 this) .indices).2 hw
    have e2 : (H u).imu.shared = true := by
      by_cases hR : y.op.isRename = false
      · rcases ho with h | h
        · exact (allowed_call (gy.1 hR) .indices).1 h
        · exact wr_rd_strict _ _ ((allowed_call (gy.1 hR) .indices).2 h)
      · have : y.op.isUnAlias = false := by cases hyo : y.op <;> simp [Op.isRename, Op.isUnAlias, hyo] at hR ⊢
        rcases ho with h | h
        · exact (allowed_call (gy.2 this) .indices).1 h
        · exact wr_rd_broad _ _ ((allowed_call (gy.2 this) .indices).2 h)
    have := link_excl i.link htu .indices e1
    simp only [Held.get] at this
    rw [e2] at this; cases this

theorem race_only {cfg : Cfg} {c : Config} (hr : ConcReachable cfg c) {t u : Tid} {l : Loc} {x y : Thread}
    (htu : t ≠ u) (hx : c.calls[t]? = some x) (hy : c.calls[u]? = some y) (hw : x.writes = some l)
    (ho : y.reads = some l ∨ y.writes = some l) :
    ((x.op.isRename = true ∧ y.op.isUnAlias = true) ∨ (x.op.isUnAlias = true ∧ y.op.isRename = true)) ∧ l ≠ .indices := by
  obtain ⟨H, i⟩ := lockInv_reachable hr
  exact race_only_inv i htu hx hy hw ho

/-! ## Deadlock -/

/-- The action does not wait. -/
theorem canMove_of {cfg : Cfg} {c : Config} {t : Tid} {op : Op} {o : Oracle} {β : Type} {a : Act β} {k : β → Prog Ret}
    (h : c.calls[t]? = some { op := op, oracle := o, prog := .act a k }) (he : exec cfg o t a c.sh ≠ .blocked) :
    c.canMove cfg t := by
  obtain ⟨s, calls⟩ := c
  cases hx : exec cfg o t a s with
  | ok b s' => exact ⟨_, .act h hx⟩
  | blocked => exact absurd hx he
  | crash e => exact ⟨_, .crash h hx⟩

/-- The mutex the action starts to take. -/
def Act.locks {β : Type} : Act β → Option Mu
  | .rlock m | .announce m => some m
  | _ => none

/-- The mutex whose readers the action waits for. -/
def Act.acquires {β : Type} : Act β → Option Mu
  | .acquire m => some m
  | _ => none

theorem not_blocked {cfg : Cfg} {o : Oracle} {t : Tid} {β : Type} {a : Act β} {s : Shared}
    (hl : ∀ m, a.locks = some m → (s.mu m).writer = none) (ha : ∀ m, a.acquires = some m → (s.mu m).readers = []) :
    exec cfg o t a s ≠ .blocked := by
  intro h
  cases a
  case rlock m => simp [exec, hl m rfl] at h
  case announce m => simp [exec, hl m rfl] at h
  case acquire m =>
    simp only [exec, ha m rfl] at h
    split at h <;> simp at h
  all_goals
    simp only [exec] at h
    repeat' split at h
    all_goals exact absurd h (by simp)

theorem allowed_locks {d : Discipline} {h : Held} {β : Type} {a : Act β} (ha : Allowed d h a) {m : Mu}
    (hl : a.locks = some m) : h.mayLock m := by
  cases a <;> simp only [Act.locks, Option.some.injEq, reduceCtorEq] at hl <;> subst hl <;> exact ha.2

theorem allowed_acquires {d : Discipline} {h : Held} {β : Type} {a : Act β} (ha : Allowed d h a) {m : Mu}
    (hl : a.acquires = some m) : h.get m = .pend := by
  cases a <;> simp only [Act.acquires, Option.some.injEq, reduceCtorEq] at hl <;> subst hl <;> exact ha

/-- Some call that is over still holds mutex `m`. -/
def Config.leaks (c : Config) (m : Mu) : Prop := ∃ t x, c.calls[t]? = some x ∧ ¬ x.running ∧ c.sh.holds m t

theorem not_leaks {c : Config} (hl : ¬ c.leaked) (m : Mu) : ¬ c.leaks m := fun ⟨t, x, h1, h2, h3⟩ => hl ⟨t, x, m, h1, h2, h3⟩

/-- A call that holds something is running, unless a lock was leaked. -/
theorem holder_runs {c : Config} {H : Tid → Held} (i : LockInv c H) {u : Tid} {m : Mu} (hl : ¬ c.leaks m)
    (hu : (H u).get m ≠ .none) : ∃ op o, ∃ β, ∃ a : Act β, ∃ k, ∃ d,
      c.calls[u]? = some { op := op, oracle := o, prog := .act a k } ∧ Allowed d (H u) a := by
  have hlt : u < c.calls.length := by
    refine Nat.lt_of_not_le fun h => hu ?_
    rw [i.fresh u h]
    cases m <;> rfl
  have hx : c.calls[u]? = some c.calls[u] := List.getElem?_eq_getElem hlt
  obtain ⟨op, o, p, hc⟩ : ∃ op o p, c.calls[u] = { op := op, oracle := o, prog := p } := ⟨_, _, _, rfl⟩
  rw [hc] at hx
  have hold : c.sh.holds m u := by
    cases hg : (H u).get m with
    | none => exact absurd hg hu
    | read => exact Or.inl ((i.link m).mem u |>.2 hg)
    | pend => exact Or.inr ((i.link m).wr u |>.2 (Or.inl hg))
    | write => exact Or.inr ((i.link m).wr u |>.2 (Or.inr hg))
  cases p with
  | ret r => exact absurd ⟨u, _, hx, by simp [Thread.running], hold⟩ hl
  | crash e => exact absurd ⟨u, _, hx, by simp [Thread.running], hold⟩ hl
  | @act β a k =>
    obtain ⟨d, hd⟩ := (i.good u _ hx).allowed
    exact ⟨op, o, β, a, k, d, hx, hd⟩

/-- Readers exist when the list of readers is not empty. -/
theorem reader_of {c : Config} {H : Tid → Held} (i : LockInv c H) {m : Mu} (h : (c.sh.mu m).readers ≠ []) :
    ∃ v, (H v).get m = .read := by
  cases hr : (c.sh.mu m).readers with
  | nil => exact absurd hr h
  | cons v vs => exact ⟨v, (i.link m).mem v |>.1 (by rw [hr]; simp)⟩

theorem writer_of {c : Config} {H : Tid → Held} (i : LockInv c H) {m : Mu} (h : ∀ u, (H u).get m = .none) :
    (c.sh.mu m).writer = none := by
  cases hr : (c.sh.mu m).writer with
  | none => rfl
  | some v =>
    have := (i.link m).wr v |>.1 hr
    rw [h v] at this
    rcases this with h | h <;> cases h

/-- Whoever holds the alias mutex can go on. -/
theorem moves_amu {cfg : Cfg} {c : Config} {H : Tid → Held} (i : LockInv c H) (hl : ¬ c.leaks .aliases) {u : Tid}
    (hu : (H u).amu = .read ∨ (H u).amu = .write) : c.canMove cfg u := by
  obtain ⟨op, o, β, a, k, d, hx, hd⟩ := holder_runs (u := u) (m := .aliases) i hl (by
    simp only [Held.get]
    rcases hu with h | h <;> rw [h] <;> simp)
  refine canMove_of hx (not_blocked ?_ ?_)
  · intro m hm
    have := allowed_locks hd hm
    cases m <;> simp [Held.mayLock] at this <;> simp_all
  · intro m hm
    have := allowed_acquires hd hm
    cases m
    · have := i.order u this
      simp_all
    · simp only [Held.get] at this
      simp_all

/-- If somebody holds or waits for the alias mutex, some call can go on. -/
theorem moves_any_amu {cfg : Cfg} {c : Config} {H : Tid → Held} (i : LockInv c H) (hl : ¬ c.leaks .aliases) {u : Tid}
    (hu : (H u).amu ≠ .none) : ∃ v, c.canMove cfg v := by
  by_cases h : (H u).amu = .read ∨ (H u).amu = .write
  · exact ⟨u, moves_amu i hl h⟩
  · by_cases hr : (c.sh.mu .aliases).readers = []
    · obtain ⟨op, o, β, a, k, d, hx, hd⟩ := holder_runs (u := u) (m := .aliases) i hl hu
      refine ⟨u, canMove_of hx (not_blocked ?_ ?_)⟩
      · intro m hm
        have := allowed_locks hd hm
        cases m <;> simp [Held.mayLock] at this <;> simp_all
      · intro m hm
        have := allowed_acquires hd hm
        cases m
        · exact absurd (i.order u this) hu
        · exact hr
    · obtain ⟨v, hv⟩ := reader_of i hr
      exact ⟨v, moves_amu i hl (Or.inl hv)⟩

/-- With the alias mutex free, whoever holds the index mutex can go on. -/
theorem moves_imu {cfg : Cfg} {c : Config} {H : Tid → Held} (i : LockInv c H) (hl : ¬ c.leaked)
    (hA : ∀ u, (H u).amu = .none) {u : Tid} (hu : (H u).imu = .read ∨ (H u).imu = .write) : c.canMove cfg u := by
  obtain ⟨op, o, β, a, k, d, hx, hd⟩ := holder_runs (u := u) (m := .indices) i (not_leaks hl _) (by
    simp only [Held.get]
    rcases hu with h | h <;> rw [h] <;> simp)
  refine canMove_of hx (not_blocked ?_ ?_)
  · intro m hm
    have := allowed_locks hd hm
    cases m
    · simp [Held.mayLock] at this; simp_all
    · exact writer_of i hA
  · intro m hm
    have := allowed_acquires hd hm
    cases m
    · simp only [Held.get] at this; simp_all
    · simp only [Held.get] at this
      rw [hA u] at this; cases this

theorem no_deadlock_inv {cfg : Cfg} {c : Config} {H : Tid → Held} (i : LockInv c H) (hl : ¬ c.leaked) {t : Tid}
    {x : Thread} (hx : c.calls[t]? = some x) (hrun : x.running) : ∃ u, c.canMove cfg u := by
  by_cases hA : ∃ u, (H u).amu ≠ .none
  · obtain ⟨u, hu⟩ := hA
    exact moves_any_amu i (not_leaks hl _) hu
  · have hA : ∀ u, (H u).amu = .none := fun u => Classical.byContradiction fun h => hA ⟨u, h⟩
    by_cases hI : ∃ u, (H u).imu ≠ .none
    · obtain ⟨u, hu⟩ := hI
      by_cases h : (H u).imu = .read ∨ (H u).imu = .write
      · exact ⟨u, moves_imu i hl hA h⟩
      · by_cases hrd : (c.sh.mu .indices).readers = []
        · obtain ⟨op, o, β, a, k, d, hx, hd⟩ := holder_runs (u := u) (m := .indices) i (not_leaks hl _) hu
          refine ⟨u, canMove_of hx (not_blocked ?_ ?_)⟩
          · intro m hm
            cases m
            · have := allowed_locks hd hm
              simp [Held.mayLock] at this; simp_all
            · exact writer_of i hA
          · intro m hm
            cases m
            · exact hrd
            · have := allowed_acquires hd hm
              simp only [Held.get] at this
              rw [hA u] at this; cases this
        · obtain ⟨v, hv⟩ := reader_of i hrd
          exact ⟨v, moves_imu i hl hA (Or.inl hv)⟩
    · have hI : ∀ u, (H u).imu = .none := fun u => Classical.byContradiction fun h => hI ⟨u, h⟩
      obtain ⟨op, o, p⟩ := x
      cases p with
      | ret r => exact absurd hrun (by simp [Thread.running])
      | crash e => exact absurd hrun (by simp [Thread.running])
      | act a k =>
        obtain ⟨d, hd⟩ := (i.good t _ hx).allowed
        refine ⟨t, canMove_of hx (not_blocked ?_ ?_)⟩
        · intro m hm
          cases m
          · exact writer_of i hI
          · exact writer_of i hA
        · intro m hm
          have := allowed_acquires hd hm
          cases m <;> simp only [Held.get] at this
          · rw [hI t] at this; cases this
          · rw [hA t] at this; cases this

theorem no_deadlock {cfg : Cfg} {c : Config} (hr : ConcReachable cfg c) (hl : ¬ c.leaked) {t : Tid} {x : Thread}
    (hx : c.calls[t]? = some x) (hrun : x.running) : ∃ u, c.canMove cfg u := by
  obtain ⟨H, i⟩ := lockInv_reachable hr
  exact no_deadlock_inv i hl hx hrun

/-! ## Termination -/

/-- One program of the list takes a step. -/
inductive ProgsStep : List (Prog Ret) → List (Prog Ret) → Prop where
  | act {β : Type} (a : Act β) (k : β → Prog Ret) (b : β) (ps : List (Prog Ret)) : ProgsStep (.act a k :: ps) (k b :: ps)
  | crash {β : Type} (a : Act β) (k : β → Prog Ret) (e : Crash) (ps : List (Prog Ret)) :
      ProgsStep (.act a k :: ps) (.crash e :: ps)
  | tail (p : Prog Ret) {ps ps' : List (Prog Ret)} (h : ProgsStep ps ps') : ProgsStep (p :: ps) (p :: ps')

theorem progs_acc (ps : List (Prog Ret)) : Acc (fun b a => ProgsStep a b) ps := by
  induction ps with
  | nil => exact ⟨_, fun y h => nomatch h⟩
  | cons p ps ih =>
    have over : ∀ p : Prog Ret, (∀ ps qs, ProgsStep (p :: ps) qs → ∃ ps', qs = p :: ps' ∧ ProgsStep ps ps') →
        ∀ ps, Acc (fun b a => ProgsStep a b) ps → Acc (fun b a => ProgsStep a b) (p :: ps) := by
      intro p hp ps hps
      induction hps with
      | intro ps _ ih =>
        refine ⟨_, fun y h => ?_⟩
        obtain ⟨ps', rfl, h'⟩ := hp _ _ h
        exact ih ps' h'
    have hc : ∀ e ps, Acc (fun b a => ProgsStep a b) ps → Acc (fun b a => ProgsStep a b) (Prog.crash e :: ps) := by
      intro e
      refine over _ fun ps qs h => ?_
      cases h with
      | tail _ h => exact ⟨_, rfl, h⟩
    revert ps
    induction p with
    | ret r =>
      refine over _ fun ps qs h => ?_
      cases h with
      | tail _ h => exact ⟨_, rfl, h⟩
    | crash e => exact hc e
    | act a k ih =>
      intro ps hps
      induction hps with
      | intro ps hps ihp =>
        refine ⟨_, fun y h => ?_⟩
        cases h with
        | act => exact ih _ _ ⟨_, hps⟩
        | crash => exact hc _ _ ⟨_, hps⟩
        | tail _ h => exact ihp _ h

theorem progsStep_set {calls : List Thread} {t : Tid} {op : Op} {o : Oracle} {β : Type} {a : Act β} {k : β → Prog Ret}
    {p : Prog Ret} (h : calls[t]? = some { op := op, oracle := o, prog := .act a k })
    (hp : (∃ b, p = k b) ∨ ∃ e, p = .crash e) :
    ProgsStep (calls.map (·.prog)) ((calls.set t { op := op, oracle := o, prog := p }).map (·.prog)) := by
  induction calls generalizing t with
  | nil => simp at h
  | cons x xs ih =>
    cases t with
    | zero =>
      simp only [List.getElem?_cons_zero, Option.some.injEq] at h
      subst h
      rcases hp with ⟨b, rfl⟩ | ⟨e, rfl⟩
      · exact .act a k b _
      · exact .crash a k e _
    | succ t =>
      rw [List.getElem?_cons_succ] at h
      exact .tail _ (ih h)

theorem moves_wf (cfg : Cfg) : WellFounded (fun c' c => Moves cfg c c') := by
  have hsub : Subrelation (fun c' c => Moves cfg c c')
      (InvImage (fun b a => ProgsStep a b) fun c : Config => c.calls.map (·.prog)) := by
    rintro c' c ⟨t, h⟩
    cases h with
    | act h he => exact progsStep_set h (Or.inl ⟨_, rfl⟩)
    | crash h he => exact progsStep_set h (Or.inr ⟨_, rfl⟩)
  exact hsub.wf (InvImage.wf _ ⟨progs_acc⟩)

end Visigoth
