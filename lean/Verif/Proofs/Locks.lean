import Verif.Proofs.Obeys
/-!
# The mutexes are held as the residual programs say, in every reachable configuration
-/
namespace Visigoth

/-- The program of a call follows the disciplines of its method. -/
def Good (op : Op) (h : Held) (p : Prog Ret) : Prop :=
  (op.isRename = false → Obeys strict (endOf op) h p) ∧ (op.isUnAlias = false → Obeys broad (endOf op) h p)

theorem good_start (cfg : Cfg) (op : Op) : Good op {} (op.prog cfg) :=
  ⟨obeys_strict cfg op, obeys_broad cfg op⟩

/-- Every call follows one of the disciplines. -/
theorem Good.some {op : Op} {h : Held} {p : Prog Ret} (g : Good op h p) : ∃ d, Obeys d (endOf op) h p := by
  cases op with
  | rename o n => exact ⟨_, g.2 rfl⟩
  | _ => exact ⟨_, g.1 rfl⟩

/-- What mutex `m` records is what the calls hold. -/
structure LinkMu (H : Tid → Held) (m : Mu) (l : RW) : Prop where
  mem : ∀ t, t ∈ l.readers ↔ (H t).get m = .read
  nodup : l.readers.Nodup
  wr : ∀ t, l.writer = some t ↔ (H t).get m = .pend ∨ (H t).get m = .write
  excl : ∀ t, (H t).get m = .write → l.readers = []

def setH (H : Tid → Held) (t : Tid) (h : Held) : Tid → Held := fun u => if u = t then h else H u

@[simp] theorem setH_same (H : Tid → Held) (t : Tid) (h : Held) : setH H t h t = h := by simp [setH]
theorem setH_other (H : Tid → Held) {t u : Tid} (h : Held) (hu : u ≠ t) : setH H t h u = H u := by simp [setH, hu]

theorem held_get_set (h : Held) (m m' : Mu) (x : Mode) :
    (h.set m x).get m' = if m' = m then x else h.get m' := by
  cases m <;> cases m' <;> simp [Held.set, Held.get]

/-- Changing what is held of another mutex does not matter. -/
theorem LinkMu.frame {H : Tid → Held} {m : Mu} {l : RW} (k : LinkMu H m l) (t : Tid) (h : Held)
    (he : h.get m = (H t).get m) : LinkMu (setH H t h) m l := by
  have key : ∀ u, (setH H t h u).get m = (H u).get m := by
    intro u
    by_cases hu : u = t
    · subst hu; simpa using he
    · rw [setH_other H h hu]
  exact ⟨fun u => by rw [key]; exact k.mem u, k.nodup, fun u => by rw [key]; exact k.wr u,
    fun u hu => k.excl u (by rw [← key]; exact hu)⟩

theorem LinkMu.rlock {H : Tid → Held} {m : Mu} {l : RW} (k : LinkMu H m l) (t : Tid) (hn : (H t).get m = .none)
    (hw : l.writer = none) :
    LinkMu (setH H t ((H t).set m .read)) m { l with readers := t :: l.readers } := by
  have hnw : ∀ u, (H u).get m ≠ .write := by
    intro u hu
    have := (k.wr u).2 (Or.inr hu)
    rw [hw] at this; cases this
  have hnp : ∀ u, (H u).get m ≠ .pend := by
    intro u hu
    have := (k.wr u).2 (Or.inl hu)
    rw [hw] at this; cases this
  have key : ∀ u, (setH H t ((H t).set m .read) u).get m = if u = t then .read else (H u).get m := by
    intro u
    by_cases hu : u = t
    · subst hu; simp [held_get_set]
    · rw [setH_other H _ hu, if_neg hu]
  refine ⟨fun u => ?_, ?_, fun u => ?_, fun u hu => ?_⟩
  · rw [key]
    by_cases hu : u = t
    · simp [hu]
    · simp [hu, k.mem u]
  · refine List.nodup_cons.2 ⟨?_, k.nodup⟩
    rw [k.mem, hn]; simp
  · rw [key]
    simp only [hw]
    by_cases hu : u = t
    · simp [hu]
    · simp [hu, hnw u, hnp u]
  · rw [key] at hu
    by_cases hut : u = t
    · simp [hut] at hu
    · rw [if_neg hut] at hu; exact absurd hu (hnw u)

theorem LinkMu.runlock {H : Tid → Held} {m : Mu} {l : RW} (k : LinkMu H m l) (t : Tid) (hn : (H t).get m = .read) :
    LinkMu (setH H t ((H t).set m .none)) m { l with readers := l.readers.erase t } := by
  have key : ∀ u, (setH H t ((H t).set m .none) u).get m = if u = t then .none else (H u).get m := by
    intro u
    by_cases hu : u = t
    · subst hu; simp [held_get_set]
    · rw [setH_other H _ hu, if_neg hu]
  refine ⟨fun u => ?_, ?_, fun u => ?_, fun u hu => ?_⟩
  · rw [key, k.nodup.mem_erase_iff]
    by_cases hu : u = t
    · simp [hu]
    · simp [hu, k.mem u]
  · exact k.nodup.erase t
  · rw [key]
    by_cases hu : u = t
    · subst hu
      have := k.wr u
      simp [hn] at this
      simp [this]
    · simp [hu, k.wr u]
  · rw [key] at hu
    by_cases hut : u = t
    · simp [hut] at hu
    · rw [if_neg hut] at hu
      have := k.excl u hu
      have := (k.mem t).2 hn
      simp_all

theorem LinkMu.announce {H : Tid → Held} {m : Mu} {l : RW} (k : LinkMu H m l) (t : Tid) (hn : (H t).get m = .none)
    (hw : l.writer = none) : LinkMu (setH H t ((H t).set m .pend)) m { l with writer := some t } := by
  have hnw : ∀ u, (H u).get m ≠ .write := by
    intro u hu
    have := (k.wr u).2 (Or.inr hu)
    rw [hw] at this; cases this
  have hnp : ∀ u, (H u).get m ≠ .pend := by
    intro u hu
    have := (k.wr u).2 (Or.inl hu)
    rw [hw] at this; cases this
  have key : ∀ u, (setH H t ((H t).set m .pend) u).get m = if u = t then .pend else (H u).get m := by
    intro u
    by_cases hu : u = t
    · subst hu; simp [held_get_set]
    · rw [setH_other H _ hu, if_neg hu]
  refine ⟨fun u => ?_, k.nodup, fun u => ?_, fun u hu => ?_⟩
  · rw [key]
    by_cases hu : u = t
    · subst hu; simp [k.mem u, hn]
    · simp [hu, k.mem u]
  · rw [key]
    by_cases hu : u = t
    · simp [hu]
    · have : t ≠ u := fun h => hu h.symm
      simp [hu, hnw u, hnp u, this]
  · rw [key] at hu
    by_cases hut : u = t
    · simp [hut] at hu
    · rw [if_neg hut] at hu; exact absurd hu (hnw u)

theorem LinkMu.acquire {H : Tid → Held} {m : Mu} {l : RW} (k : LinkMu H m l) (t : Tid) (hn : (H t).get m = .pend)
    (hr : l.readers = []) : LinkMu (setH H t ((H t).set m .write)) m l := by
  have key : ∀ u, (setH H t ((H t).set m .write) u).get m = if u = t then .write else (H u).get m := by
    intro u
    by_cases hu : u = t
    · subst hu; simp [held_get_set]
    · rw [setH_other H _ hu, if_neg hu]
  refine ⟨fun u => ?_, k.nodup, fun u => ?_, fun u _ => hr⟩
  · rw [key]
    by_cases hu : u = t
    · subst hu; simp [hr]
    · simp [hu, k.mem u]
  · rw [key]
    by_cases hu : u = t
    · subst hu; simp [(k.wr u).2 (Or.inl hn)]
    · simp [hu, k.wr u]

theorem LinkMu.unlock {H : Tid → Held} {m : Mu} {l : RW} (k : LinkMu H m l) (t : Tid) (hn : (H t).get m = .write) :
    LinkMu (setH H t ((H t).set m .none)) m { l with writer := none } := by
  have hw : l.writer = some t := (k.wr t).2 (Or.inr hn)
  have hr := k.excl t hn
  have key : ∀ u, (setH H t ((H t).set m .none) u).get m = if u = t then .none else (H u).get m := by
    intro u
    by_cases hu : u = t
    · subst hu; simp [held_get_set]
    · rw [setH_other H _ hu, if_neg hu]
  have only : ∀ u, u ≠ t → (H u).get m = .none := by
    intro u hu
    have h1 := k.wr u
    rw [hw] at h1
    have h2 := k.mem u
    rw [hr] at h2
    simp [Ne.symm hu] at h1
    cases hg : (H u).get m <;> simp [hg] at h1 h2 ⊢
  refine ⟨fun u => ?_, k.nodup, fun u => ?_, fun u hu => ?_⟩
  · rw [key]
    by_cases hu : u = t
    · subst hu; simp [hr]
    · simp [hu, hr, only u hu]
  · rw [key]
    by_cases hu : u = t
    · simp [hu]
    · simp [hu, only u hu]
  · exact hr

/-- The mutexes of the shared state. -/
def Link (H : Tid → Held) (s : Shared) : Prop := ∀ m, LinkMu H m (s.mu m)

theorem mu_setMu (s : Shared) (m m' : Mu) (l : RW) : (s.setMu m l).mu m' = if m' = m then l else s.mu m' := by
  cases m <;> cases m' <;> rfl

/-- Data actions leave the mutexes alone. -/
theorem exec_data_mu {cfg : Cfg} {o : Oracle} {t : Tid} {β : Type} {a : Act β} {s s' : Shared} {b : β}
    (hl : a.isLock = false) (he : exec cfg o t a s = .ok b s') : s'.imu = s.imu ∧ s'.amu = s.amu := by
  cases a
  case rlock => cases hl
  case runlock => cases hl
  case announce => cases hl
  case acquire => cases hl
  case unlock => cases hl
  all_goals
    simp only [exec] at he
    first
    | (injection he with _ he; subst he; exact ⟨rfl, rfl⟩)
    | (split at he <;> (first
        | (injection he with _ he; subst he; exact ⟨rfl, rfl⟩)
        | (split at he <;> (first | (injection he with _ he; subst he; exact ⟨rfl, rfl⟩) | cases he))
        | cases he))

/-- One action of a disciplined call keeps the link. -/
theorem link_exec {cfg : Cfg} {o : Oracle} {t : Tid} {β : Type} {a : Act β} {s s' : Shared} {b : β} {d : Discipline}
    {H : Tid → Held} (k : Link H s) (ha : Allowed d (H t) a) (he : exec cfg o t a s = .ok b s') :
    Link (setH H t ((H t).after a)) s' := by
  by_cases hl : a.isLock = false
  · rw [after_data hl]
    have hm := exec_data_mu hl he
    intro m
    have : s'.mu m = s.mu m := by cases m; exact hm.1; exact hm.2
    rw [this]
    exact (k m).frame t _ rfl
  · cases a <;> simp [Act.isLock] at hl
    case rlock m =>
      simp only [exec] at he
      split at he
      · next hw =>
        injection he with _ he; subst he
        intro m'
        rw [mu_setMu]
        by_cases hm : m' = m
        · subst hm
          rw [if_pos rfl]
          refine (k m').rlock t ?_ hw
          have := ha.2
          cases m' <;> simp [Held.mayLock] at this
          · exact this.1
          · exact this
        · rw [if_neg hm]
          exact (k m').frame t _ (by simp [Held.after, held_get_set, hm])
      · cases he
    case runlock m =>
      simp only [exec] at he
      split at he
      · injection he with _ he; subst he
        intro m'
        rw [mu_setMu]
        by_cases hm : m' = m
        · subst hm
          rw [if_pos rfl]
          exact (k m').runlock t ha.2
        · rw [if_neg hm]
          exact (k m').frame t _ (by simp [Held.after, held_get_set, hm])
      · cases he
    case announce m =>
      simp only [exec] at he
      split at he
      · next hw =>
        injection he with _ he; subst he
        intro m'
        rw [mu_setMu]
        by_cases hm : m' = m
        · subst hm
          rw [if_pos rfl]
          refine (k m').announce t ?_ hw
          have := ha.2
          cases m' <;> simp [Held.mayLock] at this
          · exact this.1
          · exact this
        · rw [if_neg hm]
          exact (k m').frame t _ (by simp [Held.after, held_get_set, hm])
      · cases he
    case acquire m =>
      simp only [exec] at he
      split at he
      · split at he
        · next hr =>
          injection he with _ he; subst he
          intro m'
          by_cases hm : m' = m
          · subst hm
            exact (k m').acquire t ha hr
          · exact (k m').frame t _ (by simp [Held.after, held_get_set, hm])
        · cases he
      · cases he
    case unlock m =>
      simp only [exec] at he
      split at he
      · injection he with _ he; subst he
        intro m'
        rw [mu_setMu]
        by_cases hm : m' = m
        · subst hm
          rw [if_pos rfl]
          exact (k m').unlock t ha.2
        · rw [if_neg hm]
          exact (k m').frame t _ (by simp [Held.after, held_get_set, hm])
      · cases he

/-- A disciplined call never misuses a mutex: its lock actions do not crash. -/
theorem lock_no_crash {cfg : Cfg} {o : Oracle} {t : Tid} {β : Type} {a : Act β} {s : Shared} {e : Crash}
    {d : Discipline} {H : Tid → Held} (k : Link H s) (ha : Allowed d (H t) a) (he : exec cfg o t a s = .crash e) :
    a.isLock = false := by
  cases a <;> try rfl
  case rlock m => simp only [exec] at he; split at he <;> cases he
  case announce m => simp only [exec] at he; split at he <;> cases he
  case runlock m =>
    simp only [exec] at he
    split at he
    · cases he
    · next h => exact absurd (((k m).mem t).2 ha.2) h
  case acquire m =>
    simp only [exec] at he
    split at he
    · split at he <;> cases he
    · next h => exact absurd (((k m).wr t).2 (Or.inl ha)) h
  case unlock m =>
    simp only [exec] at he
    split at he
    · cases he
    · next h => exact absurd (((k m).wr t).2 (Or.inr ha.2)) h

theorem Allowed.quiet {d : Discipline} {h : Held} {β : Type} {a : Act β} (ha : Allowed d h a) (hl : a.isLock = false) :
    h.quiet := by
  cases a <;> first | exact ha.1 | cases hl

/-- Mutexes are taken in order. -/
theorem order_after {d : Discipline} {h : Held} {β : Type} {a : Act β} (ha : Allowed d h a)
    (ho : h.imu = .pend → h.amu = .none) : (h.after a).imu = .pend → (h.after a).amu = .none := by
  by_cases hl : a.isLock = false
  · rw [after_data hl]; exact ho
  · obtain ⟨hi, hm⟩ := h
    cases a <;> simp [Act.isLock] at hl <;> rename_i m <;> cases m <;>
      simp_all [Allowed, Held.quiet, Held.mayLock, Held.after, Held.set, Held.get]

/-- The invariant of configurations. -/
structure LockInv (c : Config) (H : Tid → Held) : Prop where
  link : Link H c.sh
  good : ∀ t x, c.calls[t]? = some x → Good x.op (H t) x.prog
  fresh : ∀ t, c.calls.length ≤ t → H t = {}
  order : ∀ t, (H t).imu = .pend → (H t).amu = .none

theorem lockInv_init : LockInv Config.init (fun _ => {}) := by
  refine ⟨?_, ?_, fun _ _ => rfl, fun _ h => nomatch h⟩
  · intro m
    refine ⟨fun t => ?_, ?_, fun t => ?_, fun t h => ?_⟩ <;>
      cases m <;> simp [Config.init, newIndexRepo, Shared.mu, Held.get] at *
  · intro t x h
    simp [Config.init] at h

theorem Good.act {op : Op} {h : Held} {β : Type} {a : Act β} {k : β → Prog Ret} (g : Good op h (.act a k)) (b : β) :
    Good op (h.after a) (k b) :=
  ⟨fun h1 => (g.1 h1).2 b, fun h1 => (g.2 h1).2 b⟩

theorem Good.allowed {op : Op} {h : Held} {β : Type} {a : Act β} {k : β → Prog Ret} (g : Good op h (.act a k)) :
    ∃ d, Allowed d h a := by
  obtain ⟨d, hd⟩ := g.some
  exact ⟨d, hd.1⟩

theorem Good.crash {op : Op} {h : Held} (hq : h.quiet) (e : Crash) : Good op h (.crash e) := ⟨fun _ => hq, fun _ => hq⟩

theorem lockInv_invoke {cfg : Cfg} {c : Config} {H : Tid → Held} (i : LockInv c H) (op : Op) (o : Oracle) :
    LockInv { c with calls := c.calls ++ [{ op := op, oracle := o, prog := op.prog cfg }] } H := by
  refine ⟨i.link, ?_, ?_, i.order⟩
  · intro t x h
    simp only at h
    by_cases ht : t < c.calls.length
    · rw [List.getElem?_append_left ht] at h; exact i.good t x h
    · rw [List.getElem?_append_right (Nat.le_of_not_lt ht)] at h
      have : t - c.calls.length = 0 := by
        cases hh : t - c.calls.length with
        | zero => rfl
        | succ n => rw [hh] at h; simp at h
      rw [this] at h
      simp only [List.getElem?_cons_zero, Option.some.injEq] at h
      subst h
      rw [i.fresh t (Nat.le_of_not_lt ht)]
      exact good_start cfg op
  · intro t ht
    simp only [List.length_append, List.length_cons, List.length_nil] at ht
    exact i.fresh t (Nat.le_of_succ_le ht)

theorem lockInv_act {cfg : Cfg} {s s' : Shared} {calls : List Thread} {H : Tid → Held}
    (i : LockInv { sh := s, calls := calls } H) {t : Tid} {op : Op} {o : Oracle} {β : Type} {a : Act β}
    {k : β → Prog Ret} {b : β} (h : calls[t]? = some { op := op, oracle := o, prog := .act a k }) {d : Discipline}
    (hd : Allowed d (H t) a) (he : exec cfg o t a s = .ok b s') :
    LockInv { sh := s', calls := calls.set t { op := op, oracle := o, prog := k b } } (setH H t ((H t).after a)) := by
  have hg := i.good t _ h
  have hlt := (List.getElem?_eq_some_iff.1 h).1
  refine ⟨link_exec i.link hd he, ?_, ?_, ?_⟩
  · intro u x hu
    simp only at hu
    by_cases htu : u = t
    · subst htu
      rw [List.getElem?_set_self hlt] at hu
      injection hu with hu; subst hu
      rw [setH_same]
      exact hg.act b
    · rw [List.getElem?_set_ne (Ne.symm htu)] at hu
      rw [setH_other _ _ htu]
      exact i.good u x hu
  · intro u hu
    simp only [List.length_set] at hu
    have : u ≠ t := by intro h; subst h; omega
    rw [setH_other _ _ this]
    exact i.fresh u hu
  · intro u
    by_cases htu : u = t
    · subst htu
      rw [setH_same]
      exact order_after hd (i.order u)
    · rw [setH_other _ _ htu]
      exact i.order u

theorem lockInv_crash {cfg : Cfg} {s : Shared} {calls : List Thread} {H : Tid → Held}
    (i : LockInv { sh := s, calls := calls } H) {t : Tid} {op : Op} {o : Oracle} {β : Type} {a : Act β}
    {k : β → Prog Ret} {e : Crash} (h : calls[t]? = some { op := op, oracle := o, prog := .act a k }) {d : Discipline}
    (hd : Allowed d (H t) a) (he : exec cfg o t a s = .crash e) :
    LockInv { sh := s, calls := calls.set t { op := op, oracle := o, prog := .crash e } } H := by
  have hq := hd.quiet (lock_no_crash i.link hd he)
  have hlt := (List.getElem?_eq_some_iff.1 h).1
  refine ⟨i.link, ?_, ?_, i.order⟩
  · intro u x hu
    simp only at hu
    by_cases htu : u = t
    · subst htu
      rw [List.getElem?_set_self hlt] at hu
      injection hu with hu; subst hu
      exact Good.crash hq e
    · rw [List.getElem?_set_ne (Ne.symm htu)] at hu
      exact i.good u x hu
  · intro u hu
    simp only [List.length_set] at hu
    exact i.fresh u hu

theorem lockInv_step {cfg : Cfg} {c c' : Config} {H : Tid → Held} (i : LockInv c H) (hs : Step cfg c c') :
    ∃ H', LockInv c' H' := by
  cases hs with
  | invoke op o => exact ⟨H, lockInv_invoke i op o⟩
  | move t h =>
    cases h with
    | act h he =>
      obtain ⟨d, hd⟩ := (i.good t _ h).allowed
      exact ⟨_, lockInv_act i h hd he⟩
    | crash h he =>
      obtain ⟨d, hd⟩ := (i.good t _ h).allowed
      exact ⟨_, lockInv_crash i h hd he⟩

theorem lockInv_reachable {cfg : Cfg} {c : Config} (h : ConcReachable cfg c) : ∃ H, LockInv c H := by
  have : ∀ c₀ c, Steps cfg c₀ c → (∃ H, LockInv c₀ H) → ∃ H, LockInv c H := by
    intro c₀ c hs
    induction hs with
    | refl => exact id
    | tail _ hs ih => intro h0; obtain ⟨H, hH⟩ := ih h0; exact lockInv_step hH hs
  exact this _ _ h ⟨_, lockInv_init⟩

end Visigoth
