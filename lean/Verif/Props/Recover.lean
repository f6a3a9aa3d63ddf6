import Verif.Proofs.Recover
import Verif.Props.ConcAtomic
/-!
# C68: a recovered panic of Search; C46: reading calls among other calls

All theorems are about every configuration reachable from an empty repository by any number of calls, any
interleaving of them, and any number of recovered panics.
-/
namespace Visigoth

variable {cfg : Cfg}

/-! ## C46 -/

/-- A reading call, at any stage of its execution, can be taken out of it: without its read locks the
repository is as it is after an execution in which that call has not begun, and no other call has seen
any difference. -/
theorem C46_unseen {c : Config} (h : ConcReachable cfg c) (t : Tid) (x : Thread) (hx : c.calls[t]? = some x)
    (hr : x.op.isRead = true) :
    ConcReachable cfg { sh := c.sh.without t, calls := c.calls.set t (x.unstarted cfg) } := by
  have := unstart_reachable h t (fun y hy => by rw [hx] at hy; cases hy; exact hr)
  rwa [unstart_some hx] at this

/-- A reading call that has returned has left nothing at all: the same execution without it leads to the
same repository, locks included. -/
theorem C46_returned_unseen {c : Config} (h : ConcReachable cfg c) (t : Tid) (x : Thread) (r : Ret)
    (hx : c.calls[t]? = some x) (hr : x.op.isRead = true) (hret : x.prog = .ret r) :
    ConcReachable cfg { sh := c.sh, calls := c.calls.set t (x.unstarted cfg) } := by
  have := C46_unseen h t x hx hr
  have e : c.sh.without t = c.sh := by
    obtain ⟨H, i⟩ := lockInv_reachable h
    have hc : (H t) = {} := by
      have := returned_end i hx hret
      obtain ⟨op, o, p⟩ := x
      cases op <;> first | exact this | cases hr
    have no : ∀ m, (c.sh.mu m).without t = c.sh.mu m := by
      intro m
      unfold RW.without
      rw [List.filter_eq_self.2]
      intro u hu
      simp only [ne_eq, decide_not, Bool.not_eq_eq_eq_not, Bool.not_true, decide_eq_false_iff_not]
      intro e
      subst e
      have := ((i.link m).mem u).1 hu
      rw [hc] at this
      cases m <;> cases this
    have h1 := no .indices
    have h2 := no .aliases
    simp only [Shared.mu] at h1 h2
    unfold Shared.without
    rw [h1, h2]
  rwa [e] at this

/-- A `Search` in the middle of its work, holding both read locks, while a `Drop` is waiting for it. -/
example : (Config.init.play sampleCfg
      ([callNow (.put (str "x") docD)] ++ goes 0 13 ++ [callNow (.alias (str "a") (str "x"))] ++ goes 1 9 ++
       [callNow (.search (str "a") (str "java") linearSearch)] ++ goes 2 3 ++ [callNow (.drop (str "x"))] ++ goes 3 4)).map
      (fun c => (c.sh.imu, c.sh.amu, (c.sh.without 2).imu, (c.sh.without 2).amu))
    = some (⟨[2], some 3⟩, ⟨[2], none⟩, ⟨[], some 3⟩, ⟨[], none⟩) := by decide +kernel

/-! ## C68 -/

/-- What may happen next: a step as before, or a panicked call is unwound. -/
inductive RSched where
  | go (x : Sched)
  | unwind (t : Tid)

def RConfig.next (cfg : Cfg) (r : RConfig) : RSched → Option RConfig
  | .go x => (r.conf.next cfg x).map fun c => { r with conf := c }
  | .unwind t =>
    match r.conf.calls[t]? with
    | some { op := .search _ _ _, oracle := o, prog := .crash x } =>
      if x ≠ .invalid ∧ t ∉ r.unwound then
        match exec cfg o t (.runlock .indices) r.conf.sh with
        | .ok _ s' => some { conf := { sh := s', calls := r.conf.calls }, unwound := t :: r.unwound }
        | _ => none
      else none
    | _ => none

def RConfig.play (cfg : Cfg) (r : RConfig) : List RSched → Option RConfig
  | [] => some r
  | x :: xs => (r.next cfg x).bind fun r' => r'.play cfg xs

/-- A played schedule is an execution. -/
theorem rplay_reachable {r r' : RConfig} {xs : List RSched} (h0 : RReachable cfg r) (h : r.play cfg xs = some r') :
    RReachable cfg r' := by
  have one : ∀ {r r' : RConfig} {x : RSched}, r.next cfg x = some r' → RStep cfg r r' := by
    intro r r' x hx
    obtain ⟨⟨s, calls⟩, D⟩ := r
    cases x with
    | go x =>
      simp only [RConfig.next, Option.map_eq_some_iff] at hx
      obtain ⟨c, hc, rfl⟩ := hx
      exact .step (next_step hc)
    | unwind t =>
      simp only [RConfig.next] at hx
      split at hx
      · next n ts e o x hc =>
        split at hx
        · next hne =>
          split at hx
          · next b s' he => cases hx; exact .unwind t hc hne.1 hne.2 he
          · cases hx
        · cases hx
      · cases hx
  induction xs generalizing r with
  | nil => cases h; exact h0
  | cons x xs ih =>
    simp only [RConfig.play, Option.bind_eq_some_iff] at h
    obtain ⟨r1, h1, h2⟩ := h
    exact ih (.tail h0 (one h1)) h2

/-- A `Search` that panicked holds the read lock its deferred call releases: unwinding cannot fail. -/
theorem C68_unwinds {r : RConfig} (h : RReachable cfg r) {t : Tid} {n : Name} {ts : Str} {e : Engine} {o : Oracle}
    {x : Crash} (hc : r.conf.calls[t]? = some { op := .search n ts e, oracle := o, prog := .crash x })
    (hx : x ≠ .invalid) (ht : t ∉ r.unwound) :
    ∃ s', RStep cfg r { conf := { sh := s', calls := r.conf.calls }, unwound := t :: r.unwound } := by
  obtain ⟨⟨s, calls⟩, D⟩ := r
  have v := (rinv_reachable h).reach
  have hget : (unstartAll cfg D calls)[t]? = some { op := .search n ts e, oracle := o, prog := .crash x } := by
    simp only at hc ht
    rw [getElem?_unstartAll, hc]
    simp [ht]
  have hm := (panicked_holds v hget hx).1
  exact ⟨_, .unwind t hc hx ht (by simp only [exec]; exact if_pos hm)⟩

/-- A call that has recovered holds no lock and waits for none. -/
theorem C68_no_lock_left {r : RConfig} (h : RReachable cfg r) (t : Tid) (ht : t ∈ r.unwound) :
    t ∉ r.conf.sh.imu.readers ∧ t ∉ r.conf.sh.amu.readers ∧ r.conf.sh.imu.writer ≠ some t ∧
      r.conf.sh.amu.writer ≠ some t := (rinv_reachable h).free t ht

/-- Recovered panics leave no trace: the repository, and every other call, is as after an execution in
which none of the calls that panicked and recovered has begun. -/
theorem C68_no_trace {r : RConfig} (h : RReachable cfg r) :
    ConcReachable cfg { sh := r.conf.sh, calls := unstartAll cfg r.unwound r.conf.calls } := (rinv_reachable h).reach

/-- So whatever holds of the repository in every execution without recovered panics holds in every
execution with them, -/
theorem C68_state {P : Shared → Prop} (hP : ∀ c, ConcReachable cfg c → P c.sh) {r : RConfig} (h : RReachable cfg r) :
    P r.conf.sh :=
  hP { sh := r.conf.sh, calls := unstartAll cfg r.unwound r.conf.calls } (C68_no_trace h)

/-- and whatever holds of the repository and the call number `t` does, too, unless `t` is one of those
that panicked and recovered. -/
theorem C68_calls {P : Shared → Tid → Thread → Prop}
    (hP : ∀ c, ConcReachable cfg c → ∀ (t : Tid) x, c.calls[t]? = some x → P c.sh t x)
    {r : RConfig} (h : RReachable cfg r) (t : Tid) (x : Thread) (ht : t ∉ r.unwound) (hx : r.conf.calls[t]? = some x) :
    P r.conf.sh t x := by
  refine hP _ (C68_no_trace h) t x ?_
  simp only
  rw [getElem?_unstartAll, hx]
  simp [ht]

/-- No deadlock after recovered panics, as long as no finished call has kept a lock, -/
theorem C68_no_deadlock {r : RConfig} (h : RReachable cfg r) (hl : ¬ r.conf.leaked) {t : Tid} {x : Thread}
    (hx : r.conf.calls[t]? = some x) (hrun : x.running) : ∃ u, r.conf.canMove cfg u := by
  obtain ⟨H, i⟩ := rlockInv_reachable h
  exact no_deadlock_inv i hl hx hrun

/-- and those that panicked and recovered have not. -/
theorem C68_who_leaks {r : RConfig} (h : RReachable cfg r) {t : Tid} {x : Thread} {m : Mu}
    (hx : r.conf.calls[t]? = some x) (hrun : ¬ x.running) (hh : r.conf.sh.holds m t) :
    (∃ al i, x.op = .unAlias al i ∧ i ≠ [] ∧ x.prog = .ret (.bool false)) ∨
      ((∃ e, x.prog = .crash e) ∧ t ∉ r.unwound) := by
  by_cases ht : t ∈ r.unwound
  · obtain ⟨f1, f2, f3, f4⟩ := C68_no_lock_left h t ht
    cases m <;> rcases hh with hh | hh <;> contradiction
  · exact (C68_calls (P := fun s t x => ¬ x.running → s.holds m t →
        (∃ al i, x.op = .unAlias al i ∧ i ≠ [] ∧ x.prog = .ret (.bool false)) ∨ ∃ e, x.prog = .crash e)
      (fun c hc t x hx hrun hh => C49_who_leaks hc hx hrun hh) h t x ht hx hrun hh).imp id fun he => ⟨he, ht⟩

/-- What the calls have come to. -/
def rplayed (xs : List RSched) : Option (List (Option (Ret ⊕ Crash)) × List Tid × RW) :=
  (RConfig.init.play sampleCfg xs).map fun r => (r.conf.endings, r.unwound, r.conf.sh.imu)

def doNow (op : Op) : RSched := .go (callNow op)
def rgoes (t : Tid) (n : Nat) : List RSched := (goes t n).map .go

/-- Put x; Alias a x; Rename x x; Search a: panics with a nil index, holding the read lock. -/
def panicSchedule : List RSched :=
  [doNow (.put (str "x") docD)] ++ rgoes 0 13 ++ [doNow (.alias (str "a") (str "x"))] ++ rgoes 1 9 ++
  [doNow (.rename (str "x") (str "x"))] ++ rgoes 2 10 ++
  [doNow (.search (str "a") (str "java") linearSearch)] ++ rgoes 3 7

/-- It holds the read lock, so a `Put` cannot go on once it needs the lock for itself: it announces
itself and waits. -/
example :
    rplayed (panicSchedule ++ [doNow (.put (str "y") docE)] ++ rgoes 4 7)
      = some ([some (.inl .unit), some (.inl (.bool true)), some (.inl (.bool true)), some (.inr .nilIndex), none], [], ⟨[3], some 4⟩) ∧
    rplayed (panicSchedule ++ [doNow (.put (str "y") docE)] ++ rgoes 4 8) = none := by decide +kernel

/-- Once it is unwound and recovered, the `Put` returns. -/
example :
    rplayed (panicSchedule ++ [doNow (.put (str "y") docE)] ++ rgoes 4 7 ++ [.unwind 3] ++ rgoes 4 6)
      = some ([some (.inl .unit), some (.inl (.bool true)), some (.inl (.bool true)), some (.inr .nilIndex),
          some (.inl .unit)], [3], ⟨[], none⟩) := by decide +kernel

end Visigoth
