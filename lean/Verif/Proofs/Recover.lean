import Verif.Spec.Recover
import Verif.Proofs.Atomic
/-! Reading calls can be taken out of an execution. -/
namespace Visigoth

variable {cfg : Cfg} {o : Oracle} {t : Tid}

/-- Actions of a write lock. -/
def Act.isExcl {β : Type} : Act β → Bool
  | .announce _ | .acquire _ | .unlock _ => true
  | _ => false

/-- A program that writes nothing and takes no write lock. -/
def Reads {α : Type} : Prog α → Prop
  | .ret _ => True
  | .crash _ => True
  | .act a k => a.writes = none ∧ a.isExcl = false ∧ ∀ b, Reads (k b)

theorem reads_bind {α β : Type} {p : Prog α} {f : α → Prog β} (h : Reads p) (hf : ∀ a, Reads (f a)) :
    Reads (p >>= f) := by
  show Reads (p.bind f)
  induction p with
  | ret a => exact hf a
  | crash e => trivial
  | act a k ih => exact ⟨h.1, h.2.1, fun b => ih b (h.2.2 b)⟩

theorem reads_tame {α : Type} {p : Prog α} (h : Tame true p) : Reads p := by
  induction p with
  | ret a => trivial
  | crash e => trivial
  | act a k ih =>
    refine ⟨h.2.1 rfl, ?_, fun b => ih b (h.2.2 b)⟩
    have := h.1
    cases a <;> simp [Act.isLock] at this <;> rfl

theorem reads_read (op : Op) (h : op.isRead = true) : Reads (op.prog cfg) := by
  have av : ∀ {α β : Type} (a : Act β) {f : β → Prog α}, a.writes = none → a.isExcl = false → (∀ b, Reads (f b)) →
      Reads (perform a >>= f) := fun a f ha he hf => ⟨ha, he, hf⟩
  cases op <;> simp only [Op.isRead, Bool.false_eq_true] at h
  case list => exact av _ rfl rfl fun _ => av _ rfl rfl fun _ => av _ rfl rfl fun _ => trivial
  case has => exact av _ rfl rfl fun _ => av _ rfl rfl fun _ => av _ rfl rfl fun _ => trivial
  case hasAlias => exact av _ rfl rfl fun _ => av _ rfl rfl fun _ => av _ rfl rfl fun _ => trivial
  case string =>
    exact reads_bind (p := Repo.string) (av _ rfl rfl fun _ => av _ rfl rfl fun ks =>
      reads_bind (reads_tame (tame_renderAll ks)) fun _ => av _ rfl rfl fun _ => trivial) fun _ => trivial
  case listAliases =>
    exact reads_bind (p := Repo.listAliases) (av _ rfl rfl fun _ => av _ rfl rfl fun ks =>
      reads_bind (reads_tame (tame_listRows ks)) fun _ => av _ rfl rfl fun _ => trivial) fun _ => trivial
  case search n ts e =>
    refine reads_bind (p := Repo.search n ts e) ?_ fun r => by cases r <;> trivial
    unfold Repo.search
    refine av _ rfl rfl fun _ => av _ rfl rfl fun x => ?_
    cases x with
    | some p => exact reads_bind (reads_tame (tame_searchTargets _ _ _)) fun _ => av _ rfl rfl fun _ => trivial
    | none =>
      refine av _ rfl rfl fun _ => av _ rfl rfl fun r => ?_
      cases r with
      | none => exact av _ rfl rfl fun _ => av _ rfl rfl fun _ => trivial
      | some r =>
        exact reads_bind (reads_tame (tame_resolveFrom _ _ _)) fun ps => av _ rfl rfl fun _ =>
          reads_bind (reads_tame (tame_searchTargets _ _ _)) fun _ => av _ rfl rfl fun _ => trivial

/-- In every reachable configuration reading calls only read. -/
theorem reads_reachable {c : Config} (h : ConcReachable cfg c) :
    ∀ (t : Tid) x, c.calls[t]? = some x → x.op.isRead = true → Reads x.prog := by
  unfold ConcReachable at h
  generalize h0 : Config.init = c0 at h
  induction h with
  | refl => subst h0; intro t x hx; simp [Config.init] at hx
  | @tail c1 c2 _ hs ih =>
    cases hs with
    | invoke op o =>
      intro t x hx hr
      simp only at hx
      rw [List.getElem?_append] at hx
      split at hx
      · exact ih t x hx hr
      · obtain ⟨rfl⟩ : x = { op := op, oracle := o, prog := op.prog cfg } := by
          rw [List.getElem?_singleton] at hx
          split at hx
          · exact (Option.some.inj hx).symm
          · cases hx
        exact reads_read op hr
    | move u hu =>
      cases hu with
      | act h he =>
        intro t x hx hr
        simp only at hx
        rw [List.getElem?_set] at hx
        split at hx
        · next e =>
          split at hx
          · have hx := (Option.some.inj hx).symm
            subst hx
            exact (ih u _ h hr).2.2 _
          · cases hx
        · exact ih t x hx hr
      | crash h he =>
        intro t x hx hr
        simp only at hx
        rw [List.getElem?_set] at hx
        split at hx
        · next e =>
          split at hx
          · have hx := (Option.some.inj hx).symm
            subst hx
            trivial
          · cases hx
        · exact ih t x hx hr

/-! ## Masking read locks -/

theorem mu_without (t : Tid) (s : Shared) (m : Mu) : (s.without t).mu m = (s.mu m).without t := by
  cases m <;> rfl

theorem setMu_without (t : Tid) (s : Shared) (m : Mu) (l : RW) :
    (s.setMu m l).without t = (s.without t).setMu m (l.without t) := by
  cases m <;> rfl

theorem setMu_self (s : Shared) (m : Mu) : s.setMu m (s.mu m) = s := by cases m <;> rfl

theorem setMu_setMu (s : Shared) (m : Mu) (l l' : RW) : (s.setMu m l).setMu m l' = s.setMu m l' := by cases m <;> rfl

theorem without_rlock (t : Tid) (l : RW) : ({ l with readers := t :: l.readers } : RW).without t = l.without t := by
  simp [RW.without]

theorem without_runlock (t : Tid) (l : RW) : ({ l with readers := l.readers.erase t } : RW).without t = l.without t := by
  unfold RW.without
  congr 1
  generalize l.readers = xs
  induction xs with
  | nil => rfl
  | cons x xs ih =>
    rw [List.erase_cons]
    split
    · next e => simp at e; subst e; simp
    · rw [List.filter_cons, List.filter_cons, ih]

/-- A reading action changes nothing but read locks of its own call. -/
theorem exec_own {β : Type} {a : Act β} {s s' : Shared} {b : β} (hw : a.writes = none) (hx : a.isExcl = false)
    (he : exec cfg o t a s = .ok b s') : s'.without t = s.without t := by
  cases a <;> simp only [Act.writes, Act.isExcl, reduceCtorEq] at hw hx <;> simp only [exec] at he
  case rlock m =>
    split at he
    · cases he
      rw [setMu_without, without_rlock, ← mu_without, setMu_self]
    · cases he
  case runlock m =>
    split at he
    · cases he
      rw [setMu_without, without_runlock, ← mu_without, setMu_self]
    · cases he
  all_goals first
    | (cases he; rfl)
    | (split at he <;> first | (cases he; rfl) | cases he)

/-- Other calls do not depend on the read locks of call `u`, as long as they are not blocked by them. -/
theorem exec_without {β : Type} (a : Act β) (s : Shared) {u : Tid} (hu : t ≠ u) :
    match exec cfg o t a s with
    | .ok b s' => exec cfg o t a (s.without u) = .ok b (s'.without u)
    | .crash e => exec cfg o t a (s.without u) = .crash e
    | .blocked => True := by
  cases a <;> simp only [exec]
  case rlock m =>
    rw [mu_without]
    by_cases hw : (s.mu m).writer = none
    · have : ((s.mu m).without u).writer = none := hw
      rw [if_pos hw, if_pos this]
      simp only [setMu_without]
      congr 2
      simp [RW.without, hu]
    · rw [if_neg hw]; trivial
  case runlock m =>
    rw [mu_without]
    by_cases hw : t ∈ (s.mu m).readers
    · have : t ∈ ((s.mu m).without u).readers := by simp [RW.without, hw, hu]
      rw [if_pos hw, if_pos this]
      simp only [setMu_without]
      congr 2
      unfold RW.without
      simp only
      congr 1
      rw [List.erase_filter]
    · have : t ∉ ((s.mu m).without u).readers := by simp [RW.without, hw]
      rw [if_neg hw, if_neg this]
  case announce m =>
    rw [mu_without]
    by_cases hw : (s.mu m).writer = none
    · have : ((s.mu m).without u).writer = none := hw
      rw [if_pos hw, if_pos this]
      simp only [setMu_without]
      rfl
    · rw [if_neg hw]; trivial
  case acquire m =>
    rw [mu_without]
    by_cases hw : (s.mu m).writer = some t
    · have h1 : ((s.mu m).without u).writer = some t := hw
      rw [if_pos hw, if_pos h1]
      by_cases hr : (s.mu m).readers = []
      · have h2 : ((s.mu m).without u).readers = [] := by simp [RW.without, hr]
        rw [if_pos hr, if_pos h2]
      · rw [if_neg hr]; trivial
    · have h1 : ¬ ((s.mu m).without u).writer = some t := hw
      rw [if_neg hw, if_neg h1]
  case unlock m =>
    rw [mu_without]
    by_cases hw : (s.mu m).writer = some t
    · have h1 : ((s.mu m).without u).writer = some t := hw
      rw [if_pos hw, if_pos h1]
      simp only [setMu_without]
      rfl
    · have h1 : ¬ ((s.mu m).without u).writer = some t := hw
      rw [if_neg hw, if_neg h1]
  case slRead r i =>
    have e : (s.without u).elems r = s.elems r := rfl
    rw [e]
    cases (s.elems r)[i]? <;> rfl
  case slWrite r i v =>
    have e : (s.without u).arrays = s.arrays := rfl
    rw [e]
    cases s.arrays[r.arr]? with
    | none => rfl
    | some a =>
      by_cases h : i < r.len
      · simp only [if_pos h]; rfl
      · simp only [if_neg h]
  case slAppend r v =>
    have e : (s.without u).arrays = s.arrays := rfl
    rw [e]
    cases s.arrays[r.arr]? with
    | none => rfl
    | some a =>
      by_cases h : r.len < a.length
      · simp only [if_pos h]; rfl
      · simp only [if_neg h]; rfl
  case docAppend p d =>
    have e : (s.without u).heap = s.heap := rfl
    rw [e]
    cases s.heap[p]? <;> rfl
  case postAdd p tok next =>
    have e : (s.without u).heap = s.heap := rfl
    rw [e]
    cases s.heap[p]? <;> rfl
  case evalEngine p ts e' =>
    have e : (s.without u).heap = s.heap := rfl
    rw [e]
    cases s.heap[p]? <;> rfl
  case render p =>
    have e : (s.without u).heap = s.heap := rfl
    rw [e]
    cases s.heap[p]? <;> rfl
  all_goals rfl

theorem exec_other {β : Type} {a : Act β} {s s' : Shared} {b : β} {u : Tid} (hu : t ≠ u)
    (he : exec cfg o t a s = .ok b s') : exec cfg o t a (s.without u) = .ok b (s'.without u) := by
  have := exec_without (cfg := cfg) (o := o) a s hu
  rw [he] at this
  exact this

theorem exec_other_crash {β : Type} {a : Act β} {s : Shared} {e : Crash} {u : Tid} (hu : t ≠ u)
    (he : exec cfg o t a s = .crash e) : exec cfg o t a (s.without u) = .crash e := by
  have := exec_without (cfg := cfg) (o := o) a s hu
  rw [he] at this
  exact this

/-! ## Taking a reading call out of an execution -/

/-- Call `t` not begun, and its read locks given back. -/
def Config.unstart (cfg : Cfg) (t : Tid) (c : Config) : Config :=
  { sh := c.sh.without t
    calls := match c.calls[t]? with
      | some x => c.calls.set t (x.unstarted cfg)
      | none => c.calls }

theorem without_init (t : Tid) : newIndexRepo.without t = newIndexRepo := rfl

theorem without_fresh {t : Tid} {s : Shared} (hi : t ∉ s.imu.readers) (ha : t ∉ s.amu.readers) : s.without t = s := by
  have key : ∀ l : RW, t ∉ l.readers → l.without t = l := by
    intro l hl
    unfold RW.without
    have : l.readers.filter (· ≠ t) = l.readers :=
      List.filter_eq_self.2 (fun x hx => by simp; intro h; subst h; exact hl hx)
    rw [this]
  unfold Shared.without
  rw [key _ hi, key _ ha]

theorem unstart_some {t : Tid} {c : Config} {x : Thread} (h : c.calls[t]? = some x) :
    c.unstart cfg t = { sh := c.sh.without t, calls := c.calls.set t (x.unstarted cfg) } := by
  unfold Config.unstart; rw [h]

theorem unstart_none {t : Tid} {c : Config} (h : c.calls[t]? = none) :
    c.unstart cfg t = { sh := c.sh.without t, calls := c.calls } := by
  unfold Config.unstart; rw [h]

/-- A reading call can be taken out: the configuration in which it has not begun is reachable. -/
theorem unstart_reachable {c : Config} (h : ConcReachable cfg c) (u : Tid)
    (hu : ∀ x, c.calls[u]? = some x → x.op.isRead = true) : ConcReachable cfg (c.unstart cfg u) := by
  have hall : ∀ c, ConcReachable cfg c → (∀ x, c.calls[u]? = some x → x.op.isRead = true) →
      ConcReachable cfg (c.unstart cfg u) := by
    intro c h
    unfold ConcReachable at h
    generalize h0 : Config.init = c0 at h
    induction h with
    | refl => subst h0; intro _; exact .refl _
    | @tail c1 c2 hr hs ih =>
      subst h0
      intro hx
      cases hs with
      | invoke op o =>
        by_cases hlt : u < c1.calls.length
        · obtain ⟨x, hc⟩ : ∃ x, c1.calls[u]? = some x := ⟨_, List.getElem?_eq_getElem hlt⟩
          have hc' : (c1.calls ++ [({ op := op, oracle := o, prog := op.prog cfg } : Thread)])[u]? = some x := by
            rw [List.getElem?_append_left hlt]; exact hc
          have := ih (fun y hy => hx y (by simp only; rw [List.getElem?_append_left hlt]; exact hy))
          rw [unstart_some hc] at this
          rw [unstart_some (c := { c1 with calls := _ }) hc']
          refine .tail this ?_
          simp only
          rw [List.set_append_left _ _ hlt]
          exact .invoke _ op o
        · have hc : c1.calls[u]? = none := List.getElem?_eq_none (Nat.le_of_not_lt hlt)
          have := ih (fun y hy => by rw [hc] at hy; cases hy)
          rw [unstart_none hc] at this
          have : ConcReachable cfg
              { sh := c1.sh.without u, calls := c1.calls ++ [{ op := op, oracle := o, prog := op.prog cfg }] } :=
            .tail this (.invoke _ op o)
          cases hc2 : (c1.calls ++ [({ op := op, oracle := o, prog := op.prog cfg } : Thread)])[u]? with
          | none => rw [unstart_none (c := { c1 with calls := _ }) hc2]; exact this
          | some y =>
            rw [unstart_some (c := { c1 with calls := _ }) hc2]
            have hy : y.unstarted cfg = y := by
              rw [List.getElem?_append_right (Nat.le_of_not_lt hlt), List.getElem?_singleton] at hc2
              split at hc2
              · cases hc2; rfl
              · cases hc2
            rw [hy]
            simp only
            have hs : ∀ (l : List Thread), l[u]? = some y → l.set u y = l := by
              intro l hl
              obtain ⟨h1, h2⟩ := List.getElem?_eq_some_iff.1 hl
              rw [← h2, List.set_getElem_self]
            rw [hs _ hc2]
            exact this
      | move v hv =>
        have hops : ∀ y, c1.calls[u]? = some y → y.op.isRead = true := by
          intro y hy
          cases hv with
          | @act s s' calls op o β a k b h he =>
            by_cases e : v = u
            · subst e
              simp only at hy
              rw [h] at hy; cases hy
              exact hx { op := op, oracle := o, prog := k b }
                (by simp only; rw [List.getElem?_set_self (List.getElem?_eq_some_iff.1 h).1])
            · exact hx y (by simp only; rw [List.getElem?_set_ne e]; exact hy)
          | @crash s calls op o β a k e' h he =>
            by_cases e : v = u
            · subst e
              simp only at hy
              rw [h] at hy; cases hy
              exact hx { op := op, oracle := o, prog := .crash e' }
                (by simp only; rw [List.getElem?_set_self (List.getElem?_eq_some_iff.1 h).1])
            · exact hx y (by simp only; rw [List.getElem?_set_ne e]; exact hy)
        have ih := ih hops
        have hreads := reads_reachable hr u
        cases hv with
        | @act s s' calls op o β a k b h he =>
          have hlt := (List.getElem?_eq_some_iff.1 h).1
          by_cases e : v = u
          · subst e
            have hr := hreads _ h (hops _ h)
            rw [unstart_some (c := ⟨s, calls⟩) h] at ih
            rw [unstart_some (c := ⟨s', _⟩) (List.getElem?_set_self hlt)]
            simp only [exec_own hr.1 hr.2.1 he, List.set_set]
            exact ih
          · cases hc : calls[u]? with
            | none =>
              rw [unstart_none (c := ⟨s, calls⟩) hc] at ih
              rw [unstart_none (c := ⟨s', _⟩) (by rw [List.getElem?_set_ne e]; exact hc)]
              exact .tail ih (.move v (.act h (exec_other e he)))
            | some x =>
              rw [unstart_some (c := ⟨s, calls⟩) hc] at ih
              rw [unstart_some (c := ⟨s', _⟩) (by rw [List.getElem?_set_ne e]; exact hc)]
              refine .tail ih (.move v ?_)
              simp only
              rw [List.set_comm _ _ e]
              exact .act (by rw [List.getElem?_set_ne (Ne.symm e)]; exact h) (exec_other e he)
        | @crash s calls op o β a k e' h he =>
          have hlt := (List.getElem?_eq_some_iff.1 h).1
          by_cases e : v = u
          · subst e
            rw [unstart_some (c := ⟨s, calls⟩) h] at ih
            rw [unstart_some (c := ⟨s, _⟩) (List.getElem?_set_self hlt)]
            simp only [List.set_set]
            exact ih
          · cases hc : calls[u]? with
            | none =>
              rw [unstart_none (c := ⟨s, calls⟩) hc] at ih
              rw [unstart_none (c := ⟨s, _⟩) (by rw [List.getElem?_set_ne e]; exact hc)]
              exact .tail ih (.move v (.crash h (exec_other_crash e he)))
            | some x =>
              rw [unstart_some (c := ⟨s, calls⟩) hc] at ih
              rw [unstart_some (c := ⟨s, _⟩) (by rw [List.getElem?_set_ne e]; exact hc)]
              refine .tail ih (.move v ?_)
              simp only
              rw [List.set_comm _ _ e]
              exact .crash (by rw [List.getElem?_set_ne (Ne.symm e)]; exact h) (exec_other_crash e he)
  exact hall c h hu

/-! ## Where `Search` can panic -/

/-- Whenever the program panics (other than by an action the runtime rejects), exactly the read lock of the
index map is held. -/
def Panics {α : Type} (Q : Held → α → Prop) (h : Held) : Prog α → Prop
  | .ret a => Q h a
  | .crash e => e ≠ .invalid → h = { imu := .read, amu := .none }
  | .act a k => ∀ b, Panics Q (h.after a) (k b)

theorem panics_bind {α β : Type} {Q : Held → β → Prop} (f : α → Prog β) :
    ∀ {p : Prog α} {h : Held}, Panics (fun h a => Panics Q h (f a)) h p → Panics Q h (p >>= f) := by
  intro p
  show ∀ {h : Held}, _ → Panics Q h (p.bind f)
  induction p with
  | ret a => intro h hp; exact hp
  | crash c => intro h hp; exact hp
  | act a k ih => intro h hp b; exact ih b (hp b)

theorem panics_tame {α β : Type} {Q : Held → β → Prop} {p : Prog α} (f : α → Prog β) (hp : Tame true p)
    (hf : ∀ a, Panics Q { imu := .read, amu := .none } (f a)) :
    Panics Q { imu := .read, amu := .none } (p >>= f) := by
  show Panics Q _ (p.bind f)
  induction p with
  | ret a => exact hf a
  | crash c => exact fun _ => rfl
  | act a k ih =>
    intro b
    rw [after_data hp.1]
    exact ih b (hp.2.2 b)

theorem panics_resolve {β : Type} {Q : Held → β → Prop} {h : Held} (f : List (Option Ptr) → Prog β)
    (hf : ∀ a, Panics Q h (f a)) (r : SliceRef) (i n : Nat) : Panics Q h (Repo.resolveFrom r i n >>= f) := by
  refine panics_bind f ?_
  have gen : ∀ (n i : Nat) (P : List (Option Ptr) → Prop), (∀ a, P a) →
      Panics (fun h' a => h' = h ∧ P a) h (Repo.resolveFrom r i n) := by
    intro n
    induction n with
    | zero => intro i P hP; exact ⟨rfl, hP _⟩
    | succ n ih =>
      intro i P hP
      intro x p
      refine panics_bind (p := Repo.resolveFrom r (i + 1) n) _ ?_
      have := ih (i + 1) (fun ps => P (p :: ps)) (fun a => hP _)
      exact this
  have mono : ∀ {α : Type} {Q Q' : Held → α → Prop} {p : Prog α} {h : Held}, (∀ h a, Q h a → Q' h a) →
      Panics Q h p → Panics Q' h p := by
    intro α Q Q' p
    induction p with
    | ret a => intro h hq hp; exact hq _ _ hp
    | crash c => intro h _ hp; exact hp
    | act a k ih => intro h hq hp b; exact ih b hq (hp b)
  exact mono (fun h' a ⟨e, _⟩ => e ▸ hf a) (gen n i (fun _ => True) fun _ => trivial)

theorem panics_search (n : Name) (ts : Str) (e : Engine) :
    Panics (fun _ _ => True) {} ((Op.search n ts e).prog cfg) := by
  have ac : ∀ {α β : Type} {Q : Held → α → Prop} {h : Held} (a : Act β) {f : β → Prog α},
      (∀ b, Panics Q (h.after a) (f b)) → Panics Q h (perform a >>= f) := fun a f hf => hf
  refine panics_bind (p := Repo.search n ts e) _ ?_
  unfold Repo.search
  refine ac _ fun _ => ac _ fun x => ?_
  cases x with
  | some p =>
    refine panics_tame _ (tame_searchTargets _ _ _) fun res => ?_
    exact ac (.runlock .indices) fun _ => trivial
  | none =>
    refine ac _ fun _ => ac _ fun r => ?_
    cases r with
    | none => exact ac _ fun _ => ac _ fun _ => trivial
    | some r =>
      refine panics_resolve _ (fun ps => ac _ fun _ => ?_) r 0 r.len
      refine panics_tame _ (tame_searchTargets _ _ _) fun res => ?_
      exact ac (.runlock .indices) fun _ => trivial

theorem exec_crash_invalid {β : Type} {a : Act β} {s : Shared} {e : Crash} (he : exec cfg o t a s = .crash e) :
    e = .invalid := by
  cases a <;> simp only [exec] at he
  all_goals repeat' split at he
  all_goals first | (cases he; rfl) | cases he

/-- The calls follow their locking discipline, and `Search` panics where `Panics` says. -/
def PanicInv (c : Config) (H : Tid → Held) : Prop :=
  ∀ (t : Tid) x, c.calls[t]? = some x → (∃ n ts e, x.op = .search n ts e) → Panics (fun _ _ => True) (H t) x.prog

theorem panicInv_reachable {c : Config} (h : ConcReachable cfg c) : ∃ H, LockInv c H ∧ PanicInv c H := by
  unfold ConcReachable at h
  generalize h0 : Config.init = c0 at h
  induction h with
  | refl => subst h0; exact ⟨_, lockInv_init, fun t x hx => by simp [Config.init] at hx⟩
  | @tail c1 c2 _ hs ih =>
    obtain ⟨H, i, p⟩ := ih
    cases hs with
    | invoke op o =>
      refine ⟨H, lockInv_invoke i op o, ?_⟩
      intro t x hx hop
      simp only at hx
      by_cases ht : t < c1.calls.length
      · rw [List.getElem?_append_left ht] at hx; exact p t x hx hop
      · rw [List.getElem?_append_right (Nat.le_of_not_lt ht), List.getElem?_singleton] at hx
        split at hx
        · cases hx
          obtain ⟨n, ts, e, rfl⟩ := hop
          rw [i.fresh t (Nat.le_of_not_lt ht)]
          exact panics_search (cfg := cfg) n ts e
        · cases hx
    | move u hu =>
      cases hu with
      | act h he =>
        obtain ⟨d, hd⟩ := (i.good u _ h).allowed
        refine ⟨_, lockInv_act i h hd he, ?_⟩
        intro t x hx hop
        simp only at hx
        by_cases htu : t = u
        · subst htu
          rw [List.getElem?_set_self (List.getElem?_eq_some_iff.1 h).1] at hx
          cases hx
          rw [setH_same]
          exact p t _ h hop _
        · rw [List.getElem?_set_ne (Ne.symm htu)] at hx
          rw [setH_other _ _ htu]
          exact p t x hx hop
      | crash h he =>
        obtain ⟨d, hd⟩ := (i.good u _ h).allowed
        refine ⟨_, lockInv_crash i h hd he, ?_⟩
        intro t x hx hop
        simp only at hx
        by_cases htu : t = u
        · subst htu
          rw [List.getElem?_set_self (List.getElem?_eq_some_iff.1 h).1] at hx
          cases hx
          exact fun hne => absurd (exec_crash_invalid he) hne
        · rw [List.getElem?_set_ne (Ne.symm htu)] at hx
          exact p t x hx hop

/-- What a `Search` that panicked holds. -/
theorem panicked_holds {c : Config} (h : ConcReachable cfg c) {n : Name} {ts : Str} {e : Engine} {x : Crash}
    (hc : c.calls[t]? = some { op := .search n ts e, oracle := o, prog := .crash x }) (hx : x ≠ .invalid) :
    t ∈ c.sh.imu.readers ∧ c.sh.imu.readers.Nodup ∧ t ∉ c.sh.amu.readers ∧ c.sh.imu.writer ≠ some t ∧
      c.sh.amu.writer ≠ some t := by
  obtain ⟨H, i, p⟩ := panicInv_reachable h
  have hp := p t _ hc ⟨n, ts, e, rfl⟩ hx
  have hi := i.link .indices
  have ha := i.link .aliases
  refine ⟨(hi.mem t).2 (by rw [hp]; rfl), hi.nodup, fun hm => ?_, fun hw => ?_, fun hw => ?_⟩
  · have := (ha.mem t).1 hm; rw [hp] at this; cases this
  · rcases (hi.wr t).1 hw with h | h <;> rw [hp] at h <;> cases h
  · rcases (ha.wr t).1 hw with h | h <;> rw [hp] at h <;> cases h

theorem erase_without {t : Tid} {s : Shared} (hn : s.imu.readers.Nodup) (ha : t ∉ s.amu.readers) :
    s.setMu .indices { s.mu .indices with readers := (s.mu .indices).readers.erase t } = s.without t := by
  have e1 : s.amu.without t = s.amu := by
    unfold RW.without
    have : s.amu.readers.filter (· ≠ t) = s.amu.readers :=
      List.filter_eq_self.2 (fun x hx => by simp; intro h; subst h; exact ha hx)
    rw [this]
  have e2 : s.imu.readers.erase t = s.imu.readers.filter (· ≠ t) := by
    rw [hn.erase_eq_filter]
    congr 1
    funext x
    simp [bne, BEq.beq]
  unfold Shared.without Shared.setMu Shared.mu RW.without
  simp only
  rw [e2]
  have := e1
  unfold RW.without at this
  rw [this]

/-! ## Executions with recovered panics -/

theorem getElem?_unstartAll (D : List Tid) (calls : List Thread) (t : Tid) :
    (unstartAll cfg D calls)[t]? = (calls[t]?).map fun x => if t ∈ D then x.unstarted cfg else x := by
  unfold unstartAll
  rw [List.getElem?_mapIdx]

theorem unstartAll_set {D : List Tid} {calls : List Thread} {v : Tid} {y : Thread} (hv : v ∉ D) :
    unstartAll cfg D (calls.set v y) = (unstartAll cfg D calls).set v y := by
  apply List.ext_getElem?
  intro i
  rw [getElem?_unstartAll, List.getElem?_set, List.getElem?_set]
  have hl : (unstartAll cfg D calls).length = calls.length := by simp [unstartAll]
  rw [hl]
  by_cases e : v = i
  · subst e
    by_cases hlt : v < calls.length
    · simp [hlt, hv]
    · simp [hlt]
  · rw [if_neg e, if_neg e, getElem?_unstartAll]

theorem unstartAll_append (D : List Tid) (calls : List Thread) (op : Op) (o : Oracle) :
    unstartAll cfg D (calls ++ [{ op := op, oracle := o, prog := op.prog cfg }])
      = unstartAll cfg D calls ++ [{ op := op, oracle := o, prog := op.prog cfg }] := by
  unfold unstartAll
  rw [List.mapIdx_append]
  simp [Thread.unstarted]

theorem unstartAll_cons {D : List Tid} {calls : List Thread} {t : Tid} {x : Thread} (h : calls[t]? = some x) :
    unstartAll cfg (t :: D) calls = (unstartAll cfg D calls).set t (x.unstarted cfg) := by
  apply List.ext_getElem?
  intro i
  have hlt := (List.getElem?_eq_some_iff.1 h).1
  rw [getElem?_unstartAll, List.getElem?_set]
  have hl : (unstartAll cfg D calls).length = calls.length := by simp [unstartAll]
  rw [hl]
  by_cases e : t = i
  · subst e
    simp [hlt, (List.getElem?_eq_some_iff.1 h).2]
  · rw [if_neg e, getElem?_unstartAll]
    have : i ≠ t := Ne.symm e
    simp [this]

/-- What holds in executions with recovered panics. -/
structure RInv (cfg : Cfg) (r : RConfig) : Prop where
  reach : ConcReachable cfg { sh := r.conf.sh, calls := unstartAll cfg r.unwound r.conf.calls }
  gone : ∀ t ∈ r.unwound, ∃ n ts e o x, r.conf.calls[t]? = some { op := .search n ts e, oracle := o, prog := .crash x }
  free : ∀ t ∈ r.unwound, t ∉ r.conf.sh.imu.readers ∧ t ∉ r.conf.sh.amu.readers ∧ r.conf.sh.imu.writer ≠ some t ∧
    r.conf.sh.amu.writer ≠ some t

/-- A call moves only its own locks. -/
theorem exec_locks {β : Type} {a : Act β} {s s' : Shared} {b : β} (he : exec cfg o t a s = .ok b s') (m : Mu) :
    (∀ u, u ≠ t → (u ∈ (s'.mu m).readers ↔ u ∈ (s.mu m).readers)) ∧
      ∀ u, u ≠ t → ((s'.mu m).writer = some u → (s.mu m).writer = some u) := by
  have same : s'.imu = s.imu → s'.amu = s.amu → (∀ u, u ≠ t → (u ∈ (s'.mu m).readers ↔ u ∈ (s.mu m).readers)) ∧
      ∀ u, u ≠ t → ((s'.mu m).writer = some u → (s.mu m).writer = some u) := by
    intro h1 h2
    have : s'.mu m = s.mu m := by cases m <;> assumption
    rw [this]
    exact ⟨fun _ _ => Iff.rfl, fun _ _ => id⟩
  have upd : ∀ (m' : Mu) (l : RW), (∀ u, u ≠ t → (u ∈ l.readers ↔ u ∈ (s.mu m').readers)) →
      (∀ u, u ≠ t → (l.writer = some u → (s.mu m').writer = some u)) → s' = s.setMu m' l →
      (∀ u, u ≠ t → (u ∈ (s'.mu m).readers ↔ u ∈ (s.mu m).readers)) ∧
      ∀ u, u ≠ t → ((s'.mu m).writer = some u → (s.mu m).writer = some u) := by
    intro m' l h1 h2 h3
    subst h3
    cases m <;> cases m' <;> first
      | exact ⟨h1, h2⟩
      | exact ⟨fun _ _ => Iff.rfl, fun _ _ => id⟩
  cases a <;> simp only [exec] at he
  case rlock m' =>
    split at he
    · cases he
      refine upd m' { s.mu m' with readers := t :: (s.mu m').readers } (fun u hu => by simp [hu]) (fun u hu h => h) rfl
    · cases he
  case runlock m' =>
    split at he
    · cases he
      exact upd m' { s.mu m' with readers := (s.mu m').readers.erase t } (fun u hu => List.mem_erase_of_ne hu)
        (fun u hu h => h) rfl
    · cases he
  case announce m' =>
    split at he
    · cases he
      exact upd m' { s.mu m' with writer := some t } (fun u hu => Iff.rfl)
        (fun u hu h => absurd (Option.some.inj h).symm hu) rfl
    · cases he
  case acquire m' =>
    split at he
    · split at he
      · cases he; exact same rfl rfl
      · cases he
    · cases he
  case unlock m' =>
    split at he
    · cases he
      exact upd m' { s.mu m' with writer := none } (fun u hu => Iff.rfl) (fun u hu h => by cases h) rfl
    · cases he
  all_goals repeat' split at he
  all_goals first | (cases he; exact same rfl rfl) | cases he

theorem rinv_step {r r' : RConfig} (i : RInv cfg r) (hs : RStep cfg r r') : RInv cfg r' := by
  cases hs with
  | @step c c' D h =>
    have hreach := i.reach
    have hgone := i.gone
    have hfree := i.free
    simp only at hreach hgone hfree
    cases h with
    | invoke op o =>
      refine ⟨?_, ?_, hfree⟩
      · simp only
        rw [unstartAll_append]
        exact .tail hreach (.invoke _ op o)
      · intro t ht
        obtain ⟨n, ts, e, o', x, hc⟩ := hgone t ht
        refine ⟨n, ts, e, o', x, ?_⟩
        simp only
        rw [List.getElem?_append_left (List.getElem?_eq_some_iff.1 hc).1]
        exact hc
    | move v hv =>
      have key : ∀ {β : Type} {a : Act β} {k : β → Prog Ret} {op : Op} {o : Oracle},
          c.calls[v]? = some { op := op, oracle := o, prog := .act a k } → v ∉ D := by
        intro β a k op o hc hD
        obtain ⟨n, ts, e, o', x, hc'⟩ := hgone v hD
        rw [hc] at hc'
        cases hc'
      have stay : ∀ (y : Thread), v ∉ D → ∀ t ∈ D, ∃ n ts e o x,
          (c.calls.set v y)[t]? = some { op := .search n ts e, oracle := o, prog := .crash x } := by
        intro y hv t ht
        obtain ⟨n, ts, e, o', x, hc⟩ := hgone t ht
        refine ⟨n, ts, e, o', x, ?_⟩
        rw [List.getElem?_set_ne (by intro h; subst h; exact hv ht)]
        exact hc
      have get : ∀ {y : Thread}, v ∉ D → c.calls[v]? = some y → (unstartAll cfg D c.calls)[v]? = some y := by
        intro y hv hy
        rw [getElem?_unstartAll, hy]
        simp [hv]
      cases hv with
      | @act s s' calls op o β a k b h he =>
        have hvD := key h
        refine ⟨?_, stay _ hvD, ?_⟩
        · simp only
          rw [unstartAll_set hvD]
          exact .tail hreach (.move v (.act (get hvD h) he))
        · intro t ht
          have htv : t ≠ v := by intro h; subst h; exact hvD ht
          obtain ⟨f1, f2, f3, f4⟩ := hfree t ht
          have li := exec_locks he .indices
          have la := exec_locks he .aliases
          exact ⟨fun h => f1 ((li.1 t htv).1 h), fun h => f2 ((la.1 t htv).1 h), fun h => f3 (li.2 t htv h),
            fun h => f4 (la.2 t htv h)⟩
      | @crash s calls op o β a k e h he =>
        have hvD := key h
        refine ⟨?_, stay _ hvD, hfree⟩
        simp only
        rw [unstartAll_set hvD]
        exact .tail hreach (.move v (.crash (get hvD h) he))
  | @unwind s s' calls D n ts e o x t h hx ht he =>
    have hreach := i.reach
    simp only at hreach
    have hget : (unstartAll cfg D calls)[t]? = some { op := .search n ts e, oracle := o, prog := .crash x } := by
      rw [getElem?_unstartAll, h]
      simp [ht]
    obtain ⟨p1, p2, p3, p4, p5⟩ := panicked_holds hreach hget hx
    simp only at p1 p2 p3 p4 p5
    have hs : s' = s.without t := by
      simp only [exec] at he
      rw [if_pos (show t ∈ (s.mu .indices).readers from p1)] at he
      cases he
      exact erase_without p2 p3
    have hun := unstart_reachable hreach t (fun y hy => by simp only at hy; rw [hget] at hy; cases hy; rfl)
    rw [unstart_some (c := ⟨s, unstartAll cfg D calls⟩) hget] at hun
    refine ⟨?_, ?_, ?_⟩
    · simp only
      rw [unstartAll_cons h, hs]
      exact hun
    · intro u hu
      rcases List.mem_cons.1 hu with rfl | hu
      · exact ⟨n, ts, e, o, x, h⟩
      · exact i.gone u hu
    · intro u hu
      simp only
      rw [hs]
      rcases List.mem_cons.1 hu with rfl | hu
      · refine ⟨?_, ?_, p4, p5⟩ <;> simp [Shared.without, RW.without]
      · obtain ⟨f1, f2, f3, f4⟩ := i.free u hu
        simp only at f1 f2 f3 f4
        refine ⟨?_, ?_, f3, f4⟩ <;> simp [Shared.without, RW.without, f1, f2]

theorem rinv_reachable {r : RConfig} (h : RReachable cfg r) : RInv cfg r := by
  unfold RReachable at h
  generalize h0 : RConfig.init = r0 at h
  induction h with
  | refl =>
    subst h0
    exact ⟨.refl _, fun t ht => by simp [RConfig.init] at ht, fun t ht => by simp [RConfig.init] at ht⟩
  | tail _ hs ih => exact rinv_step ih hs

/-- A call that has recovered holds nothing, so the locks of the others are as their programs say. -/
theorem rlockInv_reachable {r : RConfig} (h : RReachable cfg r) : ∃ H, LockInv r.conf H := by
  have v := rinv_reachable h
  obtain ⟨H, i⟩ := lockInv_reachable v.reach
  have hl : (unstartAll cfg r.unwound r.conf.calls).length = r.conf.calls.length := by simp [unstartAll]
  refine ⟨H, i.link, ?_, fun t ht => i.fresh t (by simp only; rw [hl]; exact ht), i.order⟩
  intro t x hx
  by_cases hD : t ∈ r.unwound
  · obtain ⟨n, ts, e, o, y, hc⟩ := v.gone t hD
    rw [hx] at hc
    cases hc
    obtain ⟨f1, f2, f3, f4⟩ := v.free t hD
    have none : ∀ m, t ∉ (r.conf.sh.mu m).readers → (r.conf.sh.mu m).writer ≠ some t → (H t).get m = .none := by
      intro m h1 h2
      have l := i.link m
      cases hm : (H t).get m with
      | none => rfl
      | read => exact absurd ((l.mem t).2 hm) h1
      | pend => exact absurd ((l.wr t).2 (Or.inl hm)) h2
      | write => exact absurd ((l.wr t).2 (Or.inr hm)) h2
    have h1 := none .indices f1 f3
    have h2 := none .aliases f2 f4
    have hH : H t = {} := by
      revert h1 h2
      cases H t with
      | mk a b => simp only [Held.get]; rintro rfl rfl; rfl
    rw [hH]
    exact Good.crash (by decide) y
  · refine i.good t x ?_
    simp only
    rw [getElem?_unstartAll, hx]
    simp [hD]

end Visigoth
