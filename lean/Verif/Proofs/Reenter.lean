import Verif.Spec.Reenter
import Verif.Proofs.Progress
/-!
# Engines and tokenizers that call the repository follow the lock discipline if they leave the index mutex alone
-/
namespace Visigoth

variable {d : Discipline} {cfg : Cfg}

/-- Holding the index mutex, and nothing else. -/
structure OnIdx (h : Held) : Prop where
  imu : h.imu = .read ∨ h.imu = .write
  amu : h.amu = .none

theorem OnIdx.cases {h : Held} (k : OnIdx h) : h = { imu := .read } ∨ h = { imu := .write } := by
  obtain ⟨a, b⟩ := h
  obtain ⟨k1, k2⟩ := k
  simp only at k1 k2
  subst k2
  rcases k1 with rfl | rfl
  · exact Or.inl rfl
  · exact Or.inr rfl

theorem OnIdx.quiet {h : Held} (k : OnIdx h) : h.quiet := by
  rcases k.cases with rfl | rfl <;> decide

theorem obeys_aliasOnly (u : Usual d) {h : Held} (k : OnIdx h) (op : Op) (hop : op.aliasOnly) :
    Obeys d (fun h' _ => h' = h) h (op.prog cfg) := by
  cases op with
  | hasAlias n =>
    refine obeys_map Ret.bool ?_
    unfold Repo.hasAlias
    rcases k.cases with rfl | rfl <;>
    · sync
      refine obeys_data _ _ (by decide) rfl (by intro l hl; cases hl; exact u.rA _ rfl) (by intro l hl; cases hl) fun r => ?_
      sync
      done
  | listAliases =>
    refine obeys_map Ret.rows ?_
    unfold Repo.listAliases
    rcases k.cases with rfl | rfl <;>
    · sync
      refine obeys_data _ _ (by decide) rfl (by intro l hl; cases hl; exact u.rA _ rfl) (by intro l hl; cases hl) fun r => ?_
      refine obeys_loop _ (obeys_listRows (by decide) (u.rA _ rfl) _) fun rows => ?_
      sync
      done
  | unAlias a i =>
    cases hop
    refine obeys_map Ret.bool ?_
    unfold Repo.unAlias
    rw [if_pos (show ([] : Name).length = 0 from rfl)]
    rcases k.cases with rfl | rfl <;>
    · wlock
      refine obeys_data _ _ (by decide) rfl (by intro l hl; cases hl; exact u.rA _ rfl) (by intro l hl; cases hl) fun r => ?_
      refine obeys_data _ _ (by decide) rfl (by intro l hl; cases hl) (by intro l hl; cases hl; exact u.wA _ rfl rfl) fun _ => ?_
      sync
      done
  | _ => exact hop.elim

theorem obeys_client (u : Usual d) {h : Held} (k : OnIdx h) {α : Type} (c : Client α) (hc : c.Only Op.aliasOnly) :
    Obeys d (fun h' _ => h' = h) h (c.prog cfg) := by
  induction c with
  | ret a => exact ⟨k.quiet, rfl⟩
  | call op f ih => exact obeys_loop _ (obeys_aliasOnly u k op hc.1) fun r => ih r (hc.2 r)

theorem obeys_searchIndexC (u : Usual d) {h : Held} (k : OnIdx h) (p : Ptr) (ts : Str) (e : Ptr → Client Engine)
    (he : ∀ p, (e p).Only Op.aliasOnly) : Obeys d (fun h' _ => h' = h) h (Repo.searchIndexC cfg p ts e) :=
  obeys_loop _ (obeys_client u k _ (he p)) fun _ => obeys_searchIndex k.quiet (u.rI _ (by
    rcases k.cases with rfl | rfl <;> rfl)) _ _ _

theorem obeys_searchAllC (u : Usual d) {h : Held} (k : OnIdx h) (ts : Str) (e : Ptr → Client Engine)
    (he : ∀ p, (e p).Only Op.aliasOnly) (ps : List Ptr) :
    Obeys d (fun h' _ => h' = h) h (Repo.searchAllC cfg ts e ps) := by
  induction ps with
  | nil => exact ⟨k.quiet, rfl⟩
  | cons p ps ih =>
    exact obeys_loop _ (obeys_searchIndexC u k p ts e he) fun sr => obeys_loop _ ih fun _ => ⟨k.quiet, rfl⟩

theorem obeys_searchTargetsC (u : Usual d) {h : Held} (k : OnIdx h) (ps : List (Option Ptr)) (ts : Str)
    (e : Ptr → Client Engine) (he : ∀ p, (e p).Only Op.aliasOnly) :
    Obeys d (fun h' _ => h' = h) h (Repo.searchTargetsC cfg ps ts e) := by
  unfold Repo.searchTargetsC
  split
  · exact k.quiet
  · exact obeys_searchIndexC u k _ _ _ he
  · refine obeys_data _ _ k.quiet rfl (by intro l hl; cases hl) (by intro l hl; cases hl) fun ps => ?_
    exact obeys_searchAllC u k _ _ he _

theorem obeys_searchC (u : Usual d) (n : Name) (ts : Str) (e : Ptr → Client Engine)
    (he : ∀ p, (e p).Only Op.aliasOnly) : Obeys d clean {} (Repo.searchC cfg n ts e) := by
  unfold Repo.searchC
  sync
  refine obeys_data _ _ (by decide) rfl (by intro l hl; cases hl; exact u.rI _ rfl) (by intro l hl; cases hl) fun x => ?_
  cases x with
  | some i =>
    refine obeys_loop _ (obeys_searchTargetsC u ⟨Or.inl rfl, rfl⟩ _ _ _ he) fun res => ?_
    sync
    done
  | none =>
    sync
    refine obeys_data _ _ (by decide) rfl (by intro l hl; cases hl; exact u.rA _ rfl) (by intro l hl; cases hl) fun r => ?_
    cases r with
    | none =>
      sync
      sync
      done
    | some r =>
      refine obeys_loop _ (obeys_resolveFrom (by decide) (u.rI _ rfl) (u.rS _ rfl rfl) r r.len 0) fun ps => ?_
      sync
      refine obeys_loop _ (obeys_searchTargetsC u ⟨Or.inl rfl, rfl⟩ _ _ _ he) fun res => ?_
      sync
      done

theorem obeys_putIndexC (u : Usual d) {h : Held} (hh : h = { imu := .write }) (p : Ptr) (doc : DocRequest) (t : Client Unit)
    (ht : t.Only Op.aliasOnly) : Obeys d (fun h' _ => h' = h) h (Repo.putIndexC cfg p doc t) := by
  subst hh
  exact obeys_loop _ (obeys_client u ⟨Or.inr rfl, rfl⟩ t ht) fun _ => obeys_putIndex (by decide) (u.wI _ rfl) _ _ _

theorem obeys_putAllC (u : Usual d) {h : Held} (hh : h = { imu := .write }) (doc : DocRequest) (t : Client Unit)
    (ht : t.Only Op.aliasOnly) (ps : List Ptr) : Obeys d (fun h' _ => h' = h) h (Repo.putAllC cfg doc t ps) := by
  induction ps with
  | nil => subst hh; exact ⟨by decide, rfl⟩
  | cons p ps ih => exact obeys_loop _ (obeys_putIndexC u hh p doc t ht) fun _ => ih

theorem obeys_putTargetsC (u : Usual d) {h : Held} (hh : h = { imu := .write }) (ps : List (Option Ptr)) (doc : DocRequest)
    (t : Client Unit) (ht : t.Only Op.aliasOnly) :
    Obeys d (fun h' _ => h' = h) h (Repo.putTargetsC cfg ps doc t) := by
  have hq : h.quiet := by subst hh; decide
  unfold Repo.putTargetsC
  split
  · exact hq
  · split
    · refine obeys_data _ _ hq rfl (by intro l hl; cases hl) (by intro l hl; cases hl) fun ps => ?_
      exact obeys_putAllC u hh _ _ ht _
    · exact hq

theorem obeys_putC (u : Usual d) (n : Name) (doc : DocRequest) (t : Client Unit) (ht : t.Only Op.aliasOnly) :
    Obeys d clean {} (Repo.putC cfg n doc t) := by
  unfold Repo.putC
  refine obeys_bind _ ((obeys_getIndices u n).mono ?_)
  rintro _ r hq rfl
  refine obeys_lock _ _ (by decide) (by decide) ?_
  cases r with
  | none =>
    refine obeys_data _ _ (by decide) rfl (by intro l hl; cases hl) (by intro l hl; cases hl; exact u.wI _ rfl) fun p => ?_
    refine obeys_data _ _ (by decide) rfl (by intro l hl; cases hl) (by intro l hl; cases hl; exact u.wI _ rfl) fun _ => ?_
    refine obeys_loop _ (obeys_putIndexC u rfl p doc t ht) fun _ => ?_
    exact ⟨⟨by decide, by decide⟩, fun _ => ⟨by decide, rfl⟩⟩
  | some ps =>
    refine obeys_loop _ (obeys_putTargetsC u rfl ps doc t ht) fun _ => ?_
    exact ⟨⟨by decide, by decide⟩, fun _ => ⟨by decide, rfl⟩⟩

theorem good_cop (cfg : Cfg) (x : COp) (hx : x.Only Op.aliasOnly Op.aliasOnly) : Good x.op {} (x.prog cfg) := by
  cases x with
  | plain op => exact good_start cfg op
  | search n ts e =>
    have key : ∀ {d}, Usual d → Obeys d (endOf (COp.op (.search n ts e))) {} (COp.prog cfg (.search n ts e)) := by
      intro d u
      refine obeys_bind _ ((obeys_searchC u n ts e hx).mono ?_)
      rintro _ r hq rfl
      cases r <;> exact ⟨hq, rfl⟩
    exact ⟨fun _ => key usual_strict, fun _ => key usual_broad⟩
  | put n doc t =>
    have key : ∀ {d}, Usual d → Obeys d (endOf (COp.op (.put n doc t))) {} (COp.prog cfg (.put n doc t)) := by
      intro d u
      refine obeys_bind _ ((obeys_putC u n doc t hx).mono ?_)
      rintro _ r hq rfl
      exact ⟨hq, rfl⟩
    exact ⟨fun _ => key usual_strict, fun _ => key usual_broad⟩

theorem lockInv_add {c : Config} {H : Tid → Held} (i : LockInv c H) (x : Thread) (hx : Good x.op {} x.prog) :
    LockInv { c with calls := c.calls ++ [x] } H := by
  refine ⟨i.link, ?_, ?_, i.order⟩
  · intro t y h
    simp only at h
    by_cases ht : t < c.calls.length
    · rw [List.getElem?_append_left ht] at h; exact i.good t y h
    · rw [List.getElem?_append_right (Nat.le_of_not_lt ht)] at h
      have : t - c.calls.length = 0 := by
        cases hh : t - c.calls.length with
        | zero => rfl
        | succ n => rw [hh] at h; simp at h
      rw [this] at h
      simp only [List.getElem?_cons_zero, Option.some.injEq] at h
      subst h
      rw [i.fresh t (Nat.le_of_not_lt ht)]
      exact hx
  · intro t ht
    simp only [List.length_append, List.length_cons, List.length_nil] at ht
    exact i.fresh t (Nat.le_of_succ_le ht)

/-- The mutexes are held as the residual programs say. -/
theorem lockInv_client {P : COp → Prop} (hP : ∀ x, P x → x.Only Op.aliasOnly Op.aliasOnly) {c : Config}
    (h : CSteps cfg P Config.init c) : ∃ H, LockInv c H := by
  induction h with
  | refl => exact ⟨_, lockInv_init⟩
  | tail _ hs ih =>
    obtain ⟨H, i⟩ := ih
    cases hs with
    | move t h => exact lockInv_step i (.move t h)
    | invoke x o hx => exact ⟨H, lockInv_add i _ (good_cop cfg x (hP x hx))⟩

/-! ## Calls for ever waiting -/

/-- A mutex action of another call leaves a reader in place. -/
theorem exec_keeps_reader {o : Oracle} {u t : Tid} (hut : u ≠ t) {β : Type} {a : Act β} {s s' : Shared} {b : β} {m : Mu}
    (he : exec cfg o u a s = .ok b s') (ht : t ∈ (s.mu m).readers) : t ∈ (s'.mu m).readers := by
  by_cases hl : a.isLock = false
  · obtain ⟨h1, h2⟩ := exec_data_mu hl he
    cases m <;> simp only [Shared.mu] at ht ⊢ <;> simp only [h1, h2] <;> exact ht
  · cases a <;> simp only [Act.isLock, not_true, reduceCtorEq, not_false_eq_true] at hl <;>
      rename_i m' <;> simp only [exec] at he <;> repeat' split at he
    all_goals first | cases he | skip
    all_goals
      first
      | exact ht
      | rw [mu_setMu]
        split
        · rename_i hm
          subst hm
          first
            | exact List.mem_cons_of_mem _ ht
            | exact (List.mem_erase_of_ne (Ne.symm hut)).2 ht
            | exact ht
        · exact ht

/-- A mutex action of another call leaves a waiting or active writer in place. -/
theorem exec_keeps_writer {o : Oracle} {u t : Tid} (hut : u ≠ t) {β : Type} {a : Act β} {s s' : Shared} {b : β} {m : Mu}
    (he : exec cfg o u a s = .ok b s') (ht : (s.mu m).writer = some t) : (s'.mu m).writer = some t := by
  by_cases hl : a.isLock = false
  · obtain ⟨h1, h2⟩ := exec_data_mu hl he
    cases m <;> simp only [Shared.mu] at ht ⊢ <;> simp only [h1, h2] <;> exact ht
  · cases a <;> simp only [Act.isLock, not_true, reduceCtorEq, not_false_eq_true] at hl <;>
      rename_i m' <;> simp only [exec] at he <;> repeat' split at he
    all_goals first | cases he | skip
    all_goals
      first
      | exact ht
      | rw [mu_setMu]
        split
        · rename_i hm
          subst hm
          simp_all
        · exact ht

/-- A call moves: what it could do, and what the others see of it. -/
theorem tstep_cases {u : Tid} {c c' : Config} (h : TStep cfg u c c') :
    ∃ op o, ∃ β, ∃ a : Act β, ∃ k, c.calls[u]? = some { op := op, oracle := o, prog := .act a k } ∧
      ((∃ b, exec cfg o u a c.sh = .ok b c'.sh) ∨ (c'.sh = c.sh ∧ ∃ e, exec cfg o u a c.sh = .crash e)) ∧
      ∀ t, t ≠ u → c'.calls[t]? = c.calls[t]? := by
  cases h with
  | act hg he => exact ⟨_, _, _, _, _, hg, Or.inl ⟨_, he⟩, fun t ht => List.getElem?_set_ne (Ne.symm ht)⟩
  | crash hg he => exact ⟨_, _, _, _, _, hg, Or.inr ⟨rfl, _, he⟩, fun t ht => List.getElem?_set_ne (Ne.symm ht)⟩

/-- Starting to take a mutex that has a writer. -/
theorem takes_blocked {u : Tid} {c c' : Config} {m : Mu} {x : Thread} (hx : c.calls[u]? = some x) (ht : x.takes = some m)
    {w : Tid} (hw : (c.sh.mu m).writer = some w) : ¬ TStep cfg u c c' := by
  intro h
  obtain ⟨op, o, β, a, k, hg, he, _⟩ := tstep_cases h
  rw [hx] at hg
  cases hg
  have hb : exec cfg o u a c.sh = .blocked := by
    cases a <;> simp only [Thread.takes, Option.some.injEq, reduceCtorEq] at ht <;> subst ht <;> simp [exec, hw]
  rcases he with ⟨b, he⟩ | ⟨_, e, he⟩ <;> rw [hb] at he <;> cases he

/-- Waiting for the readers of a mutex. -/
theorem awaits_blocked {u : Tid} {c c' : Config} {m : Mu} {x : Thread} (hx : c.calls[u]? = some x) (ht : x.awaits = some m)
    (hw : (c.sh.mu m).writer = some u) {t : Tid} (hr : t ∈ (c.sh.mu m).readers) : ¬ TStep cfg u c c' := by
  intro h
  obtain ⟨op, o, β, a, k, hg, he, _⟩ := tstep_cases h
  rw [hx] at hg
  cases hg
  have hb : exec cfg o u a c.sh = .blocked := by
    cases a <;> simp only [Thread.awaits, Option.some.injEq, reduceCtorEq] at ht
    subst ht
    simp only [exec, hw, if_true]
    rw [if_neg fun h => by rw [h] at hr; cases hr]
  rcases he with ⟨b, he⟩ | ⟨_, e, he⟩ <;> rw [hb] at he <;> cases he

theorem tstep_keeps {u t : Tid} (hut : u ≠ t) {c c' : Config} (h : TStep cfg u c c') (m : Mu) :
    (t ∈ (c.sh.mu m).readers → t ∈ (c'.sh.mu m).readers) ∧
    ((c.sh.mu m).writer = some t → (c'.sh.mu m).writer = some t) := by
  obtain ⟨op, o, β, a, k, hg, he, _⟩ := tstep_cases h
  rcases he with ⟨b, he⟩ | ⟨he, _⟩
  · exact ⟨exec_keeps_reader hut he, exec_keeps_writer hut he⟩
  · rw [he]; exact ⟨id, id⟩

/-- A reader that takes the mutex again while `w` waits for it to leave. -/
structure Frozen (c : Config) (m : Mu) (t w : Tid) : Prop where
  reader : t ∈ (c.sh.mu m).readers
  writer : (c.sh.mu m).writer = some w
  waits : ∃ y, c.calls[w]? = some y ∧ y.awaits = some m
  again : t = w ∨ ∃ x, c.calls[t]? = some x ∧ x.takes = some m

theorem frozen_move {c c' : Config} {m : Mu} {t w u : Tid} (f : Frozen c m t w) (h : TStep cfg u c c') :
    Frozen c' m t w ∧ c'.calls[t]? = c.calls[t]? ∧ c'.calls[w]? = c.calls[w]? := by
  obtain ⟨y, hy, hy2⟩ := f.waits
  have huw : u ≠ w := by
    rintro rfl
    exact awaits_blocked hy hy2 f.writer f.reader h
  have hut : u ≠ t := by
    rintro rfl
    rcases f.again with rfl | ⟨x, hx, hx2⟩
    · exact huw rfl
    · exact takes_blocked hx hx2 f.writer h
  obtain ⟨_, _, _, _, _, _, _, hk⟩ := tstep_cases h
  have e1 := hk t (Ne.symm hut)
  have e2 := hk w (Ne.symm huw)
  refine ⟨⟨(tstep_keeps hut h m).1 f.reader, (tstep_keeps huw h m).2 f.writer, ?_, ?_⟩, e1, e2⟩
  · rw [e2]; exact f.waits
  · rw [e1]; exact f.again

theorem frozen_add {c : Config} {m : Mu} {t w : Tid} (f : Frozen c m t w) (z : Thread) :
    Frozen { c with calls := c.calls ++ [z] } m t w := by
  have key : ∀ {u : Tid} {x : Thread}, c.calls[u]? = some x → (c.calls ++ [z])[u]? = some x := by
    intro u x h
    rw [List.getElem?_append_left (List.getElem?_eq_some_iff.1 h).1]; exact h
  refine ⟨f.reader, f.writer, ?_, ?_⟩
  · obtain ⟨y, h, h2⟩ := f.waits; exact ⟨y, key h, h2⟩
  · rcases f.again with h | ⟨x, h, h2⟩
    · exact Or.inl h
    · exact Or.inr ⟨x, key h, h2⟩

/-! ## Calls that run alone -/

/-- Without new calls. -/
theorem csteps_trans {P : COp → Prop} {a b c : Config} (h1 : CSteps cfg P a b) (h2 : CSteps cfg P b c) : CSteps cfg P a c := by
  induction h2 with
  | refl => exact h1
  | tail _ hs ih => exact .tail ih hs

/-- A program that ends when it runs alone ends in an execution where nobody else moves. -/
theorem run_csteps {P : COp → Prop} {op : Op} {o : Oracle} {t : Tid} {r : Ret} {s' : Shared} (p : Prog Ret) :
    ∀ {c : Config}, c.calls[t]? = some { op := op, oracle := o, prog := p } → run cfg o t p c.sh = .ok r s' →
      CSteps cfg P c { sh := s', calls := c.calls.set t { op := op, oracle := o, prog := .ret r } } := by
  induction p with
  | ret a =>
    intro c hc h
    cases h
    have : c.calls.set t { op := op, oracle := o, prog := .ret r } = c.calls := by
      obtain ⟨hlt, he⟩ := List.getElem?_eq_some_iff.1 hc
      rw [← he]; exact List.set_getElem_self hlt
    rw [this]
    exact .refl _
  | crash e => intro c _ h; cases h
  | @act β a k ih =>
    intro c hc h
    simp only [run] at h
    cases he : exec cfg o t a c.sh with
    | ok b s1 =>
      rw [he] at h
      have h1 : CSteps cfg P c { sh := s1, calls := c.calls.set t { op := op, oracle := o, prog := k b } } :=
        .tail (.refl _) (.move t (by obtain ⟨s, cs⟩ := c; exact .act hc he))
      have hlt := (List.getElem?_eq_some_iff.1 hc).1
      have h2 := ih b (c := { sh := s1, calls := c.calls.set t { op := op, oracle := o, prog := k b } })
        (List.getElem?_set_self hlt) h
      simp only [List.set_set] at h2
      exact csteps_trans h1 h2
    | blocked => rw [he] at h; cases h
    | crash e => rw [he] at h; cases h

/-- A program that hangs when it runs alone comes to wait in an execution where nobody else moves. -/
theorem run_hang_csteps {P : COp → Prop} {op : Op} {o : Oracle} {t : Tid} {s' : Shared} (p : Prog Ret) :
    ∀ {c : Config}, c.calls[t]? = some { op := op, oracle := o, prog := p } → run cfg o t p c.sh = .hang s' →
      ∃ β, ∃ a : Act β, ∃ k, CSteps cfg P c { sh := s', calls := c.calls.set t { op := op, oracle := o, prog := .act a k } } ∧
        exec cfg o t a s' = .blocked := by
  induction p with
  | ret a => intro c _ h; cases h
  | crash e => intro c _ h; cases h
  | @act β a k ih =>
    intro c hc h
    simp only [run] at h
    cases he : exec cfg o t a c.sh with
    | ok b s1 =>
      rw [he] at h
      have h1 : CSteps cfg P c { sh := s1, calls := c.calls.set t { op := op, oracle := o, prog := k b } } :=
        .tail (.refl _) (.move t (by obtain ⟨s, cs⟩ := c; exact .act hc he))
      have hlt := (List.getElem?_eq_some_iff.1 hc).1
      obtain ⟨β', a', k', h2, h3⟩ := ih b (c := { sh := s1, calls := c.calls.set t { op := op, oracle := o, prog := k b } })
        (List.getElem?_set_self hlt) h
      simp only [List.set_set] at h2
      exact ⟨β', a', k', csteps_trans h1 h2, h3⟩
    | blocked =>
      rw [he] at h
      cases h
      have : c.calls.set t { op := op, oracle := o, prog := .act a k } = c.calls := by
        obtain ⟨hlt, he⟩ := List.getElem?_eq_some_iff.1 hc
        rw [← he]; exact List.set_getElem_self hlt
      exact ⟨β, a, k, by rw [this]; exact .refl _, he⟩
    | crash e => rw [he] at h; cases h

end Visigoth
