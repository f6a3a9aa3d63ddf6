import Verif.Proofs.OneMoment
import Verif.Spec.Realised
import Verif.Proofs.Linked
import Verif.Props.Complete
import Verif.Proofs.Fine
import Verif.Proofs.RowsShown
import Verif.Props.Snapshot
/-!
# Every orderly execution of atomic steps is one of interleaved calls

Each atomic step is taken by one call without interruption.  What the runtime chooses for a call is fixed when the
call starts to run; until then the execution exists for all choices (`Paths`).
-/
namespace Visigoth

variable {cfg : Cfg} {o : Oracle} {t : Tid}

/-! ## A call runs undisturbed -/

/-- Running undisturbed, a call gets from `p` to `p'`. -/
inductive Trail (cfg : Cfg) (o : Oracle) (t : Tid) : Prog Ret → Shared → Prog Ret → Shared → Prop where
  | refl (p : Prog Ret) (s : Shared) : Trail cfg o t p s p s
  | act {β : Type} {a : Act β} {k : β → Prog Ret} {s s1 s' : Shared} {b : β} {p' : Prog Ret} (he : exec cfg o t a s = .ok b s1)
      (h : Trail cfg o t (k b) s1 p' s') : Trail cfg o t (.act a k) s p' s'
  | crash {β : Type} {a : Act β} {k : β → Prog Ret} {s : Shared} {e : Crash} (he : exec cfg o t a s = .crash e) :
      Trail cfg o t (.act a k) s (.crash e) s

theorem Trail.trans {p p' p'' : Prog Ret} {s s' s'' : Shared} (h : Trail cfg o t p s p' s') (g : Trail cfg o t p' s' p'' s'') :
    Trail cfg o t p s p'' s'' := by
  induction h with
  | refl => exact g
  | act he _ ih => exact .act he (ih g)
  | crash he => cases g; exact .crash he

theorem trail_run {α : Type} {p : Prog α} {f : α → Prog Ret} : ∀ {s s' : Shared} {r : α}, run cfg o t p s = .ok r s' →
    Trail cfg o t (p >>= f) s (f r) s' := by
  show ∀ {s s' : Shared} {r : α}, run cfg o t p s = .ok r s' → Trail cfg o t (p.bind f) s (f r) s'
  induction p with
  | ret a => intro s s' r h; simp only [run, Outcome.ok.injEq] at h; obtain ⟨rfl, rfl⟩ := h; exact .refl _ _
  | crash e => intro s s' r h; simp [run] at h
  | act a k ih =>
    intro s s' r h
    simp only [run] at h
    cases he : exec cfg o t a s with
    | ok b s1 => rw [he] at h; exact .act he (ih b h)
    | blocked => rw [he] at h; simp at h
    | crash e => rw [he] at h; simp at h

theorem trail_ret {p : Prog Ret} {s s' : Shared} {r : Ret} (h : run cfg o t p s = .ok r s') : Trail cfg o t p s (.ret r) s' := by
  have := trail_run (f := fun r => (.ret r : Prog Ret)) h
  rwa [show (p >>= fun r => (.ret r : Prog Ret)) = p from bind_pure' p] at this

theorem trail_crash {p : Prog Ret} : ∀ {s : Shared} {e : Crash}, run cfg o t p s = .crash e →
    ∃ s', Trail cfg o t p s (.crash e) s' := by
  induction p with
  | ret a => intro s e h; simp [run] at h
  | crash e' => intro s e h; simp only [run, Outcome.crash.injEq] at h; subst h; exact ⟨s, .refl _ _⟩
  | act a k ih =>
    intro s e h
    simp only [run] at h
    cases he : exec cfg o t a s with
    | ok b s1 => rw [he] at h; obtain ⟨s', h'⟩ := ih b h; exact ⟨s', .act he h'⟩
    | blocked => rw [he] at h; simp at h
    | crash e' => rw [he] at h; simp only [Outcome.crash.injEq] at h; subst h; exact ⟨s, .crash he⟩

theorem steps_front {c c1 c2 : Config} (h1 : Step cfg c c1) (h2 : Steps cfg c1 c2) : Steps cfg c c2 := by
  induction h2 with
  | refl => exact .tail (.refl _) h1
  | tail _ hs ih => exact .tail ih hs

theorem Trail.steps {p p' : Prog Ret} {s s' : Shared} (h : Trail cfg o t p s p' s') :
    ∀ {calls : List Thread} {op : Op}, calls[t]? = some ⟨op, o, p⟩ → Steps cfg ⟨s, calls⟩ ⟨s', calls.set t ⟨op, o, p'⟩⟩ := by
  induction h with
  | refl p s =>
    intro calls op hx
    obtain ⟨h1, h2⟩ := List.getElem?_eq_some_iff.1 hx
    rw [← h2, List.set_getElem_self]
    exact .refl _
  | act he _ ih =>
    intro calls op hx
    have hlt := (List.getElem?_eq_some_iff.1 hx).1
    refine steps_front (.move t (.act hx he)) ?_
    have := ih (calls := calls.set t ⟨op, o, _⟩) (op := op) (List.getElem?_set_self hlt)
    rwa [List.set_set] at this
  | crash he =>
    intro calls op hx
    exact .tail (.refl _) (.move t (.crash hx he))

/-! ## Atomic steps are determined -/

theorem map_some_inj : ∀ {l l' : List Nat}, l.map some = l'.map some → l = l'
  | [], [], _ => rfl
  | [], _ :: _, h => (nomatch h)
  | _ :: _, [], h => (nomatch h)
  | x :: l, y :: l', h => by
    simp only [List.map_cons, List.cons.injEq, Option.some.injEq] at h
    rw [h.1, map_some_inj h.2]

/-- Only the calls that read may return one of several values. -/
theorem atomic_determined {a a1 a2 : ObjState} {k k1 k2 : Task} (hk : ∀ op, k = .call op → op.isRead = false)
    (h1 : Atomic cfg a k a1 k1) (h2 : Atomic cfg a k a2 k2) : a1 = a2 ∧ k1 = k2 := by
  have nomem : ∀ {ps : List Nat}, none ∉ ps.map some := by simp
  cases h1 with
  | read hr _ => rw [hk _ rfl] at hr; cases hr
  | searchDies _ => exact absurd (hk _ rfl) (by simp [Op.isRead])
  | aliasUnknown h => cases h2 <;> simp_all [Op.isRead]
  | aliasThere h hl hi => cases h2 <;> simp_all [Op.isRead]
  | aliasAdd h hi => cases h2 <;> simp_all [Op.isRead]
  | unAliasAll => cases h2 <;> simp_all [Op.isRead]
  | unAliasUnknown hi h => cases h2 <;> simp_all [Op.isRead]
  | unAliasFound hi h => cases h2 <;> simp_all [Op.isRead]
  | unAliasMissing h => cases h2 <;> simp_all [Op.isRead]
  | unAliasRemove h => cases h2 <;> simp_all [Op.isRead]
  | putResolve => cases h2 <;> simp_all [Op.isRead]
  | putNew => cases h2 <;> simp_all [Op.isRead]
  | @putAll n d ps h =>
    generalize hm : ps.map some = l at h2
    cases h2 with
    | putAll h' =>
      have := map_some_inj hm
      subst this; exact ⟨rfl, rfl⟩
    | putNil h' => subst hm; exact absurd h' nomem
    | putTwice h' =>
      have := map_some_inj hm
      subst this; exact absurd h h'
  | @putNil n d l h =>
    generalize hm : l = l' at h2
    cases h2 with
    | putAll h' => subst hm; exact absurd h nomem
    | putNil h' => exact ⟨rfl, rfl⟩
    | putTwice h' => subst hm; exact absurd h nomem
  | @putTwice n d ps h =>
    generalize hm : ps.map some = l at h2
    cases h2 with
    | putAll h' =>
      have := map_some_inj hm
      subst this; exact absurd h' h
    | putNil h' => subst hm; exact absurd h' nomem
    | putTwice h' => exact ⟨rfl, rfl⟩
  | renameUnknown h => cases h2 <;> simp_all [Op.isRead]
  | rename h => cases h2 <;> simp_all [Op.isRead]
  | dropUnknown h => cases h2 <;> simp_all [Op.isRead]
  | dropFound h => cases h2 <;> simp_all [Op.isRead]
  | dropRemove => cases h2 <;> simp_all [Op.isRead]

/-! ## Atomic steps are taken by calls -/

/-- Both mutexes are free. -/
def Shared.unlocked (s : Shared) : Prop := s.imu = {} ∧ s.amu = {}

theorem Shared.unlocked.eq {s : Shared} (h : s.unlocked) : s.free = s := by
  cases s; obtain ⟨h1, h2⟩ := h; simp only at h1 h2; subst h1 h2; rfl

theorem unlocked_of_abs {s : Shared} {a : SpecState} (h : Abs cfg s a) (h1 : a.leakedReaders = 0) (h2 : a.leakedWriter = false) :
    s.unlocked := by
  have e1 := h.imuR
  have e2 := h.imuW
  have e3 := h.amuR
  have e4 := h.amuW
  rw [h1] at e1
  rw [h2] at e4
  refine ⟨?_, ?_⟩
  · cases hm : s.imu with
    | mk r w => rw [hm] at e1 e2; simp only [List.length_eq_zero_iff] at e1 e2; subst e1 e2; rfl
  · cases hm : s.amu with
    | mk r w =>
      rw [hm] at e3 e4
      simp only at e3 e4
      subst e3
      cases w with
      | none => rfl
      | some _ => cases e4

/-- What is to be shown for an atomic step. -/
def Taken (cfg : Cfg) (o : Oracle) (t : Tid) (p : Prog Ret) (s : Shared) (a : ObjState) (k : Task) (a' : ObjState) (k' : Task) : Prop :=
  ∃ p' s', Trail cfg o t p s p' s' ∧ AbsO cfg s' a' ∧ Stage cfg a'.objs.length p' k' ∧
    (¬ a.wedges k → (∀ e, k' ≠ .dead e) → s'.unlocked) ∧ ∀ r v, p' = .ret r → k' = .over v → r.view s' = v

theorem stage_ret_inv {N : Nat} {r : Ret} {k : Task} (h : Stage cfg N (.ret r) k) (hk : ∀ op, k ≠ .call op) :
    ∃ v, k = .over v ∧ r.agrees v := by
  generalize hp : Prog.ret r = p at h
  cases h with
  | call op => exact absurd rfl (hk op)
  | over r' v h => cases hp; exact ⟨v, rfl, h⟩
  | putting => cases hp
  | dropping => cases hp
  | unAliasing => cases hp
  | dead => cases hp

theorem atomic_not_call {a a' : ObjState} {k k' : Task} (h : Atomic cfg a k a' k') : ∀ op, k' ≠ .call op := by
  cases h <;> simp

/-- Steps that take their block in one run. -/
theorem taken_single {s : Shared} {a a' : ObjState} {p : Prog Ret} {k k' : Task} (hf : Fine cfg a k (block cfg o t p s))
    (hsg : Single false p) (hbl : Blocky (fun _ _ => True) false p)
    (hk : ∀ op, k = .call op → op.isRead = false) (hs : Atomic cfg a k a' k') {r : Ret} {s' : Shared}
    (hrun : run cfg o t p s = .ok r s') (hu' : s'.unlocked) (hrows : ∀ l, r ≠ .rows l) : Taken cfg o t p s a k a' k' := by
  obtain ⟨h1, h2⟩ := (single_run (cfg := cfg) (o := o) (t := t) hsg hbl (SameData.refl s)).1 r s' hrun
  obtain ⟨a2, k2, g1, g2, _, g4⟩ := hf
  obtain ⟨rfl, rfl⟩ := atomic_determined hk hs g4
  rw [h1] at g2
  refine ⟨.ret r, s', trail_ret hrun, g1.same h2.symm, g2, fun _ _ => hu', fun r' v hr hv => ?_⟩
  cases hr
  subst hv
  obtain ⟨v', hv, hag⟩ := stage_ret_inv g2 (by simp)
  cases hv
  cases r <;> cases v <;> simp_all [Ret.agrees, Ret.view]

theorem trail_avoids {l : Loc} {p p' : Prog Ret} {s s' : Shared} (h : Trail cfg o t p s p' s') (ha : Avoids l p) : SameAt l s' s := by
  induction h with
  | refl => exact SameAt.refl _ _
  | @act β a k s s1 s' b p' he _ ih =>
    refine (ih (ha.2 b)).trans ?_
    cases hl : a.isLock with
    | true => exact exec_lock_same hl he l
    | false => exact exec_data_same hl he l ha.1
  | crash => exact SameAt.refl _ _

/-! ## The calls that read -/

theorem taken_read {s : Shared} {a : ObjState} (hu : s.unlocked) (h : AbsO cfg s a) (op : Op) (hr : op.isRead = true)
    (hop : op ≠ .string) (v : SRet) (hv : a.spec.allows cfg op v) : ∃ o, Taken cfg o t (op.prog cfg) s a (.call op) a (.over v) := by
  have habs := h.abs
  rw [hu.eq] at habs
  have hcr : ∀ c, ¬ a.spec.crashes cfg op c := by
    cases op <;> simp only [Op.isRead, Bool.false_eq_true] at hr
    case search n ts e =>
      intro c hc
      have hc' := hc
      obtain ⟨l, hl, _⟩ := hc
      simp only [SpecState.allows, hl] at hv
      obtain ⟨order, hord, parts, hparts, _⟩ := hv
      refine search_no_crash hl hord (fun m hm => ?_) hparts c hc'
      have := List.mem_map_of_mem (f := fun m => (a.spec.docs m).bind fun rs => specSearch cfg rs ts e) (hord.mem_iff.2 hm)
      rw [hparts] at this
      obtain ⟨q, _, hq⟩ := List.mem_map.1 this
      cases hd : a.spec.docs m with
      | none => rw [hd] at hq; cases hq
      | some _ => rfl
    all_goals exact fun _ h => h
  obtain ⟨o, r, s', hrun, hview⟩ := (C66_returns_exact habs op hop t v).2 ⟨no_hang a op, hcr, hv⟩
  refine ⟨o, .ret r, s', trail_ret hrun, ?_, ?_, fun _ _ => ?_, fun r' v' h1 h2 => ?_⟩
  · have h2 := ((single_run (cfg := cfg) (o := o) (t := t) (single_read op hr) (blocky_op' cfg op) (SameData.refl s)).1 r s' hrun).2
    have hsame : SameData (block cfg o t (op.prog cfg) s).2 s := fun l => avoids_pre (avoids_read op hr l)
    exact h.same (h2.symm.trans hsame)
  · exact .over r v (hview ▸ agrees_view s' r)
  · have href := refine_op (o := o) (t := t) habs op
    rw [hrun] at href
    have hn : a.spec.next op = a.spec := by
      cases op <;> simp only [Op.isRead, Bool.false_eq_true] at hr <;> rfl
    have h1 := href.2.2.2.1
    rw [hn] at h1
    exact unlocked_of_abs h1 rfl rfl
  · cases h1; cases h2; exact hview

theorem taken_crash {s : Shared} {a : ObjState} (hu : s.unlocked) (h : AbsO cfg s a) (n : Name) (ts : Str) (e : Engine) {c : Crash}
    (hc : a.spec.crashes cfg (.search n ts e) c) :
    Taken cfg o t ((Op.search n ts e).prog cfg) s a (.call (.search n ts e)) a (.dead c) := by
  have habs := h.abs
  rw [hu.eq] at habs
  have hrun := (C66_crash_exact habs (.search n ts e) o t c).2 ⟨no_hang a _, hc⟩
  obtain ⟨s', hs'⟩ := trail_crash hrun
  exact ⟨_, s', hs', h.same fun l => trail_avoids hs' (avoids_read _ rfl l), .dead c, fun _ h => absurd rfl (h c), fun _ _ h => by cases h⟩

/-! ## The calls of one step that write -/

theorem taken_alias {s : Shared} {a a' : ObjState} {k' : Task} (hu : s.unlocked) (h : AbsO cfg s a) (al i : Name)
    (hs : Atomic cfg a (.call (.alias al i)) a' k') :
    Taken cfg o t ((Op.alias al i).prog cfg) s a (.call (.alias al i)) a' k' := by
  have href := refine_op (o := o) (t := t) (hu.eq ▸ h.abs) (.alias al i)
  cases hrun : run cfg o t ((Op.alias al i).prog cfg) s with
  | hang s' => rw [hrun] at href; exact absurd href (no_hang a (.alias al i))
  | crash e => rw [hrun] at href; exact absurd href.2 id
  | ok r s' =>
    rw [hrun] at href
    refine taken_single (fine_alias h al i) (single_alias al i) (blocky_op' cfg _) (by rintro op ⟨⟩; rfl) hs hrun ?_ ?_
    · refine unlocked_of_abs href.2.2.2.1 ?_ ?_ <;> simp only [SpecState.next] <;> repeat' split
      all_goals rfl
    · intro l hl
      have := href.2.2.1
      rw [hl] at this
      cases this

theorem taken_unAlias_all {s : Shared} {a a' : ObjState} {k' : Task} (hu : s.unlocked) (h : AbsO cfg s a) (al : Name)
    (hs : Atomic cfg a (.call (.unAlias al [])) a' k') :
    Taken cfg o t ((Op.unAlias al []).prog cfg) s a (.call (.unAlias al [])) a' k' := by
  have href := refine_op (o := o) (t := t) (hu.eq ▸ h.abs) (.unAlias al [])
  cases hrun : run cfg o t ((Op.unAlias al []).prog cfg) s with
  | hang s' => rw [hrun] at href; exact absurd href (no_hang a (.unAlias al []))
  | crash e => rw [hrun] at href; exact absurd href.2 id
  | ok r s' =>
    rw [hrun] at href
    refine taken_single (fine_unAlias_all h al)
      (single_bind (p := Repo.unAlias al []) (single_lock _ (single_data _ rfl fun _ => single_data _ rfl fun _ => single_unlock _ _ trivial))
        fun _ _ => trivial)
      (blocky_op' cfg _) (by rintro op ⟨⟩; rfl) hs hrun ?_ ?_
    · exact unlocked_of_abs href.2.2.2.1 rfl rfl
    · intro l hl
      have := href.2.2.1
      rw [hl] at this
      cases this

theorem taken_rename {s : Shared} {a a' : ObjState} {k' : Task} (hu : s.unlocked) (h : AbsO cfg s a) (old new : Name)
    (hs : Atomic cfg a (.call (.rename old new)) a' k') :
    Taken cfg o t ((Op.rename old new).prog cfg) s a (.call (.rename old new)) a' k' := by
  have href := refine_op (o := o) (t := t) (hu.eq ▸ h.abs) (.rename old new)
  have hsg : Single false ((Op.rename old new).prog cfg) := by
    refine single_bind (p := Repo.rename old new) ?_ fun _ _ => trivial
    unfold Repo.rename
    refine single_lock _ (single_data _ rfl fun x => ?_)
    cases x with
    | none => exact single_unlock _ _ trivial
    | some p =>
      exact single_data _ rfl fun _ => single_data _ rfl fun _ => single_data _ rfl fun ks =>
        single_tame (tame_renameAliases old new ks) fun _ => single_unlock _ _ trivial
  cases hrun : run cfg o t ((Op.rename old new).prog cfg) s with
  | hang s' => rw [hrun] at href; exact absurd href (no_hang a (.rename old new))
  | crash e => rw [hrun] at href; exact absurd href.2 id
  | ok r s' =>
    rw [hrun] at href
    refine taken_single (fine_rename h old new) hsg (blocky_op' cfg _) (by rintro op ⟨⟩; rfl) hs hrun ?_ ?_
    · refine unlocked_of_abs href.2.2.2.1 ?_ ?_ <;> simp only [SpecState.next] <;> repeat' split
      all_goals rfl
    · intro l hl
      have := href.2.2.1
      rw [hl] at this
      cases this

/-! ## `Drop` -/

theorem act_free {β : Type} {a : Act β} {k : β → Prog Ret} {s s1 s' : Shared} {b : β} {p' : Prog Ret}
    (he : exec cfg o t a s = .ok b s1) (h : Trail cfg o t (k b) s1 p' s') : Trail cfg o t (.act a k) s p' s' := .act he h

theorem free_unlocked (s : Shared) : s.free.unlocked := ⟨rfl, rfl⟩

/-- Looking a name up. -/
theorem trail_lookup (n : Name) (s : Shared) (f : Option Ptr → Prog Ret) :
    Trail cfg o t (perform (.rlock .indices) >>= fun _ => perform (.idxGet n) >>= f) s.free (f (s.indices.get n))
      { s.free with imu := { readers := [t] } } :=
  .act (b := ()) (s1 := { s.free with imu := { readers := [t] } }) rfl (.act (b := s.indices.get n) rfl (.refl _ _))

theorem trail_release (s : Shared) (f : Unit → Prog Ret) :
    Trail cfg o t (perform (.runlock .indices) >>= f) { s.free with imu := { readers := [t] } } (f ()) s.free := by
  refine .act (b := ()) (s1 := s.free) ?_ (.refl _ _)
  simp [exec, Shared.mu, Shared.setMu, Shared.free]

theorem taken_drop {s : Shared} {a a' : ObjState} {k' : Task} (hu : s.unlocked) (h : AbsO cfg s a) (n : Name)
    (hs : Atomic cfg a (.call (.drop n)) a' k') :
    Taken cfg o t ((Op.drop n).prog cfg) s a (.call (.drop n)) a' k' := by
  have hl := trail_lookup (cfg := cfg) (o := o) (t := t) n s fun x => (match x with
    | none => do perform (.runlock .indices); return false
    | some _ => do
      perform (.runlock .indices)
      Repo.lock .indices
      Repo.lock .aliases
      let ks ← perform .alKeys
      Repo.dropAliases n ks
      perform (.idxDel n)
      perform (.unlock .indices)
      perform (.unlock .aliases)
      return true : Prog Bool) >>= fun b => pure (Ret.bool b)
  have hfree := hu.eq
  cases hs with
  | dropUnknown hn =>
    rw [← h.index, hn] at hl
    have h2 := hl.trans (trail_release s fun _ => .ret (.bool false))
    rw [hfree] at h2
    exact ⟨_, s, h2, h, .over _ _ rfl, fun _ _ => hu, fun r v h1 h2 => by cases h1; cases h2; rfl⟩
  | dropFound hn =>
    obtain ⟨p, hp⟩ := Option.isSome_iff_exists.1 hn
    rw [← h.index, hp] at hl
    have h2 := hl.trans (trail_release s fun _ => dropRest n)
    rw [hfree] at h2
    exact ⟨_, s, h2, h, .dropping n, fun _ _ => hu, fun r v h1 h2 => by cases h2⟩
  | read hr => cases hr

theorem taken_dropping {s : Shared} {a a' : ObjState} {k' : Task} (hu : s.unlocked) (h : AbsO cfg s a) (n : Name)
    (hs : Atomic cfg a (.dropping n) a' k') : Taken cfg o t (dropRest n) s a (.dropping n) a' k' := by
  have hsg : Single false (dropRest n) := single_bind (single_lock _ (single_lock _ (single_data _ rfl fun ks =>
    single_tame (tame_dropAliases n ks) fun _ => single_data _ rfl fun _ => single_unlock _ _ (single_unlock _ _ trivial))))
    fun _ _ => trivial
  have hbl : Blocky (fun _ _ => True) false (dropRest n) := by
    refine blocky_bind _ (blocky_lock _ _ (blocky_lock _ _ ⟨by simp, fun ks => ?_⟩))
    show Blocky _ false (Repo.dropAliases n ks >>= _)
    refine blocky_loop (by simp) _ (tame_dropAliases n ks) fun _ => ⟨by simp, fun _ => ⟨by simp [phase, Act.skips, Act.frees], fun _ => ?_⟩⟩
    exact ⟨fun _ => ⟨rfl, fun _ h => by cases h⟩, fun _ => trivial⟩
  have hperm := choosePerm_perm o.keyOrder s.aliases.keys
  obtain ⟨A, al, h1, h2, _, h4⟩ := run_dropAliases (cfg := cfg) (o := o) (t := t) n
    (choosePerm o.keyOrder s.aliases.keys) (hperm.nodup_iff.2 h.al.nodup)
    { s with imu := { writer := some t }, amu := { writer := some t } } h.al
  have hrun : ∃ s', run cfg o t (dropRest n) s.free = .ok (.bool true) s' ∧ s'.unlocked := by
    have e : run cfg o t (dropRest n) s.free
        = run cfg o t ((Repo.dropAliases n (choosePerm o.keyOrder s.aliases.keys) >>= fun _ => (do
          perform (.idxDel n)
          perform (.unlock .indices)
          perform (.unlock .aliases)
          return true)) >>= fun b => pure (Ret.bool b)) { s with imu := { writer := some t }, amu := { writer := some t } } := by
      simp [dropRest, Repo.lock, run_bind, run_perform, exec, Shared.free, Shared.mu, Shared.setMu, Exec.outcome]
    rw [e, run_bind, run_bind, h1]
    simp [run_bind, run_perform, exec, Shared.mu, Shared.setMu, Exec.outcome, run_pure, Shared.unlocked]
  rw [hu.eq] at hrun
  obtain ⟨s', hrun, hu'⟩ := hrun
  exact taken_single (fine_dropping h n) hsg hbl (by simp) hs hrun hu' (by simp)

/-! ## `UnAlias` -/

theorem taken_unAlias {s : Shared} {a a' : ObjState} {k' : Task} (hu : s.unlocked) (h : AbsO cfg s a) (al i : Name) (hi : i ≠ [])
    (hs : Atomic cfg a (.call (.unAlias al i)) a' k') :
    Taken cfg o t ((Op.unAlias al i).prog cfg) s a (.call (.unAlias al i)) a' k' := by
  have hil : ¬ i.length = 0 := by simpa using hi
  have hl := trail_lookup (cfg := cfg) (o := o) (t := t) i s fun x => (match x with
    | none => pure (Ret.bool false)
    | some _ => perform (.runlock .indices) >>= fun _ => unAliasRest al i : Prog Ret)
  have he : (Op.unAlias al i).prog cfg = (perform (.rlock .indices) >>= fun _ => perform (.idxGet i) >>= fun x => (match x with
    | none => pure (Ret.bool false)
    | some _ => perform (.runlock .indices) >>= fun _ => unAliasRest al i : Prog Ret)) := by
    simp only [Op.prog, Repo.unAlias, if_neg hil]
    show Prog.act _ _ = Prog.act _ _
    congr 1; funext _
    show Prog.act _ _ = Prog.act _ _
    congr 1; funext x
    cases x <;> rfl
  rw [← he] at hl
  have hfree := hu.eq
  rw [hfree] at hl
  cases hs with
  | unAliasUnknown hi hn =>
    rw [← h.index, hn] at hl
    exact ⟨_, _, hl, h.same fun l => by cases l <;> simp [SameAt], .over _ _ rfl, fun hw => absurd ⟨hi, hn⟩ hw,
      fun r v h1 h2 => by cases h1; cases h2; rfl⟩
  | unAliasFound hi hn =>
    obtain ⟨p, hp⟩ := Option.isSome_iff_exists.1 hn
    rw [← h.index, hp] at hl
    have h2 := hl.trans (hfree ▸ trail_release s fun _ => unAliasRest al i)
    exact ⟨_, s, h2, h, .unAliasing al i, fun _ _ => hu, fun r v h1 h2 => by cases h2⟩
  | unAliasAll => exact absurd rfl hi
  | read hr => cases hr

theorem taken_unAliasing {s : Shared} {a a' : ObjState} {k' : Task} (hu : s.unlocked) (h : AbsO cfg s a) (al i : Name)
    (hs : Atomic cfg a (.unAliasing al i) a' k') : Taken cfg o t (unAliasRest al i) s a (.unAliasing al i) a' k' := by
  have hsg : Single false (unAliasRest al i) := by
    refine single_bind (single_lock _ (single_data _ rfl fun x => ?_)) fun _ _ => trivial
    cases x with
    | none => trivial
    | some r =>
      refine single_tame (tame_readFrom r r.len 0).weaken fun xs => ?_
      dsimp only
      split
      · exact single_data _ rfl fun _ => single_data _ rfl fun _ => single_unlock _ _ trivial
      · exact single_unlock _ _ trivial
  have hbl : Blocky (fun _ _ => True) false (unAliasRest al i) := by
    refine blocky_bind _ (blocky_lock _ _ ⟨by simp, fun x => ?_⟩)
    cases x with
    | none => trivial
    | some r =>
      show Blocky _ false (Repo.readSlice r >>= _)
      refine blocky_loop (by simp) _ (tame_readFrom r r.len 0) fun xs => ?_
      dsimp only
      split
      · exact ⟨by simp, fun _ => ⟨by simp [phase, Act.skips, Act.frees], fun _ => ⟨fun _ => ⟨rfl, fun _ h => by cases h⟩, fun _ => trivial⟩⟩⟩
      · exact ⟨fun _ => ⟨rfl, fun _ h => by cases h⟩, fun _ => trivial⟩
  have e : run cfg o t (unAliasRest al i) s.free
      = run cfg o t (unAliasEnd al i (s.aliases.get al) >>= fun b => pure (Ret.bool b)) { s with imu := {}, amu := { writer := some t } } := by
    simp [unAliasRest, Repo.lock, run_bind, run_perform, exec, Shared.free, Shared.mu, Shared.setMu, Exec.outcome]
  rw [hu.eq] at e
  have hrun : ∃ b s', run cfg o t (unAliasRest al i) s = .ok (.bool b) s' ∧ (a.aliases al ≠ none → s'.unlocked) := by
    rw [e]
    cases hg : s.aliases.get al with
    | none =>
      refine ⟨_, _, rfl, fun hne => absurd ?_ hne⟩
      rw [h.view]; simp [alView, hg]
    | some r =>
      have hvr := h.al.valid al r hg
      unfold unAliasEnd
      simp only
      rw [run_bind, run_bind, run_readSlice (cfg := cfg) (o := o) (t := t) r { s with imu := {}, amu := { writer := some t } } hvr]
      simp only [andThen_ok]
      split <;>
        simp [run_bind, run_perform, exec, Shared.mu, Shared.setMu, Exec.outcome, run_pure, Shared.unlocked]
  obtain ⟨b, s', hrun, hu'⟩ := hrun
  by_cases hne : a.aliases al = none
  · cases hs with
    | unAliasRemove hl => rw [hne] at hl; cases hl
    | unAliasMissing hl =>
      obtain ⟨h1, h2⟩ := (single_run (cfg := cfg) (o := o) (t := t) hsg hbl (SameData.refl s)).1 _ s' hrun
      obtain ⟨a2, k2, g1, g2, _, g4⟩ := fine_unAliasing (o := o) (t := t) h al i
      obtain ⟨rfl, rfl⟩ := atomic_determined (by simp) (.unAliasMissing hl) g4
      rw [h1] at g2
      refine ⟨_, s', trail_ret hrun, g1.same h2.symm, g2, fun hw => absurd hl hw, fun r v hr hv => ?_⟩
      cases hr; cases hv
      obtain ⟨v', hv, hag⟩ := stage_ret_inv g2 (by simp)
      cases hv
      simp [Ret.view, show b = false from hag]
  · exact taken_single (fine_unAliasing h al i) hsg hbl (by simp) hs hrun (hu' hne) (by simp)

/-! ## `Put` -/

theorem taken_put {s : Shared} {a a' : ObjState} {k' : Task} (hu : s.unlocked) (h : AbsO cfg s a) (n : Name) (d : DocRequest)
    (hs : Atomic cfg a (.call (.put n d)) a' k') :
    Taken cfg o t ((Op.put n d).prog cfg) s a (.call (.put n d)) a' k' := by
  have habs := h.abs
  rw [hu.eq] at habs
  have hrun := (run_getIndices (o := o) (t := t) habs n).1 (Or.inr rfl)
  have htg : (a.spec.resolve n).map (List.map s.indices.get) = a.targets n := by
    unfold SpecState.resolve ObjState.targets
    have hd := h.docs_some n
    cases hg : a.index n with
    | some p =>
      rw [hg] at hd
      simp only [show a.spec.docs n = a.docs n from rfl, hd, Option.isSome_some, if_true, Option.map_some, List.map_cons, List.map_nil]
      rw [← h.index, hg]
    | none =>
      rw [hg] at hd
      simp only [show a.spec.docs n = a.docs n from rfl, hd, Option.isSome_none, Bool.false_eq_true, if_false]
      show (a.aliases n).map _ = _
      congr 2
      funext m; exact (h.index m).symm
  rw [htg] at hrun
  have he : (Op.put n d).prog cfg = (Repo.getIndices n >>= fun r => putRest cfg n d r) := bind_assoc' _ _ _
  cases hs with
  | putResolve =>
    obtain ⟨a2, k2, g1, g2, g3, g4⟩ := fine_put (o := o) (t := t) h n d
    rw [block_getIndices h] at g2
    cases g4 with
    | putResolve => exact ⟨_, s, he ▸ trail_run hrun, h, g2, fun _ _ => hu, fun r v _ hv => by cases hv⟩
    | read hr => cases hr
  | read hr => cases hr

theorem taken_putting {s : Shared} {a a' : ObjState} {k' : Task} (hu : s.unlocked) (h : AbsO cfg s a) (n : Name) (d : DocRequest)
    (ts : Option (List (Option Nat))) (hb : ∀ l, ts = some l → ∀ p, some p ∈ l → p < a.objs.length)
    (hs : Atomic cfg a (.putting n d ts) a' k') : Taken cfg o t (putRest cfg n d ts) s a (.putting n d ts) a' k' := by
  have hsg : Single false (putRest cfg n d ts) := by
    refine single_bind (single_lock _ ?_) fun _ _ => trivial
    cases ts with
    | none =>
      exact single_data _ rfl fun p => single_data _ rfl fun _ => single_tame (tame_putIndex cfg p d) fun _ =>
        ⟨fun _ => rfl, fun _ => trivial⟩
    | some l => exact single_tame (tame_putTargets cfg l d) fun _ => ⟨fun _ => rfl, fun _ => trivial⟩
  have hbl : Blocky (fun _ _ => True) false (putRest cfg n d ts) := by
    refine blocky_bind _ (blocky_lock _ _ ?_)
    cases ts with
    | none =>
      refine ⟨by simp, fun p => ⟨by simp [phase, Act.skips, Act.frees], fun _ => ?_⟩⟩
      show Blocky _ false (Repo.putIndex cfg p d >>= _)
      exact blocky_loop (by simp) _ (tame_putIndex cfg p d) fun _ => ⟨fun _ => ⟨rfl, fun _ h => by cases h⟩, fun _ => trivial⟩
    | some l =>
      exact blocky_loop (by simp) _ (tame_putTargets cfg l d) fun _ => ⟨fun _ => ⟨rfl, fun _ h => by cases h⟩, fun _ => trivial⟩
  have hst : Stage cfg a.objs.length (putRest cfg n d ts) (.putting n d ts) := .putting n d ts hb
  cases ts with
  | none =>
    have hrun := run_putIndex (cfg := cfg) (o := o) (t := t) s.heap.length d
      { s with imu := { writer := some t }, amu := {}, heap := s.heap ++ [newMemoryIndex n], indices := GoMap.set s.indices n s.heap.length }
      (newMemoryIndex n) (by simp)
    have e : run cfg o t (putRest cfg n d none) s.free
        = run cfg o t ((Repo.putIndex cfg s.heap.length d >>= fun _ => perform (.unlock .indices)) >>= fun _ => pure Ret.unit)
          { s with imu := { writer := some t }, amu := {}, heap := s.heap ++ [newMemoryIndex n], indices := GoMap.set s.indices n s.heap.length } := by
      simp [putRest, Repo.lock, run_bind, run_perform, exec, Shared.free, Shared.mu, Shared.setMu, Exec.outcome]
    rw [hu.eq, run_bind, run_bind, hrun] at e
    rw [andThen_ok, run_unlock .indices _ rfl] at e
    simp only [andThen_ok, run_pure] at e
    refine taken_single (fine_putting h n d none hb) hsg hbl (by simp) hs e ?_ (by simp)
    exact ⟨rfl, rfl⟩
  | some l =>
    have e : run cfg o t (putRest cfg n d (some l)) s.free
        = run cfg o t ((Repo.putTargets cfg l d >>= fun _ => perform (.unlock .indices)) >>= fun _ => pure Ret.unit)
          { s with imu := { writer := some t }, amu := {} } := by
      simp [putRest, Repo.lock, run_bind, run_perform, exec, Shared.free, Shared.mu, Shared.setMu, Exec.outcome]
    rw [hu.eq] at e
    have dies : ∀ c, k' = .dead c → a' = a → Repo.putTargets cfg l d = .crash c →
        Taken cfg o t (putRest cfg n d (some l)) s a (.putting n d (some l)) a' k' := by
      rintro c rfl rfl hc
      have ht : Trail cfg o t (putRest cfg n d (some l)) s.free
          ((Repo.putTargets cfg l d >>= fun _ => perform (.unlock .indices)) >>= fun _ => pure Ret.unit)
          { s with imu := { writer := some t }, amu := {} } :=
        .act (b := ()) (s1 := { s with imu := { writer := some t }, amu := {} }) rfl
          (.act (b := ()) (by simp [exec, Shared.mu]) (.refl _ _))
      rw [hu.eq, hc] at ht
      exact ⟨.crash c, _, ht, h.same fun l => by cases l <;> simp [SameAt], .dead c, fun _ hd => absurd rfl (hd c), fun r v h => by cases h⟩
    unfold Repo.putTargets at e dies
    rw [nonNil_eq] at e dies
    cases hsq : sequence l with
    | none =>
      rw [hsq] at e
      obtain ⟨h1, h2⟩ := atomic_determined (by simp) hs (.putNil ((sequence_eq_none l).1 hsq))
      exact dies _ h2 h1 (by rw [hsq])
    | some ps =>
      have hl := (sequence_eq_some l ps).1 hsq
      subst hl
      rw [hsq] at e
      simp only at e
      by_cases hnd : ps.Nodup
      · rw [if_pos hnd] at e
        have hperm := choosePerm_perm o.schedule ps
        obtain ⟨H, h1, h2, h3⟩ := run_putAll (cfg := cfg) (o := o) (t := t) d (choosePerm o.schedule ps)
          { s with imu := { writer := some t }, amu := {} }
          (hperm.nodup_iff.2 hnd) (fun p hp => by
            show p < s.heap.length
            rw [h.len]; exact hb _ rfl p (List.mem_map_of_mem (hperm.mem_iff.1 hp)))
        have e2 : run cfg o t (putRest cfg n d (some (ps.map some))) s =
            run cfg o t ((Repo.putAll cfg d (choosePerm o.schedule ps) >>= fun _ => perform (.unlock .indices)) >>= fun _ => pure Ret.unit)
              { s with imu := { writer := some t }, amu := {} } := e
        rw [run_bind, run_bind, h1] at e2
        rw [andThen_ok, run_unlock .indices _ rfl] at e2
        simp only [andThen_ok, run_pure] at e2
        exact taken_single (fine_putting h n d _ hb) hsg hbl (by simp) hs e2 ⟨rfl, rfl⟩ (by simp)
      · rw [if_neg hnd] at e
        obtain ⟨h1, h2⟩ := atomic_determined (by simp) hs (.putTwice hnd)
        exact dies _ h2 h1 (by rw [hsq]; exact if_neg hnd)

/-! ## Every atomic step -/

/-- The task is a call that has not started. -/
def Task.fresh : Task → Bool
  | .call _ => true
  | _ => false

theorem taken {s : Shared} {a a' : ObjState} {p : Prog Ret} {k k' : Task} (hu : s.unlocked) (h : AbsO cfg s a)
    (hst : Stage cfg a.objs.length p k) (hs : Atomic cfg a k a' k') (hk : k ≠ .call .string) (o : Oracle) (t : Tid) :
    ∃ o', (k.fresh = false → o' = o) ∧ Taken cfg o' t p s a k a' k' := by
  cases hst with
  | call op =>
    cases op with
    | put n d => exact ⟨o, fun _ => rfl, taken_put hu h n d hs⟩
    | «alias» al i => exact ⟨o, fun _ => rfl, taken_alias hu h al i hs⟩
    | rename old new => exact ⟨o, fun _ => rfl, taken_rename hu h old new hs⟩
    | drop n => exact ⟨o, fun _ => rfl, taken_drop hu h n hs⟩
    | unAlias al i =>
      by_cases hi : i = []
      · subst hi; exact ⟨o, fun _ => rfl, taken_unAlias_all hu h al hs⟩
      · exact ⟨o, fun _ => rfl, taken_unAlias hu h al i hi hs⟩
    | search n ts e =>
      cases hs with
      | read hr hv =>
        obtain ⟨o', ho⟩ := taken_read (t := t) hu h (.search n ts e) rfl (by simp) _ hv
        exact ⟨o', fun h => (nomatch h), ho⟩
      | searchDies hc => exact ⟨o, fun _ => rfl, taken_crash hu h n ts e hc⟩
    | string => exact absurd rfl hk
    | list | listAliases | has n | hasAlias n =>
      cases hs with
      | read hr hv =>
        obtain ⟨o', ho⟩ := taken_read (t := t) hu h _ hr (by simp) _ hv
        exact ⟨o', fun h => (nomatch h), ho⟩
  | putting n d ts hb => exact ⟨o, fun _ => rfl, taken_putting hu h n d ts hb hs⟩
  | dropping n => exact ⟨o, fun _ => rfl, taken_dropping hu h n hs⟩
  | unAliasing al i => exact ⟨o, fun _ => rfl, taken_unAliasing hu h al i hs⟩
  | over => cases hs
  | dead => cases hs

/-! ## Executions -/

/-- The same calls; those that have not started may have other choices of the runtime. -/
structure Respelt (A : AConfig) (L M : List Thread) : Prop where
  size : M.length = L.length
  call : ∀ (t : Nat) x, L[t]? = some x → ∃ o, M[t]? = some { x with oracle := o } ∧
    ∀ op k, A.tasks[t]? = some (op, k) → k.fresh = false → o = x.oracle

theorem Respelt.refl (A : AConfig) (L : List Thread) : Respelt A L L := ⟨rfl, fun _ x hx => ⟨x.oracle, hx, fun _ _ _ _ => rfl⟩⟩

/-- The first `n` calls are over.  Unless one of the others is a `Rename`, callers see in what they were given what it
was when they got it. -/
def Seen (n : Nat) (s : Shared) (L : List Thread) (A : AConfig) : Prop :=
  (∀ (t : Nat) op k, t < n → A.tasks[t]? = some (op, k) → k.ended) ∧
  ((∀ (t : Nat) x, n ≤ t → A.tasks[t]? = some x → x.1.isRename = false) → ∀ (t : Nat) x r v, L[t]? = some x → x.prog = .ret r → A.tasks[t]? = some (x.op, .over v) →
    r.view s = v)

/-- There are executions from configurations in `R` that have got as far as `A`, for all choices of the runtime for the
calls that have not started. -/
def Paths (cfg : Cfg) (n : Nat) (R : Config → Prop) (A : AConfig) (free : Prop) : Prop :=
  ∃ s L, n ≤ L.length ∧ ARel cfg ⟨s, L⟩ A ∧ (free → s.unlocked) ∧ Seen n s L A ∧ ∀ M, Respelt A L M → ∃ c, R c ∧ Steps cfg c ⟨s, M⟩

theorem paths_init (cfg : Cfg) : Paths cfg 0 (· = Config.init) AConfig.init True := by
  refine ⟨newIndexRepo, [], Nat.le_refl 0, aRel_init cfg, fun _ => ⟨rfl, rfl⟩, ⟨fun t op k ht => (nomatch ht), fun _ t x r v hx => by simp at hx⟩, fun M hM => ⟨Config.init, rfl, ?_⟩⟩
  have : M = [] := List.eq_nil_of_length_eq_zero hM.size
  subst this
  exact .refl _

theorem paths_invoke {n : Nat} {R : Config → Prop} {A : AConfig} {free : Prop} (h : Paths cfg n R A free) (op : Op) :
    Paths cfg n R ⟨A.st, A.tasks ++ [(op, .call op)]⟩ free := by
  obtain ⟨s, L, hn, hrel, hu, ⟨hdone, hseen⟩, hall⟩ := h
  obtain ⟨habs, hsize, htask⟩ := hrel
  simp only at habs hsize htask
  refine ⟨s, L ++ [⟨op, ⟨id, fun _ l => l, id, id⟩, op.prog cfg⟩], by simp; omega, ⟨habs, by simp [hsize], fun t x hx => ?_⟩, hu, ⟨fun t op' k ht hk => ?_, ?_⟩, fun M hM => ?_⟩
  rotate_left
  · simp only at hk
    rw [List.getElem?_append_left (by omega)] at hk
    exact hdone t op' k ht hk
  · intro hren t x r v hx hp hv
    by_cases ht : t < L.length
    · rw [List.getElem?_append_left ht] at hx
      simp only at hv
      rw [List.getElem?_append_left (by rw [hsize]; exact ht)] at hv
      refine hseen (fun u y hu hy => hren u y hu ?_) t x r v hx hp hv
      simp only
      rw [List.getElem?_append_left (List.getElem?_eq_some_iff.1 hy).1]
      exact hy
    · simp only at hv
      rw [List.getElem?_append_right (by rw [hsize]; exact Nat.le_of_not_lt ht)] at hv
      cases h0 : t - A.tasks.length with
      | zero => rw [h0] at hv; simp at hv
      | succ n => rw [h0] at hv; simp at hv
  rotate_left
  · simp only at hx ⊢
    by_cases ht : t < L.length
    · rw [List.getElem?_append_left ht] at hx
      rw [List.getElem?_append_left (by rw [hsize]; exact ht)]
      exact htask t x hx
    · rw [List.getElem?_append_right (Nat.le_of_not_lt ht)] at hx
      rw [List.getElem?_append_right (by rw [hsize]; exact Nat.le_of_not_lt ht), hsize]
      cases h0 : t - L.length with
      | zero =>
        rw [h0] at hx
        simp only [List.getElem?_cons_zero, Option.some.injEq] at hx
        subst hx
        exact ⟨.call op, rfl, .call op⟩
      | succ n => rw [h0] at hx; simp at hx
  · have hlen : M.length = L.length + 1 := by rw [hM.size]; simp
    obtain ⟨o, ho, _⟩ := hM.call L.length ⟨op, ⟨id, fun _ l => l, id, id⟩, op.prog cfg⟩ (by simp)
    have hsplit : M = M.take L.length ++ [⟨op, o, op.prog cfg⟩] := by
      apply List.ext_getElem?
      intro i
      by_cases hi : i < L.length
      · rw [List.getElem?_append_left (by simp [hlen]; omega), List.getElem?_take_of_lt hi]
      · rw [List.getElem?_append_right (by simp; omega)]
        have : (M.take L.length).length = L.length := by simp [hlen]
        rw [this]
        rcases Nat.lt_or_eq_of_le (Nat.le_of_not_lt hi) with h' | h'
        · rw [List.getElem?_eq_none (by omega), List.getElem?_eq_none (by simp; omega)]
        · subst h'; rw [ho]; simp
    have hr : Respelt A L (M.take L.length) := by
      refine ⟨by simp [hlen], fun t x hx => ?_⟩
      have hlt := (List.getElem?_eq_some_iff.1 hx).1
      obtain ⟨o', h1, h2⟩ := hM.call t x (by rw [List.getElem?_append_left hlt]; exact hx)
      refine ⟨o', by rw [List.getElem?_take_of_lt hlt]; exact h1, fun op' k hk => h2 op' k ?_⟩
      simp only
      rw [List.getElem?_append_left (by rw [hsize]; exact hlt)]
      exact hk
    obtain ⟨c, hc, hsteps⟩ := hall _ hr
    refine ⟨c, hc, ?_⟩
    rw [hsplit]
    exact .tail hsteps (.invoke _ op o)

theorem paths_run {n : Nat} {R : Config → Prop} (hR : ∀ c, R c → ConcReachable cfg c) {a a' : ObjState} {ts : List (Op × Task)} (h : Paths cfg n R ⟨a, ts⟩ True) {t : Tid} {op : Op}
    {k k' : Task} (hk : ts[t]? = some (op, k)) (hs : Atomic cfg a k a' k') (hns : k ≠ .call .string) :
    Paths cfg n R ⟨a', ts.set t (op, k')⟩ (¬ a.wedges k ∧ ∀ e, k' ≠ .dead e) := by
  obtain ⟨s, L, hn, hrel, hu, ⟨hdone, hseen⟩, hall⟩ := h
  have hu := hu trivial
  have hnt : n ≤ t := by
    refine Nat.le_of_not_lt fun htn => ?_
    have := hdone t op k htn hk
    cases hs <;> exact this
  obtain ⟨habs, hsize, htask⟩ := hrel
  simp only at habs hsize htask
  have hlt : t < L.length := by rw [← hsize]; exact (List.getElem?_eq_some_iff.1 hk).1
  obtain ⟨k0, hk0, hst⟩ := htask t L[t] (List.getElem?_eq_getElem hlt)
  rw [hk] at hk0
  simp only [Option.some.injEq, Prod.mk.injEq] at hk0
  obtain ⟨hop, rfl⟩ := hk0
  obtain ⟨o, ho, p', s', htr, habs', hst', hu', hview⟩ := taken hu habs hst hs hns L[t].oracle t
  have hle : a.objs.length ≤ a'.objs.length := by cases hs <;> simp [putObjs]
  have hgo : ∀ M, Respelt ⟨a', ts.set t (op, k')⟩ (L.set t ⟨op, o, p'⟩) M →
      ∃ c M0, R c ∧ Respelt ⟨a, ts⟩ L M0 ∧ Steps cfg c ⟨s, M0⟩ ∧ Steps cfg ⟨s, M0⟩ ⟨s', M⟩ := by
    intro M hM
    have hlen : M.length = L.length := by rw [hM.size]; simp
    have hfresh : k'.fresh = false := by
      cases hk' : k' with
      | call op' => exact absurd hk' (atomic_not_call hs op')
      | _ => rfl
    obtain ⟨o1, h1, h2⟩ := hM.call t ⟨op, o, p'⟩ (List.getElem?_set_self hlt)
    have := h2 op k' (by simp only; rw [List.getElem?_set_self (by rw [hsize]; exact hlt)]) hfresh
    simp only at this
    subst this
    have hr : Respelt ⟨a, ts⟩ L (M.set t ⟨op, o1, L[t].prog⟩) := by
      refine ⟨by simp [hlen], fun u x hx => ?_⟩
      by_cases hut : u = t
      · subst hut
        rw [List.getElem?_eq_getElem hlt] at hx
        injection hx with hx
        subst hx
        refine ⟨o1, by rw [List.getElem?_set_self (by rw [hlen]; exact hlt), hop], fun op' k1 hk1 hf => ?_⟩
        simp only at hk1
        rw [hk] at hk1
        cases hk1
        exact ho hf
      · obtain ⟨o2, h3, h4⟩ := hM.call u x (by rw [List.getElem?_set_ne (Ne.symm hut)]; exact hx)
        refine ⟨o2, by rw [List.getElem?_set_ne (Ne.symm hut)]; exact h3, fun op' k1 hk1 hf => h4 op' k1 ?_ hf⟩
        simp only at hk1 ⊢
        rw [List.getElem?_set_ne (Ne.symm hut)]
        exact hk1
    obtain ⟨c, hc, hsteps⟩ := hall _ hr
    refine ⟨c, _, hc, hr, hsteps, ?_⟩
    have hgo := htr.steps (calls := M.set t ⟨op, o1, L[t].prog⟩) (op := op) (List.getElem?_set_self (by rw [hlen]; exact hlt))
    rw [List.set_set] at hgo
    have hM' : M.set t ⟨op, o1, p'⟩ = M := by
      obtain ⟨_, hg⟩ := List.getElem?_eq_some_iff.1 h1
      simp only at hg
      rw [← hg, List.set_getElem_self]
    rwa [hM'] at hgo
  refine ⟨s', L.set t ⟨op, o, p'⟩, by simpa using hn, ⟨habs', by simp [hsize], fun u y hy => ?_⟩, fun hf => hu' hf.1 hf.2,
    ⟨fun u op' k1 hu1 hk1 => ?_, ?_⟩, fun M hM => ?_⟩
  · simp only at hy ⊢
    by_cases hut : u = t
    · subst hut
      rw [List.getElem?_set_self hlt] at hy
      injection hy with hy
      subst hy
      exact ⟨k', by rw [List.getElem?_set_self (by rw [hsize]; exact hlt)], hst'⟩
    · rw [List.getElem?_set_ne (Ne.symm hut)] at hy
      obtain ⟨k1, hk1, hst1⟩ := htask u y hy
      exact ⟨k1, by rw [List.getElem?_set_ne (Ne.symm hut)]; exact hk1, hst1.mono hle⟩
  · simp only at hk1
    rw [List.getElem?_set_ne (Nat.ne_of_gt (Nat.lt_of_lt_of_le hu1 hnt))] at hk1
    exact hdone u op' k1 hu1 hk1
  · intro hren u y r v hy hp hv
    simp only at hv
    by_cases hut : u = t
    · subst hut
      rw [List.getElem?_set_self hlt] at hy
      rw [List.getElem?_set_self (by rw [hsize]; exact hlt)] at hv
      injection hy with hy
      subst hy
      simp only [Option.some.injEq, Prod.mk.injEq] at hv
      exact hview r v hp hv.2
    · rw [List.getElem?_set_ne (Ne.symm hut)] at hy hv
      have hren0 : ∀ (w : Nat) x, n ≤ w → ts[w]? = some x → x.1.isRename = false := by
        intro w x hw hx
        by_cases hit : w = t
        · subst hit
          rw [hk] at hx
          cases hx
          exact hren w (op, k') hw (List.getElem?_set_self (by rw [hsize]; exact hlt))
        · exact hren w x hw ((List.getElem?_set_ne (Ne.symm hit)).trans hx)
      have hold := hseen hren0 u y r v hy hp hv
      obtain ⟨c, M0, hc, hr0, h1, h2⟩ := hgo _ (Respelt.refl _ _)
      have hreach : ConcReachable cfg ⟨s, M0⟩ := steps_trans (hR c hc) h1
      obtain ⟨o2, hy0, _⟩ := hr0.call u y hy
      cases r with
      | rows l =>
        have hop' : y.op = .listAliases := by
          have := yields_reachable hreach _ (List.mem_of_getElem? hy0)
          simp only [hp] at this
          exact this l rfl
        have hkeep := C47_concurrent_snapshot_partial hreach h2 hy0 hop' hp (fun op' hs' => by
          obtain ⟨w, x', hx', rfl, hrun⟩ := hs'
          simp only at hx'
          have hwl : w < L.length := by simpa using (List.getElem?_eq_some_iff.1 hx').1
          have hkey : ∀ k1, ts[w]? = some (x'.op, k1) → Stage cfg a.objs.length (L[w]).prog k1 → x'.op.isRename = false := by
            intro k1 hk1 hst1
            by_cases hwn : n ≤ w
            · exact hren0 w _ hwn hk1
            · have hend := hdone w _ k1 (Nat.lt_of_not_le hwn) hk1
              obtain ⟨o3, hm, _⟩ := hr0.call w L[w] (List.getElem?_eq_getElem hwl)
              have hrun := hrun _ hm
              unfold Thread.running at hrun
              simp only at hrun
              generalize L[w].prog = q at hst1 hrun
              cases hst1 <;> first | exact absurd hend id | exact absurd hrun id
          by_cases hwt : w = t
          · subst hwt
            rw [List.getElem?_set_self hlt] at hx'
            injection hx' with hx'
            subst hx'
            exact hkey _ hk hst
          · rw [List.getElem?_set_ne (Ne.symm hwt)] at hx'
            obtain ⟨k1, hk1, hst1⟩ := htask w x' hx'
            have hx2 : x' = L[w] := by rw [List.getElem?_eq_getElem hwl] at hx'; exact (Option.some.inj hx').symm
            exact hkey k1 hk1 (hx2 ▸ hst1))
        rw [← hold]
        simp only [Ret.view, SRet.rows.injEq]
        exact List.map_congr_left fun e he => by rw [hkeep e he]
      | _ => exact hold
  · obtain ⟨c, M0, hc, _, h1, h2⟩ := hgo M hM
    exact ⟨c, hc, steps_trans h1 h2⟩

end Visigoth
