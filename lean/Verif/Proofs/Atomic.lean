import Verif.Proofs.AtomicRun
/-!
# Every block is an atomic step
-/
namespace Visigoth

variable {cfg : Cfg} {o : Oracle} {t : Tid}

/-- A repository state and its specification with objects. -/
structure AbsO (cfg : Cfg) (s : Shared) (a : ObjState) : Prop where
  index : ∀ n, a.index n = s.indices.get n
  nodup : s.indices.keys.Nodup
  inj : ∀ n m p, a.index n = some p → a.index m = some p → n = m
  len : s.heap.length = a.objs.length
  objs : ∀ (p : Nat) rs, a.objs[p]? = some rs → ∃ nm, s.heap[p]? = some (buildIndex cfg.tok nm rs)
  bound : ∀ n p, a.index n = some p → p < a.objs.length
  al : AlOk s.arrays s.aliases
  view : ∀ n, a.aliases n = alView s.arrays s.aliases n

theorem AbsO.docs_some {s : Shared} {a : ObjState} (h : AbsO cfg s a) (n : Name) :
    (a.docs n).isSome = (a.index n).isSome := by
  unfold ObjState.docs
  cases hg : a.index n with
  | none => rfl
  | some p => simp [List.getElem?_eq_getElem (h.bound n p hg)]

theorem AbsO.idx {s : Shared} {a : ObjState} (h : AbsO cfg s a) : IdxOk cfg s.heap s.indices a.docs := by
  refine ⟨h.nodup, fun n p hp => ?_, fun n hn => ?_, fun n m p hn hm => ?_⟩
  · rw [← h.index] at hp
    have hlt := h.bound n p hp
    have hg := List.getElem?_eq_getElem hlt
    obtain ⟨nm, hnm⟩ := h.objs p _ hg
    exact ⟨nm, a.objs[p], by simp [ObjState.docs, hp, hg], hnm⟩
  · rw [← h.index] at hn
    simp [ObjState.docs, hn]
  · rw [← h.index] at hn hm
    exact h.inj n m p hn hm

/-- The repository with both mutexes free. -/
def Shared.free (s : Shared) : Shared := { s with imu := {}, amu := {} }

theorem free_same (s : Shared) : SameData s s.free := fun l => by cases l <;> simp [SameAt, Shared.free]

theorem AbsO.abs {s : Shared} {a : ObjState} (h : AbsO cfg s a) : Abs cfg s.free a.spec :=
  ⟨h.idx, h.al, h.view, rfl, rfl, rfl, rfl⟩

theorem AbsO.same {s s' : Shared} {a : ObjState} (h : AbsO cfg s a) (hs : SameData s' s) : AbsO cfg s' a := by
  obtain ⟨h1, h2, h3, h4, h5, h6, h7, h8⟩ := h
  refine ⟨?_, ?_, h3, ?_, ?_, h6, ?_, ?_⟩
  · rw [hs.indices]; exact h1
  · rw [hs.indices]; exact h2
  · rw [hs.heap]; exact h4
  · rw [hs.heap]; exact h5
  · rw [hs.arrays, hs.aliases]; exact h7
  · rw [hs.arrays, hs.aliases]; exact h8

theorem absO_empty (cfg : Cfg) : AbsO cfg newIndexRepo .empty := by
  refine ⟨fun n => rfl, by simp [newIndexRepo, GoMap.keys], ?_, rfl, ?_, ?_, ⟨?_, ?_, ?_⟩, ?_⟩ <;>
    simp [newIndexRepo, GoMap.keys, ObjState.empty, alView]

/-- Changing the aliases only. -/
theorem AbsO.realias {s s' : Shared} {a : ObjState} (h : AbsO cfg s a) (hs : SameAt .indices s' s)
    (al' : Name → Option (List Name)) (hal : AlOk s'.arrays s'.aliases) (hv : ∀ n, al' n = alView s'.arrays s'.aliases n) :
    AbsO cfg s' { a with aliases := al' } := by
  obtain ⟨h1, h2, h3, h4, h5, h6, h7, h8⟩ := h
  refine ⟨?_, ?_, h3, ?_, ?_, h6, hal, hv⟩
  · rw [hs.1]; exact h1
  · rw [hs.1]; exact h2
  · rw [hs.2]; exact h4
  · rw [hs.2]; exact h5

/-! ## What is left of a call -/

/-- The rest of `Put` after `getIndices`. -/
def putRest (cfg : Cfg) (n : Name) (d : DocRequest) (r : Option (List (Option Ptr))) : Prog Ret := (do
  Repo.lock .indices
  match r with
  | none =>
    let p ← perform (.newIndex n)
    perform (.idxSet n p)
    Repo.putIndex cfg p d
    perform (.unlock .indices)
  | some indices =>
    Repo.putTargets cfg indices d
    perform (.unlock .indices)) >>= fun _ => pure Ret.unit

/-- The rest of `Drop` after the index was found. -/
def dropRest (n : Name) : Prog Ret := (do
  Repo.lock .indices
  Repo.lock .aliases
  let ks ← perform .alKeys
  Repo.dropAliases n ks
  perform (.idxDel n)
  perform (.unlock .indices)
  perform (.unlock .aliases)
  return true) >>= fun b => pure (Ret.bool b)

/-- The rest of `UnAlias` after the alias was looked up. -/
def unAliasEnd (alias index : Name) (x : Option SliceRef) : Prog Bool := do
  match x with
  | none => return false
  | some indices =>
    let xs ← Repo.readSlice indices
    let newIndices := xs.filter (fun x => x ≠ index)
    if newIndices.length ≠ indices.len then
      let r ← perform (.slNew newIndices)
      perform (.alSet alias r)
    perform (.unlock .aliases)
    return true

/-- The rest of `UnAlias` after the index was found. -/
def unAliasRest (alias index : Name) : Prog Ret := (do
  Repo.lock .aliases
  let x ← perform (.alGet alias)
  unAliasEnd alias index x) >>= fun b => pure (Ret.bool b)

/-- The program of a call and its task; `N` objects exist. -/
inductive Stage (cfg : Cfg) (N : Nat) : Prog Ret → Task → Prop
  | call (op : Op) : Stage cfg N (op.prog cfg) (.call op)
  | putting (n : Name) (d : DocRequest) (ts : Option (List (Option Nat)))
      (hb : ∀ l, ts = some l → ∀ p, some p ∈ l → p < N) : Stage cfg N (putRest cfg n d ts) (.putting n d ts)
  | dropping (n : Name) : Stage cfg N (dropRest n) (.dropping n)
  | unAliasing (al i : Name) : Stage cfg N (unAliasRest al i) (.unAliasing al i)
  | over (r : Ret) (v : SRet) (h : r.agrees v) : Stage cfg N (.ret r) (.over v)
  | dead (e : Crash) : Stage cfg N (.crash e) (.dead e)

theorem Stage.mono {N N' : Nat} (hN : N ≤ N') {p : Prog Ret} {k : Task} (h : Stage cfg N p k) : Stage cfg N' p k := by
  cases h with
  | call op => exact .call op
  | putting n d ts hb => exact .putting n d ts fun l hl p hp => Nat.lt_of_lt_of_le (hb l hl p hp) hN
  | dropping n => exact .dropping n
  | unAliasing al i => exact .unAliasing al i
  | over r v h => exact .over r v h
  | dead e => exact .dead e

theorem agrees_view (s : Shared) (r : Ret) : r.agrees (r.view s) := by
  cases r <;> simp [Ret.agrees, Ret.view]

/-- What is to be shown for a block. -/
def Fine (cfg : Cfg) (a : ObjState) (k : Task) (r : Prog Ret × Shared) : Prop :=
  ∃ a' k', AbsO cfg r.2 a' ∧ Stage cfg a'.objs.length r.1 k' ∧ a.objs.length ≤ a'.objs.length ∧ Atomic cfg a k a' k'

theorem fine_intro {a a' : ObjState} {k k' : Task} {r : Prog Ret × Shared} (hs : Atomic cfg a k a' k')
    (hst : Stage cfg a'.objs.length r.1 k') (hle : a.objs.length ≤ a'.objs.length) (h : AbsO cfg r.2 a') : Fine cfg a k r :=
  ⟨a', k', h, hst, hle, hs⟩

/-! ## The calls that read -/

theorem single_bind {α β : Type} {p : Prog α} {f : α → Prog β} : ∀ {ph : Bool}, Single ph p → (∀ ph' a, Single ph' (f a)) →
    Single ph (p >>= f) := by
  show ∀ {ph : Bool}, Single ph p → (∀ ph' a, Single ph' (f a)) → Single ph (p.bind f)
  induction p with
  | ret a => intro ph _ hf; exact hf _ a
  | crash e => intro ph _ _; trivial
  | act a k ih => intro ph h hf; exact ⟨h.1, fun b => ih b (h.2 b) hf⟩

theorem Blocky.first {α : Type} {Q : Bool → α → Prop} (hQ : ∀ a, Q true a → Q false a) {p : Prog α} (h : Blocky Q true p) :
    Blocky Q false p := by
  induction p with
  | ret a => exact hQ a h
  | crash e => trivial
  | act a k ih =>
    refine ⟨fun hh => (nomatch hh), fun b => ?_⟩
    have h2 := h.2 b
    rcases lock_cases a with ⟨c, hc⟩ | ⟨c, hc⟩ | hl
    · simp only [phase, hc] at h2 ⊢; exact h2
    · simp only [phase, hc, (frees_lock hc).2] at h2 ⊢; exact h2
    · simp only [phase, (data_none hl).1, (data_none hl).2] at h2 ⊢; exact ih b h2

theorem blocky_op' (cfg : Cfg) (op : Op) : Blocky (fun _ _ => True) false (op.prog cfg) :=
  (blocky_op cfg op).first fun _ h => h

theorem single_rlock {α : Type} (m : Mu) {f : Unit → Prog α} (h : Single false (f ())) : Single false (perform (.rlock m) >>= f) :=
  single_act _ _ (fun h => (nomatch h)) fun _ => h
theorem single_lock {α : Type} (m : Mu) {f : Unit → Prog α} (h : Single false (f ())) : Single false (Repo.lock m >>= f) :=
  ⟨fun h => (nomatch h), fun _ => ⟨fun h => (nomatch h), fun _ => h⟩⟩
theorem single_runlock {α : Type} (ph : Bool) (m : Mu) {f : Unit → Prog α} (h : Single true (f ())) :
    Single ph (perform (.runlock m) >>= f) := single_act _ _ (fun _ => rfl) fun _ => h
theorem single_unlock {α : Type} (ph : Bool) (m : Mu) {f : Unit → Prog α} (h : Single true (f ())) :
    Single ph (perform (.unlock m) >>= f) := single_act _ _ (fun _ => rfl) fun _ => h
theorem single_data {α β : Type} {ph : Bool} (a : Act β) {f : β → Prog α} (hl : a.isLock = false) (h : ∀ b, Single ph (f b)) :
    Single ph (perform a >>= f) := by
  refine single_act _ _ (fun _ => (data_none hl).1) fun b => ?_
  have : phase ph a = ph := by simp [phase, (data_none hl).1, (data_none hl).2]
  rw [this]; exact h b

theorem single_read (op : Op) (h : op.isRead = true) : Single false (op.prog cfg) := by
  cases op <;> simp only [Op.isRead, Bool.false_eq_true] at h
  case list => exact single_rlock _ (single_data _ rfl fun _ => single_runlock _ _ trivial)
  case has => exact single_rlock _ (single_data _ rfl fun _ => single_runlock _ _ trivial)
  case hasAlias => exact single_rlock _ (single_data _ rfl fun _ => single_runlock _ _ trivial)
  case string =>
    exact single_bind (p := Repo.string) (single_rlock _ (single_data _ rfl fun ks =>
      single_tame (tame_renderAll ks).weaken fun _ => single_runlock _ _ trivial)) fun _ _ => trivial
  case listAliases =>
    exact single_bind (p := Repo.listAliases) (single_rlock _ (single_data _ rfl fun ks =>
      single_tame (tame_listRows ks).weaken fun _ => single_runlock _ _ trivial)) fun _ _ => trivial
  case search n ts e =>
    refine single_bind (p := Repo.search n ts e) ?_ fun _ r => by cases r <;> trivial
    unfold Repo.search
    refine single_rlock _ (single_data _ rfl fun x => ?_)
    cases x with
    | some p => exact single_tame (tame_searchTargets _ _ _).weaken fun _ => single_runlock _ _ trivial
    | none =>
      refine single_rlock _ (single_data _ rfl fun r => ?_)
      cases r with
      | none => exact single_runlock _ _ (single_runlock _ _ trivial)
      | some r =>
        exact single_tame (tame_resolveFrom _ _ _).weaken fun ps => single_runlock _ _
          (single_tame (tame_searchTargets _ _ _).weaken fun _ => single_runlock _ _ trivial)

/-- No action writes. -/
theorem avoids_read (op : Op) (h : op.isRead = true) (l : Loc) : Avoids l (op.prog cfg) := by
  have av : ∀ {α β : Type} (a : Act β) {f : β → Prog α}, a.writes = none → (∀ b, Avoids l (f b)) → Avoids l (perform a >>= f) :=
    fun a f ha hf => avoids_act a f (by rw [ha]; simp) hf
  cases op <;> simp only [Op.isRead, Bool.false_eq_true] at h
  case list => exact av _ rfl fun _ => av _ rfl fun _ => av _ rfl fun _ => trivial
  case has => exact av _ rfl fun _ => av _ rfl fun _ => av _ rfl fun _ => trivial
  case hasAlias => exact av _ rfl fun _ => av _ rfl fun _ => av _ rfl fun _ => trivial
  case string =>
    exact avoids_bind (p := Repo.string) (av _ rfl fun _ => av _ rfl fun ks => avoids_bind (avoids_tame (tame_renderAll ks)) fun _ =>
      av _ rfl fun _ => trivial) fun _ => trivial
  case listAliases =>
    exact avoids_bind (p := Repo.listAliases) (av _ rfl fun _ => av _ rfl fun ks => avoids_bind (avoids_tame (tame_listRows ks)) fun _ =>
      av _ rfl fun _ => trivial) fun _ => trivial
  case search n ts e =>
    refine avoids_bind (p := Repo.search n ts e) ?_ fun r => by cases r <;> trivial
    unfold Repo.search
    refine av _ rfl fun _ => av _ rfl fun x => ?_
    cases x with
    | some p => exact avoids_bind (avoids_tame (tame_searchTargets _ _ _)) fun _ => av _ rfl fun _ => trivial
    | none =>
      refine av _ rfl fun _ => av _ rfl fun r => ?_
      cases r with
      | none => exact av _ rfl fun _ => av _ rfl fun _ => trivial
      | some r =>
        exact avoids_bind (avoids_tame (tame_resolveFrom _ _ _)) fun ps => av _ rfl fun _ =>
          avoids_bind (avoids_tame (tame_searchTargets _ _ _)) fun _ => av _ rfl fun _ => trivial

theorem no_hang (a : ObjState) (op : Op) : ¬ a.spec.hangs op := by
  cases op <;> simp [SpecState.hangs, ObjState.spec]

theorem fine_read {s : Shared} {a : ObjState} (h : AbsO cfg s a) (op : Op) (hr : op.isRead = true) :
    Fine cfg a (.call op) (block cfg o t (op.prog cfg) s) := by
  have href := refine_op (o := o) (t := t) h.abs op
  have hsr := single_run (cfg := cfg) (o := o) (t := t) (single_read op hr) (blocky_op' cfg op) (free_same s)
  have hsame : SameData (block cfg o t (op.prog cfg) s).2 s := fun l => avoids_pre (avoids_read op hr l)
  cases hrun : run cfg o t (op.prog cfg) s.free with
  | hang s' => rw [hrun] at href; exact absurd href (no_hang a op)
  | crash e =>
    rw [hrun] at href
    have hcr := href.2
    have hne : e ≠ .invalid := by
      rintro rfl
      cases op <;> simp [SpecState.crashes] at hcr
    have h1 := hsr.2 e hrun hne
    refine ⟨a, .dead e, h.same hsame, by rw [h1]; exact .dead e, Nat.le_refl _, ?_⟩
    cases op <;> simp only [Op.isRead, Bool.false_eq_true] at hr
    case search n ts e => exact .searchDies hcr
    all_goals exact False.elim hcr
  | ok r s' =>
    rw [hrun] at href
    have h1 := (hsr.1 r s' hrun).1
    exact ⟨a, .over (r.view s'), h.same hsame, by rw [h1]; exact .over _ _ (agrees_view _ _), Nat.le_refl _,
      .read hr href.2.2.1⟩

/-! ## `Alias` -/

theorem single_alias (al i : Name) : Single false ((Op.alias al i).prog cfg) := by
  refine single_bind (p := Repo.alias al i) ?_ fun _ _ => trivial
  unfold Repo.alias
  refine single_rlock _ (single_data _ rfl fun x => ?_)
  cases x with
  | none => exact single_runlock _ _ trivial
  | some p =>
    refine single_lock _ (single_data _ rfl fun r => ?_)
    have tl : ∀ b : Bool, Single false (do perform (.unlock .aliases); perform (.runlock .indices); return b : Prog Bool) :=
      fun b => single_unlock _ _ (single_runlock _ _ trivial)
    cases r with
    | none => exact single_data _ rfl fun _ => single_data _ rfl fun _ => tl _
    | some r =>
      refine single_tame (tame_sliceHas r i r.len 0).weaken fun ex => ?_
      cases ex
      · exact single_data _ rfl fun _ => single_data _ rfl fun _ => tl _
      · exact tl _

theorem avoids_alias (al i : Name) : Avoids .indices ((Op.alias al i).prog cfg) := by
  have av : ∀ {α β : Type} (a : Act β) {f : β → Prog α}, a.writes ≠ some .indices → (∀ b, Avoids .indices (f b)) →
      Avoids .indices (perform a >>= f) := fun a f ha hf => avoids_act a f ha hf
  refine avoids_bind (p := Repo.alias al i) ?_ fun _ => trivial
  unfold Repo.alias
  refine av _ (by simp [Act.writes]) fun _ => av _ (by simp [Act.writes]) fun x => ?_
  cases x with
  | none => exact av _ (by simp [Act.writes]) fun _ => trivial
  | some p =>
    refine avoids_bind (av _ (by simp [Act.writes]) fun _ => ⟨by simp [Act.writes], fun _ => trivial⟩) fun _ =>
      av _ (by simp [Act.writes]) fun r => ?_
    have tl : ∀ b : Bool, Avoids .indices (do perform (.unlock .aliases); perform (.runlock .indices); return b : Prog Bool) :=
      fun b => av _ (by simp [Act.writes]) fun _ => av _ (by simp [Act.writes]) fun _ => trivial
    cases r with
    | none => exact av _ (by simp [Act.writes]) fun _ => av _ (by simp [Act.writes]) fun _ => tl _
    | some r =>
      refine avoids_bind (avoids_tame (tame_sliceHas r i r.len 0)) fun ex => ?_
      cases ex
      · exact av _ (by simp [Act.writes]) fun _ => av _ (by simp [Act.writes]) fun _ => tl _
      · exact tl _

/-- A call of one block that leaves the indices alone. -/
theorem one_block {s : Shared} {a : ObjState} (h : AbsO cfg s a) (op : Op) (hs : Single false (op.prog cfg))
    (hav : Avoids .indices (op.prog cfg)) (hc : ∀ e, ¬ a.spec.crashes cfg op e) :
    ∃ r v, (block cfg o t (op.prog cfg) s).1 = .ret r ∧ r.agrees v ∧ a.spec.allows cfg op v ∧
      AbsO cfg (block cfg o t (op.prog cfg) s).2 { a with aliases := (a.spec.next op).aliases } := by
  have href := refine_op (o := o) (t := t) h.abs op
  have hsr := single_run (cfg := cfg) (o := o) (t := t) hs (blocky_op' cfg op) (free_same s)
  have hsame : SameAt .indices (block cfg o t (op.prog cfg) s).2 s := avoids_pre hav
  cases hrun : run cfg o t (op.prog cfg) s.free with
  | hang s' => rw [hrun] at href; exact absurd href (no_hang a op)
  | crash e => rw [hrun] at href; exact absurd href.2 (hc e)
  | ok r s' =>
    rw [hrun] at href
    obtain ⟨h1, h2⟩ := hsr.1 r s' hrun
    have h3 := href.2.2.2.1
    refine ⟨r, r.view s', h1, agrees_view _ _, href.2.2.1, h.realias hsame _ ?_ ?_⟩
    · rw [h2.arrays, h2.aliases]; exact h3.al
    · rw [h2.arrays, h2.aliases]; exact h3.view

theorem fine_alias {s : Shared} {a : ObjState} (h : AbsO cfg s a) (al i : Name) :
    Fine cfg a (.call (.alias al i)) (block cfg o t ((Op.alias al i).prog cfg) s) := by
  obtain ⟨r, v, h1, h2, h3, h4⟩ := one_block (o := o) (t := t) h (.alias al i) (single_alias al i) (avoids_alias al i) (fun _ => id)
  have hd := h.docs_some i
  have hst : Stage cfg a.objs.length (block cfg o t ((Op.alias al i).prog cfg) s).1 (.over v) := by
    rw [h1]; exact .over r v h2
  have hv : v = .bool ((a.docs i).isSome && decide (i ∉ (a.aliases al).getD [])) := h3
  cases hi : (a.docs i).isSome with
  | false =>
    rw [hi] at hd
    have hnx : (a.spec.next (.alias al i)).aliases = a.aliases := by
      simp [SpecState.next, ObjState.spec, hi]
    rw [hnx] at h4
    rw [hi, Bool.false_and] at hv
    refine ⟨a, .over v, h4, hst, Nat.le_refl _, hv ▸ .aliasUnknown ?_⟩
    cases hg : a.index i with
    | none => rfl
    | some p => rw [hg] at hd; cases hd
  | true =>
    rw [hi] at hd
    rw [hi, Bool.true_and] at hv
    by_cases hm : i ∈ (a.aliases al).getD []
    · cases hl : a.aliases al with
      | none => rw [hl] at hm; cases hm
      | some l =>
        rw [hl, Option.getD_some] at hm
        have hnx : (a.spec.next (.alias al i)).aliases = a.aliases := by
          simp only [SpecState.next, ObjState.spec, hi, if_true, hl]
          rw [if_pos hm]
        rw [hnx] at h4
        have hv' : v = .bool false := by rw [hv, hl]; simpa using hm
        exact ⟨a, .over v, h4, hst, Nat.le_refl _, hv' ▸ .aliasThere hd.symm hl hm⟩
    · have hnx : (a.spec.next (.alias al i)).aliases = upd a.aliases al (some ((a.aliases al).getD [] ++ [i])) := by
        simp only [SpecState.next, ObjState.spec, hi, if_true]
        cases hl : a.aliases al with
        | none => rfl
        | some l => rw [hl, Option.getD_some] at hm; simp only; rw [if_neg hm]; rfl
      rw [hnx] at h4
      have hv' : v = .bool true := by rw [hv]; simpa using hm
      exact ⟨_, .over v, h4, hst, Nat.le_refl _, hv' ▸ .aliasAdd hd.symm hm⟩

/-! ## `UnAlias` -/

theorem fine_unAlias_all {s : Shared} {a : ObjState} (h : AbsO cfg s a) (al : Name) :
    Fine cfg a (.call (.unAlias al [])) (block cfg o t ((Op.unAlias al []).prog cfg) s) := by
  have hs : Single false ((Op.unAlias al []).prog cfg) :=
    single_bind (p := Repo.unAlias al []) (single_lock _ (single_data _ rfl fun _ => single_data _ rfl fun _ => single_unlock _ _ trivial))
      fun _ _ => trivial
  have hav : Avoids .indices ((Op.unAlias al []).prog cfg) := by
    have av : ∀ {α β : Type} (a : Act β) {f : β → Prog α}, a.writes ≠ some .indices → (∀ b, Avoids .indices (f b)) →
      Avoids .indices (perform a >>= f) := fun a f ha hf => avoids_act a f ha hf
    refine avoids_bind (p := Repo.unAlias al []) ?_ fun _ => trivial
    exact avoids_bind (av _ (by simp [Act.writes]) fun _ => ⟨by simp [Act.writes], fun _ => trivial⟩) fun _ =>
      av _ (by simp [Act.writes]) fun _ => av _ (by simp [Act.writes]) fun _ => av _ (by simp [Act.writes]) fun _ => trivial
  obtain ⟨r, v, h1, h2, h3, h4⟩ := one_block (o := o) (t := t) h (.unAlias al []) hs hav (fun _ => id)
  have hst : Stage cfg a.objs.length (block cfg o t ((Op.unAlias al []).prog cfg) s).1 (.over v) := by
    rw [h1]; exact .over r v h2
  have hv : v = .bool (a.aliases al).isSome := h3
  refine ⟨_, .over v, h4, hst, Nat.le_refl _, ?_⟩
  subst hv
  exact .unAliasAll

theorem block_eq {p q p' : Prog Ret} {s s' : Shared} (h : pre cfg o t p s = (q, s')) (hq : post cfg o t q s' = p') :
    block cfg o t p s = (p', s') := by
  unfold block; rw [h, hq]

theorem fine_unAlias {s : Shared} {a : ObjState} (h : AbsO cfg s a) (al i : Name) (hi : i ≠ []) :
    Fine cfg a (.call (.unAlias al i)) (block cfg o t ((Op.unAlias al i).prog cfg) s) := by
  have hil : ¬ i.length = 0 := by simpa using hi
  cases hg : s.indices.get i with
  | none =>
    have hb : block cfg o t ((Op.unAlias al i).prog cfg) s = (.ret (.bool false), s) := by
      refine block_eq (q := .ret (.bool false)) ?_ rfl
      simp only [Op.prog, Repo.unAlias, if_neg hil]
      show pre cfg o t ((match s.indices.get i with
        | none => _
        | some _ => _) >>= fun b => pure (Ret.bool b)) s = _
      rw [hg]; rfl
    rw [hb]
    exact ⟨a, .over (.bool false), h, .over _ _ rfl, Nat.le_refl _, .unAliasUnknown hi (by rw [h.index, hg])⟩
  | some p =>
    have hb : block cfg o t ((Op.unAlias al i).prog cfg) s = (unAliasRest al i, s) := by
      refine block_eq (q := .act (.runlock .indices) fun _ => unAliasRest al i) ?_ rfl
      simp only [Op.prog, Repo.unAlias, if_neg hil]
      show pre cfg o t ((match s.indices.get i with
        | none => _
        | some _ => _) >>= fun b => pure (Ret.bool b)) s = _
      rw [hg]; rfl
    rw [hb]
    exact ⟨a, _, h, .unAliasing al i, Nat.le_refl _, .unAliasFound hi (by rw [h.index, hg]; rfl)⟩

theorem fine_unAliasing {s : Shared} {a : ObjState} (h : AbsO cfg s a) (al i : Name) :
    Fine cfg a (.unAliasing al i) (block cfg o t (unAliasRest al i) s) := by
  have hp : pre cfg o t (unAliasRest al i) s
      = pre cfg o t (unAliasEnd al i (s.aliases.get al) >>= fun b => pure (Ret.bool b)) s := rfl
  cases hg : s.aliases.get al with
  | none =>
    rw [hg] at hp
    have hv : a.aliases al = none := by rw [h.view]; simp [alView, hg]
    rw [block_eq (hp.trans rfl) rfl]
    exact ⟨a, .over (.bool false), h, .over _ _ rfl, Nat.le_refl _, .unAliasMissing hv⟩
  | some r =>
    rw [hg] at hp
    have hvr := h.al.valid al r hg
    have hlen : (elemsIn s.arrays r).length = r.len := elems_length (s := s) hvr
    have hv : a.aliases al = some (elemsIn s.arrays r) := by rw [h.view]; simp [alView, hg]
    have hstep : Atomic cfg a (.unAliasing al i) _ (.over (.bool true)) := .unAliasRemove hv
    have hp2 := hp.trans (pre_tame2 (tame_readFrom r r.len 0).weaken (run_readSlice (cfg := cfg) (o := o) (t := t) r s hvr))
    have he : s.elems r = elemsIn s.arrays r := rfl
    rw [he, ← hlen] at hp2
    by_cases hch : ((elemsIn s.arrays r).filter (fun x => x ≠ i)).length ≠ (elemsIn s.arrays r).length
    · rw [if_pos hch] at hp2
      rw [block_eq (hp2.trans rfl) rfl]
      have hnew := alOk_new h.al al ((elemsIn s.arrays r).filter (fun x => x ≠ i) ++
              List.replicate (o.capacity ((elemsIn s.arrays r).filter (fun x => x ≠ i)).length -
                ((elemsIn s.arrays r).filter (fun x => x ≠ i)).length) [])
              ((elemsIn s.arrays r).filter (fun x => x ≠ i)).length (by rw [List.length_append]; omega)
      refine fine_intro hstep (.over _ _ rfl) (Nat.le_refl _) ?_
      dsimp only
      refine AbsO.realias h ?_ _ hnew.1 fun m => ?_
      · exact ⟨rfl, rfl⟩
      refine Eq.trans ?_ (hnew.2.1 m).symm
      rw [List.take_left]; simp only [upd, h.view]
    · rw [if_neg hch] at hp2
      rw [block_eq (hp2.trans rfl) rfl]
      refine fine_intro hstep (.over _ _ rfl) (Nat.le_refl _) ?_
      dsimp only
      refine h.realias ⟨rfl, rfl⟩ _ h.al fun m => ?_
      rw [filter_ne_length hch]
      simp only [upd]
      split
      · rename_i hm; subst hm; rw [← h.view, hv]
      · exact h.view m

/-! ## `Drop` -/

theorem fine_drop {s : Shared} {a : ObjState} (h : AbsO cfg s a) (n : Name) :
    Fine cfg a (.call (.drop n)) (block cfg o t ((Op.drop n).prog cfg) s) := by
  cases hg : s.indices.get n with
  | none =>
    have hb : block cfg o t ((Op.drop n).prog cfg) s = (.ret (.bool false), s) := by
      refine block_eq (q := .act (.runlock .indices) fun _ => .ret (.bool false)) ?_ rfl
      show pre cfg o t ((match s.indices.get n with
        | none => _
        | some _ => _) >>= fun b => pure (Ret.bool b)) s = _
      rw [hg]; rfl
    rw [hb]
    exact ⟨a, .over (.bool false), h, .over _ _ rfl, Nat.le_refl _, .dropUnknown (by rw [h.index, hg])⟩
  | some p =>
    have hb : block cfg o t ((Op.drop n).prog cfg) s = (dropRest n, s) := by
      refine block_eq (q := .act (.runlock .indices) fun _ => dropRest n) ?_ rfl
      show pre cfg o t ((match s.indices.get n with
        | none => _
        | some _ => _) >>= fun b => pure (Ret.bool b)) s = _
      rw [hg]; rfl
    rw [hb]
    exact ⟨a, _, h, .dropping n, Nat.le_refl _, .dropFound (by rw [h.index, hg]; rfl)⟩

theorem fine_dropping {s : Shared} {a : ObjState} (h : AbsO cfg s a) (n : Name) :
    Fine cfg a (.dropping n) (block cfg o t (dropRest n) s) := by
  have hperm := choosePerm_perm o.keyOrder s.aliases.keys
  obtain ⟨A, al, h1, h2, _, h4⟩ := run_dropAliases (cfg := cfg) (o := o) (t := t) n
    (choosePerm o.keyOrder s.aliases.keys) (hperm.nodup_iff.2 h.al.nodup) s h.al
  have hp : pre cfg o t (dropRest n) s
      = pre cfg o t ((Repo.dropAliases n (choosePerm o.keyOrder s.aliases.keys) >>= fun _ => (do
          perform (.idxDel n)
          perform (.unlock .indices)
          perform (.unlock .aliases)
          return true)) >>= fun b => pure (Ret.bool b)) s := rfl
  have hp2 := hp.trans (pre_tame2 (tame_dropAliases _ _) h1)
  rw [block_eq (hp2.trans rfl) rfl]
  refine fine_intro .dropRemove (.over _ _ rfl) (Nat.le_refl _)
    ⟨fun m => ?_, GoMap.nodup_delete _ _ h.nodup, fun m k p hm hk => ?_, h.len, h.objs, fun m p hm => ?_, h2, fun m => ?_⟩
  · simp only [upd]
    rw [GoMap.get_delete, h.index]
    by_cases hm : m = n
    · simp [hm]
    · rw [if_neg hm, if_neg (Ne.symm hm)]
  · simp only [upd] at hm hk
    split at hm
    · cases hm
    · split at hk
      · cases hk
      · exact h.inj m k p hm hk
  · simp only [upd] at hm
    split at hm
    · cases hm
    · exact h.bound m p hm
  · simp only
    rw [h4, h.view]
    by_cases hk : m ∈ choosePerm o.keyOrder s.aliases.keys
    · rw [if_pos hk]; rfl
    · rw [if_neg hk]
      have : s.aliases.get m = none := by
        rw [GoMap.get_eq_none_iff]; exact fun hh => hk (hperm.mem_iff.2 hh)
      simp [alView, this]

/-! ## `Rename` -/

theorem fine_rename {s : Shared} {a : ObjState} (h : AbsO cfg s a) (old new : Name) :
    Fine cfg a (.call (.rename old new)) (block cfg o t ((Op.rename old new).prog cfg) s) := by
  cases hg : s.indices.get old with
  | none =>
    have hb : block cfg o t ((Op.rename old new).prog cfg) s = (.ret (.bool false), s) := by
      refine block_eq (q := .act (.unlock .indices) fun _ => .ret (.bool false)) ?_ rfl
      show pre cfg o t ((match s.indices.get old with
        | none => _
        | some _ => _) >>= fun b => pure (Ret.bool b)) s = _
      rw [hg]; rfl
    rw [hb]
    exact ⟨a, .over (.bool false), h, .over _ _ rfl, Nat.le_refl _, .renameUnknown (by rw [h.index, hg])⟩
  | some p =>
    have hg' : a.index old = some p := by rw [h.index, hg]
    have hperm := choosePerm_perm o.keyOrder s.aliases.keys
    obtain ⟨A, h1, h2, h3⟩ := run_renameAliases (cfg := cfg) (o := o) (t := t) old new
      (choosePerm o.keyOrder s.aliases.keys)
      { s with indices := GoMap.delete (GoMap.set s.indices new p) old } (fun k _ r hk => h.al.valid k r hk)
    have hp : pre cfg o t ((Op.rename old new).prog cfg) s
        = pre cfg o t ((Repo.renameAliases old new (choosePerm o.keyOrder s.aliases.keys) >>= fun _ => (do
            perform (.unlock .indices)
            return true)) >>= fun b => pure (Ret.bool b))
            { s with indices := GoMap.delete (GoMap.set s.indices new p) old } := by
      show pre cfg o t ((match s.indices.get old with
        | none => _
        | some _ => _) >>= fun b => pure (Ret.bool b)) s = _
      rw [hg]; rfl
    have hp2 := hp.trans (pre_tame2 (tame_renameAliases _ _ _) h1)
    rw [block_eq (hp2.trans rfl) rfl]
    have hix : ∀ m, upd (upd a.index new (some p)) old none m = (GoMap.delete (GoMap.set s.indices new p) old).get m := by
      intro m
      simp only [upd]
      rw [GoMap.get_delete, GoMap.get_set, h.index]
      by_cases hm : m = old
      · simp [hm]
      · rw [if_neg hm, if_neg (Ne.symm hm)]
        by_cases hm' : m = new
        · simp [hm']
        · rw [if_neg hm', if_neg (Ne.symm hm')]
    refine fine_intro (.rename hg') (.over _ _ rfl) (Nat.le_refl _)
      ⟨hix, GoMap.nodup_delete _ _ (GoMap.nodup_set _ _ _ h.nodup), fun m k q hm hk => ?_, h.len, h.objs,
        fun m q hm => ?_, alOk_sameShape h.al h2, fun k => ?_⟩
    · simp only [upd] at hm hk
      split at hm
      · cases hm
      · rename_i hmo
        split at hk
        · cases hk
        · rename_i hko
          split at hm <;> split at hk
          · simp_all
          · injection hm with hm; subst hm
            exact absurd (h.inj k old p hk hg') hko
          · injection hk with hk; subst hk
            exact absurd (h.inj m old p hm hg') hmo
          · exact h.inj m k q hm hk
    · simp only [upd] at hm
      split at hm
      · cases hm
      · split at hm
        · injection hm with hm; subst hm; exact h.bound old p hg'
        · exact h.bound m q hm
    · simp only [h.view]
      unfold alView
      cases hk : s.aliases.get k with
      | none => simp
      | some r =>
        simp only [Option.map_some]
        congr 1
        apply List.ext_getElem?
        intro j
        have e1 := elems_getElem? ({ s with arrays := A } : Shared) r j
        have e2 := elems_getElem? s r j
        rw [List.getElem?_map]
        change (elemsIn A r)[j]? = _ at e1
        change (elemsIn s.arrays r)[j]? = _ at e2
        rw [e1, e2]
        by_cases hj : j < r.len
        · rw [if_pos hj, if_pos hj]
          have := (h3 r.arr j).1 ⟨k, hperm.mem_iff.2 ((GoMap.mem_keys_iff _ _).2 ⟨r, hk⟩), r, hk, rfl, hj⟩
          exact this.symm
        · rw [if_neg hj, if_neg hj]; rfl

/-! ## `Put` -/

theorem block_getIndices {s : Shared} {a : ObjState} (h : AbsO cfg s a) (n : Name) (d : DocRequest) :
    block cfg o t ((Op.put n d).prog cfg) s = (putRest cfg n d (a.targets n), s) := by
  cases hg : s.indices.get n with
  | some p =>
    have : a.targets n = some [some p] := by simp [ObjState.targets, h.index, hg]
    rw [this]
    refine block_eq (q := .act (.runlock .indices) fun _ => putRest cfg n d (some [some p])) ?_ rfl
    show pre cfg o t (((match s.indices.get n with
        | some _ => _
        | none => _) >>= _) >>= _) s = _
    rw [hg]; rfl
  | none =>
    cases hga : s.aliases.get n with
    | none =>
      have : a.targets n = none := by simp [ObjState.targets, h.index, hg, h.view, alView, hga]
      rw [this]
      refine block_eq (q := .act (.runlock .aliases) fun _ => .act (.runlock .indices) fun _ => putRest cfg n d none) ?_ rfl
      show pre cfg o t (((match s.indices.get n with
        | some _ => _
        | none => _) >>= _) >>= _) s = _
      rw [hg]
      show pre cfg o t (((match s.aliases.get n with
        | none => _
        | some _ => _) >>= _) >>= _) s = _
      rw [hga]; rfl
    | some r =>
      have hvr := h.al.valid n r hga
      have : a.targets n = some ((elemsIn s.arrays r).map s.indices.get) := by
        simp only [ObjState.targets, h.index, hg, h.view, alView, hga, Option.map_some]
        congr 2
        funext m; exact h.index m
      rw [this]
      refine block_eq (q := .act (.runlock .indices) fun _ => .act (.runlock .aliases) fun _ =>
        putRest cfg n d (some ((elemsIn s.arrays r).map s.indices.get))) ?_ rfl
      show pre cfg o t (((match s.indices.get n with
        | some _ => _
        | none => _) >>= _) >>= _) s = _
      rw [hg]
      show pre cfg o t (((match s.aliases.get n with
        | none => _
        | some _ => _) >>= _) >>= _) s = _
      rw [hga]
      show pre cfg o t (((Repo.resolveFrom r 0 r.len >>= _) >>= _) >>= _) s = _
      rw [bind_assoc']
      rw [pre_tame2 (tame_resolveFrom _ _ _).weaken (run_resolve r s hvr)]
      rfl

theorem fine_put {s : Shared} {a : ObjState} (h : AbsO cfg s a) (n : Name) (d : DocRequest) :
    Fine cfg a (.call (.put n d)) (block cfg o t ((Op.put n d).prog cfg) s) := by
  rw [block_getIndices h]
  refine ⟨a, _, h, .putting n d _ ?_, Nat.le_refl _, .putResolve⟩
  intro l hl p hp
  unfold ObjState.targets at hl
  split at hl
  · rename_i q hq
    injection hl with hl; subst hl
    simp only [List.mem_singleton, Option.some.injEq] at hp
    subst hp; exact h.bound n p hq
  · obtain ⟨l', _, rfl⟩ := Option.map_eq_some_iff.1 hl
    obtain ⟨m, _, hm⟩ := List.mem_map.1 hp
    exact h.bound m p hm

theorem fine_putting {s : Shared} {a : ObjState} (h : AbsO cfg s a) (n : Name) (d : DocRequest) (ts : Option (List (Option Nat)))
    (hb : ∀ l, ts = some l → ∀ p, some p ∈ l → p < a.objs.length) :
    Fine cfg a (.putting n d ts) (block cfg o t (putRest cfg n d ts) s) := by
  cases ts with
  | none =>
    have hrun := run_putIndex (cfg := cfg) (o := o) (t := t) s.heap.length d
      { s with heap := s.heap ++ [newMemoryIndex n], indices := GoMap.set s.indices n s.heap.length } (newMemoryIndex n) (by simp)
    have hp : pre cfg o t (putRest cfg n d none) s
        = pre cfg o t ((Repo.putIndex cfg s.heap.length d >>= fun _ => perform (.unlock .indices)) >>= fun _ => pure Ret.unit)
          { s with heap := s.heap ++ [newMemoryIndex n], indices := GoMap.set s.indices n s.heap.length } := rfl
    have hp2 := hp.trans (pre_tame2 (tame_putIndex _ _ _) hrun)
    rw [block_eq (hp2.trans rfl) rfl]
    have hset : (s.heap ++ [newMemoryIndex n]).set s.heap.length ((newMemoryIndex n).put cfg.tok d) = s.heap ++ [(newMemoryIndex n).put cfg.tok d] := by
      simp
    refine fine_intro .putNew (.over _ _ trivial) (by simp)
      ⟨fun m => ?_, GoMap.nodup_set _ _ _ h.nodup, fun m k p hm hk => ?_, ?_, fun p rs hp => ?_, fun m p hm => ?_, h.al, h.view⟩
    · simp only [upd]
      rw [GoMap.get_set, h.index, ← h.len]
      by_cases hm : m = n
      · simp [hm]
      · rw [if_neg hm, if_neg (Ne.symm hm)]
    · simp only [upd] at hm hk
      split at hm <;> split at hk
      · simp_all
      · injection hm with hm; subst hm
        exact absurd (h.bound k _ hk) (Nat.lt_irrefl _)
      · injection hk with hk; subst hk
        exact absurd (h.bound m _ hm) (Nat.lt_irrefl _)
      · exact h.inj m k p hm hk
    · simp [h.len]
    · simp only at hp ⊢
      rw [hset]
      by_cases hlt : p < a.objs.length
      · rw [List.getElem?_append_left hlt] at hp
        rw [List.getElem?_append_left (by rw [h.len]; exact hlt)]
        exact h.objs p rs hp
      · rw [List.getElem?_append_right (Nat.le_of_not_lt hlt)] at hp
        rw [List.getElem?_append_right (by rw [h.len]; exact Nat.le_of_not_lt hlt), h.len]
        cases hd : p - a.objs.length with
        | zero =>
          rw [hd] at hp
          simp only [List.getElem?_cons_zero, Option.some.injEq] at hp
          subst hp
          exact ⟨n, rfl⟩
        | succ q => rw [hd] at hp; simp at hp
    · simp only [upd] at hm
      simp only [List.length_append, List.length_singleton]
      split at hm
      · injection hm with hm; subst hm; exact Nat.lt_succ_self _
      · exact Nat.lt_succ_of_lt (h.bound m p hm)
  | some l =>
    have hp : pre cfg o t (putRest cfg n d (some l)) s
        = pre cfg o t ((Repo.putTargets cfg l d >>= fun _ => perform (.unlock .indices)) >>= fun _ => pure Ret.unit) s := rfl
    unfold Repo.putTargets at hp
    rw [nonNil_eq] at hp
    cases hs : sequence l with
    | none =>
      rw [hs] at hp
      rw [block_eq (hp.trans rfl) rfl]
      exact ⟨a, .dead .nilIndex, h, .dead _, Nat.le_refl _, .putNil ((sequence_eq_none l).1 hs)⟩
    | some ps =>
      have hl := (sequence_eq_some l ps).1 hs
      subst hl
      rw [hs] at hp
      simp only at hp
      by_cases hnd : ps.Nodup
      · rw [if_pos hnd] at hp
        have hperm := choosePerm_perm o.schedule ps
        obtain ⟨H, h1, h2, h3⟩ := run_putAll (cfg := cfg) (o := o) (t := t) d (choosePerm o.schedule ps) s
          (hperm.nodup_iff.2 hnd) (fun p hp => by
            rw [h.len]; exact hb _ rfl p (List.mem_map_of_mem (hperm.mem_iff.1 hp)))
        have hp2 := hp.trans ((show _ = pre cfg o t ((Repo.putAll cfg d (choosePerm o.schedule ps) >>= fun _ => perform (.unlock .indices)) >>=
          fun _ => pure Ret.unit) s from rfl).trans (pre_tame2 (tame_putAll _ _ _) h1))
        rw [block_eq (hp2.trans rfl) rfl]
        refine fine_intro (.putAll hnd) (.over _ _ trivial) (by simp [putObjs])
          ⟨h.index, h.nodup, h.inj, ?_, fun p rs hp => ?_, fun m p hm => ?_, h.al, h.view⟩
        · simp [putObjs, h2, h.len]
        · simp only [putObjs, List.getElem?_mapIdx] at hp ⊢
          obtain ⟨rs0, hrs0, hrs⟩ := Option.map_eq_some_iff.1 hp
          obtain ⟨nm, hnm⟩ := h.objs p rs0 hrs0
          refine ⟨nm, ?_⟩
          rw [h3, hnm]
          by_cases hm : p ∈ ps
          · rw [if_pos hm] at hrs
            subst hrs
            rw [if_pos (hperm.mem_iff.2 hm), buildIndex_snoc]; rfl
          · rw [if_neg hm] at hrs
            subst hrs
            rw [if_neg fun hh => hm (hperm.mem_iff.1 hh)]
        · simp only [putObjs, List.length_mapIdx]; exact h.bound m p hm
      · rw [if_neg hnd] at hp
        rw [block_eq (hp.trans rfl) rfl]
        exact ⟨a, .dead .race, h, .dead _, Nat.le_refl _, .putTwice hnd⟩

/-! ## All blocks -/

theorem block_atomic {s : Shared} {a : ObjState} (h : AbsO cfg s a) {p : Prog Ret} {k : Task} (hst : Stage cfg a.objs.length p k) :
    Fine cfg a k (block cfg o t p s) ∨ block cfg o t p s = (p, s) := by
  cases hst with
  | call op =>
    left
    cases op with
    | list => exact fine_read h _ rfl
    | listAliases => exact fine_read h _ rfl
    | string => exact fine_read h _ rfl
    | has n => exact fine_read h _ rfl
    | hasAlias n => exact fine_read h _ rfl
    | search n ts e => exact fine_read h _ rfl
    | alias al i => exact fine_alias h al i
    | unAlias al i =>
      by_cases hi : i = []
      · subst hi; exact fine_unAlias_all h al
      · exact fine_unAlias h al i hi
    | put n d => exact fine_put h n d
    | rename old new => exact fine_rename h old new
    | drop n => exact fine_drop h n
  | putting n d ts hb => exact Or.inl (fine_putting h n d ts hb)
  | dropping n => exact Or.inl (fine_dropping h n)
  | unAliasing al i => exact Or.inl (fine_unAliasing h al i)
  | over r v h => exact Or.inr rfl
  | dead e => exact Or.inr rfl

/-- An execution of blocks and an execution of atomic steps. -/
structure ARel (cfg : Cfg) (C : Config) (A : AConfig) : Prop where
  abs : AbsO cfg C.sh A.st
  size : A.tasks.length = C.calls.length
  task : ∀ (t : Nat) x, C.calls[t]? = some x → ∃ k, A.tasks[t]? = some (x.op, k) ∧ Stage cfg A.st.objs.length x.prog k

theorem ASteps.trans {A A' A'' : AConfig} (h : ASteps cfg A A') (g : ASteps cfg A' A'') : ASteps cfg A A'' := by
  induction g with
  | refl => exact h
  | tail _ hs ih => exact .tail ih hs

theorem aRel_init (cfg : Cfg) : ARel cfg Config.init AConfig.init :=
  ⟨absO_empty cfg, rfl, fun t x hx => by simp [Config.init] at hx⟩

/-- At most one atomic step. -/
def AMove (cfg : Cfg) (A A' : AConfig) : Prop := A' = A ∨ AStep cfg A A'

theorem AMove.steps {A A' : AConfig} (h : AMove cfg A A') : ASteps cfg A A' := by
  rcases h with rfl | h
  · exact .refl _
  · exact .tail (.refl _) h

theorem aRel_step {C C' : Config} {A : AConfig} (r : ARel cfg C A) (hs : BStep cfg C C') :
    ∃ A', AMove cfg A A' ∧ ARel cfg C' A' := by
  cases hs with
  | invoke op o =>
    refine ⟨_, .inr (.invoke A op), r.abs, by simp [r.size], fun t x hx => ?_⟩
    by_cases ht : t < C.calls.length
    · rw [List.getElem?_append_left ht] at hx
      rw [List.getElem?_append_left (by rw [r.size]; exact ht)]
      exact r.task t x hx
    · rw [List.getElem?_append_right (Nat.le_of_not_lt ht)] at hx
      rw [List.getElem?_append_right (by rw [r.size]; exact Nat.le_of_not_lt ht), r.size]
      cases h0 : t - C.calls.length with
      | zero =>
        rw [h0] at hx
        simp only [List.getElem?_cons_zero, Option.some.injEq] at hx
        subst hx
        exact ⟨.call op, rfl, .call op⟩
      | succ n => rw [h0] at hx; simp at hx
  | @run t x hx =>
    obtain ⟨k, hk, hst⟩ := r.task t x hx
    have hlt : t < C.calls.length := (List.getElem?_eq_some_iff.1 hx).1
    rcases block_atomic (o := x.oracle) (t := t) r.abs hst with ⟨a', k', h1, h2, h3, h4⟩ | heq
    · refine ⟨_, .inr (.run t hk h4), h1, by simp [r.size], fun u y hy => ?_⟩
      simp only at hy ⊢
      by_cases hu : u = t
      · subst hu
        rw [List.getElem?_set_self hlt] at hy
        injection hy with hy
        subst hy
        exact ⟨k', by rw [List.getElem?_set_self (by rw [r.size]; exact hlt)], h2⟩
      · rw [List.getElem?_set_ne (Ne.symm hu)] at hy
        obtain ⟨k1, hk1, hst1⟩ := r.task u y hy
        exact ⟨k1, by rw [List.getElem?_set_ne (Ne.symm hu)]; exact hk1, hst1.mono h3⟩
    · refine ⟨A, .inl rfl, ?_⟩
      rw [heq]
      have : C.calls.set t { x with prog := x.prog } = C.calls := by
        obtain ⟨h1, h2⟩ := List.getElem?_eq_some_iff.1 hx
        rw [show ({ x with prog := x.prog } : Thread) = x from rfl, ← h2, List.set_getElem_self]
      simp only [this]
      exact r

theorem aRel_move {C C' : Config} {A : AConfig} (r : ARel cfg C A) (hs : BMove cfg C C') :
    ∃ A', AMove cfg A A' ∧ ARel cfg C' A' := by
  rcases hs with rfl | hs
  · exact ⟨A, .inl rfl, r⟩
  · exact aRel_step r hs

end Visigoth
