import Verif.Proofs.Discipline
/-!
# Every method follows its discipline
-/
namespace Visigoth

variable {d : Discipline} {h : Held}

theorem allowed_reads {β : Type} {a : Act β} (hq : h.quiet) (hl : a.isLock = false)
    (hr : ∀ l, a.reads = some l → d.rd l h = true) (hw : ∀ l, a.writes = some l → d.wr l h = true) :
    Allowed d h a := by
  cases a <;> first | exact ⟨hq, hr, hw⟩ | cases hl

theorem after_data {β : Type} {a : Act β} (hl : a.isLock = false) : h.after a = h := by
  cases a <;> first | rfl | cases hl

theorem obeys_data {β γ : Type} {Q : Held → γ → Prop} (a : Act β) (f : β → Prog γ) (hq : h.quiet)
    (hl : a.isLock = false) (hr : ∀ l, a.reads = some l → d.rd l h = true)
    (hw : ∀ l, a.writes = some l → d.wr l h = true) (hk : ∀ b, Obeys d Q h (f b)) : Obeys d Q h (perform a >>= f) :=
  obeys_perform a f (allowed_reads hq hl hr hw) (by rw [after_data hl]; exact hk)

theorem obeys_readFrom (hq : h.quiet) (hS : d.rd .arrays h = true) (r : SliceRef) (n : Nat) : ∀ i,
    Obeys d (fun h' _ => h' = h) h (Repo.readFrom r i n) := by
  induction n with
  | zero => intro i; exact ⟨hq, rfl⟩
  | succ n ih =>
    intro i
    refine obeys_data _ _ hq rfl (by intro l hl; cases hl; exact hS) (by intro l hl; cases hl) fun x => ?_
    exact obeys_loop _ (ih (i + 1)) fun xs => ⟨hq, rfl⟩

theorem obeys_sliceHas (hq : h.quiet) (hS : d.rd .arrays h = true) (r : SliceRef) (index : Name) (n : Nat) : ∀ i,
    Obeys d (fun h' _ => h' = h) h (Repo.sliceHas r index i n) := by
  induction n with
  | zero => intro i; exact ⟨hq, rfl⟩
  | succ n ih =>
    intro i
    refine obeys_data _ _ hq rfl (by intro l hl; cases hl; exact hS) (by intro l hl; cases hl) fun x => ?_
    split
    · exact ⟨hq, rfl⟩
    · exact ih (i + 1)

theorem obeys_renameSlice (hq : h.quiet) (hS : d.rd .arrays h = true) (hW : d.wr .arrays h = true) (r : SliceRef)
    (old new : Name) (n : Nat) : ∀ i, Obeys d (fun h' _ => h' = h) h (Repo.renameSlice r old new i n) := by
  induction n with
  | zero => intro i; exact ⟨hq, rfl⟩
  | succ n ih =>
    intro i
    refine obeys_data _ _ hq rfl (by intro l hl; cases hl; exact hS) (by intro l hl; cases hl) fun x => ?_
    dsimp only
    split
    · exact obeys_data _ _ hq rfl (by intro l hl; cases hl) (by intro l hl; cases hl; exact hW) fun _ => ih (i + 1)
    · exact ih (i + 1)

theorem obeys_renameAliases (hq : h.quiet) (hA : d.rd .aliases h = true) (hS : d.rd .arrays h = true)
    (hW : d.wr .arrays h = true) (old new : Name) (ks : List Name) :
    Obeys d (fun h' _ => h' = h) h (Repo.renameAliases old new ks) := by
  induction ks with
  | nil => exact ⟨hq, rfl⟩
  | cons k ks ih =>
    refine obeys_data _ _ hq rfl (by intro l hl; cases hl; exact hA) (by intro l hl; cases hl) fun x => ?_
    cases x with
    | none => exact ih
    | some r => exact obeys_loop _ (obeys_renameSlice hq hS hW r old new r.len 0) fun _ => ih

theorem obeys_resolveFrom (hq : h.quiet) (hI : d.rd .indices h = true) (hS : d.rd .arrays h = true) (r : SliceRef)
    (n : Nat) : ∀ i, Obeys d (fun h' _ => h' = h) h (Repo.resolveFrom r i n) := by
  induction n with
  | zero => intro i; exact ⟨hq, rfl⟩
  | succ n ih =>
    intro i
    refine obeys_data _ _ hq rfl (by intro l hl; cases hl; exact hS) (by intro l hl; cases hl) fun x => ?_
    refine obeys_data _ _ hq rfl (by intro l hl; cases hl; exact hI) (by intro l hl; cases hl) fun p => ?_
    exact obeys_loop _ (ih (i + 1)) fun xs => ⟨hq, rfl⟩

theorem obeys_searchIndex (hq : h.quiet) (hI : d.rd .indices h = true) (p : Ptr) (terms : Str) (e : Engine) :
    Obeys d (fun h' _ => h' = h) h (Repo.searchIndex p terms e) := by
  refine obeys_data _ _ hq rfl (by intro l hl; cases hl; exact hI) (by intro l hl; cases hl) fun x => ?_
  cases x with
  | none => exact hq
  | some sr => exact ⟨hq, rfl⟩

theorem obeys_searchAll (hq : h.quiet) (hI : d.rd .indices h = true) (terms : Str) (e : Engine) (ps : List Ptr) :
    Obeys d (fun h' _ => h' = h) h (Repo.searchAll terms e ps) := by
  induction ps with
  | nil => exact ⟨hq, rfl⟩
  | cons p ps ih =>
    exact obeys_loop _ (obeys_searchIndex hq hI p terms e) fun sr => obeys_loop _ ih fun _ => ⟨hq, rfl⟩

theorem obeys_searchTargets (hq : h.quiet) (hI : d.rd .indices h = true) (ps : List (Option Ptr)) (terms : Str)
    (e : Engine) : Obeys d (fun h' _ => h' = h) h (Repo.searchTargets ps terms e) := by
  unfold Repo.searchTargets
  split
  · exact hq
  · exact obeys_searchIndex hq hI _ _ _
  · refine obeys_data _ _ hq rfl (by intro l hl; cases hl) (by intro l hl; cases hl) fun ps => ?_
    exact obeys_searchAll hq hI _ _ _

theorem obeys_putPostings (hq : h.quiet) (hI : d.wr .indices h = true) (p : Ptr) (next : Nat) (toks : List Str) :
    Obeys d (fun h' _ => h' = h) h (Repo.putPostings p next toks) := by
  induction toks with
  | nil => exact ⟨hq, rfl⟩
  | cons tok toks ih =>
    exact obeys_data _ _ hq rfl (by intro l hl; cases hl) (by intro l hl; cases hl; exact hI) fun _ => ih

theorem obeys_putIndex (hq : h.quiet) (hI : d.wr .indices h = true) (cfg : Cfg) (p : Ptr) (doc : DocRequest) :
    Obeys d (fun h' _ => h' = h) h (Repo.putIndex cfg p doc) :=
  obeys_data _ _ hq rfl (by intro l hl; cases hl) (by intro l hl; cases hl; exact hI)
    fun next => obeys_putPostings hq hI p next _

theorem obeys_putAll (hq : h.quiet) (hI : d.wr .indices h = true) (cfg : Cfg) (doc : DocRequest) (ps : List Ptr) :
    Obeys d (fun h' _ => h' = h) h (Repo.putAll cfg doc ps) := by
  induction ps with
  | nil => exact ⟨hq, rfl⟩
  | cons p ps ih => exact obeys_loop _ (obeys_putIndex hq hI cfg p doc) fun _ => ih

theorem obeys_putTargets (hq : h.quiet) (hI : d.wr .indices h = true) (cfg : Cfg) (ps : List (Option Ptr))
    (doc : DocRequest) : Obeys d (fun h' _ => h' = h) h (Repo.putTargets cfg ps doc) := by
  unfold Repo.putTargets
  split
  · exact hq
  · split
    · refine obeys_data _ _ hq rfl (by intro l hl; cases hl) (by intro l hl; cases hl) fun ps => ?_
      exact obeys_putAll hq hI _ _ _
    · exact hq

theorem obeys_dropAliases (hq : h.quiet) (hA : d.rd .aliases h = true) (hS : d.rd .arrays h = true)
    (hWA : d.wr .aliases h = true) (hWS : d.wr .arrays h = true) (indexName : Name) (ks : List Name) :
    Obeys d (fun h' _ => h' = h) h (Repo.dropAliases indexName ks) := by
  induction ks with
  | nil => exact ⟨hq, rfl⟩
  | cons k ks ih =>
    refine obeys_data _ _ hq rfl (by intro l hl; cases hl; exact hA) (by intro l hl; cases hl) fun x => ?_
    cases x with
    | none => exact ih
    | some r =>
      refine obeys_loop _ (obeys_readFrom hq hS r r.len 0) fun xs => ?_
      dsimp only
      split
      · exact obeys_data _ _ hq rfl (by intro l hl; cases hl) (by intro l hl; cases hl; exact hWA) fun _ => ih
      · split
        · refine obeys_data _ _ hq rfl (by intro l hl; cases hl) (by intro l hl; cases hl; exact hWS) fun _ => ?_
          exact obeys_data _ _ hq rfl (by intro l hl; cases hl) (by intro l hl; cases hl; exact hWA) fun _ => ih
        · exact ih

theorem obeys_listRows (hq : h.quiet) (hA : d.rd .aliases h = true) (ks : List Name) :
    Obeys d (fun h' _ => h' = h) h (Repo.listRows ks) := by
  induction ks with
  | nil => exact ⟨hq, rfl⟩
  | cons k ks ih =>
    refine obeys_data _ _ hq rfl (by intro l hl; cases hl; exact hA) (by intro l hl; cases hl) fun x => ?_
    cases x with
    | none => exact ih
    | some r => exact obeys_loop _ ih fun _ => ⟨hq, rfl⟩

/-! ## The methods -/

/-- Nothing is held at the end. -/
def clean {α : Type} : Held → α → Prop := fun h _ => h = {}

/-- A data action under literal locks. -/
macro "data" : tactic => `(tactic|
  refine obeys_data _ _ (by decide) rfl (by intro l hl; cases hl <;> rfl) (by intro l hl; cases hl <;> rfl) fun x => ?_)

/-- A lock action under literal locks. -/
macro "sync" : tactic => `(tactic|
  refine obeys_perform _ _ (by first | exact ⟨by decide, by decide⟩ | exact rfl) fun _ => ?_)

macro "wlock" : tactic => `(tactic| refine obeys_lock _ _ (by decide) (by decide) ?_)

macro "done" : tactic => `(tactic| exact ⟨by decide, by first | rfl | trivial⟩)

theorem obeys_list (hd : d.rd .indices { imu := .read } = true) : Obeys d clean {} Repo.list := by
  unfold Repo.list
  sync
  refine obeys_data _ _ (by decide) rfl (by intro l hl; cases hl; exact hd) (by intro l hl; cases hl) fun x => ?_
  sync
  done

theorem obeys_has (hd : d.rd .indices { imu := .read } = true) (n : Name) : Obeys d clean {} (Repo.has n) := by
  unfold Repo.has
  sync
  refine obeys_data _ _ (by decide) rfl (by intro l hl; cases hl; exact hd) (by intro l hl; cases hl) fun x => ?_
  sync
  done

theorem obeys_hasAlias (hd : d.rd .aliases { amu := .read } = true) (n : Name) :
    Obeys d clean {} (Repo.hasAlias n) := by
  unfold Repo.hasAlias
  sync
  refine obeys_data _ _ (by decide) rfl (by intro l hl; cases hl; exact hd) (by intro l hl; cases hl) fun x => ?_
  sync
  done

theorem obeys_renderAll (hq : h.quiet) (hI : d.rd .indices h = true) (ks : List Name) :
    Obeys d (fun h' _ => h' = h) h (Repo.renderAll ks) := by
  induction ks with
  | nil => exact ⟨hq, rfl⟩
  | cons k ks ih =>
    refine obeys_data _ _ hq rfl (by intro l hl; cases hl; exact hI) (by intro l hl; cases hl) fun x => ?_
    cases x with
    | none => exact ih
    | some p =>
      refine obeys_data _ _ hq rfl (by intro l hl; cases hl; exact hI) (by intro l hl; cases hl) fun x => ?_
      exact obeys_loop _ ih fun rows => ⟨hq, rfl⟩

theorem obeys_string (hd : d.rd .indices { imu := .read } = true) : Obeys d clean {} Repo.string := by
  unfold Repo.string
  sync
  refine obeys_data _ _ (by decide) rfl (by intro l hl; cases hl; exact hd) (by intro l hl; cases hl) fun x => ?_
  refine obeys_loop _ (obeys_renderAll (by decide) hd x) fun rows => ?_
  sync
  done

theorem obeys_listAliases (hd : d.rd .aliases { amu := .read } = true) : Obeys d clean {} Repo.listAliases := by
  unfold Repo.listAliases
  sync
  refine obeys_data _ _ (by decide) rfl (by intro l hl; cases hl; exact hd) (by intro l hl; cases hl) fun x => ?_
  refine obeys_loop _ (obeys_listRows (by decide) hd x) fun rows => ?_
  sync
  done

/-- The two disciplines agree where both mutexes are held. -/
structure Usual (d : Discipline) : Prop where
  rI : ∀ h, h.imu.shared = true → d.rd .indices h = true
  wI : ∀ h, h.imu = .write → d.wr .indices h = true
  rA : ∀ h, h.amu.shared = true → d.rd .aliases h = true
  rS : ∀ h, h.imu.shared = true → h.amu.shared = true → d.rd .arrays h = true
  wA : ∀ h, h.imu.shared = true → h.amu = .write → d.wr .aliases h = true
  wS : ∀ h, h.imu.shared = true → h.amu = .write → d.wr .arrays h = true

theorem usual_strict : Usual strict := by
  constructor <;> intro ⟨i, a⟩ <;> cases i <;> cases a <;> simp [strict, Mode.shared, Mode.excl]

theorem usual_broad : Usual broad := by
  constructor <;> intro ⟨i, a⟩ <;> cases i <;> cases a <;> simp [broad, Mode.shared, Mode.excl]

theorem obeys_alias (u : Usual d) (a n : Name) : Obeys d clean {} (Repo.alias a n) := by
  unfold Repo.alias
  sync
  refine obeys_data _ _ (by decide) rfl (by intro l hl; cases hl; exact u.rI _ rfl) (by intro l hl; cases hl) fun x => ?_
  cases x with
  | none =>
    sync
    done
  | some p =>
    wlock
    refine obeys_data _ _ (by decide) rfl (by intro l hl; cases hl; exact u.rA _ rfl) (by intro l hl; cases hl) fun r => ?_
    have fin : ∀ added : Bool, Obeys d clean { imu := .read, amu := .write } (do
        perform (.unlock .aliases)
        perform (.runlock .indices)
        return added) := by
      intro added
      sync
      sync
      done
    cases r with
    | none =>
      refine obeys_data _ _ (by decide) rfl (by intro l hl; cases hl)
        (by intro l hl; cases hl; exact u.wS _ rfl rfl) fun r => ?_
      refine obeys_data _ _ (by decide) rfl (by intro l hl; cases hl)
        (by intro l hl; cases hl; exact u.wA _ rfl rfl) fun _ => ?_
      exact fin true
    | some r =>
      refine obeys_loop _ (obeys_sliceHas (by decide) (u.rS _ rfl rfl) r n r.len 0) fun e => ?_
      split
      · exact fin false
      · refine obeys_data _ _ (by decide) rfl (by intro l hl; cases hl)
          (by intro l hl; cases hl; exact u.wS _ rfl rfl) fun r => ?_
        refine obeys_data _ _ (by decide) rfl (by intro l hl; cases hl)
          (by intro l hl; cases hl; exact u.wA _ rfl rfl) fun _ => ?_
        exact fin true

theorem obeys_search (u : Usual d) (n : Name) (ts : Str) (e : Engine) : Obeys d clean {} (Repo.search n ts e) := by
  unfold Repo.search
  sync
  refine obeys_data _ _ (by decide) rfl (by intro l hl; cases hl; exact u.rI _ rfl) (by intro l hl; cases hl) fun x => ?_
  cases x with
  | some i =>
    refine obeys_loop _ (obeys_searchTargets (by decide) (u.rI _ rfl) _ _ _) fun res => ?_
    sync
    done
  | none =>
    sync
    refine obeys_data _ _ (by decide) rfl (by intro l hl; cases hl; exact u.rA _ rfl) (by intro l hl; cases hl) fun r => ?_
    cases r with
    | none =>
      sync
      sync
      done
    | some r =>
      refine obeys_loop _ (obeys_resolveFrom (by decide) (u.rI _ rfl) (u.rS _ rfl rfl) r r.len 0) fun ps => ?_
      sync
      refine obeys_loop _ (obeys_searchTargets (by decide) (u.rI _ rfl) _ _ _) fun res => ?_
      sync
      done

theorem obeys_getIndices (u : Usual d) (n : Name) : Obeys d clean {} (Repo.getIndices n) := by
  unfold Repo.getIndices
  sync
  refine obeys_data _ _ (by decide) rfl (by intro l hl; cases hl; exact u.rI _ rfl) (by intro l hl; cases hl) fun x => ?_
  cases x with
  | some i =>
    sync
    done
  | none =>
    sync
    refine obeys_data _ _ (by decide) rfl (by intro l hl; cases hl; exact u.rA _ rfl) (by intro l hl; cases hl) fun r => ?_
    cases r with
    | none =>
      sync
      sync
      done
    | some r =>
      refine obeys_loop _ (obeys_resolveFrom (by decide) (u.rI _ rfl) (u.rS _ rfl rfl) r r.len 0) fun ps => ?_
      sync
      sync
      done

theorem obeys_put (u : Usual d) (cfg : Cfg) (n : Name) (doc : DocRequest) : Obeys d clean {} (Repo.put cfg n doc) := by
  unfold Repo.put
  refine obeys_bind _ ((obeys_getIndices u n).mono ?_)
  rintro _ r _ rfl
  wlock
  cases r with
  | none =>
    refine obeys_data _ _ (by decide) rfl (by intro l hl; cases hl) (by intro l hl; cases hl; exact u.wI _ rfl) fun p => ?_
    refine obeys_data _ _ (by decide) rfl (by intro l hl; cases hl) (by intro l hl; cases hl; exact u.wI _ rfl) fun _ => ?_
    refine obeys_loop _ (obeys_putIndex (by decide) (u.wI _ rfl) cfg p doc) fun _ => ?_
    exact ⟨⟨by decide, by decide⟩, fun _ => ⟨by decide, rfl⟩⟩
  | some ps =>
    refine obeys_loop _ (obeys_putTargets (by decide) (u.wI _ rfl) cfg ps doc) fun _ => ?_
    exact ⟨⟨by decide, by decide⟩, fun _ => ⟨by decide, rfl⟩⟩

theorem obeys_drop (u : Usual d) (n : Name) : Obeys d clean {} (Repo.drop n) := by
  unfold Repo.drop
  sync
  refine obeys_data _ _ (by decide) rfl (by intro l hl; cases hl; exact u.rI _ rfl) (by intro l hl; cases hl) fun x => ?_
  cases x with
  | none =>
    sync
    done
  | some p =>
    sync
    wlock
    wlock
    refine obeys_data _ _ (by decide) rfl (by intro l hl; cases hl; exact u.rA _ rfl) (by intro l hl; cases hl) fun ks => ?_
    refine obeys_loop _ (obeys_dropAliases (by decide) (u.rA _ rfl) (u.rS _ rfl rfl) (u.wA _ rfl rfl)
      (u.wS _ rfl rfl) n ks) fun _ => ?_
    refine obeys_data _ _ (by decide) rfl (by intro l hl; cases hl) (by intro l hl; cases hl; exact u.wI _ rfl) fun _ => ?_
    sync
    sync
    done

theorem obeys_rename (o n : Name) : Obeys broad clean {} (Repo.rename o n) := by
  unfold Repo.rename
  wlock
  refine obeys_data _ _ (by decide) rfl (by intro l hl; cases hl; rfl) (by intro l hl; cases hl) fun x => ?_
  cases x with
  | none =>
    sync
    done
  | some p =>
    data
    data
    refine obeys_data _ _ (by decide) rfl (by intro l hl; cases hl; rfl) (by intro l hl; cases hl) fun ks => ?_
    refine obeys_loop _ (obeys_renameAliases (by decide) rfl rfl rfl o n ks) fun _ => ?_
    sync
    done

/-- What `UnAlias` still holds when it returns: nothing, or, when an index was given and it returns
false, one of the mutexes. -/
def leaky (i : Name) : Held → Bool → Prop := fun h b =>
  if i.length = 0 then h = {}
  else (b = true ∧ h = {}) ∨ (b = false ∧ (h = { imu := .read } ∨ h = { amu := .write }))

theorem obeys_unAlias (a n : Name) : Obeys strict (leaky n) {} (Repo.unAlias a n) := by
  unfold Repo.unAlias leaky
  split
  · wlock
    refine obeys_data _ _ (by decide) rfl (by intro l hl; cases hl; rfl) (by intro l hl; cases hl) fun r => ?_
    data
    sync
    exact ⟨by decide, rfl⟩
  · sync
    refine obeys_data _ _ (by decide) rfl (by intro l hl; cases hl; rfl) (by intro l hl; cases hl) fun x => ?_
    cases x with
    | none => exact ⟨by decide, Or.inr ⟨rfl, Or.inl rfl⟩⟩
    | some p =>
      sync
      wlock
      refine obeys_data _ _ (by decide) rfl (by intro l hl; cases hl; rfl) (by intro l hl; cases hl) fun r => ?_
      cases r with
      | none => exact ⟨by decide, Or.inr ⟨rfl, Or.inr rfl⟩⟩
      | some r =>
        refine obeys_loop _ (obeys_readFrom (by decide) rfl r r.len 0) fun xs => ?_
        dsimp only
        split
        · refine obeys_data _ _ (by decide) rfl (by intro l hl; cases hl) (by intro l hl; cases hl; rfl) fun r => ?_
          data
          sync
          exact ⟨by decide, Or.inl ⟨rfl, rfl⟩⟩
        · sync
          exact ⟨by decide, Or.inl ⟨rfl, rfl⟩⟩

/-! ## Calls -/

/-- What a call holds when it has returned. -/
def endOf (op : Op) : Held → Ret → Prop := fun h r =>
  match op with
  | .unAlias _ i =>
    if i.length = 0 then h = {}
    else (r = .bool true ∧ h = {}) ∨ (r = .bool false ∧ (h = { imu := .read } ∨ h = { amu := .write }))
  | _ => h = {}

theorem obeys_map {α β : Type} {Q : Held → β → Prop} {h : Held} {p : Prog α} (f : α → β)
    (hp : Obeys d (fun h a => Q h (f a)) h p) : Obeys d Q h (do return f (← p)) :=
  obeys_bind _ (hp.mono fun _ _ hq h => ⟨hq, h⟩)

theorem obeys_op_usual (u : Usual d) (cfg : Cfg) (op : Op) (h1 : op.isRename = false) (h2 : op.isUnAlias = false) :
    Obeys d (endOf op) {} (op.prog cfg) := by
  have ok : ∀ {α : Type} (f : α → Ret) (h : Held) (a : α), h.quiet → clean h a → endOf op h (f a) :=
    fun f h a _ hc => by cases op <;> first | exact hc | cases h2
  cases op with
  | list => exact obeys_map Ret.names ((obeys_list (u.rI _ rfl)).mono (ok _))
  | listAliases => exact obeys_map Ret.rows ((obeys_listAliases (u.rA _ rfl)).mono (ok _))
  | has n => exact obeys_map Ret.bool ((obeys_has (u.rI _ rfl) n).mono (ok _))
  | hasAlias n => exact obeys_map Ret.bool ((obeys_hasAlias (u.rA _ rfl) n).mono (ok _))
  | alias a i => exact obeys_map Ret.bool ((obeys_alias u a i).mono (ok _))
  | unAlias a i => cases h2
  | put n doc => exact obeys_map (fun _ => Ret.unit) ((obeys_put u cfg n doc).mono (ok _))
  | search n ts e =>
    refine obeys_bind _ ((obeys_search u n ts e).mono ?_)
    rintro _ r hq rfl
    cases r <;> exact ⟨hq, rfl⟩
  | rename o n => cases h1
  | drop n => exact obeys_map Ret.bool ((obeys_drop u n).mono (ok _))
  | string => exact obeys_map Ret.text ((obeys_string (u.rI _ rfl)).mono (ok _))

/-- Every call but `Rename` is strict. -/
theorem obeys_strict (cfg : Cfg) (op : Op) (h : op.isRename = false) : Obeys strict (endOf op) {} (op.prog cfg) := by
  by_cases h2 : op.isUnAlias = false
  · exact obeys_op_usual usual_strict cfg op h h2
  · cases op <;> simp [Op.isUnAlias] at h2
    refine obeys_map Ret.bool ((obeys_unAlias _ _).mono ?_)
    intro h b _ hb
    unfold leaky at hb
    unfold endOf
    split at hb
    · next h0 => simp only [h0, if_true]; exact hb
    · next h0 =>
      simp only [h0, if_false]
      rcases hb with ⟨rfl, h1⟩ | ⟨rfl, h1⟩
      · exact Or.inl ⟨rfl, h1⟩
      · exact Or.inr ⟨rfl, h1⟩

/-- Every call but `UnAlias` is broad. -/
theorem obeys_broad (cfg : Cfg) (op : Op) (h : op.isUnAlias = false) : Obeys broad (endOf op) {} (op.prog cfg) := by
  by_cases h2 : op.isRename = false
  · exact obeys_op_usual usual_broad cfg op h2 h
  · cases op <;> simp [Op.isRename] at h2
    exact obeys_map Ret.bool ((obeys_rename _ _).mono fun h a _ hc => hc)

end Visigoth
