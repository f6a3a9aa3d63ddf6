import Verif.Spec.GoroutineOrder
import Verif.Proofs.HappensBefore
import Verif.Proofs.FineProps
/-!
# Conflicting accesses of goroutines are ordered
-/
namespace Visigoth

variable {cfg : Cfg} {d : Discipline}

/-! ## The discipline of calls that start goroutines -/

/-- `Obeys` for programs that start goroutines: those of `Put` are started with the index mutex held exclusively, and put to
different indices; those of `Search` with at least a read lock. -/
def FObeys {α : Type} (d : Discipline) (Q : Held → α → Prop) (h : Held) : FProg α → Prop
  | .ret a => h.quiet ∧ Q h a
  | .crash _ => h.quiet
  | .act a k => Allowed d h a ∧ ∀ b, FObeys d Q (h.after a) (k b)
  | .forkPut ps _ k => h.quiet ∧ h.imu = .write ∧ ps.Nodup ∧ FObeys d Q h k
  | .forkSearch _ _ _ k => h.quiet ∧ h.imu.shared = true ∧ ∀ r, FObeys d Q h (k r)

theorem fobeys_fine {α : Type} {Q : Held → α → Prop} : ∀ {p : Prog α} {h : Held}, Obeys d Q h p → FObeys d Q h p.fine := by
  intro p
  induction p with
  | ret a => exact id
  | crash c => exact id
  | act a k ih => intro h hp; exact ⟨hp.1, fun b => ih b (hp.2 b)⟩

theorem fobeys_bind {α β : Type} {Q : Held → β → Prop} (f : α → FProg β) :
    ∀ {p : FProg α} {h : Held}, FObeys d (fun h a => FObeys d Q h (f a)) h p → FObeys d Q h (p >>= f) := by
  intro p
  show ∀ {h : Held}, _ → FObeys d Q h (p.bind f)
  induction p with
  | ret a => intro h hp; exact hp.2
  | crash c => intro h hp; exact hp
  | act a k ih => intro h hp; exact ⟨hp.1, fun b => ih b (hp.2 b)⟩
  | forkPut ps doc k ih => intro h hp; exact ⟨hp.1, hp.2.1, hp.2.2.1, ih hp.2.2.2⟩
  | forkSearch ps ts e k ih => intro h hp; exact ⟨hp.1, hp.2.1, fun r => ih r (hp.2.2 r)⟩

theorem FObeys.mono {α : Type} {Q R : Held → α → Prop} (hQR : ∀ h a, h.quiet → Q h a → R h a) :
    ∀ {p : FProg α} {h : Held}, FObeys d Q h p → FObeys d R h p := by
  intro p
  induction p with
  | ret a => intro h hp; exact ⟨hp.1, hQR _ _ hp.1 hp.2⟩
  | crash c => intro h hp; exact hp
  | act a k ih => intro h hp; exact ⟨hp.1, fun b => ih b (hp.2 b)⟩
  | forkPut ps doc k ih => intro h hp; exact ⟨hp.1, hp.2.1, hp.2.2.1, ih hp.2.2.2⟩
  | forkSearch ps ts e k ih => intro h hp; exact ⟨hp.1, hp.2.1, fun r => ih r (hp.2.2 r)⟩

/-- A part that starts no goroutines. -/
theorem fobeys_part {α β : Type} {Q : Held → β → Prop} {h : Held} {p : Prog α} (f : α → FProg β)
    (hp : Obeys d (fun h a => FObeys d Q h (f a)) h p) : FObeys d Q h (p.fine >>= f) :=
  fobeys_bind f (fobeys_fine hp)

theorem fobeys_one {β γ : Type} {Q : Held → γ → Prop} {h : Held} (a : Act β) (f : β → FProg γ) (ha : Allowed d h a)
    (hk : ∀ b, FObeys d Q (h.after a) (f b)) : FObeys d Q h ((perform a).fine >>= f) := ⟨ha, hk⟩

theorem fobeys_data {β γ : Type} {Q : Held → γ → Prop} {h : Held} (a : Act β) (f : β → FProg γ) (hq : h.quiet)
    (hl : a.isLock = false) (hr : ∀ l, a.reads = some l → d.rd l h = true)
    (hw : ∀ l, a.writes = some l → d.wr l h = true) (hk : ∀ b, FObeys d Q h (f b)) :
    FObeys d Q h ((perform a).fine >>= f) :=
  fobeys_one a f (allowed_reads hq hl hr hw) (by rw [after_data hl]; exact hk)

theorem fobeys_loop {α β : Type} {Q : Held → β → Prop} {h : Held} {p : FProg α} (f : α → FProg β)
    (hp : FObeys d (fun h' _ => h' = h) h p) (hk : ∀ a, FObeys d Q h (f a)) : FObeys d Q h (p >>= f) :=
  fobeys_bind f (hp.mono (by rintro _ a _ rfl; exact hk a))

theorem fobeys_fineSearchTargets {h : Held} (hq : h.quiet) (hI : h.imu.shared = true) (hd : d.rd .indices h = true)
    (ps : List (Option Ptr)) (terms : Str) (e : Engine) :
    FObeys d (fun h' _ => h' = h) h (Repo.fineSearchTargets ps terms e) := by
  unfold Repo.fineSearchTargets
  split
  · exact hq
  · exact fobeys_fine (obeys_searchIndex hq hd _ _ _)
  · exact ⟨hq, hI, fun _ => ⟨hq, rfl⟩⟩

theorem fobeys_finePutTargets {h : Held} (hq : h.quiet) (hI : h.imu = .write) (ps : List (Option Ptr)) (doc : DocRequest) :
    FObeys d (fun h' _ => h' = h) h (Repo.finePutTargets ps doc) := by
  unfold Repo.finePutTargets
  split
  · exact hq
  · split
    · next hn => exact ⟨hq, hI, hn, hq, rfl⟩
    · exact hq

theorem fobeys_fineSearch (u : Usual d) (n : Name) (ts : Str) (e : Engine) : FObeys d clean {} (Repo.fineSearch n ts e) := by
  unfold Repo.fineSearch
  refine fobeys_one _ _ ⟨by decide, by decide⟩ fun _ => ?_
  refine fobeys_data _ _ (by decide) rfl (by intro l hl; cases hl; exact u.rI _ rfl) (by intro l hl; cases hl) fun x => ?_
  cases x with
  | some i =>
    refine fobeys_loop _ (fobeys_fineSearchTargets (by decide) rfl (u.rI _ rfl) _ _ _) fun res => ?_
    refine fobeys_one _ _ ⟨by decide, by decide⟩ fun _ => ?_
    exact ⟨by decide, rfl⟩
  | none =>
    refine fobeys_one _ _ ⟨by decide, by decide⟩ fun _ => ?_
    refine fobeys_data _ _ (by decide) rfl (by intro l hl; cases hl; exact u.rA _ rfl) (by intro l hl; cases hl) fun r => ?_
    cases r with
    | none =>
      refine fobeys_one _ _ ⟨by decide, by decide⟩ fun _ => ?_
      refine fobeys_one _ _ ⟨by decide, by decide⟩ fun _ => ?_
      exact ⟨by decide, rfl⟩
    | some r =>
      refine fobeys_loop _ (fobeys_fine (obeys_resolveFrom (by decide) (u.rI _ rfl) (u.rS _ rfl rfl) r r.len 0)) fun ps => ?_
      refine fobeys_one _ _ ⟨by decide, by decide⟩ fun _ => ?_
      refine fobeys_loop _ (fobeys_fineSearchTargets (by decide) rfl (u.rI _ rfl) _ _ _) fun res => ?_
      refine fobeys_one _ _ ⟨by decide, by decide⟩ fun _ => ?_
      exact ⟨by decide, rfl⟩

theorem fobeys_finePut (u : Usual d) (cfg : Cfg) (n : Name) (doc : DocRequest) : FObeys d clean {} (Repo.finePut cfg n doc) := by
  unfold Repo.finePut
  refine fobeys_part _ ((obeys_getIndices u n).mono ?_)
  rintro _ r _ rfl
  refine fobeys_part (h := {}) _ (?_ : Obeys d _ {} (Repo.lock .indices))
  refine ⟨⟨by decide, by decide⟩, fun _ => ⟨rfl, fun _ => ⟨by decide, ?_⟩⟩⟩
  cases r with
  | none =>
    refine fobeys_data _ _ (by decide) rfl (by intro l hl; cases hl) (by intro l hl; cases hl; exact u.wI _ rfl) fun p => ?_
    refine fobeys_data _ _ (by decide) rfl (by intro l hl; cases hl) (by intro l hl; cases hl; exact u.wI _ rfl) fun _ => ?_
    refine fobeys_loop _ (fobeys_fine (obeys_putIndex (by decide) (u.wI _ rfl) cfg p doc)) fun _ => ?_
    exact ⟨⟨by decide, by decide⟩, fun _ => ⟨by decide, rfl⟩⟩
  | some ps =>
    refine fobeys_loop _ (fobeys_finePutTargets (by decide) rfl ps doc) fun _ => ?_
    exact ⟨⟨by decide, by decide⟩, fun _ => ⟨by decide, rfl⟩⟩

/-- No condition at the end. -/
abbrev FKeeps (d : Discipline) (h : Held) (p : FProg Ret) : Prop := FObeys d (fun _ _ => True) h p

theorem fkeeps_usual (u : Usual d) (cfg : Cfg) {op : Op} (h : Obeys d (endOf op) {} (op.prog cfg)) : FKeeps d {} (op.fine cfg) := by
  cases op with
  | put n doc =>
    exact fobeys_bind _ ((fobeys_finePut u cfg n doc).mono fun _ _ hq _ => ⟨hq, trivial⟩)
  | search n ts e =>
    refine fobeys_bind _ ((fobeys_fineSearch u n ts e).mono fun _ r hq _ => ?_)
    cases r <;> exact ⟨hq, trivial⟩
  | _ => exact (fobeys_fine h).mono fun _ _ _ _ => trivial

theorem fkeeps_strict (cfg : Cfg) {op : Op} (h : op.isRename = false) : FKeeps strict {} (op.fine cfg) :=
  fkeeps_usual usual_strict cfg (obeys_strict cfg op h)

theorem fkeeps_broad (cfg : Cfg) {op : Op} (h : op.isUnAlias = false) : FKeeps broad {} (op.fine cfg) :=
  fkeeps_usual usual_broad cfg (obeys_broad cfg op h)

/-- The rest of a goroutine of `Put` uses one index only. -/
def OnIndex (p : Ptr) : Prog Unit → Prop
  | .ret _ => True
  | .crash _ => True
  | .act a k => a.isLock = false ∧ (∀ v, a.readsVar = some v ∨ a.writesVar = some v → v = .index p) ∧ ∀ b, OnIndex p (k b)

theorem onIndex_putPostings (p : Ptr) (next : Nat) : ∀ toks, OnIndex p (Repo.putPostings p next toks)
  | [] => trivial
  | _ :: toks => ⟨rfl, fun v hv => by rcases hv with h | h <;> cases h; rfl, fun _ => onIndex_putPostings p next toks⟩

theorem onIndex_putIndex (cfg : Cfg) (p : Ptr) (doc : DocRequest) : OnIndex p (Repo.putIndex cfg p doc) :=
  ⟨rfl, fun v hv => by rcases hv with h | h <;> cases h; rfl, fun next => onIndex_putPostings p next _⟩

/-! ## What the events of a call say about it -/

/-- The goroutines at work. -/
inductive Crew where
  | idle
  | put (ps : List Ptr)
  | search

structure Past where
  held : Held := {}
  crew : Crew := .idle
  dead : Bool := false
  rl : Option Nat := none

def Past.after (p : Past) : Agent → Deed → Past
  | none, .act a => { p with held := p.held.after a }
  | none, .forkPut ps => { p with crew := .put ps }
  | none, .forkSearch => { p with crew := .search, rl := none }
  | none, .putJoin => { p with crew := .idle }
  | none, .searchJoin => { p with crew := .idle }
  | none, .panic => { p with crew := .idle, dead := true }
  | some i, .lock => { p with rl := some i }
  | some _, .unlock => { p with rl := none }
  | _, _ => p

def pastOf (es : List GEvent) (t : Tid) : Past :=
  es.foldl (fun p e => if e.tid = t then p.after e.agent e.deed else p) {}

/-- The state of a call agrees with its events. -/
def FOK (d : Discipline) (p : Past) : FState → Prop
  | .run q => p.crew = .idle ∧ FKeeps d p.held q ∧ (p.dead = true → ∃ e, q = .crash e)
  | .putting gs k => ∃ ps, p.crew = .put ps ∧ ps.Nodup ∧ p.dead = false ∧ p.held.imu = .write ∧ p.held.quiet ∧
      FKeeps d p.held k ∧ gs.length = ps.length ∧ ∀ (i : Nat) g q, gs[i]? = some g → ps[i]? = some q → OnIndex q g
  | .searching _ rl gs _ _ k => p.crew = .search ∧ p.dead = false ∧ p.rl = rl ∧ p.held.imu.shared = true ∧ p.held.quiet ∧
      (∀ r, FKeeps d p.held (k r)) ∧ ∀ (i : Nat) rest, gs[i]? = some (.appending rest) → rl = some i

def FGood (op : Op) (p : Past) (st : FState) : Prop :=
  (op.isRename = false → FOK strict p st) ∧ (op.isUnAlias = false → FOK broad p st)

theorem FGood.some {op : Op} {p : Past} {st : FState} (g : FGood op p st) : ∃ d, FOK d p st := by
  cases op with
  | rename o n => exact ⟨_, g.2 rfl⟩
  | _ => exact ⟨_, g.1 rfl⟩

theorem FGood.map {op : Op} {p p' : Past} {st st' : FState} (g : FGood op p st) (h : ∀ d, FOK d p st → FOK d p' st') :
    FGood op p' st' := ⟨fun x => h _ (g.1 x), fun x => h _ (g.2 x)⟩

structure FInv (c : FConfig) (P : Tid → Past) : Prop where
  link : Link (fun t => (P t).held) c.sh
  good : ∀ (t : Tid) x, c.calls[t]? = some x → FGood x.op (P t) x.st
  fresh : ∀ t, c.calls.length ≤ t → P t = {}

/-- The past of one call changes. -/
def setP (P : Tid → Past) (t : Tid) (p : Past) : Tid → Past := fun u => if u = t then p else P u

theorem held_setP (P : Tid → Past) (t : Tid) (p : Past) :
    (fun u => (setP P t p u).held) = setH (fun u => (P u).held) t p.held := by
  funext u
  simp only [setP, setH]
  split <;> rfl

theorem finv_set {s s' : Shared} {calls : List FThread} {P : Tid → Past} (i : FInv { sh := s, calls := calls } P) {t : Tid}
    {op : Op} {o : Oracle} {st st' : FState} (h : calls[t]? = some { op := op, oracle := o, st := st }) {p : Past}
    (hl : Link (setH (fun u => (P u).held) t p.held) s') (hg : FGood op p st') :
    FInv { sh := s', calls := calls.set t { op := op, oracle := o, st := st' } } (setP P t p) := by
  have hlt := (List.getElem?_eq_some_iff.1 h).1
  refine ⟨by rw [held_setP]; exact hl, fun u x hx => ?_, fun u hu => ?_⟩
  · simp only at hx
    by_cases hut : u = t
    · subst hut
      rw [List.getElem?_set_self hlt] at hx
      cases hx
      simpa [setP] using hg
    · rw [List.getElem?_set_ne (Ne.symm hut)] at hx
      simp only [setP, if_neg hut]
      exact i.good u x hx
  · simp only [List.length_set] at hu
    have : u ≠ t := by rintro rfl; exact absurd hlt (Nat.not_lt.2 hu)
    simp only [setP, if_neg this]
    exact i.fresh u hu

theorem link_keep {H : Tid → Held} {s s' : Shared} (k : Link H s) (h1 : s'.imu = s.imu) (h2 : s'.amu = s.amu) {t : Tid} {h : Held}
    (hh : h = H t) : Link (setH H t h) s' := by
  intro m
  have : s'.mu m = s.mu m := by cases m; exact h1; exact h2
  rw [this]
  exact (k m).frame t _ (by rw [hh])

theorem finv_step {c c' : FConfig} {P : Tid → Past} {e : GEvent} (i : FInv c P) (hs : GStep cfg e c c') :
    FInv c' (setP P e.tid ((P e.tid).after e.agent e.deed)) := by
  cases hs with
  | act h he =>
    have g := i.good _ _ h
    obtain ⟨d, hd⟩ := g.some
    refine finv_set i h (link_exec i.link hd.2.1.1 he) (g.map fun d hd => ⟨hd.1, hd.2.1.2 _, fun hx => ?_⟩)
    obtain ⟨e, he⟩ := hd.2.2 hx
    cases he
  | @crash t s calls op o β a k e h he =>
    have g := i.good _ _ h
    obtain ⟨d, hd⟩ := g.some
    have hl := lock_no_crash (H := fun u => (P u).held) i.link hd.2.1.1 he
    have hq := hd.2.1.1.quiet hl
    refine finv_set i h (link_keep i.link rfl rfl (after_data hl)) (g.map fun d hd => ⟨hd.1, ?_, fun _ => ⟨e, rfl⟩⟩)
    show FKeeps d ((P t).held.after a) (.crash e)
    rw [after_data hl]
    exact hq
  | @forkPut t s calls op o ps doc k h =>
    refine finv_set i h (link_keep i.link rfl rfl rfl) ((i.good _ _ h).map fun d hd => ?_)
    obtain ⟨h1, ⟨h2, h3, h4, h5⟩, h6⟩ := hd
    refine ⟨ps, rfl, h4, ?_, h3, h2, h5, by simp [putPool], fun j g q hg hq => ?_⟩
    · cases hdd : (P t).dead with
      | false => exact hdd
      | true => obtain ⟨e, he⟩ := h6 hdd; cases he
    · simp only [putPool, List.getElem?_map, hq, Option.map_some, Option.some.injEq] at hg
      subst hg
      exact onIndex_putIndex cfg q doc
  | @put t s s' calls op o gs k β a r b j h hg he =>
    have g := i.good _ _ h
    obtain ⟨d, ps, -, -, -, -, -, -, hlen, hon⟩ := g.some
    have hj := (List.getElem?_eq_some_iff.1 hg).1
    have hq : ps[j]? = some (ps[j]'(hlen ▸ hj)) := List.getElem?_eq_getElem _
    have hon' := hon j _ _ hg hq
    have hm := exec_data_mu hon'.1 he
    refine finv_set i h (link_keep i.link hm.1 hm.2 rfl) (g.map fun d hd => ?_)
    obtain ⟨ps, h1, h2, h3, h4, h5, h6, h7, h8⟩ := hd
    refine ⟨ps, h1, h2, h3, h4, h5, h6, by simpa using h7, fun n x q hx hq => ?_⟩
    by_cases hnj : j = n
    · subst hnj
      rw [List.getElem?_set_self hj] at hx
      cases hx
      exact (h8 j _ _ hg hq).2.2 b
    · rw [List.getElem?_set_ne hnj] at hx
      exact h8 n _ _ hx hq
  | @putCrash t s calls op o gs k β a r e j h hg he =>
    have hj := (List.getElem?_eq_some_iff.1 hg).1
    refine finv_set i h (link_keep i.link rfl rfl rfl) ((i.good _ _ h).map fun d hd => ?_)
    obtain ⟨ps, h1, h2, h3, h4, h5, h6, h7, h8⟩ := hd
    refine ⟨ps, h1, h2, h3, h4, h5, h6, by simpa using h7, fun n x q hx hq => ?_⟩
    by_cases hnj : j = n
    · subst hnj
      rw [List.getElem?_set_self hj] at hx
      cases hx
      trivial
    · rw [List.getElem?_set_ne hnj] at hx
      exact h8 n _ _ hx hq
  | putPanic h he =>
    refine finv_set i h (link_keep i.link rfl rfl rfl) ((i.good _ _ h).map fun d hd => ?_)
    obtain ⟨ps, h1, h2, h3, h4, h5, h6, h7, h8⟩ := hd
    exact ⟨rfl, h5, fun _ => ⟨_, rfl⟩⟩
  | putJoin h hd' =>
    refine finv_set i h (link_keep i.link rfl rfl rfl) ((i.good _ _ h).map fun d hd => ?_)
    obtain ⟨ps, h1, h2, h3, h4, h5, h6, h7, h8⟩ := hd
    exact ⟨rfl, h6, fun x => by simp only [Past.after, h3] at x; cases x⟩
  | @forkSearch t s calls op o ps ts e k h =>
    refine finv_set i h (link_keep i.link rfl rfl rfl) ((i.good _ _ h).map fun d hd => ?_)
    obtain ⟨h1, ⟨h2, h3, h4⟩, h6⟩ := hd
    refine ⟨rfl, ?_, rfl, h3, h2, h4, fun j rest hg => ?_⟩
    · cases hdd : (P t).dead with
      | false => exact hdd
      | true => obtain ⟨e, he⟩ := h6 hdd; cases he
    · simp only [searchPool, List.getElem?_map, Option.map_eq_some_iff, reduceCtorEq, and_false, exists_false] at hg
  | @eval t s calls op o result rl gs ts e k j p mi h hg hp sr he =>
    refine finv_set i h (link_keep i.link rfl rfl rfl) ((i.good _ _ h).map fun d hd => ?_)
    obtain ⟨h1, h2, h3, h4, h5, h6, h7⟩ := hd
    refine ⟨h1, h2, h3, h4, h5, h6, fun n rest hn => ?_⟩
    by_cases hnj : j = n
    · subst hnj
      rw [List.getElem?_set_self (List.getElem?_eq_some_iff.1 hg).1] at hn
      cases hn
    · rw [List.getElem?_set_ne hnj] at hn
      exact h7 n _ hn
  | @evalPanic t s calls op o result rl gs ts e k j p mi h hg hp he =>
    refine finv_set i h (link_keep i.link rfl rfl rfl) ((i.good _ _ h).map fun d hd => ?_)
    obtain ⟨h1, h2, h3, h4, h5, h6, h7⟩ := hd
    refine ⟨h1, h2, h3, h4, h5, h6, fun n rest hn => ?_⟩
    by_cases hnj : j = n
    · subst hnj
      rw [List.getElem?_set_self (List.getElem?_eq_some_iff.1 hg).1] at hn
      cases hn
    · rw [List.getElem?_set_ne hnj] at hn
      exact h7 n _ hn
  | @lock t s calls op o result gs ts e k j sr h hg =>
    refine finv_set i h (link_keep i.link rfl rfl rfl) ((i.good _ _ h).map fun d hd => ?_)
    obtain ⟨h1, h2, h3, h4, h5, h6, h7⟩ := hd
    refine ⟨h1, h2, rfl, h4, h5, h6, fun n rest hn => ?_⟩
    by_cases hnj : j = n
    · subst hnj; rfl
    · rw [List.getElem?_set_ne hnj] at hn
      cases h7 n _ hn
  | @append t s calls op o result rl gs ts e k j x rest h hg =>
    refine finv_set i h (link_keep i.link rfl rfl rfl) ((i.good _ _ h).map fun d hd => ?_)
    obtain ⟨h1, h2, h3, h4, h5, h6, h7⟩ := hd
    refine ⟨h1, h2, h3, h4, h5, h6, fun n rest' hn => ?_⟩
    by_cases hnj : j = n
    · subst hnj; exact h7 j _ hg
    · rw [List.getElem?_set_ne hnj] at hn
      exact h7 n _ hn
  | @unlock t s calls op o result rl gs ts e k j h hg =>
    refine finv_set i h (link_keep i.link rfl rfl rfl) ((i.good _ _ h).map fun d hd => ?_)
    obtain ⟨h1, h2, h3, h4, h5, h6, h7⟩ := hd
    refine ⟨h1, h2, rfl, h4, h5, h6, fun n rest' hn => ?_⟩
    by_cases hnj : j = n
    · subst hnj
      rw [List.getElem?_set_self (List.getElem?_eq_some_iff.1 hg).1] at hn
      cases hn
    · rw [List.getElem?_set_ne hnj] at hn
      have e1 := h7 n _ hn
      rw [h7 j _ hg] at e1
      cases e1
      exact absurd rfl hnj
  | searchPanic h he =>
    refine finv_set i h (link_keep i.link rfl rfl rfl) ((i.good _ _ h).map fun d hd => ?_)
    obtain ⟨h1, h2, h3, h4, h5, h6, h7⟩ := hd
    exact ⟨rfl, h5, fun _ => ⟨_, rfl⟩⟩
  | searchJoin h hd' =>
    refine finv_set i h (link_keep i.link rfl rfl rfl) ((i.good _ _ h).map fun d hd => ?_)
    obtain ⟨h1, h2, h3, h4, h5, h6, h7⟩ := hd
    exact ⟨rfl, h6 _, fun x => by simp only [Past.after, h2] at x; cases x⟩

theorem pastOf_snoc (es : List GEvent) (e : GEvent) :
    pastOf (es ++ [e]) = setP (pastOf es) e.tid ((pastOf es e.tid).after e.agent e.deed) := by
  funext t
  simp only [pastOf, List.foldl_append, List.foldl_cons, List.foldl_nil, setP]
  by_cases h : t = e.tid
  · subst h; simp
  · have h' : e.tid ≠ t := fun x => h x.symm
    simp [h, h']

theorem pastOf_step {es : List GEvent} {n : Nat} {e : GEvent} (h : es[n]? = some e) (t : Tid) :
    pastOf (es.take (n + 1)) t =
      if e.tid = t then (pastOf (es.take n) t).after e.agent e.deed else pastOf (es.take n) t := by
  have : es.take (n + 1) = es.take n ++ [e] := by rw [List.take_add_one, h]; rfl
  rw [this, pastOf_snoc]
  simp only [setP]
  by_cases ht : t = e.tid
  · subst ht; simp
  · have h' : e.tid ≠ t := fun x => ht x.symm
    simp [ht, h']

theorem finv_init : FInv FConfig.init fun _ => {} :=
  ⟨lockInv_init.link, fun t x h => by simp [FConfig.init] at h, fun _ _ => rfl⟩

theorem finv_call {c : FConfig} {P : Tid → Past} (i : FInv c P) (op : Op) (o : Oracle) :
    FInv { c with calls := c.calls ++ [{ op := op, oracle := o, st := .run (op.fine cfg) }] } P := by
  refine ⟨i.link, fun t x h => ?_, fun t h => i.fresh t (by simp at h; omega)⟩
  simp only at h
  by_cases ht : t < c.calls.length
  · rw [List.getElem?_append_left ht] at h; exact i.good t x h
  · rw [List.getElem?_append_right (Nat.le_of_not_lt ht)] at h
    have h0 : t - c.calls.length = 0 := by
      have := (List.getElem?_eq_some_iff.1 h).1
      simp at this; omega
    rw [h0] at h
    simp at h
    subst h
    have hP : P t = {} := i.fresh t (Nat.le_of_not_lt ht)
    rw [hP]
    exact ⟨fun h => ⟨rfl, fkeeps_strict cfg h, nofun⟩, fun h => ⟨rfl, fkeeps_broad cfg h, nofun⟩⟩

theorem gtraced_inv {es : List GEvent} {c : FConfig} (h : GTraced cfg FConfig.init es c) : FInv c (pastOf es) := by
  induction h with
  | start => exact finv_init
  | call _ op o ih => exact finv_call ih op o
  | step _ hs ih => rw [pastOf_snoc]; exact finv_step ih hs

theorem kept_fops {calls : List FThread} {t : Tid} {op : Op} {o : Oracle} {p : FState} (q : FState)
    (h : calls[t]? = some { op := op, oracle := o, st := p }) :
    (calls.set t { op := op, oracle := o, st := q }).map (·.op) = calls.map (·.op) := by
  refine List.ext_getElem? fun u => ?_
  by_cases hu : t = u
  · subst hu
    rw [List.getElem?_map, List.getElem?_map, List.getElem?_set_self (List.getElem?_eq_some_iff.1 h).1, h]
    rfl
  · simp [hu]

theorem gstep_ops {c c' : FConfig} {e : GEvent} (h : GStep cfg e c c') : c'.calls.map (·.op) = c.calls.map (·.op) := by
  cases h <;> exact kept_fops _ (by assumption)

/-- The situation in which an event happens. -/
theorem gtraced_at {c₀ : FConfig} {es : List GEvent} {c : FConfig} (h : GTraced cfg c₀ es c) {n : Nat} {e : GEvent}
    (hn : es[n]? = some e) : ∃ c' c'', GTraced cfg c₀ (es.take n) c' ∧ GStep cfg e c' c'' ∧
      c'.calls.map (·.op) <+: c.calls.map (·.op) := by
  induction h with
  | start => simp at hn
  | call _ op o ih =>
    obtain ⟨c', c'', h1, h2, h3⟩ := ih hn
    exact ⟨c', c'', h1, h2, h3.trans (by simp)⟩
  | @step es c c1 e' h hs ih =>
    by_cases hl : n < es.length
    · rw [List.getElem?_append_left hl] at hn
      obtain ⟨c', c'', h1, h2, h3⟩ := ih hn
      refine ⟨c', c'', by rw [List.take_append_of_le_length (Nat.le_of_lt hl)]; exact h1, h2, ?_⟩
      rw [gstep_ops hs]; exact h3
    · rw [List.getElem?_append_right (Nat.le_of_not_lt hl)] at hn
      have hne : n = es.length := by
        have := (List.getElem?_eq_some_iff.1 hn).1
        simp at this; omega
      subst hne
      simp at hn
      subst hn
      exact ⟨c, c1, by simpa using h, hs, by rw [gstep_ops hs]; exact List.prefix_rfl⟩

/-- What the past says about an event. -/
def Befits (p : Past) : Agent → Deed → Prop
  | none, .act a => p.crew = .idle ∧ ∃ d, Allowed d p.held a
  | none, .forkPut _ => p.crew = .idle
  | none, .forkSearch => p.crew = .idle
  | none, .putJoin => p.crew ≠ .idle
  | none, .searchJoin => p.crew ≠ .idle
  | none, .panic => p.crew ≠ .idle
  | some i, .act a => ∃ ps q, p.crew = .put ps ∧ ps.Nodup ∧ ps[i]? = some q ∧
      ∀ v, a.readsVar = some v ∨ a.writesVar = some v → v = .index q
  | some _, .eval _ => p.crew = .search
  | some _, .lock => p.crew = .search ∧ p.rl = none
  | some i, .append => p.crew = .search ∧ p.rl = some i
  | some i, .unlock => p.crew = .search ∧ p.rl = some i
  | _, _ => False

theorem gstep_suits {c c' : FConfig} {P : Tid → Past} {e : GEvent} (i : FInv c P) (hs : GStep cfg e c c') :
    (P e.tid).dead = false ∧ Befits (P e.tid) e.agent e.deed := by
  have alive : ∀ {d : Discipline} {p : Past} {q : FProg Ret}, FOK d p (.run q) → (∀ e, q ≠ .crash e) → p.dead = false := by
    intro d p q h hq
    cases hd : p.dead with
    | false => rfl
    | true => obtain ⟨e, he⟩ := h.2.2 hd; exact absurd he (hq e)
  cases hs with
  | act h he =>
    obtain ⟨d, hd⟩ := (i.good _ _ h).some
    exact ⟨alive hd (fun _ => nofun), hd.1, d, hd.2.1.1⟩
  | crash h he =>
    obtain ⟨d, hd⟩ := (i.good _ _ h).some
    exact ⟨alive hd (fun _ => nofun), hd.1, d, hd.2.1.1⟩
  | forkPut h => obtain ⟨d, hd⟩ := (i.good _ _ h).some; exact ⟨alive hd (fun _ => nofun), hd.1⟩
  | forkSearch h => obtain ⟨d, hd⟩ := (i.good _ _ h).some; exact ⟨alive hd (fun _ => nofun), hd.1⟩
  | @put t s s' calls op o gs k β a r b j h hg he =>
    obtain ⟨d, ps, h1, h2, h3, h4, h5, h6, h7, h8⟩ := (i.good _ _ h).some
    have hj := (List.getElem?_eq_some_iff.1 hg).1
    have hq : ps[j]? = some (ps[j]'(h7 ▸ hj)) := List.getElem?_eq_getElem _
    exact ⟨h3, ps, _, h1, h2, hq, (h8 j _ _ hg hq).2.1⟩
  | @putCrash t s calls op o gs k β a r e j h hg he =>
    obtain ⟨d, ps, h1, h2, h3, h4, h5, h6, h7, h8⟩ := (i.good _ _ h).some
    have hj := (List.getElem?_eq_some_iff.1 hg).1
    have hq : ps[j]? = some (ps[j]'(h7 ▸ hj)) := List.getElem?_eq_getElem _
    exact ⟨h3, ps, _, h1, h2, hq, (h8 j _ _ hg hq).2.1⟩
  | putPanic h he =>
    obtain ⟨d, ps, h1, h2, h3, _⟩ := (i.good _ _ h).some
    exact ⟨h3, fun x => by rw [h1] at x; cases x⟩
  | putJoin h he =>
    obtain ⟨d, ps, h1, h2, h3, _⟩ := (i.good _ _ h).some
    exact ⟨h3, fun x => by rw [h1] at x; cases x⟩
  | searchPanic h he =>
    obtain ⟨d, h1, h2, _⟩ := (i.good _ _ h).some
    exact ⟨h2, fun x => by rw [h1] at x; cases x⟩
  | searchJoin h he =>
    obtain ⟨d, h1, h2, _⟩ := (i.good _ _ h).some
    exact ⟨h2, fun x => by rw [h1] at x; cases x⟩
  | eval h hg hp he => obtain ⟨d, h1, h2, _⟩ := (i.good _ _ h).some; exact ⟨h2, h1⟩
  | evalPanic h hg hp he => obtain ⟨d, h1, h2, _⟩ := (i.good _ _ h).some; exact ⟨h2, h1⟩
  | lock h hg => obtain ⟨d, h1, h2, h3, _⟩ := (i.good _ _ h).some; exact ⟨h2, h1, h3⟩
  | append h hg =>
    obtain ⟨d, h1, h2, h3, _, _, _, h7⟩ := (i.good _ _ h).some
    exact ⟨h2, h1, h3.trans (h7 _ _ hg)⟩
  | unlock h hg =>
    obtain ⟨d, h1, h2, h3, _, _, _, h7⟩ := (i.good _ _ h).some
    exact ⟨h2, h1, h3.trans (h7 _ _ hg)⟩

theorem gtraced_suits {es : List GEvent} {c : FConfig} (h : GTraced cfg FConfig.init es c) {n : Nat} {e : GEvent}
    (hn : es[n]? = some e) : (pastOf (es.take n) e.tid).dead = false ∧ Befits (pastOf (es.take n) e.tid) e.agent e.deed := by
  obtain ⟨c', c'', h1, h2, -⟩ := gtraced_at h hn
  exact gstep_suits (gtraced_inv h1) h2

theorem gtraced_compat {es : List GEvent} {c : FConfig} (h : GTraced cfg FConfig.init es c) (n : Nat) {t u : Tid} (htu : t ≠ u) :
    Compat (pastOf (es.take n) t).held (pastOf (es.take n) u).held := by
  cases hn : es[n]? with
  | none =>
    rw [List.take_of_length_le (List.getElem?_eq_none_iff.1 hn)]
    exact link_compat (H := fun t => (pastOf es t).held) (gtraced_inv h).link htu
  | some e =>
    obtain ⟨c', c'', h1, -, -⟩ := gtraced_at h hn
    exact link_compat (H := fun t => (pastOf (es.take n) t).held) (gtraced_inv h1).link htu

/-! ## Between a call and its goroutines -/

/-- What is dead stays dead, and does nothing. -/
theorem dead_after (p : Past) (g : Agent) (x : Deed) (h : p.dead = true) : (p.after g x).dead = true := by
  cases g <;> cases x <;> first | exact h | rfl

theorem dead_stays {es : List GEvent} {t : Tid} {i : Nat} (h : (pastOf (es.take i) t).dead = true) :
    ∀ j, i ≤ j → (pastOf (es.take j) t).dead = true := by
  intro j
  induction j with
  | zero => intro hj; exact Nat.le_zero.1 hj ▸ h
  | succ j ih =>
    intro hj
    by_cases hij : i = j + 1
    · exact hij ▸ h
    · have := ih (by omega)
      cases hg : es[j]? with
      | none =>
        have hl := List.getElem?_eq_none_iff.1 hg
        rw [List.take_of_length_le (by omega)]
        rw [List.take_of_length_le hl] at this
        exact this
      | some e =>
        rw [pastOf_step hg]
        split
        · exact dead_after _ _ _ this
        · exact this

/-- After a panic a call does nothing. -/
theorem panic_last {es : List GEvent} {c : FConfig} (h : GTraced cfg FConfig.init es c) {i j : Nat} {e e' : GEvent} (hij : i < j)
    (hi : es[i]? = some e) (hj : es[j]? = some e') (ht : e.tid = e'.tid) : e.deed ≠ .panic := by
  intro hp
  have hs := (gtraced_suits h hi).2
  have ha : e.agent = none := by
    rw [hp] at hs
    cases hx : e.agent with
    | none => rfl
    | some n => rw [hx] at hs; exact hs.elim
  have h1 : (pastOf (es.take (i + 1)) e.tid).dead = true := by
    rw [pastOf_step hi, if_pos rfl, ha, hp]; rfl
  have := dead_stays h1 j hij
  rw [ht, (gtraced_suits h hj).1] at this
  cases this

/-- The call waits for its goroutines. -/
theorem to_main {es : List GEvent} {c : FConfig} (h : GTraced cfg FConfig.init es c) {i k : Nat} {e e' : GEvent} (hik : i < k)
    (hi : es[i]? = some e) (hk : es[k]? = some e') (ht : e.tid = e'.tid) (ha : e'.agent = none) (hp : e'.deed ≠ .panic) :
    GHB es i k := by
  cases hg : e.agent with
  | none => exact .po hik hi hk ht (hg.trans ha.symm)
  | some g =>
    have joined : ∀ {f : Nat} {x : GEvent}, i < f → f ≤ k → es[f]? = some x → x.tid = e.tid → x.agent = none →
        x.deed.isJoin = true → GHB es i k := by
      intro f x h1 h2 h3 h4 h5 h6
      have s : GHB es i f := .sync h1 hi h3 (.inr (.inr (.inr ⟨h4.symm, by rw [hg]; nofun, h5, h6⟩)))
      by_cases hfk : f = k
      · exact hfk ▸ s
      · exact .trans s (.po (by omega) h3 hk (h4.trans ht) (h5.trans ha.symm))
    have busy : ∀ n, i < n → n ≤ k → (∃ f x, i < f ∧ f < n ∧ es[f]? = some x ∧ x.tid = e.tid ∧ x.agent = none ∧
        x.deed.isJoin = true) ∨ (pastOf (es.take n) e.tid).crew ≠ .idle := by
      intro n
      induction n with
      | zero => intro h0; omega
      | succ n ih =>
        intro h1 h2
        by_cases hin : i = n
        · subst hin
          right
          have hs := (gtraced_suits h hi).2
          rw [pastOf_step hi, if_pos rfl]
          rw [hg] at hs ⊢
          cases hd : e.deed <;> rw [hd] at hs
          case act => obtain ⟨ps, q, h1, _⟩ := hs; intro x; simp only [Past.after, h1] at x; cases x
          case eval => intro x; simp only [Past.after, show _ = Crew.search from hs] at x; cases x
          case lock => intro x; simp only [Past.after, hs.1] at x; cases x
          case append => intro x; simp only [Past.after, hs.1] at x; cases x
          case unlock => intro x; simp only [Past.after, hs.1] at x; cases x
          all_goals exact hs.elim
        · rcases ih (by omega) (by omega) with ⟨f, x, a1, a2, a3⟩ | hc
          · exact .inl ⟨f, x, a1, by omega, a3⟩
          · have hn : n < es.length := by
              have := (List.getElem?_eq_some_iff.1 hk).1
              omega
            have hx : es[n]? = some es[n] := List.getElem?_eq_getElem hn
            rw [pastOf_step hx]
            by_cases htn : es[n].tid = e.tid
            · rw [if_pos htn]
              have hs := (gtraced_suits h hx).2
              have hnp := panic_last h (j := k) (by omega) hx hk (htn.trans ht)
              rw [htn] at hs
              cases hag : es[n].agent with
              | none =>
                rw [hag] at hs
                cases hd : es[n].deed <;> rw [hd] at hs
                case act => exact absurd hs.1 hc
                case forkPut => exact absurd hs hc
                case forkSearch => exact absurd hs hc
                case putJoin => exact .inl ⟨n, es[n], by omega, by omega, hx, htn, hag, by rw [hd]; rfl⟩
                case searchJoin => exact .inl ⟨n, es[n], by omega, by omega, hx, htn, hag, by rw [hd]; rfl⟩
                case panic => exact absurd hd hnp
                all_goals exact hs.elim
              | some m =>
                right
                cases es[n].deed <;> exact hc
            · rw [if_neg htn]; exact .inr hc
    rcases busy k hik (Nat.le_refl _) with ⟨f, x, a1, a2, a3, a4, a5, a6⟩ | hc
    · exact joined a1 (by omega) a3 a4 a5 a6
    · have hs := (gtraced_suits h hk).2
      rw [ht] at hc
      rw [ha] at hs
      refine joined hik (Nat.le_refl _) hk ht.symm ha ?_
      cases hd : e'.deed <;> rw [hd] at hs
      case act => exact absurd hs.1 hc
      case forkPut => exact absurd hs hc
      case forkSearch => exact absurd hs hc
      case putJoin => rfl
      case searchJoin => rfl
      case panic => exact absurd hd hp
      all_goals exact hs.elim

/-- Goroutines start after what their call did before. -/
theorem from_main {es : List GEvent} {c : FConfig} (h : GTraced cfg FConfig.init es c) {k j : Nat} {e e' : GEvent} (hkj : k < j)
    (hk : es[k]? = some e) (hj : es[j]? = some e') (ht : e.tid = e'.tid) (ha : e.agent = none) : GHB es k j := by
  cases hg : e'.agent with
  | none => exact .po hkj hk hj ht (ha.trans hg.symm)
  | some g =>
    have idle : ∀ n, k < n → n ≤ j → (∃ f x, k ≤ f ∧ f < n ∧ es[f]? = some x ∧ x.tid = e.tid ∧ x.agent = none ∧
        x.deed.isFork = true) ∨ (pastOf (es.take n) e.tid).crew = .idle := by
      intro n
      induction n with
      | zero => intro h0; omega
      | succ n ih =>
        intro h1 h2
        have hn : n < es.length := by
          have := (List.getElem?_eq_some_iff.1 hj).1
          omega
        have hx : es[n]? = some es[n] := List.getElem?_eq_getElem hn
        have main : es[n].tid = e.tid → es[n].agent = none → (∃ f x, k ≤ f ∧ f < n + 1 ∧ es[f]? = some x ∧ x.tid = e.tid ∧
            x.agent = none ∧ x.deed.isFork = true) ∨ (pastOf (es.take (n + 1)) e.tid).crew = .idle := by
          intro htn hag
          have hs := (gtraced_suits h hx).2
          rw [htn, hag] at hs
          rw [pastOf_step hx, if_pos htn, hag]
          cases hd : es[n].deed <;> rw [hd] at hs
          case act => exact .inr hs.1
          case forkPut => exact .inl ⟨n, es[n], by omega, by omega, hx, htn, hag, by rw [hd]; rfl⟩
          case forkSearch => exact .inl ⟨n, es[n], by omega, by omega, hx, htn, hag, by rw [hd]; rfl⟩
          case putJoin => exact .inr rfl
          case searchJoin => exact .inr rfl
          case panic => exact .inr rfl
          all_goals exact hs.elim
        by_cases hkn : k = n
        · subst hkn
          rw [hx] at hk; cases hk
          exact main rfl ha
        · rcases ih (by omega) (by omega) with ⟨f, x, a1, a2, a3⟩ | hc
          · exact .inl ⟨f, x, a1, by omega, a3⟩
          · by_cases htn : es[n].tid = e.tid
            · cases hag : es[n].agent with
              | none => exact main htn hag
              | some m =>
                right
                rw [pastOf_step hx, if_pos htn, hag]
                cases es[n].deed <;> exact hc
            · rw [pastOf_step hx, if_neg htn]; exact .inr hc
    rcases idle j hkj (Nat.le_refl _) with ⟨f, x, a1, a2, a3, a4, a5, a6⟩ | hc
    · have s : GHB es f j := .sync a2 a3 hj (.inr (.inr (.inl ⟨a4.trans ht, a5, a6, by rw [hg]; nofun⟩)))
      by_cases hfk : k = f
      · exact hfk ▸ s
      · exact .trans (.po (by omega) hk a3 a4.symm (ha.trans a5.symm)) s
    · have hs := (gtraced_suits h hj).2
      rw [ht] at hc
      rw [hg] at hs
      cases hd : e'.deed <;> rw [hd] at hs
      case act => obtain ⟨ps, q, h1, _⟩ := hs; rw [hc] at h1; cases h1
      case eval => rw [show _ = Crew.search from hs] at hc; cases hc
      case lock => rw [hs.1] at hc; cases hc
      case append => rw [hs.1] at hc; cases hc
      case unlock => rw [hs.1] at hc; cases hc
      all_goals exact hs.elim

/-! ## Between calls -/

/-- Where a variable is, in the coarse view of C51. -/
def Var.loc : Var → Loc
  | .aliases => .aliases
  | .arrays => .arrays
  | _ => .indices

theorem loc_w {β : Type} {a : Act β} {v : Var} (h : a.writesVar = some v) : a.writes = some v.loc := by
  cases a <;> simp only [Act.writesVar, Option.some.injEq, reduceCtorEq] at h <;> subst h <;> rfl

theorem loc_r {β : Type} {a : Act β} {v : Var} (h : a.readsVar = some v) : a.reads = some v.loc := by
  cases a <;> simp only [Act.readsVar, Option.some.injEq, reduceCtorEq] at h <;> subst h <;> rfl

theorem held_after_some (p : Past) (i : Nat) (x : Deed) : (p.after (some i) x).held = p.held := by
  cases x <;> rfl

/-- Only lock operations of the call itself change what it holds. -/
theorem held_change {p : Past} {g : Agent} {x : Deed} {m : Mu} (hs : Befits p g x)
    (h : (p.after g x).held.get m ≠ p.held.get m) :
    g = none ∧ ∃ (β : Type) (a : Act β) (d : Discipline), x = .act a ∧ Allowed d p.held a ∧ (p.after g x).held = p.held.after a := by
  cases g with
  | some i => rw [held_after_some] at h; exact absurd rfl h
  | none =>
    cases x with
    | act a => obtain ⟨-, d, hd⟩ := hs; exact ⟨rfl, _, a, d, rfl, hd, rfl⟩
    | _ => exact absurd rfl h

theorem gtraced_released {es : List GEvent} {c : FConfig} (h : GTraced cfg FConfig.init es c) {t : Tid} {m : Mu} {x : Mode}
    (hx : x.shared = true) {i : Nat} (hi : (pastOf (es.take i) t).held.get m = x) :
    ∀ j, i ≤ j → j ≤ es.length → (pastOf (es.take j) t).held.get m ≠ x →
      ∃ (k : Nat) (e : GEvent) (β : Type) (a : Act β), i ≤ k ∧ k < j ∧ es[k]? = some e ∧ e.tid = t ∧ e.agent = none ∧
        e.deed = .act a ∧ a.releases = some (m, x.excl) := by
  intro j
  induction j with
  | zero => intro h1 _ h2; exact absurd (Nat.le_zero.1 h1 ▸ hi) h2
  | succ j ih =>
    intro h1 hl h2
    by_cases hij : i = j + 1
    · exact absurd (hij ▸ hi) h2
    · by_cases hj : (pastOf (es.take j) t).held.get m = x
      · have hlt : j < es.length := hl
        have hg : es[j]? = some es[j] := List.getElem?_eq_getElem hlt
        rw [pastOf_step hg] at h2
        by_cases ht : es[j].tid = t
        · rw [if_pos ht] at h2
          have hs := (gtraced_suits h hg).2
          rw [ht] at hs
          obtain ⟨ha, β, a, d, hd, hal, haf⟩ := held_change hs (fun e => h2 (e.trans hj))
          rw [haf] at h2
          refine ⟨j, es[j], β, a, by omega, by omega, hg, ht, ha, hd, ?_⟩
          have := releases_of (m := m) hal (hj ▸ hx) (fun e => h2 (e.trans hj))
          rw [hj] at this
          exact this
        · rw [if_neg ht] at h2
          exact absurd hj h2
      · obtain ⟨k, e, β, a, a1, a2, a3⟩ := ih (by omega) (by omega) hj
        exact ⟨k, e, β, a, a1, by omega, a3⟩

theorem gtraced_taken {es : List GEvent} {c : FConfig} (h : GTraced cfg FConfig.init es c) {t : Tid} {m : Mu} {y : Mode}
    (hy : y.shared = true) : ∀ j, j ≤ es.length → (pastOf (es.take j) t).held.get m = y →
      ∃ (k : Nat) (e : GEvent) (β : Type) (a : Act β), k < j ∧ es[k]? = some e ∧ e.tid = t ∧ e.agent = none ∧
        e.deed = .act a ∧ a.takes = some (m, y.excl) ∧
        ∀ n, k < n → n ≤ j → (pastOf (es.take n) t).held.get m = y := by
  intro j
  induction j with
  | zero =>
    intro _ h1
    have : y = .none := by rw [← h1]; cases m <;> rfl
    subst this; cases hy
  | succ j ih =>
    intro hl h2
    by_cases hj : (pastOf (es.take j) t).held.get m = y
    · obtain ⟨k, e, β, a, a1, a2, a3, a4, a5, a6, a7⟩ := ih (by omega) hj
      refine ⟨k, e, β, a, by omega, a2, a3, a4, a5, a6, fun n hn hnj => ?_⟩
      by_cases hnj' : n = j + 1
      · subst hnj'; exact h2
      · exact a7 n hn (by omega)
    · have hlt : j < es.length := hl
      have hg : es[j]? = some es[j] := List.getElem?_eq_getElem hlt
      have h3 := h2
      rw [pastOf_step hg] at h2
      by_cases ht : es[j].tid = t
      · rw [if_pos ht] at h2
        have hs := (gtraced_suits h hg).2
        rw [ht] at hs
        obtain ⟨ha, β, a, d, hd, hal, haf⟩ := held_change (m := m) hs (by rw [h2]; exact fun e => hj e.symm)
        rw [haf] at h2
        refine ⟨j, es[j], β, a, by omega, hg, ht, ha, hd, ?_, fun n hn hnj => ?_⟩
        · have := takes_of (m := m) hal (by rw [h2]; exact hy) (by rw [h2]; exact fun e => hj e.symm)
          rw [h2] at this
          exact this
        · have : n = j + 1 := by omega
          subst this; exact h3
      · rw [if_neg ht] at h2
        exact absurd h2 hj

theorem uses_no_release {e : GEvent} {v : Var} (h : e.uses v) {β : Type} {a : Act β} (hd : e.deed = .act a) :
    a.releases = none := by
  simp only [GEvent.uses, GEvent.reads, GEvent.writes, hd] at h
  rcases h with h | h
  · exact releases_data (.inl (var_indices_r h).1)
  · exact releases_data (.inr (var_indices_w h).1)

/-- A mutex that both calls hold, one of them exclusively, orders what they and their goroutines do. -/
theorem gordered_by {es : List GEvent} {c : FConfig} (h : GTraced cfg FConfig.init es c) {i j : Nat} {e e' : GEvent} {v : Var}
    (hij : i < j) (hi : es[i]? = some e) (hj : es[j]? = some e') (ht : e.tid ≠ e'.tid) (hu : e.uses v)
    (hc : ¬ Compat (pastOf (es.take i) e.tid).held (pastOf (es.take j) e'.tid).held) : GHB es i j := by
  have : ∃ m, ((pastOf (es.take i) e.tid).held.get m).shared = true ∧ ((pastOf (es.take j) e'.tid).held.get m).shared = true ∧
      (((pastOf (es.take i) e.tid).held.get m).excl = true ∨ ((pastOf (es.take j) e'.tid).held.get m).excl = true) := by
    have imp : ∀ x : Mode, x.excl = true → x.shared = true := by intro x; cases x <;> decide
    refine Classical.byContradiction fun hn => hc fun m => ⟨fun h1 => ?_, fun h1 => ?_⟩
    · refine Bool.eq_false_iff.2 fun h2 => hn ⟨m, imp _ h1, h2, .inl h1⟩
    · refine Bool.eq_false_iff.2 fun h2 => hn ⟨m, h2, imp _ h1, .inr h1⟩
  obtain ⟨m, hx, hy, hxy⟩ := this
  have hjl : j < es.length := (List.getElem?_eq_some_iff.1 hj).1
  obtain ⟨k', f', β', a', a1, a2, a3, a4, a5, a6, a7⟩ := gtraced_taken h hy j (Nat.le_of_lt hjl) rfl
  -- the other call does not hold the mutex any more when this one takes it
  have clash : ∀ n, k' < n → n ≤ j → (pastOf (es.take n) e.tid).held.get m ≠ (pastOf (es.take i) e.tid).held.get m := by
    intro n hn hnj he
    have cmp := gtraced_compat h n ht m
    rw [he, a7 n hn hnj] at cmp
    rcases hxy with h1 | h1
    · rw [cmp.1 h1] at hy; cases hy
    · rw [cmp.2 h1] at hx; cases hx
  have hik : i ≤ k' := by
    refine Nat.le_of_not_lt fun hlt => clash i hlt (by omega) rfl
  obtain ⟨k, f, β, a, b1, b2, b3, b4, b5, b6, b7⟩ := gtraced_released h hx rfl (k' + 1) (by omega) (by omega)
    (clash _ (by omega) (by omega))
  have hkk : k ≠ k' := by
    rintro rfl
    rw [a2] at b3; cases b3
    exact ht (b4.symm.trans a3)
  have hki : i ≠ k := by
    rintro rfl
    rw [hi] at b3; cases b3
    rw [uses_no_release hu b6] at b7; cases b7
  exact .trans (to_main h (by omega) hi b3 b4.symm b5 (by rw [b6]; nofun))
    (.trans (.sync (by omega) b3 a2 (.inl ⟨β, β', a, a', m, _, _, b6, a5, b7, a6, hxy⟩)) (from_main h (by omega) a2 hj a3 a4))

/-- The variable `result` belongs to one call. -/
theorem uses_result {e : GEvent} {t : Tid} (h : e.uses (.result t)) : e.tid = t := by
  simp only [GEvent.uses, GEvent.reads, GEvent.writes] at h
  rcases h with h | h <;> split at h
  · exact absurd rfl ((var_indices_r h).2 t)
  · cases h
  · cases h; rfl
  · cases h
  · exact absurd rfl ((var_indices_w h).2 t)
  · cases h; rfl
  · cases h

/-- What an event of a call uses, it may use. -/
theorem gstep_uses {c c' : FConfig} {P : Tid → Past} {e : GEvent} (i : FInv c P) (hs : GStep cfg e c c') {v : Var}
    (hv : ∀ t, v ≠ .result t) : ∃ x, c.calls[e.tid]? = some x ∧
      (∀ d, FOK d (P e.tid) x.st → (∀ l h, d.wr l h = true → d.rd l h = true) →
        (∀ h : Held, h.imu.shared = true → d.rd .indices h = true) → (∀ h : Held, h.imu = .write → d.wr .indices h = true) →
        (e.uses v → d.rd v.loc (P e.tid).held = true) ∧ (e.writes = some v → d.wr v.loc (P e.tid).held = true)) := by
  have nothing : ∀ {d : Discipline}, e.reads = none → e.writes = none →
      (e.uses v → d.rd v.loc (P e.tid).held = true) ∧ (e.writes = some v → d.wr v.loc (P e.tid).held = true) := by
    intro d h1 h2
    refine ⟨fun hu => ?_, fun hw => ?_⟩
    · rcases hu with hu | hu
      · rw [h1] at hu; cases hu
      · rw [h2] at hu; cases hu
    · rw [h2] at hw; cases hw
  have main : ∀ {d : Discipline} {β : Type} {a : Act β}, e.deed = .act a → (∀ l h, d.wr l h = true → d.rd l h = true) →
      Allowed d (P e.tid).held a →
      (e.uses v → d.rd v.loc (P e.tid).held = true) ∧ (e.writes = some v → d.wr v.loc (P e.tid).held = true) := by
    intro d β a hd hwr ha
    have := obeys_uses hwr ha v.loc
    simp only [GEvent.uses, GEvent.reads, GEvent.writes, hd]
    exact ⟨fun hu => this.1 (hu.imp loc_r loc_w),
      fun hw => this.2 (loc_w hw)⟩
  have result : ∀ {d : Discipline}, (e.uses v → v = .result e.tid) →
      (e.uses v → d.rd v.loc (P e.tid).held = true) ∧ (e.writes = some v → d.wr v.loc (P e.tid).held = true) := by
    intro d h
    exact ⟨fun hu => absurd (h hu) (hv _), fun hw => absurd (h (.inr hw)) (hv _)⟩
  have putter : ∀ {d : Discipline} {β : Type} {a : Act β} {q : Ptr}, e.deed = .act a →
      (∀ v, a.readsVar = some v ∨ a.writesVar = some v → v = .index q) → d.wr .indices (P e.tid).held = true →
      d.rd .indices (P e.tid).held = true →
      (e.uses v → d.rd v.loc (P e.tid).held = true) ∧ (e.writes = some v → d.wr v.loc (P e.tid).held = true) := by
    intro d β a q hd hq hw hr
    simp only [GEvent.uses, GEvent.reads, GEvent.writes, hd]
    exact ⟨fun hu => by rw [hq v hu]; exact hr, fun hw' => by rw [hq v (.inr hw')]; exact hw⟩
  have eval : ∀ {d : Discipline} {q : Ptr}, e.deed = .eval q → d.rd .indices (P e.tid).held = true →
      (e.uses v → d.rd v.loc (P e.tid).held = true) ∧ (e.writes = some v → d.wr v.loc (P e.tid).held = true) := by
    intro d q hd hr
    simp only [GEvent.uses, GEvent.reads, GEvent.writes, hd]
    refine ⟨fun hu => ?_, fun hw => by cases hw⟩
    rcases hu with hu | hu
    · cases hu; exact hr
    · cases hu
  cases hs with
  | act h he => exact ⟨_, h, fun d hd hwr _ _ => main rfl hwr hd.2.1.1⟩
  | crash h he => exact ⟨_, h, fun d hd hwr _ _ => main rfl hwr hd.2.1.1⟩
  | forkPut h => exact ⟨_, h, fun d hd hwr _ _ => nothing rfl rfl⟩
  | @put t s s' calls op o gs k β a r b j h hg he =>
    refine ⟨_, h, fun d hd hwr _ hw => ?_⟩
    obtain ⟨ps, h1, h2, h3, h4, h5, h6, h7, h8⟩ := hd
    have hj := (List.getElem?_eq_some_iff.1 hg).1
    have hq : ps[j]? = some (ps[j]'(h7 ▸ hj)) := List.getElem?_eq_getElem _
    exact putter rfl (h8 j _ _ hg hq).2.1 (hw _ h4) (hwr _ _ (hw _ h4))
  | @putCrash t s calls op o gs k β a r e j h hg he =>
    refine ⟨_, h, fun d hd hwr _ hw => ?_⟩
    obtain ⟨ps, h1, h2, h3, h4, h5, h6, h7, h8⟩ := hd
    have hj := (List.getElem?_eq_some_iff.1 hg).1
    have hq : ps[j]? = some (ps[j]'(h7 ▸ hj)) := List.getElem?_eq_getElem _
    exact putter rfl (h8 j _ _ hg hq).2.1 (hw _ h4) (hwr _ _ (hw _ h4))
  | putPanic h he => exact ⟨_, h, fun d hd hwr _ _ => nothing rfl rfl⟩
  | putJoin h he => exact ⟨_, h, fun d hd hwr _ _ => nothing rfl rfl⟩
  | forkSearch h => exact ⟨_, h, fun d hd hwr _ _ => nothing rfl rfl⟩
  | eval h hg hp he => exact ⟨_, h, fun d hd hwr hr _ => eval rfl (hr _ hd.2.2.2.1)⟩
  | evalPanic h hg hp he => exact ⟨_, h, fun d hd hwr hr _ => eval rfl (hr _ hd.2.2.2.1)⟩
  | lock h hg => exact ⟨_, h, fun d hd hwr _ _ => nothing rfl rfl⟩
  | append h hg =>
    refine ⟨_, h, fun d hd hwr _ _ => result fun hu => ?_⟩
    rcases hu with hu | hu <;> cases hu
    rfl
  | unlock h hg => exact ⟨_, h, fun d hd hwr _ _ => nothing rfl rfl⟩
  | searchPanic h he => exact ⟨_, h, fun d hd hwr _ _ => nothing rfl rfl⟩
  | searchJoin h he =>
    refine ⟨_, h, fun d hd hwr _ _ => result fun hu => ?_⟩
    rcases hu with hu | hu <;> cases hu
    rfl

/-- Conflicting accesses of different calls. -/
theorem ghb_calls {es : List GEvent} {c : FConfig} (h : GTraced cfg FConfig.init es c) {i j : Nat} {e e' : GEvent} {v : Var}
    (hij : i < j) (hi : es[i]? = some e) (hj : es[j]? = some e') (ht : e.tid ≠ e'.tid) (hu : e.uses v) (hu' : e'.uses v)
    (hw : e.writes = some v ∨ e'.writes = some v) :
    GHB es i j ∨ (v = .aliases ∨ v = .arrays) ∧ ∃ x y, c.calls[e.tid]? = some x ∧ c.calls[e'.tid]? = some y ∧
      ((x.op.isRename = true ∧ y.op.isUnAlias = true) ∨ (x.op.isUnAlias = true ∧ y.op.isRename = true)) := by
  have hv : ∀ t, v ≠ .result t := by
    rintro t rfl
    exact ht ((uses_result hu).trans (uses_result hu').symm)
  obtain ⟨c1, c1', h1, h2, h3⟩ := gtraced_at h hi
  obtain ⟨c2, c2', h1', h2', h3'⟩ := gtraced_at h hj
  have I := gtraced_inv h1
  have I' := gtraced_inv h1'
  obtain ⟨x, hx, ux⟩ := gstep_uses I h2 hv
  obtain ⟨y, hy, uy⟩ := gstep_uses I' h2' hv
  have g := I.good _ _ hx
  have g' := I'.good _ _ hy
  refine Classical.or_iff_not_imp_left.2 fun hn => ?_
  have hcompat : Compat (pastOf (es.take i) e.tid).held (pastOf (es.take j) e'.tid).held := Classical.byContradiction fun z =>
    hn (gordered_by h hij hi hj ht hu z)
  have clash : ∀ {d d' : Discipline},
      ((e.uses v → d.rd v.loc (pastOf (es.take i) e.tid).held = true) ∧ (e.writes = some v → d.wr v.loc (pastOf (es.take i) e.tid).held = true)) →
      ((e'.uses v → d'.rd v.loc (pastOf (es.take j) e'.tid).held = true) ∧ (e'.writes = some v → d'.wr v.loc (pastOf (es.take j) e'.tid).held = true)) →
      (∀ h h', Compat h h' → d.wr v.loc h = true → d'.rd v.loc h' = false) →
      (∀ h h', Compat h h' → d'.wr v.loc h = true → d.rd v.loc h' = false) → False := by
    intro d d' p1 p2 c1 c2
    rcases hw with hw | hw
    · have := c1 _ _ hcompat (p1.2 hw); rw [p2.1 hu'] at this; cases this
    · have := c2 _ _ (fun m => ⟨(hcompat m).2, (hcompat m).1⟩) (p2.2 hw); rw [p1.1 hu] at this; cases this
  have sI : ∀ h : Held, h.imu = .write → strict.wr .indices h = true := by intro h hh; simp [strict, hh, Mode.excl]
  have bI : ∀ h : Held, h.imu = .write → broad.wr .indices h = true := by intro h hh; simp [broad, hh, Mode.excl]
  have us := fun r => ux strict (g.1 r) wr_rd_strict (fun _ h => h) sI
  have us' := fun r => uy strict (g'.1 r) wr_rd_strict (fun _ h => h) sI
  have ub := fun r => ux broad (g.2 r) wr_rd_broad (fun _ h => h) bI
  have ub' := fun r => uy broad (g'.2 r) wr_rd_broad (fun _ h => h) bI
  have hS : ¬ (x.op.isRename = false ∧ y.op.isRename = false) := fun ⟨r, r'⟩ =>
    clash (us r) (us' r') (fun _ _ hc => strict_compat hc _) (fun _ _ hc => strict_compat hc _)
  have hB : ¬ (x.op.isUnAlias = false ∧ y.op.isUnAlias = false) := fun ⟨r, r'⟩ =>
    clash (ub r) (ub' r') (fun _ _ hc => broad_compat hc _) (fun _ _ hc => broad_compat hc _)
  have which : ∀ op op' : Op, ¬ (op.isRename = false ∧ op'.isRename = false) → ¬ (op.isUnAlias = false ∧ op'.isUnAlias = false) →
      ((op.isRename = true ∧ op'.isUnAlias = true) ∨ (op.isUnAlias = true ∧ op'.isRename = true)) := by
    intro op op' hS hB
    cases op <;> cases op' <;> simp [Op.isRename, Op.isUnAlias] at hS hB ⊢
  have hxy := which _ _ hS hB
  have notBoth : ∀ op : Op, op.isRename = true → op.isUnAlias = false := by intro op; cases op <;> simp [Op.isRename, Op.isUnAlias]
  have notBoth' : ∀ op : Op, op.isUnAlias = true → op.isRename = false := by intro op; cases op <;> simp [Op.isRename, Op.isUnAlias]
  refine ⟨?_, ?_⟩
  · have hl : v.loc ≠ .indices := by
      intro hl
      have sb : ∀ h h', Compat h h' → strict.wr v.loc h = true → broad.rd v.loc h' = false := by
        intro h h' hc hw; rw [hl] at hw ⊢; exact (hc .indices).1 hw
      have bs : ∀ h h', Compat h h' → broad.wr v.loc h = true → strict.rd v.loc h' = false := by
        intro h h' hc hw; rw [hl] at hw ⊢; exact (hc .indices).1 hw
      rcases hxy with ⟨r, r'⟩ | ⟨r, r'⟩
      · exact clash (ub (notBoth _ r)) (us' (notBoth' _ r')) bs sb
      · exact clash (us (notBoth' _ r)) (ub' (notBoth _ r')) sb bs
    cases v with
    | aliases => exact .inl rfl
    | arrays => exact .inr rfl
    | names => exact absurd rfl hl
    | index p => exact absurd rfl hl
    | result t => exact absurd rfl (hv t)
  · have last : ∀ {c' : FConfig} {t : Tid} {x : FThread}, c'.calls[t]? = some x →
        c'.calls.map (·.op) <+: c.calls.map (·.op) → ∃ y, c.calls[t]? = some y ∧ y.op = x.op := by
      intro c' t x hg hp
      obtain ⟨r, hr⟩ := hp
      have : (c.calls.map (·.op))[t]? = some x.op := by
        rw [← hr, List.getElem?_append_left (by simpa using (List.getElem?_eq_some_iff.1 hg).1)]
        simp [hg]
      simpa using this
    obtain ⟨x', hx', ex⟩ := last hx h3
    obtain ⟨y', hy', ey⟩ := last hy h3'
    exact ⟨x', y', hx', hy', by rw [ex, ey]; exact hxy⟩

/-! ## Within a call -/

/-- While the call waits its goroutines are the same. -/
theorem crew_same {es : List GEvent} {t : Tid} {i : Nat} : ∀ j, i ≤ j → j ≤ es.length →
    (∀ k e, i ≤ k → k < j → es[k]? = some e → e.tid = t → e.agent ≠ none) →
    (pastOf (es.take j) t).crew = (pastOf (es.take i) t).crew := by
  intro j
  induction j with
  | zero => intro h _ _; rw [Nat.le_zero.1 h]
  | succ j ih =>
    intro h1 h2 h3
    by_cases hij : i = j + 1
    · rw [hij]
    · have hx : es[j]? = some es[j] := List.getElem?_eq_getElem (by omega)
      rw [pastOf_step hx, ← ih (by omega) (by omega) fun k e a b => h3 k e a (by omega)]
      split
      · next htn =>
        have := h3 j _ (by omega) (by omega) hx htn
        cases hag : es[j].agent with
        | none => exact absurd hag this
        | some m => cases es[j].deed <;> rfl
      · rfl

/-- A goroutine that has `rl` has locked it. -/
theorem rl_taken {es : List GEvent} {c : FConfig} (h : GTraced cfg FConfig.init es c) {t : Tid} {g : Nat} :
    ∀ j, j ≤ es.length → (pastOf (es.take j) t).crew = .search → (pastOf (es.take j) t).rl = some g →
      ∃ k e, k < j ∧ es[k]? = some e ∧ e.tid = t ∧ e.agent = some g ∧ e.deed = .lock ∧
        ∀ n, k < n → n ≤ j → (pastOf (es.take n) t).rl = some g := by
  intro j
  induction j with
  | zero => intro _ _ h; cases h
  | succ j ih =>
    intro h1 hc hr
    have hx : es[j]? = some es[j] := List.getElem?_eq_getElem (by omega)
    have more : (pastOf (es.take j) t).crew = .search → (pastOf (es.take j) t).rl = some g →
        ∃ k e, k < j + 1 ∧ es[k]? = some e ∧ e.tid = t ∧ e.agent = some g ∧ e.deed = .lock ∧
          ∀ n, k < n → n ≤ j + 1 → (pastOf (es.take n) t).rl = some g := by
      intro hc' hr'
      obtain ⟨k, e, a1, a2, a3, a4, a5, a6⟩ := ih (by omega) hc' hr'
      refine ⟨k, e, by omega, a2, a3, a4, a5, fun n hn hnj => ?_⟩
      by_cases hnj' : n = j + 1
      · subst hnj'; exact hr
      · exact a6 n hn (by omega)
    have hr0 := hr
    rw [pastOf_step hx] at hc hr
    by_cases ht : es[j].tid = t
    · rw [if_pos ht] at hc hr
      cases hag : es[j].agent with
      | none =>
        have hs := (gtraced_suits h hx).2
        rw [ht, hag] at hs
        rw [hag] at hc hr
        cases hd : es[j].deed <;> rw [hd] at hc hr hs
        case act => exact more hc hr
        case forkSearch => cases hr
        case forkPut => cases hc
        case putJoin => cases hc
        case searchJoin => cases hc
        case panic => cases hc
        all_goals exact hs.elim
      | some m =>
        rw [hag] at hc hr
        cases hd : es[j].deed <;> rw [hd] at hc hr
        case lock =>
          simp only [Past.after, Option.some.injEq] at hr
          subst hr
          refine ⟨j, es[j], by omega, hx, ht, hag, hd, fun n hn hnj => ?_⟩
          have : n = j + 1 := by omega
          subst this; exact hr0
        case unlock => cases hr
        all_goals exact more hc hr
    · rw [if_neg ht] at hc hr
      exact more hc hr

/-- A goroutine that no longer has `rl` has unlocked it. -/
theorem rl_released {es : List GEvent} {c : FConfig} (h : GTraced cfg FConfig.init es c) {t : Tid} {g : Nat} {i : Nat}
    (hi : (pastOf (es.take i) t).rl = some g) : ∀ j, i ≤ j → j ≤ es.length →
    (∀ k e, i ≤ k → k < j → es[k]? = some e → e.tid = t → e.agent ≠ none) → (pastOf (es.take j) t).rl ≠ some g →
      ∃ k e, i ≤ k ∧ k < j ∧ es[k]? = some e ∧ e.tid = t ∧ e.agent = some g ∧ e.deed = .unlock := by
  intro j
  induction j with
  | zero => intro h1 _ _ h2; exact absurd (Nat.le_zero.1 h1 ▸ hi) h2
  | succ j ih =>
    intro h1 hl hm h2
    by_cases hij : i = j + 1
    · exact absurd (hij ▸ hi) h2
    · by_cases hj : (pastOf (es.take j) t).rl = some g
      · have hx : es[j]? = some es[j] := List.getElem?_eq_getElem (by omega)
        rw [pastOf_step hx] at h2
        by_cases ht : es[j].tid = t
        · rw [if_pos ht] at h2
          have hs := (gtraced_suits h hx).2
          rw [ht] at hs
          cases hag : es[j].agent with
          | none => exact absurd hag (hm j _ (by omega) (by omega) hx ht)
          | some m =>
            rw [hag] at hs h2
            cases hd : es[j].deed <;> rw [hd] at hs h2
            case lock => have := hs.2; rw [hj] at this; cases this
            case unlock =>
              have hm : m = g := by have := hs.2; rw [hj] at this; simpa using this.symm
              subst hm
              exact ⟨j, es[j], by omega, by omega, hx, ht, hag, hd⟩
            all_goals exact absurd hj h2
        · rw [if_neg ht] at h2; exact absurd hj h2
      · obtain ⟨k, e, a1, a2, a3⟩ := ih (by omega) (by omega) (fun k e a b => hm k e a (by omega)) hj
        exact ⟨k, e, a1, by omega, a3⟩

theorem nodup_index {α : Type} {l : List α} (h : l.Nodup) {i j : Nat} {x : α} (hi : l[i]? = some x) (hj : l[j]? = some x) :
    i = j := by
  induction l generalizing i j with
  | nil => simp at hi
  | cons y l ih =>
    obtain ⟨h1, h2⟩ := List.nodup_cons.1 h
    cases i with
    | zero =>
      cases j with
      | zero => rfl
      | succ j => simp at hi hj; subst hi; exact absurd (List.mem_of_getElem? hj) h1
    | succ i =>
      cases j with
      | zero => simp at hi hj; subst hj; exact absurd (List.mem_of_getElem? hi) h1
      | succ j => simp at hi hj; rw [ih h2 hi hj]

/-- Conflicting accesses of a call and its goroutines. -/
theorem ghb_within {es : List GEvent} {c : FConfig} (h : GTraced cfg FConfig.init es c) {i j : Nat} {e e' : GEvent} {v : Var}
    (hij : i < j) (hi : es[i]? = some e) (hj : es[j]? = some e') (ht : e.tid = e'.tid) (ha : e.agent ≠ e'.agent) (hu : e.uses v)
    (hu' : e'.uses v) (hw : e.writes = some v ∨ e'.writes = some v) : GHB es i j := by
  cases hg : e.agent with
  | none => exact from_main h hij hi hj ht hg
  | some g =>
    cases hg' : e'.agent with
    | none =>
      refine to_main h hij hi hj ht hg' fun hp => ?_
      simp only [GEvent.uses, GEvent.reads, GEvent.writes, hp] at hu'
      rcases hu' with hu' | hu' <;> cases hu'
    | some g' =>
      by_cases hm : ∃ k f, i < k ∧ k < j ∧ es[k]? = some f ∧ f.tid = e.tid ∧ f.agent = none
      · obtain ⟨k, f, a1, a2, a3, a4, a5⟩ := hm
        exact .trans (to_main h a1 hi a3 a4.symm a5 (panic_last h a2 a3 hj (a4.trans ht))) (from_main h a2 a3 hj (a4.trans ht) a5)
      · have hm' : ∀ k f, i ≤ k → k < j → es[k]? = some f → f.tid = e.tid → f.agent ≠ none := by
          intro k f h1 h2 h3 h4 h5
          by_cases hik : i = k
          · subst hik; rw [hi] at h3; cases h3; rw [hg] at h5; cases h5
          · exact hm ⟨k, f, by omega, h2, h3, h4, h5⟩
        have hjl := (List.getElem?_eq_some_iff.1 hj).1
        have hcrew := crew_same j (Nat.le_of_lt hij) (Nat.le_of_lt hjl) hm'
        have hs := (gtraced_suits h hi).2
        have hs' := (gtraced_suits h hj).2
        rw [hg] at hs
        rw [hg', ← ht] at hs'
        rw [hg, hg'] at ha
        simp only [GEvent.uses, GEvent.reads, GEvent.writes] at hu hu' hw
        cases hd : e.deed with
        | act a =>
          rw [hd] at hs hu
          obtain ⟨ps, q, p1, p2, p3, p4⟩ := hs
          cases hd' : e'.deed with
          | act b =>
            rw [hd'] at hs' hu'
            obtain ⟨ps', q', r1, r2, r3, r4⟩ := hs'
            rw [hcrew, p1] at r1
            cases r1
            have hqq : q = q' := by
              have e1 := p4 v hu
              have e2 := r4 v hu'
              rw [e1] at e2; cases e2; rfl
            subst hqq
            obtain ⟨l1, m1⟩ := List.getElem?_eq_some_iff.1 p3
            obtain ⟨l2, m2⟩ := List.getElem?_eq_some_iff.1 r3
            exact absurd (congrArg some (nodup_index p2 p3 r3)) ha
          | eval _ => rw [hd', Befits, hcrew, p1] at hs'; cases hs'
          | append => rw [hd', Befits, hcrew, p1] at hs'; cases hs'.1
          | lock => rw [hd'] at hu'; rcases hu' with x | x <;> cases x
          | unlock => rw [hd'] at hu'; rcases hu' with x | x <;> cases x
          | _ => rw [hd'] at hs'; exact hs'.elim
        | eval p =>
          rw [hd] at hs hu hw
          have hv : v = .index p := by rcases hu with x | x <;> cases x; rfl
          rcases hw with hw | hw
          · cases hw
          cases hd' : e'.deed with
          | act b =>
            rw [hd'] at hs'
            obtain ⟨ps', q', r1, r2, r3, r4⟩ := hs'
            rw [hcrew, show _ = Crew.search from hs] at r1; cases r1
          | append => rw [hd', hv] at hw; cases hw
          | _ => rw [hd'] at hw; cases hw
        | append =>
          rw [hd] at hs hu hw
          have hv : v = .result e.tid := by rcases hu with x | x <;> cases x; rfl
          cases hd' : e'.deed with
          | act b =>
            rw [hd'] at hs'
            obtain ⟨ps', q', r1, r2, r3, r4⟩ := hs'
            rw [hcrew, hs.1] at r1; cases r1
          | append =>
            rw [hd'] at hs'
            obtain ⟨k', f', a1, a2, a3, a4, a5, a6⟩ := rl_taken h j (Nat.le_of_lt hjl) (hcrew.trans hs.1) hs'.2
            have hik : i ≤ k' := by
              refine Nat.le_of_not_lt fun hlt => ?_
              have := a6 i hlt (Nat.le_of_lt hij)
              rw [hs.2] at this
              exact ha this
            obtain ⟨k, f, b1, b2, b3, b4, b5, b6⟩ := rl_released h hs.2 (k' + 1) (by omega) (by omega)
              (fun k e x y => hm' k e x (by omega)) (by
                rw [a6 (k' + 1) (by omega) (by omega)]; exact fun x => ha x.symm)
            have hkk : k ≠ k' := by rintro rfl; rw [a2] at b3; cases b3; rw [b6] at a5; cases a5
            have hik' : i ≠ k := by rintro rfl; rw [hi] at b3; cases b3; rw [hd] at b6; cases b6
            exact .trans (.po (by omega) hi b3 b4.symm (hg.trans b5.symm))
              (.trans (.sync (by omega) b3 a2 (.inr (.inl ⟨b4.trans a3.symm, b6, a5⟩)))
                (.po a1 a2 hj (a3.trans ht) (a4.trans hg'.symm)))
          | eval p => rw [hd', hv] at hu'; rcases hu' with x | x <;> cases x
          | lock => rw [hd'] at hu'; rcases hu' with x | x <;> cases x
          | unlock => rw [hd'] at hu'; rcases hu' with x | x <;> cases x
          | _ => rw [hd'] at hs'; exact hs'.elim
        | lock => rw [hd] at hu; rcases hu with x | x <;> cases x
        | unlock => rw [hd] at hu; rcases hu with x | x <;> cases x
        | _ => rw [hd] at hs; exact hs.elim

/-- Conflicting accesses are ordered, or one is by a `Rename` and the other by an `UnAlias`. -/
theorem ghb_only {es : List GEvent} {c : FConfig} (h : GTraced cfg FConfig.init es c) {i j : Nat} {e e' : GEvent} {v : Var}
    (hij : i < j) (hi : es[i]? = some e) (hj : es[j]? = some e') (hc : e.conflicts e' v) :
    GHB es i j ∨ (v = .aliases ∨ v = .arrays) ∧ ∃ x y, c.calls[e.tid]? = some x ∧ c.calls[e'.tid]? = some y ∧
      ((x.op.isRename = true ∧ y.op.isUnAlias = true) ∨ (x.op.isUnAlias = true ∧ y.op.isRename = true)) := by
  obtain ⟨ha, hu, hu', hw⟩ := hc
  by_cases ht : e.tid = e'.tid
  · exact .inl (ghb_within h hij hi hj ht (ha.resolve_left fun x => x ht) hu hu' hw)
  · exact ghb_calls h hij hi hj ht hu hu' hw

/-! ## Executions and their events -/

theorem gstep_ftstep {c c' : FConfig} {e : GEvent} (h : GStep cfg e c c') : FTStep cfg e.tid c c' := by
  cases h with
  | act h he => exact .act h he
  | crash h he => exact .crash h he
  | forkPut h => exact .forkPut h
  | put h hg he => exact .put h (.move _ hg he)
  | putCrash h hg he => exact .put h (.panic _ hg he)
  | putPanic h he => exact .putPanic h he
  | putJoin h hd => exact .putJoin h hd
  | forkSearch h => exact .forkSearch h
  | eval h hg hp he => exact .search h (.eval (c := ⟨_, _, _, _⟩) _ hg hp he)
  | evalPanic h hg hp he => exact .search h (.panic (c := ⟨_, _, _, _⟩) _ hg hp he)
  | lock h hg => exact .search h (.lock (c := ⟨_, _, _, _⟩) _ hg rfl)
  | append h hg => exact .search h (.append (c := ⟨_, _, _, _⟩) _ hg)
  | unlock h hg => exact .search h (.unlock (c := ⟨_, _, _, _⟩) _ hg)
  | searchPanic h he => exact .searchPanic h he
  | searchJoin h hd => exact .searchJoin h hd

theorem ftstep_gstep {c c' : FConfig} {t : Tid} (h : FTStep cfg t c c') : ∃ e, e.tid = t ∧ GStep cfg e c c' := by
  cases h with
  | act h he => exact ⟨_, rfl, .act h he⟩
  | crash h he => exact ⟨_, rfl, .crash h he⟩
  | forkPut h => exact ⟨_, rfl, .forkPut h⟩
  | put h hs =>
    cases hs with
    | move j hg he => exact ⟨_, rfl, .put h hg he⟩
    | panic j hg he => exact ⟨_, rfl, .putCrash h hg he⟩
    | env h => exact h.elim
  | putPanic h he => exact ⟨_, rfl, .putPanic h he⟩
  | putJoin h hd => exact ⟨_, rfl, .putJoin h hd⟩
  | forkSearch h => exact ⟨_, rfl, .forkSearch h⟩
  | search h hs =>
    cases hs with
    | eval j hg hp he => exact ⟨_, rfl, .eval h hg hp he⟩
    | panic j hg hp he => exact ⟨_, rfl, .evalPanic h hg hp he⟩
    | lock j hg hl => simp only at hl; subst hl; exact ⟨_, rfl, .lock h hg⟩
    | append j hg => exact ⟨_, rfl, .append h hg⟩
    | unlock j hg => exact ⟨_, rfl, .unlock h hg⟩
    | env h => exact h.elim
  | searchPanic h he => exact ⟨_, rfl, .searchPanic h he⟩
  | searchJoin h hd => exact ⟨_, rfl, .searchJoin h hd⟩

theorem gtraced_fsteps {c₀ c : FConfig} {es : List GEvent} (h : GTraced cfg c₀ es c) : FSteps cfg c₀ c := by
  induction h with
  | start => exact .refl _
  | call _ op o ih => exact .tail ih (.invoke _ op o)
  | step _ hs ih => exact .tail ih (.move _ (gstep_ftstep hs))

theorem fsteps_gtraced {c₀ c : FConfig} (h : FSteps cfg c₀ c) : ∃ es, GTraced cfg c₀ es c := by
  induction h with
  | refl => exact ⟨[], .start⟩
  | tail _ hs ih =>
    obtain ⟨es, h⟩ := ih
    cases hs with
    | invoke op o => exact ⟨es, h.call op o⟩
    | move t ht => obtain ⟨e, -, he⟩ := ftstep_gstep ht; exact ⟨_, h.step he⟩

/-! ## Unordered accesses -/

theorem ghb_lt {es : List GEvent} {i j : Nat} (h : GHB es i j) : i < j := by
  induction h with
  | po h => exact h
  | sync h => exact h
  | trans _ _ h1 h2 => omega

theorem ghb_next {es : List GEvent} {i : Nat} {e e' : GEvent} (hi : es[i]? = some e) (hj : es[i + 1]? = some e')
    (h : GHB es i (i + 1)) : (e.tid = e'.tid ∧ e.agent = e'.agent) ∨ e.syncs e' := by
  cases h with
  | po _ h1 h2 h3 h4 => rw [hi] at h1; rw [hj] at h2; cases h1; cases h2; exact .inl ⟨h3, h4⟩
  | sync _ h1 h2 h3 => rw [hi] at h1; rw [hj] at h2; cases h1; cases h2; exact .inr h3
  | trans h1 h2 => have := ghb_lt h1; have := ghb_lt h2; omega

/-- A call that is about to access something does so. -/
theorem gtraced_access {c₀ c : FConfig} {es : List GEvent} (h : GTraced cfg c₀ es c) {t : Tid} {x : FThread} {v : Var}
    (hx : c.calls[t]? = some x) (hv : v = .aliases ∨ v = .arrays) (hl : x.reads t none = some v ∨ x.writes t none = some v) :
    ∃ (e : GEvent) (c' : FConfig), GTraced cfg c₀ (es ++ [e]) c' ∧ e.tid = t ∧ e.agent = none ∧ e.reads = x.reads t none ∧
      e.writes = x.writes t none ∧ c'.calls.map (·.op) = c.calls.map (·.op) ∧ ∀ u, u ≠ t → c'.calls[u]? = c.calls[u]? := by
  obtain ⟨s, calls⟩ := c
  obtain ⟨op, o, st⟩ := x
  cases st with
  | run p =>
    cases p with
    | act a k =>
      have hl' : a.reads = some v.loc ∨ a.writes = some v.loc := hl.imp loc_r loc_w
      rcases access_goes (cfg := cfg) (o := o) (t := t) (a := a) hl' s with ⟨b, s', he⟩ | ⟨e, he⟩
      · exact ⟨_, _, h.step (.act hx he), rfl, rfl, rfl, rfl, kept_fops _ hx, fun u hu => List.getElem?_set_ne (Ne.symm hu)⟩
      · exact ⟨_, _, h.step (.crash hx he), rfl, rfl, rfl, rfl, kept_fops _ hx, fun u hu => List.getElem?_set_ne (Ne.symm hu)⟩
    | ret r => rcases hl with h | h <;> cases h
    | crash e => rcases hl with h | h <;> cases h
    | forkPut _ _ _ => rcases hl with h | h <;> cases h
    | forkSearch _ _ _ _ => rcases hl with h | h <;> cases h
  | putting gs k => rcases hl with h | h <;> cases h
  | searching r rl gs ts e k =>
    rcases hl with h | h
    · simp only [FThread.reads] at h
      split at h
      · rcases hv with rfl | rfl <;> cases h
      · cases h
    · cases h

/-- Goroutines that are about to make conflicting accesses make them next to each other, unordered. -/
theorem grace_unordered {c : FConfig} (hr : FineReachable cfg c) {t u : Tid} {g k : Agent} {v : Var} (h : c.race t u g k v) :
    ∃ es c', GTraced cfg FConfig.init es c' ∧ c'.calls.map (·.op) = c.calls.map (·.op) ∧ ¬ GOrdered es := by
  obtain ⟨hne, x, y, hx, hy, hw, ho⟩ := h
  obtain ⟨hv, rfl, rfl, -⟩ := fine_race_only hr hne hx hy hw ho
  have htu : t ≠ u := hne.elim id fun h => absurd rfl h
  obtain ⟨es, h⟩ := fsteps_gtraced hr
  obtain ⟨e, c1, h1, a1, a1', a2, a3, a4, a5⟩ := gtraced_access h hx hv (.inr hw)
  obtain ⟨e', c2, h2, b1, b1', b2, b3, b4, b5⟩ := gtraced_access h1 ((a5 u (Ne.symm htu)).trans hy) hv ho
  refine ⟨_, c2, h2, b4.trans a4, fun hord => ?_⟩
  have hi : (es ++ [e] ++ [e'])[es.length]? = some e := by simp
  have hj : (es ++ [e] ++ [e'])[es.length + 1]? = some e' := by simp
  have hu : e.uses v := .inr (a3.trans hw)
  have htu' : e.tid ≠ e'.tid := by rw [a1, b1]; exact htu
  have hc : e.conflicts e' v := ⟨.inl htu', hu, by unfold GEvent.uses; rw [b2, b3]; exact ho, .inl (a3.trans hw)⟩
  rcases ghb_next hi hj (hord _ _ _ _ _ (Nat.lt_succ_self _) hi hj hc) with h | h | h | h | h
  · exact htu' h.1
  · obtain ⟨β, γ, a, b, m, p, q, d1, d2, d3, _⟩ := h
    rw [uses_no_release hu d1] at d3; cases d3
  · exact htu' h.1
  · exact htu' h.1
  · exact htu' h.1

end Visigoth
