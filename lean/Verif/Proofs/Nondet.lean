import Verif.Proofs.WholeInv
/-!
# Completion orders chosen when they are needed

In `Model/Conc.lean` the completion order of the goroutines of a call is fixed by its `Oracle` when the
call is made.  Here it may be chosen when the goroutines start; every such execution is an execution of
`Model/Conc.lean` for suitable oracles.
-/
namespace Visigoth

/-- A step, or a call that starts its goroutines with any completion order. -/
inductive NStep (cfg : Cfg) : Config → Config → Prop where
  | step {c c' : Config} (h : Step cfg c c') : NStep cfg c c'
  | sched {s : Shared} {calls : List Thread} {t : Tid} {op : Op} {o : Oracle} {ps q : List Ptr} {k : List Ptr → Prog Ret}
      (h : calls[t]? = some { op := op, oracle := o, prog := .act (.schedule ps) k }) (hq : q.Perm ps) :
      NStep cfg { sh := s, calls := calls } { sh := s, calls := calls.set t { op := op, oracle := o, prog := k q } }

inductive NSteps (cfg : Cfg) : Config → Config → Prop where
  | refl (c : Config) : NSteps cfg c c
  | tail {c c' c'' : Config} (h : NSteps cfg c c') (hs : NStep cfg c' c'') : NSteps cfg c c''

theorem NSteps.trans {cfg : Cfg} {a b c : Config} (h : NSteps cfg a b) (g : NSteps cfg b c) : NSteps cfg a c := by
  induction g with
  | refl => exact h
  | tail _ hs ih => exact .tail ih hs

/-- The action chooses a completion order. -/
def Act.isSchedule {β : Type} : Act β → Bool
  | .schedule _ => true
  | _ => false

/-- No completion order is chosen. -/
def NoSched {α : Type} : Prog α → Prop
  | .ret _ => True
  | .crash _ => True
  | .act a k => a.isSchedule = false ∧ ∀ b, NoSched (k b)

/-- At most one completion order is chosen. -/
def Once {α : Type} : Prog α → Prop
  | .ret _ => True
  | .crash _ => True
  | .act a k => if a.isSchedule then ∀ b, NoSched (k b) else ∀ b, Once (k b)

theorem NoSched.once {α : Type} {p : Prog α} (h : NoSched p) : Once p := by
  induction p with
  | ret a => trivial
  | crash c => trivial
  | act a k ih =>
    show if a.isSchedule then _ else _
    rw [if_neg (by rw [h.1]; decide)]
    exact fun b => ih b (h.2 b)

theorem noSched_bind {α β : Type} {f : α → Prog β} {p : Prog α} (h : NoSched p) (hf : ∀ a, NoSched (f a)) :
    NoSched (p >>= f) := by
  show NoSched (p.bind f)
  induction p with
  | ret a => exact hf a
  | crash c => trivial
  | act a k ih => exact ⟨h.1, fun b => ih b (h.2 b)⟩

theorem once_bind_left {α β : Type} {f : α → Prog β} {p : Prog α} (h : NoSched p) (hf : ∀ a, Once (f a)) :
    Once (p >>= f) := by
  show Once (p.bind f)
  induction p with
  | ret a => exact hf a
  | crash c => trivial
  | act a k ih =>
    show if a.isSchedule then _ else _
    rw [if_neg (by rw [h.1]; decide)]
    exact fun b => ih b (h.2 b)

theorem once_bind_right {α β : Type} {f : α → Prog β} {p : Prog α} (h : Once p) (hf : ∀ a, NoSched (f a)) :
    Once (p >>= f) := by
  show Once (p.bind f)
  induction p with
  | ret a => exact (hf a).once
  | crash c => trivial
  | act a k ih =>
    change (if a.isSchedule then _ else _) at h
    show if a.isSchedule then _ else _
    split
    · next hs => rw [if_pos hs] at h; exact fun b => noSched_bind (h b) hf
    · next hs => rw [if_neg hs] at h; exact fun b => ih b (h b)

theorem noSched_perform {β : Type} (a : Act β) (h : a.isSchedule = false) : NoSched (perform a) := ⟨h, fun _ => trivial⟩

theorem noSched_pure {α : Type} (a : α) : NoSched (pure a : Prog α) := trivial

theorem noSched_lock (m : Mu) : NoSched (Repo.lock m) := ⟨rfl, fun _ => ⟨rfl, fun _ => trivial⟩⟩

/-- Split programs into their actions. -/
macro "no_sched" : tactic => `(tactic|
  repeat (first
    | exact noSched_pure _
    | exact noSched_lock _
    | exact noSched_perform _ rfl
    | assumption
    | (refine noSched_bind ?_ fun _ => ?_)
    | split
    | trivial))

theorem noSched_readFrom (r : SliceRef) (n : Nat) : ∀ i, NoSched (Repo.readFrom r i n) := by
  induction n with
  | zero => intro i; trivial
  | succ n ih => intro i; unfold Repo.readFrom; have := ih (i + 1); no_sched

theorem noSched_sliceHas (r : SliceRef) (x : Name) (n : Nat) : ∀ i, NoSched (Repo.sliceHas r x i n) := by
  induction n with
  | zero => intro i; trivial
  | succ n ih => intro i; unfold Repo.sliceHas; have := ih (i + 1); no_sched

theorem noSched_resolveFrom (r : SliceRef) (n : Nat) : ∀ i, NoSched (Repo.resolveFrom r i n) := by
  induction n with
  | zero => intro i; trivial
  | succ n ih => intro i; unfold Repo.resolveFrom; have := ih (i + 1); no_sched

theorem noSched_renameSlice (r : SliceRef) (x y : Name) (n : Nat) : ∀ i, NoSched (Repo.renameSlice r x y i n) := by
  induction n with
  | zero => intro i; trivial
  | succ n ih => intro i; unfold Repo.renameSlice; have := ih (i + 1); no_sched

theorem noSched_renameAliases (x y : Name) (ks : List Name) : NoSched (Repo.renameAliases x y ks) := by
  induction ks with
  | nil => trivial
  | cons k ks ih =>
    unfold Repo.renameAliases
    refine noSched_bind (noSched_perform _ rfl) fun r => ?_
    cases r with
    | none => exact ih
    | some r => exact noSched_bind (noSched_renameSlice _ _ _ _ _) fun _ => ih

theorem noSched_dropAliases (x : Name) (ks : List Name) : NoSched (Repo.dropAliases x ks) := by
  induction ks with
  | nil => trivial
  | cons k ks ih =>
    unfold Repo.dropAliases
    refine noSched_bind (noSched_perform _ rfl) fun r => ?_
    cases r with
    | none => exact ih
    | some r =>
      refine noSched_bind (noSched_readFrom _ _ _) fun xs => ?_
      dsimp only
      no_sched

theorem noSched_listRows (ks : List Name) : NoSched (Repo.listRows ks) := by
  induction ks with
  | nil => trivial
  | cons k ks ih =>
    unfold Repo.listRows
    refine noSched_bind (noSched_perform _ rfl) fun r => ?_
    cases r with
    | none => exact ih
    | some r => exact noSched_bind ih fun _ => trivial

theorem noSched_renderAll (ks : List Name) : NoSched (Repo.renderAll ks) := by
  induction ks with
  | nil => trivial
  | cons k ks ih =>
    unfold Repo.renderAll
    refine noSched_bind (noSched_perform _ rfl) fun r => ?_
    cases r with
    | none => exact ih
    | some r => exact noSched_bind (noSched_perform _ rfl) fun _ => noSched_bind ih fun _ => trivial

theorem noSched_searchIndex (p : Ptr) (ts : Str) (e : Engine) : NoSched (Repo.searchIndex p ts e) := by
  unfold Repo.searchIndex
  refine noSched_bind (noSched_perform _ rfl) fun r => ?_
  cases r <;> trivial

theorem noSched_searchAll (ts : Str) (e : Engine) (ps : List Ptr) : NoSched (Repo.searchAll ts e ps) := by
  induction ps with
  | nil => trivial
  | cons p ps ih => exact noSched_bind (noSched_searchIndex _ _ _) fun _ => noSched_bind ih fun _ => trivial

theorem noSched_putPostings (p : Ptr) (n : Nat) (ts : List Str) : NoSched (Repo.putPostings p n ts) := by
  induction ts with
  | nil => trivial
  | cons x ts ih => exact ⟨rfl, fun _ => ih⟩

theorem noSched_putIndex (cfg : Cfg) (p : Ptr) (d : DocRequest) : NoSched (Repo.putIndex cfg p d) :=
  ⟨rfl, fun _ => noSched_putPostings _ _ _⟩

theorem noSched_putAll (cfg : Cfg) (d : DocRequest) (ps : List Ptr) : NoSched (Repo.putAll cfg d ps) := by
  induction ps with
  | nil => trivial
  | cons p ps ih => exact noSched_bind (noSched_putIndex _ _ _) fun _ => ih

theorem noSched_getIndices (n : Name) : NoSched (Repo.getIndices n) := by
  unfold Repo.getIndices
  refine noSched_bind (noSched_perform _ rfl) fun _ => noSched_bind (noSched_perform _ rfl) fun r => ?_
  cases r with
  | some i => no_sched
  | none =>
    refine noSched_bind (noSched_perform _ rfl) fun _ => noSched_bind (noSched_perform _ rfl) fun r => ?_
    cases r with
    | none => no_sched
    | some r => refine noSched_bind (noSched_resolveFrom _ _ _) fun _ => ?_; no_sched

theorem once_searchTargets (l : List (Option Ptr)) (ts : Str) (e : Engine) : Once (Repo.searchTargets l ts e) := by
  unfold Repo.searchTargets
  split
  · trivial
  · exact (noSched_searchIndex _ _ _).once
  · exact fun b => noSched_searchAll ts e b

theorem once_putTargets (cfg : Cfg) (l : List (Option Ptr)) (d : DocRequest) : Once (Repo.putTargets cfg l d) := by
  unfold Repo.putTargets
  split
  · trivial
  · split
    · exact fun b => noSched_putAll cfg d b
    · trivial

theorem once_search (n : Name) (ts : Str) (e : Engine) : Once (Repo.search n ts e) := by
  unfold Repo.search
  refine once_bind_left (noSched_perform _ rfl) fun _ => once_bind_left (noSched_perform _ rfl) fun r => ?_
  cases r with
  | some i => refine once_bind_right (once_searchTargets _ _ _) fun _ => ?_; no_sched
  | none =>
    refine once_bind_left (noSched_perform _ rfl) fun _ => once_bind_left (noSched_perform _ rfl) fun r => ?_
    cases r with
    | none => refine NoSched.once ?_; no_sched
    | some r =>
      refine once_bind_left (noSched_resolveFrom _ _ _) fun _ => once_bind_left (noSched_perform _ rfl) fun _ => ?_
      refine once_bind_right (once_searchTargets _ _ _) fun _ => ?_
      no_sched

theorem once_put (cfg : Cfg) (n : Name) (d : DocRequest) : Once (Repo.put cfg n d) := by
  unfold Repo.put
  refine once_bind_left (noSched_getIndices _) fun r => once_bind_left (noSched_lock _) fun _ => ?_
  cases r with
  | none =>
    refine NoSched.once ?_
    have := fun p => noSched_putIndex cfg p d
    refine noSched_bind (noSched_perform _ rfl) fun p => noSched_bind (noSched_perform _ rfl) fun _ =>
      noSched_bind (this p) fun _ => noSched_perform _ rfl
  | some l => exact once_bind_right (once_putTargets _ _ _) fun _ => noSched_perform _ rfl

theorem noSched_alias (a n : Name) : NoSched (Repo.alias a n) := by
  unfold Repo.alias
  refine noSched_bind (noSched_perform _ rfl) fun _ => noSched_bind (noSched_perform _ rfl) fun r => ?_
  cases r with
  | none => no_sched
  | some _ =>
    refine noSched_bind (noSched_lock _) fun _ => noSched_bind (noSched_perform _ rfl) fun r => ?_
    cases r with
    | none => dsimp only; no_sched
    | some r => refine noSched_bind (noSched_sliceHas _ _ _ _) fun _ => ?_; no_sched

theorem noSched_unAlias (a n : Name) : NoSched (Repo.unAlias a n) := by
  unfold Repo.unAlias
  split
  · no_sched
  · refine noSched_bind (noSched_perform _ rfl) fun _ => noSched_bind (noSched_perform _ rfl) fun r => ?_
    cases r with
    | none => trivial
    | some _ =>
      refine noSched_bind (noSched_perform _ rfl) fun _ => noSched_bind (noSched_lock _) fun _ =>
        noSched_bind (noSched_perform _ rfl) fun r => ?_
      cases r with
      | none => trivial
      | some r => refine noSched_bind (noSched_readFrom _ _ _) fun _ => ?_; dsimp only; no_sched

theorem noSched_rename (a n : Name) : NoSched (Repo.rename a n) := by
  unfold Repo.rename
  refine noSched_bind (noSched_lock _) fun _ => noSched_bind (noSched_perform _ rfl) fun r => ?_
  cases r with
  | none => no_sched
  | some _ =>
    refine noSched_bind (noSched_perform _ rfl) fun _ => noSched_bind (noSched_perform _ rfl) fun _ =>
      noSched_bind (noSched_perform _ rfl) fun _ => noSched_bind (noSched_renameAliases _ _ _) fun _ => ?_
    no_sched

theorem noSched_drop (n : Name) : NoSched (Repo.drop n) := by
  unfold Repo.drop
  refine noSched_bind (noSched_perform _ rfl) fun _ => noSched_bind (noSched_perform _ rfl) fun r => ?_
  cases r with
  | none => no_sched
  | some _ =>
    refine noSched_bind (noSched_perform _ rfl) fun _ => noSched_bind (noSched_lock _) fun _ =>
      noSched_bind (noSched_lock _) fun _ =>
      noSched_bind (noSched_perform _ rfl) fun _ => noSched_bind (noSched_dropAliases _ _) fun _ => ?_
    no_sched

theorem noSched_listAliases : NoSched Repo.listAliases := by
  unfold Repo.listAliases
  refine noSched_bind (noSched_perform _ rfl) fun _ => noSched_bind (noSched_perform _ rfl) fun _ =>
    noSched_bind (noSched_listRows _) fun _ => ?_
  no_sched

theorem noSched_string : NoSched Repo.string := by
  unfold Repo.string
  refine noSched_bind (noSched_perform _ rfl) fun _ => noSched_bind (noSched_perform _ rfl) fun _ =>
    noSched_bind (noSched_renderAll _) fun _ => ?_
  no_sched

/-- Every call starts goroutines at most once. -/
theorem once_op (cfg : Cfg) (op : Op) : Once (op.prog cfg) := by
  cases op with
  | put n d => exact once_bind_right (once_put _ _ _) fun _ => trivial
  | search n ts e => exact once_bind_right (once_search _ _ _) fun r => by cases r <;> trivial
  | list => refine NoSched.once (noSched_bind ?_ fun _ => trivial); unfold Repo.list; no_sched
  | has n => refine NoSched.once (noSched_bind ?_ fun _ => trivial); unfold Repo.has; no_sched
  | hasAlias n => refine NoSched.once (noSched_bind ?_ fun _ => trivial); unfold Repo.hasAlias; no_sched
  | listAliases => exact NoSched.once (noSched_bind noSched_listAliases fun _ => trivial)
  | string => exact NoSched.once (noSched_bind noSched_string fun _ => trivial)
  | alias a n => exact NoSched.once (noSched_bind (noSched_alias _ _) fun _ => trivial)
  | unAlias a n => exact NoSched.once (noSched_bind (noSched_unAlias _ _) fun _ => trivial)
  | rename a n => exact NoSched.once (noSched_bind (noSched_rename _ _) fun _ => trivial)
  | drop n => exact NoSched.once (noSched_bind (noSched_drop _) fun _ => trivial)

/-! ## Choosing the oracles afterwards -/

def Oracle.withSchedule (o : Oracle) (f : List Ptr → List Ptr) : Oracle := { o with schedule := f }

/-- The configuration with other completion orders. -/
def Config.withSchedules (c : Config) (F : Tid → List Ptr → List Ptr) : Config :=
  { c with calls := c.calls.mapIdx fun t x => { x with oracle := x.oracle.withSchedule (F t) } }

/-- The recorded choices fit the programs left. -/
def Recorded (c : Config) (G : Tid → Option (List Ptr × List Ptr)) : Prop :=
  (∀ t x, c.calls[t]? = some x → if (G t).isSome then NoSched x.prog else Once x.prog) ∧
  ∀ t, c.calls.length ≤ t → G t = none

def Agrees (F : Tid → List Ptr → List Ptr) (G : Tid → Option (List Ptr × List Ptr)) : Prop :=
  ∀ t ps q, G t = some (ps, q) → q.Perm ps ∧ F t ps = q

theorem exec_withSchedule {cfg : Cfg} {o : Oracle} {t : Tid} {β : Type} {a : Act β} {s : Shared}
    (ha : a.isSchedule = false) (f : List Ptr → List Ptr) : exec cfg (o.withSchedule f) t a s = exec cfg o t a s := by
  cases a <;> first | rfl | cases ha

theorem withSchedules_get {c : Config} {F : Tid → List Ptr → List Ptr} {t : Tid} {x : Thread}
    (h : c.calls[t]? = some x) :
    (c.withSchedules F).calls[t]? = some { x with oracle := x.oracle.withSchedule (F t) } := by
  simp [Config.withSchedules, List.getElem?_mapIdx, h]

theorem withSchedules_set (calls : List Thread) (F : Tid → List Ptr → List Ptr) (t : Tid) (x : Thread) (s s' : Shared) :
    (Config.withSchedules { sh := s', calls := calls.set t x } F) =
      { sh := s', calls := (Config.withSchedules { sh := s, calls := calls } F).calls.set t
          { x with oracle := x.oracle.withSchedule (F t) } } := by
  simp only [Config.withSchedules, Config.mk.injEq, true_and]
  apply List.ext_getElem?
  intro i
  rw [List.getElem?_mapIdx]
  by_cases hi : t = i
  · subst hi
    by_cases hl : t < calls.length
    · rw [List.getElem?_set_self hl, List.getElem?_set_self (by simpa using hl)]; rfl
    · rw [List.getElem?_eq_none (by simpa using hl), List.getElem?_eq_none (by simpa using hl)]; rfl
  · rw [List.getElem?_set_ne hi, List.getElem?_set_ne hi, List.getElem?_mapIdx]

theorem withSchedules_append (calls : List Thread) (F : Tid → List Ptr → List Ptr) (x : Thread) (s : Shared) :
    (Config.withSchedules { sh := s, calls := calls ++ [x] } F) =
      { sh := s, calls := (Config.withSchedules { sh := s, calls := calls } F).calls ++
          [{ x with oracle := x.oracle.withSchedule (F calls.length) }] } := by
  simp [Config.withSchedules, List.mapIdx_append]

/-- Executions with late choices are executions for suitable oracles. -/
theorem nsteps_steps {cfg : Cfg} {c0 c : Config} (h : NSteps cfg c0 c) {G0 : Tid → Option (List Ptr × List Ptr)}
    (hG0 : Recorded c0 G0) (hF : ∃ F, Agrees F G0) :
    ∃ G, Recorded c G ∧ (∃ F, Agrees F G) ∧ ∀ F, Agrees F G → Agrees F G0 ∧ Steps cfg (c0.withSchedules F) (c.withSchedules F) := by
  induction h with
  | refl => exact ⟨G0, hG0, hF, fun F hF => ⟨hF, .refl _⟩⟩
  | @tail c1 c2 h1 hs ih =>
    obtain ⟨G, hG, ⟨F0, hF0⟩, hR⟩ := ih
    -- the choice of a completion order
    have sched : ∀ {s : Shared} {calls : List Thread} {t : Tid} {op : Op} {o : Oracle} {ps q : List Ptr}
        {k : List Ptr → Prog Ret}, c1 = { sh := s, calls := calls } →
        calls[t]? = some { op := op, oracle := o, prog := .act (.schedule ps) k } → q.Perm ps →
        c2 = { sh := s, calls := calls.set t { op := op, oracle := o, prog := k q } } →
        ∃ G, Recorded c2 G ∧ (∃ F, Agrees F G) ∧ ∀ F, Agrees F G →
          Agrees F G0 ∧ Steps cfg (c0.withSchedules F) (c2.withSchedules F) := by
      rintro s calls t op o ps q k rfl h hq rfl
      have hlt := (List.getElem?_eq_some_iff.1 h).1
      have hnone : G t = none := by
        cases hg : G t with
        | none => rfl
        | some v =>
          have := hG.1 t _ h
          rw [hg] at this
          exact nomatch this.1
      have honce : ∀ b, NoSched (k b) := by
        have := hG.1 t _ h
        rw [hnone] at this
        exact this
      refine ⟨fun u => if u = t then some (ps, q) else G u, ⟨?_, ?_⟩, ⟨fun u => if u = t then fun _ => q else F0 u, ?_⟩, ?_⟩
      · intro u x hu
        simp only at hu
        by_cases hut : u = t
        · subst hut
          rw [List.getElem?_set_self hlt] at hu
          cases hu
          rw [if_pos (by simp)]
          exact honce q
        · rw [List.getElem?_set_ne (Ne.symm hut)] at hu
          simp only [if_neg hut]
          exact hG.1 u x hu
      · intro u hu
        simp only [List.length_set] at hu
        have hut : u ≠ t := by intro hut; subst hut; exact absurd hlt (Nat.not_lt.2 hu)
        simp only [if_neg hut]
        exact hG.2 u hu
      · intro u ps' q' hu
        by_cases hut : u = t
        · simp only [if_pos hut, Option.some.injEq, Prod.mk.injEq] at hu ⊢
          obtain ⟨rfl, rfl⟩ := hu
          exact ⟨hq, rfl⟩
        · simp only [if_neg hut] at hu ⊢
          exact hF0 u ps' q' hu
      · intro F hF
        have hFt := hF t ps q (by simp)
        have hR' := hR F (by
          intro u ps' q' hu
          refine hF u ps' q' ?_
          have hut : u ≠ t := by intro hut; subst hut; rw [hnone] at hu; cases hu
          simp only [if_neg hut]
          exact hu)
        refine ⟨hR'.1, .tail hR'.2 ?_⟩
        rw [withSchedules_set calls F t _ s s]
        refine .move t (.act (withSchedules_get (c := { sh := s, calls := calls }) h) ?_)
        show Exec.ok (choosePerm (F t) ps) s = _
        unfold choosePerm
        rw [hFt.2, if_pos (List.isPerm_iff.2 hFt.1)]
    cases hs with
    | sched h hq => exact sched rfl h hq rfl
    | step hs =>
      cases hs with
      | invoke op o =>
        obtain ⟨s, calls⟩ := c1
        refine ⟨G, ⟨?_, ?_⟩, ⟨F0, hF0⟩, ?_⟩
        · intro t x h
          simp only at h
          rcases Nat.lt_or_ge t calls.length with hl | hl
          · rw [List.getElem?_append_left hl] at h
            exact hG.1 t x h
          · rw [hG.2 t hl]
            rw [List.getElem?_append_right hl] at h
            cases hi : t - calls.length with
            | zero =>
              rw [hi] at h; cases h
              exact once_op cfg op
            | succ n => rw [hi] at h; cases h
        · intro t ht
          simp only [List.length_append, List.length_singleton] at ht
          exact hG.2 t (Nat.le_of_succ_le ht)
        · intro F hF
          refine ⟨(hR F hF).1, .tail (hR F hF).2 ?_⟩
          rw [show ({ sh := s, calls := calls } : Config).calls = calls from rfl, withSchedules_append calls F _ s]
          exact .invoke _ op _
      | move t h =>
        cases h with
        | @act s s' calls op o β a k b h he =>
          by_cases ha : a.isSchedule = true
          · cases a <;> first | cases ha | skip
            cases he
            exact sched rfl h (choosePerm_perm _ _) rfl
          · have ha : a.isSchedule = false := by simpa using ha
            have hlt := (List.getElem?_eq_some_iff.1 h).1
            refine ⟨G, ⟨?_, ?_⟩, ⟨F0, hF0⟩, ?_⟩
            · intro u x hu
              simp only at hu
              by_cases hut : u = t
              · subst hut
                rw [List.getElem?_set_self hlt] at hu
                cases hu
                have := hG.1 u _ h
                split
                · next hg => rw [if_pos hg] at this; exact this.2 b
                · next hg =>
                  rw [if_neg hg] at this
                  change (if a.isSchedule then _ else _) at this
                  rw [if_neg (by rw [ha]; decide)] at this
                  exact this b
              · rw [List.getElem?_set_ne (Ne.symm hut)] at hu
                exact hG.1 u x hu
            · intro u hu
              simp only [List.length_set] at hu
              exact hG.2 u hu
            · intro F hF
              refine ⟨(hR F hF).1, .tail (hR F hF).2 ?_⟩
              rw [withSchedules_set calls F t _ s s']
              refine .move t (.act (withSchedules_get (c := { sh := s, calls := calls }) h) ?_)
              rw [exec_withSchedule ha]; exact he
        | @crash s calls op o β a k e h he =>
          have ha : a.isSchedule = false := by cases a <;> first | rfl | cases he
          have hlt := (List.getElem?_eq_some_iff.1 h).1
          refine ⟨G, ⟨?_, ?_⟩, ⟨F0, hF0⟩, ?_⟩
          · intro u x hu
            simp only at hu
            by_cases hut : u = t
            · subst hut
              rw [List.getElem?_set_self hlt] at hu
              cases hu
              split <;> trivial
            · rw [List.getElem?_set_ne (Ne.symm hut)] at hu
              exact hG.1 u x hu
          · intro u hu
            simp only [List.length_set] at hu
            exact hG.2 u hu
          · intro F hF
            refine ⟨(hR F hF).1, .tail (hR F hF).2 ?_⟩
            rw [withSchedules_set calls F t _ s s]
            refine .move t (.crash (withSchedules_get (c := { sh := s, calls := calls }) h) ?_)
            rw [exec_withSchedule ha]; exact he

theorem recorded_init : Recorded Config.init (fun _ => none) :=
  ⟨fun t x h => by simp [Config.init] at h, fun _ _ => rfl⟩

theorem agrees_none (F : Tid → List Ptr → List Ptr) : Agrees F (fun _ => none) := fun _ _ _ h => nomatch h

theorem nsteps_reachable {cfg : Cfg} {c : Config} (h : NSteps cfg Config.init c) :
    ∃ G, Recorded c G ∧ (∃ F, Agrees F G) ∧ ∀ F, Agrees F G → ConcReachable cfg (c.withSchedules F) := by
  obtain ⟨G, hG, hF, hR⟩ := nsteps_steps h recorded_init ⟨fun _ => id, agrees_none _⟩
  exact ⟨G, hG, hF, fun F h => (hR F h).2⟩

/-- The same for several points of an execution. -/
theorem nsteps_chain {cfg : Cfg} : ∀ (ds : List Config) {d : Config} {G0 : Tid → Option (List Ptr × List Ptr)},
    Recorded d G0 → (∃ F, Agrees F G0) → Successive (NSteps cfg) (d :: ds) →
    ∃ F, Agrees F G0 ∧ Successive (Steps cfg) ((d :: ds).map (·.withSchedules F))
  | [], _, _, _, ⟨F, hF⟩, _ => ⟨F, hF, trivial⟩
  | d1 :: ds, d, G0, hG0, hF, ⟨h, hc⟩ => by
    obtain ⟨G, hG, hF', hR⟩ := nsteps_steps h hG0 hF
    obtain ⟨F, hA, hch⟩ := nsteps_chain ds hG hF' hc
    exact ⟨F, (hR F hA).1, (hR F hA).2, hch⟩

/-- What is known of reachable configurations carries over. -/
theorem nsteps_whole {cfg : Cfg} {P : DocRequest → Prop} {c : Config} (h : NSteps cfg Config.init c)
    (hP : ∀ x ∈ c.calls, ∀ d, x.op.puts = some d → P d) : ∃ H, LockInv c H ∧ WholeInv P cfg.tok c H := by
  obtain ⟨G, _, ⟨F, hF⟩, hR⟩ := nsteps_reachable h
  obtain ⟨H, i, w⟩ := whole_reachable (P := P) (hR F hF) (by
    intro x hx d hd
    obtain ⟨t, ht⟩ := List.getElem?_of_mem hx
    simp only [Config.withSchedules, List.getElem?_mapIdx, Option.map_eq_some_iff] at ht
    obtain ⟨y, hy, rfl⟩ := ht
    exact hP y (List.mem_of_getElem? hy) d hd)
  refine ⟨H, ⟨i.link, fun t x hx => ?_, fun t ht => i.fresh t ?_, i.order⟩, w.ok, fun t x hx => ?_, w.ptrs⟩
  · have := i.good t _ (withSchedules_get hx); exact this
  · simpa [Config.withSchedules] using ht
  · have := w.knows t _ (withSchedules_get hx); exact this

theorem nsteps_inv {cfg : Cfg} {c : Config} (h : NSteps cfg Config.init c) :
    ∃ H, LockInv c H ∧ WholeInv (fun _ => True) cfg.tok c H := nsteps_whole h fun _ _ _ _ => trivial

end Visigoth
