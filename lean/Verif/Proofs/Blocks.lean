import Verif.Proofs.Progress
/-!
# Atomic blocks

A call alternates between taking mutexes and releasing them.  A block is a piece of a call that only
takes mutexes before it releases the first one; a new block starts at the first mutex taken after a
release.  If calls follow a locking discipline, and write nothing between a release and the end of the
block, every execution of interleaved actions is matched by an execution of whole blocks
(`block_simulation`).
-/
namespace Visigoth

/-! ## Parts of the state -/

/-- Part `l` is the same in both states. -/
def SameAt : Loc → Shared → Shared → Prop
  | .indices, s, s' => s.indices = s'.indices ∧ s.heap = s'.heap
  | .aliases, s, s' => s.aliases = s'.aliases
  | .arrays, s, s' => s.arrays = s'.arrays

theorem SameAt.refl (l : Loc) (s : Shared) : SameAt l s s := by cases l <;> simp [SameAt]

theorem SameAt.symm {l : Loc} {s s' : Shared} (h : SameAt l s s') : SameAt l s' s := by
  cases l
  · exact ⟨h.1.symm, h.2.symm⟩
  · exact Eq.symm h
  · exact Eq.symm h

theorem SameAt.trans {l : Loc} {s s' s'' : Shared} (h : SameAt l s s') (g : SameAt l s' s'') : SameAt l s s'' := by
  cases l
  · exact ⟨h.1.trans g.1, h.2.trans g.2⟩
  · exact Eq.trans h g
  · exact Eq.trans h g

/-- The result of taking a mutex. -/
def Act.skips {β : Type} : Act β → Option β
  | .rlock _ | .announce _ | .acquire _ => some ()
  | _ => none

/-- The result of releasing a mutex. -/
def Act.frees {β : Type} : Act β → Option β
  | .runlock _ | .unlock _ => some ()
  | _ => none

variable {cfg : Cfg} {o : Oracle} {t : Tid}

theorem skips_lock {β : Type} {a : Act β} {b : β} (h : a.skips = some b) : a.isLock = true ∧ a.frees = none := by
  cases a <;> simp_all [Act.skips, Act.isLock, Act.frees]

theorem frees_lock {β : Type} {a : Act β} {b : β} (h : a.frees = some b) : a.isLock = true ∧ a.skips = none := by
  cases a <;> simp_all [Act.skips, Act.isLock, Act.frees]

theorem lock_cases {β : Type} (a : Act β) :
    (∃ b, a.skips = some b) ∨ (∃ b, a.frees = some b) ∨ a.isLock = false := by
  cases a <;> simp [Act.skips, Act.isLock, Act.frees]

theorem data_none {β : Type} {a : Act β} (h : a.isLock = false) : a.skips = none ∧ a.frees = none := by
  cases a <;> simp_all [Act.skips, Act.isLock, Act.frees]

theorem setMu_same (s : Shared) (m : Mu) (x : RW) (l : Loc) : SameAt l (s.setMu m x) s := by
  cases m <;> cases l <;> simp [SameAt, Shared.setMu]

/-- Mutex actions leave the data alone. -/
theorem exec_lock_same {β : Type} {a : Act β} (h : a.isLock = true) {s s' : Shared} {b : β}
    (he : exec cfg o t a s = .ok b s') (l : Loc) : SameAt l s' s := by
  cases a <;> simp only [Act.isLock, Bool.false_eq_true] at h <;> simp only [exec] at he
  all_goals repeat' split at he
  all_goals first | (injection he with _ he; subst he) | exact absurd he (by simp)
  all_goals first | exact setMu_same _ _ _ _ | exact SameAt.refl _ _

/-- Data actions do not wait. -/
theorem exec_data_runs {β : Type} {a : Act β} (h : a.isLock = false) (s : Shared) : exec cfg o t a s ≠ .blocked := by
  cases a <;> simp only [Act.isLock, Bool.true_eq_false] at h <;> simp only [exec] <;> (repeat' split) <;> simp

/-- Data actions change what they write. -/
theorem exec_data_same {β : Type} {a : Act β} (h : a.isLock = false) {s s' : Shared} {b : β}
    (he : exec cfg o t a s = .ok b s') (l : Loc) (hw : a.writes ≠ some l) : SameAt l s' s := by
  cases a <;> simp only [Act.isLock, Bool.true_eq_false] at h <;> simp only [exec] at he
  all_goals repeat' split at he
  all_goals first | (injection he with _ he; subst he) | exact absurd he (by simp)
  all_goals cases l <;> simp_all [SameAt, Act.writes]

/-- Data actions depend on what they read and write only. -/
theorem exec_data_frame {β : Type} {a : Act β} (h : a.isLock = false) {s r : Shared}
    (hs : ∀ l, a.reads = some l ∨ a.writes = some l → SameAt l r s) :
    (∀ b s', exec cfg o t a s = .ok b s' → ∃ r', exec cfg o t a r = .ok b r' ∧
      ∀ l, a.writes = some l → SameAt l r' s') ∧
    (∀ e, exec cfg o t a s = .crash e → exec cfg o t a r = .crash e) := by
  cases a <;> simp only [Act.isLock, Bool.true_eq_false] at h
  case schedule ps =>
    simp only [exec]
    exact ⟨fun b s' he => by injection he with h1 _; subst h1; exact ⟨r, rfl, by simp [Act.writes]⟩, by simp⟩
  case idxGet | idxKeys | evalEngine | render =>
    obtain ⟨h1, h2⟩ : r.indices = s.indices ∧ r.heap = s.heap := hs .indices (Or.inl rfl)
    simp only [exec, h1, h2]
    refine ⟨fun b s' he => ?_, fun e he => ?_⟩ <;> repeat' split at he
    all_goals cases he
    all_goals simp_all [Act.writes, SameAt]
  case alGet | alKeys =>
    have h1 : r.aliases = s.aliases := hs .aliases (Or.inl rfl)
    simp only [exec, h1]
    exact ⟨fun b s' he => by injection he with h1 _; subst h1; exact ⟨r, rfl, by simp [Act.writes]⟩, by simp⟩
  case slRead =>
    have h1 : r.arrays = s.arrays := hs .arrays (Or.inl rfl)
    simp only [exec, Shared.elems, h1]
    refine ⟨fun b s' he => ?_, fun e he => ?_⟩ <;> repeat' split at he
    all_goals cases he
    all_goals simp_all [Act.writes, SameAt]
  case idxSet | idxDel | newIndex | docAppend | postAdd =>
    obtain ⟨h1, h2⟩ : r.indices = s.indices ∧ r.heap = s.heap := hs .indices (Or.inr rfl)
    simp only [exec, h1, h2]
    refine ⟨fun b s' he => ?_, fun e he => ?_⟩ <;> repeat' split at he
    all_goals cases he
    all_goals simp_all [Act.writes, SameAt]
  case alSet | alDel =>
    have h1 : r.aliases = s.aliases := hs .aliases (Or.inr rfl)
    simp only [exec, h1]
    exact ⟨fun b s' he => by injection he with h1 h2; subst h1 h2; exact ⟨_, rfl, by simp [Act.writes, SameAt]⟩, by simp⟩
  case slWrite | slAppend | slNew =>
    have h1 : r.arrays = s.arrays := hs .arrays (Or.inr rfl)
    simp only [exec, h1]
    refine ⟨fun b s' he => ?_, fun e he => ?_⟩ <;> repeat' split at he
    all_goals cases he
    all_goals simp_all [Act.writes, SameAt]
    all_goals
      rename_i hlt
      rw [if_neg (Nat.not_lt.2 hlt)]
      exact ⟨_, rfl, rfl⟩

/-! ## Running blocks -/

/-- Run until about to release a mutex, taking mutexes without asking. -/
def pre {α : Type} (cfg : Cfg) (o : Oracle) (t : Tid) : Prog α → Shared → Prog α × Shared
  | .ret a, s => (.ret a, s)
  | .crash e, s => (.crash e, s)
  | .act a k, s =>
    match a.skips with
    | some b => pre cfg o t (k b) s
    | none =>
      match a.frees with
      | some _ => (.act a k, s)
      | none =>
        match exec cfg o t a s with
        | .ok b s' => pre cfg o t (k b) s'
        | .crash e => (.crash e, s)
        | .blocked => (.act a k, s)

/-- Run until about to take a mutex; for programs that do not write. -/
def post {α : Type} (cfg : Cfg) (o : Oracle) (t : Tid) : Prog α → Shared → Prog α
  | .ret a, _ => .ret a
  | .crash e, _ => .crash e
  | .act a k, s =>
    match a.skips with
    | some _ => .act a k
    | none =>
      match a.frees with
      | some b => post cfg o t (k b) s
      | none =>
        match exec cfg o t a s with
        | .ok b _ => post cfg o t (k b) s
        | .crash e => .crash e
        | .blocked => .act a k

/-- Run one block. -/
def block {α : Type} (cfg : Cfg) (o : Oracle) (t : Tid) (p : Prog α) (s : Shared) : Prog α × Shared :=
  (post cfg o t (pre cfg o t p s).1 (pre cfg o t p s).2, (pre cfg o t p s).2)

/-- The phase after an action: `true` once a mutex has been released. -/
def phase {β : Type} (ph : Bool) (a : Act β) : Bool :=
  if a.skips.isSome then false else if a.frees.isSome then true else ph

/-- Nothing is written between a release and the end of the block; blocks do not start in the middle
of taking a mutex. -/
def Blocky {α : Type} (Q : Bool → α → Prop) (ph : Bool) : Prog α → Prop
  | .ret a => Q ph a
  | .crash _ => True
  | .act a k => (ph = true → a.writes = none ∧ ∀ m, a.acquires ≠ some m) ∧ ∀ b, Blocky Q (phase ph a) (k b)

/-- Laws of a discipline. -/
structure Laws (d : Discipline) : Prop where
  wr_rd : ∀ l h, d.wr l h = true → d.rd l h = true
  compat : ∀ h h' l, Compat h h' → d.wr l h = true → d.rd l h' = false
  grow_rd : ∀ {β : Type} (a : Act β) h l, a.skips.isSome = true → Allowed d h a → d.rd l h = true → d.rd l (h.after a) = true
  grow_wr : ∀ {β : Type} (a : Act β) h l, a.skips.isSome = true → Allowed d h a → d.wr l h = true → d.wr l (h.after a) = true
  shrink : ∀ {β : Type} (a : Act β) h l, a.frees.isSome = true → d.rd l (h.after a) = true → d.rd l h = true
  none : ∀ l, d.wr l {} = false

/-- What taking a mutex needs. -/
def mayTake {β : Type} (h : Held) : Act β → Bool
  | .rlock m | .announce m => decide (h.mayLock m)
  | .acquire m => h.get m == .pend
  | _ => true

theorem skips_may {d : Discipline} {β : Type} {a : Act β} {h : Held} (_ : a.skips.isSome = true) (ha : Allowed d h a) :
    mayTake h a = true := by
  cases a
  case rlock m _ => simpa [mayTake] using ha.2
  case announce m _ => simpa [mayTake] using ha.2
  case acquire m _ => simpa [mayTake] using (show h.get m = .pend from ha)
  all_goals rfl

theorem allowed_data {d : Discipline} {β : Type} {a : Act β} {h : Held} (ha : Allowed d h a) (hl : a.isLock = false) :
    (∀ l, a.reads = some l → d.rd l h = true) ∧ (∀ l, a.writes = some l → d.wr l h = true) := by
  cases a <;> simp only [Act.isLock, Bool.true_eq_false] at hl <;> exact ha.2

theorem laws_strict : Laws strict := by
  refine ⟨fun l h => wr_rd_strict l h, fun h h' l hc => strict_compat hc l, ?_, ?_, ?_, ?_⟩
  · intro β a ⟨i, j⟩ l hs ha h
    have hm := skips_may hs ha
    cases a <;> first | cases hs | skip
    all_goals
      rename_i m
      clear ha
      cases m <;> cases l <;> cases i <;> cases j <;> revert hm h <;> decide
  · intro β a ⟨i, j⟩ l hs ha h
    have hm := skips_may hs ha
    cases a <;> first | cases hs | skip
    all_goals
      rename_i m
      clear ha
      cases m <;> cases l <;> cases i <;> cases j <;> revert hm h <;> decide
  · intro β a ⟨i, j⟩ l hs h
    cases a <;> first | cases hs | skip
    all_goals
      rename_i m
      cases m <;> cases l <;> cases i <;> cases j <;> revert h <;> decide
  · intro l; cases l <;> rfl

theorem laws_broad : Laws broad := by
  refine ⟨fun l h => wr_rd_broad l h, fun h h' l hc => broad_compat hc l, ?_, ?_, ?_, ?_⟩
  · intro β a ⟨i, j⟩ l hs ha h
    have hm := skips_may hs ha
    cases a <;> first | cases hs | skip
    all_goals
      rename_i m
      clear ha
      cases m <;> cases l <;> cases i <;> cases j <;> revert hm h <;> decide
  · intro β a ⟨i, j⟩ l hs ha h
    have hm := skips_may hs ha
    cases a <;> first | cases hs | skip
    all_goals
      rename_i m
      clear ha
      cases m <;> cases l <;> cases i <;> cases j <;> revert hm h <;> decide
  · intro β a ⟨i, j⟩ l hs h
    cases a <;> first | cases hs | skip
    all_goals
      rename_i m
      cases m <;> cases l <;> cases i <;> cases j <;> revert h <;> decide
  · intro l; cases l <;> rfl

/-- `p` and `s` are reached from `q` and `A` without releasing a mutex, with `h` held at the end. -/
inductive Path (d : Discipline) (cfg : Cfg) (o : Oracle) (t : Tid) (q : Prog Ret) (A : Shared) :
    Held → Prog Ret → Shared → Prop
  | nil (h : Held) : Path d cfg o t q A h q A
  | lock {h : Held} {β : Type} {a : Act β} {k : β → Prog Ret} {s : Shared} {b : β}
      (hp : Path d cfg o t q A h (.act a k) s) (ha : Allowed d h a) (hs : a.skips = some b) :
      Path d cfg o t q A (h.after a) (k b) s
  | data {h : Held} {β : Type} {a : Act β} {k : β → Prog Ret} {s s' : Shared} {b : β}
      (hp : Path d cfg o t q A h (.act a k) s) (hl : a.isLock = false)
      (hr : ∀ l, a.reads = some l ∨ a.writes = some l → d.rd l h = true)
      (hw : ∀ l, a.writes = some l → d.wr l h = true) (he : exec cfg o t a s = .ok b s') :
      Path d cfg o t q A h (k b) s'

theorem path_pre {d : Discipline} {q : Prog Ret} {A : Shared} {h : Held} {p : Prog Ret} {s : Shared}
    (hp : Path d cfg o t q A h p s) : pre cfg o t q A = pre cfg o t p s := by
  induction hp with
  | nil => rfl
  | lock _ _ hs ih => rw [ih, pre, hs]
  | data _ hl _ _ he ih =>
    rw [ih, pre, (data_none hl).1, (data_none hl).2, he]

theorem path_wr {d : Discipline} (ld : Laws d) {q : Prog Ret} {A : Shared} {h : Held} {p : Prog Ret} {s : Shared}
    (hp : Path d cfg o t q A h p s) (l : Loc) (hw : d.wr l h = false) : SameAt l s A := by
  induction hp with
  | nil => exact SameAt.refl _ _
  | @lock h β a k s b _ ha hs ih =>
    refine ih ?_
    cases hc : d.wr l h with
    | false => rfl
    | true => rw [ld.grow_wr a h l (by rw [hs]; rfl) ha hc] at hw; cases hw
  | @data h β a k s s' b _ hl _ hw' he ih =>
    refine (exec_data_same hl he l fun hc => ?_).trans (ih hw)
    rw [hw' l hc] at hw; cases hw

/-- A path depends only on what its call may read at its end. -/
theorem path_frame {d : Discipline} (ld : Laws d) {q : Prog Ret} {A : Shared} {h : Held} {p : Prog Ret} {s : Shared}
    (hp : Path d cfg o t q A h p s) (A' : Shared) (hA : ∀ l, d.rd l h = true → SameAt l A' A) :
    ∃ s', Path d cfg o t q A' h p s' ∧ ∀ l, (d.rd l h = true → SameAt l s' s) ∧ (d.rd l h = false → SameAt l s' A') := by
  induction hp with
  | nil h => exact ⟨A', .nil h, fun l => ⟨hA l, fun _ => SameAt.refl _ _⟩⟩
  | @lock h β a k s b hp ha hs ih =>
    obtain ⟨s', h1, h2⟩ := ih fun l hl => hA l (ld.grow_rd a h l (by rw [hs]; rfl) ha hl)
    refine ⟨s', .lock h1 ha hs, fun l => ⟨fun hl => ?_, fun hl => ?_⟩⟩
    · cases hc : d.rd l h with
      | true => exact (h2 l).1 hc
      | false =>
        have hw : d.wr l h = false := by
          cases hw : d.wr l h with
          | false => rfl
          | true => rw [ld.wr_rd l h hw] at hc; cases hc
        exact (((h2 l).2 hc).trans (hA l hl)).trans (path_wr ld hp l hw).symm
    · refine (h2 l).2 ?_
      cases hc : d.rd l h with
      | false => rfl
      | true => rw [ld.grow_rd a h l (by rw [hs]; rfl) ha hc] at hl; cases hl
  | @data h β a k s s1 b hp hl hr hw he ih =>
    obtain ⟨s', h1, h2⟩ := ih hA
    obtain ⟨r', h3, h4⟩ := (exec_data_frame hl fun l hl => (h2 l).1 (hr l hl)).1 b s1 he
    refine ⟨r', .data h1 hl hr hw h3, fun l => ⟨fun hrd => ?_, fun hrd => ?_⟩⟩
    · by_cases hc : a.writes = some l
      · exact h4 l hc
      · exact ((exec_data_same hl h3 l hc).trans ((h2 l).1 hrd)).trans (exec_data_same hl he l hc).symm
    · by_cases hc : a.writes = some l
      · rw [hr l (Or.inr hc)] at hrd; cases hrd
      · exact (exec_data_same hl h3 l hc).trans ((h2 l).2 hrd)

/-- The end of a block depends only on what its call may read. -/
theorem post_frame {d : Discipline} (ld : Laws d) {Q : Held → Ret → Prop} {p : Prog Ret} :
    ∀ {h : Held} {s s' : Shared}, Obeys d Q h p → Blocky (fun _ _ => True) true p → (∀ l, d.rd l h = true → SameAt l s s') →
      post cfg o t p s = post cfg o t p s' := by
  induction p with
  | ret a => intros; rfl
  | crash e => intros; rfl
  | act a k ih =>
    intro h s s' ho ht hs
    unfold post
    rcases lock_cases a with ⟨b, hb⟩ | ⟨b, hb⟩ | hl
    · rw [hb]
    · rw [(frees_lock hb).2, hb]
      refine ih b (ho.2 b) ?_ fun l hl => hs l (ld.shrink a h l (by rw [hb]; rfl) hl)
      have := ht.2 b
      rwa [phase, (frees_lock hb).2, hb] at this
    · rw [(data_none hl).1, (data_none hl).2]
      have hw : a.writes = none := (ht.1 rfl).1
      have hal : ∀ l, a.reads = some l ∨ a.writes = some l → d.rd l h = true := by
        intro l hl'
        rw [hw] at hl'
        rcases hl' with hl' | hl'
        · exact (allowed_data ho.1 hl).1 l hl'
        · cases hl'
      have key := exec_data_frame (cfg := cfg) (o := o) (t := t) hl fun l hl => (hs l (hal l hl)).symm
      have haf : h.after a = h := after_data hl
      cases he : exec cfg o t a s with
      | ok b s1 =>
        obtain ⟨r', h1, _⟩ := key.1 b s1 he
        simp only [h1]
        refine ih b (haf ▸ ho.2 b) ?_ hs
        have := ht.2 b
        rwa [phase, (data_none hl).1, (data_none hl).2] at this
      | crash e => simp only [key.2 e he]
      | blocked => exact absurd he (exec_data_runs hl s)

end Visigoth
