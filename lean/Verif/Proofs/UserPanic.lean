import Verif.Spec.UserPanic
import Verif.Proofs.Calls
import Verif.Proofs.Leak
import Verif.Proofs.Whole
/-!
# Tokenizers and builders that panic
-/
namespace Visigoth

variable {cfg : Cfg} {o : Oracle} {t : Tid} {P : UserPanics}

theorem returns_andThen {α β : Type} (x : Outcome α) (f : α → Shared → Outcome β) :
    (x.andThen f).returns = x.andThen fun a s => (f a s).returns := by
  cases x <;> rfl

theorem run_returns {α : Type} (p : Prog α) (s : Shared) :
    run cfg o t (do let a ← p; return UEnd.returned a) s = (run cfg o t p s).returns := by
  rw [run_bind]
  cases run cfg o t p s <;> rfl

/-- No panic: the same program. -/
theorem putNewU_plain {n : Name} {d : DocRequest} (hb : P.builder n = false) (ht : P.tokenizer d.statement = false) :
    Repo.putNewU cfg P n d = (do
      let p ← perform (.newIndex n)
      perform (.idxSet n p)
      Repo.putIndex cfg p d
      perform (.unlock .indices)
      return .returned ()) := by
  unfold Repo.putNewU
  simp only [hb, ht, Bool.false_eq_true, if_false]

theorem run_putU {s a} (h : Abs cfg s a) (hr : a.leakedReaders = 0) (hw : a.leakedWriter = false) (n : Name) (d : DocRequest) :
    run cfg o t (Repo.putU cfg P n d) s =
      match a.resolve n with
      | none => if P.builder n then .ok .panicked { s with imu := { readers := [], writer := some t } }
        else if P.tokenizer d.statement then .ok .panicked
          { s with imu := { readers := [], writer := some t }, heap := s.heap ++ [newMemoryIndex n],
                   indices := s.indices.set n s.heap.length }
        else (run cfg o t (Repo.put cfg n d) s).returns
      | some l => if l ≠ [] ∧ P.tokenizer d.statement then .ok .died { s with imu := { readers := [], writer := some t } }
        else (run cfg o t (Repo.put cfg n d) s).returns := by
  have hg := (run_getIndices (o := o) (t := t) h n).1 (Or.inr hw)
  have hrd : s.imu.readers = [] := List.length_eq_zero_iff.1 (h.imuR.trans hr)
  have hl := run_lock (cfg := cfg) (o := o) (t := t) .indices s h.imuW hrd
  simp only [Repo.putU, Repo.put, run_bind, hg, andThen_ok, hl, Shared.setMu]
  cases hres : a.resolve n with
  | none =>
    simp only [Option.map_none]
    by_cases hb : P.builder n = true
    · simp only [Repo.putNewU, hb, if_true, run_pure]
    · by_cases ht : P.tokenizer d.statement = true
      · simp only [Repo.putNewU, hb, ht, if_true, Bool.false_eq_true, if_false, run_bind, run_perform, exec, Exec.outcome, andThen_ok,
          run_pure]
      · rw [if_neg hb, if_neg ht]
        rw [putNewU_plain (by simpa using hb) (by simpa using ht)]
        simp only [run_bind, returns_andThen]
        congr 1; funext p s1
        congr 1; funext _ s2
        congr 1; funext _ s3
        cases run cfg o t (perform (.unlock .indices)) s3 <;> rfl
  | some l =>
    simp only [Option.map_some]
    by_cases hc : l ≠ [] ∧ P.tokenizer d.statement = true
    · have hc' : l.map s.indices.get ≠ [] ∧ P.tokenizer d.statement = true := ⟨by simpa using hc.1, hc.2⟩
      rw [if_pos hc]
      simp only [Repo.putTargetsU, if_pos hc', run_pure]
    · have hc' : ¬ (l.map s.indices.get ≠ [] ∧ P.tokenizer d.statement = true) := fun e => hc ⟨by simpa using e.1, e.2⟩
      rw [if_neg hc]
      simp only [Repo.putTargetsU, if_neg hc', run_bind, returns_andThen]
      congr 1; funext _ s1
      cases run cfg o t (perform (.unlock .indices)) s1 <;> rfl

theorem nonNil_all {s : Shared} {docs} (h : IdxOk cfg s.heap s.indices docs) (l : List Name) :
    (∀ m ∈ l, (docs m).isSome) ↔ ∃ ps, Repo.nonNil (l.map s.indices.get) = some ps ∧ ps.length = l.length := by
  induction l with
  | nil => simp [Repo.nonNil]
  | cons n l ih =>
    rw [List.forall_mem_cons, ih, List.map_cons, ← h.isSome n]
    cases hn : s.indices.get n with
    | none => simp [Repo.nonNil]
    | some p =>
      simp only [Option.isSome_some, true_and, Repo.nonNil]
      constructor
      · rintro ⟨ps, e, hl⟩
        exact ⟨p :: ps, by rw [e]; rfl, by simp [hl]⟩
      · rintro ⟨ps, e, hl⟩
        cases hps : Repo.nonNil (l.map s.indices.get) with
        | none => rw [hps] at e; cases e
        | some qs =>
          rw [hps] at e
          simp only [Option.map_some, Option.some.injEq] at e
          subst e
          exact ⟨qs, rfl, by simpa using hl⟩

/-- What becomes of a search of these indices. -/
theorem run_searchTargetsU {s : Shared} {docs} (h : IdxOk cfg s.heap s.indices docs) (l : List Name) (ts : Str) (e : Engine) :
    run cfg o t (Repo.searchTargetsU P (l.map s.indices.get) ts e) s =
      if P.tokenizer ts ∧ l ≠ [] ∧ ∀ m ∈ l, (docs m).isSome then .ok (if l.length = 1 then .panicked else .died) s
      else (run cfg o t (Repo.searchTargets (l.map s.indices.get) ts e) s).returns := by
  have hall := nonNil_all h l
  unfold Repo.searchTargetsU
  cases hn : Repo.nonNil (l.map s.indices.get) with
  | none =>
    rw [hn] at hall
    have hc : ¬ (P.tokenizer ts = true ∧ l ≠ [] ∧ ∀ m ∈ l, (docs m).isSome) := by
      rintro ⟨_, _, h3⟩
      obtain ⟨_, e, _⟩ := hall.1 h3
      cases e
    rw [if_neg hc]
    simp only [Repo.searchTargets, hn]
    rfl
  | some ps =>
    have hlen : ps.length = l.length := by
      have : ∀ (x : List (Option Ptr)) ps, Repo.nonNil x = some ps → ps.length = x.length := by
        intro x
        induction x with
        | nil => intro ps hp; simp [Repo.nonNil] at hp; subst hp; rfl
        | cons y x ih =>
          intro ps hp
          cases y with
          | none => simp [Repo.nonNil] at hp
          | some p =>
            simp only [Repo.nonNil, Option.map_eq_some_iff] at hp
            obtain ⟨qs, h1, rfl⟩ := hp
            simp [ih qs h1]
      simpa using this _ _ hn
    have hex : ∀ m ∈ l, (docs m).isSome := hall.2 ⟨ps, hn, hlen⟩
    have hnil : ps ≠ [] ↔ l ≠ [] := by
      rw [← List.length_pos_iff, ← List.length_pos_iff, hlen]
    simp only
    by_cases ht : P.tokenizer ts = true
    · by_cases h1 : l.length = 1
      · have hl0 : l ≠ [] := by rw [← List.length_pos_iff]; omega
        have c1 : P.tokenizer ts = true ∧ ps.length = 1 := ⟨ht, by omega⟩
        have c2 : P.tokenizer ts = true ∧ l ≠ [] ∧ ∀ m ∈ l, (docs m).isSome := ⟨ht, hl0, hex⟩
        rw [if_pos c1, if_pos c2, if_pos h1]
        rfl
      · have c1 : ¬ (P.tokenizer ts = true ∧ ps.length = 1) := by rintro ⟨_, e⟩; omega
        rw [if_neg c1]
        by_cases hl0 : l = []
        · have c2 : ¬ (P.tokenizer ts = true ∧ ps ≠ []) := by rw [hnil]; exact fun e => e.2 hl0
          have c3 : ¬ (P.tokenizer ts = true ∧ l ≠ [] ∧ ∀ m ∈ l, (docs m).isSome) := fun e => e.2.1 hl0
          rw [if_neg c2, if_neg c3, run_returns]
        · have c2 : P.tokenizer ts = true ∧ ps ≠ [] := ⟨ht, hnil.2 hl0⟩
          have c3 : P.tokenizer ts = true ∧ l ≠ [] ∧ ∀ m ∈ l, (docs m).isSome := ⟨ht, hl0, hex⟩
          rw [if_pos c2, if_pos c3, if_neg h1]
          rfl
    · have c1 : ¬ (P.tokenizer ts = true ∧ ps.length = 1) := fun e => ht e.1
      have c2 : ¬ (P.tokenizer ts = true ∧ ps ≠ []) := fun e => ht e.1
      have c3 : ¬ (P.tokenizer ts = true ∧ l ≠ [] ∧ ∀ m ∈ l, (docs m).isSome) := fun e => ht e.1
      rw [if_neg c1, if_neg c2, if_neg c3, run_returns]

theorem run_deferred {α β : Type} (f : α → β) (x : Outcome α) :
    (x.returns.andThen fun a s => run cfg o t (Repo.deferRUnlock f a) s)
      = (x.andThen fun a s => run cfg o t (do perform (.runlock .indices); return f a) s).returns := by
  cases x with
  | ok a s =>
    simp only [Outcome.returns, andThen_ok, Repo.deferRUnlock, run_bind]
    cases run cfg o t (perform (.runlock .indices)) s <;> rfl
  | hang s => rfl
  | crash c => rfl

theorem run_searchU {s a} (h : Abs cfg s a) (hw : a.leakedWriter = false) (n : Name) (ts : Str) (e : Engine) :
    run cfg o t (Repo.searchU P n ts e) s =
      match a.resolve n with
      | none => (run cfg o t (Repo.search n ts e) s).returns
      | some l => if P.tokenizer ts ∧ l ≠ [] ∧ ∀ m ∈ l, (a.docs m).isSome then
          if l.length = 1 then .ok .panicked s
          else .ok .died { s with imu := { s.imu with readers := t :: s.imu.readers } }
        else (run cfg o t (Repo.search n ts e) s).returns := by
  have hW' := h.amuW_false
  obtain ⟨idx, hal, view, imuR, imuW, amuR, amuW⟩ := h
  have hi := idx.isSome n
  have haw : s.amu.writer = none := hW'.1 hw
  -- the last part, for any state with the read lock
  have last : ∀ (l : List Name) (s1 : Shared), s1.heap = s.heap → s1.indices = s.indices →
      s1.imu.readers = t :: s.imu.readers →
      (run cfg o t (do let res ← Repo.searchTargetsU P (l.map s.indices.get) ts e; Repo.deferRUnlock some res) s1) =
        if P.tokenizer ts ∧ l ≠ [] ∧ ∀ m ∈ l, (a.docs m).isSome then
          if l.length = 1 then .ok .panicked (s1.setMu .indices { s1.imu with readers := s.imu.readers }) else .ok .died s1
        else (run cfg o t (do
          let res ← Repo.searchTargets (l.map s.indices.get) ts e
          perform (.runlock .indices)
          return some res) s1).returns := by
    intro l s1 e1 e2 e3
    have idx1 : IdxOk cfg s1.heap s1.indices a.docs := by rw [e1, e2]; exact idx
    rw [run_bind, ← e2, run_searchTargetsU idx1 l ts e]
    by_cases hc : P.tokenizer ts = true ∧ l ≠ [] ∧ ∀ m ∈ l, (a.docs m).isSome
    · rw [if_pos hc, if_pos hc, andThen_ok]
      by_cases h1 : l.length = 1
      · rw [if_pos h1, if_pos h1]
        simp only [Repo.deferRUnlock, run_bind]
        rw [run_runlock .indices s1 s.imu.readers e3]
        rfl
      · rw [if_neg h1, if_neg h1]
        rfl
    · rw [if_neg hc, if_neg hc, run_deferred, run_bind]
  simp only [Repo.searchU, Repo.search, run_bind, run_rlock .indices s imuW, andThen_ok]
  rw [run_perform]
  simp only [exec, Exec.outcome, andThen_ok, Shared.setMu, Shared.mu]
  cases hg : s.indices.get n with
  | some p =>
    have hd : (a.docs n).isSome = true := by rw [← hi, hg]; rfl
    have hres : a.resolve n = some [n] := by simp [SpecState.resolve, hd]
    rw [hres]
    have := last [n] { s with imu := { readers := t :: s.imu.readers, writer := s.imu.writer } } rfl rfl rfl
    simp only [List.map_cons, List.map_nil, hg] at this
    exact this
  | none =>
    have hd : a.docs n = none := idx.absent n hg
    simp only [run_bind]
    rw [run_rlock .aliases]
    case h => exact haw
    simp only [andThen_ok, Shared.setMu, Shared.mu]
    rw [run_perform]
    simp only [exec, Exec.outcome, andThen_ok]
    cases hga : s.aliases.get n with
    | none =>
      have hv : a.aliases n = none := by rw [view]; simp [alView, hga]
      have hres : a.resolve n = none := by simp [SpecState.resolve, hd, hv]
      rw [hres]
      simp only [run_bind]
      rw [run_runlock .aliases _ s.amu.readers rfl]
      simp only [andThen_ok, Shared.setMu, Shared.mu]
      rw [run_runlock .indices _ s.imu.readers rfl]
      rfl
    | some r =>
      have hvr := hal.valid n r hga
      have hv : a.aliases n = some (elemsIn s.arrays r) := by rw [view]; simp [alView, hga]
      have hres : a.resolve n = some (elemsIn s.arrays r) := by simp [SpecState.resolve, hd, hv]
      rw [hres]
      simp only [run_bind]
      rw [run_resolve r]
      case h => exact hvr
      simp only [andThen_ok]
      rw [run_runlock .aliases _ s.amu.readers rfl]
      simp only [andThen_ok, Shared.setMu, Shared.mu]
      have := last (elemsIn s.arrays r) { s with imu := { readers := t :: s.imu.readers, writer := s.imu.writer } } rfl rfl rfl
      rw [run_bind, run_bind] at this
      simp only [run_bind] at this
      exact this

/-! ## The mutex of the index map is kept -/

theorem run_hangs {s : Shared} (h : s.imu.writer ≠ none) (op : Op) (hop : ¬ op.aliasesOnly) :
    run cfg o t (op.prog cfg) s = .hang s := by
  have hr := run_rlock_blocked (cfg := cfg) (o := o) (t := t) .indices s h
  have ha : run cfg o t (Repo.lock .indices) s = .hang s := by
    unfold Repo.lock
    have h' : ¬ (s.mu .indices).writer = none := h
    rw [run_bind, run_perform, exec, if_neg h']
    rfl
  cases op with
  | hasAlias n => exact absurd trivial hop
  | listAliases => exact absurd trivial hop
  | unAlias a i =>
    have hl : i.length ≠ 0 := by cases i; exact absurd rfl hop; simp
    simp only [Op.prog, Repo.unAlias, if_neg hl, run_bind, hr, andThen_hang]
  | list => simp only [Op.prog, Repo.list, run_bind, hr, andThen_hang]
  | has n => simp only [Op.prog, Repo.has, run_bind, hr, andThen_hang]
  | alias a i => simp only [Op.prog, Repo.alias, run_bind, hr, andThen_hang]
  | put n d => simp only [Op.prog, Repo.put, Repo.getIndices, run_bind, hr, andThen_hang]
  | search n ts e => simp only [Op.prog, Repo.search, run_bind, hr, andThen_hang]
  | rename old new => simp only [Op.prog, Repo.rename, run_bind, ha, andThen_hang]
  | drop n => simp only [Op.prog, Repo.drop, run_bind, hr, andThen_hang]
  | string => simp only [Op.prog, Repo.string, run_bind, hr, andThen_hang]

/-- No action on the mutex of the index map. -/
def Act.freeI : {β : Type} → Act β → Bool
  | _, .rlock .indices | _, .runlock .indices | _, .announce .indices | _, .acquire .indices | _, .unlock .indices => false
  | _, _ => true

def FreeI {α : Type} : Prog α → Prop
  | .ret _ => True
  | .crash _ => True
  | .act a k => a.freeI = true ∧ ∀ b, FreeI (k b)

def Exec.withI {β : Type} (l : RW) : Exec β → Exec β
  | .ok b s => .ok b { s with imu := l }
  | .blocked => .blocked
  | .crash c => .crash c

def Outcome.withI {α : Type} (l : RW) : Outcome α → Outcome α
  | .ok a s => .ok a { s with imu := l }
  | .hang s => .hang { s with imu := l }
  | .crash c => .crash c

theorem exec_withI {β : Type} (a : Act β) (ha : a.freeI = true) (s : Shared) (l : RW) :
    exec cfg o t a { s with imu := l } = (exec cfg o t a s).withI l := by
  cases a with
  | rlock m =>
    cases m
    · cases ha
    · by_cases h : s.amu.writer = none <;> simp [exec, Shared.mu, Shared.setMu, h, Exec.withI]
  | runlock m =>
    cases m
    · cases ha
    · by_cases h : t ∈ s.amu.readers <;> simp [exec, Shared.mu, Shared.setMu, h, Exec.withI]
  | announce m =>
    cases m
    · cases ha
    · by_cases h : s.amu.writer = none <;> simp [exec, Shared.mu, Shared.setMu, h, Exec.withI]
  | acquire m =>
    cases m
    · cases ha
    · by_cases h : s.amu.writer = some t <;> by_cases h' : s.amu.readers = [] <;>
        simp [exec, Shared.mu, h, h', Exec.withI]
  | unlock m =>
    cases m
    · cases ha
    · by_cases h : s.amu.writer = some t <;> simp [exec, Shared.mu, Shared.setMu, h, Exec.withI]
  | slRead r i =>
    simp only [exec]
    rw [show Shared.elems { s with imu := l } r = s.elems r from rfl]
    cases (s.elems r)[i]? <;> rfl
  | _ =>
    simp only [exec]
    first
    | rfl
    | (split <;> rfl)
    | (split <;> first | rfl | (split <;> rfl))

theorem run_withI {α : Type} (p : Prog α) (hp : FreeI p) (s : Shared) (l : RW) :
    run cfg o t p { s with imu := l } = (run cfg o t p s).withI l := by
  induction p generalizing s with
  | ret a => rfl
  | crash c => rfl
  | act a k ih =>
    unfold run
    rw [exec_withI a hp.1]
    cases exec cfg o t a s with
    | ok b s' => exact ih b (hp.2 b) s'
    | blocked => rfl
    | crash c => rfl

theorem freeI_bind {α β : Type} {p : Prog α} (hp : FreeI p) {f : α → Prog β} (hf : ∀ a, FreeI (f a)) : FreeI (p >>= f) := by
  show FreeI (p.bind f)
  induction p with
  | ret a => exact hf a
  | crash c => trivial
  | act a k ih => exact ⟨hp.1, fun b => ih b (hp.2 b)⟩

theorem freeI_perform {β : Type} (a : Act β) (ha : a.freeI = true) : FreeI (perform a) := ⟨ha, fun _ => trivial⟩

theorem freeI_listRows (ks : List Name) : FreeI (Repo.listRows ks) := by
  induction ks with
  | nil => trivial
  | cons k ks ih =>
    refine freeI_bind (freeI_perform _ rfl) fun v => ?_
    cases v with
    | none => exact ih
    | some v => exact freeI_bind ih fun _ => trivial

theorem freeI_aliasesOnly (op : Op) (hop : op.aliasesOnly) : FreeI (op.prog cfg) := by
  cases op with
  | hasAlias n => exact ⟨rfl, fun _ => ⟨rfl, fun _ => ⟨rfl, fun _ => trivial⟩⟩⟩
  | listAliases =>
    refine freeI_bind ?_ fun _ => trivial
    refine freeI_bind (freeI_perform _ rfl) fun _ => freeI_bind (freeI_perform _ rfl) fun ks => ?_
    exact freeI_bind (freeI_listRows ks) fun _ => freeI_bind (freeI_perform _ rfl) fun _ => trivial
  | unAlias a i =>
    obtain rfl : i = [] := hop
    exact ⟨rfl, fun _ => ⟨rfl, fun _ => ⟨rfl, fun _ => ⟨rfl, fun _ => ⟨rfl, fun _ => trivial⟩⟩⟩⟩⟩
  | _ => exact absurd hop id

/-! ## Among concurrent calls -/

/-- any use of the mutex of the index map -/
def barW : {β : Type} → Act β → Bool
  | _, .rlock .indices => true
  | _, .announce .indices => true
  | _, _ => false

theorem barW_blocked {β : Type} (a : Act β) (o : Oracle) (u : Tid) (b : β) (s s' : Shared)
    (hb : barW a = true) (hr : s.imu.writer = some t) : exec cfg o u a s ≠ .ok b s' := by
  intro he
  cases a <;> simp only [barW, reduceCtorEq] at hb <;> rename_i m <;> cases m <;>
    simp_all [exec, Shared.mu]

theorem barred_needsW (cfg : Cfg) (op : Op) : Barred barW (fun _ => ¬ op.aliasesOnly) (op.prog cfg) := by
  by_cases hop : op.aliasesOnly
  · have : ∀ p : Prog Ret, Barred barW (fun _ => ¬ op.aliasesOnly) p := by
      intro p
      induction p with
      | ret r => exact fun h => h hop
      | crash c => trivial
      | act a k ih => exact Or.inr ih
    exact this _
  · cases op with
    | unAlias a i =>
      have hl : i.length ≠ 0 := by cases i; exact absurd rfl hop; simp
      refine barred_map _ Ret.bool ?_
      unfold Repo.unAlias
      rw [if_neg hl]
      exact Or.inl rfl
    | hasAlias n => exact absurd trivial hop
    | listAliases => exact absurd trivial hop
    | _ => exact Or.inl rfl

/-- The program does not panic in code of the user. -/
def NoPanic : Prog Ret → Prop
  | .ret _ => True
  | .crash c => c ≠ .engine
  | .act _ k => ∀ b, NoPanic (k b)

/-- Whenever the program panics in code of the user, it has kept the mutex of the index map till then. -/
def KeepsI : Prog Ret → Prop
  | .ret _ => True
  | .crash _ => True
  | .act a k => (a.freeI = true ∧ ∀ b, KeepsI (k b)) ∨ (barAcq a = true ∧ ∀ b, KeepsI (k b)) ∨ ∀ b, NoPanic (k b)
where
  /-- the second half of `indicesMu.Lock()` -/
  barAcq : {β : Type} → Act β → Bool
    | _, .acquire .indices => true
    | _, _ => false

/-- It takes the mutex before it panics. -/
def TakesI : Prog Ret → Prop
  | .ret _ => True
  | .crash c => c ≠ .engine
  | .act a k => (barAnn a = true ∧ ∀ b, KeepsI (k b)) ∨ ∀ b, TakesI (k b)
where
  /-- the first half of `indicesMu.Lock()` -/
  barAnn : {β : Type} → Act β → Bool
    | _, .announce .indices => true
    | _, _ => false

theorem takes_of_noPanic (p : Prog Ret) (h : NoPanic p) : TakesI p := by
  induction p with
  | ret r => trivial
  | crash c => exact h
  | act a k ih => exact Or.inr fun b => ih b (h b)

theorem keeps_bind {α : Type} {p : Prog α} (hp : FreeI p) {f : α → Prog Ret} (hf : ∀ a, KeepsI (f a)) : KeepsI (p >>= f) := by
  show KeepsI (p.bind f)
  induction p with
  | ret a => exact hf a
  | crash c => trivial
  | act a k ih => exact Or.inl ⟨hp.1, fun b => ih b (hp.2 b)⟩

/-- The program has no panic of its own. -/
def Unpanicked {α : Type} : Prog α → Prop
  | .ret _ => True
  | .crash _ => False
  | .act _ k => ∀ b, Unpanicked (k b)

theorem unpanicked_bind {α β : Type} {p : Prog α} (hp : Unpanicked p) {f : α → Prog β} (hf : ∀ a, Unpanicked (f a)) :
    Unpanicked (p >>= f) := by
  show Unpanicked (p.bind f)
  induction p with
  | ret a => exact hf a
  | crash c => exact hp
  | act a k ih => exact fun b => ih b (hp b)

/-- A program without panics, then one that takes the mutex first. -/
theorem takes_bind {α : Type} {p : Prog α} (hp : Unpanicked p) {f : α → Prog Ret} (hf : ∀ a, TakesI (f a)) :
    TakesI (p >>= f) := by
  show TakesI (p.bind f)
  induction p with
  | ret a => exact hf a
  | crash c => exact hp.elim
  | act a k ih => exact Or.inr fun b => ih b (hp b)

theorem freeI_putPostings (p : Ptr) (next : Nat) (toks : List Str) : FreeI (Repo.putPostings p next toks) := by
  induction toks with
  | nil => trivial
  | cons tok toks ih => exact ⟨rfl, fun _ => ih⟩

theorem freeI_putIndex (p : Ptr) (d : DocRequest) : FreeI (Repo.putIndex cfg p d) :=
  ⟨rfl, fun _ => freeI_putPostings _ _ _⟩

theorem freeI_putAll (d : DocRequest) (ps : List Ptr) : FreeI (Repo.putAll cfg d ps) := by
  induction ps with
  | nil => trivial
  | cons p ps ih => exact freeI_bind (freeI_putIndex p d) fun _ => ih

theorem freeI_putTargets (x : List (Option Ptr)) (d : DocRequest) : FreeI (Repo.putTargets cfg x d) := by
  unfold Repo.putTargets
  split
  · trivial
  · split
    · exact freeI_bind (freeI_perform _ rfl) fun ps => freeI_putAll d ps
    · trivial

/-- If it is a crash, it is an invalid one. -/
def Exec.crashOk {β : Type} : Exec β → Prop
  | .crash c => c = .invalid
  | _ => True

theorem exec_crash_only_invalid {β : Type} {a : Act β} {s : Shared} {c : Crash} (h : exec cfg o t a s = .crash c) : c = .invalid := by
  have : (exec cfg o t a s).crashOk := by
    cases a <;> simp only [exec] <;> (repeat' split) <;> first | trivial | rfl
  rw [h] at this
  exact this

theorem unpanicked_perform {β : Type} (a : Act β) : Unpanicked (perform a) := fun _ => trivial

theorem unpanicked_resolveFrom (r : SliceRef) (i n : Nat) : Unpanicked (Repo.resolveFrom r i n) := by
  induction n generalizing i with
  | zero => trivial
  | succ n ih => exact fun _ _ => unpanicked_bind (ih (i + 1)) fun _ => trivial

theorem unpanicked_getIndices (n : Name) : Unpanicked (Repo.getIndices n) := by
  refine unpanicked_bind (unpanicked_perform _) fun _ => unpanicked_bind (unpanicked_perform _) fun v => ?_
  cases v with
  | some p => exact fun _ => trivial
  | none =>
    refine unpanicked_bind (unpanicked_perform _) fun _ => unpanicked_bind (unpanicked_perform _) fun v => ?_
    cases v with
    | none => exact fun _ _ => trivial
    | some r => exact unpanicked_bind (unpanicked_resolveFrom _ _ _) fun _ _ _ => trivial

theorem takes_putThreadU (o : Oracle) (n : Name) (d : DocRequest) : TakesI (putThreadU cfg P o n d).prog := by
  unfold putThreadU Repo.putU
  simp only [bind_assoc']
  refine takes_bind (unpanicked_getIndices n) fun r => ?_
  refine Or.inl ⟨rfl, fun _ => Or.inr (Or.inl ⟨rfl, fun _ => ?_⟩)⟩
  show KeepsI _
  cases r with
  | none =>
    show KeepsI (Repo.putNewU cfg P n d >>= _)
    unfold Repo.putNewU
    split
    · trivial
    · refine Or.inl ⟨rfl, fun p => Or.inl ⟨rfl, fun _ => ?_⟩⟩
      show KeepsI ((if P.tokenizer d.statement then (pure UEnd.panicked : Prog (UEnd Unit)) else _) >>= _)
      split
      · trivial
      · simp only [bind_assoc']
        exact keeps_bind (freeI_putIndex p d) fun _ => Or.inr (Or.inr fun _ => trivial)
  | some x =>
    show KeepsI (Repo.putTargetsU cfg P x d >>= _)
    unfold Repo.putTargetsU
    split
    · trivial
    · simp only [bind_assoc']
      exact keeps_bind (freeI_putTargets x d) fun _ => Or.inr (Or.inr fun _ => trivial)

theorem exec_freeI_mu {β : Type} {a : Act β} (ha : a.freeI = true) {s s' : Shared} {b : β} (h : exec cfg o t a s = .ok b s') :
    s'.imu = s.imu := by
  have := exec_withI (cfg := cfg) (o := o) (t := t) a ha s s.imu
  have e : ({ s with imu := s.imu } : Shared) = s := rfl
  rw [e, h] at this
  injection this with _ this
  rw [this]

/-- How a `Put` that may panic is in the middle of an execution. -/
def MidPut (c : Config) (t : Tid) : Prop :=
  ∃ x, c.calls[t]? = some x ∧ (TakesI x.prog ∨ (c.sh.imu.writer = some t ∧ KeepsI x.prog))

theorem midPut_step {c c' : Config} (h : MidPut c t) (hs : Step cfg c c') : MidPut c' t := by
  obtain ⟨x, hx, hp⟩ := h
  cases hs with
  | invoke op o =>
    refine ⟨x, ?_, hp⟩
    simp only
    rw [List.getElem?_append_left (List.getElem?_eq_some_iff.1 hx).1]
    exact hx
  | move u hm =>
    cases hm with
    | @act s s' calls op o β a k b h0 he =>
      simp only at hx
      by_cases htu : t = u
      · subst htu
        rw [h0] at hx
        injection hx with hx; subst hx
        refine ⟨_, List.getElem?_set_self (List.getElem?_eq_some_iff.1 h0).1, ?_⟩
        simp only
        rcases hp with (⟨ha, hk⟩ | hk) | ⟨hw, ⟨ha, hk⟩ | ⟨ha, hk⟩ | hk⟩
        · right
          refine ⟨?_, hk b⟩
          cases a <;> simp only [TakesI.barAnn, Bool.false_eq_true] at ha
          rename_i m
          cases m
          case aliases => cases ha
          simp only [exec] at he
          split at he
          · injection he with _ he; subst he; rfl
          · cases he
        · exact Or.inl (hk b)
        · right
          refine ⟨?_, hk b⟩
          rw [exec_freeI_mu ha he]
          exact hw
        · right
          refine ⟨?_, hk b⟩
          cases a <;> simp only [KeepsI.barAcq, Bool.false_eq_true] at ha
          simp only [exec] at he
          split at he
          · split at he
            · injection he with _ he; subst he; exact hw
            · cases he
          · cases he
        · exact Or.inl (takes_of_noPanic _ (hk b))
      · refine ⟨x, ?_, ?_⟩
        · simp only
          rw [List.getElem?_set_ne (Ne.symm htu)]
          exact hx
        · rcases hp with hp | ⟨hw, hp⟩
          · exact Or.inl hp
          · exact Or.inr ⟨writer_other he htu .indices hw, hp⟩
    | @crash s calls op o β a k e h0 he =>
      simp only at hx
      by_cases htu : t = u
      · subst htu
        refine ⟨_, List.getElem?_set_self (List.getElem?_eq_some_iff.1 h0).1, Or.inl ?_⟩
        rw [exec_crash_only_invalid he]
        exact Crash.noConfusion
      · refine ⟨x, ?_, hp⟩
        simp only
        rw [List.getElem?_set_ne (Ne.symm htu)]
        exact hx

theorem midPut_steps {c c' : Config} (h : MidPut c t) (hs : Steps cfg c c') : MidPut c' t := by
  induction hs with
  | refl => exact h
  | tail _ hs ih => exact midPut_step ih hs

theorem midPut_panicked {c : Config} (h : MidPut c t) {x : Thread} (hx : c.calls[t]? = some x)
    (hp : x.prog = .crash .engine) : c.sh.imu.writer = some t := by
  obtain ⟨y, hy, h⟩ := h
  rw [hx] at hy
  injection hy with hy; subst hy
  rw [hp] at h
  rcases h with h | h
  · exact absurd rfl h
  · exact h.1

end Visigoth
