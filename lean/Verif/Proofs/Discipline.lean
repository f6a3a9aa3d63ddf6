import Verif.Spec.Conc
/-!
# Locking discipline of the repository methods

`Obeys d h p`: with the locks `h` held, program `p` only accesses shared data that discipline `d`
permits, acquires mutexes in the order indices < aliases, and never acquires one it holds.
-/
namespace Visigoth

/-- How a call holds a mutex. -/
inductive Mode | none | read | pend | write
deriving DecidableEq, Repr

structure Held where
  imu : Mode := .none
  amu : Mode := .none
deriving DecidableEq, Repr

def Held.get (h : Held) : Mu → Mode
  | .indices => h.imu
  | .aliases => h.amu

def Held.set (h : Held) : Mu → Mode → Held
  | .indices, x => { h with imu := x }
  | .aliases, x => { h with amu := x }

/-- Which locks allow reading and writing which part.  (The index objects belong to `indices`.) -/
structure Discipline where
  rd : Loc → Held → Bool
  wr : Loc → Held → Bool

/-- At least a read lock. -/
def Mode.shared : Mode → Bool
  | .read | .write => true
  | _ => false

def Mode.excl (m : Mode) : Bool := m == .write

/-- Each part has its mutex.  Followed by all methods but `Rename`. -/
def strict : Discipline where
  rd := fun l h => match l with
    | .indices => h.imu.shared
    | .aliases | .arrays => h.amu.shared
  wr := fun l h => match l with
    | .indices => h.imu.excl
    | .aliases | .arrays => h.amu.excl

/-- The index mutex taken exclusively protects the alias table as well.  Followed by all methods but
`UnAlias`. -/
def broad : Discipline where
  rd := fun l h => match l with
    | .indices => h.imu.shared
    | .aliases => h.amu.shared || h.imu.excl
    | .arrays => (h.imu.shared && h.amu.shared) || h.imu.excl
  wr := fun l h => match l with
    | .indices => h.imu.excl
    | .aliases => h.imu.shared && h.amu.excl
    | .arrays => (h.imu.shared && h.amu.excl) || h.imu.excl

/-- Lock actions. -/
def Act.isLock {β : Type} : Act β → Bool
  | .rlock _ | .runlock _ | .announce _ | .acquire _ | .unlock _ => true
  | _ => false

/-- The locks held after an action. -/
def Held.after {β : Type} (h : Held) : Act β → Held
  | .rlock m => h.set m .read
  | .runlock m => h.set m .none
  | .announce m => h.set m .pend
  | .acquire m => h.set m .write
  | .unlock m => h.set m .none
  | _ => h

/-- Not waiting for a write lock. -/
def Held.quiet (h : Held) : Prop := h.imu ≠ .pend ∧ h.amu ≠ .pend

instance (h : Held) : Decidable h.quiet := by unfold Held.quiet; infer_instance

/-- Mutex `m` may be acquired next. -/
def Held.mayLock (h : Held) : Mu → Prop
  | .indices => h.imu = .none ∧ h.amu = .none
  | .aliases => h.amu = .none

instance (h : Held) (m : Mu) : Decidable (h.mayLock m) := by cases m <;> unfold Held.mayLock <;> infer_instance

/-- The action is permitted with locks `h`. -/
def Allowed (d : Discipline) (h : Held) {β : Type} : Act β → Prop
  | .rlock m | .announce m => h.quiet ∧ h.mayLock m
  | .acquire m => h.get m = .pend
  | .runlock m => h.quiet ∧ h.get m = .read
  | .unlock m => h.quiet ∧ h.get m = .write
  | a => h.quiet ∧ (∀ l, a.reads = some l → d.rd l h = true) ∧ (∀ l, a.writes = some l → d.wr l h = true)

/-- The program follows the discipline, and `Q` holds of locks and result at its end. -/
def Obeys {α : Type} (d : Discipline) (Q : Held → α → Prop) (h : Held) : Prog α → Prop
  | .ret a => h.quiet ∧ Q h a
  | .crash _ => h.quiet
  | .act a k => Allowed d h a ∧ ∀ b, Obeys d Q (h.after a) (k b)

variable {d : Discipline}

theorem obeys_quiet_or {α : Type} {Q : Held → α → Prop} {h : Held} {p : Prog α} (hp : Obeys d Q h p) :
    h.quiet ∨ ∃ m, ∃ k : Unit → Prog α, p = .act (.acquire m) k ∧ h.get m = .pend := by
  cases p with
  | ret a => exact Or.inl hp.1
  | crash c => exact Or.inl hp
  | act a k =>
    obtain ⟨ha, _⟩ := hp
    cases a with
    | acquire m => exact Or.inr ⟨m, k, rfl, ha⟩
    | _ => exact Or.inl ha.1

theorem Obeys.mono {α : Type} {Q R : Held → α → Prop} (hQR : ∀ h a, h.quiet → Q h a → R h a) :
    ∀ {p : Prog α} {h : Held}, Obeys d Q h p → Obeys d R h p := by
  intro p
  induction p with
  | ret a => intro h hp; exact ⟨hp.1, hQR _ _ hp.1 hp.2⟩
  | crash c => intro h hp; exact hp
  | act a k ih => intro h hp; exact ⟨hp.1, fun b => ih b (hp.2 b)⟩

theorem obeys_bind {α β : Type} {Q : Held → β → Prop} (f : α → Prog β) :
    ∀ {p : Prog α} {h : Held}, Obeys d (fun h a => Obeys d Q h (f a)) h p → Obeys d Q h (p >>= f) := by
  intro p
  show ∀ {h : Held}, _ → Obeys d Q h (p.bind f)
  induction p with
  | ret a => intro h hp; exact hp.2
  | crash c => intro h hp; exact hp
  | act a k ih => intro h hp; exact ⟨hp.1, fun b => ih b (hp.2 b)⟩

theorem obeys_perform {β γ : Type} {Q : Held → γ → Prop} {h : Held} (a : Act β) (f : β → Prog γ)
    (ha : Allowed d h a) (hk : ∀ b, Obeys d Q (h.after a) (f b)) : Obeys d Q h (perform a >>= f) :=
  ⟨ha, hk⟩

theorem obeys_pure {α : Type} {Q : Held → α → Prop} {h : Held} (a : α) (hq : h.quiet) (h1 : Q h a) :
    Obeys d Q h (pure a) := ⟨hq, h1⟩

theorem obeys_lock {γ : Type} {Q : Held → γ → Prop} {h : Held} (m : Mu) (f : Unit → Prog γ)
    (hq : h.quiet) (ha : h.mayLock m) (hk : Obeys d Q (h.set m .write) (f ())) : Obeys d Q h (Repo.lock m >>= f) := by
  refine ⟨⟨hq, ha⟩, fun _ => ⟨?_, fun _ => ?_⟩⟩
  · cases m <;> rfl
  · cases m <;> exact hk

/-- Programs that take and release no lock keep what is held. -/
theorem obeys_loop {α β : Type} {Q : Held → β → Prop} {h : Held} {p : Prog α} (f : α → Prog β)
    (hp : Obeys d (fun h' _ => h' = h) h p) (hk : ∀ a, Obeys d Q h (f a)) : Obeys d Q h (p >>= f) :=
  obeys_bind f (hp.mono (by rintro _ a _ rfl; exact hk a))

/-- No condition at the end. -/
def anyEnd {α : Type} : Held → α → Prop := fun _ _ => True

end Visigoth
