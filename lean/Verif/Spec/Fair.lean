import Verif.Spec.Fine
/-!
# Endless histories and fairness

A history is an endless sequence of configurations; calls may be made in it for ever.  Fairness is what
the Go runtime provides: the scheduler does not forget a goroutine that can run, and a mutex that becomes
free again and again is given at some point to each call that waits for it (a `sync.Mutex` in starvation
mode is handed to the call that waits the longest, and `RWMutex.Unlock` lets in the readers that wait).
-/
namespace Visigoth

/-- Call `t` is over: it returned or panicked. -/
def Config.over (c : Config) (t : Tid) : Prop := ∃ x, c.calls[t]? = some x ∧ ¬ x.running

/-- Call `t` is about to enter `RLock()` or `Lock()`. -/
def Config.atMutex (c : Config) (t : Tid) : Prop :=
  ∃ x, c.calls[t]? = some x ∧ ∃ m k, x.prog = .act (.rlock m) k ∨ x.prog = .act (.announce m) k

/-- An endless history of an initially empty repository; at each point nothing happens, or a call moves, or
a new call is made. -/
structure History (cfg : Cfg) (f : Nat → Config) : Prop where
  start : f 0 = Config.init
  next : ∀ i, f (i + 1) = f i ∨ Step cfg (f i) (f (i + 1))

structure Fair (cfg : Cfg) (f : Nat → Config) : Prop where
  /-- a call that can move from some point on does move -/
  scheduler : ∀ t n, (∀ i, n ≤ i → (f i).canMove cfg t) → ∃ i, n ≤ i ∧ TStep cfg t (f i) (f (i + 1))
  /-- a call that stays at a mutex that is free again and again gets in -/
  mutex : ∀ t n, (∀ i, n ≤ i → (f i).atMutex t) → (∀ k, ∃ i, k ≤ i ∧ (f i).canMove cfg t) →
    ∃ i, n ≤ i ∧ TStep cfg t (f i) (f (i + 1))

/-! ## The same with goroutines interleaved -/

def FConfig.over (c : FConfig) (t : Tid) : Prop := ∃ x, c.calls[t]? = some x ∧ x.status ≠ .running

def FConfig.atMutex (c : FConfig) (t : Tid) : Prop :=
  ∃ x, c.calls[t]? = some x ∧ ∃ m k, x.st = .run (.act (.rlock m) k) ∨ x.st = .run (.act (.announce m) k)

structure FHistory (cfg : Cfg) (f : Nat → FConfig) : Prop where
  start : f 0 = FConfig.init
  next : ∀ i, f (i + 1) = f i ∨ FStep cfg (f i) (f (i + 1))

structure FFair (cfg : Cfg) (f : Nat → FConfig) : Prop where
  scheduler : ∀ t n, (∀ i, n ≤ i → (f i).canMove cfg t) → ∃ i, n ≤ i ∧ FTStep cfg t (f i) (f (i + 1))
  mutex : ∀ t n, (∀ i, n ≤ i → (f i).atMutex t) → (∀ k, ∃ i, k ≤ i ∧ (f i).canMove cfg t) →
    ∃ i, n ≤ i ∧ FTStep cfg t (f i) (f (i + 1))

end Visigoth
