import Verif.Model.Conc
/-!
# Recovered panics

`Search` takes the read lock of the index map with `defer h.indicesMu.RUnlock()` (repos_repo.go:167-168).
When it panics in the calling goroutine — a nil `Index` (repos_repo.go:192) or a panicking engine — the
deferred call runs while the stack is unwound, and a caller that recovers can go on.  (The HTTP server of
the standard library, for one, recovers panics of its handlers.)  No other method of `IndexRepo` can panic
in the calling goroutine, unless the builder or the tokenizer does (`Model/UserPanic.lean`, C104); a panic in a goroutine started by `Put` or `Search` cannot be recovered.

Simplification: a `Search` over several indices whose goroutine panics may be unwound here too, although in
Go the process ends (so there are more executions here than in Go).
-/
namespace Visigoth

/-- A configuration, and the calls that panicked, were unwound, and were recovered by their callers. -/
structure RConfig where
  conf : Config
  unwound : List Tid

def RConfig.init : RConfig := { conf := Config.init, unwound := [] }

/-- A step as before, or the unwinding of a `Search` that panicked: the deferred `RUnlock`
(repos_repo.go:168). -/
inductive RStep (cfg : Cfg) : RConfig → RConfig → Prop where
  | step {c c' : Config} {D : List Tid} (h : Step cfg c c') :
      RStep cfg { conf := c, unwound := D } { conf := c', unwound := D }
  | unwind {s s' : Shared} {calls : List Thread} {D : List Tid} {n : Name} {ts : Str} {e : Engine} {o : Oracle}
      {x : Crash} (t : Tid)
      (h : calls[t]? = some { op := .search n ts e, oracle := o, prog := .crash x })
      (hx : x ≠ .invalid) (ht : t ∉ D) (he : exec cfg o t (.runlock .indices) s = .ok () s') :
      RStep cfg { conf := { sh := s, calls := calls }, unwound := D }
        { conf := { sh := s', calls := calls }, unwound := t :: D }

/-- Executions. -/
inductive RSteps (cfg : Cfg) : RConfig → RConfig → Prop where
  | refl (c : RConfig) : RSteps cfg c c
  | tail {c c' c'' : RConfig} (h : RSteps cfg c c') (hs : RStep cfg c' c'') : RSteps cfg c c''

/-- Reachable from an empty repository. -/
def RReachable (cfg : Cfg) (c : RConfig) : Prop := RSteps cfg RConfig.init c

end Visigoth
