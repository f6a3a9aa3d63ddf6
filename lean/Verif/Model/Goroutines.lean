import Verif.Model.Repo
/-!
# The goroutines started by `Put` and `Search`

`Repo.putAll` and `Repo.searchAll` run the goroutines of a call one after the other.  Here they are
interleaved, one atomic action at a time, and the rest of the process may act at any moment (`env`).
`Props/Goroutines.lean` shows that the sequential treatment loses nothing.
-/
namespace Visigoth

/-- The goroutines of one `Put` call (repos_repo.go:228-235) and the shared state. -/
structure Pool where
  sh : Shared
  gs : List (Prog Unit)

/-- `for _, in := range indices { go func(index Index) { index.Put(doc); wg.Done() }(in) }`
(repos_repo.go:230-235). -/
def putPool (cfg : Cfg) (doc : DocRequest) (s : Shared) (ps : List Ptr) : Pool :=
  { sh := s, gs := ps.map fun p => Repo.putIndex cfg p doc }

/-- One step of a pool: a goroutine performs its next action, a goroutine panics, or something else
in the process changes the shared state as `env` allows. -/
inductive PoolStep (cfg : Cfg) (o : Oracle) (t : Tid) (env : Shared → Shared → Prop) :
    Pool → Pool → Prop where
  | move {s s' : Shared} {gs : List (Prog Unit)} {β : Type} {a : Act β} {k : β → Prog Unit} {b : β}
      (i : Nat) (h : gs[i]? = some (.act a k)) (he : exec cfg o t a s = .ok b s') :
      PoolStep cfg o t env { sh := s, gs := gs } { sh := s', gs := gs.set i (k b) }
  | panic {s : Shared} {gs : List (Prog Unit)} {β : Type} {a : Act β} {k : β → Prog Unit} {e : Crash}
      (i : Nat) (h : gs[i]? = some (.act a k)) (he : exec cfg o t a s = .crash e) :
      PoolStep cfg o t env { sh := s, gs := gs } { sh := s, gs := gs.set i (.crash e) }
  | env {s s' : Shared} {gs : List (Prog Unit)} (h : env s s') :
      PoolStep cfg o t env { sh := s, gs := gs } { sh := s', gs := gs }

/-- Executions of a pool. -/
inductive PoolSteps (cfg : Cfg) (o : Oracle) (t : Tid) (env : Shared → Shared → Prop) :
    Pool → Pool → Prop where
  | refl (c : Pool) : PoolSteps cfg o t env c c
  | tail {c c' c'' : Pool} (h : PoolSteps cfg o t env c c') (hs : PoolStep cfg o t env c' c'') :
      PoolSteps cfg o t env c c''

/-- `wg.Wait()` returns (repos_repo.go:236): every goroutine has ended. -/
def Pool.done (c : Pool) : Prop := ∀ g ∈ c.gs, g = .ret ()

/-- A goroutine of `Search` (repos_repo.go:204-210). -/
inductive Searcher where
  /-- before `idx.Search(terms, engine)` -/
  | start (p : Ptr)
  /-- before `rl.Lock()` -/
  | evaluated (sr : List SearchResult)
  /-- holding `rl`; the elements that `result.AppendVector` has still to append -/
  | appending (rest : List SearchResult)
  /-- after `rl.Unlock()` -/
  | done
  /-- the engine panicked -/
  | panicked
deriving DecidableEq

/-- The goroutines of one `Search` call (repos_repo.go:196-211), the variables `result` and `rl` they
share, and the shared state. -/
structure SearchPool where
  sh : Shared
  result : List SearchResult := []
  /-- the goroutine that holds `rl` -/
  rl : Option Nat := none
  gs : List Searcher

/-- repos_repo.go:196-211: all goroutines started. -/
def searchPool (s : Shared) (ps : List Ptr) : SearchPool := { sh := s, gs := ps.map .start }

/-- One step of the goroutines of `Search`, or of the rest of the process.  Simplification:
`AppendVector` of the vago library appends the elements one by one. -/
inductive SearchPoolStep (cfg : Cfg) (terms : Str) (engine : Engine) (env : Shared → Shared → Prop) :
    SearchPool → SearchPool → Prop where
  | eval {c : SearchPool} {p : Ptr} {mi : MemoryIndex} {sr : List SearchResult} (i : Nat)
      (h : c.gs[i]? = some (.start p)) (hp : c.sh.heap[p]? = some mi)
      (he : mi.search cfg.cp cfg.tok terms engine = some sr) :
      SearchPoolStep cfg terms engine env c { c with gs := c.gs.set i (.evaluated sr) }
  | panic {c : SearchPool} {p : Ptr} {mi : MemoryIndex} (i : Nat)
      (h : c.gs[i]? = some (.start p)) (hp : c.sh.heap[p]? = some mi)
      (he : mi.search cfg.cp cfg.tok terms engine = none) :
      SearchPoolStep cfg terms engine env c { c with gs := c.gs.set i .panicked }
  | lock {c : SearchPool} {sr : List SearchResult} (i : Nat)
      (h : c.gs[i]? = some (.evaluated sr)) (hl : c.rl = none) :
      SearchPoolStep cfg terms engine env c { c with rl := some i, gs := c.gs.set i (.appending sr) }
  | append {c : SearchPool} {x : SearchResult} {rest : List SearchResult} (i : Nat)
      (h : c.gs[i]? = some (.appending (x :: rest))) :
      SearchPoolStep cfg terms engine env c
        { c with result := c.result ++ [x], gs := c.gs.set i (.appending rest) }
  | unlock {c : SearchPool} (i : Nat) (h : c.gs[i]? = some (.appending [])) :
      SearchPoolStep cfg terms engine env c { c with rl := none, gs := c.gs.set i .done }
  | env {c : SearchPool} {s' : Shared} (h : env c.sh s') :
      SearchPoolStep cfg terms engine env c { c with sh := s' }

/-- Executions. -/
inductive SearchPoolSteps (cfg : Cfg) (terms : Str) (engine : Engine) (env : Shared → Shared → Prop) :
    SearchPool → SearchPool → Prop where
  | refl (c : SearchPool) : SearchPoolSteps cfg terms engine env c c
  | tail {c c' c'' : SearchPool} (h : SearchPoolSteps cfg terms engine env c c')
      (hs : SearchPoolStep cfg terms engine env c' c'') : SearchPoolSteps cfg terms engine env c c''

/-- `wg.Wait()` returns (repos_repo.go:212). -/
def SearchPool.finished (c : SearchPool) : Prop := ∀ g ∈ c.gs, g = .done

end Visigoth
