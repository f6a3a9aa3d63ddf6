import Verif.Spec.HappensBefore
import Verif.Spec.Fine
/-!
# Happens-before between goroutines

The events of calls whose goroutines are interleaved with everything else.  The order has, besides the edges of
`Spec/HappensBefore.lean`: a goroutine does its work after the `go` statement that started it, `wg.Wait()` returns after
all that the goroutines did before `wg.Done()`, and `rl.Unlock()` (repos_repo.go:209) comes before later returns of
`rl.Lock()` (repos_repo.go:207).
-/
namespace Visigoth

/-- What a goroutine does. -/
inductive Deed : Type 1 where
  | act {β : Type} (a : Act β)
  /-- the loops with `go` of `Put` (repos_repo.go:230-235) and `Search` (repos_repo.go:203-211); the indices that are put to -/
  | forkPut (ps : List Ptr)
  | forkSearch
  /-- `wg.Wait()` returns (repos_repo.go:236, 212); `Search` then reads `result` -/
  | putJoin
  | searchJoin
  /-- a goroutine has panicked, and the call with it -/
  | panic
  /-- `idx.Search(terms, engine)` (repos_repo.go:206) -/
  | eval (p : Ptr)
  /-- `rl.Lock()`, an append to `result`, `rl.Unlock()` (repos_repo.go:207-209) -/
  | lock
  | append
  | unlock

/-- Goroutine `agent` of call `tid` does something. -/
structure GEvent where
  tid : Tid
  agent : Agent
  deed : Deed

/-- The steps of `FTStep`, each with its event. -/
inductive GStep (cfg : Cfg) : GEvent → FConfig → FConfig → Prop where
  | act {t : Tid} {s s' : Shared} {calls : List FThread} {op : Op} {o : Oracle} {β : Type} {a : Act β} {k : β → FProg Ret} {b : β}
      (h : calls[t]? = some { op := op, oracle := o, st := .run (.act a k) }) (he : exec cfg o t a s = .ok b s') :
      GStep cfg ⟨t, none, .act a⟩ { sh := s, calls := calls }
        { sh := s', calls := calls.set t { op := op, oracle := o, st := .run (k b) } }
  | crash {t : Tid} {s : Shared} {calls : List FThread} {op : Op} {o : Oracle} {β : Type} {a : Act β} {k : β → FProg Ret} {e : Crash}
      (h : calls[t]? = some { op := op, oracle := o, st := .run (.act a k) }) (he : exec cfg o t a s = .crash e) :
      GStep cfg ⟨t, none, .act a⟩ { sh := s, calls := calls }
        { sh := s, calls := calls.set t { op := op, oracle := o, st := .run (.crash e) } }
  | forkPut {t : Tid} {s : Shared} {calls : List FThread} {op : Op} {o : Oracle} {ps : List Ptr} {doc : DocRequest} {k : FProg Ret}
      (h : calls[t]? = some { op := op, oracle := o, st := .run (.forkPut ps doc k) }) :
      GStep cfg ⟨t, none, .forkPut ps⟩ { sh := s, calls := calls }
        { sh := s, calls := calls.set t { op := op, oracle := o, st := .putting (putPool cfg doc s ps).gs k } }
  | put {t : Tid} {s s' : Shared} {calls : List FThread} {op : Op} {o : Oracle} {gs : List (Prog Unit)} {k : FProg Ret}
      {β : Type} {a : Act β} {r : β → Prog Unit} {b : β} {i : Nat}
      (h : calls[t]? = some { op := op, oracle := o, st := .putting gs k }) (hg : gs[i]? = some (.act a r))
      (he : exec cfg o t a s = .ok b s') :
      GStep cfg ⟨t, some i, .act a⟩ { sh := s, calls := calls }
        { sh := s', calls := calls.set t { op := op, oracle := o, st := .putting (gs.set i (r b)) k } }
  | putCrash {t : Tid} {s : Shared} {calls : List FThread} {op : Op} {o : Oracle} {gs : List (Prog Unit)} {k : FProg Ret}
      {β : Type} {a : Act β} {r : β → Prog Unit} {e : Crash} {i : Nat}
      (h : calls[t]? = some { op := op, oracle := o, st := .putting gs k }) (hg : gs[i]? = some (.act a r))
      (he : exec cfg o t a s = .crash e) :
      GStep cfg ⟨t, some i, .act a⟩ { sh := s, calls := calls }
        { sh := s, calls := calls.set t { op := op, oracle := o, st := .putting (gs.set i (.crash e)) k } }
  | putPanic {t : Tid} {s : Shared} {calls : List FThread} {op : Op} {o : Oracle} {gs : List (Prog Unit)} {k : FProg Ret} {e : Crash}
      (h : calls[t]? = some { op := op, oracle := o, st := .putting gs k }) (he : .crash e ∈ gs) :
      GStep cfg ⟨t, none, .panic⟩ { sh := s, calls := calls }
        { sh := s, calls := calls.set t { op := op, oracle := o, st := .run (.crash e) } }
  | putJoin {t : Tid} {s : Shared} {calls : List FThread} {op : Op} {o : Oracle} {gs : List (Prog Unit)} {k : FProg Ret}
      (h : calls[t]? = some { op := op, oracle := o, st := .putting gs k }) (hd : Pool.done { sh := s, gs := gs }) :
      GStep cfg ⟨t, none, .putJoin⟩ { sh := s, calls := calls }
        { sh := s, calls := calls.set t { op := op, oracle := o, st := .run k } }
  | forkSearch {t : Tid} {s : Shared} {calls : List FThread} {op : Op} {o : Oracle} {ps : List Ptr} {terms : Str} {engine : Engine}
      {k : List SearchResult → FProg Ret}
      (h : calls[t]? = some { op := op, oracle := o, st := .run (.forkSearch ps terms engine k) }) :
      GStep cfg ⟨t, none, .forkSearch⟩ { sh := s, calls := calls }
        { sh := s, calls := calls.set t
            { op := op, oracle := o, st := .searching [] none (searchPool s ps).gs terms engine k } }
  | eval {t : Tid} {s : Shared} {calls : List FThread} {op : Op} {o : Oracle} {result : List SearchResult} {rl : Option Nat}
      {gs : List Searcher} {terms : Str} {engine : Engine} {k : List SearchResult → FProg Ret} {i : Nat} {p : Ptr}
      {mi : MemoryIndex} (h : calls[t]? = some { op := op, oracle := o, st := .searching result rl gs terms engine k })
      (hg : gs[i]? = some (.start p)) (hp : s.heap[p]? = some mi)
      {sr : List SearchResult} (he : mi.search cfg.cp cfg.tok terms engine = some sr) :
      GStep cfg ⟨t, some i, .eval p⟩ { sh := s, calls := calls }
        { sh := s, calls := calls.set t
            { op := op, oracle := o, st := .searching result rl (gs.set i (.evaluated sr)) terms engine k } }
  | evalPanic {t : Tid} {s : Shared} {calls : List FThread} {op : Op} {o : Oracle} {result : List SearchResult} {rl : Option Nat}
      {gs : List Searcher} {terms : Str} {engine : Engine} {k : List SearchResult → FProg Ret} {i : Nat} {p : Ptr}
      {mi : MemoryIndex} (h : calls[t]? = some { op := op, oracle := o, st := .searching result rl gs terms engine k })
      (hg : gs[i]? = some (.start p)) (hp : s.heap[p]? = some mi) (he : mi.search cfg.cp cfg.tok terms engine = none) :
      GStep cfg ⟨t, some i, .eval p⟩ { sh := s, calls := calls }
        { sh := s, calls := calls.set t
            { op := op, oracle := o, st := .searching result rl (gs.set i .panicked) terms engine k } }
  | lock {t : Tid} {s : Shared} {calls : List FThread} {op : Op} {o : Oracle} {result : List SearchResult}
      {gs : List Searcher} {terms : Str} {engine : Engine} {k : List SearchResult → FProg Ret} {i : Nat} {sr : List SearchResult}
      (h : calls[t]? = some { op := op, oracle := o, st := .searching result none gs terms engine k })
      (hg : gs[i]? = some (.evaluated sr)) :
      GStep cfg ⟨t, some i, .lock⟩ { sh := s, calls := calls }
        { sh := s, calls := calls.set t
            { op := op, oracle := o, st := .searching result (some i) (gs.set i (.appending sr)) terms engine k } }
  | append {t : Tid} {s : Shared} {calls : List FThread} {op : Op} {o : Oracle} {result : List SearchResult} {rl : Option Nat}
      {gs : List Searcher} {terms : Str} {engine : Engine} {k : List SearchResult → FProg Ret} {i : Nat} {x : SearchResult}
      {rest : List SearchResult}
      (h : calls[t]? = some { op := op, oracle := o, st := .searching result rl gs terms engine k })
      (hg : gs[i]? = some (.appending (x :: rest))) :
      GStep cfg ⟨t, some i, .append⟩ { sh := s, calls := calls }
        { sh := s, calls := calls.set t
            { op := op, oracle := o, st := .searching (result ++ [x]) rl (gs.set i (.appending rest)) terms engine k } }
  | unlock {t : Tid} {s : Shared} {calls : List FThread} {op : Op} {o : Oracle} {result : List SearchResult} {rl : Option Nat}
      {gs : List Searcher} {terms : Str} {engine : Engine} {k : List SearchResult → FProg Ret} {i : Nat}
      (h : calls[t]? = some { op := op, oracle := o, st := .searching result rl gs terms engine k })
      (hg : gs[i]? = some (.appending [])) :
      GStep cfg ⟨t, some i, .unlock⟩ { sh := s, calls := calls }
        { sh := s, calls := calls.set t
            { op := op, oracle := o, st := .searching result none (gs.set i .done) terms engine k } }
  | searchPanic {t : Tid} {s : Shared} {calls : List FThread} {op : Op} {o : Oracle} {result : List SearchResult} {rl : Option Nat}
      {gs : List Searcher} {terms : Str} {engine : Engine} {k : List SearchResult → FProg Ret}
      (h : calls[t]? = some { op := op, oracle := o, st := .searching result rl gs terms engine k })
      (he : .panicked ∈ gs) :
      GStep cfg ⟨t, none, .panic⟩ { sh := s, calls := calls }
        { sh := s, calls := calls.set t { op := op, oracle := o, st := .run (.crash .engine) } }
  | searchJoin {t : Tid} {s : Shared} {calls : List FThread} {op : Op} {o : Oracle} {result : List SearchResult} {rl : Option Nat}
      {gs : List Searcher} {terms : Str} {engine : Engine} {k : List SearchResult → FProg Ret}
      (h : calls[t]? = some { op := op, oracle := o, st := .searching result rl gs terms engine k })
      (hd : SearchPool.finished { sh := s, result := result, rl := rl, gs := gs }) :
      GStep cfg ⟨t, none, .searchJoin⟩ { sh := s, calls := calls }
        { sh := s, calls := calls.set t { op := op, oracle := o, st := .run (k result) } }

/-- An execution, and what was done in it. -/
inductive GTraced (cfg : Cfg) (c₀ : FConfig) : List GEvent → FConfig → Prop where
  | start : GTraced cfg c₀ [] c₀
  | call {es : List GEvent} {c : FConfig} (h : GTraced cfg c₀ es c) (op : Op) (o : Oracle) :
      GTraced cfg c₀ es { c with calls := c.calls ++ [{ op := op, oracle := o, st := .run (op.fine cfg) }] }
  | step {es : List GEvent} {c c' : FConfig} {e : GEvent} (h : GTraced cfg c₀ es c) (hs : GStep cfg e c c') :
      GTraced cfg c₀ (es ++ [e]) c'

/-- What an event reads. -/
def GEvent.reads (e : GEvent) : Option Var :=
  match e.deed with
  | .act a => a.readsVar
  | .eval p => some (.index p)
  | .searchJoin => some (.result e.tid)
  | _ => none

/-- What an event writes. -/
def GEvent.writes (e : GEvent) : Option Var :=
  match e.deed with
  | .act a => a.writesVar
  | .append => some (.result e.tid)
  | _ => none

/-- The event accesses variable `v`. -/
def GEvent.uses (e : GEvent) (v : Var) : Prop := e.reads = some v ∨ e.writes = some v

/-- Two goroutines access the same variable, one of them to write it. -/
def GEvent.conflicts (e e' : GEvent) (v : Var) : Prop :=
  (e.tid ≠ e'.tid ∨ e.agent ≠ e'.agent) ∧ e.uses v ∧ e'.uses v ∧ (e.writes = some v ∨ e'.writes = some v)

def Deed.isFork : Deed → Bool
  | .forkPut _ | .forkSearch => true
  | _ => false

def Deed.isJoin : Deed → Bool
  | .putJoin | .searchJoin => true
  | _ => false

/-- The event is synchronized before the other one, which comes later. -/
def GEvent.syncs (e e' : GEvent) : Prop :=
  -- the mutexes of the repository
  (∃ (β γ : Type) (a : Act β) (b : Act γ) (m : Mu) (x y : Bool), e.deed = .act a ∧ e'.deed = .act b ∧
    a.releases = some (m, x) ∧ b.takes = some (m, y) ∧ (x = true ∨ y = true)) ∨
  -- the mutex `rl` of a call of `Search`
  (e.tid = e'.tid ∧ e.deed = .unlock ∧ e'.deed = .lock) ∨
  -- `go`
  (e.tid = e'.tid ∧ e.agent = none ∧ e.deed.isFork = true ∧ e'.agent ≠ none) ∨
  -- `wg.Done()` and `wg.Wait()`
  (e.tid = e'.tid ∧ e.agent ≠ none ∧ e'.agent = none ∧ e'.deed.isJoin = true)

/-- The event at position `i` happens before the one at position `j`. -/
inductive GHB (es : List GEvent) : Nat → Nat → Prop where
  | po {i j : Nat} {e e' : GEvent} (hij : i < j) (hi : es[i]? = some e) (hj : es[j]? = some e') (h : e.tid = e'.tid)
      (ha : e.agent = e'.agent) : GHB es i j
  | sync {i j : Nat} {e e' : GEvent} (hij : i < j) (hi : es[i]? = some e) (hj : es[j]? = some e') (h : e.syncs e') :
      GHB es i j
  | trans {i j k : Nat} (h : GHB es i j) (h' : GHB es j k) : GHB es i k

/-- Conflicting accesses are ordered. -/
def GOrdered (es : List GEvent) : Prop :=
  ∀ i j e e' v, i < j → es[i]? = some e → es[j]? = some e' → e.conflicts e' v → GHB es i j

end Visigoth
