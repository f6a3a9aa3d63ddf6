import Verif.Model.Conc
import Verif.Model.Goroutines
/-!
# Concurrent calls whose goroutines run concurrently too

In `Model/Conc.lean` the goroutines that one `Put` or `Search` starts run one after the other.  Here
every goroutine of every call is interleaved with everything else in the process, one atomic action at
a time.  `Props/Fine.lean` shows that this adds no behaviour to `Model/Conc.lean`.
-/
namespace Visigoth

/-- Programs that may start goroutines and wait for them. -/
inductive FProg (α : Type) : Type 1 where
  | ret (a : α)
  | act {β : Type} (a : Act β) (k : β → FProg α)
  | crash (c : Crash)
  /-- `wg.Add(len(ps)); for … { go … index.Put(doc) … }; wg.Wait()` (repos_repo.go:228-236) -/
  | forkPut (ps : List Ptr) (doc : DocRequest) (k : FProg α)
  /-- the same with `idx.Search(terms, engine)` and `result` (repos_repo.go:196-213) -/
  | forkSearch (ps : List Ptr) (terms : Str) (engine : Engine) (k : List SearchResult → FProg α)

namespace FProg

def bind {α β : Type} : FProg α → (α → FProg β) → FProg β
  | .ret a, f => f a
  | .act a k, f => .act a fun b => (k b).bind f
  | .crash c, _ => .crash c
  | .forkPut ps doc k, f => .forkPut ps doc (k.bind f)
  | .forkSearch ps terms engine k, f => .forkSearch ps terms engine fun r => (k r).bind f

instance : Monad FProg where
  pure := FProg.ret
  bind := FProg.bind

end FProg

/-- A program that starts no goroutines. -/
def Prog.fine {α : Type} : Prog α → FProg α
  | .ret a => .ret a
  | .act a k => .act a fun b => (k b).fine
  | .crash c => .crash c

namespace Repo

/-- repos_repo.go:191-213; see `Repo.searchTargets`. -/
def fineSearchTargets (indices : List (Option Ptr)) (terms : Str) (engine : Engine) :
    FProg (List SearchResult) :=
  match nonNil indices with
  | none => .crash .nilIndex
  | some [p] => (searchIndex p terms engine).fine
  | some ps => .forkSearch ps terms engine .ret

/-- `IndexRepo.Search` (repos_repo.go:162-214); see `Repo.search`. -/
def fineSearch (indexName : Name) (terms : Str) (engine : Engine) :
    FProg (Option (List SearchResult)) := do
  (perform (.rlock .indices)).fine
  match ← (perform (.idxGet indexName)).fine with
  | some i =>
    let res ← fineSearchTargets [some i] terms engine
    (perform (.runlock .indices)).fine
    return some res
  | none =>
    (perform (.rlock .aliases)).fine
    match ← (perform (.alGet indexName)).fine with
    | none =>
      (perform (.runlock .aliases)).fine
      (perform (.runlock .indices)).fine
      return none
    | some aliasedIndices =>
      let indices ← (resolveFrom aliasedIndices 0 aliasedIndices.len).fine
      (perform (.runlock .aliases)).fine
      let res ← fineSearchTargets indices terms engine
      (perform (.runlock .indices)).fine
      return some res

/-- repos_repo.go:228-236; see `Repo.putTargets`.  As there, goroutines of one call that would write
the same index without synchronisation are a crash (C43 shows what the race can do). -/
def finePutTargets (indices : List (Option Ptr)) (doc : DocRequest) : FProg Unit :=
  match nonNil indices with
  | none => .crash .nilIndex
  | some ps => if ps.Nodup then .forkPut ps doc (.ret ()) else .crash .race

/-- `IndexRepo.Put` (repos_repo.go:216-238); see `Repo.put`. -/
def finePut (cfg : Cfg) (indexName : Name) (doc : DocRequest) : FProg Unit := do
  let r ← (getIndices indexName).fine
  (lock .indices).fine
  match r with
  | none =>
    let p ← (perform (.newIndex indexName)).fine
    (perform (.idxSet indexName p)).fine
    (putIndex cfg p doc).fine
    (perform (.unlock .indices)).fine
  | some indices =>
    finePutTargets indices doc
    (perform (.unlock .indices)).fine

end Repo

/-- The program of a call (repos_repo.go:12-23), goroutines included. -/
def Op.fine (cfg : Cfg) : Op → FProg Ret
  | .put n d => do
    Repo.finePut cfg n d
    return .unit
  | .search n ts e => do
    match ← Repo.fineSearch n ts e with
    | some r => return .results r
    | none => return .noIndex
  | op => (op.prog cfg).fine

/-- Where a call is. -/
inductive FState : Type 1 where
  /-- no goroutine of the call is running -/
  | run (p : FProg Ret)
  /-- at `wg.Wait()` of `Put` (repos_repo.go:236), with its goroutines -/
  | putting (gs : List (Prog Unit)) (k : FProg Ret)
  /-- at `wg.Wait()` of `Search` (repos_repo.go:212), with its goroutines and the variables `result` and
  `rl` (repos_repo.go:196-201) -/
  | searching (result : List SearchResult) (rl : Option Nat) (gs : List Searcher) (terms : Str) (engine : Engine)
      (k : List SearchResult → FProg Ret)

structure FThread where
  op : Op
  oracle : Oracle
  st : FState

structure FConfig where
  sh : Shared
  calls : List FThread

def FConfig.init : FConfig := { sh := newIndexRepo, calls := [] }

/-- Call `t`, or one of its goroutines, performs its next action. -/
inductive FTStep (cfg : Cfg) (t : Tid) : FConfig → FConfig → Prop where
  | act {s s' : Shared} {calls : List FThread} {op : Op} {o : Oracle} {β : Type} {a : Act β} {k : β → FProg Ret} {b : β}
      (h : calls[t]? = some { op := op, oracle := o, st := .run (.act a k) })
      (he : exec cfg o t a s = .ok b s') :
      FTStep cfg t { sh := s, calls := calls }
        { sh := s', calls := calls.set t { op := op, oracle := o, st := .run (k b) } }
  | crash {s : Shared} {calls : List FThread} {op : Op} {o : Oracle} {β : Type} {a : Act β} {k : β → FProg Ret} {e : Crash}
      (h : calls[t]? = some { op := op, oracle := o, st := .run (.act a k) })
      (he : exec cfg o t a s = .crash e) :
      FTStep cfg t { sh := s, calls := calls }
        { sh := s, calls := calls.set t { op := op, oracle := o, st := .run (.crash e) } }
  /-- the goroutines of `Put` are started -/
  | forkPut {s : Shared} {calls : List FThread} {op : Op} {o : Oracle} {ps : List Ptr} {doc : DocRequest} {k : FProg Ret}
      (h : calls[t]? = some { op := op, oracle := o, st := .run (.forkPut ps doc k) }) :
      FTStep cfg t { sh := s, calls := calls }
        { sh := s, calls := calls.set t { op := op, oracle := o, st := .putting (putPool cfg doc s ps).gs k } }
  /-- one of them moves -/
  | put {s s' : Shared} {calls : List FThread} {op : Op} {o : Oracle} {gs gs' : List (Prog Unit)} {k : FProg Ret}
      (h : calls[t]? = some { op := op, oracle := o, st := .putting gs k })
      (hs : PoolStep cfg o t (fun _ _ => False) { sh := s, gs := gs } { sh := s', gs := gs' }) :
      FTStep cfg t { sh := s, calls := calls }
        { sh := s', calls := calls.set t { op := op, oracle := o, st := .putting gs' k } }
  /-- one of them has panicked -/
  | putPanic {s : Shared} {calls : List FThread} {op : Op} {o : Oracle} {gs : List (Prog Unit)} {k : FProg Ret} {e : Crash}
      (h : calls[t]? = some { op := op, oracle := o, st := .putting gs k }) (he : .crash e ∈ gs) :
      FTStep cfg t { sh := s, calls := calls }
        { sh := s, calls := calls.set t { op := op, oracle := o, st := .run (.crash e) } }
  /-- `wg.Wait()` returns -/
  | putJoin {s : Shared} {calls : List FThread} {op : Op} {o : Oracle} {gs : List (Prog Unit)} {k : FProg Ret}
      (h : calls[t]? = some { op := op, oracle := o, st := .putting gs k }) (hd : Pool.done { sh := s, gs := gs }) :
      FTStep cfg t { sh := s, calls := calls }
        { sh := s, calls := calls.set t { op := op, oracle := o, st := .run k } }
  /-- the goroutines of `Search` are started -/
  | forkSearch {s : Shared} {calls : List FThread} {op : Op} {o : Oracle} {ps : List Ptr} {terms : Str} {engine : Engine}
      {k : List SearchResult → FProg Ret}
      (h : calls[t]? = some { op := op, oracle := o, st := .run (.forkSearch ps terms engine k) }) :
      FTStep cfg t { sh := s, calls := calls }
        { sh := s, calls := calls.set t
            { op := op, oracle := o, st := .searching [] none (searchPool s ps).gs terms engine k } }
  /-- one of them moves -/
  | search {s : Shared} {calls : List FThread} {op : Op} {o : Oracle} {result result' : List SearchResult} {rl rl' : Option Nat}
      {gs gs' : List Searcher} {terms : Str} {engine : Engine} {k : List SearchResult → FProg Ret}
      (h : calls[t]? = some { op := op, oracle := o, st := .searching result rl gs terms engine k })
      (hs : SearchPoolStep cfg terms engine (fun _ _ => False) { sh := s, result := result, rl := rl, gs := gs }
        { sh := s, result := result', rl := rl', gs := gs' }) :
      FTStep cfg t { sh := s, calls := calls }
        { sh := s, calls := calls.set t { op := op, oracle := o, st := .searching result' rl' gs' terms engine k } }
  /-- one of them has panicked -/
  | searchPanic {s : Shared} {calls : List FThread} {op : Op} {o : Oracle} {result : List SearchResult} {rl : Option Nat}
      {gs : List Searcher} {terms : Str} {engine : Engine} {k : List SearchResult → FProg Ret}
      (h : calls[t]? = some { op := op, oracle := o, st := .searching result rl gs terms engine k })
      (he : .panicked ∈ gs) :
      FTStep cfg t { sh := s, calls := calls }
        { sh := s, calls := calls.set t { op := op, oracle := o, st := .run (.crash .engine) } }
  /-- `wg.Wait()` returns -/
  | searchJoin {s : Shared} {calls : List FThread} {op : Op} {o : Oracle} {result : List SearchResult} {rl : Option Nat}
      {gs : List Searcher} {terms : Str} {engine : Engine} {k : List SearchResult → FProg Ret}
      (h : calls[t]? = some { op := op, oracle := o, st := .searching result rl gs terms engine k })
      (hd : SearchPool.finished { sh := s, result := result, rl := rl, gs := gs }) :
      FTStep cfg t { sh := s, calls := calls }
        { sh := s, calls := calls.set t { op := op, oracle := o, st := .run (k result) } }

/-- A step: some call or goroutine moves, or a new call is made. -/
inductive FStep (cfg : Cfg) : FConfig → FConfig → Prop where
  | move {c c' : FConfig} (t : Tid) (h : FTStep cfg t c c') : FStep cfg c c'
  | invoke (c : FConfig) (op : Op) (o : Oracle) :
      FStep cfg c { c with calls := c.calls ++ [{ op := op, oracle := o, st := .run (op.fine cfg) }] }

/-- Executions. -/
inductive FSteps (cfg : Cfg) : FConfig → FConfig → Prop where
  | refl (c : FConfig) : FSteps cfg c c
  | tail {c c' c'' : FConfig} (h : FSteps cfg c c') (hs : FStep cfg c' c'') : FSteps cfg c c''

/-- Reachable from an empty repository. -/
def FineReachable (cfg : Cfg) (c : FConfig) : Prop := FSteps cfg FConfig.init c

end Visigoth
