import Verif.Model.Index
/-!
# An index used directly by several goroutines

`MemoryIndex` has no mutex; only `IndexRepo` has.  Here any number of calls of `Put` and `Search` on one
`*MemoryIndex` run interleaved, one memory access at a time.

Simplifications: `Docs` and the posting lists are values, so that `append` is a read of the whole slice and
later a write of the whole slice; a posting list is copied by `Indexed` in one access.
-/
namespace Visigoth

/-- An engine as a program: what it asks of the index, one call at a time. -/
inductive EngProg where
  | ret (l : List SearchResult)
  | len (k : Nat → EngProg)
  | indexed (token : Str) (k : Option (List Nat) → EngProg)
  | document (i : Nat) (k : Doc → EngProg)
  /-- `for ; i < in.Len(); i++`: about to call `Len`; `acc` are the results so far, `body` what a document adds -/
  | each (i : Nat) (acc : List SearchResult) (body : Doc → List SearchResult) (k : List SearchResult → EngProg)
  /-- the same loop, about to call `Document(i)` -/
  | eachAt (i : Nat) (acc : List SearchResult) (body : Doc → List SearchResult) (k : List SearchResult → EngProg)

/-- The inner loop over one posting list (search_hits_search.go:60-75). -/
def hitsInnerP (k : GoMap HashKey SearchResult → EngProg) : List Nat → GoMap HashKey SearchResult → EngProg
  | [], docHits => k docHits
  | index :: rest, docHits => .document index fun doc =>
    match docHits.get doc.hash with
    | some result => hitsInnerP k rest (docHits.set doc.hash { result with hits := result.hits + 1 })
    | none => hitsInnerP k rest (docHits.set doc.hash { document := doc, hits := 1 })

/-- Phase 1 (search_hits_search.go:52-76). -/
def hitsPhase1P (k : GoMap HashKey SearchResult → EngProg) : List Str → GoMap HashKey SearchResult → EngProg
  | [], docHits => k docHits
  | token :: rest, docHits => .indexed token fun
    | none => hitsPhase1P k rest docHits
    | some indexed => hitsInnerP (hitsPhase1P k rest) indexed docHits

/-- The body of the loop of phase 2 (search_hits_search.go:84-90). -/
def hitsBody (threshold : Nat) (docHits : GoMap HashKey SearchResult) (doc : Doc) : List SearchResult :=
  match docHits.get doc.hash with
  | some result => if result.hits ≥ threshold then [result] else []
  | none => []

/-- `HitsSearch` (search_hits_search.go:43-97). -/
def hitsSearchP (sort : List SearchResult → List SearchResult) (tokens : List Str) : EngProg :=
  hitsPhase1P (fun docHits => .each 0 [] (hitsBody tokens.length docHits) fun l => .ret (sort l)) tokens []

/-- The loop over the remaining tokens (search_linear_search.go:70-79). -/
def linearLoopP (k : List Nat → EngProg) : List Str → List Nat → EngProg
  | [], docs => k docs
  | t :: ts, docs => .indexed t fun
    | none => .ret []
    | some nextDocs =>
      match intersection docs nextDocs with
      | [] => .ret []
      | d :: ds => linearLoopP k ts (d :: ds)

/-- Conversion of positions to results (search_linear_search.go:82-89). -/
def toResultsP (hits : Nat) : List Nat → List SearchResult → EngProg
  | [], acc => .ret acc
  | i :: rest, acc => .document i fun doc => toResultsP hits rest (acc ++ [{ document := doc, hits := hits }])

/-- `LinearSearch` (search_linear_search.go:58-92). -/
def linearSearchP : List Str → EngProg
  | [] => .ret []
  | t :: ts => .indexed t fun
    | none => .ret []
    | some docs => linearLoopP (fun docs => toResultsP (ts.length + 1) docs []) ts docs

/-- `NoopZeroSearch` (search_noop_search.go:6-8). -/
def noopZeroSearchP (_tokens : List Str) : EngProg := .ret []

/-- `NoopAllSearch` (search_noop_search.go:11-21). -/
def noopAllSearchP (_tokens : List Str) : EngProg := .each 0 [] (fun doc => [{ document := doc, hits := 0 }]) .ret

/-- A call on a `*MemoryIndex`. -/
inductive BareOp where
  /-- `Put` (index_memory_index.go:44-60) -/
  | put (d : DocRequest)
  /-- `Search` (index_memory_index.go:62-64) -/
  | search (payload : Str) (engine : List Str → EngProg)

/-- How far a call has come. -/
inductive BareStage where
  /-- `Put` about to read `len(mi.Docs)` (index_memory_index.go:46) -/
  | putLen (d : DocRequest)
  /-- about to read `mi.Docs` for `append` (line 48) -/
  | putRead (d : DocRequest) (next : Nat)
  /-- about to assign `mi.Docs` (line 48) -/
  | putWrite (d : DocRequest) (next : Nat) (docs : List Doc)
  /-- in the token loop (line 50), about to read the posting list of the first token left (line 51) -/
  | putLoop (next : Nat) (tokens : List Str)
  /-- about to assign the posting list (line 57) -/
  | putPost (next : Nat) (token : Str) (indexedDocs : List Nat) (tokens : List Str)
  /-- in the engine -/
  | engine (p : EngProg)
  /-- returned; `Put` returns the index itself, here nothing -/
  | done (l : List SearchResult)
  | panicked

/-- The call is under way. -/
def BareStage.running : BareStage → Bool
  | .done _ | .panicked => false
  | _ => true

/-- The call begins (tokenizing reads no shared memory). -/
def BareOp.start (tok : Tokenizer) : BareOp → BareStage
  | .put d => .putLen d
  | .search payload engine => .engine (engine (tok payload))

/-- After the first loop condition: the call of `Put` is over when no token is left (line 50). -/
def afterToken (next : Nat) : List Str → BareStage
  | [] => .done []
  | tok :: toks => .putLoop next (tok :: toks)

/-- One memory access of a call, and what it does to the index. -/
def BareStage.step (cp : CopyFn) (tok : Tokenizer) (mi : MemoryIndex) : BareStage → Option (MemoryIndex × BareStage)
  | .putLen d => some (mi, .putRead d mi.len)
  | .putRead d next => some (mi, .putWrite d next mi.docs)
  | .putWrite d next docs => some ({ mi with docs := docs ++ [newDoc d.id d.raw] }, afterToken next (tok d.statement))
  | .putLoop _ [] => some (mi, .done [])
  | .putLoop next (t :: toks) =>
    let indexedDocs := (mi.inverted.get t).getD []
    if next ∈ indexedDocs then some (mi, afterToken next toks)
    else some (mi, .putPost next t indexedDocs toks)
  | .putPost next t indexedDocs toks =>
    some ({ mi with inverted := mi.inverted.set t (indexedDocs ++ [next]) }, afterToken next toks)
  | .engine (.ret l) => some (mi, .done l)
  | .engine (.len k) => some (mi, .engine (k mi.len))
  | .engine (.indexed t k) => some (mi, .engine (k (mi.indexed cp t)))
  | .engine (.document i k) =>
    match mi.document i with
    | some doc => some (mi, .engine (k doc))
    | none => some (mi, .panicked)
  | .engine (.each i acc body k) => some (mi, .engine (if i < mi.len then .eachAt i acc body k else k acc))
  | .engine (.eachAt i acc body k) =>
    match mi.document i with
    | some doc => some (mi, .engine (.each (i + 1) (acc ++ body doc) body k))
    | none => some (mi, .panicked)
  | .done _ | .panicked => none

/-- A call with its stage. -/
structure BareCall where
  op : BareOp
  stage : BareStage

/-- The index and the calls made so far. -/
structure BareConfig where
  mi : MemoryIndex
  calls : List BareCall

/-- A new index (`NewMemoryIndex`, index_memory_index.go:66-73). -/
def BareConfig.init (name : Str) : BareConfig := ⟨newMemoryIndex name, []⟩

/-- Somebody makes a call, or a call makes a memory access. -/
inductive BareStep (cp : CopyFn) (tok : Tokenizer) : BareConfig → BareConfig → Prop
  | invoke {mi : MemoryIndex} {calls : List BareCall} (op : BareOp) :
      BareStep cp tok ⟨mi, calls⟩ ⟨mi, calls ++ [⟨op, op.start tok⟩]⟩
  | move {mi mi' : MemoryIndex} {calls : List BareCall} {t : Nat} {op : BareOp} {s s' : BareStage} (h : calls[t]? = some ⟨op, s⟩)
      (hs : s.step cp tok mi = some (mi', s')) : BareStep cp tok ⟨mi, calls⟩ ⟨mi', calls.set t ⟨op, s'⟩⟩

/-- Executions. -/
inductive BareSteps (cp : CopyFn) (tok : Tokenizer) : BareConfig → BareConfig → Prop
  | refl (c : BareConfig) : BareSteps cp tok c c
  | tail {c c' c'' : BareConfig} (h : BareSteps cp tok c c') (hs : BareStep cp tok c' c'') : BareSteps cp tok c c''

/-- What a scheduler does next, for concrete executions. -/
inductive BareMove where
  | call (op : BareOp)
  | go (t : Nat)

def BareConfig.play (cp : CopyFn) (tok : Tokenizer) (c : BareConfig) : List BareMove → Option BareConfig
  | [] => some c
  | .call op :: ms => play cp tok ⟨c.mi, c.calls ++ [⟨op, op.start tok⟩]⟩ ms
  | .go t :: ms =>
    match c.calls[t]? with
    | none => none
    | some x =>
      match x.stage.step cp tok c.mi with
      | none => none
      | some (mi', s') => play cp tok ⟨mi', c.calls.set t ⟨x.op, s'⟩⟩ ms

end Visigoth
