import Verif.Model.Bare
import Verif.Spec.Index
/-!
# What is expected of calls on one index
-/
namespace Visigoth

/-- The loop over the documents of an index that does not change. -/
def eachDoc (ix : Indexer) (body : Doc → List SearchResult) : Nat → Nat → List SearchResult → Option (List SearchResult)
  | 0, _, acc => some acc
  | f + 1, i, acc =>
    match ix.document i with
    | none => none
    | some doc => eachDoc ix body f (i + 1) (acc ++ body doc)

/-- The value of an engine program on an index that does not change (`none`: it panics). -/
def EngProg.value (ix : Indexer) : EngProg → Option (List SearchResult)
  | .ret l => some l
  | .len k => (k ix.len).value ix
  | .indexed t k => (k (ix.indexed t)).value ix
  | .document i k =>
    match ix.document i with
    | none => none
    | some doc => (k doc).value ix
  | .each i acc body k =>
    match eachDoc ix body (ix.len - i) i acc with
    | none => none
    | some l => (k l).value ix
  | .eachAt i acc body k =>
    match ix.document i with
    | none => none
    | some doc =>
      match eachDoc ix body (ix.len - (i + 1)) (i + 1) (acc ++ body doc) with
      | none => none
      | some l => (k l).value ix

/-- The requests of the `Put`s among the calls. -/
def putRequests (calls : List BareCall) : List DocRequest :=
  calls.filterMap fun x => match x.op with
    | .put d => some d
    | .search .. => none

def BareOp.isPut : BareOp → Bool
  | .put _ => true
  | .search .. => false

/-- No `Put` is under way together with another call. -/
def BareConfig.apart (c : BareConfig) : Prop :=
  ∀ (t u : Nat) (x y : BareCall), t ≠ u → c.calls[t]? = some x → c.calls[u]? = some y → x.op.isPut = true → x.stage.running = true →
    y.stage.running = false

/-- Executions in which no `Put` is ever under way together with another call. -/
inductive ApartSteps (cp : CopyFn) (tok : Tokenizer) : BareConfig → BareConfig → Prop
  | refl (c : BareConfig) : ApartSteps cp tok c c
  | tail {c c' c'' : BareConfig} (h : ApartSteps cp tok c c') (hs : BareStep cp tok c' c'') (ha : c''.apart) : ApartSteps cp tok c c''

/-- The two fields of an index. -/
inductive Field where
  | docs
  | inverted
deriving DecidableEq

/-- The field the next access of a call reads. -/
def BareStage.reads : BareStage → Option Field
  | .putLen _ | .putRead .. => some .docs
  | .putLoop _ (_ :: _) => some .inverted
  | .engine (.len _) | .engine (.document ..) | .engine (.each ..) | .engine (.eachAt ..) => some .docs
  | .engine (.indexed ..) => some .inverted
  | _ => none

/-- The field the next access of a call writes. -/
def BareStage.writes : BareStage → Option Field
  | .putWrite .. => some .docs
  | .putPost .. => some .inverted
  | _ => none

/-- Two calls are about to access the same field, and one of them writes it. -/
def BareConfig.races (c : BareConfig) : Prop :=
  ∃ (t u : Nat) (x y : BareCall) (f : Field), t ≠ u ∧ c.calls[t]? = some x ∧ c.calls[u]? = some y ∧ x.stage.writes = some f ∧
    (y.stage.writes = some f ∨ y.stage.reads = some f)

/-- The index has exactly the documents of the requests, in order, filed under exactly their tokens. -/
def MemoryIndex.holds (tok : Tokenizer) (mi : MemoryIndex) (rs : List DocRequest) : Prop :=
  mi.docs = rs.map docOf ∧
    ∀ t i, i ∈ (mi.inverted.get t).getD [] ↔ ∃ r, rs[i]? = some r ∧ t ∈ tok r.statement

/-- Full statement of C82: in every execution, when no call is under way, the index has the documents of all
the `Put`s, in some order. -/
def BareSafe (cp : CopyFn) (tok : Tokenizer) : Prop :=
  ∀ name c, BareSteps cp tok (.init name) c → (∀ x ∈ c.calls, x.stage.running = false) →
    ∃ rs, rs.Perm (putRequests c.calls) ∧ c.mi.holds tok rs

end Visigoth
