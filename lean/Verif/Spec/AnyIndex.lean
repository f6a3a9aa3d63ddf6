import Verif.Model.AnyIndex
import Verif.Spec.Fine
import Verif.Spec.Contents
/-!
# A repository of any indexes as a repository of memory indexes

A request is written into the content of a document, and an engine reads the requests back and does what the
index would have done.
-/
namespace Visigoth

/-- Bytes with an end mark. -/
def packStr : Str → Str
  | [] => [0]
  | b :: s => 1 :: b :: packStr s

def packRequest (d : DocRequest) : Str :=
  packStr d.name ++ packStr d.content ++ packStr d.statement ++ [d.mime]

/-- Read the first packed string, and what follows. -/
def unpackStr : Str → Str × Str
  | 1 :: b :: s => (b :: (unpackStr s).1, (unpackStr s).2)
  | _ :: s => ([], s)
  | [] => ([], [])

def unpackRequest (s : Str) : DocRequest :=
  let a := unpackStr s
  let b := unpackStr a.2
  let c := unpackStr b.2
  { name := a.1, content := b.1, statement := c.1, mime := c.2.headD 0 }

/-- The index the builder makes for the name, after these requests. -/
def IndexImpl.after {σ : Type} (I : IndexImpl σ) (name : Name) (ds : List DocRequest) : σ :=
  ds.foldl I.put (I.make name)

/-- The search of an index as an engine: the documents it is given say which requests made the index, and the
first of them has the name the index was made for. -/
def IndexImpl.asEngine {σ : Type} (I : IndexImpl σ) (terms : Str) (e : Engine) : Engine := fun _ ix =>
  match (List.range ix.len).filterMap ix.document with
  | [] => none
  | d :: ds => I.search (I.after d.name ((d :: ds).map fun d => unpackRequest d.content)) terms e

/-- The request that stands for a request in a `Put` with this name. -/
def disguised (n : Name) (d : DocRequest) : DocRequest :=
  { name := n, content := packRequest d, statement := [], mime := 0 }

/-- The call of the repository of memory indexes: the same method with the same names. -/
def Op.disguise {σ : Type} (I : IndexImpl σ) : Op → Op
  | .put n d => .put n (disguised n d)
  | .search n terms e => .search n terms (I.asEngine terms e)
  | op => op

def Sched.disguise {σ : Type} (I : IndexImpl σ) : Sched → Sched
  | .go t => .go t
  | .call op o => .call (op.disguise I) o

def Op.isString : Op → Bool
  | .string => true
  | _ => false

/-- The schedule makes no call of `String`. -/
def NoString (xs : List Sched) : Prop := ∀ op o, Sched.call op o ∈ xs → op.isString = false

def IThread.status (x : IThread) : Status :=
  match x.prog with
  | .ret r => .returned r
  | .crash e => .crashed e
  | .act _ _ => .running

/-- Two repositories look the same from outside: names and aliases, holders of the mutexes, number of index
objects; what became of every call. -/
structure LooksLike {σ : Type} (c : IConfig σ) (c' : Config) : Prop where
  indices : c.sh.sh.indices = c'.sh.indices
  aliases : c.sh.sh.aliases = c'.sh.aliases
  arrays : c.sh.sh.arrays = c'.sh.arrays
  imu : c.sh.sh.imu = c'.sh.imu
  amu : c.sh.sh.amu = c'.sh.amu
  objs : c.sh.objs.length = c'.sh.heap.length
  calls : c.calls.map IThread.status = c'.calls.map Thread.status

/-- Two repositories look the same from outside. -/
structure SameOutside {σ τ : Type} (c : IConfig σ) (d : IConfig τ) : Prop where
  indices : c.sh.sh.indices = d.sh.sh.indices
  aliases : c.sh.sh.aliases = d.sh.sh.aliases
  arrays : c.sh.sh.arrays = d.sh.sh.arrays
  imu : c.sh.sh.imu = d.sh.sh.imu
  amu : c.sh.sh.amu = d.sh.sh.amu
  objs : c.sh.objs.length = d.sh.objs.length
  calls : c.calls.map IThread.status = d.calls.map IThread.status

/-- Indexes with the same history answer alike, once they have a document. -/
def SameAnswers {σ τ : Type} (I : IndexImpl σ) (J : IndexImpl τ) : Prop :=
  ∀ n d ds terms e, I.search (I.after n (d :: ds)) terms e = J.search (J.after n (d :: ds)) terms e

/-- The index object the call is about to `Put` to, or to `Search`. -/
def IThread.puts (x : IThread) : Option Ptr :=
  match x.prog with
  | .act (.put p _) _ => some p
  | _ => none

def IThread.searches (x : IThread) : Option Ptr :=
  match x.prog with
  | .act (.search p _ _) _ => some p
  | _ => none

/-- The same program with the methods of the memory index (index_memory_index.go:44-64) written out, as in
`Model/Repo.lean`. -/
def IProg.withMemory {α : Type} (cfg : Cfg) : IProg α → Prog α
  | .ret a => .ret a
  | .crash c => .crash c
  | .act (.plain a) k => .act a fun b => (k b).withMemory cfg
  | .act (.make m) k => .act (.newIndex m) fun p => (k p).withMemory cfg
  | .act (.put p d) k => (Repo.putIndex cfg p d).bind fun _ => (k ()).withMemory cfg
  | .act (.search p terms e) k => .act (.evalEngine p terms e) fun r => (k r).withMemory cfg

end Visigoth
