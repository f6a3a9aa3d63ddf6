import Verif.Model.Index
/-!
# What `Put` does, step by step

`MemoryIndex.Put` again, now counting the iterations of its inner loop, which looks for the new document
among the positions a token already has.  That the index comes out the same is a theorem
(`Proofs/PutCost.lean`).  Not counted: the work of the tokenizer, of the map and of `append`.
-/
namespace Visigoth

/-- The inner loop (index_memory_index.go:52-56): the iterations made, and whether the loop ended with
`continue tokenLoop`. -/
def scanPostings (next : Nat) : List Nat → Nat × Bool
  | [] => (0, false)
  | docIndex :: rest =>
    if docIndex = next then (1, true)
    else ((scanPostings next rest).1 + 1, (scanPostings next rest).2)

/-- One iteration of the token loop (index_memory_index.go:50-58), with the iterations made so far. -/
def addPostingC (next : Nat) (s : GoMap Str (List Nat) × Nat) (tok : Str) : GoMap Str (List Nat) × Nat :=
  let indexedDocs := (s.1.get tok).getD []
  match scanPostings next indexedDocs with
  | (n, true) => (s.1, s.2 + n)
  | (n, false) => (s.1.set tok (indexedDocs ++ [next]), s.2 + n)

/-- `MemoryIndex.Put` (index_memory_index.go:44-60) with the iterations of its inner loop. -/
def MemoryIndex.putC (tok : Tokenizer) (s : MemoryIndex × Nat) (payload : DocRequest) : MemoryIndex × Nat :=
  let tokens := tok payload.statement
  let next := s.1.docs.length
  let out := tokens.foldl (addPostingC next) (s.1.inverted, s.2)
  ({ s.1 with docs := s.1.docs ++ [newDoc payload.id payload.raw], inverted := out.1 }, out.2)

/-- The index after a history of `Put` calls on a new index, and the iterations of all the inner loops. -/
def buildIndexC (tok : Tokenizer) (name : Str) (rs : List DocRequest) : MemoryIndex × Nat :=
  rs.foldl (MemoryIndex.putC tok) (newMemoryIndex name, 0)

end Visigoth
