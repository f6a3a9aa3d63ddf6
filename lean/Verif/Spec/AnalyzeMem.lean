import Verif.Model.AnalyzeMem
/-!
# What an analyzer refers to, and what an index finds if it changes
-/
namespace Visigoth

/-- The tokenizer reads this array of filters. -/
def TokenizerRef.readsArray : TokenizerRef → Nat → Prop
  | .fixed _, _ => False
  | .pipeline t arr _ _, a => a = arr ∨ t.readsArray a

/-- The tokenizer reads this place of this array of filters. -/
def TokenizerRef.readsCell : TokenizerRef → Nat → Nat → Prop
  | .fixed _, _, _ => False
  | .pipeline t arr off len, a, k => (a = arr ∧ off ≤ k ∧ k < off + len) ∨ t.readsCell a k

/-- The tokenizer reads this map of stop words. -/
def TokenizerRef.readsWords (m : AnalyzeMem) : TokenizerRef → Nat → Prop
  | .fixed _, _ => False
  | .pipeline t arr off len, p => (∃ f ∈ m.filters arr off len, f = .stopWords p) ∨ t.readsWords m p

/-- The write changes memory the tokenizer reads. -/
def AnalyzeWrite.touches (m : AnalyzeMem) (t : TokenizerRef) : AnalyzeWrite → Prop
  | .addWord p _ => t.readsWords m p
  | .delWord p _ => t.readsWords m p
  | .setFilter arr k _ => t.readsCell arr k

/-- All filters are of this package. -/
def TokenizerRef.ownFilters (m : AnalyzeMem) : TokenizerRef → Prop
  | .fixed _ => True
  | .pipeline t arr off len => (∀ x ∈ m.filters arr off len, ∀ f, x ≠ .other f) ∧ t.ownFilters m

/-- The documents that had all these tokens when they were put, in order. -/
def mixedResults (h : List (Tokenizer × DocRequest)) (tokens : List Str) : List SearchResult :=
  if tokens = [] then []
  else (h.filter fun e => tokens.all fun t => decide (t ∈ e.1 e.2.statement)).map fun e =>
    { document := { name := e.2.name, content := e.2.content }, hits := tokens.length }

end Visigoth
