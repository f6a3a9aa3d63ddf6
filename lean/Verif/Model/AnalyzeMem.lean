import Verif.Model.Index
/-!
# Analyzers with the memory they share with their callers  (`analyze_*.go`)

A `StopWordsFilter` keeps the map it is given, and `SpanishStopWords` is exported; a pipeline called as
`NewTokenizationPipeline(t, fs...)` keeps the slice `fs`.  Here both are memory that callers may change.

Simplification: filters and tokenizers of other packages are pure functions; maps and arrays are changed between calls of
`Tokenize`, not during them.
-/
namespace Visigoth

/-- A filter value. -/
inductive FilterRef where
  | lowerCase                       -- `LowerCaseFilter` (analyze_lowercase_filter.go:13)
  | stopWords (words : Nat)         -- `StopWordsFilter` (analyze_stopwords_filter.go:11-13), with the map it refers to
  | stemmer (removeStopWords : Bool)  -- `SpanishStemmerFilter` (analyze_stem_filter.go:5-7)
  | other (f : Filter)              -- of another package

/-- The stop-word maps, and the backing arrays of slices of filters. -/
structure AnalyzeMem where
  words : List StopWords
  arrays : List (List FilterRef)

/-- A tokenizer value: one that refers to no memory, or a `*TokenizationPipeline` (analyze_compose.go:3-6), whose
filters are the slice of length `len` that begins at `off` in an array. -/
inductive TokenizerRef where
  | fixed (t : Tokenizer)
  | pipeline (t : TokenizerRef) (arr off len : Nat)

/-- A map of stop words. -/
def AnalyzeMem.wordsAt (m : AnalyzeMem) (p : Nat) : StopWords := (m.words[p]?).getD []

/-- The filters in a slice. -/
def AnalyzeMem.filters (m : AnalyzeMem) (arr off len : Nat) : List FilterRef := (((m.arrays[arr]?).getD []).drop off).take len

/-- What the package does not contain: `unicode.ToLower` and `snowballSpanish.Stem`. -/
structure AnalyzeEnv where
  uni : Rune → Rune
  stem : Str → Bool → Str

/-- `Filter` of a filter value (analyze_lowercase_filter.go:15-21, analyze_stopwords_filter.go:15-25,
analyze_stem_filter.go:9-15): the map is read when it is called. -/
def FilterRef.filter (env : AnalyzeEnv) (m : AnalyzeMem) : FilterRef → Filter
  | .lowerCase => lowerCaseFilter env.uni
  | .stopWords p => stopWordsFilter (m.wordsAt p)
  | .stemmer flag => spanishStemmerFilter env.stem flag
  | .other f => f

/-- `Tokenize` of a tokenizer value (analyze_compose.go:8-14): the slice of filters is read when it is called. -/
def TokenizerRef.tokenize (env : AnalyzeEnv) (m : AnalyzeMem) : TokenizerRef → Tokenizer
  | .fixed t => t
  | .pipeline t arr off len =>
    (newTokenizationPipeline (t.tokenize env m) ((m.filters arr off len).map (FilterRef.filter env m))).tokenize

/-- `NewTokenizationPipeline(t, fs...)` (analyze_compose.go:16-21): the slice is kept. -/
def newPipelineSpread (t : TokenizerRef) (arr off len : Nat) : TokenizerRef := .pipeline t arr off len

/-- `NewTokenizationPipeline(t, f1, f2, …)` (analyze_compose.go:16-21): the compiler allocates an array. -/
def newPipelineArgs (m : AnalyzeMem) (t : TokenizerRef) (fs : List FilterRef) : TokenizerRef × AnalyzeMem :=
  (.pipeline t m.arrays.length 0 fs.length, { m with arrays := m.arrays ++ [fs] })

/-- What a caller may do: `sw[w] = struct{}{}`, `delete(sw, w)` and `fs[k] = f`. -/
inductive AnalyzeWrite where
  | addWord (p : Nat) (w : Str)
  | delWord (p : Nat) (w : Str)
  | setFilter (arr k : Nat) (f : FilterRef)

/-- One of these statements. -/
def AnalyzeWrite.apply (m : AnalyzeMem) : AnalyzeWrite → AnalyzeMem
  | .addWord p w => { m with words := m.words.modify p fun sw => sw.set w () }
  | .delWord p w => { m with words := m.words.modify p fun sw => sw.delete w }
  | .setFilter arr k f => { m with arrays := m.arrays.modify arr fun a => a.set k f }

/-- Several of them. -/
def AnalyzeMem.after (m : AnalyzeMem) (ws : List AnalyzeWrite) : AnalyzeMem := ws.foldl AnalyzeWrite.apply m

/-- An index after a history of `Put` calls (index_memory_index.go:44-60) with a tokenizer that may answer differently
at each call. -/
def buildMixed (name : Str) (h : List (Tokenizer × DocRequest)) : MemoryIndex :=
  h.foldl (fun mi e => mi.put e.1 e.2) (newMemoryIndex name)

end Visigoth
