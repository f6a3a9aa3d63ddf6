import Verif.Model.GoString
import Verif.Model.GoMap
/-!
# Text analysis  (`analyze_*.go`)
-/
namespace Visigoth

/-- `Tokenizer` (analyze_lowercase_filter.go:5-7), also `tokenizer` (index_index.go:5-7).  All
implementations in the package are pure while nobody changes the stop-word maps and filter slices they refer to
(`Model/AnalyzeMem.lean`), so a tokenizer is a function. -/
abbrev Tokenizer := Str → List Str

/-- `Filter` (analyze_lowercase_filter.go:9-11); pure for the same reason. -/
abbrev Filter := List Str → List Str

/-- `CleanTokenizer` (analyze_clean_tokenizer.go:10-12). -/
structure CleanTokenizer where
  fns : List (Rune → Bool)

/-- `CleanTokenizer.register` (analyze_clean_tokenizer.go:14-16). -/
def CleanTokenizer.register (c : CleanTokenizer) (fn : Rune → Bool) : CleanTokenizer :=
  { c with fns := c.fns ++ [fn] }

/-- The callback passed to `FieldsFunc` (analyze_clean_tokenizer.go:19-26): `false` as soon as one
registered function accepts the rune, `true` (separator) otherwise. -/
def isSepLoop : List (Rune → Bool) → Rune → Bool
  | [], _ => true
  | fn :: fns, r => if fn r then false else isSepLoop fns r

/-- `CleanTokenizer.Tokenize` (analyze_clean_tokenizer.go:18-27). -/
def CleanTokenizer.tokenize (c : CleanTokenizer) : Tokenizer :=
  fun text => fieldsFunc text (isSepLoop c.fns)

/-- `NewCleanTokenizer` (analyze_clean_tokenizer.go:29-35). -/
def newCleanTokenizer (fns : List (Rune → Bool)) : CleanTokenizer :=
  fns.foldl CleanTokenizer.register { fns := [] }

/-- `NewKeepAlphanumericTokenizer` (analyze_clean_tokenizer.go:37-43).  `isNumber`, `isLetter` model
`unicode.IsNumber`, `unicode.IsLetter`. -/
def newKeepAlphanumericTokenizer (isNumber isLetter : Rune → Bool) : CleanTokenizer :=
  CleanTokenizer.register { fns := [] } (fun r => isNumber r || isLetter r)

/-- `TokenizationPipeline` (analyze_compose.go:3-6). -/
structure TokenizationPipeline where
  tokenizer : Tokenizer
  filters : List Filter

/-- `TokenizationPipeline.Tokenize` (analyze_compose.go:8-14). -/
def TokenizationPipeline.tokenize (p : TokenizationPipeline) : Tokenizer := fun text =>
  p.filters.foldl (fun res filter => filter res) (p.tokenizer text)

/-- `NewTokenizationPipeline` (analyze_compose.go:16-21). -/
def newTokenizationPipeline (t : Tokenizer) (f : List Filter) : TokenizationPipeline :=
  { tokenizer := t, filters := f }

/-- `LowerCaseFilter.Filter` (analyze_lowercase_filter.go:15-21).  The loop assigns `r[i]` for every
`i`, i.e. maps. -/
def lowerCaseFilter (uni : Rune → Rune) : Filter := fun tokens =>
  tokens.map fun token => toLower uni token

/-- `SpanishStemmerFilter.Filter` (analyze_stem_filter.go:9-15).  `stem` models
`snowballSpanish.Stem(word, flag)`, which is not in the repository. -/
def spanishStemmerFilter (stem : Str → Bool → Str) (removeStopWords : Bool) : Filter := fun tokens =>
  tokens.foldl (fun r token => r ++ [stem token removeStopWords]) []

/-- `StopWords` (analyze_stopwords_filter.go:3): `map[string]struct{}`. -/
abbrev StopWords := GoMap Str Unit

/-- `StopWordsFilter.Filter` (analyze_stopwords_filter.go:15-25). -/
def stopWordsFilter (sw : StopWords) : Filter := fun tokens =>
  tokens.foldl (fun r tok => match sw.get tok with
    | some _ => r
    | none => r ++ [tok]) []

end Visigoth
