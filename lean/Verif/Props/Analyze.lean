import Verif.Proofs.Analyze
/-!
# Properties of the text analysis (C01–C07, C09)
-/
namespace Visigoth

/-- A rune is kept when one of the registered functions accepts it. -/
def CleanTokenizer.keeps (c : CleanTokenizer) (r : Rune) : Bool := c.fns.any fun f => f r

/-- Test tokenizer keeping the ASCII letters and digits, and `é`. -/
def sampleKeep (r : Rune) : Bool :=
  (0x30 ≤ r && r ≤ 0x39) || (0x41 ≤ r && r ≤ 0x5A) || (0x61 ≤ r && r ≤ 0x7A) || r == 0xE9

/-! ## C01 -/

/-- The tokens are the unique decomposition of the text into maximal runs of kept characters. -/
theorem C01_tokens_are_maximal_runs (c : CleanTokenizer) (text : Str) :
    ∃ toks, c.tokenize text = toks.map bytesOf ∧
      IsTokenization c.keeps (chars text) toks ∧
      ∀ toks', IsTokenization c.keeps (chars text) toks' → toks' = toks :=
  ⟨_, tokenize_eq c text, splitChars_isTokenization _ _, fun _ h => splitChars_unique _ _ _ h⟩

/-- Read back as strings, tokens are non-empty and made of kept characters only. -/
theorem C01_token_characters_are_kept (c : CleanTokenizer) (text tok : Str)
    (h : tok ∈ c.tokenize text) : tok ≠ [] ∧ ∀ r ∈ runesOf tok, c.keeps r = true := by
  obtain ⟨toks, h1, h2, -⟩ := C01_tokens_are_maximal_runs c text
  rw [h1] at h
  obtain ⟨t, ht, rfl⟩ := List.mem_map.1 h
  have hch := chars_token c.keeps text toks h2 t ht
  obtain ⟨lead, seps, -, -, -, h3, -, -⟩ := h2
  refine ⟨?_, ?_⟩
  · intro hnil
    rw [hnil] at hch
    exact (h3 t ht).1 hch.symm
  · intro r hr
    rw [runesOf_eq, hch] at hr
    obtain ⟨x, hx, rfl⟩ := List.mem_map.1 hr
    exact (h3 t ht).2 x hx

/-- `NewKeepAlphanumericTokenizer` keeps exactly numbers and letters. -/
theorem C01_alphanumeric_keeps (isNumber isLetter : Rune → Bool) (r : Rune) :
    (newKeepAlphanumericTokenizer isNumber isLetter).keeps r = (isNumber r || isLetter r) := by
  simp [newKeepAlphanumericTokenizer, CleanTokenizer.keeps, CleanTokenizer.register]

/-- The characters of a text are given by UTF-8: the first character of a non-empty text is the
rune whose encoding the text starts with, or a single malformed byte read as U+FFFD. -/
theorem C01_characters_are_utf8 (s : Str) (hs : s ≠ []) :
    (∃ r, IsScalar r ∧ ∃ rest, s = encodeRune r ++ rest ∧
        chars s = (r, encodeRune r) :: chars rest) ∨
    ((¬ ∃ r rest, IsScalar r ∧ s = encodeRune r ++ rest) ∧
        ∃ b rest, s = b :: rest ∧ chars s = (runeError, [b]) :: chars rest) := by
  rcases decodeRune_spec s hs with ⟨r, hr, ⟨t, rfl⟩, hd⟩ | ⟨hn, hd⟩
  · left
    refine ⟨r, hr, t, rfl, ?_⟩
    cases h : encodeRune r ++ t with
    | nil => simp [encodeRune_ne_nil] at h
    | cons b s => rw [chars_cons, ← h, hd]; simp
  · right
    refine ⟨?_, ?_⟩
    · rintro ⟨r, rest, hr, rfl⟩
      exact hn ⟨r, hr, rest, rfl⟩
    · cases s with
      | nil => exact absurd rfl hs
      | cons b s => exact ⟨b, s, rfl, by rw [chars_cons, hd]; simp⟩

example : (newCleanTokenizer [sampleKeep]).tokenize "¿Qué tal, Java8?".toUTF8.toList
    = ["Qué".toUTF8.toList, "tal".toUTF8.toList, "Java8".toUTF8.toList] := by decide +kernel
-- a lone continuation byte is one malformed character
example : (newCleanTokenizer [fun r => r == 0xFFFD]).tokenize [0x61, 0x80, 0xE2, 0x82, 0x62]
    = [[0x80, 0xE2, 0x82]] := by decide +kernel

/-! ## C02 -/

theorem C02_concatenated_tokens (c : CleanTokenizer) (text : Str) :
    (c.tokenize text).flatten = bytesOf ((chars text).filter fun ch => c.keeps ch.1) := by
  rw [tokenize_eq]
  have h := (splitChars_flatten c.keeps (chars text)).2
  unfold CleanTokenizer.keeps at h ⊢
  rw [← h]
  simp [bytesOf, List.flatMap, List.flatten_flatten]
  rfl

/-- The characters of a text, put together again, are the text. -/
theorem C02_characters_cover_the_text (text : Str) : bytesOf (chars text) = text := chars_flatten text

theorem C02_keep_everything (c : CleanTokenizer) (h : ∀ r, c.keeps r = true) (text : Str) :
    c.tokenize text = if text = [] then [] else [text] := by
  rw [tokenize_eq]
  have hf : ∀ ch ∈ chars text, (!(c.fns.any fun f => f ch.1)) = false := by
    intro ch _
    have := h ch.1
    unfold CleanTokenizer.keeps at this
    rw [this]; rfl
  split
  · next h0 => subst h0; rfl
  · next h0 =>
    have hne : chars text ≠ [] := by
      intro he
      have := chars_flatten text
      rw [he] at this
      exact h0 this.symm
    have := splitChars_tok (fun r => !(c.fns.any fun f => f r)) (chars text) [] hne hf
    rw [List.append_nil] at this
    rw [this]
    simp [splitChars, chars_flatten]

example : ∃ c : CleanTokenizer, ∀ r, c.keeps r = true :=
  ⟨newCleanTokenizer [fun _ => true], fun _ => rfl⟩

/-! ## C03 -/

theorem C03_union (fns : List (Rune → Bool)) (r : Rune) :
    (newCleanTokenizer fns).keeps r = true ↔ ∃ f ∈ fns, f r = true := by
  unfold CleanTokenizer.keeps
  rw [newCleanTokenizer_fns, List.any_eq_true]

/-- What a tokenizer does is determined by the characters it keeps. -/
theorem C03_determined_by_kept (c c' : CleanTokenizer) (h : ∀ r, c.keeps r = c'.keeps r) (text : Str) :
    c.tokenize text = c'.tokenize text := by
  rw [tokenize_eq, tokenize_eq]
  unfold CleanTokenizer.keeps at h
  simp only [h]

theorem C03_no_predicate (text : Str) : (newCleanTokenizer []).tokenize text = [] := by
  rw [tokenize_eq, newCleanTokenizer_fns]
  have := splitChars_seps (fun r => !(([] : List (Rune → Bool)).any fun f => f r)) (chars text) []
    (by intro c _; rfl)
  rw [List.append_nil] at this
  rw [this]; rfl

theorem C03_order_irrelevant (fns fns' : List (Rune → Bool)) (h : fns.Perm fns') (text : Str) :
    (newCleanTokenizer fns).tokenize text = (newCleanTokenizer fns').tokenize text := by
  apply C03_determined_by_kept
  intro r
  rw [Bool.eq_iff_iff, C03_union, C03_union]
  constructor
  · rintro ⟨f, hf, hr⟩; exact ⟨f, h.mem_iff.1 hf, hr⟩
  · rintro ⟨f, hf, hr⟩; exact ⟨f, h.mem_iff.2 hf, hr⟩

example : (newCleanTokenizer [fun r => r == 0x61, fun r => r == 0x62]).tokenize "xabbay".toUTF8.toList
    = ["abba".toUTF8.toList] := by decide +kernel

/-! ## C04 -/

theorem C04_no_filter (t : Tokenizer) (text : Str) :
    (newTokenizationPipeline t []).tokenize text = t text := rfl

/-- The first filter sees the tokenizer's output, the others see what it returns. -/
theorem C04_first_filter_first (t : Tokenizer) (f : Filter) (fs : List Filter) (text : Str) :
    (newTokenizationPipeline t (f :: fs)).tokenize text
      = (newTokenizationPipeline (fun x => f (t x)) fs).tokenize text := rfl

/-- The last filter is applied last. -/
theorem C04_last_filter_last (t : Tokenizer) (f : Filter) (fs : List Filter) (text : Str) :
    (newTokenizationPipeline t (fs ++ [f])).tokenize text
      = f ((newTokenizationPipeline t fs).tokenize text) := by
  simp [newTokenizationPipeline, TokenizationPipeline.tokenize]

theorem C04_nesting (t : Tokenizer) (fs gs : List Filter) (text : Str) :
    (newTokenizationPipeline (newTokenizationPipeline t fs).tokenize gs).tokenize text
      = (newTokenizationPipeline t (fs ++ gs)).tokenize text := by
  simp [newTokenizationPipeline, TokenizationPipeline.tokenize]

-- the order of non-commuting filters matters
example : (newTokenizationPipeline (fun t => [t]) [fun ts => ts ++ ts, List.drop 1]).tokenize [1] = [[1]] ∧
    (newTokenizationPipeline (fun t => [t]) [List.drop 1, fun ts => ts ++ ts]).tokenize [1] = [] := by
  decide

/-! ## C05 -/

/-- One output token per input token, at the same position. -/
theorem C05_one_to_one (uni : Rune → Rune) (tokens : List Str) :
    (lowerCaseFilter uni tokens).length = tokens.length ∧
    ∀ i (hi : i < tokens.length), (lowerCaseFilter uni tokens)[i]? = some (toLower uni tokens[i]) := by
  refine ⟨by simp [lowerCaseFilter], fun i hi => ?_⟩
  simp [lowerCaseFilter, hi]

/-- Every output token spells the lower-case forms of the characters of its input token; malformed
bytes (which read as U+FFFD) are written as U+FFFD. -/
theorem C05_lowercases_each_character (uni : Rune → Rune) (hu : CaseTable uni) (tokens : List Str) :
    lowerCaseFilter uni tokens
      = tokens.map fun tok => ((chars tok).map fun ch => encodeRune (uni ch.1)).flatten := by
  unfold lowerCaseFilter
  apply List.map_congr_left
  intro tok _
  rw [toLower_eq uni hu, runesOf_eq]
  simp [List.flatMap, List.map_map, Function.comp_def]

/-- The output is valid UTF-8 and its characters are the lower-cased characters of the input. -/
theorem C05_output_characters (uni : Rune → Rune) (hu : CaseTable uni) (tok : Str) :
    lowerCaseFilter uni [tok] = [toLower uni tok] ∧ ValidUTF8 (toLower uni tok) ∧
      runesOf (toLower uni tok) = (runesOf tok).map uni := by
  refine ⟨rfl, ⟨(runesOf tok).map uni, ?_, ?_⟩, runesOf_toLower uni hu tok⟩
  · intro r hr
    obtain ⟨q, hq, rfl⟩ := List.mem_map.1 hr
    exact hu.scalar q (runesOf_scalar tok q hq)
  · rw [toLower_eq uni hu, List.flatMap_map]

theorem C05_idempotent (uni : Rune → Rune) (hu : CaseTable uni) (tokens : List Str) :
    lowerCaseFilter uni (lowerCaseFilter uni tokens) = lowerCaseFilter uni tokens := by
  unfold lowerCaseFilter
  rw [List.map_map]
  apply List.map_congr_left
  intro tok _
  exact toLower_toLower uni hu tok

/-- A case table: ASCII letters and the Latin-1 letters `À`–`Þ`. -/
def sampleLower (r : Nat) : Nat :=
  if 0x41 ≤ r ∧ r ≤ 0x5A then r + 0x20
  else if 0xC0 ≤ r ∧ r ≤ 0xDE ∧ r ≠ 0xD7 then r + 0x20 else r

/-- The hypothesis of the C05 theorems is satisfiable. -/
theorem sampleLower_caseTable : CaseTable sampleLower where
  ascii := by
    intro r hr
    unfold sampleLower
    split
    · rfl
    · rw [if_neg (by omega)]
  scalar := by
    intro r hr
    unfold IsScalar at *
    unfold sampleLower
    split
    · omega
    · split <;> omega
  idem := by
    intro r
    unfold sampleLower
    split
    · rw [if_neg (by omega), if_neg (by omega)]
    · split
      · rw [if_neg (by omega), if_neg (by omega)]
      · rfl
  err := by simp [sampleLower, runeError]

example : lowerCaseFilter sampleLower ["JaVA".toUTF8.toList, "ÉXITO".toUTF8.toList, [0xFF, 0x41]]
    = ["java".toUTF8.toList, "éxito".toUTF8.toList, [0xEF, 0xBF, 0xBD, 0x61]] := by decide +kernel

/-! ## C06 -/

theorem C06_removes_exactly_the_stop_words (sw : StopWords) (tokens : List Str) :
    stopWordsFilter sw tokens = tokens.filter fun t => decide (t ∉ sw.keys) := by
  have := stopWords_foldl sw tokens []
  rw [List.nil_append] at this
  exact this

/-- Multiplicities: stop words are gone, every other token occurs as often as before. -/
theorem C06_multiplicity (sw : StopWords) (tokens : List Str) (t : Str) :
    (stopWordsFilter sw tokens).count t = if t ∈ sw.keys then 0 else tokens.count t := by
  rw [C06_removes_exactly_the_stop_words]
  split
  · next h => rw [List.count_eq_zero]; simp [h]
  · next h => rw [List.count_filter]; simp [h]

/-- The relative order of the tokens is kept. -/
theorem C06_order_kept (sw : StopWords) (tokens : List Str) :
    (stopWordsFilter sw tokens).Sublist tokens := by
  rw [C06_removes_exactly_the_stop_words]; exact List.filter_sublist

theorem C06_idempotent (sw : StopWords) (tokens : List Str) :
    stopWordsFilter sw (stopWordsFilter sw tokens) = stopWordsFilter sw tokens := by
  simp only [C06_removes_exactly_the_stop_words]
  rw [List.filter_filter]
  simp

example : stopWordsFilter [([1], ()), ([2, 2], ())] [[3], [1], [2], [2, 2], [3], [1]]
    = [[3], [2], [3]] := by decide

/-! ## C07 -/

theorem C07_one_output_per_token (stem : Str → Bool → Str) (flag : Bool) (tokens : List Str) :
    spanishStemmerFilter stem flag tokens = tokens.map fun t => stem t flag := by
  unfold spanishStemmerFilter
  rw [foldl_push]; rfl

/-- The `removeStopWords` flag never shortens the list. -/
theorem C07_flag_never_removes (stem : Str → Bool → Str) (flag : Bool) (tokens : List Str) :
    (spanishStemmerFilter stem flag tokens).length = tokens.length := by
  rw [C07_one_output_per_token, List.length_map]

/-- Every output token depends on the token at its position only. -/
theorem C07_pointwise (stem : Str → Bool → Str) (flag : Bool) (tokens tokens' : List Str) (i : Nat)
    (h : tokens[i]? = tokens'[i]?) :
    (spanishStemmerFilter stem flag tokens)[i]? = (spanishStemmerFilter stem flag tokens')[i]? := by
  rw [C07_one_output_per_token, C07_one_output_per_token, List.getElem?_map, List.getElem?_map, h]

example : spanishStemmerFilter (fun t b => if b then t.dropLast else t) true [[1, 2], [3]] = [[1], []] := by
  decide

/-! ## C09 -/

/-- The letters the table is written with: `a`–`z`, `á`, `é`, `í`, `ñ`, `ó`, `ú`. -/
def spanishLetters : List Rune :=
  (List.range 26).map (· + 0x61) ++ [0xE1, 0xE9, 0xED, 0xF1, 0xF3, 0xFA]

/-- What is assumed of the unicode tables here: the letters above are letters and lower case already,
the space is neither letter nor number, and only the space lower-cases to the space. -/
structure SpanishTables (keep : Rune → Bool) (uni : Rune → Rune) : Prop where
  case : CaseTable uni
  letters : ∀ r ∈ spanishLetters, keep r = true ∧ uni r = r
  space : keep 0x20 = false
  spaceLower : ∀ r, uni r = 0x20 → r = 0x20

theorem stopWords_table_letters :
    ∀ w ∈ spanishStopWords.keys, w ≠ "por qué".toUTF8.toList →
      w ≠ [] ∧ (∀ r ∈ runesOf w, r ∈ spanishLetters) ∧ (runesOf w).flatMap encodeRune = w := by
  decide +kernel

theorem porQue_in_table : "por qué".toUTF8.toList ∈ spanishStopWords.keys := by decide +kernel

theorem SpanishTables.word (keep : Rune → Bool) (uni : Rune → Rune) (h : SpanishTables keep uni)
    (w : Str) (hne : w ≠ []) (hl : ∀ r ∈ runesOf w, r ∈ spanishLetters)
    (hv : (runesOf w).flatMap encodeRune = w) :
    toLower uni w = w ∧ (newCleanTokenizer [keep]).tokenize w = [w] := by
  constructor
  · rw [toLower_eq uni h.case]
    conv => rhs; rw [← hv]
    simp only [List.flatMap]
    congr 1
    apply List.map_congr_left
    intro r hr
    rw [(h.letters r (hl r hr)).2]
  · rw [tokenize_eq, newCleanTokenizer_fns]
    have hf : ∀ ch ∈ chars w, (!(([keep] : List (Rune → Bool)).any fun f => f ch.1)) = false := by
      intro ch hch
      have : ch.1 ∈ runesOf w := by rw [runesOf_eq]; exact List.mem_map_of_mem hch
      simp [(h.letters _ (hl _ this)).1]
    have hne' : chars w ≠ [] := by
      intro he
      have := chars_flatten w
      rw [he] at this
      exact hne this.symm
    have := splitChars_tok (fun r => !(([keep] : List (Rune → Bool)).any fun f => f r)) (chars w) [] hne' hf
    rw [List.append_nil] at this
    rw [this]
    simp [splitChars, chars_flatten]

/-- Every entry except "por qué" is lower case and is a single token, so the pipeline of the README
(tokenizer, lower case, stop words) removes it. -/
theorem C09_entries_take_effect (keep : Rune → Bool) (uni : Rune → Rune) (h : SpanishTables keep uni)
    (w : Str) (hw : w ∈ spanishStopWords.keys) (hp : w ≠ "por qué".toUTF8.toList) :
    toLower uni w = w ∧ (newCleanTokenizer [keep]).tokenize w = [w] ∧
    (newTokenizationPipeline (newCleanTokenizer [keep]).tokenize
      [lowerCaseFilter uni, stopWordsFilter spanishStopWords]).tokenize w = [] := by
  obtain ⟨h1, h2, h3⟩ := stopWords_table_letters w hw hp
  obtain ⟨h4, h5⟩ := SpanishTables.word keep uni h w h1 h2 h3
  refine ⟨h4, h5, ?_⟩
  simp only [newTokenizationPipeline, TokenizationPipeline.tokenize, List.foldl_cons, List.foldl_nil]
  rw [h5, C06_removes_exactly_the_stop_words]
  simp [lowerCaseFilter, h4, hw]

/-- Every entry of the table, "por qué" included, is in lower case already. -/
theorem C09_entries_lower_case (keep : Rune → Bool) (uni : Rune → Rune) (h : SpanishTables keep uni)
    (w : Str) (hw : w ∈ spanishStopWords.keys) : toLower uni w = w := by
  by_cases hp : w = "por qué".toUTF8.toList
  · subst hp
    rw [toLower_eq uni h.case]
    have hr : ∀ r ∈ runesOf "por qué".toUTF8.toList, uni r = r := by
      have : ∀ r ∈ runesOf "por qué".toUTF8.toList, r ∈ spanishLetters ∨ r = 0x20 := by decide +kernel
      intro r hr
      rcases this r hr with g | g
      · exact (h.letters r g).2
      · subst g; rw [h.case.ascii _ (by decide)]; decide
    have hv : (runesOf "por qué".toUTF8.toList).flatMap encodeRune = "por qué".toUTF8.toList := by decide +kernel
    conv => rhs; rw [← hv]
    simp only [List.flatMap]
    congr 1
    apply List.map_congr_left
    intro r g
    rw [hr r g]
  · exact (C09_entries_take_effect keep uni h w hw hp).1

/-- The entry "por qué" never matches a token of any text. -/
theorem C09_por_que_is_dead (keep : Rune → Bool) (uni : Rune → Rune) (h : SpanishTables keep uni)
    (text : Str) :
    "por qué".toUTF8.toList ∉ lowerCaseFilter uni ((newCleanTokenizer [keep]).tokenize text) := by
  intro hm
  unfold lowerCaseFilter at hm
  obtain ⟨tok, htok, he⟩ := List.mem_map.1 hm
  have hk := (C01_token_characters_are_kept _ _ _ htok).2
  have h20 : (0x20 : Nat) ∈ runesOf (toLower uni tok) := by rw [he]; decide +kernel
  rw [runesOf_toLower uni h.case] at h20
  obtain ⟨r, hr, hr'⟩ := List.mem_map.1 h20
  have := h.spaceLower r hr'
  subst this
  have hk' := hk _ hr
  have : (newCleanTokenizer [keep]).keeps 0x20 = keep 0x20 := by
    simp [CleanTokenizer.keeps, newCleanTokenizer_fns]
  rw [this, h.space] at hk'
  exact absurd hk' (by simp)

/-- Removing the dead entry from the table changes the pipeline for no text. -/
theorem C09_por_que_can_be_removed (keep : Rune → Bool) (uni : Rune → Rune)
    (h : SpanishTables keep uni) (text : Str) :
    stopWordsFilter (spanishStopWords.delete "por qué".toUTF8.toList)
        (lowerCaseFilter uni ((newCleanTokenizer [keep]).tokenize text))
      = stopWordsFilter spanishStopWords
        (lowerCaseFilter uni ((newCleanTokenizer [keep]).tokenize text)) := by
  rw [C06_removes_exactly_the_stop_words, C06_removes_exactly_the_stop_words]
  apply List.filter_congr
  intro t ht
  have hne : t ≠ "por qué".toUTF8.toList := fun he => C09_por_que_is_dead keep uni h text (he ▸ ht)
  have : t ∈ GoMap.keys (spanishStopWords.delete "por qué".toUTF8.toList) ↔ t ∈ spanishStopWords.keys := by
    unfold GoMap.delete GoMap.keys
    simp only [List.mem_map, List.mem_filter]
    constructor
    · rintro ⟨e, ⟨h1, -⟩, h3⟩; exact ⟨e, h1, h3⟩
    · rintro ⟨e, h1, rfl⟩; exact ⟨e, ⟨h1, by simpa using hne⟩, rfl⟩
  rw [decide_eq_decide, this]

/-- The hypotheses on the unicode tables are satisfiable. -/
theorem sampleSpanishTables :
    SpanishTables (fun r => (0x61 ≤ r && r ≤ 0x7A) || (0xC0 ≤ r && r ≤ 0xFF)) sampleLower where
  case := sampleLower_caseTable
  letters := by decide +kernel
  space := by decide
  spaceLower := by
    intro (r : Nat) (h : sampleLower r = 0x20)
    unfold sampleLower at h
    split at h
    · omega
    · split at h
      · omega
      · exact h

end Visigoth
