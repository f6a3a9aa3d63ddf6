import Verif.Proofs.Words
import Verif.Props.Analyze
import Verif.Props.Repo
import Verif.Props.Search
import Verif.Model.Readme
/-!
# From texts to results (C76)
-/
namespace Visigoth

variable {isNumber isLetter : Rune → Bool} {uni : Rune → Rune} {stem : Str → Bool → Str}

/-- The language of the README's pipeline. -/
def spanish (isNumber isLetter : Rune → Bool) (uni : Rune → Rune) (stem : Str → Bool → Str) : Language where
  keep := fun r => isNumber r || isLetter r
  uni := uni
  stop := spanishStopWordsList.map fun w => w.toUTF8.toList
  stem := fun w => stem w true

theorem readmePipeline_eq (hu : CaseTable uni) (text : Str) :
    readmePipeline isNumber isLetter uni stem text
      = ((((splitChars (fun r => !(isNumber r || isLetter r)) none (chars text)).map bytesOf).map (lowered uni)).filter
          fun t => decide (t ∉ spanishStopWords.keys)).map fun t => stem t true := by
  simp only [readmePipeline, newTokenizationPipeline, TokenizationPipeline.tokenize, List.foldl_cons, List.foldl_nil]
  rw [C07_one_output_per_token, C06_removes_exactly_the_stop_words, tokenize_eq]
  simp only [lowerCaseFilter, newKeepAlphanumericTokenizer, CleanTokenizer.register, List.nil_append, List.any_cons,
    List.any_nil, Bool.or_false]
  congr 2
  exact List.map_congr_left fun w _ => lowered_eq uni hu w

theorem spanishStop_keys : spanishStopWords.keys = spanishStopWordsList.map fun w => w.toUTF8.toList := by
  simp [spanishStopWords, GoMap.keys]

/-- The tokens of the README's pipeline are the terms of the text. -/
theorem C76_tokens_are_terms (hu : CaseTable uni) (text t : Str) :
    t ∈ readmePipeline isNumber isLetter uni stem text ↔ (spanish isNumber isLetter uni stem).IsTerm text t := by
  rw [readmePipeline_eq hu, spanishStop_keys]
  unfold Language.IsTerm
  simp only [isWord_iff]
  constructor
  · intro h
    obtain ⟨w', h1, h2⟩ := List.mem_map.1 h
    obtain ⟨h3, h4⟩ := List.mem_filter.1 h1
    obtain ⟨w, h5, h6⟩ := List.mem_map.1 h3
    subst h6
    exact ⟨w, h5, of_decide_eq_true h4, h2.symm⟩
  · rintro ⟨w, h1, h2, h3⟩
    exact List.mem_map.2 ⟨_, List.mem_filter.2 ⟨List.mem_map.2 ⟨w, h1, rfl⟩, decide_eq_true h2⟩, h3.symm⟩

/-- There are as many tokens as words that are not stop words. -/
theorem C76_token_count (hu : CaseTable uni) (text : Str) (n : Nat) :
    (spanish isNumber isLetter uni stem).TermCount text n ↔
      n = (readmePipeline isNumber isLetter uni stem text).length := by
  have key : ∀ toks : List (List GoChar),
      (toks.filter fun w => decide (lowered uni (bytesOf w) ∉ spanishStopWords.keys)).length
        = ((((toks.map bytesOf).map (lowered uni)).filter
            fun t => decide (t ∉ spanishStopWords.keys)).map fun t => stem t true).length := by
    intro toks
    simp only [List.length_map, List.map_map, List.filter_map, Function.comp_def]
  have e : (spanish isNumber isLetter uni stem).stop = spanishStopWords.keys := spanishStop_keys.symm
  unfold Language.TermCount
  rw [e]
  constructor
  · rintro ⟨toks, h1, h2⟩
    rw [readmePipeline_eq hu, h2]
    have := splitChars_unique _ _ _ h1
    subst this
    exact key _
  · intro h
    refine ⟨_, splitChars_isTokenization _ _, ?_⟩
    rw [h, readmePipeline_eq hu]
    exact (key _).symm

open Classical in
theorem answers_eq (hu : CaseTable uni) (rs : List DocRequest) (q : Str) :
    (andResults (readmePipeline isNumber isLetter uni stem) rs (readmePipeline isNumber isLetter uni stem q)).map
        (·.document) = (spanish isNumber isLetter uni stem).answers rs q := by
  unfold andResults Language.answers
  split
  · next h0 =>
    rw [List.map_nil]
    symm
    rw [List.map_eq_nil_iff, List.filter_eq_nil_iff]
    intro r _ h
    obtain ⟨⟨t, ht⟩, _⟩ := of_decide_eq_true h
    rw [← C76_tokens_are_terms hu, h0] at ht
    exact absurd ht (by simp)
  · next h0 =>
    rw [List.map_map]
    have hf : ∀ r ∈ rs, hasAll (readmePipeline isNumber isLetter uni stem) (readmePipeline isNumber isLetter uni stem q) r
        = decide ((spanish isNumber isLetter uni stem).Answers q r.statement) := by
      intro r _
      rw [Bool.eq_iff_iff, decide_eq_true_iff]
      simp only [hasAll, hasToken, List.all_eq_true, decide_eq_true_eq, Language.Answers, C76_tokens_are_terms hu]
      constructor
      · intro h
        refine ⟨?_, h⟩
        obtain ⟨t, ht⟩ := List.exists_mem_of_ne_nil _ h0
        exact ⟨t, (C76_tokens_are_terms hu q t).1 ht⟩
      · exact fun h => h.2
    rw [List.filter_congr hf]
    rfl

theorem andResults_hits (tok : Tokenizer) (rs : List DocRequest) (tokens : List Str) :
    ∀ x ∈ andResults tok rs tokens, x.hits = tokens.length := by
  intro x hx
  unfold andResults at hx
  split at hx
  · simp at hx
  · obtain ⟨r, _, e⟩ := List.mem_map.1 hx
    rw [← e]

variable {cfg : Cfg} {s : Shared} {a : SpecState}

/-- A search in an existing index with an engine that does not panic completes with what the engine finds. -/
theorem search_existing (h : Abs cfg s a) (n : Name) (rs : List DocRequest) (hn : a.docs n = some rs) (q : Str)
    (e : Engine) (l : List SearchResult) (he : specSearch cfg rs q e = some l) (o : Oracle) (t : Tid) :
    ∃ s', run cfg o t (Op.prog cfg (.search n q e)) s = .ok (.results l) s' := by
  have hh : ¬ a.hangs (.search n q e) := by simp [SpecState.hangs, hn]
  have hc : ∀ c, ¬ a.crashes cfg (.search n q e) c := by
    rintro c ⟨ns, h1, h2⟩
    have : ns = [n] := by
      simp [SpecState.resolve, hn] at h1
      exact h1.symm
    subst this
    rcases h2 with ⟨_, m, hm, hm'⟩ | ⟨_, _, m, hm, rs', h3, h4⟩
    · rw [List.mem_singleton.1 hm, hn] at hm'; cases hm'
    · rw [List.mem_singleton.1 hm, hn] at h3
      injection h3 with h3
      rw [← h3, he] at h4
      cases h4
  obtain ⟨r, s', h1, -⟩ := step_completes o t h hh hc
  obtain ⟨l', h2, h3⟩ := (C40_search_resolution h n q e o t r s' h1).1 rs hn
  rw [he] at h3
  injection h3 with h3
  exact ⟨s', by rw [h1, h2, h3]⟩

/-- `LinearSearch` in an index holding these requests, at any time. -/
theorem C76_linear_search (hu : CaseTable uni) (ht : cfg.tok = readmePipeline isNumber isLetter uni stem)
    (h : Abs cfg s a) (n : Name) (rs : List DocRequest) (hn : a.docs n = some rs) (q : Str) (o : Oracle) (t : Tid) :
    ∃ l s', run cfg o t (Op.prog cfg (.search n q linearSearch)) s = .ok (.results l) s' ∧
      l.map (·.document) = (spanish isNumber isLetter uni stem).answers rs q ∧
      ∀ x ∈ l, (spanish isNumber isLetter uni stem).TermCount q x.hits := by
  obtain ⟨s', h1⟩ := search_existing h n rs hn q linearSearch _ (linearSearch_eq cfg.cp cfg.tok [] rs (cfg.tok q)) o t
  refine ⟨_, s', h1, ?_, fun x hx => ?_⟩
  · rw [ht]; exact answers_eq hu rs q
  · rw [C76_token_count hu, andResults_hits _ _ _ x hx, ht]

/-- The same for `HitsSearch`, when the IDs of the documents have different hashes; here the documents are
ordered by their IDs. -/
theorem C76_hits_search (hu : CaseTable uni) (ht : cfg.tok = readmePipeline isNumber isLetter uni stem)
    (sort : List SearchResult → List SearchResult) (hs : SortContract sort)
    (h : Abs cfg s a) (n : Name) (rs : List DocRequest) (hn : a.docs n = some rs) (hd : DistinctHashes rs)
    (q : Str) (o : Oracle) (t : Tid) :
    ∃ l s', run cfg o t (Op.prog cfg (.search n q (hitsSearch sort))) s = .ok (.results l) s' ∧
      (l.map (·.document)).Perm ((spanish isNumber isLetter uni stem).answers rs q) ∧
      (l.map (·.document)).Pairwise (fun d d' => d.id ≤ d'.id) ∧
      ∀ x ∈ l, (spanish isNumber isLetter uni stem).TermCount q x.hits := by
  obtain ⟨l, hl, hp, ho⟩ := C16_hits_search_exact_partial sort hs cfg.cp cfg.tok rs hd (cfg.tok q)
  obtain ⟨s', h1⟩ := search_existing h n rs hn q (hitsSearch sort) l hl o t
  have hh : ∀ x ∈ l, x.hits = (cfg.tok q).length := fun x hx => andResults_hits _ _ _ x (hp.mem_iff.1 hx)
  refine ⟨l, s', h1, ?_, ?_, fun x hx => ?_⟩
  · rw [ht] at hp
    rw [← answers_eq hu rs q]
    exact hp.map _
  · rw [List.pairwise_map]
    refine ho.imp_of_mem ?_
    intro x y hx hy hxy
    have h1 := hh x hx
    have h2 := hh y hy
    rcases hxy with h3 | h3
    · omega
    · exact h3.2
  · rw [C76_token_count hu, hh x hx, ht]

/-- Puts to one name, which is neither an index nor an alias, make an index of these documents. -/
theorem puts_to_one (n : Name) : ∀ (cs : List Call) (rs rs0 : List DocRequest) (s : Shared) (a : SpecState),
    cs.map Call.op = rs.map (Op.put n) → Abs cfg s a → a.leakedReaders = 0 → a.leakedWriter = false →
    (a.docs n = some rs0 ∨ a.docs n = none ∧ a.aliases n = none ∧ rs0 = [] ∧ rs ≠ []) →
    ∃ s' a', runCalls cfg cs s = .ok (rs.map fun _ => SRet.unit) s' ∧ Abs cfg s' a' ∧
      a'.docs n = some (rs0 ++ rs) := by
  intro cs
  induction cs with
  | nil =>
    intro rs rs0 s a hop h _ _ hd
    cases rs with
    | nil =>
      rcases hd with hd | hd
      · exact ⟨s, a, rfl, h, by simpa using hd⟩
      · exact absurd rfl hd.2.2.2
    | cons r rs => cases hop
  | cons c cs ih =>
    intro rs rs0 s a hop h hr hw hd
    cases rs with
    | nil => cases hop
    | cons r rs =>
      simp only [List.map_cons, List.cons.injEq] at hop
      obtain ⟨hop1, hop2⟩ := hop
      have hh : ¬ a.hangs (.put n r) := by simp [SpecState.hangs, hr, hw]
      have hc : ∀ x, ¬ a.crashes cfg (.put n r) x := by
        rintro x ⟨l, h1, h2⟩
        rcases hd with hd | ⟨hd1, hd2, _⟩
        · have : l = [n] := by simp [SpecState.resolve, hd] at h1; exact h1.symm
          subst this
          simp [hd] at h2
        · simp [SpecState.resolve, hd1, hd2] at h1
      obtain ⟨v, s1, h1, h2, h3, _⟩ := step_completes c.oracle c.tid h hh hc
      have hdocs : (a.next (.put n r)).docs n = some (rs0 ++ [r]) ∧ (a.next (.put n r)).leakedReaders = 0 ∧
          (a.next (.put n r)).leakedWriter = false := by
        rcases hd with hd | ⟨hd1, hd2, hd3, _⟩
        · simp [SpecState.next, SpecState.resolve, hd, hr, hw]
        · simp [SpecState.next, SpecState.resolve, hd1, hd2, hd3, hr, hw, upd]
      obtain ⟨s2, a2, g1, g2, g3⟩ := ih rs (rs0 ++ [r]) s1 _ hop2 h3 hdocs.2.1 hdocs.2.2 (.inl hdocs.1)
      refine ⟨s2, a2, ?_, g2, by simpa using g3⟩
      have hv : v.view s1 = .unit := h2
      simp only [runCalls, hop1, h1, andThen_ok, g1, List.map_cons, hv]

/-- The whole way through: any documents are put under one name into a new repository, then a query is
searched for there with `LinearSearch`.  Every call completes and the search returns exactly the documents,
in order, whose text has all the terms of the query. -/
theorem C76_put_then_linear_search (hu : CaseTable uni) (ht : cfg.tok = readmePipeline isNumber isLetter uni stem)
    (n : Name) (rs : List DocRequest) (hne : rs ≠ []) (q : Str) (cs : List Call) (c : Call)
    (hcs : cs.map Call.op = rs.map (Op.put n)) (hc : c.op = .search n q linearSearch) :
    ∃ l s', runCalls cfg (cs ++ [c]) newIndexRepo = .ok ((rs.map fun _ => SRet.unit) ++ [.results l]) s' ∧
      l.map (·.document) = (spanish isNumber isLetter uni stem).answers rs q ∧
      ∀ x ∈ l, (spanish isNumber isLetter uni stem).TermCount q x.hits := by
  obtain ⟨s1, a1, h1, h2, h3⟩ := puts_to_one (cfg := cfg) n cs rs [] newIndexRepo SpecState.empty hcs (abs_empty cfg)
    rfl rfl (.inr ⟨rfl, rfl, rfl, hne⟩)
  obtain ⟨l, s', g1, g2, g3⟩ := C76_linear_search hu ht h2 n rs h3 q c.oracle c.tid
  refine ⟨l, s', ?_, g2, g3⟩
  rw [runCalls_append, h1]
  simp only [andThen_ok, runCalls, hc, g1]
  rfl

/-- The same with `HitsSearch`, for documents whose IDs have different hashes. -/
theorem C76_put_then_hits_search (hu : CaseTable uni) (ht : cfg.tok = readmePipeline isNumber isLetter uni stem)
    (sort : List SearchResult → List SearchResult) (hs : SortContract sort)
    (n : Name) (rs : List DocRequest) (hne : rs ≠ []) (hd : DistinctHashes rs) (q : Str) (cs : List Call) (c : Call)
    (hcs : cs.map Call.op = rs.map (Op.put n)) (hc : c.op = .search n q (hitsSearch sort)) :
    ∃ l s', runCalls cfg (cs ++ [c]) newIndexRepo = .ok ((rs.map fun _ => SRet.unit) ++ [.results l]) s' ∧
      (l.map (·.document)).Perm ((spanish isNumber isLetter uni stem).answers rs q) ∧
      (l.map (·.document)).Pairwise (fun d d' => d.id ≤ d'.id) ∧
      ∀ x ∈ l, (spanish isNumber isLetter uni stem).TermCount q x.hits := by
  obtain ⟨s1, a1, h1, h2, h3⟩ := puts_to_one (cfg := cfg) n cs rs [] newIndexRepo SpecState.empty hcs (abs_empty cfg)
    rfl rfl (.inr ⟨rfl, rfl, rfl, hne⟩)
  obtain ⟨l, s', g1, g2, g3⟩ := C76_hits_search hu ht sort hs h2 n rs h3 hd q c.oracle c.tid
  refine ⟨l, s', ?_, g2, g3⟩
  rw [runCalls_append, h1]
  simp only [andThen_ok, runCalls, hc, g1]
  rfl

/-! ## The program of the README -/

/-- What the example needs of the unicode tables: ASCII letters and `ó` are letters, the space is not kept,
`ó` is lower case. -/
structure ReadmeTables (isNumber isLetter : Rune → Bool) (uni : Rune → Rune) : Prop where
  case : CaseTable uni
  letters : ∀ r, (0x41 ≤ r ∧ r ≤ 0x5A) ∨ (0x61 ≤ r ∧ r ≤ 0x7A) ∨ r = 0xF3 → (isNumber r || isLetter r) = true
  space : (isNumber 0x20 || isLetter 0x20) = false
  accent : uni 0xF3 = 0xF3

/-- The characters of these texts, with the tables for them. -/
def plainKeep (r : Rune) : Bool := (0x41 ≤ r && r ≤ 0x5A) || (0x61 ≤ r && r ≤ 0x7A) || r == 0xF3
def plainLower (r : Rune) : Rune := if 0x41 ≤ r && r ≤ 0x5A then r + 0x20 else r
def plainRune (r : Rune) : Bool := plainKeep r || r == 0x20

theorem splitChars_congr (f g : Rune → Bool) (cs : List GoChar) (h : ∀ c ∈ cs, f c.1 = g c.1) :
    ∀ st, splitChars f st cs = splitChars g st cs := by
  induction cs with
  | nil => intro st; cases st <;> rfl
  | cons c cs ih =>
    intro st
    have h1 := h c (by simp)
    have h2 := ih fun x hx => h x (by simp [hx])
    cases st <;> simp only [splitChars, h1, h2]

theorem lowered_congr (f g : Rune → Rune) (w : Str) (h : ∀ c ∈ chars w, f c.1 = g c.1) : lowered f w = lowered g w := by
  unfold lowered List.flatMap
  congr 1
  exact List.map_congr_left fun c hc => by rw [h c hc]

theorem readmePipeline_plain (h : ReadmeTables isNumber isLetter uni) (text : Str)
    (ht : (chars text).all (fun c => plainRune c.1) = true) (words : List Str)
    (hw : (splitChars (fun r => !plainKeep r) none (chars text)).map bytesOf = words)
    (hp : words.all (fun w => (chars w).all fun c => plainKeep c.1) = true) (terms : List Str)
    (hterms : (words.map (lowered plainLower)).filter (fun t => decide (t ∉ spanishStopWords.keys)) = terms) :
    readmePipeline isNumber isLetter uni stem text = terms.map fun t => stem t true := by
  rw [readmePipeline_eq h.case, ← hterms, ← hw]
  have hk : ∀ r, plainRune r = true → (!(isNumber r || isLetter r)) = !plainKeep r := by
    intro r hr
    by_cases hk : plainKeep r = true
    · rw [hk, h.letters r]
      simp only [plainKeep, Bool.or_eq_true, Bool.and_eq_true, decide_eq_true_eq, beq_iff_eq] at hk
      rcases hk with (hk | hk) | hk
      · exact .inl hk
      · exact .inr (.inl hk)
      · exact .inr (.inr hk)
    · have : r = 0x20 := by simpa [plainRune, hk] using hr
      subst this
      rw [h.space]
      rfl
  have hl : ∀ r : Nat, plainKeep r = true → uni r = plainLower r := by
    intro (r : Nat) hr
    simp only [plainKeep, Bool.or_eq_true, Bool.and_eq_true, decide_eq_true_eq, beq_iff_eq] at hr
    simp only [plainLower, Bool.and_eq_true, decide_eq_true_eq]
    rcases hr with hr | hr
    · exact h.case.ascii r (by have : (0x41 ≤ (r : Nat) ∧ (r : Nat) ≤ 0x5A) ∨ (0x61 ≤ (r : Nat) ∧ (r : Nat) ≤ 0x7A) := hr
                               omega)
    · subst hr; exact h.accent
  rw [splitChars_congr _ (fun r => !plainKeep r) _ (fun c hc => hk _ (List.all_eq_true.1 ht c hc)), hw]
  congr 2
  exact List.map_congr_left fun w hm => lowered_congr _ _ w fun c hc =>
    hl _ (List.all_eq_true.1 (List.all_eq_true.1 hp w hm) c hc)

theorem readme_tokens (h : ReadmeTables isNumber isLetter uni) :
    readmePipeline isNumber isLetter uni stem "Curso de programación en Java".toUTF8.toList
      = [stem (str "curso") true, stem (str "programación") true, stem (str "java") true] ∧
    readmePipeline isNumber isLetter uni stem "Curso de programación en Go".toUTF8.toList
      = [stem (str "curso") true, stem (str "programación") true, stem (str "go") true] ∧
    readmePipeline isNumber isLetter uni stem "Curso de programación en Python".toUTF8.toList
      = [stem (str "curso") true, stem (str "programación") true, stem (str "python") true] ∧
    readmePipeline isNumber isLetter uni stem "programación java".toUTF8.toList
      = [stem (str "programación") true, stem (str "java") true] := by
  refine ⟨?_, ?_, ?_, ?_⟩
  · exact readmePipeline_plain h _ (by decide +kernel)
      [str "Curso", str "de", str "programación", str "en", str "Java"] (by decide +kernel) (by decide +kernel)
      [str "curso", str "programación", str "java"] (by decide +kernel)
  · exact readmePipeline_plain h _ (by decide +kernel)
      [str "Curso", str "de", str "programación", str "en", str "Go"] (by decide +kernel) (by decide +kernel)
      [str "curso", str "programación", str "go"] (by decide +kernel)
  · exact readmePipeline_plain h _ (by decide +kernel)
      [str "Curso", str "de", str "programación", str "en", str "Python"] (by decide +kernel) (by decide +kernel)
      [str "curso", str "programación", str "python"] (by decide +kernel)
  · exact readmePipeline_plain h _ (by decide +kernel)
      [str "programación", str "java"] (by decide +kernel) (by decide +kernel)
      [str "programación", str "java"] (by decide +kernel)

/-- What the example prints: the result it was written for. -/
def readmeResult : SearchResult := { document := docOf readmeDocs[0], hits := 2 }

/-- The program of the README returns the Java course alone, with two hits, exactly if the stemmer tells
"java" from the other words of the other two courses. -/
theorem C76_readme (h : ReadmeTables isNumber isLetter uni) (ht : cfg.tok = readmePipeline isNumber isLetter uni stem)
    (sort : List SearchResult → List SearchResult) (hs : SortContract sort) (cs : List Call)
    (hcs : cs.map Call.op = readmeOps sort) :
    ∃ l s', runCalls cfg cs newIndexRepo = .ok [.unit, .unit, .unit, .results l] s' ∧ readmeResult ∈ l ∧
      (l = [readmeResult] ↔
        ∀ w ∈ [str "curso", str "programación", str "go", str "python"], stem (str "java") true ≠ stem w true) := by
  obtain ⟨t1, t2, t3, t4⟩ := readme_tokens (stem := stem) h
  obtain ⟨ds, c, hc1, hc2⟩ : ∃ ds c, cs = ds ++ [c] ∧ ds.length = 3 := by
    have hl : cs.length = 4 := by rw [← List.length_map, hcs]; rfl
    match cs, hl with
    | [c1, c2, c3, c4], _ => exact ⟨[c1, c2, c3], c4, rfl, rfl⟩
  subst hc1
  rw [List.map_append] at hcs
  obtain ⟨hp, hq⟩ := List.append_inj hcs (by simp [hc2, readmeDocs])
  obtain ⟨s1, a1, h1, h2, h3⟩ := puts_to_one (cfg := cfg) "courses".toUTF8.toList ds readmeDocs [] newIndexRepo
    SpecState.empty hp (abs_empty cfg) rfl rfl (.inr ⟨rfl, rfl, rfl, by simp [readmeDocs]⟩)
  have hd : DistinctHashes readmeDocs := by
    unfold DistinctHashes; decide +kernel
  obtain ⟨l, hl, hperm, _⟩ := C16_hits_search_exact_partial sort hs cfg.cp cfg.tok readmeDocs hd
    (cfg.tok "programación java".toUTF8.toList)
  obtain ⟨s', g1⟩ := search_existing h2 _ _ h3 "programación java".toUTF8.toList (hitsSearch sort) l hl c.oracle c.tid
  have hop : c.op = .search "courses".toUTF8.toList "programación java".toUTF8.toList (hitsSearch sort) := by
    simpa using hq
  have hand : andResults cfg.tok readmeDocs (cfg.tok "programación java".toUTF8.toList)
      = (readmeDocs.filter (hasAll cfg.tok [stem (str "programación") true, stem (str "java") true])).map
          fun r => { document := docOf r, hits := 2 } := by
    rw [ht, t4]
    rfl
  rw [hand] at hperm
  have b0 : hasAll cfg.tok [stem (str "programación") true, stem (str "java") true] readmeDocs[0] = true := by
    have : cfg.tok readmeDocs[0].statement
        = [stem (str "curso") true, stem (str "programación") true, stem (str "java") true] := by rw [ht]; exact t1
    simp [hasAll, hasToken, this]
  have b1 : hasAll cfg.tok [stem (str "programación") true, stem (str "java") true] readmeDocs[1] = true ↔
      stem (str "java") true ∈ [stem (str "curso") true, stem (str "programación") true, stem (str "go") true] := by
    have : cfg.tok readmeDocs[1].statement
        = [stem (str "curso") true, stem (str "programación") true, stem (str "go") true] := by rw [ht]; exact t2
    simp [hasAll, hasToken, this]
  have b2 : hasAll cfg.tok [stem (str "programación") true, stem (str "java") true] readmeDocs[2] = true ↔
      stem (str "java") true ∈ [stem (str "curso") true, stem (str "programación") true, stem (str "python") true] := by
    have : cfg.tok readmeDocs[2].statement
        = [stem (str "curso") true, stem (str "programación") true, stem (str "python") true] := by rw [ht]; exact t3
    simp [hasAll, hasToken, this]
  have hdocs : readmeDocs = [readmeDocs[0], readmeDocs[1], readmeDocs[2]] := rfl
  rw [hdocs, List.filter_cons_of_pos b0, List.map_cons] at hperm
  refine ⟨l, s', ?_, ?_, ?_⟩
  · rw [runCalls_append, h1]
    simp only [andThen_ok, runCalls, hop, g1]
    rfl
  · exact hperm.mem_iff.2 (List.mem_cons_self ..)
  · constructor
    · intro hl w hw he
      have hlen := hperm.length_eq
      rw [hl] at hlen
      have hnil : [readmeDocs[1], readmeDocs[2]].filter
          (hasAll cfg.tok [stem (str "programación") true, stem (str "java") true]) = [] := by
        apply List.length_eq_zero_iff.1
        simpa using hlen
      rw [List.filter_eq_nil_iff] at hnil
      have n1 := hnil readmeDocs[1] (by simp)
      have n2 := hnil readmeDocs[2] (by simp)
      rw [b1] at n1
      rw [b2] at n2
      simp only [List.mem_cons, List.not_mem_nil, or_false, not_or] at n1 n2 hw
      rcases hw with hw | hw | hw | hw
      · exact n1.1 (by rw [he, hw])
      · exact n1.2.1 (by rw [he, hw])
      · exact n1.2.2 (by rw [he, hw])
      · exact n2.2.2 (by rw [he, hw])
    · intro hne
      have hnil : [readmeDocs[1], readmeDocs[2]].filter
          (hasAll cfg.tok [stem (str "programación") true, stem (str "java") true]) = [] := by
        rw [List.filter_eq_nil_iff]
        intro r hr
        simp only [List.mem_cons, List.not_mem_nil, or_false] at hr
        have h1 := hne (str "curso") (by simp)
        have h2 := hne (str "programación") (by simp)
        have h3 := hne (str "go") (by simp)
        have h4 := hne (str "python") (by simp)
        rcases hr with hr | hr
        · rw [hr, b1]; simp [h1, h2, h3]
        · rw [hr, b2]; simp [h1, h2, h4]
      rw [hnil] at hperm
      exact List.perm_singleton.1 hperm

/-- The tables of the examples. -/
theorem plainTables : ReadmeTables (fun _ => false) plainKeep plainLower where
  case := {
    ascii := by
      intro r _
      simp only [plainLower, Bool.and_eq_true, decide_eq_true_eq]
    scalar := by
      intro r hr
      unfold plainLower
      split
      · next h =>
        simp only [Bool.and_eq_true, decide_eq_true_eq] at h
        have : (r : Nat) ≤ 0x5A := h.2
        left; show (r : Nat) + 0x20 < _; omega
      · exact hr
    idem := by
      intro r
      unfold plainLower
      split
      · next h =>
        simp only [Bool.and_eq_true, decide_eq_true_eq] at h
        rw [if_neg]
        simp only [Bool.and_eq_true, decide_eq_true_eq, not_and]
        have : (0x41 : Nat) ≤ r := h.1
        intro _ hh
        have : (r : Nat) + 0x20 ≤ 0x5A := hh
        omega
      · next h => rfl
    err := by decide }
  letters := by
    intro r hr
    simp only [plainKeep, Bool.false_or, Bool.or_eq_true, Bool.and_eq_true, decide_eq_true_eq, beq_iff_eq]
    rcases hr with hr | hr | hr
    · exact .inl (.inl hr)
    · exact .inl (.inr hr)
    · exact .inr hr
  space := by decide
  accent := by decide

/-- A stemmer that keeps every word tells the words apart. -/
example : ∀ w ∈ [str "curso", str "programación", str "go", str "python"],
    (fun (w : Str) (_ : Bool) => w) (str "java") true ≠ (fun (w : Str) (_ : Bool) => w) w true := by decide +kernel

/-- A query with stop words, repeated words and capitals: "EN Java, java" asks for "java" only, twice. -/
example : readmePipeline (fun _ => false) plainKeep plainLower (fun w _ => w) (str "EN Java, java")
    = [str "java", str "java"] := by decide +kernel

/-- Neither a part of a word nor a stop word is a term. -/
example : (spanish (fun _ => false) plainKeep plainLower (fun w _ => w)).IsTerm (str "Curso de Java") (str "java") ∧
    ¬ (spanish (fun _ => false) plainKeep plainLower (fun w _ => w)).IsTerm (str "Curso de Java") (str "jav") ∧
    ¬ (spanish (fun _ => false) plainKeep plainLower (fun w _ => w)).IsTerm (str "Curso de Java") (str "de") := by
  simp only [← C76_tokens_are_terms plainTables.case]
  decide +kernel

end Visigoth
