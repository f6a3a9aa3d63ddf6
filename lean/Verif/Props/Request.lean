import Verif.Spec.Request
import Verif.Props.Search
import Verif.Props.Analyze
import Verif.Props.Repo
/-!
# Requests made outside the package (C106)

The claim: a document is found by searching for its content, however the request was filled in.  It is false
(`C106_refuted`): the text that is indexed is a field that is not exported, and assigning to `Content` does not
change it.
-/
namespace Visigoth

variable {tok : Tokenizer}

/-- Every request can be made outside the package: what is proved of all requests is about what users can do. -/
theorem C106_every_request (r : DocRequest) : ∃ start as, makeRequest start as = r :=
  ⟨.newWith r.name r.content r.statement, [.mime r.mime], rfl⟩

/-- The text that is indexed is the one the request was made with, whatever is assigned to its fields. -/
theorem C106_text_fixed (start : RequestStart) (as : List RequestAssign) : (makeRequest start as).statement = start.text := by
  have key : ∀ (as : List RequestAssign) (r : DocRequest), (as.foldl DocRequest.assign r).statement = r.statement := by
    intro as
    induction as with
    | nil => intro r; rfl
    | cons a as ih =>
      intro r
      rw [List.foldl_cons, ih]
      cases a <;> rfl
  unfold makeRequest
  rw [key]
  cases start <;> rfl

/-- The content is the one assigned last, and before any assignment the one given to the constructor. -/
theorem C106_content (start : RequestStart) (as : List RequestAssign) :
    (∀ c as', (∀ s, .content s ∉ as') → (makeRequest start (as ++ .content c :: as')).content = c) ∧
    ((∀ s, .content s ∉ as) → (makeRequest start as).content = start.request.content) := by
  have key : ∀ (as : List RequestAssign) (r : DocRequest), (∀ s, .content s ∉ as) →
      (as.foldl DocRequest.assign r).content = r.content := by
    intro as
    induction as with
    | nil => intro r _; rfl
    | cons a as ih =>
      intro r h
      rw [List.foldl_cons, ih _ fun s hs => h s (List.mem_cons_of_mem _ hs)]
      cases a with
      | content s => exact absurd List.mem_cons_self (h s)
      | _ => rfl
  refine ⟨fun c as' h => ?_, fun h => key as _ h⟩
  unfold makeRequest
  rw [List.foldl_append, List.foldl_cons, key _ _ h]
  rfl

/-- What LinearSearch makes of a request among others: its document, with the name and content assigned last, is
among the results exactly if all tokens of the query are tokens of the text it was made with. -/
theorem C106_search_exact (cp : CopyFn) (name : Str) (before after : List DocRequest) (start : RequestStart)
    (as : List RequestAssign) (payload : Str) (hne : tok payload ≠ []) :
    ∃ resB resA, (buildIndex tok name before).search cp tok payload linearSearch = some resB ∧
      (buildIndex tok name after).search cp tok payload linearSearch = some resA ∧
      (buildIndex tok name (before ++ makeRequest start as :: after)).search cp tok payload linearSearch
        = some (resB ++ (if ∀ t ∈ tok payload, t ∈ tok start.text then
            [{ document := { name := (makeRequest start as).name, content := (makeRequest start as).content },
               hits := (tok payload).length }] else []) ++ resA) := by
  refine ⟨_, _, C15_linear_search_payload cp tok name before payload hne,
    C15_linear_search_payload cp tok name after payload hne, ?_⟩
  rw [C15_linear_search_payload cp tok name _ payload hne, List.filter_append, List.map_append, List.filter_cons,
    C106_text_fixed]
  by_cases h : ∀ t ∈ tok payload, t ∈ tok start.text
  · rw [if_pos h, if_pos (List.all_eq_true.2 fun t ht => decide_eq_true (h t ht))]
    simp
  · rw [if_neg h, if_neg (fun h' => h fun t ht => of_decide_eq_true (List.all_eq_true.1 h' t ht))]
    simp

/-- A document is found by its content exactly if all tokens of the content are tokens of the text the request was made
with. -/
theorem C106_guard_exact (start : RequestStart) (as : List RequestAssign) :
    FoundByContent tok (makeRequest start as) ↔ ∀ t ∈ tok (makeRequest start as).content, t ∈ tok start.text := by
  constructor
  · intro h
    by_cases hne : tok (makeRequest start as).content = []
    · rw [hne]
      exact fun t ht => nomatch ht
    · obtain ⟨res, h1, h2⟩ := h hne plainCopy [] [] []
      have h3 := C15_linear_search_payload plainCopy tok [] [makeRequest start as] _ hne
      rw [List.nil_append, h3] at h1
      injection h1 with h1
      subst h1
      rw [List.map_map] at h2
      obtain ⟨r, hr, -⟩ := List.mem_map.1 h2
      rw [List.mem_filter, List.mem_singleton] at hr
      obtain ⟨rfl, hr⟩ := hr
      intro t ht
      have := of_decide_eq_true (List.all_eq_true.1 hr t ht)
      rwa [C106_text_fixed] at this
  · intro h hne cp name before after
    obtain ⟨b, a, -, -, e⟩ := C106_search_exact cp name before after start as _ hne
    rw [if_pos h] at e
    exact ⟨_, e, by simp⟩

/-- The claim for requests made by `NewDocRequest` or `NewDocRequestWithMime` whose content is not assigned to.
Missing: literals, and requests whose content is not the text they were made with (see `C106_guard_exact`). -/
theorem C106_constructed_partial {start : RequestStart} {as : List RequestAssign} (hs : start.plain)
    (ha : ∀ s, .content s ∉ as) : FoundByContent tok (makeRequest start as) := by
  rw [C106_guard_exact, (C106_content start as).2 ha]
  cases start with
  | new n c => exact fun t ht => ht
  | newWithMime n c m => exact fun t ht => ht
  | literal => exact hs.elim
  | newWith n c s => exact hs.elim

/-- False of every tokenizer that gives no token for the empty text but one for some other: a literal. -/
theorem C106_refuted (h0 : tok [] = []) {text : Str} (ht : tok text ≠ []) :
    ¬ ∀ start as, FoundByContent tok (makeRequest start as) := by
  intro h
  have := (C106_guard_exact .literal [.content text]).1 (h _ _)
  obtain ⟨t, hm⟩ := List.exists_mem_of_ne_nil _ ht
  have := this t hm
  rw [show RequestStart.literal.text = [] from rfl, h0] at this
  cases this

/-- The tokenizers of the package, with the filters of the package in any number and order, give no token for the empty
text. -/
theorem C106_no_tokens (c : CleanTokenizer) (fs : List Filter)
    (hf : ∀ f ∈ fs, (∃ uni, f = lowerCaseFilter uni) ∨ (∃ sw, f = stopWordsFilter sw) ∨ ∃ stem b, f = spanishStemmerFilter stem b) :
    (newTokenizationPipeline c.tokenize fs).tokenize [] = [] := by
  have base : c.tokenize [] = [] := by
    cases h : c.tokenize [] with
    | nil => rfl
    | cons t ts =>
      obtain ⟨toks, h1, -, h3⟩ := C01_tokens_are_maximal_runs c []
      have : [] = toks := h3 [] ⟨[], [], rfl, rfl, by simp⟩
      rw [← this] at h1
      rw [h1] at h
      cases h
  unfold TokenizationPipeline.tokenize newTokenizationPipeline
  simp only
  rw [base]
  induction fs with
  | nil => rfl
  | cons f fs ih =>
    have : f [] = [] := by
      rcases hf f List.mem_cons_self with ⟨uni, rfl⟩ | ⟨sw, rfl⟩ | ⟨stem, b, rfl⟩ <;> rfl
    rw [List.foldl_cons, this]
    exact ih fun g hg => hf g (List.mem_cons_of_mem _ hg)

/-- A literal is stored but filed under no token: no token leads to its place, so that of the engines of the package only
NoopAll ever returns it. -/
theorem C106_literal_lost (h0 : tok [] = []) (cp : CopyFn) (name : Str) (before after : List DocRequest)
    (as : List RequestAssign) (t : Str) :
    before.length ∉ ((buildIndex tok name (before ++ makeRequest .literal as :: after)).indexed cp t).getD [] ∧
    (buildIndex tok name (before ++ makeRequest .literal as :: after)).document before.length
      = some { name := (makeRequest .literal as).name, content := (makeRequest .literal as).content } := by
  refine ⟨fun h => ?_, ?_⟩
  · obtain ⟨r, hr, ht⟩ := ((C11_inverted_index_exact cp tok name _ t).2 _).1 h
    rw [List.getElem?_append_right (Nat.le_refl _), Nat.sub_self, List.getElem?_cons_zero] at hr
    cases hr
    rw [C106_text_fixed, show RequestStart.literal.text = [] from rfl, h0] at ht
    cases ht
  · rw [(C10_one_document_per_put _ _ _).2, List.getElem?_append_right (Nat.le_refl _), Nat.sub_self, List.getElem?_cons_zero]
    rfl

/-! ## Examples -/

/-- `DocRequest{Name: "a", Content: "go"}` is not found by `go`; with the constructor it is. -/
example : (buildIndex spaceTok [] [makeRequest .literal [.name (str "a"), .content (str "go")]]).search plainCopy spaceTok
    (str "go") linearSearch = some [] := by decide +kernel
example : (buildIndex spaceTok [] [makeRequest (.new (str "a") (str "go")) []]).search plainCopy spaceTok
    (str "go") linearSearch = some [{ document := { name := str "a", content := str "go" }, hits := 1 }] := by decide +kernel
/-- A new content is shown, but the document is found by the old one. -/
example : (buildIndex spaceTok [] [makeRequest (.new (str "a") (str "go")) [.content (str "java")]]).search plainCopy spaceTok
    (str "go") linearSearch = some [{ document := { name := str "a", content := str "java" }, hits := 1 }] := by decide +kernel
/-- The guard can be met after an assignment: the words of the new content are among the old ones. -/
example : ∀ t ∈ spaceTok (makeRequest (.new (str "a") (str "java go")) [.content (str "go")]).content,
    t ∈ spaceTok (RequestStart.new (str "a") (str "java go")).text := by decide +kernel
/-- A name and a MIME type can be assigned. -/
example : (RequestStart.new (str "a") (str "go")).plain ∧ ∀ s, RequestAssign.content s ∉ [RequestAssign.name (str "b"), .mime 2] :=
  ⟨trivial, by simp⟩
example : spaceTok [] = [] ∧ spaceTok (str "go") ≠ [] := by decide +kernel

end Visigoth
