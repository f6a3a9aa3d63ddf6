import Verif.Proofs.Lower
import Verif.Proofs.Analyze
import Verif.Proofs.Hits
/-!
# Properties of the in-memory index (C08, C10, C11, C13, C14)

`buildIndex tok name rs` is the index after the Puts `rs` on a new index.
-/
namespace Visigoth

/-- A small tokenizer for examples: one token per maximal run of bytes other than the space. -/
def spaceTok : Tokenizer := (newCleanTokenizer [fun r => r != 0x20]).tokenize

/-- A copy function that keeps nil nil. -/
def plainCopy : CopyFn := { copy := id, contents := fun _ => rfl }

/-- A copy function that turns nil into an empty slice. -/
def nonNilCopy : CopyFn := { copy := fun d => some (d.getD []), contents := fun _ => rfl }


def sampleRequests : List DocRequest :=
  [newDocRequest (str "a") (str "java ja java"), newDocRequestWith (str "b") (str "X") (str "go java"),
   newDocRequest (str "a") (str "go")]

/-! ## C10 -/

/-- One document per Put, in Put order, with the request's name and content. -/
theorem C10_one_document_per_put (tok : Tokenizer) (name : Str) (rs : List DocRequest) :
    (buildIndex tok name rs).len = rs.length ∧
    ∀ i, (buildIndex tok name rs).document i
      = (rs[i]?).map fun r => { name := r.name, content := r.content } := by
  refine ⟨by simp [MemoryIndex.len, buildIndex_docs], fun i => ?_⟩
  simp only [MemoryIndex.document, buildIndex_docs, List.getElem?_map]
  rfl

/-- Later Puts do not disturb the document at a position. -/
theorem C10_documents_never_change (tok : Tokenizer) (name : Str) (rs more : List DocRequest) (i : Nat)
    (hi : i < (buildIndex tok name rs).len) :
    (buildIndex tok name (rs ++ more)).document i = (buildIndex tok name rs).document i := by
  rw [(C10_one_document_per_put tok name rs).1] at hi
  rw [(C10_one_document_per_put tok name rs).2, (C10_one_document_per_put tok name _).2,
    List.getElem?_append_left hi]

/-- The same for a single Put on any index, however it was produced. -/
theorem C10_put_appends (tok : Tokenizer) (mi : MemoryIndex) (r : DocRequest) :
    (mi.put tok r).len = mi.len + 1 ∧
    (∀ i, i < mi.len → (mi.put tok r).document i = mi.document i) ∧
    (mi.put tok r).document mi.len = some { name := r.name, content := r.content } := by
  refine ⟨by simp [MemoryIndex.put, MemoryIndex.len], ?_, ?_⟩
  · intro i hi
    simp only [MemoryIndex.put, MemoryIndex.document]
    exact List.getElem?_append_left hi
  · simp only [MemoryIndex.put, MemoryIndex.document, MemoryIndex.len]
    rw [List.getElem?_append_right (Nat.le_refl _)]
    simp [newDoc, DocRequest.id, DocRequest.raw]

example : (buildIndex spaceTok [] sampleRequests).len = 3 ∧
    (buildIndex spaceTok [] sampleRequests).document 1 = some { name := str "b", content := str "X" } := by
  decide +kernel

/-! ## C11 -/

/-- The positions reported for a token are exactly those of the documents containing it, in strictly
increasing order (hence each once). -/
theorem C11_inverted_index_exact (cp : CopyFn) (tok : Tokenizer) (name : Str) (rs : List DocRequest)
    (t : Str) :
    (((buildIndex tok name rs).indexed cp t).getD []).Pairwise (· < ·) ∧
    ∀ i, i ∈ ((buildIndex tok name rs).indexed cp t).getD [] ↔
      ∃ r, rs[i]? = some r ∧ t ∈ tok r.statement := by
  have h : ((buildIndex tok name rs).indexed cp t).getD [] = positions tok rs t :=
    indexer_indexed cp tok name rs t
  rw [h]
  exact ⟨positions_sorted tok rs t, fun i => mem_positions tok rs t i⟩

example : (buildIndex spaceTok [] sampleRequests).indexed plainCopy (str "java") = some [0, 1] ∧
    (buildIndex spaceTok [] sampleRequests).indexed plainCopy (str "c") = none := by
  decide +kernel

/-! ## C13 -/

/-- Putting the same request `n` times leaves `n` more documents. -/
theorem C13_put_never_replaces (tok : Tokenizer) (name : Str) (rs : List DocRequest) (r : DocRequest)
    (n : Nat) :
    (buildIndex tok name (rs ++ List.replicate n r)).len = (buildIndex tok name rs).len + n ∧
    ∀ i, i < n → (buildIndex tok name (rs ++ List.replicate n r)).document (rs.length + i)
      = some { name := r.name, content := r.content } := by
  refine ⟨by simp [MemoryIndex.len, buildIndex_docs], ?_⟩
  intro i hi
  rw [(C10_one_document_per_put tok name _).2, List.getElem?_append_right (by omega),
    List.getElem?_replicate, if_pos (by omega)]
  rfl

/-- The lookups of a token of the request report all `n` new positions after the old ones, the other
lookups are unchanged. -/
theorem C13_lookups_report_all_copies (cp : CopyFn) (tok : Tokenizer) (name : Str)
    (rs : List DocRequest) (r : DocRequest) (n : Nat) (t : Str) :
    ((buildIndex tok name (rs ++ List.replicate n r)).indexed cp t).getD []
      = ((buildIndex tok name rs).indexed cp t).getD []
        ++ if t ∈ tok r.statement then List.range' rs.length n else [] := by
  have h : ∀ rs, ((buildIndex tok name rs).indexed cp t).getD [] = positions tok rs t :=
    fun rs => indexer_indexed cp tok name rs t
  rw [h, h]
  induction n with
  | zero => simp
  | succ n ih =>
    rw [List.replicate_succ', ← List.append_assoc, positions_append, ih, List.append_assoc]
    congr 1
    by_cases ht : t ∈ tok r.statement
    · simp only [ht, if_true, List.length_append, List.length_replicate]
      rw [List.range'_concat]
      simp
    · simp [ht]

example : (buildIndex spaceTok [] (sampleRequests ++ List.replicate 2 (newDocRequest (str "a") (str "go")))).indexed
    plainCopy (str "go") = some [1, 2, 3, 4] := by decide +kernel

/-! ## C14 -/

theorem Forall2.length_eq {α β : Type} {R : α → β → Prop} {l : List α} {l' : List β}
    (h : Forall2 R l l') : l.length = l'.length := by
  induction h with
  | nil => rfl
  | cons _ _ ih => simp [ih]

theorem Forall2.get {α β : Type} {R : α → β → Prop} {l : List α} {l' : List β} (h : Forall2 R l l') :
    ∀ i : Nat, (l[i]? = none ∧ l'[i]? = none) ∨ ∃ a b, l[i]? = some a ∧ l'[i]? = some b ∧ R a b := by
  induction h with
  | nil => intro i; left; simp
  | cons h _ ih =>
    intro i
    cases i with
    | zero => right; exact ⟨_, _, rfl, rfl, h⟩
    | succ i => simpa using ih i

theorem positions_congr (tok : Tokenizer) (rs rs' : List DocRequest)
    (h : Forall2 (fun r r' => ∀ t, t ∈ tok r.statement ↔ t ∈ tok r'.statement) rs rs') (t : Str) :
    positions tok rs t = positions tok rs' t := by
  unfold positions
  rw [h.length_eq]
  apply List.filter_congr
  intro i _
  rcases h.get i with ⟨h1, h2⟩ | ⟨a, b, h1, h2, h3⟩
  · rw [h1, h2]
  · rw [h1, h2]
    simp [hasToken, h3 t]

/-- Matching depends only on the statements: two histories whose statements contain the same tokens
have the same lookups, whatever the names and contents. -/
theorem C14_matching_depends_on_statements (cp : CopyFn) (tok : Tokenizer) (name name' : Str)
    (rs rs' : List DocRequest)
    (h : Forall2 (fun r r' => ∀ t, t ∈ tok r.statement ↔ t ∈ tok r'.statement) rs rs') (t : Str) :
    (buildIndex tok name rs).indexed cp t = (buildIndex tok name' rs').indexed cp t := by
  unfold MemoryIndex.indexed
  rw [buildIndex_inverted_get, buildIndex_inverted_get, positions_congr tok rs rs' h]

/-- Result documents depend only on names and contents. -/
theorem C14_documents_depend_on_contents (tok tok' : Tokenizer) (name name' : Str)
    (rs rs' : List DocRequest)
    (h : Forall2 (fun r r' => r.name = r'.name ∧ r.content = r'.content) rs rs') (i : Nat) :
    (buildIndex tok name rs).document i = (buildIndex tok' name' rs').document i := by
  rw [(C10_one_document_per_put _ _ _).2, (C10_one_document_per_put _ _ _).2]
  rcases h.get i with ⟨h1, h2⟩ | ⟨a, b, h1, h2, h3, h4⟩
  · rw [h1, h2]
  · rw [h1, h2]; simp [h3, h4]

/-- Statements with the same tokens are interchangeable: every search by every engine returns the
same. -/
theorem C14_equivalent_statements (cp : CopyFn) (tok : Tokenizer) (name : Str)
    (rs rs' : List DocRequest)
    (h : Forall2 (fun r r' => (r.name = r'.name ∧ r.content = r'.content) ∧
      ∀ t, t ∈ tok r.statement ↔ t ∈ tok r'.statement) rs rs') (payload : Str) (engine : Engine) :
    (buildIndex tok name rs).search cp tok payload engine
      = (buildIndex tok name rs').search cp tok payload engine := by
  have h1 : Forall2 (fun r r' => r.name = r'.name ∧ r.content = r'.content) rs rs' := by
    induction h with
    | nil => exact .nil
    | cons h _ ih => exact .cons h.1 ih
  have h2 : Forall2 (fun r r' => ∀ t, t ∈ tok r.statement ↔ t ∈ tok r'.statement) rs rs' := by
    clear h1
    induction h with
    | nil => exact .nil
    | cons h _ ih => exact .cons h.2 ih
  unfold MemoryIndex.search
  congr 1
  have e1 : (buildIndex tok name rs).indexed cp = (buildIndex tok name rs').indexed cp :=
    funext fun t => C14_matching_depends_on_statements cp tok name name rs rs' h2 t
  have e2 : (buildIndex tok name rs).document = (buildIndex tok name rs').document :=
    funext fun i => C14_documents_depend_on_contents tok tok name name rs rs' h1 i
  have e3 : (buildIndex tok name rs).len = (buildIndex tok name rs').len := by
    rw [(C10_one_document_per_put _ _ _).1, (C10_one_document_per_put _ _ _).1, h.length_eq]
  simp only [MemoryIndex.indexer, e1, e2, e3]

/-- The constructors: what is stored and what is indexed. -/
theorem C14_constructors (name content statement : Str) (mime : UInt8) :
    (newDocRequest name content).statement = content ∧ (newDocRequest name content).content = content ∧
    (newDocRequest name content).name = name ∧
    (newDocRequestWith name content statement).statement = statement ∧
    (newDocRequestWith name content statement).content = content ∧
    (newDocRequestWith name content statement).name = name ∧
    (newDocRequestWithMime name content mime).statement = content ∧
    (newDocRequestWithMime name content mime).content = content ∧
    (newDocRequestWithMime name content mime).name = name ∧
    (newDocRequestWithMime name content mime).mime = mime :=
  ⟨rfl, rfl, rfl, rfl, rfl, rfl, rfl, rfl, rfl, rfl⟩

/-- The accessors: `ID` and `Raw` of the document stored by the `i`-th `Put` are the name and the content of
the request; the MIME types are 1 and 2, and a request is text unless said otherwise. -/
theorem C14_accessors (tok : Tokenizer) (name : Str) (rs : List DocRequest) (i : Nat) :
    ((buildIndex tok name rs).document i).map (fun d => (d.id, d.raw)) = (rs[i]?).map (fun r => (r.name, r.content)) ∧
    (∀ r : DocRequest, r.id = r.name ∧ r.raw = r.content) ∧ mimeText = 1 ∧ mimeJSON = 2 ∧
    (∀ n c, (newDocRequest n c).mime = 1) ∧ ∀ n c st, (newDocRequestWith n c st).mime = 1 := by
  refine ⟨?_, fun _ => ⟨rfl, rfl⟩, rfl, rfl, fun _ _ => rfl, fun _ _ _ => rfl⟩
  rw [(C10_one_document_per_put _ _ _).2]
  cases rs[i]? <;> rfl

example : Forall2 (fun (r r' : DocRequest) => (r.name = r'.name ∧ r.content = r'.content) ∧
      ∀ t, t ∈ spaceTok r.statement ↔ t ∈ spaceTok r'.statement)
    [newDocRequestWith (str "a") (str "c") (str "go java go")]
    [newDocRequestWith (str "a") (str "c") (str "java  go")] := by
  refine .cons ⟨by decide +kernel, ?_⟩ .nil
  have h1 : spaceTok (newDocRequestWith (str "a") (str "c") (str "go java go")).statement
      = [str "go", str "java", str "go"] := by decide +kernel
  have h2 : spaceTok (newDocRequestWith (str "a") (str "c") (str "java  go")).statement
      = [str "java", str "go"] := by decide +kernel
  rw [h1, h2]
  intro t
  simp only [List.mem_cons, List.not_mem_nil, or_false]
  constructor
  · rintro (h | h | h)
    · exact .inr h
    · exact .inl h
    · exact .inr h
  · rintro (h | h)
    · exact .inr (.inl h)
    · exact .inl h

/-! ## C08 -/

/-- Texts that differ only in the case of ASCII letters give the same tokens, for a tokenizer that
does not look at the case of ASCII letters followed by the lower-case filter and any other filters. -/
theorem C08_tokens_case_insensitive (uni : Rune → Rune) (hu : CaseTable uni) (c : CleanTokenizer)
    (hc : ∀ r, 0x41 ≤ r → r ≤ 0x5A → (c.fns.any fun f => f r) = (c.fns.any fun f => f (r + 0x20)))
    (fs : List Filter) (s t : Str) (h : CaseVariant s t) :
    (newTokenizationPipeline c.tokenize (lowerCaseFilter uni :: fs)).tokenize s
      = (newTokenizationPipeline c.tokenize (lowerCaseFilter uni :: fs)).tokenize t := by
  simp only [newTokenizationPipeline, TokenizationPipeline.tokenize, List.foldl_cons]
  congr 1
  have hsep : isSepLoop c.fns = fun r => !(c.fns.any fun f => f r) := by
    funext r; exact isSepLoop_eq _ _
  unfold CleanTokenizer.tokenize lowerCaseFilter
  rw [hsep]
  exact lower_fields_fold uni hu (fun r => c.fns.any fun f => f r) hc s t h

/-- Hence the same index and the same results, whatever the engine. -/
theorem C08_search_case_insensitive (uni : Rune → Rune) (hu : CaseTable uni) (c : CleanTokenizer)
    (hc : ∀ r, 0x41 ≤ r → r ≤ 0x5A → (c.fns.any fun f => f r) = (c.fns.any fun f => f (r + 0x20)))
    (fs : List Filter) (tok : Tokenizer)
    (htok : tok = (newTokenizationPipeline c.tokenize (lowerCaseFilter uni :: fs)).tokenize)
    (cp : CopyFn) (name : Str) (rs rs' : List DocRequest)
    (hr : Forall2 (fun r r' => r.name = r'.name ∧ r.content = r'.content ∧
      CaseVariant r.statement r'.statement) rs rs')
    (q q' : Str) (hq : CaseVariant q q') (engine : Engine) :
    (buildIndex tok name rs).search cp tok q engine
      = (buildIndex tok name rs').search cp tok q' engine := by
  have key : ∀ s t, CaseVariant s t → tok s = tok t := by
    intro s t h; rw [htok]; exact C08_tokens_case_insensitive uni hu c hc fs s t h
  rw [C14_equivalent_statements cp tok name rs rs']
  · unfold MemoryIndex.search
    rw [key q q' hq]
  · induction hr with
    | nil => exact .nil
    | cons h _ ih =>
      refine .cons ⟨⟨h.1, h.2.1⟩, ?_⟩ ih
      intro t
      rw [key _ _ h.2.2]

example : ∀ r, 0x41 ≤ r → r ≤ 0x5A →
    ((newCleanTokenizer [fun r => (0x41 ≤ r && r ≤ 0x5A) || (0x61 ≤ r && r ≤ 0x7A)]).fns.any fun f => f r)
      = ((newCleanTokenizer [fun r => (0x41 ≤ r && r ≤ 0x5A) || (0x61 ≤ r && r ≤ 0x7A)]).fns.any
          fun f => f (r + 0x20)) := by
  intro (r : Nat) h1 h2
  simp only [newCleanTokenizer_fns, List.any_cons, List.any_nil, Bool.or_false]
  have e1 : decide (0x41 ≤ r) = true := by simpa using h1
  have e2 : decide (r ≤ 0x5A) = true := by simpa using h2
  have e3 : decide (0x61 ≤ r + 0x20) = true := by simp; omega
  have e4 : decide (r + 0x20 ≤ 0x7A) = true := by simp; omega
  simp only [e1, e2, e3, e4]
  simp

example : CaseVariant (str "Java ÉX") (str "jAVA Éx") := by
  have h1 : str "Java ÉX" = [0x4A, 0x61, 0x76, 0x61, 0x20, 0xC3, 0x89, 0x58] := by decide +kernel
  have h2 : str "jAVA Éx" = [0x6A, 0x41, 0x56, 0x41, 0x20, 0xC3, 0x89, 0x78] := by decide +kernel
  rw [h1, h2]
  unfold CaseVariant
  repeat (first
    | exact .nil
    | refine .cons (.inl rfl) ?_
    | refine .cons (.inr (.inl (by decide))) ?_
    | refine .cons (.inr (.inr (by decide))) ?_)

end Visigoth
