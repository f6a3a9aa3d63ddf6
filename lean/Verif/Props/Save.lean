import Verif.Proofs.Save
import Verif.Proofs.Indexer
import Verif.Props.Repo
/-!
# Saving an index as JSON (C105)

The claim: an index that is saved as JSON and loaded into a new index answers every search as before.  It is false
(`C105_refuted`): strings that are not UTF-8 are changed on the way.
-/
namespace Visigoth

variable {tok : Tokenizer}

/-- The claim. -/
def SaveClaim (tok : Tokenizer) : Prop :=
  ∀ (order : List Str → List Str), IsOrder order → ∀ (name name' : Str) (rs : List DocRequest) (cp : CopyFn) (payload : Str)
    (engine : Engine), ((newMemoryIndex name').load ((buildIndex tok name rs).save order)).search cp tok payload engine
      = (buildIndex tok name rs).search cp tok payload engine

/-- What a loaded index holds: the saved documents with every malformed byte replaced; and for a token the posting
list of the last saved token that is written like this, or, if there is none, the one it had before. -/
theorem C105_load_exact (old mi : MemoryIndex) (order : List Str → List Str) :
    (old.load (mi.save order)).docs = mi.docs.map (fun d => { name := mapStr id d.name, content := mapStr id d.content }) ∧
    (old.load (mi.save order)).name = old.name ∧
    ∀ k, (old.load (mi.save order)).inverted.get k
      = match (order mi.inverted.keys).reverse.find? (fun t => decide (mapStr id t = k)) with
        | some t => some ((mi.inverted.get t).getD [])
        | none => old.inverted.get k :=
  ⟨rfl, rfl, load_get old mi order⟩

/-- Saving and loading into a new index preserves documents and posting lists exactly if all names, contents and
tokens are UTF-8. -/
theorem C105_guard_exact {order : List Str → List Str} (ho : IsOrder order) (name name' : Str) (rs : List DocRequest) :
    SameIndex ((newMemoryIndex name').load ((buildIndex tok name rs).save order)) (buildIndex tok name rs) ↔
      AllUTF8 tok rs := by
  have hdocs : (buildIndex tok name rs).docs = rs.map docOf := buildIndex_docs tok name rs
  constructor
  · rintro ⟨h1, h2⟩ r hr
    have hd : jsonDoc (docOf r) = docOf r := by
      have h1 : (buildIndex tok name rs).docs.map jsonDoc = (buildIndex tok name rs).docs := h1
      rw [hdocs, List.map_map] at h1
      exact List.map_inj_left.1 h1 r hr
    obtain ⟨hn, hc⟩ := (jsonDoc_eq_iff _).1 hd
    refine ⟨hn, hc, fun t ht => ?_⟩
    obtain ⟨l, hl⟩ := (GoMap.mem_keys_iff _ _).1 ((mem_keys_build (name := name)).2 ⟨r, hr, ht⟩)
    have := h2 t
    rw [load_get, hl] at this
    cases hf : (order (buildIndex tok name rs).inverted.keys).reverse.find? (fun u => decide (jsonString u = t)) with
    | some u =>
      have := List.find?_some hf
      rw [decide_eq_true_eq] at this
      rw [← this]
      exact jsonString_valid u
    | none =>
      rw [hf] at this
      cases this
  · intro h
    refine ⟨?_, fun k => ?_⟩
    · show (buildIndex tok name rs).docs.map jsonDoc = (buildIndex tok name rs).docs
      rw [hdocs, List.map_map]
      refine List.map_congr_left fun r hr => ?_
      exact (jsonDoc_eq_iff _).2 ⟨(h r hr).1, (h r hr).2.1⟩
    · rw [load_get_valid _ _ ho]
      · cases (buildIndex tok name rs).inverted.get k <;> rfl
      · intro t ht
        obtain ⟨r, hr, ht⟩ := mem_keys_build.1 ht
        exact (h r hr).2.2 t ht

/-- The claim for documents and tokens that are UTF-8: every search, with any engine, before and after any further
`Put`s. -/
theorem C105_round_trip_partial {order : List Str → List Str} (ho : IsOrder order) (name name' : Str) {rs : List DocRequest}
    (h : AllUTF8 tok rs) (rs' : List DocRequest) (cp : CopyFn) (payload : Str) (engine : Engine) :
    (rs'.foldl (MemoryIndex.put tok) ((newMemoryIndex name').load ((buildIndex tok name rs).save order))).search
        cp tok payload engine
      = (buildIndex tok name (rs ++ rs')).search cp tok payload engine := by
  have h1 := sameIndex_puts (tok := tok) ((C105_guard_exact ho name name' rs).2 h) rs'
  have e : buildIndex tok name (rs ++ rs') = rs'.foldl (MemoryIndex.put tok) (buildIndex tok name rs) := by
    unfold buildIndex
    rw [List.foldl_append]
  unfold MemoryIndex.search
  rw [sameIndex_indexer h1, e]

/-- The claim holds of a list of documents, with all engines, exactly if all its strings are UTF-8. -/
theorem C105_search_exact {order : List Str → List Str} (ho : IsOrder order) (name name' : Str) (rs : List DocRequest) :
    (∀ (cp : CopyFn) (payload : Str) (engine : Engine),
      ((newMemoryIndex name').load ((buildIndex tok name rs).save order)).search cp tok payload engine
        = (buildIndex tok name rs).search cp tok payload engine) ↔ AllUTF8 tok rs := by
  constructor
  · intro h
    rw [← C105_guard_exact ho name name' rs]
    refine ⟨?_, fun k => ?_⟩
    · have hdoc : ∀ i : Nat, ((newMemoryIndex name').load ((buildIndex tok name rs).save order)).docs[i]?
          = (buildIndex tok name rs).docs[i]? := by
        intro i
        have := h plainCopy [] fun _ ix => (ix.document i).map fun d => [{ document := d, hits := 0 }]
        simp only [MemoryIndex.search, MemoryIndex.indexer, MemoryIndex.document] at this
        cases h1 : ((newMemoryIndex name').load ((buildIndex tok name rs).save order)).docs[i]? <;>
          cases h2 : (buildIndex tok name rs).docs[i]? <;> simp_all
      exact List.ext_getElem? hdoc
    · have key := h plainCopy [] fun _ ix => if ix.indexed k = (buildIndex tok name rs).inverted.get k then none else some []
      have e : (buildIndex tok name rs).search plainCopy tok [] (fun _ ix =>
          if ix.indexed k = (buildIndex tok name rs).inverted.get k then none else some []) = none := if_pos rfl
      by_cases he : ((newMemoryIndex name').load ((buildIndex tok name rs).save order)).inverted.get k
          = (buildIndex tok name rs).inverted.get k
      · exact he
      · exact nomatch (show some [] = none from (if_neg he).symm.trans (key.trans e))
  · intro h cp payload engine
    exact C105_round_trip_partial ho name name' h [] cp payload engine |>.trans (by rw [List.append_nil])

/-- False for every tokenizer: a document whose name is not UTF-8 comes back with another name. -/
theorem C105_refuted (tok : Tokenizer) : ¬ SaveClaim tok := by
  intro h
  have := h id (fun l => .refl l) [] [] [newDocRequest [0xFF] []] plainCopy [] noopAllSearch
  simp only [MemoryIndex.search, noopAllSearch, MemoryIndex.indexer, MemoryIndex.len] at this
  have e : (buildIndex tok [] [newDocRequest [0xFF] []]).docs = [{ name := [0xFF], content := [] }] := rfl
  have e1 : (MemoryIndex.document (buildIndex tok [] [newDocRequest [0xFF] []]) 0) = some { name := [0xFF], content := [] } := rfl
  have e2 : (MemoryIndex.document ((newMemoryIndex []).load ((buildIndex tok [] [newDocRequest [0xFF] []]).save id)) 0)
      = some { name := [0xEF, 0xBF, 0xBD], content := [] } := by
    unfold MemoryIndex.document
    rw [(C105_load_exact _ _ _).1, e]
    decide +kernel
  have l1 : (buildIndex tok [] [newDocRequest [0xFF] []]).docs.length = 1 := rfl
  have l2 : ((newMemoryIndex []).load ((buildIndex tok [] [newDocRequest [0xFF] []]).save id)).docs.length = 1 := rfl
  rw [l1, l2] at this
  simp only [List.range_one, toResults, e1, e2] at this
  simp at this

/-- A tokenizer of the package that does not keep U+FFFD, with any lower-case and stop-word filters, gives tokens
that are UTF-8, whatever the text. -/
theorem C105_tokens_valid (c : CleanTokenizer) (hc : c.keeps runeError = false) (fs : List Filter)
    (hf : ∀ f ∈ fs, (∃ uni, CaseTable uni ∧ f = lowerCaseFilter uni) ∨ ∃ sw, f = stopWordsFilter sw) (text : Str) :
    ∀ t ∈ (newTokenizationPipeline c.tokenize fs).tokenize text, ValidUTF8 t := by
  have base : ∀ t ∈ c.tokenize text, ValidUTF8 t := by
    intro t ht
    refine valid_of_no_error t fun he => ?_
    have := (C01_token_characters_are_kept c text t ht).2 _ he
    rw [hc] at this
    cases this
  unfold TokenizationPipeline.tokenize newTokenizationPipeline
  simp only
  generalize c.tokenize text = ts at base
  induction fs generalizing ts with
  | nil => exact base
  | cons f fs ih =>
    refine ih (fun g hg => hf g (List.mem_cons_of_mem _ hg)) (f ts) ?_
    rcases hf f List.mem_cons_self with ⟨uni, hu, rfl⟩ | ⟨sw, rfl⟩
    · intro t ht
      obtain ⟨u, hu', rfl⟩ := List.mem_map.1 ht
      exact (C05_output_characters uni hu u).2.1
    · intro t ht
      exact base t ((C06_order_kept sw ts).subset ht)

/-- Loading into an index that is in use, all strings UTF-8: its documents are gone, but its tokens stay. -/
theorem C105_into_used {order : List Str → List Str} (ho : IsOrder order) (name name' : Str) (rs old : List DocRequest)
    (h : AllUTF8 tok rs) :
    let mi := (buildIndex tok name' old).load ((buildIndex tok name rs).save order)
    mi.docs = (buildIndex tok name rs).docs ∧
    ∀ t, mi.inverted.get t = if positions tok rs t ≠ [] then some (positions tok rs t)
      else (buildIndex tok name' old).inverted.get t := by
  refine ⟨((C105_guard_exact ho name name rs).2 h).1, fun t => ?_⟩
  rw [load_get_valid _ _ ho]
  · rw [buildIndex_inverted_get tok name rs]
    by_cases hp : positions tok rs t = [] <;> simp [hp]
  · intro t ht
    obtain ⟨r, hr, ht⟩ := mem_keys_build.1 ht
    exact (h r hr).2.2 t ht

/-- Then a search for a token that only the old documents had panics exactly if one of them was in a place behind the
saved documents; otherwise it finds documents without the token. -/
theorem C105_into_used_search {order : List Str → List Str} (ho : IsOrder order) (name name' : Str) (rs old : List DocRequest)
    (h : AllUTF8 tok rs) (cp : CopyFn) (t : Str) (ht : positions tok rs t = []) (hold : positions tok old t ≠ []) :
    let mi := (buildIndex tok name' old).load ((buildIndex tok name rs).save order)
    (linearSearch [t] (mi.indexer cp) = none ↔ ∃ i ∈ positions tok old t, rs.length ≤ i) ∧
    ∀ res, linearSearch [t] (mi.indexer cp) = some res →
      res.map (·.document) = (positions tok old t).filterMap fun i => (rs[i]?).map docOf := by
  intro mi
  obtain ⟨hd, hg⟩ := C105_into_used ho name name' rs old h
  have hd : mi.docs = rs.map docOf := hd.trans (buildIndex_docs tok name rs)
  have hi : mi.inverted.get t = some (positions tok old t) := by
    have := hg t
    rw [if_neg (by simpa using ht), buildIndex_inverted_get, if_neg hold] at this
    exact this
  have hx : (mi.indexer cp).indexed t = some (positions tok old t) := by
    have hc := cp.contents (mi.inverted.get t)
    show cp.copy (mi.inverted.get t) = _
    rw [hi] at hc ⊢
    cases hcc : cp.copy (some (positions tok old t)) with
    | none => rw [hcc] at hc; exact absurd hc.symm hold
    | some l => rw [hcc] at hc; simpa using hc
  have hdoc : ∀ i, (mi.indexer cp).document i = (rs[i]?).map docOf := by
    intro i
    show mi.docs[i]? = _
    rw [hd, List.getElem?_map]
  have hr : linearSearch [t] (mi.indexer cp) = toResults (mi.indexer cp) 1 (positions tok old t) := by
    simp only [linearSearch, hx, linearLoop, List.length_singleton]
  rw [hr]
  generalize positions tok old t = ps
  clear hx hr hi hold ht hg
  induction ps with
  | nil => simp [toResults]
  | cons i ps ih =>
    obtain ⟨ih1, ih2⟩ := ih
    simp only [toResults, hdoc]
    cases hri : rs[i]? with
    | none =>
      simp only [Option.map_none]
      refine ⟨⟨fun _ => ⟨i, List.mem_cons_self, List.getElem?_eq_none_iff.1 hri⟩, fun _ => trivial⟩, fun _ e => by cases e⟩
    | some r =>
      have hlt := (List.getElem?_eq_some_iff.1 hri).1
      simp only [Option.map_some]
      cases hps : toResults (mi.indexer cp) 1 ps with
      | none =>
        obtain ⟨j, hj, hjl⟩ := ih1.1 hps
        exact ⟨⟨fun _ => ⟨j, List.mem_cons_of_mem _ hj, hjl⟩, fun _ => rfl⟩, fun _ e => by cases e⟩
      | some res =>
        refine ⟨⟨fun e => by (cases e), ?_⟩, ?_⟩
        · rintro ⟨j, hj, hjl⟩
          rcases List.mem_cons.1 hj with rfl | hj
          · omega
          · have := ih1.2 ⟨j, hj, hjl⟩
            rw [hps] at this
            cases this
        · intro res' e
          injection e with e
          subst e
          rw [List.map_cons, ih2 res hps, List.filterMap_cons, hri]
          rfl

/-! ## Examples -/

def savedRequests : List DocRequest := [newDocRequest (str "ñ") (str "java go"), newDocRequest (str "b") (str "go")]

theorem valid_of_fixed {s : Str} (h : jsonString s = s) : ValidUTF8 s := (jsonString_eq_iff s).1 h

/-- The guard is met, also by names that are not ASCII. -/
example : AllUTF8 spaceTok savedRequests := by
  have h : ∀ r ∈ savedRequests, jsonString r.name = r.name ∧ jsonString r.content = r.content ∧
      ∀ t ∈ spaceTok r.statement, jsonString t = t := by decide +kernel
  exact fun r hr => ⟨valid_of_fixed (h r hr).1, valid_of_fixed (h r hr).2.1, fun t ht => valid_of_fixed ((h r hr).2.2 t ht)⟩
/-- What is saved, in increasing order of the tokens. -/
example : (buildIndex spaceTok (str "x") savedRequests).save List.reverse =
    { indexed := [{ name := str "ñ", content := str "java go" }, { name := str "b", content := str "go" }]
      inverted := [(str "go", [0, 1]), (str "java", [0])] } := by decide +kernel
/-- Two tokens that are written alike: the second takes the place of the first, and neither is found. -/
example : ((newMemoryIndex []).load ((buildIndex spaceTok [] [newDocRequest [0x61] [0xFE, 0x20, 0x62],
    newDocRequest [0x62] [0xFF]]).save id)).inverted = [([0xEF, 0xBF, 0xBD], [1]), ([0x62], [0])] := by decide +kernel
/-- An index in use with three documents, the last with the token `rust`; the two saved ones are loaded into it.  Then
`rust` panics, and `c`, which was in the second document, finds the second saved document. -/
def usedRequests : List DocRequest :=
  [newDocRequest (str "p") (str "go"), newDocRequest (str "q") (str "c"), newDocRequest (str "r") (str "rust")]
example : linearSearch [str "rust"] (((buildIndex spaceTok [] usedRequests).load
    ((buildIndex spaceTok [] savedRequests).save id)).indexer plainCopy) = none := by decide +kernel
example : linearSearch [str "c"] (((buildIndex spaceTok [] usedRequests).load
    ((buildIndex spaceTok [] savedRequests).save id)).indexer plainCopy)
    = some [{ document := { name := str "b", content := str "go" }, hits := 1 }] := by decide +kernel
example : positions spaceTok savedRequests (str "rust") = [] ∧ positions spaceTok usedRequests (str "rust") = [2] := by
  refine ⟨?_, ?_⟩ <;> decide +kernel
/-- A tokenizer that keeps ASCII letters does not keep U+FFFD. -/
example : (newKeepAlphanumericTokenizer (fun _ => false) (fun r => 0x61 ≤ r && r ≤ 0x7A)).keeps runeError = false := by
  decide +kernel

end Visigoth
