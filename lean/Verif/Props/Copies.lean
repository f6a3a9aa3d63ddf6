import Verif.Proofs.Copies
import Verif.Props.AnalyzeMem
/-!
# Copies of an index, and its exported fields (C103)

The claim: a copy of an index (`c := *mi`) is a snapshot.  It is false (`C103_refuted`): the copy shares the map
and the array of documents.
-/
namespace Visigoth

variable {tok : Tokenizer}

/-- The claim, for one engine: what a copy answers is not changed by `Put`s to the original. -/
def SnapshotClaim (cp : CopyFn) (tok : Tokenizer) (engine : Engine) : Prop :=
  ∀ (acts : List CopyAct) (v : Nat) (grow : Nat → Nat) (rs : List DocRequest) (tokens : List Str),
    let w := ({} : Copies).run tok acts
    w.hasMap v →
    (((w.run tok [.copy v]).run tok (putsTo grow v rs)).index w.values.length).map (fun x => engine tokens (x.indexer cp))
      = ((w.run tok [.copy v]).index w.values.length).map fun x => engine tokens (x.indexer cp)

/-- What `Put` does.  To the variable itself: what it does to an index by itself, or, if the map is nil, only the
document is appended.  To any other variable: if it has the same array, and the array has room, the cell behind the
documents is overwritten; if it has the same map, it gets the postings. -/
theorem C103_put_exact (acts : List CopyAct) {v : Nat} {mi : IndexValue} (grow : Nat → Nat) (r : DocRequest) :
    let w := ({} : Copies).run tok acts
    w.values[v]? = some mi →
    ((w.step tok (.put grow v r)).2 = true ↔ mi.inverted = none ∧ tok r.statement ≠ []) ∧
    (w.step tok (.put grow v r)).1.index v = some
      (if mi.inverted = none then { w.fields mi with docs := (w.fields mi).docs ++ [newDoc r.id r.raw] }
       else (w.fields mi).put tok r) ∧
    ∀ u mu, u ≠ v → w.values[u]? = some mu → (w.step tok (.put grow v r)).1.index u = some
      { name := mu.name
        docs := if mu.docs.arr = mi.docs.arr ∧ w.room mi then (w.fields mu).docs.set mi.docs.len (newDoc r.id r.raw)
          else (w.fields mu).docs
        inverted := if mu.inverted = mi.inverted ∧ mi.inverted ≠ none then
            (tok r.statement).foldl (addPosting mi.docs.len) (w.fields mu).inverted
          else (w.fields mu).inverted } := by
  intro w hv
  have h : w.Valid := run_valid empty_valid acts
  refine ⟨put_panics hv, ?_, fun u mu huv hu => put_other h hv hu huv⟩
  by_cases hi : mi.inverted = none
  · rw [if_pos hi, put_self_nil h hv hi]
  · rw [if_neg hi, put_self h hv hi]

/-- No other statement changes a variable it is not about. -/
theorem C103_only_put (acts : List CopyAct) (a : CopyAct) {u : Nat} (ha : ¬ a.about u) (hp : ∀ g v r, a ≠ .put g v r) :
    let w := ({} : Copies).run tok acts
    u < w.values.length → (w.step tok a).1.index u = w.index u := by
  intro w hu
  have hu := List.getElem?_eq_getElem hu
  obtain ⟨k1, k2⟩ := copies_step_other (tok := tok) (run_valid empty_valid acts) hu a ha hp
  rw [index_eq k1, index_eq hu, k2]

/-- A copy, and `Put`s to the original only.  The original is as if it had not been copied.  The copy has its
documents, but the postings of all: `LinearSearch` panics exactly if a new document has all the tokens, `HitsSearch`
exactly if one has any of them, and otherwise both find what they found before; `NoopAllSearch` always does. -/
theorem C103_copy_exact (cp : CopyFn) (acts : List CopyAct) {v : Nat} {name : Str} {rs : List DocRequest}
    (grow : Nat → Nat) (rs' : List DocRequest) :
    let w := ({} : Copies).run tok acts
    w.hasMap v → w.index v = some (buildIndex tok name rs) →
    let w' := (w.run tok [.copy v]).run tok (putsTo grow v rs')
    w'.index v = some (buildIndex tok name (rs ++ rs')) ∧ ∃ x, w'.index w.values.length = some x ∧
      (∀ tokens, tokens ≠ [] → linearSearch tokens (x.indexer cp) =
        if rs'.any (hasAll tok tokens) then none else linearSearch tokens ((buildIndex tok name rs).indexer cp)) ∧
      (∀ sort tokens, hitsSearch sort tokens (x.indexer cp) =
        if rs'.any (fun r => tokens.any (hasToken tok r)) then none
        else hitsSearch sort tokens ((buildIndex tok name rs).indexer cp)) ∧
      ∀ tokens, noopAllSearch tokens (x.indexer cp) = noopAllSearch tokens ((buildIndex tok name rs).indexer cp) := by
  intro w hm hx w'
  have h := puts_trails (tok := tok) (grow := grow) (copy_trails (tok := tok) (run_valid empty_valid acts) hx hm) rs'
  have hb : rs'.foldl (MemoryIndex.put tok) (buildIndex tok name rs) = buildIndex tok name (rs ++ rs') := by
    unfold buildIndex; rw [List.foldl_append]
  rw [hb] at h
  refine ⟨h.orig, stale tok name rs rs', ?_, ?_, ?_, ?_⟩
  · have := h.behind
    rw [buildIndex_docs] at this
    exact this
  · intro tokens hne
    rw [linear_stale cp tokens hne, linearSearch_eq]
  · intro sort tokens; exact hits_stale cp sort tokens
  · intro tokens; exact noop_stale cp tokens

/-- Missing from the claim: new documents that have a token of the query. -/
theorem C103_snapshot_partial (cp : CopyFn) (acts : List CopyAct) {v : Nat} {name : Str} {rs : List DocRequest}
    (grow : Nat → Nat) (rs' : List DocRequest) (tokens : List Str) (hn : ∀ r ∈ rs', ∀ t ∈ tokens, hasToken tok r t = false) :
    let w := ({} : Copies).run tok acts
    w.hasMap v → w.index v = some (buildIndex tok name rs) →
    ∃ x, ((w.run tok [.copy v]).run tok (putsTo grow v rs')).index w.values.length = some x ∧
      linearSearch tokens (x.indexer cp) = linearSearch tokens ((buildIndex tok name rs).indexer cp) ∧
      ∀ sort, hitsSearch sort tokens (x.indexer cp) = hitsSearch sort tokens ((buildIndex tok name rs).indexer cp) := by
  intro w hm hx
  obtain ⟨_, x, h1, h2, h3, _⟩ := C103_copy_exact cp acts grow rs' hm hx
  refine ⟨x, h1, ?_, fun sort => ?_⟩
  · cases tokens with
    | nil => rfl
    | cons t ts =>
      rw [h2 _ (by simp), if_neg]
      intro h
      obtain ⟨r, hr, h⟩ := List.any_eq_true.1 h
      simp [hasAll, hn r hr t (by simp)] at h
  · rw [h3, if_neg]
    intro h
    obtain ⟨r, hr, h⟩ := List.any_eq_true.1 h
    obtain ⟨t, ht, h⟩ := List.any_eq_true.1 h
    rw [hn r hr t ht] at h
    cases h

theorem buildMixed_same (name : Str) (rs : List DocRequest) :
    buildIndex tok name rs = buildMixed name (rs.map fun r => (tok, r)) := by
  unfold buildIndex buildMixed
  rw [List.foldl_map]

/-- A copy, then one `Put` to the original and one to the copy.  Both documents are filed under the tokens of both;
if there was room in the array, the document of the original has been overwritten by that of the copy. -/
theorem C103_both (acts : List CopyAct) {v : Nat} {mi : IndexValue} {name : Str} {rs : List DocRequest}
    (grow grow' : Nat → Nat) (r r' : DocRequest) :
    let w := ({} : Copies).run tok acts
    w.hasMap v → w.values[v]? = some mi → w.fields mi = buildIndex tok name rs →
    let w' := w.run tok [.copy v, .put grow v r, .put grow' w.values.length r']
    let both : Tokenizer := fun _ => tok r.statement ++ tok r'.statement
    w'.index v = some (buildMixed name ((rs.map fun q => (tok, q)) ++ [(both, if w.room mi then r' else r)])) ∧
    w'.index w.values.length = some (buildMixed name ((rs.map fun q => (tok, q)) ++ [(both, r')])) := by
  intro w hm hv hf w' both
  have hval : w.Valid := run_valid empty_valid acts
  have hlt := lt_of_get hv
  obtain ⟨mi', p, hv', hi⟩ := hm
  obtain rfl : mi = mi' := by rw [hv] at hv'; exact Option.some.inj hv'
  have hlen := fields_length hval hv
  have hb : buildMixed name (rs.map fun q => (tok, q)) = w.fields mi := by rw [hf, buildMixed_same]
  obtain ⟨h1, h2, h3⟩ := hval.get hv
  -- after the copy
  have hs1 : (w.step tok (.copy v)).1 = { w with values := w.values ++ [mi] } := by simp only [Copies.step, hv]
  have hval1 : ({ w with values := w.values ++ [mi] } : Copies).Valid := hs1 ▸ step_valid hval (.copy v)
  generalize hw1 : ({ w with values := w.values ++ [mi] } : Copies) = w1 at hs1 hval1
  have hv1 : w1.values[v]? = some mi := by rw [← hw1]; simp only [List.getElem?_append_left hlt, hv]
  have hu1 : w1.values[w.values.length]? = some mi := by rw [← hw1]; simp
  have hf1 : w1.fields mi = w.fields mi := by rw [← hw1]; rfl
  have hr1 : w1.room mi ↔ w.room mi := by rw [← hw1]; exact .rfl
  have hne : w.values.length ≠ v := by omega
  have hin : mi.inverted ≠ none := by rw [hi]; simp
  have hcc : mi.inverted = mi.inverted ∧ mi.inverted ≠ none := ⟨rfl, hin⟩
  -- after the first `Put`
  have hval2 := step_valid (tok := tok) hval1 (.put grow v r)
  have hxv := put_self (tok := tok) (grow := grow) (r := r) hval1 hv1 hin
  have hxu := put_other (tok := tok) (grow := grow) (r := r) hval1 hv1 hu1 hne
  have hv2 : (w1.step tok (.put grow v r)).1.values[v]? = some (putValue grow w1 mi r) := by
    rw [put_values hv1, List.getElem?_set_self (lt_of_get hv1)]
  have hu2 := put_keeps_value (tok := tok) (grow := grow) (r := r) hu1 hne
  have ha2 := put_arrays (tok := tok) (grow := grow) (r := r) hv1
  have ha1 : w1.arrays = w.arrays := by rw [← hw1]
  generalize hw2 : (w1.step tok (.put grow v r)).1 = w2 at hval2 hxv hxu hv2 hu2 ha2
  rw [index_eq hv2, Option.some.injEq] at hxv
  rw [index_eq hu2, Option.some.injEq, if_pos hcc, List.set_eq_of_length_le (by rw [hf1]; omega), ite_self] at hxu
  have hw' : w' = (w2.step tok (.put grow' w.values.length r')).1 := by
    show ((((w.step tok (.copy v)).1.step tok (.put grow v r)).1).step tok (.put grow' w.values.length r')).1 = _
    rw [hs1, hw2]
  have hmix : ∀ q : DocRequest, buildMixed name ((rs.map fun q => (tok, q)) ++ [(both, q)]) = (w.fields mi).put both q := by
    intro q
    rw [← hb]
    unfold buildMixed
    rw [List.foldl_append]
    rfl
  rw [hw', hmix, hmix]
  constructor
  · have hcc' : (putValue grow w1 mi r).inverted = mi.inverted ∧ mi.inverted ≠ none := ⟨rfl, hin⟩
    rw [put_other hval2 hu2 hv2 (Ne.symm hne), if_pos hcc', hxv, hf1]
    have hd : (if (putValue grow w1 mi r).docs.arr = mi.docs.arr ∧ w2.room mi then
          ((w.fields mi).put tok r).docs.set mi.docs.len (newDoc r'.id r'.raw) else ((w.fields mi).put tok r).docs)
        = (w.fields mi).docs ++ [docOf (if w.room mi then r' else r)] := by
      by_cases hroom : w.room mi
      · have e1 : appendDoc grow w1.arrays mi.docs (newDoc r.id r.raw)
            = (w.arrays.set mi.docs.arr (((w.arrays[mi.docs.arr]?).getD []).set mi.docs.len (newDoc r.id r.raw)), { mi.docs with len := mi.docs.len + 1 }) := by
          unfold appendDoc
          have hroom' : mi.docs.len < ((w.arrays[mi.docs.arr]?).getD []).length := hroom
          rw [ha1]
          simp only
          rw [if_pos hroom']
        have c : (putValue grow w1 mi r).docs.arr = mi.docs.arr ∧ w2.room mi := by
          refine ⟨by unfold putValue; rw [e1], ?_⟩
          unfold Copies.room
          rw [ha2, e1]
          simp only [List.getElem?_set_self h1, Option.getD_some, List.length_set]
          exact hroom
        rw [if_pos c, if_pos hroom]
        show ((w.fields mi).docs ++ [_]).set _ _ = _
        rw [← hlen, List.set_append_right _ _ (Nat.le_refl _), Nat.sub_self]
        rfl
      · rw [if_neg, if_neg hroom]
        · rfl
        · rintro ⟨e, -⟩
          unfold putValue appendDoc at e
          have hroom' : ¬ mi.docs.len < ((w.arrays[mi.docs.arr]?).getD []).length := hroom
          rw [ha1] at e
          simp only at e
          rw [if_neg hroom'] at e
          simp only [allocDocs] at e
          omega
    rw [hd]
    unfold MemoryIndex.put
    simp only [hlen, Option.some.injEq]
    have hl2 : ((tok r.statement ++ tok r'.statement).foldl (addPosting mi.docs.len) (w.fields mi).inverted)
        = (tok r'.statement).foldl (addPosting mi.docs.len) ((tok r.statement).foldl (addPosting mi.docs.len) (w.fields mi).inverted) :=
      List.foldl_append
    rw [← hl2]
    rfl
  · rw [put_self hval2 hu2 hin, hxu, hf1]
    unfold MemoryIndex.put
    simp only [hlen, Option.some.injEq]
    have hl2 : ((tok r.statement ++ tok r'.statement).foldl (addPosting mi.docs.len) (w.fields mi).inverted)
        = (tok r'.statement).foldl (addPosting mi.docs.len) ((tok r.statement).foldl (addPosting mi.docs.len) (w.fields mi).inverted) :=
      List.foldl_append
    rw [← hl2]
    rfl

/-- A copy whose `Docs` and `InvertedIndex` are replaced by copies of their contents is a snapshot: as long as it is
not copied itself, statements about other variables do not change it, and statements about it change no others. -/
theorem C103_deep_copy (acts later : List CopyAct) {v : Nat} {x : MemoryIndex} :
    let w := ({} : Copies).run tok acts
    let u := w.values.length
    let w' := (w.run tok (deepCopy v u x)).run tok later
    w.index v = some x → CopyAct.copy u ∉ later →
    (w.run tok (deepCopy v u x)).index u = some x ∧
    (∀ y, y < u → (w.run tok (deepCopy v u x)).index y = w.index y) ∧
    (∀ a : CopyAct, ¬ a.about u → (w'.step tok a).1.index u = w'.index u) ∧
    ∀ a : CopyAct, a.about u → a ≠ .copy u → ∀ y, y ≠ u → y < w'.values.length →
      (w'.step tok a).1.index y = w'.index y := by
  intro w u w' hx hc
  have h : w.Valid := run_valid empty_valid acts
  cases hv : w.values[v]? with
  | none => rw [Copies.index, hv] at hx; cases hx
  | some mi =>
    have hf : w.fields mi = x := by rw [index_eq hv] at hx; exact Option.some.inj hx
    obtain ⟨k1, k2, k3, k4⟩ := deepCopy_spec (tok := tok) h hv hf
    have hval : (w.run tok (deepCopy v u x)).Valid := run_valid h _
    obtain ⟨mu, p, hu, _⟩ := k2
    obtain ⟨a1, mu', a2⟩ := run_alone_self (tok := tok) (acts := later) hval k3 hu hc
    have hval' : w'.Valid := run_valid hval later
    refine ⟨k1, k4, fun a ha => (step_alone hval' a1 a2 a ha).2.2, fun a ha hne y hy hyl => ?_⟩
    exact (step_alone_self hval' a1 a2 a ha hne).2.2 y hy hyl

/-- Which contents of the exported fields are those of an index built by `Put`s: the posting lists are not empty,
increasing, and within the documents. -/
theorem C103_fields_exact (name : Str) (ds : List Doc) (m : GoMap Str (List Nat)) :
    (∃ (tok : Tokenizer) (rs : List DocRequest), (buildIndex tok name rs).docs = ds ∧
      ∀ t, (buildIndex tok name rs).inverted.get t = m.get t) ↔
    ∀ t l, m.get t = some l → l ≠ [] ∧ l.Pairwise (· < ·) ∧ ∀ i ∈ l, i < ds.length := by
  constructor
  · rintro ⟨tok, rs, rfl, hm⟩ t l hl
    rw [← hm, buildIndex_inverted_get] at hl
    split at hl
    · cases hl
    · next hne =>
      obtain rfl := Option.some.inj hl
      refine ⟨hne, positions_sorted _ _ _, fun i hi => ?_⟩
      rw [buildIndex_docs, List.length_map]
      exact positions_lt _ _ _ i hi
  · intro h
    refine ⟨tokensFrom m, requestsFor ds, ?_, fun t => ?_⟩
    · rw [buildIndex_docs, requestsFor]
      refine List.ext_getElem? fun i => ?_
      rw [List.getElem?_map, List.getElem?_mapIdx]
      cases ds[i]? <;> rfl
    · rw [buildIndex_inverted_get]
      cases hg : m.get t with
      | none =>
        have := positions_for m ds t (by rw [hg]; exact List.Pairwise.nil) (by rw [hg]; simp)
        rw [this, hg, Option.getD_none, if_pos rfl]
      | some l =>
        obtain ⟨h1, h2, h3⟩ := h t l hg
        have := positions_for m ds t (by rw [hg]; exact h2) (by rw [hg]; exact h3)
        rw [this, hg, Option.getD_some, if_neg h1]

/-- Whatever the fields have been assigned: the engines never panic, whatever the query, exactly if no posting is
beyond the documents. -/
theorem C103_safe_exact (cp : CopyFn) (sort : List SearchResult → List SearchResult) (x : MemoryIndex) :
    ((∀ tokens, linearSearch tokens (x.indexer cp) ≠ none) ↔ ∀ t l, x.inverted.get t = some l → ∀ i ∈ l, i < x.docs.length) ∧
    ((∀ tokens, hitsSearch sort tokens (x.indexer cp) ≠ none) ↔ ∀ t l, x.inverted.get t = some l → ∀ i ∈ l, i < x.docs.length) ∧
    ∀ tokens, noopAllSearch tokens (x.indexer cp) ≠ none := by
  have hlist : ∀ t, (x.indexer cp).listed t = (x.inverted.get t).getD [] := fun t => cp.contents _
  have hdoc : ∀ i, (x.indexer cp).document i = none ↔ x.docs.length ≤ i := fun i => List.getElem?_eq_none_iff
  have hall : (x.indexer cp).docsAt (List.range x.docs.length) ≠ none := by
    rw [ne_eq, docsAt_none]
    rintro ⟨i, hi, h⟩
    rw [hdoc] at h
    rw [List.mem_range] at hi
    omega
  have hmem : (∀ t l, x.inverted.get t = some l → ∀ i ∈ l, i < x.docs.length) ↔
      ∀ t, ∀ i ∈ (x.indexer cp).listed t, i < x.docs.length := by
    constructor
    · intro h t i hi
      rw [hlist] at hi
      cases hg : x.inverted.get t with
      | none => rw [hg] at hi; cases hi
      | some l => rw [hg] at hi; exact h t l hg i hi
    · intro h t l hg i hi
      exact h t i (by rw [hlist, hg]; exact hi)
  rw [hmem]
  refine ⟨⟨fun h t i hi => ?_, fun h tokens => ?_⟩, ⟨fun h t i hi => ?_, fun h tokens => ?_⟩, fun tokens => ?_⟩
  · have := h [t]
    rw [linearSearch_any, ne_eq, Option.map_eq_none_iff, docsAt_none] at this
    refine Nat.lt_of_not_le fun hle => this ⟨i, hi, (hdoc i).2 hle⟩
  · cases tokens with
    | nil => simp [linearSearch]
    | cons t ts =>
      rw [linearSearch_any, ne_eq, Option.map_eq_none_iff, docsAt_none]
      rintro ⟨i, hi, hn⟩
      rw [hdoc] at hn
      have := h t i ((narrowed_sublist _ ts _).1.subset hi)
      omega
  · have := h [t]
    rw [hitsSearch_any] at this
    refine Nat.lt_of_not_le fun hle => this ?_
    have : (x.indexer cp).docsAt ([t].flatMap (x.indexer cp).listed) = none := by
      rw [docsAt_none]
      exact ⟨i, by simpa using hi, (hdoc i).2 hle⟩
    rw [this]
  · rw [hitsSearch_any]
    have h1 : (x.indexer cp).docsAt (tokens.flatMap (x.indexer cp).listed) ≠ none := by
      rw [ne_eq, docsAt_none]
      rintro ⟨i, hi, hn⟩
      rw [hdoc] at hn
      obtain ⟨t, _, hi⟩ := List.mem_flatMap.1 hi
      have := h t i hi
      omega
    have h2 : (x.indexer cp).docsAt (List.range (x.indexer cp).len) ≠ none := hall
    revert h1 h2
    cases (x.indexer cp).docsAt (tokens.flatMap (x.indexer cp).listed) <;>
      cases (x.indexer cp).docsAt (List.range (x.indexer cp).len) <;> simp
  · unfold noopAllSearch
    rw [toResults_any, ne_eq, Option.map_eq_none_iff]
    exact hall

/-- Room for one document more in every new array. -/
def oneMore : Nat → Nat := fun _ => 1

/-- An index with one document, in an array with room for another. -/
def copySample : List CopyAct := [.new (str "courses"), .put oneMore 0 (newDocRequest (str "d0") (str "java"))]

/-- The claim is false: one document more in the original, and the same query of the copy panics. -/
theorem C103_refuted (cp : CopyFn) (sort : List SearchResult → List SearchResult) :
    ¬ SnapshotClaim cp spaceTok linearSearch ∧ ¬ SnapshotClaim cp spaceTok (hitsSearch sort) := by
  have hm : (({} : Copies).run spaceTok copySample).hasMap 0 :=
    ⟨{ name := str "courses", docs := { arr := 1, len := 1 }, inverted := some 0 }, 0, rfl, rfl⟩
  have hx : (({} : Copies).run spaceTok copySample).index 0
      = some (buildIndex spaceTok (str "courses") [newDocRequest (str "d0") (str "java")]) := by decide +kernel
  obtain ⟨_, x, e, h1, h2, _⟩ := C103_copy_exact cp copySample oneMore [newDocRequest (str "d1") (str "java")] hm hx
  obtain ⟨_, y, e', g1, g2, _⟩ := C103_copy_exact cp copySample oneMore [] hm hx
  constructor
  · intro h
    have := h copySample 0 oneMore [newDocRequest (str "d1") (str "java")] [str "java"] hm
    have e'' : ((({} : Copies).run spaceTok copySample).run spaceTok [.copy 0]).index
        (({} : Copies).run spaceTok copySample).values.length = some y := e'
    rw [e, e'', Option.map_some, Option.map_some, Option.some.injEq, h1 _ (by simp), g1 _ (by simp),
      if_pos (by decide +kernel), linearSearch_eq] at this
    cases this
  · intro h
    have := h copySample 0 oneMore [newDocRequest (str "d1") (str "java")] [str "java"] hm
    have e'' : ((({} : Copies).run spaceTok copySample).run spaceTok [.copy 0]).index
        (({} : Copies).run spaceTok copySample).values.length = some y := e'
    rw [e, e'', Option.map_some, Option.map_some, Option.some.injEq, h2, g2, if_pos (by decide +kernel)] at this
    have hne := (C103_safe_exact cp sort (buildIndex spaceTok (str "courses") [newDocRequest (str "d0") (str "java")])).2.1.2
      (fun t l hl => ((C103_fields_exact _ _ _).1 ⟨_, _, rfl, fun _ => rfl⟩ t l hl).2.2) [str "java"]
    exact hne this.symm

/-- `C103_refuted`, `C103_put_exact`: the copy of the index with one document, and a `Put` to the original. -/
example :
    let w := ({} : Copies).run spaceTok (copySample ++ [.copy 0, .put oneMore 0 (newDocRequest (str "d1") (str "java go"))])
    (w.index 1).map (fun x => linearSearch [str "java"] (x.indexer plainCopy)) = some none ∧
    (w.index 1).map (fun x => linearSearch [str "lisp"] (x.indexer plainCopy)) = some (some []) ∧
    (w.index 1).map (fun x => linearSearch [str "java", str "lisp"] (x.indexer plainCopy)) = some (some []) ∧
    (w.index 1).map (fun x => x.docs.length) = some 1 := by
  refine ⟨?_, ?_, ?_, ?_⟩ <;> decide +kernel

/-- `C103_both`: a `Put` to each; the original's new document has become the copy's. -/
example :
    let w := ({} : Copies).run spaceTok (copySample ++ [.copy 0,
      .put oneMore 0 (newDocRequest (str "d1") (str "go")), .put oneMore 1 (newDocRequest (str "d2") (str "lisp"))])
    (w.index 0).map (fun x => linearSearch [str "go"] (x.indexer plainCopy))
      = some (some [{ document := newDoc (str "d2") (str "lisp"), hits := 1 }]) ∧
    (w.index 1).map (fun x => linearSearch [str "go"] (x.indexer plainCopy))
      = some (some [{ document := newDoc (str "d2") (str "lisp"), hits := 1 }]) := by
  refine ⟨?_, ?_⟩ <;> decide +kernel

/-- `C103_both` without room: each keeps its document, filed under the tokens of both. -/
example :
    let w := ({} : Copies).run spaceTok [.new (str "courses"), .copy 0,
      .put oneMore 0 (newDocRequest (str "d1") (str "go")), .put oneMore 1 (newDocRequest (str "d2") (str "lisp"))]
    (w.index 0).map (fun x => linearSearch [str "lisp"] (x.indexer plainCopy))
      = some (some [{ document := newDoc (str "d1") (str "go"), hits := 1 }]) ∧
    (w.index 1).map (fun x => linearSearch [str "go"] (x.indexer plainCopy))
      = some (some [{ document := newDoc (str "d2") (str "lisp"), hits := 1 }]) := by
  refine ⟨?_, ?_⟩ <;> decide +kernel

/-- `C103_deep_copy`: the same two `Put`s after a deep copy. -/
example :
    let x : MemoryIndex := buildIndex spaceTok (str "courses") [newDocRequest (str "d0") (str "java")]
    let w := ({} : Copies).run spaceTok (copySample ++ deepCopy 0 1 x ++
      [.put oneMore 0 (newDocRequest (str "d1") (str "go")), .put oneMore 1 (newDocRequest (str "d2") (str "lisp"))])
    w.index 0 = some (buildIndex spaceTok (str "courses")
      [newDocRequest (str "d0") (str "java"), newDocRequest (str "d1") (str "go")]) ∧
    w.index 1 = some (buildIndex spaceTok (str "courses")
      [newDocRequest (str "d0") (str "java"), newDocRequest (str "d2") (str "lisp")]) := by
  refine ⟨?_, ?_⟩ <;> decide +kernel

/-- `C103_put_exact` with the nil map: the `Put` panics, and has appended the document. -/
example :
    let w := ({} : Copies).run spaceTok (copySample ++ [.setInverted 0 none])
    (w.step spaceTok (.put oneMore 0 (newDocRequest (str "d1") (str "go")))).2 = true ∧
    (w.step spaceTok (.put oneMore 0 (newDocRequest (str "d1") (str "")))).2 = false ∧
    ((w.step spaceTok (.put oneMore 0 (newDocRequest (str "d1") (str "go")))).1.index 0).map (fun x => x.docs.length) = some 2 := by
  refine ⟨?_, ?_, ?_⟩ <;> decide +kernel

/-- `C103_safe_exact`, `C103_fields_exact`: the documents of an index truncated. -/
example :
    let w := ({} : Copies).run spaceTok (copySample ++ [.setDocs 0 []])
    (w.index 0).map (fun x => linearSearch [str "java"] (x.indexer plainCopy)) = some none ∧
    (w.index 0).map (fun x => noopAllSearch [str "java"] (x.indexer plainCopy)) = some (some []) := by
  refine ⟨?_, ?_⟩ <;> decide +kernel

end Visigoth
