import Verif.Spec.OpenIndex
import Verif.Props.Indexer
import Verif.Props.Save
/-!
# Index values made outside the package (C107)

The claim: an index works however it was made and whatever was assigned to its exported fields.  It is false
(`C107_refuted`).
-/
namespace Visigoth

variable {tok : Tokenizer}

theorem fileTokens_panics (next : Nat) (ts : List Str) (inv : Option (GoMap Str (List Nat))) :
    (fileTokens next ts inv).2 = true ↔ inv = none ∧ ts ≠ [] := by
  induction ts generalizing inv with
  | nil => simp [fileTokens]
  | cons t ts ih =>
    cases inv with
    | none => simp [fileTokens]
    | some m =>
      simp only [fileTokens]
      split <;> simp [ih]

theorem fileTokens_some (next : Nat) (ts : List Str) (m : GoMap Str (List Nat)) :
    fileTokens next ts (some m) = (some (ts.foldl (addPosting next) m), false) := by
  induction ts generalizing m with
  | nil => rfl
  | cons t ts ih =>
    simp only [fileTokens, Option.bind_some, List.foldl_cons]
    by_cases h : next ∈ (m.get t).getD []
    · rw [if_pos h, ih]
      simp [addPosting, h]
    · rw [if_neg h, ih]
      simp [addPosting, h]

theorem fileTokens_none (next : Nat) (ts : List Str) : (fileTokens next ts none).1 = none := by
  cases ts <;> simp [fileTokens]

/-- When `Put` panics: the tokenizer is nil, or the map is nil and there is a token to be filed. -/
theorem C107_put_panics (v : OpenIndex) (r : DocRequest) :
    (v.put r).2 = true ↔ v.tok = none ∨ ∃ tok, v.tok = some tok ∧ v.inverted = none ∧ tok r.statement ≠ [] := by
  unfold OpenIndex.put
  cases h : v.tok with
  | none => simp
  | some tok => simp [fileTokens_panics]

/-- What `Put` leaves: nothing has changed if the tokenizer is nil; if the map is nil the document is stored and nothing
is filed, also if it panics; otherwise it does what `Put` of a new index does. -/
theorem C107_put_leaves (v : OpenIndex) (r : DocRequest) :
    (v.tok = none → (v.put r).1 = v) ∧
    (∀ tok, v.tok = some tok → v.inverted = none → (v.put r).1 = { v with docs := v.docs ++ [newDoc r.id r.raw] }) ∧
    (∀ tok m, v.tok = some tok → v.inverted = some m → v.put r =
      ({ v with docs := (MemoryIndex.put tok ⟨v.name, v.docs, m⟩ r).docs
                inverted := some (MemoryIndex.put tok ⟨v.name, v.docs, m⟩ r).inverted }, false)) := by
  obtain ⟨name, vt, docs, inv⟩ := v
  refine ⟨?_, ?_, ?_⟩
  · rintro rfl; rfl
  · rintro tok rfl rfl
    simp only [OpenIndex.put, fileTokens_none]
  · rintro tok m rfl rfl
    simp only [OpenIndex.put, fileTokens_some]
    rfl

/-- The tokenizer stays the one the index was made with. -/
theorem C107_tokenizer_fixed (start : OpenStart) (steps : List OpenStep) : (makeIndex start steps).tok = start.index.tok := by
  have key : ∀ (steps : List OpenStep) (v : OpenIndex), (steps.foldl OpenIndex.step v).tok = v.tok := by
    intro steps
    induction steps with
    | nil => intro v; rfl
    | cons a steps ih =>
      intro v
      rw [List.foldl_cons, ih]
      cases a with
      | put r =>
        show (v.put r).1.tok = v.tok
        unfold OpenIndex.put
        cases h : v.tok with
        | none => exact h
        | some tok => rfl
      | _ => rfl
  exact key steps _

theorem openIndex_document_none {v : OpenIndex} {cp : CopyFn} {i : Nat} :
    (v.indexer cp).document i = none ↔ v.docs.length ≤ i := List.getElem?_eq_none_iff

theorem openIndex_listed (v : OpenIndex) (cp : CopyFn) (t : Str) : (v.indexer cp).listed t = v.filed t :=
  cp.contents _

/-- Exactly which index values work: those with a tokenizer and a map (which is not needed if the tokenizer never gives a
token), under the tokens of which only documents are filed that there are. -/
theorem C107_works_exact (v : OpenIndex) :
    v.works ↔ ∃ tok, v.tok = some tok ∧ (v.inverted ≠ none ∨ ∀ s, tok s = []) ∧
      ∀ s, ∀ t ∈ tok s, ∀ i ∈ v.filed t, i < v.docs.length := by
  constructor
  · rintro ⟨hp, hs⟩
    cases ht : v.tok with
    | none =>
      have := hp (newDocRequest [] [])
      rw [(C107_put_panics v _).2 (.inl ht)] at this
      cases this
    | some tok =>
      refine ⟨tok, rfl, ?_, ?_⟩
      · by_cases hi : v.inverted = none
        · refine .inr fun s => ?_
          by_cases hne : tok s = []
          · exact hne
          · have := hp (newDocRequest [] s)
            rw [(C107_put_panics v _).2 (.inr ⟨tok, ht, hi, hne⟩)] at this
            cases this
        · exact .inl hi
      · intro s t hm i hi
        have h := (hs plainCopy s id).2.1
        simp only [OpenIndex.search, ht, ne_eq] at h
        rw [C100_hits_panics] at h
        refine Nat.lt_of_not_le fun hle => h ⟨i, openIndex_document_none.2 hle, .inr ⟨t, hm, ?_⟩⟩
        rw [openIndex_listed]
        exact hi
  · rintro ⟨tok, ht, hi, hs⟩
    refine ⟨fun r => ?_, fun cp payload sort => ?_⟩
    · cases hb : (v.put r).2 with
      | false => rfl
      | true =>
        rcases (C107_put_panics v r).1 hb with h | ⟨tok', h1, h2, h3⟩
        · rw [ht] at h; cases h
        · rw [ht] at h1
          cases h1
          rcases hi with hi | hi
          · exact absurd h2 hi
          · exact absurd (hi _) h3
    · simp only [OpenIndex.search, ht]
      have hall : ¬ ∃ i, i < (v.indexer cp).len ∧ (v.indexer cp).document i = none := by
        rintro ⟨i, h1, h2⟩
        exact absurd (openIndex_document_none.1 h2) (Nat.not_le.2 h1)
      refine ⟨?_, ?_, ?_, ?_⟩
      · cases hq : tok payload with
        | nil => simp [linearSearch]
        | cons t ts =>
          obtain ⟨ps, h1, -, h3⟩ := C100_linear_any_index (v.indexer cp) t ts
          rw [h3, ne_eq, Option.map_eq_none_iff, docsAt_none]
          rintro ⟨i, hi, hd⟩
          have := h1.subset hi
          rw [openIndex_listed] at this
          exact absurd (openIndex_document_none.1 hd) (Nat.not_le.2 (hs payload t (hq ▸ List.mem_cons_self) i this))
      · rw [ne_eq, C100_hits_panics]
        rintro ⟨i, hd, h | ⟨t, hm, h⟩⟩
        · exact hall ⟨i, h, hd⟩
        · rw [openIndex_listed] at h
          exact absurd (openIndex_document_none.1 hd) (Nat.not_le.2 (hs payload t hm i h))
      · rw [ne_eq, C100_noop_all_panics]
        exact hall
      · simp [noopZeroSearch]

/-- What `Put` files: nothing but the place of its own document. -/
theorem C107_filed (v : OpenIndex) (r : DocRequest) (t : Str) {i : Nat} (hi : i ∈ (v.put r).1.filed t) :
    i ∈ v.filed t ∨ i = v.docs.length := by
  have key : ∀ (ts : List Str) (m : GoMap Str (List Nat)),
      i ∈ ((ts.foldl (addPosting v.docs.length) m).get t).getD [] → i ∈ (m.get t).getD [] ∨ i = v.docs.length := by
    intro ts
    induction ts with
    | nil => exact fun m h => .inl h
    | cons u ts ih =>
      intro m h
      rcases ih _ h with h | h
      · unfold addPosting at h
        simp only at h
        split at h
        · exact .inl h
        · by_cases hu : t = u
          · subst hu
            rw [GoMap.get_set] at h
            simpa using h
          · rw [GoMap.get_set, if_neg (Ne.symm hu)] at h
            exact .inl h
      · exact .inr h
  obtain ⟨h1, h2, h3⟩ := C107_put_leaves v r
  cases ht : v.tok with
  | none => rw [h1 ht] at hi; exact .inl hi
  | some tok =>
    cases hm : v.inverted with
    | none =>
      rw [h2 tok ht hm] at hi
      exact .inl hi
    | some m =>
      rw [h3 tok m ht hm] at hi
      unfold OpenIndex.filed
      rw [hm]
      exact key _ _ hi

theorem put_length (v : OpenIndex) (r : DocRequest) : v.docs.length ≤ (v.put r).1.docs.length ∧
    (v.tok ≠ none → (v.put r).1.docs.length = v.docs.length + 1) := by
  unfold OpenIndex.put
  cases h : v.tok with
  | none => simp
  | some tok => simp

/-- A value that works goes on working when documents are put, if only documents that there are are filed, under
whatever token. -/
theorem C107_sound_kept {v : OpenIndex} (hs : v.sound) (r : DocRequest) : (v.put r).1.sound := by
  intro t i hi
  cases ht : v.tok with
  | none =>
    rw [(C107_put_leaves v r).1 ht] at hi ⊢
    exact hs t i hi
  | some tok =>
    rw [(put_length v r).2 (by simp [ht])]
    rcases C107_filed v r t hi with h | h
    · exact Nat.lt_succ_of_lt (hs t i h)
    · omega

theorem puts_keep (rs : List DocRequest) (v : OpenIndex) :
    (v.sound → ((rs.map OpenStep.put).foldl OpenIndex.step v).sound) ∧
    (v.inverted ≠ none → ((rs.map OpenStep.put).foldl OpenIndex.step v).inverted ≠ none) ∧
    v.docs.length ≤ ((rs.map OpenStep.put).foldl OpenIndex.step v).docs.length ∧
    ∀ t i, i ∈ ((rs.map OpenStep.put).foldl OpenIndex.step v).filed t → i ∈ v.filed t ∨ v.docs.length ≤ i := by
  induction rs generalizing v with
  | nil => exact ⟨id, id, Nat.le_refl _, fun _ _ h => .inl h⟩
  | cons r rs ih =>
    obtain ⟨h1, h2, h3, h4⟩ := ih (v.put r).1
    refine ⟨fun h => h1 (C107_sound_kept h r), fun h => h2 ?_, Nat.le_trans (put_length v r).1 h3, fun t i hi => ?_⟩
    · obtain ⟨g1, -, g3⟩ := C107_put_leaves v r
      cases ht : v.tok with
      | none => rw [g1 ht]; exact h
      | some tok =>
        cases hm : v.inverted with
        | none => exact absurd hm h
        | some m => rw [g3 tok m ht hm]; simp
    · rcases h4 t i hi with h | h
      · rcases C107_filed v r t h with h | h
        · exact .inl h
        · exact .inr (Nat.le_of_eq h.symm)
      · exact .inr (Nat.le_trans (put_length v r).1 h)

/-- The claim for an index made with a tokenizer, whatever was done to it, as long as it has a map and only documents
that there are are filed in it: it works, and goes on working after any further `Put`s.
Missing: literals, nil tokenizers, nil maps, and positions without a document (see `C107_works_exact`). -/
theorem C107_stays_partial {start : OpenStart} (ht : start.index.tok ≠ none) (steps : List OpenStep)
    (hm : (makeIndex start steps).inverted ≠ none) (hs : (makeIndex start steps).sound) (rs : List DocRequest) :
    (makeIndex start (steps ++ rs.map OpenStep.put)).works := by
  rw [C107_works_exact, C107_tokenizer_fixed]
  obtain ⟨tok, ht⟩ := Option.ne_none_iff_exists'.1 ht
  have e : makeIndex start (steps ++ rs.map OpenStep.put)
      = (rs.map OpenStep.put).foldl OpenIndex.step (makeIndex start steps) := by
    unfold makeIndex
    rw [List.foldl_append]
  obtain ⟨h1, h2, -⟩ := puts_keep rs (makeIndex start steps)
  rw [← e] at h1 h2
  exact ⟨tok, ht, .inl (h2 hm), fun s t _ i hi => h1 hs t i hi⟩

/-- In particular a new index with nothing done to it but `Put`s: it is the index that the other theorems are about. -/
theorem C107_puts_partial (name : Str) (tok : Tokenizer) (rs : List DocRequest) :
    makeIndex (.new name (some tok)) (rs.map OpenStep.put)
      = { name := name, tok := some tok, docs := (buildIndex tok name rs).docs
          inverted := some (buildIndex tok name rs).inverted } ∧
    (makeIndex (.new name (some tok)) (rs.map OpenStep.put)).works := by
  refine ⟨?_, ?_⟩
  · have key : ∀ (rs : List DocRequest) (mi : MemoryIndex),
        (rs.map OpenStep.put).foldl OpenIndex.step ⟨mi.name, some tok, mi.docs, some mi.inverted⟩
          = ⟨mi.name, some tok, (rs.foldl (MemoryIndex.put tok) mi).docs, some (rs.foldl (MemoryIndex.put tok) mi).inverted⟩ := by
      intro rs
      induction rs with
      | nil => intro mi; rfl
      | cons r rs ih =>
        intro mi
        rw [List.map_cons, List.foldl_cons, List.foldl_cons]
        refine Eq.trans ?_ (ih (mi.put tok r))
        congr 1
        show ((⟨mi.name, some tok, mi.docs, some mi.inverted⟩ : OpenIndex).put r).1 = _
        rw [(C107_put_leaves _ r).2.2 tok mi.inverted rfl rfl]
        rfl
    exact key rs (newMemoryIndex name)
  · have := C107_stays_partial (start := .new name (some tok)) (by simp [OpenStart.index]) []
      (by simp [makeIndex, OpenStart.index]) (by intro t i hi; exact nomatch hi) rs
    exact this

/-- Without a tokenizer, in particular as a literal, whatever is assigned to it or loaded into it: every `Put` panics and
changes nothing, every `Search` panics. -/
theorem C107_no_tokenizer {start : OpenStart} (ht : start.index.tok = none) (steps : List OpenStep) :
    (∀ r, (makeIndex start steps).put r = (makeIndex start steps, true)) ∧
    ∀ cp payload engine, (makeIndex start steps).search cp payload engine = none := by
  have h := (C107_tokenizer_fixed start steps).trans ht
  refine ⟨fun r => ?_, fun cp payload engine => ?_⟩
  · simp only [OpenIndex.put, h]
  · simp only [OpenIndex.search, h]

/-- False. -/
theorem C107_refuted : ¬ ∀ start steps, (makeIndex start steps).works := by
  intro h
  obtain ⟨tok, ht, -⟩ := (C107_works_exact _).1 (h .literal [])
  cases ht

/-- A literal into which an index is loaded can still be searched by calling the engines with it, and gives what the
saved index gives, if all strings are UTF-8. -/
theorem C107_loaded_literal {order : List Str → List Str} (ho : IsOrder order) (name : Str) {rs : List DocRequest}
    (hu : AllUTF8 tok rs) (cp : CopyFn) (tokens : List Str) (engine : Engine) :
    engine tokens ((makeIndex .literal [.load ((buildIndex tok name rs).save order)]).indexer cp)
      = engine tokens ((buildIndex tok name rs).indexer cp) := by
  obtain ⟨h1, h2⟩ := (C105_guard_exact ho name [] rs).2 hu
  congr 1
  unfold OpenIndex.indexer MemoryIndex.indexer
  congr 1
  · exact congrArg List.length h1
  · funext k
    exact congrArg cp.copy (h2 k)
  · funext i
    exact congrArg (·[i]?) h1

/-- What loading leaves: as for any index (C105), a nil map counting as an empty one; afterwards there is a map. -/
theorem C107_load_leaves (v : OpenIndex) (j : SavedIndex) :
    (v.load j).name = v.name ∧ (v.load j).docs = j.indexed ∧ (v.load j).inverted ≠ none ∧
    ∀ t, (v.load j).filed t = ((MemoryIndex.load ⟨v.name, v.docs, v.inverted.getD []⟩ j).inverted.get t).getD [] :=
  ⟨rfl, rfl, Option.some_ne_none _, fun _ => rfl⟩

/-- A `Put` that panics because the map is nil leaves a document that is filed nowhere, also after a map has been assigned
(without its place) and others have been put. -/
theorem C107_nil_map_loses (v : OpenIndex) {r : DocRequest} (hm : v.inverted = none) (ht : v.tok ≠ none)
    {m : GoMap Str (List Nat)} (hn : ∀ t, v.docs.length ∉ (m.get t).getD []) (rs : List DocRequest) :
    let w := (rs.map OpenStep.put).foldl OpenIndex.step ((v.put r).1.step (.inverted (some m)))
    w.docs[v.docs.length]? = some (newDoc r.id r.raw) ∧ ∀ t, v.docs.length ∉ w.filed t := by
  obtain ⟨tok, ht⟩ := Option.ne_none_iff_exists'.1 ht
  intro w
  have hv := (C107_put_leaves v r).2.1 tok ht hm
  refine ⟨?_, fun t h => ?_⟩
  · have keep : ∀ (rs : List DocRequest) (u : OpenIndex) (d : Doc), u.docs[v.docs.length]? = some d →
        ((rs.map OpenStep.put).foldl OpenIndex.step u).docs[v.docs.length]? = some d := by
      intro rs
      induction rs with
      | nil => exact fun u d h => h
      | cons q rs ih =>
        intro u d h
        refine ih (u.put q).1 d ?_
        unfold OpenIndex.put
        cases hu : u.tok with
        | none => exact h
        | some tok => exact (List.getElem?_append_left (List.getElem?_eq_some_iff.1 h).1).trans h
    refine keep rs _ _ ?_
    show (v.put r).1.docs[v.docs.length]? = _
    rw [hv]
    simp
  · rcases (puts_keep rs ((v.put r).1.step (.inverted (some m)))).2.2.2 t _ h with h | h
    · exact hn t h
    · have : ((v.put r).1.step (.inverted (some m))).docs.length = v.docs.length + 1 :=
        (put_length v r).2 (by simp [ht])
      omega

/-! ## Examples -/

/-- `MemoryIndex{}`: a `Put` panics. -/
example : ((makeIndex .literal []).put docD).2 = true := rfl
/-- Assigning nil to the map: the `Put` panics, and its document is stored but not found. -/
def nilMapped : OpenIndex := makeIndex (.new [] (some spaceTok)) [.inverted none, .put docD, .inverted (some [])]
example : nilMapped.docs.length = 1 ∧ nilMapped.search plainCopy docD.statement linearSearch = some [] := by decide +kernel
/-- Taking documents away: the value does not work any more. -/
example : (makeIndex (.new [] (some spaceTok)) [.put docD, .docs []]).search plainCopy docD.statement linearSearch = none := by
  decide +kernel
/-- Emptying both fields makes it work again. -/
example : (makeIndex (.new [] (some spaceTok)) ([.put docD, .docs [], .inverted (some [])] ++ [docE].map .put)).works :=
  C107_stays_partial (by simp [OpenStart.index]) _ (by simp [makeIndex, OpenIndex.step]) (by
    intro t i hi
    exact nomatch hi) [docE]

end Visigoth
