import Verif.Spec.Copies
import Verif.Spec.Indexer
import Verif.Proofs.Indexer
import Verif.Proofs.Hits
import Verif.Proofs.Width
/-! # Lemmas about copies of an index -/
namespace Visigoth

variable {tok : Tokenizer}

/-! ## One `Put` -/

theorem appendDoc_self (grow : Nat → Nat) (A : List (List Doc)) (r : SliceRef) (d : Doc)
    (h1 : r.arr < A.length) (h2 : r.len ≤ ((A[r.arr]?).getD []).length) :
    (((appendDoc grow A r d).1[(appendDoc grow A r d).2.arr]?).getD []).take (appendDoc grow A r d).2.len
      = ((A[r.arr]?).getD []).take r.len ++ [d] ∧ (appendDoc grow A r d).2.len = r.len + 1 := by
  unfold appendDoc
  simp only
  generalize ha : (A[r.arr]?).getD [] = a at h2
  split
  · next h =>
    refine ⟨?_, rfl⟩
    simp only [List.getElem?_set_self h1, Option.getD_some]
    rw [List.take_add_one, List.take_set_of_le (by omega), List.getElem?_set_self h]
    rfl
  · next h =>
    have hl : (a.take r.len).length = r.len := by rw [List.length_take]; omega
    refine ⟨?_, ?_⟩
    · simp only [allocDocs, List.getElem?_concat_length, Option.getD_some]
      rw [List.take_append_of_le_length (by simp), List.take_of_length_le (by simp)]
    · simp only [allocDocs, List.length_append, hl, List.length_singleton]

theorem appendDoc_other (grow : Nat → Nat) (A : List (List Doc)) (r s : SliceRef) (d : Doc)
    (h1 : r.arr < A.length) (h2 : s.arr < A.length) :
    (((appendDoc grow A r d).1[s.arr]?).getD []).take s.len =
      if s.arr = r.arr ∧ r.len < ((A[r.arr]?).getD []).length then (((A[s.arr]?).getD []).take s.len).set r.len d
      else ((A[s.arr]?).getD []).take s.len := by
  unfold appendDoc
  simp only
  by_cases h : r.len < ((A[r.arr]?).getD []).length
  · rw [if_pos h]
    by_cases he : s.arr = r.arr
    · rw [if_pos ⟨he, h⟩, he]
      simp only [List.getElem?_set_self h1, Option.getD_some]
      rw [List.take_set]
    · rw [if_neg (fun e => he e.1)]
      simp only [List.getElem?_set_ne (Ne.symm he)]
  · rw [if_neg h, if_neg (fun e => h e.2)]
    simp only [allocDocs, List.getElem?_append_left h2]

theorem appendDoc_arrays (grow : Nat → Nat) (A : List (List Doc)) (r : SliceRef) (d : Doc) (h1 : r.arr < A.length) :
    A.length ≤ (appendDoc grow A r d).1.length ∧ (appendDoc grow A r d).2.arr < (appendDoc grow A r d).1.length ∧
    ((appendDoc grow A r d).2.arr = r.arr ∨ (appendDoc grow A r d).2.arr = A.length) ∧
    ∀ i, i < A.length → (((appendDoc grow A r d).1[i]?).getD []).length = ((A[i]?).getD []).length := by
  unfold appendDoc
  simp only
  split
  · refine ⟨by simp, by simpa using h1, .inl rfl, fun i hi => ?_⟩
    by_cases he : r.arr = i
    · subst he; simp [h1]
    · simp [List.getElem?_set_ne he]
  · refine ⟨by simp [allocDocs], by simp [allocDocs], .inr rfl, fun i hi => ?_⟩
    simp [allocDocs, List.getElem?_append_left hi]

variable {w : Copies} {u v : Nat} {mi mu : IndexValue} {grow : Nat → Nat} {r : DocRequest}

theorem Copies.Valid.get (h : w.Valid) (hv : w.values[v]? = some mi) :
    mi.docs.arr < w.arrays.length ∧ mi.docs.len ≤ ((w.arrays[mi.docs.arr]?).getD []).length ∧
    ∀ p, mi.inverted = some p → p < w.maps.length := h mi (List.mem_of_getElem? hv)

theorem fields_length (h : w.Valid) (hv : w.values[v]? = some mi) : (w.fields mi).docs.length = mi.docs.len := by
  have := (h.get hv).2.1
  simp only [Copies.fields, List.length_take]
  omega

theorem lt_of_get {α : Type} {l : List α} {i : Nat} {a : α} (h : l[i]? = some a) : i < l.length :=
  (List.getElem?_eq_some_iff.1 h).1

/-- The variable after a `Put` to it. -/
def putValue (grow : Nat → Nat) (w : Copies) (mi : IndexValue) (r : DocRequest) : IndexValue :=
  { mi with docs := (appendDoc grow w.arrays mi.docs (newDoc r.id r.raw)).2 }

theorem put_values (hv : w.values[v]? = some mi) :
    (w.step tok (.put grow v r)).1.values = w.values.set v (putValue grow w mi r) := by
  simp only [Copies.step, hv, Copies.put, putValue]
  cases mi.inverted <;> rfl

theorem put_arrays (hv : w.values[v]? = some mi) :
    (w.step tok (.put grow v r)).1.arrays = (appendDoc grow w.arrays mi.docs (newDoc r.id r.raw)).1 := by
  simp only [Copies.step, hv, Copies.put]
  cases mi.inverted <;> rfl

theorem put_maps (hv : w.values[v]? = some mi) :
    (w.step tok (.put grow v r)).1.maps = match mi.inverted with
      | none => w.maps
      | some p => w.maps.modify p fun inv => (tok r.statement).foldl (addPosting mi.docs.len) inv := by
  simp only [Copies.step, hv, Copies.put]
  cases mi.inverted <;> rfl

theorem put_panics (hv : w.values[v]? = some mi) :
    (w.step tok (.put grow v r)).2 = true ↔ mi.inverted = none ∧ tok r.statement ≠ [] := by
  simp only [Copies.step, hv, Copies.put]
  cases mi.inverted <;> simp

theorem put_self (h : w.Valid) (hv : w.values[v]? = some mi) (hp : mi.inverted ≠ none) :
    (w.step tok (.put grow v r)).1.index v = some ((w.fields mi).put tok r) := by
  obtain ⟨h1, h2, h3⟩ := h.get hv
  have hl := fields_length h hv
  cases hi : mi.inverted with
  | none => exact absurd hi hp
  | some p =>
    have hlt := h3 p hi
    have ha := appendDoc_self grow w.arrays mi.docs (newDoc r.id r.raw) h1 h2
    simp only [Copies.index, put_values hv, List.getElem?_set_self (lt_of_get hv), Option.map_some, Option.some.injEq]
    unfold MemoryIndex.put
    rw [hl]
    simp only [Copies.fields, put_arrays hv, put_maps hv, hi, putValue, ha.1, Option.bind_some, List.getElem?_modify, if_true,
      List.getElem?_eq_getElem hlt]
    rfl

theorem put_self_nil (h : w.Valid) (hv : w.values[v]? = some mi) (hp : mi.inverted = none) :
    (w.step tok (.put grow v r)).1.index v
      = some { w.fields mi with docs := (w.fields mi).docs ++ [newDoc r.id r.raw] } := by
  obtain ⟨h1, h2, h3⟩ := h.get hv
  have ha := appendDoc_self grow w.arrays mi.docs (newDoc r.id r.raw) h1 h2
  simp only [Copies.index, put_values hv, List.getElem?_set_self (lt_of_get hv), Option.map_some, Option.some.injEq]
  simp only [Copies.fields, put_arrays hv, hp, putValue, ha.1, Option.bind_none]

theorem put_other (h : w.Valid) (hv : w.values[v]? = some mi) (hu : w.values[u]? = some mu) (huv : u ≠ v) :
    (w.step tok (.put grow v r)).1.index u = some
      { name := mu.name
        docs := if mu.docs.arr = mi.docs.arr ∧ w.room mi then (w.fields mu).docs.set mi.docs.len (newDoc r.id r.raw)
          else (w.fields mu).docs
        inverted := if mu.inverted = mi.inverted ∧ mi.inverted ≠ none then (tok r.statement).foldl (addPosting mi.docs.len) (w.fields mu).inverted
          else (w.fields mu).inverted } := by
  obtain ⟨h1, h2, h3⟩ := h.get hv
  obtain ⟨g1, g2, g3⟩ := h.get hu
  simp only [Copies.index, put_values hv, List.getElem?_set_ne (Ne.symm huv), hu, Option.map_some, Option.some.injEq]
  have hd : ((w.step tok (.put grow v r)).1.fields mu).docs = if mu.docs.arr = mi.docs.arr ∧ w.room mi then
      (w.fields mu).docs.set mi.docs.len (newDoc r.id r.raw) else (w.fields mu).docs := by
    simp only [Copies.fields, put_arrays hv, appendDoc_other grow w.arrays mi.docs mu.docs _ h1 g1]
    rfl
  have hm : ((w.step tok (.put grow v r)).1.fields mu).inverted = if mu.inverted = mi.inverted ∧ mi.inverted ≠ none then
      (tok r.statement).foldl (addPosting mi.docs.len) (w.fields mu).inverted else (w.fields mu).inverted := by
    simp only [Copies.fields, put_maps hv]
    cases hi : mi.inverted with
    | none => simp
    | some p =>
      cases hj : mu.inverted with
      | none => simp
      | some q =>
        have hq := g3 q hj
        by_cases he : q = p
        · subst he
          simp [List.getElem?_eq_getElem hq]
        · simp [he, Ne.symm he]
  rw [← hd, ← hm]
  rfl

/-! ## References stay valid -/

theorem step_valid (h : w.Valid) (a : CopyAct) : (w.step tok a).1.Valid := by
  cases a with
  | new name =>
    intro m hm
    simp only [Copies.step, List.mem_append, List.mem_singleton] at hm
    rcases hm with hm | rfl
    · obtain ⟨h1, h2, h3⟩ := h m hm
      simp only [Copies.step, List.length_append, List.length_singleton]
      refine ⟨by omega, by rw [List.getElem?_append_left h1]; exact h2, fun p hp => by have := h3 p hp; omega⟩
    · simp [Copies.step]
  | copy v =>
    simp only [Copies.step]
    split
    · exact h
    · next mi hv =>
      intro m hm
      simp only [List.mem_append, List.mem_singleton] at hm
      rcases hm with hm | rfl
      · exact h m hm
      · exact h.get hv
  | put grow v r =>
    cases hv : w.values[v]? with
    | none => simp only [Copies.step, hv]; exact h
    | some mi =>
      obtain ⟨h1, h2, h3⟩ := h.get hv
      obtain ⟨a1, a2, a3, a4⟩ := appendDoc_arrays grow w.arrays mi.docs (newDoc r.id r.raw) h1
      have hs := appendDoc_self grow w.arrays mi.docs (newDoc r.id r.raw) h1 h2
      have hml : (w.step tok (.put grow v r)).1.maps.length = w.maps.length := by
        rw [put_maps hv]; cases mi.inverted <;> simp
      intro m hm
      rw [put_values hv] at hm
      rw [put_arrays hv, hml]
      rcases List.mem_or_eq_of_mem_set hm with hm | rfl
      · obtain ⟨g1, g2, g3⟩ := h m hm
        exact ⟨by omega, by rw [a4 _ g1]; exact g2, g3⟩
      · refine ⟨a2, ?_, h3⟩
        have := congrArg List.length hs.1
        simp only [List.length_take, List.length_append, List.length_singleton, putValue] at this ⊢
        have := hs.2
        omega
  | setDocs v ds =>
    simp only [Copies.step]
    split
    · exact h
    · next mi hv =>
      intro m hm
      rcases List.mem_or_eq_of_mem_set hm with hm | rfl
      · obtain ⟨h1, h2, h3⟩ := h m hm
        simp only [List.length_append, List.length_singleton]
        exact ⟨by omega, by rw [List.getElem?_append_left h1]; exact h2, h3⟩
      · simp only [List.length_append, List.length_singleton, List.getElem?_concat_length, Option.getD_some]
        exact ⟨by omega, by omega, (h.get hv).2.2⟩
  | setInverted v m =>
    simp only [Copies.step]
    split
    · exact h
    · next mi hv =>
      split
      · intro m hm
        rcases List.mem_or_eq_of_mem_set hm with hm | rfl
        · exact h m hm
        · exact ⟨(h.get hv).1, (h.get hv).2.1, by simp⟩
      · intro m hm
        rcases List.mem_or_eq_of_mem_set hm with hm | rfl
        · obtain ⟨h1, h2, h3⟩ := h m hm
          refine ⟨h1, h2, fun p hp => ?_⟩
          have := h3 p hp
          simp only [List.length_append, List.length_singleton]
          omega
        · refine ⟨(h.get hv).1, (h.get hv).2.1, ?_⟩
          simp

theorem run_valid (h : w.Valid) (acts : List CopyAct) : (w.run tok acts).Valid := by
  unfold Copies.run
  induction acts generalizing w with
  | nil => exact h
  | cons a acts ih => exact ih (step_valid h a)

theorem empty_valid : (({} : Copies)).Valid := fun _ h => by cases h

theorem index_eq (hv : w.values[v]? = some mi) : w.index v = some (w.fields mi) := by
  simp only [Copies.index, hv, Option.map_some]

/-! ## A copy, and `Put`s to the original -/

/-- The copy has the documents `ds`, the original has these and perhaps more; they share the map. -/
structure Trails (w : Copies) (v u : Nat) (x : MemoryIndex) (ds : List Doc) : Prop where
  valid : w.Valid
  ne : u ≠ v
  orig : w.index v = some x
  behind : w.index u = some { x with docs := ds }
  le : ds.length ≤ x.docs.length
  shared : ∃ mi mu p, w.values[v]? = some mi ∧ w.values[u]? = some mu ∧ mi.inverted = some p ∧ mu.inverted = some p

theorem put_trails {x : MemoryIndex} {ds : List Doc} (h : Trails w v u x ds) :
    Trails (w.step tok (.put grow v r)).1 v u (x.put tok r) ds := by
  obtain ⟨mi, mu, p, hv, hu, hi, hj⟩ := h.shared
  have hx : w.fields mi = x := by have := h.orig; rw [index_eq hv] at this; exact Option.some.inj this
  have hy : w.fields mu = { x with docs := ds } := by have := h.behind; rw [index_eq hu] at this; exact Option.some.inj this
  have hl := fields_length h.valid hv
  refine ⟨step_valid h.valid _, h.ne, ?_, ?_, ?_, ?_⟩
  · rw [put_self h.valid hv (by rw [hi]; simp), hx]
  · have hc : mu.inverted = mi.inverted ∧ mi.inverted ≠ none := by rw [hi, hj]; simp
    rw [put_other h.valid hv hu h.ne, if_pos hc, hy]
    have : (if mu.docs.arr = mi.docs.arr ∧ w.room mi then ds.set mi.docs.len (newDoc r.id r.raw) else ds) = ds := by
      split
      · rw [List.set_eq_of_length_le]
        rw [← hl, hx]; exact h.le
      · rfl
    simp only [this]
    have hn : mu.name = x.name := congrArg MemoryIndex.name hy
    unfold MemoryIndex.put
    rw [hn, ← hl, hx]
  · have := h.le
    simp only [MemoryIndex.put, List.length_append, List.length_singleton]
    omega
  · refine ⟨putValue grow w mi r, mu, p, ?_, ?_, hi, hj⟩
    · rw [put_values hv, List.getElem?_set_self (lt_of_get hv)]
    · rw [put_values hv, List.getElem?_set_ne (Ne.symm h.ne), hu]

theorem puts_trails {x : MemoryIndex} {ds : List Doc} (h : Trails w v u x ds) (rs : List DocRequest) :
    Trails (w.run tok (putsTo grow v rs)) v u (rs.foldl (MemoryIndex.put tok) x) ds := by
  unfold Copies.run putsTo
  induction rs generalizing w x with
  | nil => exact h
  | cons r rs ih => exact ih (put_trails h)

theorem copy_trails (h : w.Valid) {x : MemoryIndex} (hx : w.index v = some x) (hm : w.hasMap v) :
    Trails (w.step tok (.copy v)).1 v w.values.length x x.docs := by
  obtain ⟨mi, p, hv, hi⟩ := hm
  have hlt := lt_of_get hv
  have hs : (w.step tok (.copy v)).1 = { w with values := w.values ++ [mi] } := by simp only [Copies.step, hv]
  have hf : w.fields mi = x := by rw [index_eq hv] at hx; exact Option.some.inj hx
  have hf' : ({ w with values := w.values ++ [mi] } : Copies).fields mi = x := hf
  refine ⟨step_valid h _, by omega, ?_, ?_, Nat.le_refl _, ?_⟩
  · rw [hs, index_eq (mi := mi) (by simp only [List.getElem?_append_left hlt, hv]), hf']
  · rw [hs, index_eq (mi := mi) (by simp), hf']
  · rw [hs]
    exact ⟨mi, mi, p, by simp only [List.getElem?_append_left hlt, hv], by simp, hi, hi⟩

/-! ## Searching a copy that is behind -/

/-- An index with the documents of `rs` and the postings of `rs ++ rs'`. -/
def stale (tok : Tokenizer) (name : Str) (rs rs' : List DocRequest) : MemoryIndex :=
  { buildIndex tok name (rs ++ rs') with docs := rs.map docOf }

variable {name : Str} {rs rs' : List DocRequest} (cp : CopyFn)

theorem stale_document (i : Nat) : ((stale tok name rs rs').indexer cp).document i = (rs[i]?).map docOf := by
  show (rs.map docOf)[i]? = _
  rw [List.getElem?_map]

theorem stale_listed (t : Str) : ((stale tok name rs rs').indexer cp).listed t = positions tok (rs ++ rs') t :=
  indexer_indexed cp tok name (rs ++ rs') t

theorem positionsWhere_split (p : DocRequest → Bool) :
    positionsWhere p (rs ++ rs') = positionsWhere p rs ++ (positionsWhere p rs').map (rs.length + ·) := by
  induction rs' using rev_ind with
  | h0 => simp [positionsWhere]
  | h1 l a ih =>
    rw [← List.append_assoc, positionsWhere_append, positionsWhere_append, ih, List.map_append, List.append_assoc]
    congr 1
    congr 1
    split <;> simp

theorem docsAt_stale (p : DocRequest → Bool) :
    ((stale tok name rs rs').indexer cp).docsAt (positionsWhere p (rs ++ rs'))
      = if rs'.any p then none else some ((rs.filter p).map docOf) := by
  split
  · next h =>
    rw [docsAt_none]
    have hne : positionsWhere p rs' ≠ [] := by
      intro h0
      rw [positionsWhere_eq_nil, List.filter_eq_nil_iff] at h0
      obtain ⟨r, hr, hp⟩ := List.any_eq_true.1 h
      exact h0 r hr hp
    obtain ⟨i, hi⟩ := List.exists_mem_of_ne_nil _ hne
    refine ⟨rs.length + i, ?_, ?_⟩
    · rw [positionsWhere_split]
      exact List.mem_append_right _ (List.mem_map_of_mem hi)
    · rw [stale_document, List.getElem?_eq_none (by omega)]; rfl
  · next h =>
    have h0 : positionsWhere p rs' = [] := by
      rw [positionsWhere_eq_nil, List.filter_eq_nil_iff]
      intro r hr hp
      exact h (List.any_eq_true.2 ⟨r, hr, hp⟩)
    rw [positionsWhere_split, h0, List.map_nil, List.append_nil, ← filterMap_positionsWhere]
    have hlt : ∀ i ∈ positionsWhere p rs, i < rs.length := by
      intro i hi
      unfold positionsWhere at hi
      rw [List.mem_filter, List.mem_range] at hi
      exact hi.1
    generalize positionsWhere p rs = ps at hlt
    induction ps with
    | nil => rfl
    | cons i ps ih =>
      have hi := hlt i (by simp)
      simp only [Indexer.docsAt, stale_document, ih fun j hj => hlt j (by simp [hj]), List.filterMap_cons,
        List.getElem?_eq_getElem hi, Option.map_some]

theorem linear_stale (tokens : List Str) (hne : tokens ≠ []) :
    linearSearch tokens ((stale tok name rs rs').indexer cp)
      = if rs'.any (hasAll tok tokens) then none else some (andResults tok rs tokens) := by
  cases tokens with
  | nil => exact absurd rfl hne
  | cons t ts =>
    have hix : ∀ t, (((stale tok name rs rs').indexer cp).indexed t).getD [] = positions tok (rs ++ rs') t := stale_listed cp
    have hl := linearLoop_eq tok (rs ++ rs') _ hix ts (fun r => hasToken tok r t)
    rw [← positions_eq_where] at hl
    have hn := linearLoop_any ((stale tok name rs rs').indexer cp) ts (positions tok (rs ++ rs') t)
    rw [hl] at hn
    have hall : (fun r => hasToken tok r t && hasAll tok ts r) = hasAll tok (t :: ts) := by
      funext r; simp [hasAll]
    rw [hall] at hn
    rw [linearSearch_any, stale_listed, ← hn, docsAt_stale]
    split
    · rfl
    · simp [andResults, List.map_map, Function.comp_def]

theorem docsAt_stale_tokens (tokens : List Str) :
    ((stale tok name rs rs').indexer cp).docsAt (tokens.flatMap ((stale tok name rs rs').indexer cp).listed)
      = if rs'.any (fun r => tokens.any (hasToken tok r)) then none else some (visited tok rs tokens) := by
  induction tokens with
  | nil => simp [Indexer.docsAt, visited]
  | cons t ts ih =>
    rw [List.flatMap_cons, docsAt_append, ih, stale_listed, positions_eq_where, docsAt_stale]
    have e : ∀ r, (t :: ts).any (hasToken tok r) = (hasToken tok r t || ts.any (hasToken tok r)) := fun r => List.any_cons
    by_cases h1 : rs'.any (fun r => hasToken tok r t) = true
    · have hb : rs'.any (fun r => (t :: ts).any (hasToken tok r)) = true := by
        obtain ⟨r, hr, h⟩ := List.any_eq_true.1 h1
        exact List.any_eq_true.2 ⟨r, hr, by rw [e, h]; rfl⟩
      rw [if_pos h1, if_pos hb]
    · by_cases h2 : rs'.any (fun r => ts.any (hasToken tok r)) = true
      · have hb : rs'.any (fun r => (t :: ts).any (hasToken tok r)) = true := by
          obtain ⟨r, hr, h⟩ := List.any_eq_true.1 h2
          exact List.any_eq_true.2 ⟨r, hr, by rw [e, h]; simp⟩
        rw [if_pos h2, if_pos hb, if_neg h1]
      · have hb : ¬ rs'.any (fun r => (t :: ts).any (hasToken tok r)) = true := by
          intro h
          obtain ⟨r, hr, h⟩ := List.any_eq_true.1 h
          rw [e, Bool.or_eq_true] at h
          rcases h with h | h
          · exact h1 (List.any_eq_true.2 ⟨r, hr, h⟩)
          · exact h2 (List.any_eq_true.2 ⟨r, hr, h⟩)
        rw [if_neg h2, if_neg hb, if_neg h1]
        rfl

theorem hits_stale (sort : List SearchResult → List SearchResult) (tokens : List Str) :
    hitsSearch sort tokens ((stale tok name rs rs').indexer cp)
      = if rs'.any (fun r => tokens.any (hasToken tok r)) then none
        else hitsSearch sort tokens ((buildIndex tok name rs).indexer cp) := by
  have hd : ∀ i, ((stale tok name rs rs').indexer cp).document i = ((buildIndex tok name rs).indexer cp).document i := by
    intro i; rw [stale_document, indexer_document]
  have hl : ((stale tok name rs rs').indexer cp).len = ((buildIndex tok name rs).indexer cp).len := by
    rw [indexer_len]; exact List.length_map _
  have hm := met_memory cp tok name rs tokens
  unfold Indexer.met at hm
  rw [hitsSearch_any, hitsSearch_any, docsAt_stale_tokens, hm, hl, docsAt_congr (ix' := (buildIndex tok name rs).indexer cp) fun i _ => hd i]
  by_cases hb : (rs'.any fun r => tokens.any (hasToken tok r)) = true
  · simp only [if_pos hb]
  · simp only [if_neg hb]

theorem noop_stale (tokens : List Str) : noopAllSearch tokens ((stale tok name rs rs').indexer cp)
    = noopAllSearch tokens ((buildIndex tok name rs).indexer cp) := by
  unfold noopAllSearch
  have hl : ((stale tok name rs rs').indexer cp).len = ((buildIndex tok name rs).indexer cp).len := by
    rw [indexer_len]; exact List.length_map _
  rw [toResults_any, toResults_any, hl, docsAt_congr (ix' := (buildIndex tok name rs).indexer cp)]
  intro i _
  rw [stale_document, indexer_document]

/-! ## Variables that share nothing -/

theorem copies_step_other (h : w.Valid) (hu : w.values[u]? = some mu) (a : CopyAct) (ha : ¬ a.about u) (hp : ∀ g v r, a ≠ .put g v r) :
    (w.step tok a).1.values[u]? = some mu ∧ (w.step tok a).1.fields mu = w.fields mu := by
  obtain ⟨g1, g2, g3⟩ := h.get hu
  have hlt := lt_of_get hu
  have hm : ∀ m, ((mu.inverted.bind fun p => (w.maps ++ [m])[p]?).getD []) = ((mu.inverted.bind fun p => w.maps[p]?).getD []) := by
    intro m
    cases hi : mu.inverted with
    | none => rfl
    | some p => simp only [Option.bind_some, List.getElem?_append_left (g3 p hi)]
  cases a with
  | put g v r => exact absurd rfl (hp g v r)
  | new name =>
    simp only [Copies.step, Copies.fields, List.getElem?_append_left hlt, hu, List.getElem?_append_left g1, hm, and_self]
  | copy v =>
    simp only [Copies.step]
    cases hv : w.values[v]? with
    | none => exact ⟨hu, rfl⟩
    | some mi => exact ⟨by simp only [List.getElem?_append_left hlt, hu], rfl⟩
  | setDocs v ds =>
    simp only [Copies.step]
    cases hv : w.values[v]? with
    | none => exact ⟨hu, rfl⟩
    | some mi =>
      exact ⟨by simp only [List.getElem?_set_ne ha, hu], by simp only [Copies.fields, List.getElem?_append_left g1]⟩
  | setInverted v m =>
    simp only [Copies.step]
    cases hv : w.values[v]? with
    | none => exact ⟨hu, rfl⟩
    | some mi =>
      cases m with
      | none => exact ⟨by simp only [List.getElem?_set_ne ha, hu], rfl⟩
      | some m => exact ⟨by simp only [List.getElem?_set_ne ha, hu], by simp only [Copies.fields, hm]⟩

theorem put_alone (h : w.Valid) (hu : w.values[u]? = some mu) (hv : w.values[v]? = some mi) (huv : u ≠ v)
    (hd : mi.docs.arr ≠ mu.docs.arr) (hm : ∀ p, mu.inverted = some p → mi.inverted ≠ some p) :
    (w.step tok (.put grow v r)).1.index u = w.index u := by
  rw [put_other h hv hu huv, if_neg (fun e => hd e.1.symm), if_neg, index_eq hu]
  · rfl
  · rintro ⟨e, hn⟩
    cases hi : mi.inverted with
    | none => exact hn hi
    | some p => exact hm p (e.trans hi) hi

theorem put_keeps_value (hu : w.values[u]? = some mu) (huv : u ≠ v) :
    (w.step tok (.put grow v r)).1.values[u]? = some mu := by
  cases hv : w.values[v]? with
  | none => simp only [Copies.step, hv]; exact hu
  | some mi => rw [put_values hv, List.getElem?_set_ne (Ne.symm huv), hu]

theorem step_alone (h : w.Valid) (hal : w.Alone u) (hu : w.values[u]? = some mu) (a : CopyAct) (ha : ¬ a.about u) :
    (w.step tok a).1.Alone u ∧ (w.step tok a).1.values[u]? = some mu ∧ (w.step tok a).1.index u = w.index u := by
  obtain ⟨g1, g2, g3⟩ := h.get hu
  have hlt := lt_of_get hu
  by_cases hp : ∃ g v r, a = .put g v r
  · obtain ⟨g, v, r, rfl⟩ := hp
    have huv : u ≠ v := fun e => ha e.symm
    have hku := put_keeps_value (tok := tok) (grow := g) (r := r) hu huv
    refine ⟨?_, hku, ?_⟩
    · intro mu' hmu' x mx hx hmx
      rw [hku, Option.some.injEq] at hmu'
      subst hmu'
      cases hv : w.values[v]? with
      | none =>
        simp only [Copies.step, hv] at hmx
        exact hal mu hu x mx hx hmx
      | some mi =>
        obtain ⟨h1, h2, h3⟩ := h.get hv
        rw [put_values hv] at hmx
        by_cases hxv : x = v
        · subst hxv
          rw [List.getElem?_set_self (lt_of_get hv), Option.some.injEq] at hmx
          subst hmx
          obtain ⟨n1, n2⟩ := hal mu hu x mi hx hv
          refine ⟨?_, n2⟩
          show (appendDoc g w.arrays mi.docs (newDoc r.id r.raw)).2.arr ≠ _
          rcases (appendDoc_arrays g w.arrays mi.docs (newDoc r.id r.raw) h1).2.2.1 with e | e
          · rw [e]; exact n1
          · rw [e]; omega
        · rw [List.getElem?_set_ne (Ne.symm hxv)] at hmx
          exact hal mu hu x mx hx hmx
    · cases hv : w.values[v]? with
      | none => simp only [Copies.step, hv]
      | some mi =>
        obtain ⟨n1, n2⟩ := hal mu hu v mi (Ne.symm huv) hv
        exact put_alone h hu hv huv n1 n2
  · have hp' : ∀ g v r, a ≠ .put g v r := fun g v r e => hp ⟨g, v, r, e⟩
    obtain ⟨k1, k2⟩ := copies_step_other (tok := tok) h hu a ha hp'
    refine ⟨?_, k1, ?_⟩
    · intro mu' hmu' x mx hx hmx
      rw [k1, Option.some.injEq] at hmu'
      subst hmu'
      cases a with
      | put g v r => exact absurd rfl (hp' g v r)
      | new name =>
        simp only [Copies.step] at hmx
        by_cases hxl : x < w.values.length
        · rw [List.getElem?_append_left hxl] at hmx
          exact hal mu hu x mx hx hmx
        · have := lt_of_get hmx
          simp only [List.length_append, List.length_singleton] at this
          have hxe : x = w.values.length := by omega
          rw [hxe, List.getElem?_concat_length, Option.some.injEq] at hmx
          subst hmx
          refine ⟨by simp only; omega, fun p hp e => ?_⟩
          simp only [Option.some.injEq] at e
          have := g3 p hp
          omega
      | copy v =>
        cases hv : w.values[v]? with
        | none => simp only [Copies.step, hv] at hmx; exact hal mu hu x mx hx hmx
        | some mi =>
          simp only [Copies.step, hv] at hmx
          by_cases hxl : x < w.values.length
          · rw [List.getElem?_append_left hxl] at hmx
            exact hal mu hu x mx hx hmx
          · have := lt_of_get hmx
            simp only [List.length_append, List.length_singleton] at this
            have hxe : x = w.values.length := by omega
            rw [hxe, List.getElem?_concat_length, Option.some.injEq] at hmx
            subst hmx
            exact hal mu hu v mi ha hv
      | setDocs v ds =>
        cases hv : w.values[v]? with
        | none => simp only [Copies.step, hv] at hmx; exact hal mu hu x mx hx hmx
        | some mi =>
          simp only [Copies.step, hv] at hmx
          by_cases hxv : x = v
          · subst hxv
            rw [List.getElem?_set_self (lt_of_get hv), Option.some.injEq] at hmx
            subst hmx
            exact ⟨by simp only; omega, (hal mu hu x mi hx hv).2⟩
          · rw [List.getElem?_set_ne (Ne.symm hxv)] at hmx
            exact hal mu hu x mx hx hmx
      | setInverted v m =>
        cases hv : w.values[v]? with
        | none => simp only [Copies.step, hv] at hmx; exact hal mu hu x mx hx hmx
        | some mi =>
          by_cases hxv : x = v
          · subst hxv
            have n := hal mu hu x mi hx hv
            cases m with
            | none =>
              simp only [Copies.step, hv] at hmx
              rw [List.getElem?_set_self (lt_of_get hv), Option.some.injEq] at hmx
              subst hmx
              exact ⟨n.1, by simp⟩
            | some m =>
              simp only [Copies.step, hv] at hmx
              rw [List.getElem?_set_self (lt_of_get hv), Option.some.injEq] at hmx
              subst hmx
              refine ⟨n.1, fun p hp e => ?_⟩
              simp only [Option.some.injEq] at e
              have := g3 p hp
              omega
          · have : w.values[x]? = some mx := by
              cases m <;> simp only [Copies.step, hv] at hmx <;> rw [List.getElem?_set_ne (Ne.symm hxv)] at hmx <;> exact hmx
            exact hal mu hu x mx hx this
    · rw [index_eq k1, index_eq hu, k2]

theorem run_alone {acts : List CopyAct} (h : w.Valid) (hal : w.Alone u) (hu : w.values[u]? = some mu) (ha : ∀ a ∈ acts, ¬ a.about u) :
    (w.run tok acts).Alone u ∧ (w.run tok acts).values[u]? = some mu ∧ (w.run tok acts).index u = w.index u := by
  unfold Copies.run
  induction acts generalizing w with
  | nil => exact ⟨hal, hu, rfl⟩
  | cons a acts ih =>
    obtain ⟨k1, k2, k3⟩ := step_alone (tok := tok) h hal hu a (ha a (by simp))
    have := ih (step_valid (tok := tok) h a) k1 k2 fun b hb => ha b (by simp [hb])
    exact ⟨this.1, this.2.1, this.2.2.trans k3⟩

theorem deepCopy_run {x : MemoryIndex} (hv : w.values[v]? = some mi) :
    (w.run tok (deepCopy v w.values.length x)) =
      { arrays := w.arrays ++ [x.docs], maps := w.maps ++ [x.inverted],
        values := w.values ++ [{ name := mi.name, docs := { arr := w.arrays.length, len := x.docs.length }, inverted := some w.maps.length }] } := by
  simp [Copies.run, deepCopy, Copies.step, hv]

theorem deepCopy_spec (h : w.Valid) {x : MemoryIndex} (hv : w.values[v]? = some mi) (hx : w.fields mi = x) :
    (w.run tok (deepCopy v w.values.length x)).index w.values.length = some x ∧
    (w.run tok (deepCopy v w.values.length x)).hasMap w.values.length ∧
    (w.run tok (deepCopy v w.values.length x)).Alone w.values.length ∧
    ∀ y, y < w.values.length → (w.run tok (deepCopy v w.values.length x)).index y = w.index y := by
  rw [deepCopy_run hv]
  refine ⟨?_, ?_, ?_, ?_⟩
  · simp only [Copies.index, List.getElem?_concat_length, Option.map_some, Copies.fields, Option.getD_some, List.take_length,
      Option.bind_some]
    rw [← hx]
    rfl
  · exact ⟨_, _, by simp only [List.getElem?_concat_length]; rfl, rfl⟩
  · intro mu hmu y my hy hmy
    simp only [List.getElem?_concat_length, Option.some.injEq] at hmu
    subst hmu
    have := lt_of_get hmy
    simp only [List.length_append, List.length_singleton] at this
    rw [List.getElem?_append_left (by omega)] at hmy
    obtain ⟨g1, g2, g3⟩ := h.get hmy
    refine ⟨by simp only; omega, fun p hp e => ?_⟩
    simp only [Option.some.injEq] at hp
    have := g3 p e
    omega
  · intro y hy
    simp only [Copies.index, List.getElem?_append_left hy]
    cases hmy : w.values[y]? with
    | none => rfl
    | some my =>
      obtain ⟨g1, g2, g3⟩ := h.get hmy
      simp only [Option.map_some, Option.some.injEq, Copies.fields, List.getElem?_append_left g1, MemoryIndex.mk.injEq, true_and]
      cases hi : my.inverted with
      | none => rfl
      | some p => simp only [Option.bind_some, List.getElem?_append_left (g3 p hi)]

/-- Statements about the variable, other than copying it, leave it alone too. -/
theorem step_alone_self (h : w.Valid) (hal : w.Alone u) (hu : w.values[u]? = some mu) (a : CopyAct) (ha : a.about u)
    (hc : a ≠ .copy u) :
    (w.step tok a).1.Alone u ∧ (∃ mu', (w.step tok a).1.values[u]? = some mu') ∧
    ∀ y, y ≠ u → y < w.values.length → (w.step tok a).1.index y = w.index y := by
  have hlt := lt_of_get hu
  have key : ∀ (w' : Copies) (mu' : IndexValue), w'.values = w.values.set u mu' →
      (mu'.docs.arr = mu.docs.arr ∨ w.arrays.length ≤ mu'.docs.arr) →
      (∀ p, mu'.inverted = some p → mu.inverted = some p ∨ w.maps.length ≤ p) →
      w'.Alone u ∧ ∃ mu', w'.values[u]? = some mu' := by
    intro w' mu' hv hd hi
    have hu' : w'.values[u]? = some mu' := by rw [hv, List.getElem?_set_self hlt]
    refine ⟨?_, mu', hu'⟩
    intro m hm v mv hvu hmv
    rw [hu'] at hm
    obtain rfl := Option.some.inj hm
    rw [hv, List.getElem?_set_ne (Ne.symm hvu)] at hmv
    obtain ⟨g1, g2, g3⟩ := h.get hmv
    obtain ⟨k1, k2⟩ := hal mu hu v mv hvu hmv
    refine ⟨?_, fun p hp e => ?_⟩
    · rcases hd with hd | hd
      · rw [hd]; exact k1
      · omega
    · rcases hi p hp with hi | hi
      · exact k2 p hi e
      · have := g3 p e
        omega
  cases a with
  | new name => exact absurd ha id
  | copy v => exact absurd (by rw [show v = u from ha]) hc
  | put grow v r =>
    obtain rfl : v = u := ha
    obtain ⟨h1, h2, h3⟩ := h.get hu
    obtain ⟨k1, k2⟩ := key _ _ (put_values (tok := tok) (grow := grow) (r := r) hu)
      ((appendDoc_arrays grow w.arrays mu.docs (newDoc r.id r.raw) h1).2.2.1.imp id fun e => Nat.le_of_eq e.symm)
      (fun p hp => .inl hp)
    refine ⟨k1, k2, fun y hy hyl => ?_⟩
    have hmy := List.getElem?_eq_getElem hyl
    obtain ⟨g1, g2⟩ := hal mu hu y _ hy hmy
    exact put_alone h hmy hu hy (fun e => g1 e.symm) (fun p hp e => g2 p e hp)
  | setDocs v ds =>
    obtain rfl : v = u := ha
    obtain ⟨k1, k2⟩ := key (w.step tok (.setDocs v ds)).1 { mu with docs := { arr := w.arrays.length, len := ds.length } }
      (by simp only [Copies.step, hu]) (.inr (Nat.le_refl _)) (fun p hp => .inl hp)
    refine ⟨k1, k2, fun y hy hyl => ?_⟩
    have hmy := List.getElem?_eq_getElem hyl
    obtain ⟨e1, e2⟩ := copies_step_other (tok := tok) h hmy (.setDocs v ds) (fun e => hy (Eq.symm e)) (by simp)
    rw [index_eq e1, index_eq hmy, e2]
  | setInverted v m =>
    obtain rfl : v = u := ha
    have hk : (w.step tok (.setInverted v m)).1.Alone v ∧ ∃ mu', (w.step tok (.setInverted v m)).1.values[v]? = some mu' := by
      cases m with
      | none =>
        exact key _ { mu with inverted := none } (by simp only [Copies.step, hu]) (.inl rfl) (fun p hp => by cases hp)
      | some m =>
        refine key _ { mu with inverted := some w.maps.length } (by simp only [Copies.step, hu]) (.inl rfl) (fun p hp => .inr ?_)
        simp only [Option.some.injEq] at hp
        omega
    refine ⟨hk.1, hk.2, fun y hy hyl => ?_⟩
    have hmy := List.getElem?_eq_getElem hyl
    obtain ⟨e1, e2⟩ := copies_step_other (tok := tok) h hmy (.setInverted v m) (fun e => hy (Eq.symm e)) (by simp)
    rw [index_eq e1, index_eq hmy, e2]

theorem run_alone_self {acts : List CopyAct} (h : w.Valid) (hal : w.Alone u) (hu : w.values[u]? = some mu)
    (hc : CopyAct.copy u ∉ acts) : (w.run tok acts).Alone u ∧ ∃ mu', (w.run tok acts).values[u]? = some mu' := by
  unfold Copies.run
  induction acts generalizing w mu with
  | nil => exact ⟨hal, _, hu⟩
  | cons a acts ih =>
    have hca : a ≠ .copy u := fun e => hc (by simp [e])
    have hcr : CopyAct.copy u ∉ acts := fun e => hc (by simp [e])
    by_cases ha : a.about u
    · obtain ⟨k1, ⟨_, k2⟩, _⟩ := step_alone_self (tok := tok) h hal hu a ha hca
      exact ih (step_valid h a) k1 k2 hcr
    · obtain ⟨k1, k2, _⟩ := step_alone (tok := tok) h hal hu a ha
      exact ih (step_valid h a) k1 k2 hcr

/-! ## Assigned fields -/

theorem increasing_unique {l l' : List Nat} (h : l.Pairwise (· < ·)) (h' : l'.Pairwise (· < ·)) (hm : ∀ i, i ∈ l ↔ i ∈ l') :
    l = l' := by
  induction l generalizing l' with
  | nil =>
    cases l' with
    | nil => rfl
    | cons b l' => exact absurd ((hm b).2 (by simp)) (by simp)
  | cons a l ih =>
    cases l' with
    | nil => exact absurd ((hm a).1 (by simp)) (by simp)
    | cons b l' =>
      rw [List.pairwise_cons] at h h'
      have hab : a = b := by
        rcases List.mem_cons.1 ((hm a).1 (by simp)) with e | e
        · exact e
        · rcases List.mem_cons.1 ((hm b).2 (by simp)) with e' | e'
          · exact e'.symm
          · have := h.1 b e'
            have := h'.1 a e
            omega
      subst hab
      congr 1
      refine ih h.2 h'.2 fun i => ⟨fun hi => ?_, fun hi => ?_⟩
      · rcases List.mem_cons.1 ((hm i).1 (by simp [hi])) with e | e
        · have := h.1 i hi; omega
        · exact e
      · rcases List.mem_cons.1 ((hm i).2 (by simp [hi])) with e | e
        · have := h'.1 i hi; omega
        · exact e

/-- Requests for these documents; the statement of each has as many bytes as there are documents before it. -/
def requestsFor (ds : List Doc) : List DocRequest :=
  ds.mapIdx fun i d => { name := d.name, content := d.content, statement := List.replicate i 0, mime := 0 }

/-- The tokens the map has for the position. -/
def tokensFrom (m : GoMap Str (List Nat)) : Tokenizer := fun s =>
  m.keys.filter fun t => decide (s.length ∈ (m.get t).getD [])

theorem positions_for (m : GoMap Str (List Nat)) (ds : List Doc) (t : Str) (hs : ((m.get t).getD []).Pairwise (· < ·))
    (hl : ∀ i ∈ (m.get t).getD [], i < ds.length) : positions (tokensFrom m) (requestsFor ds) t = (m.get t).getD [] := by
  refine increasing_unique (positions_sorted _ _ _) hs fun i => ?_
  rw [mem_positions]
  simp only [requestsFor, List.getElem?_mapIdx]
  constructor
  · rintro ⟨r, hr, ht⟩
    cases hd : ds[i]? with
    | none => rw [hd] at hr; cases hr
    | some d =>
      rw [hd] at hr
      obtain rfl := Option.some.inj hr
      simp only [tokensFrom, List.mem_filter, List.length_replicate, decide_eq_true_eq] at ht
      exact ht.2
  · intro hi
    have hd := List.getElem?_eq_getElem (hl i hi)
    refine ⟨_, by rw [hd]; rfl, ?_⟩
    simp only [tokensFrom, List.mem_filter, List.length_replicate, decide_eq_true_eq]
    refine ⟨?_, hi⟩
    rw [GoMap.mem_keys_iff]
    cases hg : m.get t with
    | none => rw [hg] at hi; cases hi
    | some l => exact ⟨l, rfl⟩

end Visigoth
