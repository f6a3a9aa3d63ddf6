import Verif.Proofs.Stemmer
/-!
# Snowball regions: C55, C56
-/
namespace Visigoth

/-- A region as Go returns it: nil if it is empty. -/
def regionBytes (r : List GoChar) : Option Str := if r = [] then none else some (bytesOf r)

private theorem slots_of (w : Str) :
    ((rangeStr w).map fun e => { index := e.1, isVowel := isVowel e.2 : RuneSlot }) = slots 0 (chars w) := by
  rw [rangeStr_eq]; rfl

private theorem r1_step (w : Str) :
    (regionLoop false false (slots 0 (chars w))).map (fun i => w.drop i) = regionBytes (region (chars w)) :=
  startsAt_drop (regionLoop_start (chars w) 0)

private theorem region_suffix (cs : List GoChar) : ∃ pre, cs = pre ++ region cs := by
  obtain ⟨pre, h, _⟩ := regionLoop_start cs 0
  exact ⟨pre, h⟩

/-- The three results of `R1R2RV`, for every word. -/
theorem r1r2rv_eq (w : Str) :
    r1r2rv w = (regionBytes (region (chars w)), regionBytes (region (region (chars w))),
      if region (chars w) = [] then none else regionBytes (rvRegion (chars w))) := by
  have h1 := r1_step w
  unfold r1r2rv
  simp only [slots_of]
  cases hr : regionLoop false false (slots 0 (chars w)) with
  | none =>
    rw [hr] at h1
    have he : region (chars w) = [] := by
      unfold regionBytes at h1
      by_cases h : region (chars w) = []
      · exact h
      · simp [h] at h1
    simp only [he, if_true]
    rfl
  | some i =>
    rw [hr] at h1
    have hne : region (chars w) ≠ [] := by
      intro h
      simp [regionBytes, h] at h1
    have hd : w.drop i = bytesOf (region (chars w)) := by
      simpa [regionBytes, hne] using h1
    obtain ⟨pre, hpre⟩ := region_suffix (chars w)
    have hc : chars (w.drop i) = region (chars w) := by
      rw [hd]; exact chars_suffix pre _ w hpre
    have h2 := r1_step (w.drop i)
    rw [hc] at h2
    simp only [hc, h2, hne, if_false]
    have e1 : regionBytes (region (chars w)) = some (w.drop i) := by rw [hd]; simp [regionBytes, hne]
    rw [e1]
    rcases hcs : chars w with _ | ⟨a, _ | ⟨b, rest⟩⟩
    · simp [slots_nil, rvRegion, regionBytes]
    · simp [slots_cons, slots_nil, rvRegion, regionBytes]
    · cases rest with
      | nil => simp [slots_cons, slots_nil, rvRegion, regionBytes, afterFirst]
      | cons c rest =>
        have k1 := startsAt_drop2 hcs (rvLoop_start false (c :: rest) (a.2.length + b.2.length))
        have k2 := startsAt_drop2 hcs (rvLoop_start true (c :: rest) (a.2.length + b.2.length))
        simp only [slots_cons, List.drop_succ_cons, List.drop_zero, Nat.zero_add] at k1 k2 ⊢
        cases hb : SpanishVowel b with
        | false =>
          simp only [rvRegion, hb, Bool.and_false, Bool.false_eq_true, if_false, Bool.not_false, if_true]
          have e2 : (fun c => decide (SpanishVowel c = true)) = SpanishVowel := by funext c; simp
          rw [e2] at k2
          unfold regionBytes
          rw [← k2]
          cases rvLoop true false
            ({ index := a.2.length + b.2.length, isVowel := SpanishVowel c } ::
              slots (a.2.length + b.2.length + c.2.length) rest) with
          | some k => rfl
          | none => dsimp only; split <;> rfl
        | true =>
          cases ha : SpanishVowel a with
          | true =>
            simp only [rvRegion, hb, ha, Bool.and_true, if_true, Bool.not_true, Bool.false_eq_true, if_false]
            have e2 : (fun c => decide (SpanishVowel c = false)) = fun c => !SpanishVowel c := by
              funext c; cases SpanishVowel c <;> rfl
            rw [e2] at k1
            unfold regionBytes
            rw [← k1]
            cases rvLoop false false
              ({ index := a.2.length + b.2.length, isVowel := SpanishVowel c } ::
                slots (a.2.length + b.2.length + c.2.length) rest) with
            | some k => rfl
            | none => dsimp only; split <;> rfl
          | false =>
            simp only [rvRegion, hb, ha, Bool.and_true, Bool.false_eq_true, if_false, Bool.not_true,
              Bool.not_false, if_true, List.drop_succ_cons, List.drop_zero]
            cases rest with
            | nil => simp [slots_nil, regionBytes]
            | cons d rest =>
              simp only [slots_cons, List.getElem?_cons_succ, List.getElem?_cons_zero]
              have : startsAt 0 (chars w) (d :: rest) (some (a.2.length + b.2.length + c.2.length)) :=
                ⟨[a, b, c], hcs, by simp [bytesOf, Nat.add_assoc]⟩
              have := startsAt_drop this
              simp only [Option.map_some] at this
              rw [this]
              rfl

/-- C55: for every byte slice, R1 is the region of the word and R2 the region of R1. -/
theorem C55_r1_and_r2 (w : Str) :
    ((r1r2rv w).1.getD [] = bytesOf (region (chars w))) ∧
    ((r1r2rv w).2.1.getD [] = bytesOf (region (region (chars w)))) := by
  rw [r1r2rv_eq]
  unfold regionBytes
  constructor
  · split <;> simp [*, bytesOf]
  · dsimp only; split <;> simp [*, bytesOf]

/-- C55: the region of the specification, without any function: it follows a vowel, possibly more
vowels, and one non-vowel, with only non-vowels before; and if the word has no vowel followed by a
non-vowel, it is empty. -/
theorem C55_region_means (cs : List GoChar) :
    (∃ pre v mid c, cs = pre ++ v :: mid ++ c :: region cs ∧ (∀ x ∈ pre, SpanishVowel x = false) ∧
      SpanishVowel v = true ∧ (∀ x ∈ mid, SpanishVowel x = true) ∧ SpanishVowel c = false) ∨
    (region cs = [] ∧ ¬ ∃ pre v c post, cs = pre ++ v :: c :: post ∧ SpanishVowel v = true ∧
      SpanishVowel c = false) := by
  have second : ∀ cs : List GoChar,
      (∃ mid c, cs = mid ++ c :: afterFirst (fun c => !SpanishVowel c) cs ∧
        (∀ x ∈ mid, SpanishVowel x = true) ∧ SpanishVowel c = false) ∨
      (afterFirst (fun c => !SpanishVowel c) cs = [] ∧ ∀ x ∈ cs, SpanishVowel x = true) := by
    intro cs
    induction cs with
    | nil => exact Or.inr ⟨rfl, by simp⟩
    | cons c cs ih =>
      rw [afterFirst_cons]
      cases hv : SpanishVowel c with
      | false => exact Or.inl ⟨[], c, by simp, by simp, hv⟩
      | true =>
        simp only [Bool.not_true, Bool.false_eq_true, if_false]
        rcases ih with ⟨mid, d, h1, h2, h3⟩ | ⟨h1, h2⟩
        · refine Or.inl ⟨c :: mid, d, ?_, ?_, h3⟩
          · rw [List.cons_append, ← h1]
          · intro x hx
            rcases List.mem_cons.1 hx with rfl | hx
            · exact hv
            · exact h2 x hx
        · refine Or.inr ⟨h1, ?_⟩
          intro x hx
          rcases List.mem_cons.1 hx with rfl | hx
          · exact hv
          · exact h2 x hx
  unfold region
  induction cs with
  | nil => exact Or.inr ⟨rfl, by rintro ⟨pre, v, c, post, h, _⟩; simp at h⟩
  | cons x cs ih =>
    rw [afterFirst_cons]
    cases hx : SpanishVowel x with
    | true =>
      simp only [if_true]
      rcases second cs with ⟨mid, c, h1, h2, h3⟩ | ⟨h1, h2⟩
      · exact Or.inl ⟨[], x, mid, c, by rw [List.nil_append, List.cons_append, ← h1], by simp, hx, h2, h3⟩
      · refine Or.inr ⟨h1, ?_⟩
        rintro ⟨pre, v, c, post, h, _, hc⟩
        have : c ∈ x :: cs := by rw [h]; simp
        rcases List.mem_cons.1 this with rfl | hm
        · rw [hx] at hc; cases hc
        · rw [h2 c hm] at hc; cases hc
    | false =>
      simp only [Bool.false_eq_true, if_false]
      rcases ih with ⟨pre, v, mid, c, h1, h2, h3⟩ | ⟨h1, h2⟩
      · refine Or.inl ⟨x :: pre, v, mid, c, by rw [List.cons_append, List.cons_append, ← h1], ?_, h3⟩
        intro y hy
        rcases List.mem_cons.1 hy with rfl | hy
        · exact hx
        · exact h2 y hy
      · refine Or.inr ⟨h1, ?_⟩
        rintro ⟨pre, v, c, post, h, hv, hc⟩
        cases pre with
        | nil =>
          injection h with h _
          rw [h, hv] at hx
          cases hx
        | cons p pre =>
          injection h with _ h
          exact h2 ⟨pre, v, c, post, h, hv, hc⟩

/-- Region bytes in context: a suffix of the word, at a character boundary. -/
private theorem suffix_at {w : Str} {pre r : List GoChar} (h : chars w = pre ++ r) :
    w = bytesOf pre ++ bytesOf r ∧ chars w = chars (bytesOf pre) ++ chars (bytesOf r) := by
  refine ⟨by rw [← bytesOf_append, ← h, chars_flatten], ?_⟩
  rw [chars_suffix pre r w h, chars_prefix pre r w h, h]

/-- C55: R1 and R2 are suffixes of the word that start at a character boundary: the characters of the
word are those of a prefix followed by those of the region. -/
theorem C55_suffixes (w : Str) :
    (∃ pre, w = pre ++ (r1r2rv w).1.getD [] ∧ chars w = chars pre ++ chars ((r1r2rv w).1.getD [])) ∧
    (∃ pre, w = pre ++ (r1r2rv w).2.1.getD [] ∧ chars w = chars pre ++ chars ((r1r2rv w).2.1.getD [])) := by
  rw [(C55_r1_and_r2 w).1, (C55_r1_and_r2 w).2]
  obtain ⟨p, hp⟩ := region_suffix (chars w)
  obtain ⟨q, hq⟩ := region_suffix (region (chars w))
  refine ⟨⟨_, suffix_at hp⟩, ⟨bytesOf (p ++ q), suffix_at ?_⟩⟩
  rw [List.append_assoc, ← hq, ← hp]

/-- C55: every offset at which the word is sliced lies inside the word, so slicing does not panic. -/
theorem C55_offsets_in_range (w : Str) : ∀ e ∈ rangeStr w, e.1 < w.length := by
  rw [rangeStr_eq]
  have key : ∀ (cs : List GoChar) (off : Nat), (∀ c ∈ cs, c.2 ≠ []) →
      ∀ e ∈ withOffsets off cs, e.1 < off + (bytesOf cs).length := by
    intro cs
    induction cs with
    | nil => intro off _ e he; simp [withOffsets] at he
    | cons c cs ih =>
      intro off hne e he
      have hc : 0 < c.2.length := List.length_pos_iff.2 (hne c (by simp))
      rw [bytesOf_cons, List.length_append]
      simp only [withOffsets, List.mem_cons] at he
      rcases he with rfl | he
      · dsimp only; omega
      · have := ih (off + c.2.length) (fun d hd => hne d (List.mem_cons_of_mem _ hd)) e he
        omega
  intro e he
  have := key (chars w) 0 (chars_nonempty w) e he
  rwa [chars_flatten, Nat.zero_add] at this

/-- C56: what RV is, for every byte slice. -/
theorem C56_rv_exact (w : Str) :
    (r1r2rv w).2.2.getD [] = if region (chars w) = [] then [] else bytesOf (rvRegion (chars w)) := by
  rw [r1r2rv_eq]
  dsimp only
  split
  · rfl
  · unfold regionBytes; split <;> simp [*, bytesOf]

/-- C56, full statement. -/
def C56_rv_statement : Prop := ∀ w : Str, (r1r2rv w).2.2.getD [] = bytesOf (rvRegion (chars w))

/-- C56 is false: the RV of "crear" is "ar", the code returns nothing as R1 is empty. -/
theorem C56_rv_refuted : ¬ C56_rv_statement := by
  intro h
  have := h (str "crear")
  revert this
  decide +kernel

/-- C56, as far as it holds: if R1 is not empty.  Missing: words without R1, for which the code always
gives an empty RV. -/
theorem C56_rv_partial (w : Str) (h : (r1r2rv w).1 ≠ none) :
    (r1r2rv w).2.2.getD [] = bytesOf (rvRegion (chars w)) := by
  rw [C56_rv_exact, if_neg]
  intro he
  rw [r1r2rv_eq, he] at h
  exact h rfl

/-- C56: the guard is exact: the result is the documented one if and only if R1 is not empty or RV is
empty. -/
theorem C56_guard_exact (w : Str) :
    (r1r2rv w).2.2.getD [] = bytesOf (rvRegion (chars w)) ↔
      ((r1r2rv w).1 ≠ none ∨ rvRegion (chars w) = []) := by
  have hs : ∃ pre, chars w = pre ++ rvRegion (chars w) := by
    have after : ∀ (p : GoChar → Bool) (cs : List GoChar), ∃ pre, cs = pre ++ afterFirst p cs := by
      intro p cs
      induction cs with
      | nil => exact ⟨[], rfl⟩
      | cons c cs ih =>
        obtain ⟨pre, h⟩ := ih
        rw [afterFirst_cons]
        split
        · exact ⟨[c], rfl⟩
        · exact ⟨c :: pre, by rw [List.cons_append, ← h]⟩
    rcases chars w with _ | ⟨a, _ | ⟨b, rest⟩⟩
    · exact ⟨[], rfl⟩
    · exact ⟨[a], rfl⟩
    · simp only [rvRegion]
      split
      · obtain ⟨pre, h⟩ := after SpanishVowel rest
        exact ⟨a :: b :: pre, by rw [List.cons_append, List.cons_append, ← h]⟩
      · split
        · obtain ⟨pre, h⟩ := after (fun c => !SpanishVowel c) rest
          exact ⟨a :: b :: pre, by rw [List.cons_append, List.cons_append, ← h]⟩
        · exact ⟨a :: b :: rest.take 1, by rw [List.cons_append, List.cons_append, List.take_append_drop]⟩
  obtain ⟨pre, hpre⟩ := hs
  constructor
  · intro h
    by_cases hr : region (chars w) = []
    · rw [C56_rv_exact, if_pos hr] at h
      exact Or.inr ((bytesOf_eq_nil hpre).1 h.symm)
    · refine Or.inl ?_
      rw [r1r2rv_eq]
      simp [regionBytes, hr]
  · rintro (h | h)
    · exact C56_rv_partial w h
    · rw [C56_rv_exact, h]
      simp [bytesOf]

/-! ## C83 -/

/-- The package's own stemmer is unfinished: it gives nil for every word, so it tells no two words apart. -/
theorem C83_stem_is_nil (w v : Str) : stem w = none ∧ stem w = stem v := ⟨rfl, rfl⟩

example : stem (str "trabajo") = none := rfl

/-- The words of the repository's test, and one with malformed UTF-8. -/
example : r1r2rv (str "macho") = (some (str "ho"), none, some (str "ho")) := by decide +kernel
example : r1r2rv (str "oliva") = (some (str "iva"), some (str "a"), some (str "va")) := by decide +kernel
example : r1r2rv (str "trabajo") = (some (str "ajo"), some (str "o"), some (str "bajo")) := by decide +kernel
example : r1r2rv (str "áureo") = (some (str "eo"), none, some (str "eo")) := by decide +kernel
example : r1r2rv [0x61, 0xff, 0x62] = (some [0x62], none, none) := by decide +kernel
example : bytesOf (rvRegion (chars (str "crear"))) = str "ar" := by decide +kernel
example : bytesOf (rvRegion (chars (str "trabajo"))) = str "bajo" := by decide +kernel

end Visigoth
