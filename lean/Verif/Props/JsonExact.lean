import Verif.Proofs.JsonKeeps
import Verif.Props.Json
import Verif.Proofs.JsonLeft
/-!
# JSON decoding: what is accepted (C72), what a failure leaves behind (C73)
-/
namespace Visigoth

/-- C72: `UnmarshalJSON` accepts exactly the texts of `null`, which changes nothing, and of objects whose
fields have the right types.  Everything else is an error: missing, doubled and trailing separators,
missing names, unclosed objects, anything after the value. -/
theorem C72_accepts_exactly (valid : List Tok → Bool) (hv : AcceptsJson valid) (hv' : OnlyJson valid) (data : List Tok)
    (out r : JsonResult) :
    unmarshalled valid data out = some r ↔
      (data = Json.null.toks ∧ r = out) ∨ ∃ fs, data = (Json.obj fs).toks ∧ readResult fs out = some r := by
  constructor
  · intro h
    have h1 : (unmarshal valid data out).1 = true := by
      unfold unmarshalled at h
      split at h
      · assumption
      · cases h
    rcases unmarshal_json hv' data out h1 with hd | ⟨fs, hd⟩
    · subst hd
      rw [C58_decoding valid hv] at h
      cases h
      exact .inl ⟨rfl, rfl⟩
    · subst hd
      rw [C58_decoding valid hv] at h
      exact .inr ⟨fs, rfl, h⟩
  · rintro (⟨hd, hr⟩ | ⟨fs, hd, hr⟩)
    · subst hd; subst hr; rw [C58_decoding valid hv]
    · subst hd; rw [C58_decoding valid hv]; exact hr

/-- C72: anything after a value is an error. -/
theorem C72_trailing (valid : List Tok → Bool) (hv' : OnlyJson valid) (fs : List (Str × Json)) (t : Tok) (rest : List Tok)
    (out : JsonResult) : unmarshalled valid ((Json.obj fs).toks ++ t :: rest) out = none := by
  unfold unmarshalled
  split
  · next h =>
    have scan : ∀ (gs : List (Str × Json)) (r : List Tok), skipScan .lbrace .rbrace 1 [.lbrace] (Json.toksFields true gs ++ .rbrace :: r)
        = some (.lbrace :: (Json.toksFields true gs ++ [.rbrace]), r) := by
      intro gs r
      have := skipScan_fields (op := .lbrace) (cl := .rbrace) (Or.inl ⟨rfl, rfl⟩) gs true 0 [.lbrace] (.rbrace :: r)
      simp only [Nat.zero_add] at this
      rw [this]
      simp [skipScan]
    rcases unmarshal_json hv' _ out h with hd | ⟨gs, hd⟩
    · simp [Json.toks] at hd
    · have h1 := scan fs (t :: rest)
      have h2 := scan gs []
      have e : Json.toksFields true fs ++ .rbrace :: t :: rest = Json.toksFields true gs ++ [.rbrace] := by
        simpa [Json.toks] using hd
      rw [e] at h1
      rw [h1] at h2
      simp at h2
  · rfl

open Classical in
/-- The contract of `json.Valid` can be met, on both sides. -/
theorem onlyJson_witness : ∃ valid, AcceptsJson valid ∧ OnlyJson valid := by
  refine ⟨fun ts => decide (∃ v : Json, ts = v.toks), fun v => ?_, fun ts h => ?_⟩
  · exact decide_eq_true ⟨v, rfl⟩
  · exact of_decide_eq_true h

/-- Stray, missing and trailing separators, a missing name, an unclosed object. -/
example : ∀ ts ∈ [[Tok.lbrace, .comma, .rbrace], [.lbrace, .str (str "hits"), .num (some 1), .rbrace],
      [.lbrace, .str (str "x"), .colon, .num (some 1), .comma, .comma, .str (str "y"), .colon, .null, .rbrace],
      [.lbrace, .str (str "x"), .colon, .rbrace], [.lbrace, .num none, .colon, .null, .rbrace], [.lbrace], [.null, .null], []],
    unmarshalled (fun _ => true) ts ⟨⟨[], []⟩, 0⟩ = none := by decide +kernel

/-! ## C73 -/

/-- C73 as stated: a failed `UnmarshalJSON` leaves the receiver as it was. -/
def FailureChangesNothing (valid : List Tok → Bool) : Prop :=
  ∀ data out, (unmarshal valid data out).1 = false → (unmarshal valid data out).2 = out

/-- False of the code: fields before the error have been stored, and a field of the wrong type is
overwritten with its zero value. -/
theorem C73_refuted (valid : List Tok → Bool) : ¬ FailureChangesNothing valid := by
  intro h
  have := h [.lbrace, .str (str "hits"), .colon, .str [], .rbrace] ⟨⟨[], []⟩, 7⟩ (by with_unfolding_all rfl)
  have e : (unmarshal valid [.lbrace, .str (str "hits"), .colon, .str [], .rbrace] ⟨⟨[], []⟩, 7⟩).2.hits = 0 := by with_unfolding_all rfl
  rw [this] at e
  cases e

/-- What holds: whether it succeeds or fails, `UnmarshalJSON` leaves alone what the text does not name;
text that does not begin with an object changes nothing.
Missing from the full claim: failures after a field of the result has been named. -/
theorem C73_unnamed_kept_partial (valid : List Tok → Bool) (data : List Tok) (out : JsonResult) :
    let r := (unmarshal valid data out).2
    (.str (str "hits") ∉ data → r.hits = out.hits) ∧ (.str (str "doc") ∉ data → r.document = out.document) ∧
    (.str (str "id") ∉ data → r.document.name = out.document.name) ∧
    (.str (str "raw") ∉ data → r.document.content = out.document.content) ∧
    (data.head? ≠ some .lbrace → r = out) := by
  obtain ⟨h1, h2, h3, h4⟩ := unmarshal_keeps (valid := valid) data out
  exact ⟨h1, h2, h3, h4, unmarshal_other_keeps data out⟩

/-- A failure after `hits` has been read: the document is as before, the hits are not. -/
example : unmarshal (fun _ => true) [.lbrace, .str (str "hits"), .colon, .num (some 3), .comma, .rbrace] ⟨⟨str "a", []⟩, 7⟩
    = (false, ⟨⟨str "a", []⟩, 3⟩) := by decide +kernel

/-- What `UnmarshalJSON` leaves behind, whatever the text and the receiver, whether it succeeds or not: what
the fields of the text say, read in order up to and including the first of the wrong type. -/
theorem C73_left_exactly (valid : List Tok → Bool) (hv : AcceptsJson valid) (hv' : OnlyJson valid) (data : List Tok)
    (fs : List (Str × Json)) (h : ResultFields data fs) (out : JsonResult) :
    (unmarshal valid data out).2 = leftResult fs out := by
  cases data with
  | nil => cases h; exact unmarshal_other_keeps [] out (by simp)
  | cons t rest =>
    by_cases ht : t = .lbrace
    · subst ht
      exact resultLoop_fieldsOf hv hv' h _ (Nat.lt_succ_self _) out
    · have hfs : fs = [] := by
        unfold ResultFields at h
        split at h
        · rename_i heq; injection heq with h1 _; exact absurd h1 ht
        · exact h
      rw [hfs]
      exact unmarshal_other_keeps _ out (by simpa using ht)

/-- Every text has such fields. -/
theorem C73_fields_exist (data : List Tok) : ∃ fs, ResultFields data fs := by
  unfold ResultFields
  split
  · exact fieldsOf_total TornDoc tornDoc_total _ true _ (Nat.le_refl _)
  · exact ⟨[], rfl⟩

/-- The fields of the text of an object are its fields. -/
theorem C73_left_by_object (valid : List Tok → Bool) (hv : AcceptsJson valid) (hv' : OnlyJson valid)
    (fs : List (Str × Json)) (out : JsonResult) :
    (unmarshal valid (Json.obj fs).toks out).2 = leftResult fs out := by
  apply C73_left_exactly valid hv hv'
  have : (Json.obj fs).toks = .lbrace :: (Json.toksFields true fs ++ [.rbrace]) := by simp [Json.toks]
  rw [this]
  exact ⟨fs, [.rbrace], rfl, .inl ⟨rfl, no_name_rbrace _ _⟩⟩

theorem leftDoc_silent (gs : List (Str × Json)) (h1 : fieldValues "id" gs = []) (h2 : fieldValues "raw" gs = []) (d : Doc) :
    leftDoc gs d = d ∧ (readDoc gs d).isSome = true := by
  constructor
  · induction gs with
    | nil => rfl
    | cons f gs ih =>
      obtain ⟨k, v⟩ := f
      rw [fieldValues_cons] at h1 h2
      unfold leftDoc
      by_cases hn : v.isNull = true
      · rw [if_pos hn]
        simp only [hn, Bool.true_eq_false, and_false, if_false] at h1 h2
        exact ih h1 h2
      · have hn : v.isNull = false := by simpa using hn
        rw [if_neg (by rw [hn]; simp)]
        by_cases k1 : k = "id".toUTF8.toList
        · rw [if_pos ⟨k1, hn⟩] at h1; cases h1
        · by_cases k2 : k = "raw".toUTF8.toList
          · rw [if_pos ⟨k2, hn⟩] at h2; cases h2
          · rw [if_neg k1, if_neg k2]
            rw [if_neg (fun h => k1 h.1)] at h1
            rw [if_neg (fun h => k2 h.1)] at h2
            exact ih h1 h2
  · simp [readDoc, h1, h2, allOf]

/-- A document that is overwritten does not depend on what was there. -/
theorem leftDoc_naming (gs : List (Str × Json)) (h : ¬ (fieldValues "id" gs = [] ∧ fieldValues "raw" gs = [])) :
    ∃ d d' : Doc, d ≠ d' ∧ leftDoc gs d = leftDoc gs d' := by
  induction gs with
  | nil => exact absurd ⟨rfl, rfl⟩ h
  | cons f gs ih =>
    obtain ⟨k, v⟩ := f
    rw [fieldValues_cons, fieldValues_cons] at h
    unfold leftDoc
    by_cases hn : v.isNull = true
    · simp only [hn, Bool.true_eq_false, and_false, if_false] at h
      simp only [hn, if_true]
      exact ih h
    · have hn : v.isNull = false := by simpa using hn
      simp only [hn, Bool.false_eq_true, if_false]
      by_cases k1 : k = "id".toUTF8.toList
      · simp only [if_pos k1]
        refine ⟨⟨[], []⟩, ⟨[0], []⟩, by simp, ?_⟩
        cases asString v <;> rfl
      · by_cases k2 : k = "raw".toUTF8.toList
        · simp only [if_neg k1, if_pos k2]
          refine ⟨⟨[], []⟩, ⟨[], [0]⟩, by simp, ?_⟩
          cases asString v <;> rfl
        · simp only [if_neg k1, if_neg k2]
          rw [if_neg (fun h => k1 h.1), if_neg (fun h => k2 h.1)] at h
          exact ih h

theorem leftResult_guard (fs : List (Str × Json)) :
    (∀ out, leftResult fs out = out) ↔
      NamesNothing fs ∨ ∃ pre v post, fs = pre ++ (str "doc", v) :: post ∧ v.isNull = false ∧ asObject v = none ∧
        NamesNothing pre := by
  induction fs with
  | nil => exact ⟨fun _ => .inl ⟨rfl, by simp [fieldValues]⟩, fun _ _ => rfl⟩
  | cons f fs ih =>
    obtain ⟨k, v⟩ := f
    have edoc : (str "doc" : Str) = "doc".toUTF8.toList := rfl
    have e1 : ("hits".toUTF8.toList : Str) ≠ "doc".toUTF8.toList := by decide +kernel
    -- a silent field changes nothing on either side
    have silent : (∀ out, leftResult ((k, v) :: fs) out = leftResult fs out) →
        (∀ pre, NamesNothing ((k, v) :: pre) ↔ NamesNothing pre) →
        ¬ (k = "doc".toUTF8.toList ∧ v.isNull = false ∧ asObject v = none) →
        ((∀ out, leftResult ((k, v) :: fs) out = out) ↔
          NamesNothing ((k, v) :: fs) ∨ ∃ pre w post, (k, v) :: fs = pre ++ (str "doc", w) :: post ∧ w.isNull = false ∧
            asObject w = none ∧ NamesNothing pre) := by
      intro h1 h2 h3
      simp only [h1, ih, h2]
      constructor
      · rintro (h | ⟨pre, w, post, rfl, h⟩)
        · exact .inl h
        · exact .inr ⟨(k, v) :: pre, w, post, rfl, h.1, h.2.1, (h2 pre).2 h.2.2⟩
      · rintro (h | ⟨pre, w, post, e, h⟩)
        · exact .inl h
        · cases pre with
          | nil =>
            injection e with e _
            injection e with ek ev
            subst ev
            exact absurd ⟨ek, h.1, h.2.1⟩ h3
          | cons x pre =>
            injection e with e1 e2
            subst e1
            exact .inr ⟨pre, w, post, e2, h.1, h.2.1, (h2 pre).1 h.2.2⟩
    by_cases hn : v.isNull = true
    · apply silent
      · intro out; simp only [leftResult, hn, if_true]
      · intro pre
        simp only [NamesNothing, fieldValues_cons, hn, Bool.true_eq_false, and_false, if_false]
      · rintro ⟨_, h, _⟩; rw [hn] at h; cases h
    · have hn : v.isNull = false := by simpa using hn
      by_cases k1 : k = "doc".toUTF8.toList
      · cases ho : asObject v with
        | none =>
          constructor
          · intro _
            exact .inr ⟨[], v, fs, by rw [k1]; rfl, hn, ho, rfl, by simp [fieldValues]⟩
          · intro _ out
            simp only [leftResult, hn, Bool.false_eq_true, if_false, if_pos k1, ho]
        | some gs =>
          by_cases hg : fieldValues "id" gs = [] ∧ fieldValues "raw" gs = []
          · have hvv : v = .obj gs := by
              cases v <;> simp [asObject] at ho
              rw [ho]
            apply silent
            · intro out
              obtain ⟨g1, g2⟩ := leftDoc_silent gs hg.1 hg.2 out.document
              simp only [leftResult, hn, Bool.false_eq_true, if_false, if_pos k1, ho, g1, g2, if_true]
            · intro pre
              simp only [NamesNothing, fieldValues_cons, hn, and_true, k1, e1.symm, if_false, if_true]
              constructor
              · rintro ⟨h1, h2⟩
                exact ⟨h1, fun w hw => h2 w (List.mem_cons_of_mem _ hw)⟩
              · rintro ⟨h1, h2⟩
                refine ⟨h1, fun w hw => ?_⟩
                rcases List.mem_cons.1 hw with hw | hw
                · exact ⟨gs, by rw [hw, hvv], hg⟩
                · exact h2 w hw
            · rintro ⟨_, _, h⟩; rw [ho] at h; cases h
          · constructor
            · intro h
              exfalso
              obtain ⟨d, d', hne, he⟩ := leftDoc_naming gs hg
              have hs : (readDoc gs d).isSome = (readDoc gs d').isSome := by
                unfold readDoc
                cases allOf asString (fieldValues "id" gs) <;> cases allOf asString (fieldValues "raw" gs) <;> rfl
              have h1 := h ⟨d, 0⟩
              have h2 := h ⟨d', 0⟩
              simp only [leftResult, hn, Bool.false_eq_true, if_false, if_pos k1, ho, he, hs] at h1 h2
              rw [h1] at h2
              injection h2 with h2 _
              exact hne h2
            · rintro (⟨_, h⟩ | ⟨pre, w, post, e, h1, h2, h3⟩)
              · have hm : v ∈ fieldValues "doc" ((k, v) :: fs) := by
                  rw [fieldValues_cons, if_pos ⟨k1, hn⟩]; exact List.mem_cons_self ..
                obtain ⟨gs', e1, e2⟩ := h v hm
                rw [e1] at ho
                injection ho with ho
                rw [ho] at e2
                exact absurd e2 hg
              · cases pre with
                | nil =>
                  injection e with e _
                  injection e with ek ev
                  rw [← ev, ho] at h2
                  cases h2
                | cons x pre =>
                  injection e with e1 e2
                  subst e1
                  have hm : v ∈ fieldValues "doc" ((k, v) :: pre) := by
                    rw [fieldValues_cons, if_pos ⟨k1, hn⟩]; exact List.mem_cons_self ..
                  obtain ⟨gs', e1, e2⟩ := h3.2 v hm
                  rw [e1] at ho
                  injection ho with ho
                  rw [ho] at e2
                  exact absurd e2 hg
      · by_cases k2 : k = "hits".toUTF8.toList
        · have hnot : ∀ pre, ¬ NamesNothing ((k, v) :: pre) := by
            rintro pre ⟨h, _⟩
            rw [fieldValues_cons, if_pos ⟨k2, hn⟩] at h
            cases h
          constructor
          · intro h
            exfalso
            have h1 := h ⟨⟨[], []⟩, 0⟩
            have h2 := h ⟨⟨[], []⟩, 1⟩
            simp only [leftResult, hn, Bool.false_eq_true, if_false, if_neg k1, if_pos k2] at h1 h2
            cases hi : asInt v with
            | none => rw [hi] at h2; cases h2
            | some n =>
              rw [hi] at h1 h2
              simp only at h1 h2
              rw [h1] at h2
              cases h2
          · rintro (h | ⟨pre, w, post, e, h1, h2, h3⟩)
            · exact absurd h (hnot fs)
            · cases pre with
              | nil =>
                injection e with e _
                injection e with ek ev
                exact absurd ek k1
              | cons x pre =>
                injection e with e1 e2
                subst e1
                exact absurd h3 (hnot pre)
        · apply silent
          · intro out
            simp only [leftResult, hn, Bool.false_eq_true, if_false, if_neg k1, if_neg k2]
          · intro pre
            simp only [NamesNothing, fieldValues_cons, k1, k2, false_and, if_false]
          · exact fun h => k1 h.1

/-- When C73 holds for a text, exactly: the text, whatever is wrong with it, has named nothing that is stored
before what stopped it; a `doc` that is not an object stops it without changing anything. -/
theorem C73_guard_exact (valid : List Tok → Bool) (hv : AcceptsJson valid) (hv' : OnlyJson valid) (data : List Tok)
    (fs : List (Str × Json)) (h : ResultFields data fs) :
    (∀ out, (unmarshal valid data out).2 = out) ↔
      NamesNothing fs ∨ ∃ pre v post, fs = pre ++ (str "doc", v) :: post ∧ v.isNull = false ∧ asObject v = none ∧
        NamesNothing pre := by
  rw [← leftResult_guard]
  exact forall_congr' fun out => by rw [C73_left_exactly valid hv hv' data fs h out]

/-- The text `{"hits": 3, "doc": {"id": "a", "raw"` breaks off: the hits and the ID have been stored, the
content is emptied. -/
def brokenOff : List Tok :=
  [.lbrace, .str (str "hits"), .colon, .num (some 3), .comma, .str (str "doc"), .colon, .lbrace, .str (str "id"), .colon,
   .str (str "a"), .comma, .str (str "raw")]

example : ResultFields brokenOff [(str "hits", .num (some 3)),
    (str "doc", .obj [(str "id", .str (str "a")), (str "raw", .bool false)])] := by
  refine ⟨[(str "hits", .num (some 3))], [.comma, .str (str "doc"), .colon, .lbrace, .str (str "id"), .colon,
    .str (str "a"), .comma, .str (str "raw")], by simp [Json.toksFields, Json.toks], .inr ?_⟩
  refine ⟨str "doc", [.colon, .lbrace, .str (str "id"), .colon, .str (str "a"), .comma, .str (str "raw")], _, rfl, ?_, ?_, rfl⟩
  · rintro ⟨w, rest', e⟩
    injection e with _ e
    have hm : Tok.rbrace ∈ w.toks ++ rest' := by
      cases w with
      | obj fs => simp [Json.toks]
      | _ => simp [Json.toks] at e
    rw [← e] at hm
    simp at hm
  · unfold TornDoc
    rw [if_pos ⟨rfl, _, rfl⟩]
    refine ⟨_, rfl, [(str "id", .str (str "a"))], [.comma, .str (str "raw")], by simp [Json.toksFields, Json.toks], .inr ?_⟩
    exact ⟨str "raw", [], .bool false, rfl, (by rintro ⟨w, r, e⟩; cases e), rfl, rfl⟩

example : unmarshal (fun _ => true) brokenOff ⟨⟨str "x", str "y"⟩, 7⟩ = (false, ⟨⟨str "a", []⟩, 3⟩) := by decide +kernel

end Visigoth
