import Verif.Spec.Json
/-!
# Decoding JSON text
-/
namespace Visigoth

mutual
theorem skipScan_value {op cl : Tok} (h : (op = .lbrace ∧ cl = .rbrace) ∨ (op = .lbrack ∧ cl = .rbrack)) :
    ∀ (v : Json) (level : Nat) (acc rest : List Tok),
    skipScan op cl (level + 1) acc (v.toks ++ rest) = skipScan op cl (level + 1) (acc ++ v.toks) rest
  | .null, level, acc, rest => by rcases h with ⟨rfl, rfl⟩ | ⟨rfl, rfl⟩ <;> simp [Json.toks, skipScan]
  | .bool b, level, acc, rest => by rcases h with ⟨rfl, rfl⟩ | ⟨rfl, rfl⟩ <;> simp [Json.toks, skipScan]
  | .num b, level, acc, rest => by rcases h with ⟨rfl, rfl⟩ | ⟨rfl, rfl⟩ <;> simp [Json.toks, skipScan]
  | .str b, level, acc, rest => by rcases h with ⟨rfl, rfl⟩ | ⟨rfl, rfl⟩ <;> simp [Json.toks, skipScan]
  | .arr vs, level, acc, rest => by
    have ih := skipScan_items h vs true
    rcases h with ⟨rfl, rfl⟩ | ⟨rfl, rfl⟩
    · simp [Json.toks, skipScan, List.append_assoc, ih]
    · simp [Json.toks, skipScan, List.append_assoc, ih]
  | .obj fs, level, acc, rest => by
    have ih := skipScan_fields h fs true
    rcases h with ⟨rfl, rfl⟩ | ⟨rfl, rfl⟩
    · simp [Json.toks, skipScan, List.append_assoc, ih]
    · simp [Json.toks, skipScan, List.append_assoc, ih]
theorem skipScan_items {op cl : Tok} (h : (op = .lbrace ∧ cl = .rbrace) ∨ (op = .lbrack ∧ cl = .rbrack)) :
    ∀ (vs : List Json) (first : Bool) (level : Nat) (acc rest : List Tok),
    skipScan op cl (level + 1) acc (Json.toksItems first vs ++ rest) =
      skipScan op cl (level + 1) (acc ++ Json.toksItems first vs) rest
  | [], first, level, acc, rest => by simp [Json.toksItems]
  | v :: vs, first, level, acc, rest => by
    have ih1 := skipScan_value h v
    have ih2 := skipScan_items h vs false
    rcases h with ⟨rfl, rfl⟩ | ⟨rfl, rfl⟩ <;> cases first <;>
      simp [Json.toksItems, skipScan, List.append_assoc, ih1, ih2]
theorem skipScan_fields {op cl : Tok} (h : (op = .lbrace ∧ cl = .rbrace) ∨ (op = .lbrack ∧ cl = .rbrack)) :
    ∀ (fs : List (Str × Json)) (first : Bool) (level : Nat) (acc rest : List Tok),
    skipScan op cl (level + 1) acc (Json.toksFields first fs ++ rest) =
      skipScan op cl (level + 1) (acc ++ Json.toksFields first fs) rest
  | [], first, level, acc, rest => by simp [Json.toksFields]
  | (k, v) :: fs, first, level, acc, rest => by
    have ih1 := skipScan_value h v
    have ih2 := skipScan_fields h fs false
    rcases h with ⟨rfl, rfl⟩ | ⟨rfl, rfl⟩ <;> cases first <;>
      simp [Json.toksFields, skipScan, List.append_assoc, ih1, ih2]
end

/-- The lexer at the head of a field loop. -/
def headL (first : Bool) (data : List Tok) : Lexer :=
  { data := data, started := true, wantSep := if first then none else some .comma, first := first }

/-- The lexer with the first token of a value current. -/
def opened (rest : List Tok) : Json → Lexer
  | .null => { data := rest, started := true, tok := some .null }
  | .bool b => { data := rest, started := true, tok := some (.bool b) }
  | .num n => { data := rest, started := true, tok := some (.num n) }
  | .str s => { data := rest, started := true, tok := some (.str s) }
  | .arr vs => { data := Json.toksItems true vs ++ .rbrack :: rest, started := true, first := true, tok := some .lbrack }
  | .obj fs => { data := Json.toksFields true fs ++ .rbrace :: rest, started := true, first := true, tok := some .lbrace }

theorem head_done (first : Bool) (rest : List Tok) :
    (headL first (.rbrace :: rest)).isDelim .rbrace =
      (true, { data := rest, started := true, first := first, tok := some .rbrace }) := by
  cases first <;> simp [headL, Lexer.isDelim, Lexer.peek, Lexer.fetch, Lexer.fetchFrom]

theorem head_field (first : Bool) (k : Str) (v : Json) (fs : List (Str × Json)) (rest : List Tok) :
    ((headL first (Json.toksFields first ((k, v) :: fs) ++ rest)).isDelim .rbrace) =
      (false, { data := .colon :: (v.toks ++ (Json.toksFields false fs ++ rest)), started := true, first := first
                tok := some (.str k) }) := by
  cases first <;>
    simp [headL, Json.toksFields, Lexer.isDelim, Lexer.peek, Lexer.fetch, Lexer.fetchFrom]

theorem field_value (v : Json) (rest : List Tok) (first : Bool) :
    (Lexer.wantColon { data := .colon :: (v.toks ++ rest), started := true, first := first }).isNull =
      (v.isNull, opened rest v) := by
  cases v <;>
    simp [Json.toks, Lexer.wantColon, Lexer.isNull, Lexer.peek, Lexer.fetch, Lexer.fetchFrom, opened, Json.isNull]

theorem opened_skip (valid : List Tok → Bool) (hv : AcceptsJson valid) (rest : List Tok) (v : Json) :
    ((opened rest v).skipRecursive valid).wantComma = headL false rest := by
  cases v with
  | null => rfl
  | bool b => rfl
  | num n => rfl
  | str s => rfl
  | arr vs =>
    have h := skipScan_items (op := .lbrack) (cl := .rbrack) (Or.inr ⟨rfl, rfl⟩) vs true 0 [.lbrack] (.rbrack :: rest)
    have hval : valid (Tok.lbrack :: (Json.toksItems true vs ++ [Tok.rbrack])) = true := hv (.arr vs)
    simp only [Nat.zero_add] at h
    simp [Lexer.skipRecursive, opened, Lexer.peek, h, skipScan, Lexer.consume, Lexer.wantComma, headL, hval]
  | obj fs =>
    have h := skipScan_fields (op := .lbrace) (cl := .rbrace) (Or.inl ⟨rfl, rfl⟩) fs true 0 [.lbrace] (.rbrace :: rest)
    have hval : valid (Tok.lbrace :: (Json.toksFields true fs ++ [Tok.rbrace])) = true := hv (.obj fs)
    simp only [Nat.zero_add] at h
    simp [Lexer.skipRecursive, opened, Lexer.peek, h, skipScan, Lexer.consume, Lexer.wantComma, headL, hval]

theorem docLoop_failed (valid : List Tok → Bool) (fuel : Nat) (l : Lexer) (out : Doc) (h : l.failed = true) :
    (docLoop valid fuel l out).1.failed = true := by
  cases fuel with
  | zero => exact h
  | succ n => simp [docLoop, Lexer.isDelim, Lexer.peek, h]

theorem resultLoop_failed (valid : List Tok → Bool) (fuel : Nat) (l : Lexer) (out : JsonResult)
    (h : l.failed = true) : (resultLoop valid fuel l out).1.failed = true := by
  cases fuel with
  | zero => exact h
  | succ n => simp [resultLoop, Lexer.isDelim, Lexer.peek, h]

/-- Field by field reading of a document. -/
def stepDoc : List (Str × Json) → Doc → Option Doc
  | [], d => some d
  | (k, v) :: fs, d =>
    if v.isNull then stepDoc fs d
    else if k = "id".toUTF8.toList then
      match asString v with
      | some s => stepDoc fs { d with name := s }
      | none => none
    else if k = "raw".toUTF8.toList then
      match asString v with
      | some s => stepDoc fs { d with content := s }
      | none => none
    else stepDoc fs d

theorem opened_string (rest : List Tok) (v : Json) :
    (∃ s, asString v = some s ∧ (opened rest v).string.1 = s ∧ (opened rest v).string.2.wantComma = headL false rest) ∨
    (asString v = none ∧ (opened rest v).string.2.wantComma.failed = true) := by
  cases v <;> simp [asString, opened, Lexer.string, Lexer.peek, Lexer.consume, Lexer.wantComma, headL, Lexer.fail]

theorem docLoop_fields (valid : List Tok → Bool) (hv : AcceptsJson valid) (rest : List Tok) :
    ∀ (fs : List (Str × Json)) (fuel : Nat) (first : Bool) (out : Doc), fs.length < fuel →
    (∃ d first', stepDoc fs out = some d ∧
      docLoop valid fuel (headL first (Json.toksFields first fs ++ .rbrace :: rest)) out =
        ({ data := rest, started := true, first := first', tok := some .rbrace }, d)) ∨
    (stepDoc fs out = none ∧
      (docLoop valid fuel (headL first (Json.toksFields first fs ++ .rbrace :: rest)) out).1.failed = true) := by
  intro fs
  induction fs with
  | nil =>
    intro fuel first out h
    cases fuel with
    | zero => simp at h
    | succ n =>
      refine Or.inl ⟨out, first, rfl, ?_⟩
      simp [docLoop, Json.toksFields, head_done]
  | cons f fs ih =>
    obtain ⟨k, v⟩ := f
    intro fuel first out h
    cases fuel with
    | zero => simp at h
    | succ n =>
      have hn : fs.length < n := by simpa using h
      have hs : ∀ l : Lexer, ({ l with tok := some (.str k), failed := false } : Lexer).string =
          (k, { l with tok := none, failed := false }) := by
        intro l; simp [Lexer.string, Lexer.peek, Lexer.consume]
      have hs := hs { data := .colon :: (v.toks ++ (Json.toksFields false fs ++ .rbrace :: rest)), started := true
                      first := first }
      simp only [docLoop, head_field, Bool.false_eq_true, if_false, hs, field_value]
      cases hnull : v.isNull with
      | true =>
        cases v <;> simp [Json.isNull] at hnull
        have hw : (opened (Json.toksFields false fs ++ .rbrace :: rest) .null).skip.wantComma =
            headL false (Json.toksFields false fs ++ .rbrace :: rest) := rfl
        simp only [stepDoc, Json.isNull, if_true, hw]
        exact ih n false out hn
      | false =>
        simp only [Bool.false_eq_true, if_false, stepDoc, hnull]
        by_cases hid : k = "id".toUTF8.toList
        · simp only [if_pos hid]
          rcases opened_string (Json.toksFields false fs ++ .rbrace :: rest) v with ⟨s, h1, h2, h3⟩ | ⟨h1, h3⟩
          · simp only [h1, h2, h3]
            exact ih n false _ hn
          · simp only [h1]
            exact Or.inr ⟨trivial, docLoop_failed _ _ _ _ h3⟩
        · by_cases hraw : k = "raw".toUTF8.toList
          · simp only [if_neg hid, if_pos hraw]
            rcases opened_string (Json.toksFields false fs ++ .rbrace :: rest) v with ⟨s, h1, h2, h3⟩ | ⟨h1, h3⟩
            · simp only [h1, h2, h3]
              exact ih n false _ hn
            · simp only [h1]
              exact Or.inr ⟨trivial, docLoop_failed _ _ _ _ h3⟩
          · simp only [if_neg hid, if_neg hraw, opened_skip valid hv]
            exact ih n false _ hn

theorem toksFields_length (first : Bool) (fs : List (Str × Json)) : fs.length ≤ (Json.toksFields first fs).length := by
  induction fs generalizing first with
  | nil => simp
  | cons f fs ih =>
    obtain ⟨k, v⟩ := f
    have := ih false
    simp only [Json.toksFields, List.length_append, List.length_cons, List.length_nil]
    omega

theorem delim_failed {l : Lexer} (c : Tok) (h : l.failed = true) : (l.delim c).failed = true := by
  simp [Lexer.delim, Lexer.peek, h, Lexer.fail]

/-- Decoding the value of a `doc` field. -/
theorem decodeDoc_value (valid : List Tok → Bool) (hv : AcceptsJson valid) (rest : List Tok) (v : Json)
    (out : Doc) (hnull : v.isNull = false) :
    (∃ fs d, asObject v = some fs ∧ stepDoc fs out = some d ∧
      (decodeDoc valid (opened rest v) out).2 = d ∧
      (decodeDoc valid (opened rest v) out).1.wantComma = headL false rest) ∨
    ((∀ fs, asObject v = some fs → stepDoc fs out = none) ∧
      (decodeDoc valid (opened rest v) out).1.wantComma.failed = true) := by
  have hfail : ∀ (w : Json), w.isNull = false → asObject w = none →
      (decodeDoc valid (opened rest w) out).1.wantComma.failed = true := by
    intro w hn ho
    have : ((opened rest w).delim .lbrace).failed = true ∧ ((opened rest w).isNull).1 = false ∧
        (opened rest w).isNull.2 = opened rest w ∧ (opened rest w).isStart = false := by
      cases w <;> simp [asObject, Json.isNull] at ho hn <;>
        simp [opened, Lexer.delim, Lexer.peek, Lexer.isNull, Lexer.consume, Lexer.fail, Lexer.isStart]
    simp only [decodeDoc, this, Bool.false_eq_true, if_false]
    exact delim_failed _ (docLoop_failed _ _ _ _ this.1)
  cases v with
  | null => simp [Json.isNull] at hnull
  | bool b => exact Or.inr ⟨by simp [asObject], hfail _ rfl rfl⟩
  | num b => exact Or.inr ⟨by simp [asObject], hfail _ rfl rfl⟩
  | str b => exact Or.inr ⟨by simp [asObject], hfail _ rfl rfl⟩
  | arr b => exact Or.inr ⟨by simp [asObject], hfail _ rfl rfl⟩
  | obj fs =>
    have hd : (opened rest (.obj fs)).delim .lbrace = headL true (Json.toksFields true fs ++ .rbrace :: rest) := by
      simp [opened, Lexer.delim, Lexer.peek, Lexer.consume, headL]
    have hn : (opened rest (.obj fs)).isNull = (false, opened rest (.obj fs)) := by
      simp [opened, Lexer.isNull, Lexer.peek]
    have hst : (opened rest (.obj fs)).isStart = false := rfl
    simp only [decodeDoc, hn, hd, hst, Bool.false_eq_true, if_false]
    have hlen : fs.length < (headL true (Json.toksFields true fs ++ .rbrace :: rest)).data.length + 1 := by
      have := toksFields_length true fs
      simp only [headL, List.length_append]
      omega
    rcases docLoop_fields valid hv rest fs _ true out hlen with ⟨d, f', h1, h2⟩ | ⟨h1, h2⟩
    · refine Or.inl ⟨fs, d, rfl, h1, ?_⟩
      rw [h2]
      simp [Lexer.delim, Lexer.peek, Lexer.consume, Lexer.wantComma, headL]
    · refine Or.inr ⟨fun fs' h => by simp [asObject] at h; rw [← h]; exact h1, ?_⟩
      exact delim_failed _ h2

/-- Field by field reading of a result. -/
def stepResult : List (Str × Json) → JsonResult → Option JsonResult
  | [], r => some r
  | (k, v) :: fs, r =>
    if v.isNull then stepResult fs r
    else if k = "doc".toUTF8.toList then
      match asObject v with
      | some gs =>
        match stepDoc gs r.document with
        | some d => stepResult fs { r with document := d }
        | none => none
      | none => none
    else if k = "hits".toUTF8.toList then
      match asInt v with
      | some n => stepResult fs { r with hits := n }
      | none => none
    else stepResult fs r

theorem opened_int (rest : List Tok) (v : Json) :
    (∃ n, asInt v = some n ∧ (opened rest v).int.1 = n ∧ (opened rest v).int.2.wantComma = headL false rest) ∨
    (asInt v = none ∧ (opened rest v).int.2.wantComma.failed = true) := by
  cases v with
  | num n =>
    cases n <;> simp [asInt, opened, Lexer.int, Lexer.peek, Lexer.consume, Lexer.wantComma, headL, Lexer.fail]
  | _ => simp [asInt, opened, Lexer.int, Lexer.peek, Lexer.wantComma, headL, Lexer.fail]

theorem resultLoop_fields (valid : List Tok → Bool) (hv : AcceptsJson valid) (rest : List Tok) :
    ∀ (fs : List (Str × Json)) (fuel : Nat) (first : Bool) (out : JsonResult), fs.length < fuel →
    (∃ d first', stepResult fs out = some d ∧
      resultLoop valid fuel (headL first (Json.toksFields first fs ++ .rbrace :: rest)) out =
        ({ data := rest, started := true, first := first', tok := some .rbrace }, d)) ∨
    (stepResult fs out = none ∧
      (resultLoop valid fuel (headL first (Json.toksFields first fs ++ .rbrace :: rest)) out).1.failed = true) := by
  intro fs
  induction fs with
  | nil =>
    intro fuel first out h
    cases fuel with
    | zero => simp at h
    | succ n =>
      refine Or.inl ⟨out, first, rfl, ?_⟩
      simp [resultLoop, Json.toksFields, head_done]
  | cons f fs ih =>
    obtain ⟨k, v⟩ := f
    intro fuel first out h
    cases fuel with
    | zero => simp at h
    | succ n =>
      have hn : fs.length < n := by simpa using h
      have hs : ∀ l : Lexer, ({ l with tok := some (.str k), failed := false } : Lexer).string =
          (k, { l with tok := none, failed := false }) := by
        intro l; simp [Lexer.string, Lexer.peek, Lexer.consume]
      have hs := hs { data := .colon :: (v.toks ++ (Json.toksFields false fs ++ .rbrace :: rest)), started := true
                      first := first }
      simp only [resultLoop, head_field, Bool.false_eq_true, if_false, hs, field_value]
      cases hnull : v.isNull with
      | true =>
        cases v <;> simp [Json.isNull] at hnull
        have hw : (opened (Json.toksFields false fs ++ .rbrace :: rest) .null).skip.wantComma =
            headL false (Json.toksFields false fs ++ .rbrace :: rest) := rfl
        simp only [stepResult, Json.isNull, if_true, hw]
        exact ih n false out hn
      | false =>
        simp only [Bool.false_eq_true, if_false, stepResult, hnull]
        by_cases hid : k = "doc".toUTF8.toList
        · simp only [if_pos hid]
          rcases decodeDoc_value valid hv (Json.toksFields false fs ++ .rbrace :: rest) v out.document hnull with
            ⟨gs, d, h1, h2, h3, h4⟩ | ⟨h1, h3⟩
          · simp only [h1, h2, h3, h4]
            exact ih n false _ hn
          · refine Or.inr ⟨?_, resultLoop_failed _ _ _ _ h3⟩
            cases ho : asObject v with
            | none => rfl
            | some gs => simp only [h1 gs ho]
        · by_cases hraw : k = "hits".toUTF8.toList
          · simp only [if_neg hid, if_pos hraw]
            rcases opened_int (Json.toksFields false fs ++ .rbrace :: rest) v with ⟨s, h1, h2, h3⟩ | ⟨h1, h3⟩
            · simp only [h1, h2, h3]
              exact ih n false _ hn
            · simp only [h1]
              exact Or.inr ⟨trivial, resultLoop_failed _ _ _ _ h3⟩
          · simp only [if_neg hid, if_neg hraw, opened_skip valid hv]
            exact ih n false _ hn

/-- Decoding a whole text. -/
theorem unmarshal_obj (valid : List Tok → Bool) (hv : AcceptsJson valid) (fs : List (Str × Json)) (out : JsonResult) :
    (∃ r, stepResult fs out = some r ∧ unmarshal valid (Json.obj fs).toks out = (true, r)) ∨
    (stepResult fs out = none ∧ (unmarshal valid (Json.obj fs).toks out).1 = false) := by
  have hn : ({ data := (Json.obj fs).toks : Lexer }).isNull =
      (false, { data := Json.toksFields true fs ++ [.rbrace], started := true, first := true, tok := some .lbrace }) := by
    simp [Json.toks, Lexer.isNull, Lexer.peek, Lexer.fetch, Lexer.fetchFrom]
  have hd : Lexer.delim { data := Json.toksFields true fs ++ [.rbrace], started := true, first := true
                          tok := some .lbrace } .lbrace = headL true (Json.toksFields true fs ++ [.rbrace]) := by
    simp [Lexer.delim, Lexer.peek, Lexer.consume, headL]
  have hst : ({ data := (Json.obj fs).toks : Lexer }).isStart = true := rfl
  simp only [unmarshal, decodeResult, hn, hd, hst, Bool.false_eq_true, if_false, if_true]
  have hlen : fs.length < (headL true (Json.toksFields true fs ++ [.rbrace])).data.length + 1 := by
    have := toksFields_length true fs
    simp only [headL, List.length_append]
    omega
  rcases resultLoop_fields valid hv [] fs _ true out hlen with ⟨d, f', h1, h2⟩ | ⟨h1, h2⟩
  · refine Or.inl ⟨d, h1, ?_⟩
    rw [h2]
    simp [Lexer.delim, Lexer.peek, Lexer.consume, Lexer.consumed]
  · refine Or.inr ⟨h1, ?_⟩
    have := delim_failed .rbrace h2
    simp [Lexer.consumed, this]

theorem unmarshal_other (valid : List Tok → Bool) (v : Json) (out : JsonResult) (hn : v.isNull = false)
    (ho : asObject v = none) : (unmarshal valid v.toks out).1 = false := by
  have : ({ data := v.toks : Lexer }).isNull.1 = false ∧
      (({ data := v.toks : Lexer }).isNull.2.delim .lbrace).failed = true := by
    cases v <;> simp [asObject, Json.isNull] at ho hn <;>
      simp [Json.toks, Lexer.delim, Lexer.peek, Lexer.isNull, Lexer.consume, Lexer.fail, Lexer.fetch, Lexer.fetchFrom]
  have hst : ({ data := v.toks : Lexer }).isStart = true := rfl
  simp only [unmarshal, decodeResult, this, hst, Bool.false_eq_true, if_false, if_true]
  have := delim_failed .rbrace (resultLoop_failed valid ((({ data := v.toks : Lexer }).isNull.2.delim .lbrace).data.length + 1) _ out this.2)
  simp [Lexer.consumed, this]

/-! ## Field by field reading is the specification -/

theorem fieldValues_cons (k : String) (f : Str × Json) (fs : List (Str × Json)) :
    fieldValues k (f :: fs) =
      if f.1 = k.toUTF8.toList ∧ f.2.isNull = false then f.2 :: fieldValues k fs else fieldValues k fs := by
  unfold fieldValues
  by_cases h : f.1 = k.toUTF8.toList ∧ f.2.isNull = false
  · rw [List.filter_cons_of_pos (by simp only [decide_eq_true_eq]; exact h), if_pos h, List.map_cons]
  · rw [List.filter_cons_of_neg (by simp only [decide_eq_true_eq]; exact h), if_neg h]

theorem getLastD_cons_eq {α : Type} (a : α) (l : List α) (d : α) : (a :: l).getLastD d = l.getLastD a := by
  cases l <;> rfl

theorem stepDoc_eq (fs : List (Str × Json)) : ∀ d, stepDoc fs d = readDoc fs d := by
  induction fs with
  | nil => intro d; rfl
  | cons f fs ih =>
    obtain ⟨k, v⟩ := f
    intro d
    have e1 : ("raw".toUTF8.toList = "id".toUTF8.toList) = False := by simp; decide +kernel
    have e2 : ("id".toUTF8.toList = "raw".toUTF8.toList) = False := by simp; decide +kernel
    unfold stepDoc readDoc
    simp only [fieldValues_cons]
    cases hn : v.isNull with
    | true => simp only [if_true, Bool.true_eq_false, and_false, if_false]; rw [ih]; rfl
    | false =>
      simp only [Bool.false_eq_true, if_false, and_true]
      by_cases hid : k = "id".toUTF8.toList
      · subst hid
        simp only [if_true, e2, if_false, allOf]
        cases asString v with
        | none => rfl
        | some s =>
          simp only
          rw [ih]
          unfold readDoc
          cases allOf asString (fieldValues "id" fs) with
          | none => rfl
          | some ids =>
            cases allOf asString (fieldValues "raw" fs) with
            | none => rfl
            | some raws => simp only [getLastD_cons_eq]
      · by_cases hraw : k = "raw".toUTF8.toList
        · subst hraw
          simp only [if_true, e1, if_false, allOf]
          cases asString v with
          | none =>
            cases allOf asString (fieldValues "id" fs) <;> rfl
          | some s =>
            simp only
            rw [ih]
            unfold readDoc
            cases allOf asString (fieldValues "id" fs) with
            | none => rfl
            | some ids =>
              cases allOf asString (fieldValues "raw" fs) with
              | none => rfl
              | some raws => simp only [getLastD_cons_eq]
        · simp only [hid, hraw, if_false]
          rw [ih]
          rfl

theorem stepDoc_append (fs gs : List (Str × Json)) : ∀ d,
    stepDoc (fs ++ gs) d = match stepDoc fs d with | some d => stepDoc gs d | none => none := by
  induction fs with
  | nil => intro d; rfl
  | cons f fs ih =>
    obtain ⟨k, v⟩ := f
    intro d
    simp only [List.cons_append, stepDoc]
    split
    · exact ih d
    · split
      · cases asString v with
        | none => rfl
        | some s => exact ih _
      · split
        · cases asString v with
          | none => rfl
          | some s => exact ih _
        · exact ih d

theorem stepResult_eq (fs : List (Str × Json)) : ∀ r, stepResult fs r = readResult fs r := by
  induction fs with
  | nil => intro r; rfl
  | cons f fs ih =>
    obtain ⟨k, v⟩ := f
    intro r
    have e1 : ("hits".toUTF8.toList = "doc".toUTF8.toList) = False := by simp; decide +kernel
    have e2 : ("doc".toUTF8.toList = "hits".toUTF8.toList) = False := by simp; decide +kernel
    unfold stepResult readResult
    simp only [fieldValues_cons]
    cases hn : v.isNull with
    | true => simp only [if_true, Bool.true_eq_false, and_false, if_false]; rw [ih]; rfl
    | false =>
      simp only [Bool.false_eq_true, if_false, and_true]
      by_cases hid : k = "doc".toUTF8.toList
      · subst hid
        simp only [if_true, e2, if_false, allOf]
        cases asObject v with
        | none => rfl
        | some gs =>
          simp only
          cases hA : allOf asObject (fieldValues "doc" fs) with
          | none =>
            cases stepDoc gs r.document with
            | none => rfl
            | some d => simp only [ih, readResult, hA]
          | some docs =>
            cases hI : allOf asInt (fieldValues "hits" fs) with
            | none =>
              cases stepDoc gs r.document with
              | none => rfl
              | some d => simp only [ih, readResult, hA, hI]
            | some ns =>
              simp only [List.flatten_cons, ← stepDoc_eq, stepDoc_append]
              cases hd : stepDoc gs r.document with
              | none => rfl
              | some d => simp only [ih, readResult, hA, hI, ← stepDoc_eq]
      · by_cases hraw : k = "hits".toUTF8.toList
        · subst hraw
          simp only [if_true, e1, if_false, allOf]
          cases asInt v with
          | none => cases allOf asObject (fieldValues "doc" fs) <;> rfl
          | some n =>
            simp only [ih, readResult]
            cases allOf asObject (fieldValues "doc" fs) with
            | none => rfl
            | some docs =>
              cases allOf asInt (fieldValues "hits" fs) with
              | none => rfl
              | some ns => simp only [getLastD_cons_eq]
        · simp only [hid, hraw, if_false]
          rw [ih]
          rfl

end Visigoth
