import Verif.Spec.JsonEasy
import Verif.Props.JsonExact
import Verif.Props.JsonText
/-!
# Search results inside larger JSON: C81
-/
namespace Visigoth

/-! ## Writing -/

private theorem encodeDocInto_eq (plain : UInt8 → Bool) (w : Str) (d : Doc) : encodeDocInto plain w d = w ++ encodeDocText plain d := by
  have : (lit ",\"id\":").drop 1 = lit "\"id\":" := by decide +kernel
  simp only [encodeDocInto, encodeDocText, this, List.append_assoc]

/-- `MarshalEasyJSON` appends what `MarshalJSON` returns. -/
theorem C81_appends (plain : UInt8 → Bool) (w : Str) (r : JsonResult) : marshalEasyJSON plain w r = w ++ marshalText plain r := by
  have : (lit ",\"doc\":").drop 1 = lit "\"doc\":" := by decide +kernel
  simp only [marshalEasyJSON, marshalText, this, encodeDocInto_eq, List.append_assoc]

/-! ## Reading one value -/

/-- The current token of a lexer at a value. -/
private theorem atValue_peek {l : Lexer} {v : Json} {rest : List Tok} (h : l.atValue v rest) :
    ∃ t, l.peek.tok = some t ∧ t :: l.peek.data = v.toks ++ rest ∧ l.peek.started = true ∧ l.peek.failed = false ∧
      l.peek.wantSep = none ∧ (asObject v ≠ none → l.peek.first = true) := by
  obtain ⟨data, started, wantSep, first, tok, failed⟩ := l
  obtain ⟨h1, h2, h3⟩ := h
  simp only at h1 h2 h3
  subst h1 h2
  rcases h3 with ⟨rfl, ⟨t, rfl, hd⟩, hf⟩ | ⟨rfl, rfl, rfl⟩ | ⟨s, hs, rfl, rfl, rfl⟩
  · exact ⟨t, by simp [Lexer.peek], by simpa [Lexer.peek] using hd, by simp [Lexer.peek], by simp [Lexer.peek], by simp [Lexer.peek],
      by simpa [Lexer.peek] using hf⟩
  · cases v <;> simp [Lexer.peek, Lexer.fetch, Lexer.fetchFrom, Json.toks, asObject]
  · rcases hs with rfl | rfl <;> cases v <;> simp [Lexer.peek, Lexer.fetch, Lexer.fetchFrom, Json.toks, asObject]

private theorem peek_of {l : Lexer} (h : l.tok ≠ none) : l.peek = l := by simp [Lexer.peek, h]

/-- Inside a text `UnmarshalEasyJSON` reads exactly one value, as `UnmarshalJSON` would on its own, and leaves the
lexer right behind it; if the value is not that of a result, it is an error. -/
theorem C81_one_value (valid : List Tok → Bool) (hv : AcceptsJson valid) {l : Lexer} {v : Json} {rest : List Tok}
    (h : l.atValue v rest) (out : JsonResult) :
    (∃ r, readValue v out = some r ∧ (unmarshalEasyJSON valid l out).2 = r ∧ (unmarshalEasyJSON valid l out).1.behind rest) ∨
    (readValue v out = none ∧ (unmarshalEasyJSON valid l out).1.failed = true) := by
  have hst : l.isStart = false := by simp [Lexer.isStart, h.1]
  obtain ⟨t, h1, h2, h3, h4, h5, h6⟩ := atValue_peek h
  have hpp : l.peek.peek = l.peek := peek_of (by rw [h1]; nofun)
  have hbad : v.isNull = false → asObject v = none →
      (unmarshalEasyJSON valid l out).1.failed = true := by
    intro hn ho
    have ht : t ≠ .null ∧ t ≠ .lbrace := by
      cases v <;> simp [asObject, Json.isNull, Json.toks] at ho hn h2 <;> simp [h2.1]
    have hn' : l.isNull = (false, l.peek) := by simp [Lexer.isNull, h1, ht.1]
    have hd : (l.peek.delim .lbrace).failed = true := by
      simp [Lexer.delim, hpp, h1, ht.2, Lexer.fail]
    simp only [unmarshalEasyJSON, decodeResult, hst, hn', Bool.false_eq_true, if_false]
    exact delim_failed _ (resultLoop_failed _ _ _ _ hd)
  cases v with
  | bool b => exact Or.inr ⟨rfl, hbad rfl rfl⟩
  | num n => exact Or.inr ⟨rfl, hbad rfl rfl⟩
  | str s => exact Or.inr ⟨rfl, hbad rfl rfl⟩
  | arr vs => exact Or.inr ⟨rfl, hbad rfl rfl⟩
  | null =>
    refine Or.inl ⟨out, rfl, ?_⟩
    simp only [Json.toks, List.cons_append, List.nil_append, List.cons.injEq] at h2
    have hn' : l.isNull = (true, l.peek) := by simp [Lexer.isNull, h1, h2.1]
    simp only [unmarshalEasyJSON, decodeResult, hst, hn', Bool.false_eq_true, if_false, if_true, true_and]
    exact ⟨by simp [Lexer.skip, hpp, Lexer.consume, h3], by simp [Lexer.skip, hpp, Lexer.consume, h4], rfl,
      by simp [Lexer.skip, hpp, Lexer.consume, h5], by simp [Lexer.skip, hpp, Lexer.consume, h2.2]⟩
  | obj fs =>
    simp only [Json.toks, List.cons_append, List.append_assoc, List.nil_append, List.cons.injEq] at h2
    have hn' : l.isNull = (false, l.peek) := by simp [Lexer.isNull, h1, h2.1]
    have hd : l.peek.delim .lbrace = headL true (Json.toksFields true fs ++ .rbrace :: rest) := by
      have hf := h6 (by simp [asObject])
      generalize hl : l.peek = p at *
      obtain ⟨data, started, wantSep, first, tok, failed⟩ := p
      simp only at h1 h2 h3 h4 h5 hf
      subst h1 h3 h4 h5 hf
      obtain ⟨rfl, rfl⟩ := h2
      simp [Lexer.delim, Lexer.peek, Lexer.consume, headL]
    simp only [unmarshalEasyJSON, decodeResult, hst, hn', hd, Bool.false_eq_true, if_false]
    have hlen : fs.length < (headL true (Json.toksFields true fs ++ .rbrace :: rest)).data.length + 1 := by
      have := toksFields_length true fs
      simp only [headL, List.length_append]
      omega
    rcases resultLoop_fields valid hv rest fs _ true out hlen with ⟨d, f', g1, g2⟩ | ⟨g1, g2⟩
    · refine Or.inl ⟨d, by simpa only [readValue, ← stepResult_eq] using g1, ?_⟩
      rw [g2]
      simp [Lexer.delim, Lexer.peek, Lexer.consume, Lexer.behind]
    · exact Or.inr ⟨by simpa only [readValue, ← stepResult_eq] using g1, delim_failed _ g2⟩

/-- After an error the receiver is left as it is. -/
theorem C81_after_error (valid : List Tok → Bool) {l : Lexer} (h : l.failed = true) (out : JsonResult) :
    (unmarshalEasyJSON valid l out).2 = out ∧ (unmarshalEasyJSON valid l out).1.failed = true := by
  have hp : l.peek = l := by simp [Lexer.peek, h]
  simp only [unmarshalEasyJSON, decodeResult, Lexer.isNull, hp]
  split
  · exact ⟨rfl, by split <;> simp [Lexer.skip, Lexer.peek, Lexer.consumed, Lexer.consume, h]⟩
  · refine ⟨resultLoop_failed_out _ _ _ (delim_failed _ h), ?_⟩
    have := delim_failed .rbrace (resultLoop_failed valid ((l.delim .lbrace).data.length + 1) _ out (delim_failed .lbrace h))
    split
    · exact consumed_failed this
    · exact this

/-- At the start of a text it is `UnmarshalJSON`: nothing may follow the value. -/
theorem C81_at_start (valid : List Tok → Bool) (data : List Tok) (out : JsonResult) :
    (!(unmarshalEasyJSON valid { data := data } out).1.failed, (unmarshalEasyJSON valid { data := data } out).2)
      = unmarshal valid data out := rfl

/-! ## Slices of results -/

private theorem resultsLoop_failed (valid : List Tok → Bool) (fuel : Nat) (l : Lexer) (out : List JsonResult) (h : l.failed = true) :
    (resultsLoop valid fuel l out).1.failed = true := by
  cases fuel with
  | zero => exact h
  | succ n => simp [resultsLoop, Lexer.isDelim, Lexer.peek, h]

private theorem toks_ne (v : Json) : ∃ t ts, v.toks = t :: ts ∧ t ≠ .rbrack ∧ t ≠ .comma ∧ t ≠ .colon ∧ t ≠ .rbrace := by
  cases v <;> simp [Json.toks]

private theorem item_at (first : Bool) (v : Json) (rest : List Tok) :
    ((headL first ((if first then [] else [Tok.comma]) ++ v.toks ++ rest)).isDelim .rbrack).1 = false ∧
    ((headL first ((if first then [] else [Tok.comma]) ++ v.toks ++ rest)).isDelim .rbrack).2.atValue v rest := by
  cases first <;> cases v <;>
    simp [headL, Lexer.isDelim, Lexer.peek, Lexer.fetch, Lexer.fetchFrom, Json.toks, Lexer.atValue, asObject]

private theorem behind_comma {l : Lexer} {rest : List Tok} (h : l.behind rest) : l.wantComma = headL false rest := by
  obtain ⟨data, started, wantSep, first, tok, failed⟩ := l
  obtain ⟨h1, h2, h3, _, h5⟩ := h
  simp only at h1 h2 h3 h5
  subst h1 h2 h3 h5
  simp [Lexer.wantComma, headL]

private theorem resultsLoop_items (valid : List Tok → Bool) (hv : AcceptsJson valid) : ∀ (vs : List Json) (fuel : Nat)
    (first : Bool) (out : List JsonResult), vs.length < fuel →
    (∃ rs first', readItems vs = some rs ∧
      resultsLoop valid fuel (headL first (Json.toksItems first vs ++ [.rbrack])) out =
        ({ data := [], started := true, first := first', tok := some .rbrack }, out ++ rs)) ∨
    (readItems vs = none ∧
      (resultsLoop valid fuel (headL first (Json.toksItems first vs ++ [.rbrack])) out).1.failed = true) := by
  intro vs
  induction vs with
  | nil =>
    intro fuel first out h
    cases fuel with
    | zero => simp at h
    | succ n =>
      refine Or.inl ⟨[], first, rfl, ?_⟩
      cases first <;> simp [resultsLoop, Json.toksItems, headL, Lexer.isDelim, Lexer.peek, Lexer.fetch, Lexer.fetchFrom]
  | cons v vs ih =>
    intro fuel first out h
    cases fuel with
    | zero => simp at h
    | succ n =>
      have hn : vs.length < n := by simpa using h
      obtain ⟨h1, h2⟩ := item_at first v (Json.toksItems false vs ++ [.rbrack])
      have e : Json.toksItems first (v :: vs) ++ [.rbrack]
          = (if first then [] else [Tok.comma]) ++ v.toks ++ (Json.toksItems false vs ++ [.rbrack]) := by
        simp [Json.toksItems]
      rw [e]
      simp only [resultsLoop, h1, Bool.false_eq_true, if_false]
      rcases C81_one_value valid hv h2 zeroResult with ⟨r, g1, g2, g3⟩ | ⟨g1, g2⟩
      · have hw : (unmarshalEasyJSON valid ((headL first ((if first then [] else [Tok.comma]) ++ v.toks ++
            (Json.toksItems false vs ++ [.rbrack]))).isDelim .rbrack).2 zeroResult).1.wantComma
            = headL false (Json.toksItems false vs ++ [.rbrack]) := behind_comma g3
        rw [hw, g2]
        rcases ih n false (out ++ [r]) hn with ⟨rs, f', k1, k2⟩ | ⟨k1, k2⟩
        · exact Or.inl ⟨r :: rs, f', by simp [readItems, g1, k1], by simpa using k2⟩
        · exact Or.inr ⟨by simp [readItems, g1, k1], k2⟩
      · exact Or.inr ⟨by simp [readItems, g1], resultsLoop_failed _ _ _ _ g2⟩

private theorem toksItems_length (first : Bool) (vs : List Json) : vs.length ≤ (Json.toksItems first vs).length := by
  induction vs generalizing first with
  | nil => simp
  | cons v vs ih =>
    obtain ⟨t, ts, h, _⟩ := toks_ne v
    have := ih false
    simp only [Json.toksItems, h, List.length_append, List.length_cons]
    omega

/-- A slice read from any array: all its elements, or an error. -/
theorem C81_slices (valid : List Tok → Bool) (hv : AcceptsJson valid) (vs : List Json) :
    (∃ rs, readItems vs = some rs ∧ unmarshalSlice valid (Json.arr vs).toks = (true, rs)) ∨
    (readItems vs = none ∧ (unmarshalSlice valid (Json.arr vs).toks).1 = false) := by
  have hd : Lexer.delim { data := (Json.arr vs).toks } .lbrack = headL true (Json.toksItems true vs ++ [.rbrack]) := by
    simp [Json.toks, Lexer.delim, Lexer.peek, Lexer.fetch, Lexer.fetchFrom, Lexer.consume, headL]
  have hlen : vs.length < (headL true (Json.toksItems true vs ++ [.rbrack])).data.length + 1 := by
    have := toksItems_length true vs
    simp only [headL, List.length_append]
    omega
  simp only [unmarshalSlice, hd]
  rcases resultsLoop_items valid hv vs _ true [] hlen with ⟨rs, f', h1, h2⟩ | ⟨h1, h2⟩
  · refine Or.inl ⟨rs, h1, ?_⟩
    rw [h2]
    simp [Lexer.delim, Lexer.peek, Lexer.consume, Lexer.consumed]
  · refine Or.inr ⟨h1, ?_⟩
    rw [consumed_failed (delim_failed .rbrack h2)]
    rfl

private theorem readItems_jsonOf (rs : List JsonResult) : readItems (rs.map jsonOf) = some rs := by
  induction rs with
  | nil => rfl
  | cons r rs ih =>
    have h := C57_round_trip (fun _ => true) acceptsJson_witness r zeroResult
    have h' := C58_decoding (fun _ => true) acceptsJson_witness (jsonOf r) zeroResult
    rw [← C57_writes_json] at h'
    have h2 : readValue (jsonOf r) zeroResult = some r := by
      simp only [unmarshalled, h, if_true] at h'
      exact h'.symm
    simp [readItems, h2, ih]

/-- A slice of results comes back the same. -/
theorem C81_slice_round_trip (valid : List Tok → Bool) (hv : AcceptsJson valid) (rs : List JsonResult) :
    unmarshalSlice valid (Json.arr (rs.map jsonOf)).toks = (true, rs) := by
  rcases C81_slices valid hv (rs.map jsonOf) with ⟨rs', h1, h2⟩ | ⟨h1, _⟩
  · rw [readItems_jsonOf] at h1
    injection h1 with h1
    rw [h2, h1]
  · rw [readItems_jsonOf] at h1
    cases h1

private theorem text_nil {ks : List Tok} {t : Str} (h : Text ks t) (ht : t = []) : ks = [] := by
  cases h with
  | nil => rfl
  | cons hw hk h hb =>
    simp only [List.append_eq_nil_iff] at ht
    obtain ⟨⟨_, ht⟩, _⟩ := ht
    cases hk with
    | num hn =>
      obtain ⟨sign, ds, frac, exp, hs, _, hd, _⟩ := hn
      rw [ht] at hs
      have := congrArg List.length hs
      have := List.length_pos_iff.2 hd.1
      simp only [List.length_nil, List.length_append] at *
      omega
    | str => cases ht
    | _ => exact absurd ht (by decide +kernel)

private theorem text_append {ks ms : List Tok} {t u : Str} (h : Text ks t) (hu : Text ms u)
    (hlast : ∀ k, ks.getLast? = some k → k.isWord = false) : Text (ks ++ ms) (t ++ u) := by
  induction h with
  | nil hw => exact C75_white_space _ hw _ _ hu
  | @cons ws t rest k ks hw ht h hb ih =>
    rw [List.append_assoc]
    have h1 : ∀ k', ks.getLast? = some k' → k'.isWord = false := by
      intro k' hk
      refine hlast k' ?_
      rw [List.getLast?_cons, hk]
      rfl
    refine Text.cons hw ht (ih h1) fun hk b hbb => ?_
    cases rest with
    | cons c cs => exact hb hk b hbb
    | nil =>
      have := text_nil h rfl
      subst this
      have := hlast k rfl
      rw [this] at hk
      cases hk

private theorem marshal_last (r : JsonResult) (k : Tok) (h : (marshal r).getLast? = some k) : k.isWord = false := by
  unfold marshal at h
  rw [List.getLast?_append] at h
  cases h
  rfl

private theorem items_text {plain : UInt8 → Bool} (hp : PlainTable plain) : ∀ (rs : List JsonResult) (first : Bool) (w : Str),
    (∀ r ∈ rs, InRange r.hits) → ∃ t, marshalItems plain first w rs = w ++ t ∧
      Text (Json.toksItems first (rs.map fun r => jsonOf (replacedResult r)) ++ [.rbrack]) (t ++ lit "]") := by
  have e1 : lit "]" = [0x5D] := by decide
  have e2 : lit "," = [0x2C] := by decide
  intro rs
  induction rs with
  | nil =>
    intro first w _
    refine ⟨[], by simp [marshalItems], ?_⟩
    rw [e1]
    exact text_cons (rest := []) .rbrack rfl (.nil blank_nil)
  | cons r rs ih =>
    intro first w hr
    obtain ⟨t, h1, h2⟩ := ih false (marshalEasyJSON plain (if first then w else w ++ lit ",") r) fun x hx => hr x (List.mem_cons_of_mem _ hx)
    have hm := text_append (marshalText_text hp r (hr r List.mem_cons_self)) h2 (marshal_last _)
    rw [C57_writes_json] at hm
    cases first with
    | true =>
      refine ⟨marshalText plain r ++ t, ?_, ?_⟩
      · rw [marshalItems, h1, C81_appends]; simp
      · simp only [List.map_cons, Json.toksItems, if_true, List.nil_append, List.append_assoc]
        exact hm
    | false =>
      refine ⟨lit "," ++ (marshalText plain r ++ t), ?_, ?_⟩
      · rw [marshalItems, h1, C81_appends]; simp
      · simp only [List.map_cons, Json.toksItems, Bool.false_eq_true, if_false, List.append_assoc, e2]
        exact text_cons .comma rfl hm

/-- As bytes: a slice of results written with `MarshalEasyJSON` comes back with everything in its strings that is not
UTF-8 replaced, and so the same if all of it is UTF-8. -/
theorem C81_slice_text (valid : List Tok → Bool) (hv : AcceptsJson valid) (plain : UInt8 → Bool) (hp : PlainTable plain)
    (rs : List JsonResult) (hr : ∀ r ∈ rs, InRange r.hits) :
    ∃ ts, lexAll (marshalSlice plain rs) = some ts ∧ unmarshalSlice valid ts = (true, rs.map replacedResult) := by
  obtain ⟨t, h1, h2⟩ := items_text hp rs true (lit "[") hr
  have e0 : lit "[" = [0x5B] := by decide
  have h3 : Text (Json.arr ((rs.map replacedResult).map jsonOf)).toks (marshalSlice plain rs) := by
    rw [marshalSlice, h1, e0, List.append_assoc]
    simp only [List.map_map]
    exact text_cons .lbrack rfl h2
  exact ⟨_, lexAll_text h3, C81_slice_round_trip valid hv _⟩

/-! ## Examples -/

private def ja : JsonResult := { document := { name := str "a", content := str "x \"y\"" }, hits := 2 }
private def jb : JsonResult := { document := { name := str "b", content := [] }, hits := -1 }

example : marshalSlice htmlTable [ja, jb]
    = str "[{\"doc\":{\"id\":\"a\",\"raw\":\"x \\\"y\\\"\"},\"hits\":2},{\"doc\":{\"id\":\"b\",\"raw\":\"\"},\"hits\":-1}]" := by decide +kernel

example : (lexAll (marshalSlice htmlTable [ja, jb])).map (unmarshalSlice fun _ => true) = some (true, [ja, jb]) := by decide +kernel

/-- A null, an object with one field, and a number. -/
example : unmarshalSlice (fun _ => true) (Json.arr [.null, .obj [(str "hits", .num (some 3))]]).toks
      = (true, [zeroResult, { zeroResult with hits := 3 }]) ∧
    (unmarshalSlice (fun _ => true) (Json.arr [.null, .num (some 3)]).toks).1 = false := by decide +kernel

/-- The lexer after the colon of a field whose value is a result. -/
example : ({ data := .colon :: (jsonOf ja).toks ++ [.rbrace], started := true, wantSep := some .colon } : Lexer).atValue
    (jsonOf ja) [.rbrace] := ⟨rfl, rfl, Or.inr (Or.inr ⟨.colon, Or.inr rfl, rfl, rfl, rfl⟩)⟩

end Visigoth
