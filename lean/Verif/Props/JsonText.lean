import Verif.Proofs.JsonText
import Verif.Proofs.Lower
import Verif.Props.Json
/-!
# JSON as text: round trip (C74), ways of writing (C75)
-/
namespace Visigoth

/-- A search result with every byte of its strings that is not UTF-8 replaced. -/
def replacedResult (r : JsonResult) : JsonResult :=
  { document := { name := replaced r.document.name, content := replaced r.document.content }, hits := r.hits }

/-- `MarshalJSON` writes a JSON text. -/
theorem marshalText_text {plain : UInt8 → Bool} (hp : PlainTable plain) (r : JsonResult) (hr : InRange r.hits) :
    Text (marshal (replacedResult r)) (marshalText plain r) := by
  have h0 : Text [.rbrace] [0x7D] := text_cons .rbrace rfl (.nil blank_nil)
  have h1 : Text [.num (some r.hits), .rbrace] (writeInt r.hits ++ [0x7D]) :=
    Text.cons (ws := []) blank_nil (.num (writeInt_text hr)) h0 (by
      intro _ b hb
      simp only [List.head?_cons, Option.some.injEq] at hb
      subst hb
      unfold IsBreak
      decide)
  have h2 := text_cons (tokText_name (u := "doc".toUTF8.toList) (by decide +kernel)) rfl
    (text_cons .colon rfl (text_cons .lbrace rfl
    (text_cons (tokText_name (u := "id".toUTF8.toList) (by decide +kernel)) rfl (text_cons .colon rfl
    (text_cons (tokText_written hp r.document.name) rfl (text_cons .comma rfl
    (text_cons (tokText_name (u := "raw".toUTF8.toList) (by decide +kernel)) rfl (text_cons .colon rfl
    (text_cons (tokText_written hp r.document.content) rfl (text_cons .rbrace rfl (text_cons .comma rfl
    (text_cons (tokText_name (u := "hits".toUTF8.toList) (by decide +kernel)) rfl (text_cons .colon rfl h1)))))))))))))
  have h3 := text_cons .lbrace rfl h2
  have e1 : lit "{" = [0x7B] := by decide
  have e2 : lit "\"doc\":" = 0x22 :: "doc".toUTF8.toList ++ [0x22] ++ [0x3A] := by decide +kernel
  have e3 : lit "\"id\":" = 0x22 :: "id".toUTF8.toList ++ [0x22] ++ [0x3A] := by decide +kernel
  have e4 : lit ",\"raw\":" = [0x2C] ++ (0x22 :: "raw".toUTF8.toList ++ [0x22] ++ [0x3A]) := by decide +kernel
  have e5 : lit ",\"hits\":" = [0x2C] ++ (0x22 :: "hits".toUTF8.toList ++ [0x22] ++ [0x3A]) := by decide +kernel
  have e6 : lit "}" = [0x7D] := by decide
  unfold marshalText encodeDocText
  rw [e1, e2, e3, e4, e5, e6]
  simp only [List.append_assoc, List.cons_append, List.nil_append] at h3 ⊢
  exact h3

theorem replaced_eq_iff (s : Str) : replaced s = s ↔ ValidUTF8 s := by
  have e : replaced s = mapStr id s := by
    unfold replaced mapStr
    rw [runesOf_eq, List.flatMap_map]
    rfl
  constructor
  · intro h
    refine ⟨runesOf s, runesOf_scalar s, ?_⟩
    rw [e] at h
    exact h.symm
  · intro h
    rw [e]
    exact mapStr_id_of_valid s h

/-- C74 as stated: decoding the bytes that `MarshalJSON` wrote gives the same result. -/
def TextRoundTrips (valid : List Tok → Bool) (plain : UInt8 → Bool) : Prop :=
  ∀ r before : JsonResult, InRange r.hits → unmarshalText valid (marshalText plain r) before = some (true, r)

/-- C74: what decoding the bytes written by `MarshalJSON` gives, for every result: the same, with every byte
that is not UTF-8 replaced by U+FFFD. -/
theorem C74_text_round_trip (valid : List Tok → Bool) (hv : AcceptsJson valid) (plain : UInt8 → Bool)
    (hp : PlainTable plain) (r before : JsonResult) (hr : InRange r.hits) :
    unmarshalText valid (marshalText plain r) before = some (true, replacedResult r) := by
  unfold unmarshalText
  rw [lexAll_text (marshalText_text hp r hr)]
  exact congrArg some (C57_round_trip valid hv (replacedResult r) before)

/-- C74: the round trip is exact for the results whose ID and content are UTF-8, and for no others. -/
theorem C74_guard_exact (valid : List Tok → Bool) (hv : AcceptsJson valid) (plain : UInt8 → Bool)
    (hp : PlainTable plain) (r before : JsonResult) (hr : InRange r.hits) :
    unmarshalText valid (marshalText plain r) before = some (true, r) ↔
      ValidUTF8 r.document.name ∧ ValidUTF8 r.document.content := by
  rw [C74_text_round_trip valid hv plain hp r before hr, ← replaced_eq_iff, ← replaced_eq_iff]
  constructor
  · intro h
    have h : replacedResult r = r := (Prod.mk.inj (Option.some.inj h)).2
    constructor
    · exact congrArg (fun x : JsonResult => x.document.name) h
    · exact congrArg (fun x : JsonResult => x.document.content) h
  · rintro ⟨h1, h2⟩
    unfold replacedResult
    rw [h1, h2]

/-- C74 for UTF-8 strings. Missing from the full claim: IDs and contents that are not UTF-8. -/
theorem C74_round_trip_partial (valid : List Tok → Bool) (hv : AcceptsJson valid) (plain : UInt8 → Bool)
    (hp : PlainTable plain) (r before : JsonResult) (hr : InRange r.hits) (h1 : ValidUTF8 r.document.name)
    (h2 : ValidUTF8 r.document.content) : unmarshalText valid (marshalText plain r) before = some (true, r) :=
  (C74_guard_exact valid hv plain hp r before hr).2 ⟨h1, h2⟩

/-- False of the code: the ID `"\xff"` comes back as `"\xef\xbf\xbd"`. -/
theorem C74_refuted (valid : List Tok → Bool) (hv : AcceptsJson valid) (plain : UInt8 → Bool) (hp : PlainTable plain) :
    ¬ TextRoundTrips valid plain := by
  intro h
  have h1 := h ⟨⟨[0xFF], []⟩, 0⟩ ⟨⟨[], []⟩, 0⟩ ⟨by decide, by decide⟩
  rw [C74_text_round_trip valid hv plain hp _ _ ⟨by decide, by decide⟩] at h1
  have h2 : replaced [0xFF] = [0xFF] := congrArg (fun x : JsonResult => x.document.name) (Prod.mk.inj (Option.some.inj h1)).2
  exact absurd h2 (by decide +kernel)

/-- C74: IDs that differ may become equal. -/
theorem C74_ids_collapse (plain : UInt8 → Bool) (c : Str) (n : Int) :
    marshalText plain ⟨⟨[0xFF], c⟩, n⟩ = marshalText plain ⟨⟨[0xFE], c⟩, n⟩ := rfl

/-- C74: the text written is UTF-8 and has no control characters, whatever the strings contain; in particular it
is one line. -/
theorem C74_output (plain : UInt8 → Bool) (hp : PlainTable plain) (r : JsonResult) :
    ValidUTF8 (marshalText plain r) ∧ ∀ b ∈ marshalText plain r, 0x20 ≤ b := by
  have key : CleanText (marshalText plain r) := by
    unfold marshalText encodeDocText
    have h1 : CleanText (lit "{") := clean_ascii (by decide)
    have h2 : CleanText (lit "\"doc\":") := clean_ascii (by decide)
    have h3 : CleanText (lit "\"id\":") := clean_ascii (by decide)
    have h4 : CleanText (lit ",\"raw\":") := clean_ascii (by decide)
    have h5 : CleanText (lit ",\"hits\":") := clean_ascii (by decide)
    have h6 : CleanText (lit "}") := clean_ascii (by decide)
    exact ((((h1.append h2).append (((((h1.append h3).append (clean_writeString hp _)).append h4).append (clean_writeString hp _)).append h6)).append
      h5).append (clean_writeInt _)).append h6
  exact ⟨key.1, fun b hb => key.2 b hb⟩

/-- The table of easyjson: control characters, quotes, backslashes and the characters special in HTML are
escaped. -/
def htmlTable (b : UInt8) : Bool := 0x20 ≤ b && b ≠ 0x22 && b ≠ 0x5C && b ≠ 0x3C && b ≠ 0x3E && b ≠ 0x26

theorem htmlTable_plain : PlainTable htmlTable := by
  intro b h
  simp only [htmlTable, Bool.and_eq_true, decide_eq_true_eq, ne_eq] at h
  exact ⟨h.1.1.1.1.1, h.1.1.1.1.2, h.1.1.1.2⟩

/-- Quotes, controls, HTML, a line separator, two-, three- and four-byte characters, bad bytes. -/
example : marshalText htmlTable ⟨⟨str "a\"<\n", str "ñ\u2028語😀" ++ [0xC3]⟩, -12⟩
    = str "{\"doc\":{\"id\":\"a\\\"\\u003c\\n\",\"raw\":\"ñ\\u2028語😀\\ufffd\"},\"hits\":-12}" := by decide +kernel

example : unmarshalText (fun _ => true) (marshalText htmlTable ⟨⟨str "a\"<\n", str "ñ\u2028語😀" ++ [0xC3]⟩, -12⟩) ⟨⟨[], []⟩, 3⟩
    = some (true, ⟨⟨str "a\"<\n", str "ñ\u2028語😀\uFFFD"⟩, -12⟩) := by decide +kernel

/-! ## C75 -/

/-- C75: the way a JSON text is written does not matter: decoding gives what C58 says for the value. -/
theorem C75_any_text (valid : List Tok → Bool) (hv : AcceptsJson valid) (v : Json) (text : Str) (h : Text v.toks text)
    (out : JsonResult) :
    ∃ ok r, unmarshalText valid text out = some (ok, r) ∧
      (if ok then some r else none) =
        match (generalizing := false) v with
        | .null => some out
        | .obj fs => readResult fs out
        | _ => none := by
  refine ⟨(unmarshal valid v.toks out).1, (unmarshal valid v.toks out).2, ?_, C58_decoding valid hv v out⟩
  unfold unmarshalText
  rw [lexAll_text h]
  rfl

/-- C75: two texts of the same tokens, JSON or not, have the same effect, also when it is an error. -/
theorem C75_same_tokens (valid : List Tok → Bool) (ks : List Tok) (t1 t2 : Str) (h1 : Text ks t1) (h2 : Text ks t2)
    (out : JsonResult) : unmarshalText valid t1 out = unmarshalText valid t2 out := by
  unfold unmarshalText
  rw [lexAll_text h1, lexAll_text h2]

/-- C75: white space around any token is ignored. -/
theorem C75_white_space (ws : Str) (hw : IsBlank ws) (ks : List Tok) (t : Str) (h : Text ks t) : Text ks (ws ++ t) := by
  cases h with
  | nil hw' =>
    refine .nil ?_
    intro b hb
    rcases List.mem_append.1 hb with hb | hb
    · exact hw b hb
    · exact hw' b hb
  | @cons ws' t rest k ks hw' ht h hb =>
    have e : ws ++ (ws' ++ t ++ rest) = (ws ++ ws') ++ t ++ rest := by simp
    rw [e]
    refine .cons ?_ ht h hb
    intro b hb
    rcases List.mem_append.1 hb with hb | hb
    · exact hw b hb
    · exact hw' b hb

/-- White space, escapes in names, a surrogate pair, a number with an exponent. -/
example : unmarshalText (fun _ => true)
    (str " { \"d\\u006Fc\" : {\"id\":\"\\uD83D\\ude00\\/\"}\n,\"x\": [1.5e+3 ,{}],\t\"hits\":\t7 } ") ⟨⟨[], str "old"⟩, 3⟩
    = some (true, ⟨⟨str "😀/", str "old"⟩, 7⟩) := by decide +kernel

/-- A text of the tokens `{ "a" : 1 }`. -/
example : Text [.lbrace, .str (str "a"), .colon, .num (some 1), .rbrace] (str "{ \"\\u0061\" :1}") := by
  have hu : IsHex4 (str "0061") 0x61 :=
    ⟨0x30, 0x30, 0x36, 0x31, 0, 0, 6, 1, by decide +kernel, .inl (by decide), .inl (by decide), .inl (by decide), .inl (by decide), by decide⟩
  have hs : StrText (str "\\u0061") (str "a") := by
    have := StrText.unicode hu (.inl (by decide)) .nil
    exact (by decide +kernel : encodeRune 0x61 ++ [] = str "a") ▸ (by decide +kernel : 0x5C :: 0x75 :: str "0061" ++ [] = str "\\u0061") ▸ this
  have h1 : NumText (str "1") (some 1) :=
    ⟨[], str "1", [], [], by decide +kernel, .inl rfl, ⟨by decide +kernel, by decide +kernel⟩, .inl rfl, .inl rfl, 1, by decide +kernel,
      .inl ⟨rfl, rfl, ⟨by decide, by decide⟩, rfl⟩⟩
  have h0 : Text [.rbrace] [0x7D] := text_cons .rbrace rfl (.nil blank_nil)
  have h2 : Text [.num (some 1), .rbrace] (str "1" ++ [0x7D]) := Text.cons (ws := []) blank_nil (.num h1) h0 (by
    intro _ b hb
    simp only [List.head?_cons, Option.some.injEq] at hb
    subst hb
    unfold IsBreak
    decide)
  have h3 := text_cons .lbrace rfl (C75_white_space (str " ") (by unfold IsBlank; decide +kernel) _ _
    (text_cons (.str hs) rfl (C75_white_space (str " ") (by unfold IsBlank; decide +kernel) _ _ (text_cons .colon rfl h2))))
  exact (by decide +kernel : [0x7B] ++ (str " " ++ (0x22 :: str "\\u0061" ++ [0x22] ++ (str " " ++ ([0x3A] ++ (str "1" ++ [0x7D]))))) =
    str "{ \"\\u0061\" :1}") ▸ h3

end Visigoth
