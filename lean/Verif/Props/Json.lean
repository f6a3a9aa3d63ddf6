import Verif.Proofs.Json
import Verif.Spec.Text
/-!
# JSON encoding of search results: C57, C58
-/
namespace Visigoth

/-- What `UnmarshalJSON` makes of a text: the decoded value if it reports no error. -/
def unmarshalled (valid : List Tok → Bool) (data : List Tok) (v : JsonResult) : Option JsonResult :=
  if (unmarshal valid data v).1 then some (unmarshal valid data v).2 else none

/-- C58: what decoding gives for every JSON text and every previous value. -/
theorem C58_decoding (valid : List Tok → Bool) (hv : AcceptsJson valid) (v : Json) (out : JsonResult) :
    unmarshalled valid v.toks out =
      match v with
      | .null => some out
      | .obj fs => readResult fs out
      | _ => none := by
  unfold unmarshalled
  cases v with
  | null =>
    simp [unmarshal, decodeResult, Json.toks, Lexer.isNull, Lexer.peek, Lexer.fetch, Lexer.fetchFrom,
      Lexer.isStart, Lexer.consumed, Lexer.skip, Lexer.consume]
  | obj fs =>
    rcases unmarshal_obj valid hv fs out with ⟨r, h1, h2⟩ | ⟨h1, h2⟩
    · rw [h2]; simp only [← stepResult_eq, h1, if_true]
    · rw [h2]; simp only [← stepResult_eq, h1, Bool.false_eq_true, if_false]
  | bool b => rw [unmarshal_other valid _ out rfl rfl]; rfl
  | num b => rw [unmarshal_other valid _ out rfl rfl]; rfl
  | str b => rw [unmarshal_other valid _ out rfl rfl]; rfl
  | arr b => rw [unmarshal_other valid _ out rfl rfl]; rfl

/-- The JSON value that `MarshalJSON` writes. -/
def jsonOf (r : JsonResult) : Json :=
  .obj [(str "doc", .obj [(str "id", .str r.document.name), (str "raw", .str r.document.content)]),
        (str "hits", .num (some r.hits))]

/-- C57: `MarshalJSON` writes an object with the fields `doc` (`id`, `raw`) and `hits`. -/
theorem C57_writes_json (r : JsonResult) : marshal r = (jsonOf r).toks := by
  simp [marshal, encodeDoc, jsonOf, Json.toks, Json.toksFields, str]

/-- C57: decoding what was encoded gives the same result, whatever was there before. -/
theorem C57_round_trip (valid : List Tok → Bool) (hv : AcceptsJson valid) (r before : JsonResult) :
    unmarshal valid (marshal r) before = (true, r) := by
  have h := C58_decoding valid hv (jsonOf r) before
  rw [← C57_writes_json] at h
  have hr : readResult [(str "doc", .obj [(str "id", .str r.document.name), (str "raw", .str r.document.content)]),
        (str "hits", .num (some r.hits))] before = some r := by
    have e1 : (str "hits" = "doc".toUTF8.toList) = False := by simp; decide +kernel
    have e2 : (str "doc" = "hits".toUTF8.toList) = False := by simp; decide +kernel
    have e3 : (str "raw" = "id".toUTF8.toList) = False := by simp; decide +kernel
    have e4 : (str "id" = "raw".toUTF8.toList) = False := by simp; decide +kernel
    have e5 : (str "doc" = "doc".toUTF8.toList) = True := by simp [str]
    have e6 : (str "hits" = "hits".toUTF8.toList) = True := by simp [str]
    have e7 : (str "id" = "id".toUTF8.toList) = True := by simp [str]
    have e8 : (str "raw" = "raw".toUTF8.toList) = True := by simp [str]
    have hnil : ∀ k, fieldValues k [] = [] := fun _ => rfl
    simp only [readResult, readDoc, fieldValues_cons, e1, e2, e5, e6, hnil, Json.isNull, true_and, false_and, if_true,
      if_false, allOf, asObject, asInt, List.flatten_cons, List.flatten_nil, List.append_nil, e3, e4, e7, e8,
      asString, List.getLastD]
    rfl
  simp only [jsonOf, hr] at h
  unfold unmarshalled at h
  split at h
  · next h1 =>
    injection h with h2
    exact Prod.ext h1 h2
  · cases h

private theorem readResult_congr {fs gs : List (Str × Json)} (r : JsonResult)
    (h1 : fieldValues "doc" fs = fieldValues "doc" gs) (h2 : fieldValues "hits" fs = fieldValues "hits" gs) :
    readResult fs r = readResult gs r := by
  unfold readResult
  rw [h1, h2]

private theorem fieldValues_append (k : String) (fs gs : List (Str × Json)) :
    fieldValues k (fs ++ gs) = fieldValues k fs ++ fieldValues k gs := by
  simp [fieldValues, List.filter_append]

private theorem fieldValues_perm (k : String) {fs gs : List (Str × Json)} (h : fs.Perm gs)
    (hn : (fs.map (·.1)).Nodup) : fieldValues k fs = fieldValues k gs := by
  have key : ∀ l : List (Str × Json), (l.map (·.1)).Nodup → (fieldValues k l).length ≤ 1 := by
    intro l
    induction l with
    | nil => intro _; simp [fieldValues]
    | cons f l ih =>
      intro hn
      simp only [List.map_cons, List.nodup_cons] at hn
      rw [fieldValues_cons]
      split
      · next hk =>
        have : fieldValues k l = [] := by
          unfold fieldValues
          rw [List.map_eq_nil_iff, List.filter_eq_nil_iff]
          intro x hx
          simp only [decide_eq_true_eq]
          rintro ⟨hx1, _⟩
          exact hn.1 (List.mem_map.2 ⟨x, hx, by rw [hx1, hk.1]⟩)
        simp [this]
      · exact ih hn.2
  have hp : (fieldValues k fs).Perm (fieldValues k gs) := (h.filter _).map _
  have hl := key fs hn
  match hf : fieldValues k fs, hl with
  | [], _ => rw [hf] at hp; exact (List.nil_perm.1 hp).symm
  | [a], _ => rw [hf] at hp; exact List.singleton_perm.1 hp

/-- C58: the order of fields with distinct names does not matter. -/
theorem C58_order (valid : List Tok → Bool) (hv : AcceptsJson valid) (fs gs : List (Str × Json)) (out : JsonResult)
    (h : fs.Perm gs) (hn : (fs.map (·.1)).Nodup) :
    unmarshalled valid (Json.obj fs).toks out = unmarshalled valid (Json.obj gs).toks out := by
  rw [C58_decoding valid hv, C58_decoding valid hv]
  exact readResult_congr _ (fieldValues_perm _ h hn) (fieldValues_perm _ h hn)

/-- C58: nor does the order of the fields inside `doc`. -/
theorem C58_order_inside (valid : List Tok → Bool) (hv : AcceptsJson valid) (a b fs gs : List (Str × Json))
    (k : Str) (out : JsonResult) (h : fs.Perm gs) (hn : (fs.map (·.1)).Nodup) :
    unmarshalled valid (Json.obj (a ++ (k, .obj fs) :: b)).toks out =
      unmarshalled valid (Json.obj (a ++ (k, .obj gs) :: b)).toks out := by
  rw [C58_decoding valid hv, C58_decoding valid hv]
  have hd : ∀ d, stepDoc fs d = stepDoc gs d := by
    intro d
    rw [stepDoc_eq, stepDoc_eq, readDoc, readDoc, fieldValues_perm _ h hn, fieldValues_perm _ h hn]
  simp only
  rw [← stepResult_eq, ← stepResult_eq]
  induction a generalizing out with
  | nil =>
    simp only [List.nil_append, stepResult, Json.isNull, asObject, hd, asInt]
    rfl
  | cons f a ih =>
    obtain ⟨k', v⟩ := f
    simp only [List.cons_append, stepResult]
    split
    · exact ih out
    · split
      · split
        · split
          · exact ih _
          · rfl
        · rfl
      · split
        · split
          · exact ih _
          · rfl
        · exact ih out

/-- C58: a field with an unknown name is ignored, whatever its value. -/
theorem C58_unknown_ignored (valid : List Tok → Bool) (hv : AcceptsJson valid) (a b : List (Str × Json)) (k : Str)
    (v : Json) (out : JsonResult) (h1 : k ≠ str "doc") (h2 : k ≠ str "hits") :
    unmarshalled valid (Json.obj (a ++ (k, v) :: b)).toks out = unmarshalled valid (Json.obj (a ++ b)).toks out := by
  rw [C58_decoding valid hv, C58_decoding valid hv]
  refine readResult_congr _ ?_ ?_
  · rw [fieldValues_append, fieldValues_append, fieldValues_cons, if_neg (fun h => h1 h.1)]
  · rw [fieldValues_append, fieldValues_append, fieldValues_cons, if_neg (fun h => h2 h.1)]

/-- C58: a null field is as good as absent. -/
theorem C58_null_ignored (valid : List Tok → Bool) (hv : AcceptsJson valid) (a b : List (Str × Json)) (k : Str)
    (out : JsonResult) :
    unmarshalled valid (Json.obj (a ++ (k, .null) :: b)).toks out = unmarshalled valid (Json.obj (a ++ b)).toks out := by
  rw [C58_decoding valid hv, C58_decoding valid hv]
  refine readResult_congr _ ?_ ?_
  · rw [fieldValues_append, fieldValues_append, fieldValues_cons, if_neg (fun h => by simp [Json.isNull] at h)]
  · rw [fieldValues_append, fieldValues_append, fieldValues_cons, if_neg (fun h => by simp [Json.isNull] at h)]

/-- C58: inside `doc`, unknown and null fields are ignored too. -/
theorem C58_inner_fields (fs gs : List (Str × Json)) (k : Str) (v : Json) (d : Doc)
    (h : (k ≠ str "id" ∧ k ≠ str "raw") ∨ v.isNull = true) :
    readDoc (fs ++ (k, v) :: gs) d = readDoc (fs ++ gs) d := by
  have e : ∀ n : String, (n = "id" ∨ n = "raw") → fieldValues n (fs ++ (k, v) :: gs) = fieldValues n (fs ++ gs) := by
    intro n hn
    rw [fieldValues_append, fieldValues_append, fieldValues_cons, if_neg]
    rintro ⟨h1, h2⟩
    simp only at h1 h2
    rcases h with h | h
    · rcases hn with rfl | rfl
      · exact h.1 h1
      · exact h.2 h1
    · rw [h] at h2; cases h2
  unfold readDoc
  rw [e "id" (Or.inl rfl), e "raw" (Or.inr rfl)]

/-- C58: a field that is absent (or only null) keeps its previous value. -/
theorem C58_absent_kept (valid : List Tok → Bool) (hv : AcceptsJson valid) (fs : List (Str × Json))
    (out r : JsonResult) (h : unmarshalled valid (Json.obj fs).toks out = some r) :
    (fieldValues "hits" fs = [] → r.hits = out.hits) ∧
    (fieldValues "doc" fs = [] → r.document = out.document) ∧
    (∀ gs, fieldValues "doc" fs = [.obj gs] →
      (fieldValues "id" gs = [] → r.document.name = out.document.name) ∧
      (fieldValues "raw" gs = [] → r.document.content = out.document.content)) := by
  rw [C58_decoding valid hv] at h
  simp only [readResult] at h
  cases hA : allOf asObject (fieldValues "doc" fs) with
  | none => simp [hA] at h
  | some docs =>
    cases hI : allOf asInt (fieldValues "hits" fs) with
    | none => simp [hA, hI] at h
    | some ns =>
      simp only [hA, hI] at h
      cases hd : readDoc docs.flatten out.document with
      | none => simp [hd] at h
      | some d =>
        simp only [hd, Option.some.injEq] at h
        subst h
        refine ⟨fun he => ?_, fun he => ?_, fun gs he => ?_⟩
        · rw [he] at hI
          simp only [allOf, Option.some.injEq] at hI
          subst hI
          rfl
        · rw [he] at hA
          simp only [allOf, Option.some.injEq] at hA
          subst hA
          simp only [List.flatten_nil, readDoc, fieldValues, List.filter_nil, List.map_nil, allOf,
            Option.some.injEq] at hd
          rw [← hd]
          rfl
        · rw [he] at hA
          simp only [allOf, asObject, Option.some.injEq] at hA
          subst hA
          simp only [List.flatten_cons, List.flatten_nil, List.append_nil, readDoc] at hd
          constructor
          · intro hi
            rw [hi] at hd
            simp only [allOf] at hd
            split at hd
            · next h1 _ =>
              injection h1 with h1
              injection hd with hd
              rw [← hd, ← h1]
              rfl
            · cases hd
          · intro hi
            rw [hi] at hd
            simp only [allOf] at hd
            split at hd
            · next h1 =>
              injection h1 with h1
              injection hd with hd
              rw [← hd, ← h1]
              rfl
            · cases hd

/-- C58: the last occurrence of `hits` wins. -/
theorem C58_last_hits (valid : List Tok → Bool) (hv : AcceptsJson valid) (a b : List (Str × Json)) (n : Int)
    (out r : JsonResult) (hb : fieldValues "hits" b = [])
    (h : unmarshalled valid (Json.obj (a ++ (str "hits", .num (some n)) :: b)).toks out = some r) : r.hits = n := by
  rw [C58_decoding valid hv] at h
  simp only [readResult] at h
  have e : fieldValues "hits" (a ++ (str "hits", .num (some n)) :: b) = fieldValues "hits" a ++ [.num (some n)] := by
    rw [fieldValues_append, fieldValues_cons, if_pos ⟨rfl, rfl⟩, hb]
  rw [e] at h
  have key : ∀ (vs : List Json) (ns : List Int), allOf asInt (vs ++ [.num (some n)]) = some ns →
      ∀ d, ns.getLastD d = n := by
    intro vs
    induction vs with
    | nil =>
      intro ns h d
      simp only [List.nil_append, allOf, asInt, Option.some.injEq] at h
      rw [← h]
      rfl
    | cons v vs ih =>
      intro ns h d
      simp only [List.cons_append, allOf] at h
      split at h
      · next m ms _ h2 =>
        injection h with h
        rw [← h, getLastD_cons_eq]
        exact ih ms h2 m
      · cases h
  cases hA : allOf asObject (fieldValues "doc" (a ++ (str "hits", .num (some n)) :: b)) with
  | none => simp [hA] at h
  | some docs =>
    cases hI : allOf asInt (fieldValues "hits" a ++ [.num (some n)]) with
    | none => simp [hA, hI] at h
    | some ns =>
      simp only [hA, hI] at h
      split at h
      · injection h with h
        rw [← h]
        exact key _ _ hI _
      · cases h

/-- C58: the last occurrence of `id`, and of `raw`, wins. -/
theorem C58_last_strings (a b : List (Str × Json)) (s : Str) (d d' : Doc) :
    (fieldValues "id" b = [] → readDoc (a ++ (str "id", .str s) :: b) d = some d' → d'.name = s) ∧
    (fieldValues "raw" b = [] → readDoc (a ++ (str "raw", .str s) :: b) d = some d' → d'.content = s) := by
  have key : ∀ (vs : List Json) (ss : List Str), allOf asString (vs ++ [.str s]) = some ss →
      ∀ d, ss.getLastD d = s := by
    intro vs
    induction vs with
    | nil =>
      intro ns h d
      simp only [List.nil_append, allOf, asString, Option.some.injEq] at h
      rw [← h]
      rfl
    | cons v vs ih =>
      intro ns h d
      simp only [List.cons_append, allOf] at h
      split at h
      · next m ms _ h2 =>
        injection h with h
        rw [← h, getLastD_cons_eq]
        exact ih ms h2 m
      · cases h
  constructor
  · intro hb h
    have e : fieldValues "id" (a ++ (str "id", .str s) :: b) = fieldValues "id" a ++ [.str s] := by
      rw [fieldValues_append, fieldValues_cons, if_pos ⟨rfl, rfl⟩, hb]
    unfold readDoc at h
    split at h
    · next h1 _ =>
      rw [e] at h1
      injection h with h
      rw [← h]
      exact key _ _ h1 _
    · cases h
  · intro hb h
    have e : fieldValues "raw" (a ++ (str "raw", .str s) :: b) = fieldValues "raw" a ++ [.str s] := by
      rw [fieldValues_append, fieldValues_cons, if_pos ⟨rfl, rfl⟩, hb]
    unfold readDoc at h
    split at h
    · next h1 =>
      rw [e] at h1
      injection h with h
      rw [← h]
      exact key _ _ h1 _
    · cases h

/-- The contract of `json.Valid` can be met. -/
theorem acceptsJson_witness : AcceptsJson (fun _ => true) := fun _ => rfl

/-- A decoding with an unknown nested field, a null, a repeated field and an absent one. -/
example :
    unmarshalled (fun _ => true)
      (Json.obj [(str "x", .arr [.obj [(str "hits", .num (some 7))], .null]), (str "hits", .num (some 1)),
        (str "doc", .obj [(str "raw", .null), (str "id", .str (str "a"))]), (str "hits", .num (some 2))]).toks
      { document := { name := str "n", content := str "c" }, hits := 9 } =
    some { document := { name := str "a", content := str "c" }, hits := 2 } := by decide +kernel

/-- A wrong type, a trailing comma and trailing data are errors. -/
example : unmarshalled (fun _ => true) (Json.obj [(str "hits", .str (str "1"))]).toks
    { document := { name := [], content := [] }, hits := 0 } = none := by decide +kernel
example : unmarshalled (fun _ => true) [.lbrace, .str (str "hits"), .colon, .num (some 1), .comma, .rbrace]
    { document := { name := [], content := [] }, hits := 0 } = none := by decide +kernel
example : unmarshalled (fun _ => true) [.lbrace, .rbrace, .null]
    { document := { name := [], content := [] }, hits := 0 } = none := by decide +kernel

end Visigoth
