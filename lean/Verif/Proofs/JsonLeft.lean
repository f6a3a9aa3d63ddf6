import Verif.Spec.JsonLeft
import Verif.Proofs.JsonExact
/-!
# What decoding leaves behind
-/
namespace Visigoth

variable {valid : List Tok → Bool}

theorem docLoop_failed_out (fuel : Nat) (l : Lexer) (out : Doc) (h : l.failed = true) :
    (docLoop valid fuel l out).2 = out := by
  cases fuel with
  | zero => rfl
  | succ n => simp [docLoop, Lexer.isDelim, Lexer.peek, h]

theorem resultLoop_failed_out (fuel : Nat) (l : Lexer) (out : JsonResult) (h : l.failed = true) :
    (resultLoop valid fuel l out).2 = out := by
  cases fuel with
  | zero => rfl
  | succ n => simp [resultLoop, Lexer.isDelim, Lexer.peek, h]

theorem leftDoc_append (fs gs : List (Str × Json)) : ∀ d,
    leftDoc (fs ++ gs) d = match stepDoc fs d with | some d' => leftDoc gs d' | none => leftDoc fs d := by
  induction fs with
  | nil => intro d; rfl
  | cons f fs ih =>
    obtain ⟨k, v⟩ := f
    intro d
    simp only [List.cons_append, stepDoc, leftDoc]
    split
    · exact ih d
    · split
      · cases asString v with
        | none => rfl
        | some s => exact ih _
      · split
        · cases asString v with
          | none => rfl
          | some s => exact ih _
        · exact ih d

theorem leftDoc_of_step (fs : List (Str × Json)) (d d' : Doc) (h : stepDoc fs d = some d') : leftDoc fs d = d' := by
  have := leftDoc_append fs [] d
  rw [List.append_nil, h] at this
  exact this

theorem leftResult_append (fs gs : List (Str × Json)) : ∀ r,
    leftResult (fs ++ gs) r = match stepResult fs r with | some r' => leftResult gs r' | none => leftResult fs r := by
  induction fs with
  | nil => intro d; rfl
  | cons f fs ih =>
    obtain ⟨k, v⟩ := f
    intro r
    simp only [List.cons_append, stepResult, leftResult]
    split
    · exact ih r
    · split
      · cases asObject v with
        | none => rfl
        | some gs' =>
          simp only [← stepDoc_eq]
          cases hd : stepDoc gs' r.document with
          | none => rfl
          | some d => simp only [Option.isSome_some, if_true, leftDoc_of_step _ _ _ hd]; exact ih _
      · split
        · cases asInt v with
          | none => rfl
          | some s => exact ih _
        · exact ih r

/-- A wrong string reads as the empty string. -/
theorem opened_string_none (rest : List Tok) (v : Json) (h : asString v = none) : (opened rest v).string.1 = [] := by
  cases v <;> simp [asString] at h <;> rfl

theorem opened_int_none (rest : List Tok) (v : Json) (h : asInt v = none) : (opened rest v).int.1 = 0 := by
  cases v with
  | num n => simp only [asInt] at h; subst h; rfl
  | _ => rfl

/-- Reading complete fields, then the rest. -/
theorem docLoop_good (hv : AcceptsJson valid) (tail : List Tok) :
    ∀ (good : List (Str × Json)) (fuel : Nat) (first : Bool) (out : Doc), good.length < fuel →
    (docLoop valid fuel (headL first (Json.toksFields first good ++ tail)) out).2 =
      match stepDoc good out with
      | some d => (docLoop valid (fuel - good.length) (headL (first && good.isEmpty) tail) d).2
      | none => leftDoc good out := by
  intro good
  induction good with
  | nil => intro fuel first out h; simp [Json.toksFields, stepDoc]
  | cons f good ih =>
    obtain ⟨k, v⟩ := f
    intro fuel first out h
    cases fuel with
    | zero => simp at h
    | succ n =>
      have hn : good.length < n := by simpa using h
      have hs : ∀ l : Lexer, ({ l with tok := some (.str k), failed := false } : Lexer).string =
          (k, { l with tok := none, failed := false }) := by
        intro l; simp [Lexer.string, Lexer.peek, Lexer.consume]
      have hs := hs { data := .colon :: (v.toks ++ (Json.toksFields false good ++ tail)), started := true
                      first := first }
      have hfuel : n + 1 - (good.length + 1) = n - good.length := by omega
      simp only [List.isEmpty_cons, Bool.and_false, List.length_cons, hfuel]
      simp only [docLoop, head_field, Bool.false_eq_true, if_false, hs, field_value]
      have ih' := fun o => ih n false o hn
      simp only [Bool.false_and] at ih'
      cases hnull : v.isNull with
      | true =>
        cases v <;> simp [Json.isNull] at hnull
        have hw : (opened (Json.toksFields false good ++ tail) .null).skip.wantComma =
            headL false (Json.toksFields false good ++ tail) := rfl
        simp only [stepDoc, leftDoc, Json.isNull, if_true, hw]
        exact ih' out
      | false =>
        simp only [Bool.false_eq_true, if_false, stepDoc, leftDoc, hnull]
        by_cases hid : k = "id".toUTF8.toList
        · simp only [if_pos hid]
          rcases opened_string (Json.toksFields false good ++ tail) v with ⟨s, h1, h2, h3⟩ | ⟨h1, h3⟩
          · simp only [h1, h2, h3]
            exact ih' _
          · simp only [h1, opened_string_none _ v h1]
            exact docLoop_failed_out _ _ _ h3
        · by_cases hraw : k = "raw".toUTF8.toList
          · simp only [if_neg hid, if_pos hraw]
            rcases opened_string (Json.toksFields false good ++ tail) v with ⟨s, h1, h2, h3⟩ | ⟨h1, h3⟩
            · simp only [h1, h2, h3]
              exact ih' _
            · simp only [h1, opened_string_none _ v h1]
              exact docLoop_failed_out _ _ _ h3
          · simp only [if_neg hid, if_neg hraw, opened_skip valid hv]
            exact ih' _

/-- What does not begin with a name ends the loop. -/
theorem docLoop_stops (fuel : Nat) (first : Bool) (tail : List Tok) (out : Doc)
    (h : ¬ ∃ k rest, tail = sepToks first ++ .str k :: rest) :
    (docLoop valid fuel (headL first tail) out).2 = out := by
  cases fuel with
  | zero => rfl
  | succ n =>
    rcases head_cases first tail with ⟨rest, hd⟩ | ⟨k, rest, hd, hk⟩ | hf | ⟨hb, hf⟩
    · subst hd; simp only [docLoop, head_done, if_true]
    · exact absurd ⟨k, rest, hd⟩ h
    · have hb : ((headL first tail).isDelim .rbrace).1 = true := by
        simp only [Lexer.isDelim] at hf ⊢; rw [hf]; rfl
      simp only [docLoop, hb, if_true]
    · have hkey : ((headL first tail).isDelim .rbrace).2.string.1 = [] := by
        unfold Lexer.string at hf ⊢
        split at hf
        · simp only [*, if_true]
        · rename_i hpf
          simp only [hpf, Bool.false_eq_true, if_false]
          split at hf
          · rename_i s hs
            simp only [Lexer.consume] at hf
            rw [hf] at hpf; exact absurd rfl hpf
          · rfl
      have hf2 : (((headL first tail).isDelim .rbrace).2.string.2.wantColon.isNull).2.failed = true := isNull_failed hf
      have e1 : ¬ ([] : Str) = "id".toUTF8.toList := by decide +kernel
      have e2 : ¬ ([] : Str) = "raw".toUTF8.toList := by decide +kernel
      simp only [docLoop, hb, Bool.false_eq_true, if_false, hkey, e1, e2]
      split
      · exact docLoop_failed_out _ _ _ (skip_failed hf2)
      · exact docLoop_failed_out _ _ _ (skipRecursive_failed hf2)

/-- A lexer in which a value has failed to begin reads as nothing. -/
theorem string_failed_nil {l : Lexer} (h : l.failed = true) : l.string.1 = [] := by
  simp [Lexer.string, Lexer.peek, h]

theorem int_failed_zero {l : Lexer} (h : l.failed = true) : l.int.1 = 0 := by
  simp [Lexer.int, Lexer.peek, h]

theorem value_string_nil (t : Tok) (rest : List Tok) (h : ∀ s, t ≠ .str s) : (valueL t rest).string.1 = [] ∧
    (valueL t rest).string.2.wantComma.failed = true := by
  cases t
  case str s => exact absurd rfl (h s)
  all_goals exact ⟨rfl, rfl⟩

theorem value_int_zero (t : Tok) (rest : List Tok) (h : ∀ n, t ≠ .num (some n)) : (valueL t rest).int.1 = 0 ∧
    (valueL t rest).int.2.wantComma.failed = true := by
  cases t
  case num n =>
    cases n
    · exact ⟨rfl, rfl⟩
    · exact absurd rfl (h _)
  all_goals exact ⟨rfl, rfl⟩

/-- Only an opening delimiter begins something that is not a value. -/
theorem opens_of_no_value {t : Tok} {rest' : List Tok} (hst : t.starts = true)
    (h : ¬ ∃ (w : Json) (r : List Tok), t :: rest' = w.toks ++ r) : t = .lbrace ∨ t = .lbrack := by
  cases t with
  | lbrace => exact .inl rfl
  | lbrack => exact .inr rfl
  | rbrace => cases hst
  | rbrack => cases hst
  | colon => cases hst
  | comma => cases hst
  | str s => exact absurd ⟨.str s, rest', by simp [Json.toks]⟩ h
  | num s => exact absurd ⟨.num s, rest', by simp [Json.toks]⟩ h
  | bool s => exact absurd ⟨.bool s, rest', by simp [Json.toks]⟩ h
  | null => exact absurd ⟨.null, rest', by simp [Json.toks]⟩ h

theorem head_name (first : Bool) (k : Str) (rest : List Tok) :
    (headL first (sepToks first ++ .str k :: rest)).isDelim .rbrace = (false, keyL first k rest) := by
  cases first <;> simp [headL, sepToks, keyL, Lexer.isDelim, Lexer.peek, Lexer.fetch, Lexer.fetchFrom]

/-- After a name without a value there is a null only if that comes at once. -/
theorem colon_null (first : Bool) (rest : List Tok)
    (h : ¬ ∃ (w : Json) (rest' : List Tok), rest = .colon :: (w.toks ++ rest')) :
    (Lexer.wantColon { data := rest, started := true, first := first }).isNull.1 = decide (rest.head? = some .null) := by
  match rest with
  | [] => rfl
  | .rbrace :: _ => rfl
  | .rbrack :: _ => rfl
  | .lbrace :: _ => rfl
  | .lbrack :: _ => rfl
  | .comma :: _ => rfl
  | .num _ :: _ => simp [Lexer.wantColon, Lexer.isNull, Lexer.peek, Lexer.fetch, Lexer.fetchFrom]
  | .bool _ :: _ => simp [Lexer.wantColon, Lexer.isNull, Lexer.peek, Lexer.fetch, Lexer.fetchFrom]
  | .null :: _ => rfl
  | .str _ :: _ => simp [Lexer.wantColon, Lexer.isNull, Lexer.peek, Lexer.fetch, Lexer.fetchFrom]
  | [.colon] => rfl
  | .colon :: .colon :: _ => rfl
  | .colon :: .comma :: _ => rfl
  | .colon :: .rbrace :: _ => rfl
  | .colon :: .rbrack :: _ => rfl
  | .colon :: .lbrace :: r => rfl
  | .colon :: .lbrack :: r => rfl
  | .colon :: .num n :: r => exact absurd ⟨.num n, r, by simp [Json.toks]⟩ h
  | .colon :: .bool n :: r => exact absurd ⟨.bool n, r, by simp [Json.toks]⟩ h
  | .colon :: .null :: r => exact absurd ⟨.null, r, by simp [Json.toks]⟩ h
  | .colon :: .str n :: r => exact absurd ⟨.str n, r, by simp [Json.toks]⟩ h

/-- A name without a value. -/
theorem docLoop_torn (hv' : OnlyJson valid) (n : Nat) (first : Bool) (k : Str) (rest : List Tok) (out : Doc)
    (h : ¬ ∃ (w : Json) (rest' : List Tok), rest = .colon :: (w.toks ++ rest')) :
    (docLoop valid (n + 1) (headL first (sepToks first ++ .str k :: rest)) out).2 = leftDoc [(k, standIn rest)] out := by
  simp only [docLoop, head_name, Bool.false_eq_true, if_false, key_string]
  rcases colon_cases first rest with ⟨t, rest', hr, hst, hn⟩ | hf
  · have hno : ¬ ∃ (w : Json) (r : List Tok), t :: rest' = w.toks ++ r := by
      rintro ⟨w, r, e⟩
      exact h ⟨w, r, by rw [hr, e]⟩
    have htn : t ≠ .null := by
      rcases opens_of_no_value hst hno with e | e <;> rw [e] <;> simp
    have hts : ∀ s, t ≠ .str s := by
      intro s
      rcases opens_of_no_value hst hno with e | e <;> rw [e] <;> simp
    have hstand : standIn rest = .bool false := by rw [hr]; rfl
    simp only [hn, htn, decide_false, Bool.false_eq_true, if_false, hstand, leftDoc, Json.isNull, asString]
    obtain ⟨h1, h2⟩ := value_string_nil t rest' hts
    split
    · rw [h1]; exact docLoop_failed_out _ _ _ h2
    · split
      · rw [h1]; exact docLoop_failed_out _ _ _ h2
      · rcases value_skip hv' t rest' hst with ⟨v, r, e, _⟩ | hf
        · exact absurd ⟨v, r, e⟩ hno
        · exact docLoop_failed_out _ _ _ hf
  · rw [colon_null first rest h]
    unfold standIn
    by_cases hnull : rest.head? = some .null
    · simp only [hnull, decide_true, if_true, leftDoc, Json.isNull]
      exact docLoop_failed_out _ _ _ (skip_failed hf)
    · simp only [hnull, decide_false, Bool.false_eq_true, if_false, leftDoc, Json.isNull, asString]
      split
      · rw [string_failed_nil hf]; exact docLoop_failed_out _ _ _ (string_failed hf)
      · split
        · rw [string_failed_nil hf]; exact docLoop_failed_out _ _ _ (string_failed hf)
        · exact docLoop_failed_out _ _ _ (skipRecursive_failed hf)

theorem no_name_rbrace (first : Bool) (rest : List Tok) :
    ¬ ∃ k rest', (.rbrace :: rest : List Tok) = sepToks first ++ .str k :: rest' := by
  rintro ⟨k, rest', e⟩
  cases first <;> simp [sepToks] at e

theorem docLoop_fieldsOf (hv : AcceptsJson valid) (hv' : OnlyJson valid) {first : Bool} {data : List Tok}
    {fs : List (Str × Json)} (h : FieldsOf NoValue first data fs) (fuel : Nat) (hf : data.length < fuel) (out : Doc) :
    (docLoop valid fuel (headL first data) out).2 = leftDoc fs out := by
  obtain ⟨good, tail, hd, h⟩ := h
  have hlen : good.length < fuel := by
    have := toksFields_length first good
    rw [hd, List.length_append] at hf
    omega
  rw [hd, docLoop_good hv tail good fuel first out hlen]
  rcases h with ⟨e, hno⟩ | ⟨k, rest, v, ht, hno, htorn, e⟩
  · subst e
    cases hs : stepDoc fs out with
    | none => rfl
    | some d =>
      simp only
      rw [docLoop_stops _ _ _ _ hno]
      exact (leftDoc_of_step _ _ _ hs).symm
  · subst e
    rw [leftDoc_append]
    cases hs : stepDoc good out with
    | none => rfl
    | some d =>
      simp only
      obtain ⟨n, hn⟩ : ∃ n, fuel - good.length = n + 1 := ⟨fuel - good.length - 1, by omega⟩
      rw [ht, hn, docLoop_torn hv' n _ k rest d hno]
      unfold NoValue at htorn
      rw [htorn]

theorem decodeDoc_obj (hv : AcceptsJson valid) (rest : List Tok) (gs : List (Str × Json)) (out : Doc) :
    (decodeDoc valid (opened rest (.obj gs)) out).2 = leftDoc gs out := by
  have e : (decodeDoc valid (opened rest (.obj gs)) out).2 =
      (docLoop valid ((Json.toksFields true gs ++ .rbrace :: rest).length + 1)
        (headL true (Json.toksFields true gs ++ .rbrace :: rest)) out).2 := rfl
  have hlen : gs.length < (Json.toksFields true gs ++ .rbrace :: rest).length + 1 := by
    have := toksFields_length true gs
    simp only [List.length_append]
    omega
  rw [e, docLoop_good hv (.rbrace :: rest) gs _ true out hlen]
  cases hs : stepDoc gs out with
  | none => rfl
  | some d =>
    simp only
    rw [docLoop_stops _ _ _ _ (no_name_rbrace _ _)]
    exact (leftDoc_of_step _ _ _ hs).symm

theorem decodeDoc_delim_failed {l : Lexer} (out : Doc) (hn : l.isNull.1 = false) (hf : (l.isNull.2.delim .lbrace).failed = true) :
    (decodeDoc valid l out).2 = out := by
  unfold decodeDoc
  simp only [hn, Bool.false_eq_true, if_false]
  exact docLoop_failed_out _ _ _ hf

theorem decodeDoc_not_obj (rest : List Tok) (w : Json) (out : Doc) (hn : w.isNull = false) (ho : asObject w = none) :
    (decodeDoc valid (opened rest w) out).2 = out := by
  have : ((opened rest w).isNull.2.delim .lbrace).failed = true ∧ ((opened rest w).isNull).1 = false := by
    cases w <;> simp [asObject, Json.isNull] at ho hn <;>
      simp [opened, Lexer.delim, Lexer.peek, Lexer.isNull, Lexer.consume, Lexer.fail]
  exact decodeDoc_delim_failed out this.2 this.1

theorem resultLoop_good (hv : AcceptsJson valid) (tail : List Tok) :
    ∀ (good : List (Str × Json)) (fuel : Nat) (first : Bool) (out : JsonResult), good.length < fuel →
    (resultLoop valid fuel (headL first (Json.toksFields first good ++ tail)) out).2 =
      match stepResult good out with
      | some d => (resultLoop valid (fuel - good.length) (headL (first && good.isEmpty) tail) d).2
      | none => leftResult good out := by
  intro good
  induction good with
  | nil => intro fuel first out h; simp [Json.toksFields, stepResult]
  | cons f good ih =>
    obtain ⟨k, v⟩ := f
    intro fuel first out h
    cases fuel with
    | zero => simp at h
    | succ n =>
      have hn : good.length < n := by simpa using h
      have hs : ∀ l : Lexer, ({ l with tok := some (.str k), failed := false } : Lexer).string =
          (k, { l with tok := none, failed := false }) := by
        intro l; simp [Lexer.string, Lexer.peek, Lexer.consume]
      have hs := hs { data := .colon :: (v.toks ++ (Json.toksFields false good ++ tail)), started := true
                      first := first }
      have hfuel : n + 1 - (good.length + 1) = n - good.length := by omega
      simp only [List.isEmpty_cons, Bool.and_false, List.length_cons, hfuel]
      simp only [resultLoop, head_field, Bool.false_eq_true, if_false, hs, field_value]
      have ih' := fun o => ih n false o hn
      simp only [Bool.false_and] at ih'
      cases hnull : v.isNull with
      | true =>
        cases v <;> simp [Json.isNull] at hnull
        have hw : (opened (Json.toksFields false good ++ tail) .null).skip.wantComma =
            headL false (Json.toksFields false good ++ tail) := rfl
        simp only [stepResult, leftResult, Json.isNull, if_true, hw]
        exact ih' out
      | false =>
        simp only [Bool.false_eq_true, if_false, stepResult, leftResult, hnull]
        by_cases hid : k = "doc".toUTF8.toList
        · simp only [if_pos hid]
          rcases decodeDoc_value valid hv (Json.toksFields false good ++ tail) v out.document hnull with
            ⟨gs, d, h1, h2, h3, h4⟩ | ⟨h1, h3⟩
          · have hl : leftDoc gs out.document = d := leftDoc_of_step _ _ _ h2
            simp only [h1, h2, h3, h4, ← stepDoc_eq, Option.isSome_some, if_true, hl]
            exact ih' _
          · rw [resultLoop_failed_out _ _ _ h3]
            cases ho : asObject v with
            | none => simp only [decodeDoc_not_obj _ v out.document hnull ho]
            | some gs =>
              have hv2 : v = .obj gs := by
                cases v <;> simp [asObject] at ho
                rw [ho]
              subst hv2
              simp only [h1 gs ho, ← stepDoc_eq, Option.isSome_none, Bool.false_eq_true, if_false, decodeDoc_obj hv]
        · by_cases hraw : k = "hits".toUTF8.toList
          · simp only [if_neg hid, if_pos hraw]
            rcases opened_int (Json.toksFields false good ++ tail) v with ⟨s, h1, h2, h3⟩ | ⟨h1, h3⟩
            · simp only [h1, h2, h3]
              exact ih' _
            · simp only [h1, opened_int_none _ v h1]
              exact resultLoop_failed_out _ _ _ h3
          · simp only [if_neg hid, if_neg hraw, opened_skip valid hv]
            exact ih' _

theorem no_name_string {first : Bool} {tail : List Tok} (hf : ((headL first tail).isDelim .rbrace).2.string.2.failed = true) :
    ((headL first tail).isDelim .rbrace).2.string.1 = [] := by
  unfold Lexer.string at hf ⊢
  split at hf
  · simp only [*, if_true]
  · rename_i hpf
    simp only [hpf, Bool.false_eq_true, if_false]
    split at hf
    · rename_i s hs
      simp only [Lexer.consume] at hf
      rw [hf] at hpf; exact absurd rfl hpf
    · rfl

theorem resultLoop_stops (fuel : Nat) (first : Bool) (tail : List Tok) (out : JsonResult)
    (h : ¬ ∃ k rest, tail = sepToks first ++ .str k :: rest) :
    (resultLoop valid fuel (headL first tail) out).2 = out := by
  cases fuel with
  | zero => rfl
  | succ n =>
    rcases head_cases first tail with ⟨rest, hd⟩ | ⟨k, rest, hd, hk⟩ | hf | ⟨hb, hf⟩
    · subst hd; simp only [resultLoop, head_done, if_true]
    · exact absurd ⟨k, rest, hd⟩ h
    · have hb : ((headL first tail).isDelim .rbrace).1 = true := by
        simp only [Lexer.isDelim] at hf ⊢; rw [hf]; rfl
      simp only [resultLoop, hb, if_true]
    · have hkey := no_name_string hf
      have hf2 : (((headL first tail).isDelim .rbrace).2.string.2.wantColon.isNull).2.failed = true := isNull_failed hf
      have e1 : ¬ ([] : Str) = "doc".toUTF8.toList := by decide +kernel
      have e2 : ¬ ([] : Str) = "hits".toUTF8.toList := by decide +kernel
      simp only [resultLoop, hb, Bool.false_eq_true, if_false, hkey, e1, e2]
      split
      · exact resultLoop_failed_out _ _ _ (skip_failed hf2)
      · exact resultLoop_failed_out _ _ _ (skipRecursive_failed hf2)

theorem resultLoop_torn (hv : AcceptsJson valid) (hv' : OnlyJson valid) (n : Nat) (first : Bool) (k : Str) (rest : List Tok)
    (out : JsonResult) (h : ¬ ∃ (w : Json) (rest' : List Tok), rest = .colon :: (w.toks ++ rest')) (v : Json)
    (ht : TornDoc k rest v) :
    (resultLoop valid (n + 1) (headL first (sepToks first ++ .str k :: rest)) out).2 = leftResult [(k, v)] out := by
  simp only [resultLoop, head_name, Bool.false_eq_true, if_false, key_string]
  have hsp : ¬ (k = "doc".toUTF8.toList ∧ [.colon, .lbrace] <+: rest) → v = standIn rest := by
    intro hh; unfold TornDoc at ht; rw [if_neg hh] at ht; exact ht
  have einv : leftResult [(k, .bool false)] out = if k = "doc".toUTF8.toList then out else
      if k = "hits".toUTF8.toList then { out with hits := 0 } else out := by
    simp only [leftResult, Json.isNull, Bool.false_eq_true, if_false, asObject, asInt]
  rcases colon_cases first rest with ⟨t, rest', hr, hst, hn⟩ | hf
  · have hno : ¬ ∃ (w : Json) (r : List Tok), t :: rest' = w.toks ++ r := by
      rintro ⟨w, r, e⟩
      exact h ⟨w, r, by rw [hr, e]⟩
    have hop := opens_of_no_value hst hno
    have htn : t ≠ .null := by
      rcases hop with e | e <;> rw [e] <;> simp
    have hti : ∀ s, t ≠ .num (some s) := by
      intro s
      rcases hop with e | e <;> rw [e] <;> simp
    have hstand : standIn rest = .bool false := by rw [hr]; rfl
    rw [hstand] at hsp
    simp only [hn, htn, decide_false, Bool.false_eq_true, if_false]
    by_cases hk : k = "doc".toUTF8.toList
    · simp only [if_pos hk]
      have hfail : (decodeDoc valid (valueL t rest') out.document).1.wantComma.failed = true := by
        rcases decodeDoc_json hv' t rest' out.document htn with hf | ⟨fs, r, e, _⟩
        · exact hf
        · exact absurd ⟨_, _, e⟩ hno
      rw [resultLoop_failed_out _ _ _ hfail]
      rcases hop with e | e
      · subst e
        have hpre : [.colon, .lbrace] <+: rest := ⟨rest', by rw [hr]; rfl⟩
        unfold TornDoc at ht
        rw [if_pos ⟨hk, hpre⟩] at ht
        obtain ⟨gs, hvv, hg⟩ := ht
        subst hvv
        have e : (decodeDoc valid (valueL .lbrace rest') out.document).2 =
            (docLoop valid (rest'.length + 1) (headL true rest') out.document).2 := rfl
        have hdrop : rest.drop 2 = rest' := by rw [hr]; rfl
        rw [hdrop] at hg
        rw [e, docLoop_fieldsOf hv hv' hg _ (Nat.lt_succ_self _)]
        simp only [leftResult, Json.isNull, Bool.false_eq_true, if_false, if_pos hk, asObject, ite_self]
      · subst e
        have hpre : ¬ (k = "doc".toUTF8.toList ∧ [.colon, .lbrace] <+: rest) := by
          rintro ⟨_, r, e⟩
          rw [hr] at e
          simp at e
        rw [hsp hpre, einv, if_pos hk]
        have : (decodeDoc valid (valueL .lbrack rest') out.document).2 = out.document :=
          decodeDoc_delim_failed _ rfl rfl
        rw [this]
    · rw [hsp (fun hh => hk hh.1), einv, if_neg hk, if_neg hk]
      obtain ⟨h1, h2⟩ := value_int_zero t rest' hti
      split
      · rw [h1]; exact resultLoop_failed_out _ _ _ h2
      · rcases value_skip hv' t rest' hst with ⟨v, r, e, _⟩ | hf
        · exact absurd ⟨v, r, e⟩ hno
        · exact resultLoop_failed_out _ _ _ hf
  · have hpre : ¬ (k = "doc".toUTF8.toList ∧ [.colon, .lbrace] <+: rest) := by
      rintro ⟨_, r, e⟩
      rw [← e] at hf
      cases hf
    rw [hsp hpre, colon_null first rest h]
    unfold standIn
    by_cases hnull : rest.head? = some .null
    · simp only [hnull, decide_true, if_true, leftResult, Json.isNull]
      exact resultLoop_failed_out _ _ _ (skip_failed hf)
    · have hnn := colon_null first rest h
      simp only [hnull, decide_false] at hnn
      simp only [hnull, decide_false, Bool.false_eq_true, if_false, einv]
      split
      · have hfail : (decodeDoc valid ((Lexer.wantColon { data := rest, started := true, first := first }).isNull.2)
            out.document).1.wantComma.failed = true := decodeDoc_failed (valid := valid) out.document hf
        refine (resultLoop_failed_out n _ _ hfail).trans ?_
        have : (decodeDoc valid ((Lexer.wantColon { data := rest, started := true, first := first }).isNull.2) out.document).2
            = out.document := by
          refine decodeDoc_delim_failed _ ?_ (delim_failed _ (isNull_failed hf))
          have : ∀ l : Lexer, l.isNull.2.failed = true → l.isNull.1 = false → l.isNull.2.isNull.1 = false := by
            intro l h1 h2
            simp only [Lexer.isNull] at h1 h2 ⊢
            have : l.peek.peek = l.peek := by
              have : l.peek.peek = if l.peek.tok = none ∧ l.peek.failed = false then l.peek.fetch else l.peek := rfl
              rw [this, h1]; simp
            simp only [this]; exact h2
          exact this _ hf hnn
        rw [this]
      · split
        · rw [int_failed_zero hf]; exact resultLoop_failed_out _ _ _ (int_failed hf)
        · exact resultLoop_failed_out _ _ _ (skipRecursive_failed hf)

theorem resultLoop_fieldsOf (hv : AcceptsJson valid) (hv' : OnlyJson valid) {first : Bool} {data : List Tok}
    {fs : List (Str × Json)} (h : FieldsOf TornDoc first data fs) (fuel : Nat) (hf : data.length < fuel) (out : JsonResult) :
    (resultLoop valid fuel (headL first data) out).2 = leftResult fs out := by
  obtain ⟨good, tail, hd, h⟩ := h
  have hlen : good.length < fuel := by
    have := toksFields_length first good
    rw [hd, List.length_append] at hf
    omega
  have hstep : ∀ fs (r r' : JsonResult), stepResult fs r = some r' → leftResult fs r = r' := by
    intro fs r r' hs
    have := leftResult_append fs [] r
    rw [List.append_nil, hs] at this
    exact this
  rw [hd, resultLoop_good hv tail good fuel first out hlen]
  rcases h with ⟨e, hno⟩ | ⟨k, rest, v, ht, hno, htorn, e⟩
  · subst e
    cases hs : stepResult fs out with
    | none => rfl
    | some d =>
      simp only
      rw [resultLoop_stops _ _ _ _ hno]
      exact (hstep _ _ _ hs).symm
  · subst e
    rw [leftResult_append]
    cases hs : stepResult good out with
    | none => rfl
    | some d =>
      simp only
      obtain ⟨n, hn⟩ : ∃ n, fuel - good.length = n + 1 := ⟨fuel - good.length - 1, by omega⟩
      rw [ht, hn, resultLoop_torn hv hv' n _ k rest d hno v htorn]

/-- Every text has fields, in this sense. -/
theorem fieldsOf_total (torn : Str → List Tok → Json → Prop) (htorn : ∀ k rest, ∃ v, torn k rest v) :
    ∀ (n : Nat) (first : Bool) (data : List Tok), data.length ≤ n → ∃ fs, FieldsOf torn first data fs := by
  intro n
  induction n with
  | zero =>
    intro first data h
    refine ⟨[], [], data, by simp [Json.toksFields], .inl ⟨rfl, ?_⟩⟩
    rintro ⟨k, rest, e⟩
    rw [e] at h
    simp at h
  | succ n ih =>
    intro first data h
    by_cases hname : ∃ k rest, data = sepToks first ++ .str k :: rest
    · obtain ⟨k, rest, e⟩ := hname
      by_cases hval : ∃ (w : Json) (rest' : List Tok), rest = .colon :: (w.toks ++ rest')
      · obtain ⟨w, rest', er⟩ := hval
        have hl : rest'.length ≤ n := by
          rw [e, er] at h
          simp only [List.length_append, List.length_cons] at h
          omega
        obtain ⟨fs, good, tail, hd, hfs⟩ := ih false rest' hl
        have hsplit : data = Json.toksFields first ((k, w) :: good) ++ tail := by
          rw [e, er, hd]
          cases first <;> simp [Json.toksFields, sepToks]
        rcases hfs with ⟨e1, e2⟩ | ⟨k', r', v', e1, e2, e3, e4⟩
        · exact ⟨(k, w) :: fs, (k, w) :: good, tail, hsplit, .inl ⟨by rw [e1], by simpa using e2⟩⟩
        · exact ⟨(k, w) :: fs, (k, w) :: good, tail, hsplit,
            .inr ⟨k', r', v', by simpa using e1, e2, e3, by rw [e4]; rfl⟩⟩
      · obtain ⟨v, hv⟩ := htorn k rest
        exact ⟨[(k, v)], [], data, by simp [Json.toksFields], .inr ⟨k, rest, v, by simpa using e, hval, hv, rfl⟩⟩
    · exact ⟨[], [], data, by simp [Json.toksFields], .inl ⟨rfl, by simpa using hname⟩⟩

theorem tornDoc_total (k : Str) (rest : List Tok) : ∃ v, TornDoc k rest v := by
  unfold TornDoc
  split
  · obtain ⟨gs, h⟩ := fieldsOf_total NoValue (fun _ rest => ⟨_, rfl⟩) _ true (rest.drop 2) (Nat.le_refl _)
    exact ⟨.obj gs, gs, rfl, h⟩
  · exact ⟨_, rfl⟩

end Visigoth
