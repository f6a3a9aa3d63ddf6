import Verif.Proofs.Json
/-!
# Only JSON text is accepted
-/
namespace Visigoth

/-- Tokens that a value begins with. -/
def Tok.starts : Tok → Bool
  | .rbrace | .rbrack | .colon | .comma => false
  | _ => true

def Tok.opens : Tok → Bool
  | .lbrace | .lbrack => true
  | _ => false

/-- The lexer with the token `t` at the start of a value current. -/
def valueL (t : Tok) (rest : List Tok) : Lexer := { data := rest, started := true, first := t.opens, tok := some t }

/-- The lexer after a name in a field loop. -/
def keyL (first : Bool) (k : Str) (rest : List Tok) : Lexer :=
  { data := rest, started := true, first := first, tok := some (.str k) }

theorem head_cases (first : Bool) (data : List Tok) :
    (∃ rest, data = .rbrace :: rest) ∨
    (∃ k rest, data = (if first then [] else [.comma]) ++ .str k :: rest ∧
      (headL first data).isDelim .rbrace = (false, keyL first k rest)) ∨
    ((headL first data).isDelim .rbrace).2.failed = true ∨
    (((headL first data).isDelim .rbrace).1 = false ∧ ((headL first data).isDelim .rbrace).2.string.2.failed = true) := by
  match data with
  | [] => right; right; left; cases first <;> rfl
  | .rbrace :: rest => exact .inl ⟨rest, rfl⟩
  | .colon :: rest => right; right; left; cases first <;> rfl
  | .lbrace :: rest => cases first; exact .inr (.inr (.inl rfl)); exact .inr (.inr (.inr ⟨rfl, rfl⟩))
  | .lbrack :: rest => cases first; exact .inr (.inr (.inl rfl)); exact .inr (.inr (.inr ⟨rfl, rfl⟩))
  | .rbrack :: rest => cases first; exact .inr (.inr (.inr ⟨rfl, rfl⟩)); exact .inr (.inr (.inr ⟨rfl, rfl⟩))
  | .num x :: rest => cases first; exact .inr (.inr (.inl rfl)); exact .inr (.inr (.inr ⟨rfl, rfl⟩))
  | .bool x :: rest => cases first; exact .inr (.inr (.inl rfl)); exact .inr (.inr (.inr ⟨rfl, rfl⟩))
  | .null :: rest => cases first; exact .inr (.inr (.inl rfl)); exact .inr (.inr (.inr ⟨rfl, rfl⟩))
  | .str k :: rest => cases first; exact .inr (.inr (.inl rfl)); exact .inr (.inl ⟨k, rest, rfl, rfl⟩)
  | .comma :: rest =>
    cases first
    · match rest with
      | [] => exact .inr (.inr (.inl rfl))
      | .colon :: _ => exact .inr (.inr (.inl rfl))
      | .comma :: _ => exact .inr (.inr (.inl rfl))
      | .rbrace :: _ => exact .inr (.inr (.inl rfl))
      | .rbrack :: _ => exact .inr (.inr (.inl rfl))
      | .lbrace :: _ => exact .inr (.inr (.inr ⟨rfl, rfl⟩))
      | .lbrack :: _ => exact .inr (.inr (.inr ⟨rfl, rfl⟩))
      | .num _ :: _ => exact .inr (.inr (.inr ⟨rfl, rfl⟩))
      | .bool _ :: _ => exact .inr (.inr (.inr ⟨rfl, rfl⟩))
      | .null :: _ => exact .inr (.inr (.inr ⟨rfl, rfl⟩))
      | .str k :: r => exact .inr (.inl ⟨k, r, rfl, rfl⟩)
    · exact .inr (.inr (.inl rfl))

theorem key_string (first : Bool) (k : Str) (rest : List Tok) :
    (keyL first k rest).string = (k, { data := rest, started := true, first := first }) := rfl

/-- After a name: a colon and a value, or an error. -/
theorem colon_cases (first : Bool) (rest : List Tok) :
    (∃ t rest', rest = .colon :: t :: rest' ∧ t.starts = true ∧
      (Lexer.wantColon { data := rest, started := true, first := first }).isNull = (decide (t = .null), valueL t rest')) ∨
    ((Lexer.wantColon { data := rest, started := true, first := first }).isNull).2.failed = true := by
  match rest with
  | [] => exact .inr rfl
  | .rbrace :: _ => exact .inr rfl
  | .rbrack :: _ => exact .inr rfl
  | .lbrace :: _ => exact .inr rfl
  | .lbrack :: _ => exact .inr rfl
  | .comma :: _ => exact .inr rfl
  | .num _ :: _ => exact .inr rfl
  | .bool _ :: _ => exact .inr rfl
  | .null :: _ => exact .inr rfl
  | .str _ :: _ => exact .inr rfl
  | [.colon] => exact .inr rfl
  | .colon :: .colon :: _ => exact .inr rfl
  | .colon :: .comma :: _ => exact .inr rfl
  | .colon :: .rbrace :: _ => exact .inr rfl
  | .colon :: .rbrack :: _ => exact .inr rfl
  | .colon :: .lbrace :: r => exact .inl ⟨_, r, rfl, rfl, rfl⟩
  | .colon :: .lbrack :: r => exact .inl ⟨_, r, rfl, rfl, rfl⟩
  | .colon :: .num _ :: r => exact .inl ⟨_, r, rfl, rfl, by simp [Lexer.wantColon, Lexer.isNull, Lexer.peek, Lexer.fetch, Lexer.fetchFrom, valueL, Tok.opens]⟩
  | .colon :: .bool _ :: r => exact .inl ⟨_, r, rfl, rfl, by simp [Lexer.wantColon, Lexer.isNull, Lexer.peek, Lexer.fetch, Lexer.fetchFrom, valueL, Tok.opens]⟩
  | .colon :: .null :: r => exact .inl ⟨_, r, rfl, rfl, rfl⟩
  | .colon :: .str _ :: r => exact .inl ⟨_, r, rfl, rfl, by simp [Lexer.wantColon, Lexer.isNull, Lexer.peek, Lexer.fetch, Lexer.fetchFrom, valueL, Tok.opens]⟩

theorem skipScan_split {op cl : Tok} : ∀ (d : List Tok) (level : Nat) (acc sk rest : List Tok),
    skipScan op cl level acc d = some (sk, rest) → sk ++ rest = acc ++ d := by
  intro d
  induction d with
  | nil => intro level acc sk rest h; cases h
  | cons t d ih =>
    intro level acc sk rest h
    unfold skipScan at h
    split at h
    · have := ih _ _ _ _ h; simpa using this
    · split at h
      · split at h
        · cases h
        · cases h; simp
        · have := ih _ _ _ _ h; simpa using this
      · have := ih _ _ _ _ h; simpa using this

/-- Skipping a value: an error, or a value has been skipped. -/
theorem value_skip {valid : List Tok → Bool} (hv : OnlyJson valid) (t : Tok) (rest : List Tok) (ht : t.starts = true) :
    (∃ (v : Json) (rest' : List Tok), t :: rest = v.toks ++ rest' ∧ ((valueL t rest).skipRecursive valid).wantComma = headL false rest') ∨
    ((valueL t rest).skipRecursive valid).wantComma.failed = true := by
  cases t with
  | rbrace => cases ht
  | rbrack => cases ht
  | colon => cases ht
  | comma => cases ht
  | str s => exact .inl ⟨.str s, rest, by simp [Json.toks], rfl⟩
  | num s => exact .inl ⟨.num s, rest, by simp [Json.toks], rfl⟩
  | bool s => exact .inl ⟨.bool s, rest, by simp [Json.toks], rfl⟩
  | null => exact .inl ⟨.null, rest, by simp [Json.toks], rfl⟩
  | lbrace =>
    cases hs : skipScan .lbrace .rbrace 1 [.lbrace] rest with
    | none => right; simp [Lexer.skipRecursive, valueL, Lexer.peek, hs, Lexer.wantComma]
    | some x =>
      obtain ⟨sk, rest'⟩ := x
      by_cases hval : valid sk = true
      · left
        obtain ⟨v, hsk⟩ := hv sk hval
        refine ⟨v, rest', ?_, ?_⟩
        · have := skipScan_split _ _ _ _ _ hs
          rw [← hsk]; simpa using this.symm
        · simp [Lexer.skipRecursive, valueL, Lexer.peek, hs, hval, Lexer.wantComma, Lexer.consume, headL]
      · right; simp [Lexer.skipRecursive, valueL, Lexer.peek, hs, hval, Lexer.wantComma]
  | lbrack =>
    cases hs : skipScan .lbrack .rbrack 1 [.lbrack] rest with
    | none => right; simp [Lexer.skipRecursive, valueL, Lexer.peek, hs, Lexer.wantComma]
    | some x =>
      obtain ⟨sk, rest'⟩ := x
      by_cases hval : valid sk = true
      · left
        obtain ⟨v, hsk⟩ := hv sk hval
        refine ⟨v, rest', ?_, ?_⟩
        · have := skipScan_split _ _ _ _ _ hs
          rw [← hsk]; simpa using this.symm
        · simp [Lexer.skipRecursive, valueL, Lexer.peek, hs, hval, Lexer.wantComma, Lexer.consume, headL]
      · right; simp [Lexer.skipRecursive, valueL, Lexer.peek, hs, hval, Lexer.wantComma]

theorem value_string (t : Tok) (rest : List Tok) :
    (∃ s, t = .str s ∧ (valueL t rest).string.2.wantComma = headL false rest) ∨
    (valueL t rest).string.2.wantComma.failed = true := by
  cases t
  case str s => exact .inl ⟨s, rfl, rfl⟩
  all_goals exact .inr rfl

theorem value_int (t : Tok) (rest : List Tok) :
    (∃ n, t = .num n ∧ (valueL t rest).int.2.wantComma = headL false rest) ∨
    (valueL t rest).int.2.wantComma.failed = true := by
  cases t
  case num n => cases n; exact .inr rfl; exact .inl ⟨_, rfl, rfl⟩
  all_goals exact .inr rfl

/-! Errors stay. -/

theorem peek_failed {l : Lexer} (h : l.failed = true) : l.peek.failed = true := by simp [Lexer.peek, h]
theorem string_failed {l : Lexer} (h : l.failed = true) : l.string.2.failed = true := by simp [Lexer.string, peek_failed h, Lexer.fail]
theorem int_failed {l : Lexer} (h : l.failed = true) : l.int.2.failed = true := by simp [Lexer.int, peek_failed h, Lexer.fail]
theorem isNull_failed {l : Lexer} (h : l.failed = true) : l.isNull.2.failed = true := peek_failed h
theorem skip_failed {l : Lexer} (h : l.failed = true) : l.skip.failed = true := peek_failed h

theorem skipRecursive_failed {valid : List Tok → Bool} {l : Lexer} (h : l.failed = true) : (l.skipRecursive valid).failed = true := by
  have := peek_failed h
  unfold Lexer.skipRecursive
  dsimp only
  split
  · split
    · split
      · exact this
      · rfl
    · rfl
  · split
    · split
      · exact this
      · rfl
    · rfl
  · exact this

theorem consumed_failed {l : Lexer} (h : l.failed = true) : l.consumed.failed = true := by simp [Lexer.consumed, h]

theorem decodeDoc_failed {valid : List Tok → Bool} {l : Lexer} (out : Doc) (h : l.failed = true) : (decodeDoc valid l out).1.failed = true := by
  unfold decodeDoc
  dsimp only
  have h1 := isNull_failed h
  split
  · split
    · exact skip_failed (consumed_failed h1)
    · exact skip_failed h1
  · have h2 := delim_failed .rbrace (docLoop_failed valid ((l.isNull.2.delim .lbrace).data.length + 1) _ out (delim_failed .lbrace h1))
    split
    · exact consumed_failed h2
    · exact h2

theorem docLoop_json {valid : List Tok → Bool} (hv : OnlyJson valid) : ∀ (fuel : Nat) (first : Bool) (data : List Tok) (out : Doc),
    data.length < fuel → (docLoop valid fuel (headL first data) out).1.failed = true ∨
      ∃ fs rest first', data = Json.toksFields first fs ++ .rbrace :: rest ∧
        (docLoop valid fuel (headL first data) out).1 = { data := rest, started := true, first := first', tok := some .rbrace } := by
  intro fuel
  induction fuel with
  | zero => intro first data out h; exact absurd h (Nat.not_lt_zero _)
  | succ fuel ih =>
    intro first data out hlen
    rcases head_cases first data with ⟨rest, hd⟩ | ⟨k, rest, hd, hk⟩ | hf | ⟨hb, hf⟩
    · subst hd
      right
      refine ⟨[], rest, first, by simp [Json.toksFields], ?_⟩
      simp only [docLoop, head_done, if_true]
    · simp only [docLoop, hk, Bool.false_eq_true, if_false, key_string]
      -- the rest of the loop after a value
      have go : ∀ (v : Json) (rest' : List Tok) (l : Lexer) (out' : Doc), rest = .colon :: (v.toks ++ rest') → l = headL false rest' →
          (docLoop valid fuel l out').1.failed = true ∨
          ∃ fs rest first', data = Json.toksFields first fs ++ .rbrace :: rest ∧
            (docLoop valid fuel l out').1 = { data := rest, started := true, first := first', tok := some .rbrace } := by
        intro v rest' l out' hr hl
        subst hl
        have : rest'.length < fuel := by
          rw [hd, hr] at hlen
          simp only [List.length_append, List.length_cons] at hlen
          omega
        rcases ih false rest' out' this with h | ⟨fs, rest2, f', h1, h2⟩
        · exact .inl h
        · refine .inr ⟨(k, v) :: fs, rest2, f', ?_, h2⟩
          rw [hd, hr, h1]
          cases first <;> simp [Json.toksFields]
      rcases colon_cases first rest with ⟨t, rest', hr, hst, hn⟩ | hf
      · simp only [hn]
        by_cases htn : t = .null
        · subst htn
          simp only [decide_true, if_true]
          exact go .null rest' _ out (by simp [hr, Json.toks]) rfl
        · simp only [htn, decide_false, Bool.false_eq_true, if_false]
          split
          · rcases value_string t rest' with ⟨s, hs, hl⟩ | hf
            · subst hs; exact go (.str s) rest' _ _ (by simp [hr, Json.toks]) hl
            · exact .inl (docLoop_failed valid _ _ _ hf)
          · split
            · rcases value_string t rest' with ⟨s, hs, hl⟩ | hf
              · subst hs; exact go (.str s) rest' _ _ (by simp [hr, Json.toks]) hl
              · exact .inl (docLoop_failed valid _ _ _ hf)
            · rcases value_skip hv t rest' hst with ⟨v, r, h1, hl⟩ | hf
              · exact go v r _ _ (by rw [hr, h1]) hl
              · exact .inl (docLoop_failed valid _ _ _ hf)
      · left
        split
        · exact docLoop_failed valid _ _ _ (skip_failed hf)
        · split
          · exact docLoop_failed valid _ _ _ (string_failed hf)
          · split
            · exact docLoop_failed valid _ _ _ (string_failed hf)
            · exact docLoop_failed valid _ _ _ (skipRecursive_failed hf)
    · left
      have hb : ((headL first data).isDelim .rbrace).1 = true := by
        simp only [Lexer.isDelim] at hf ⊢; rw [hf]; rfl
      simp only [docLoop, hb, if_true]
      exact hf
    · left
      simp only [docLoop, hb, Bool.false_eq_true, if_false]
      have hf2 : (((headL first data).isDelim .rbrace).2.string.2.wantColon.isNull).2.failed = true := isNull_failed hf
      split
      · exact docLoop_failed valid _ _ _ (skip_failed hf2)
      · split
        · exact docLoop_failed valid _ _ _ (string_failed hf2)
        · split
          · exact docLoop_failed valid _ _ _ (string_failed hf2)
          · exact docLoop_failed valid _ _ _ (skipRecursive_failed hf2)

theorem decodeDoc_json {valid : List Tok → Bool} (hv : OnlyJson valid) (t : Tok) (rest : List Tok) (out : Doc) (ht : t ≠ .null) :
    (decodeDoc valid (valueL t rest) out).1.failed = true ∨
    ∃ fs rest', t :: rest = (Json.obj fs).toks ++ rest' ∧ (decodeDoc valid (valueL t rest) out).1.wantComma = headL false rest' := by
  by_cases hb : t = .lbrace
  · subst hb
    have e : decodeDoc valid (valueL .lbrace rest) out =
        ((docLoop valid (rest.length + 1) (headL true rest) out).1.delim .rbrace, (docLoop valid (rest.length + 1) (headL true rest) out).2) := rfl
    rw [e]
    rcases docLoop_json hv (rest.length + 1) true rest out (Nat.lt_succ_self _) with h | ⟨fs, rest', f', h1, h2⟩
    · exact .inl (delim_failed _ h)
    · refine .inr ⟨fs, rest', ?_, ?_⟩
      · rw [h1]; simp [Json.toks]
      · rw [h2]; rfl
  · left
    have hn : (valueL t rest).isNull = (false, valueL t rest) := by
      simp [Lexer.isNull, Lexer.peek, valueL, ht]
    unfold decodeDoc
    simp only [hn, Bool.false_eq_true, if_false]
    have h1 : ((valueL t rest).delim .lbrace).failed = true := by
      simp [Lexer.delim, Lexer.peek, valueL, hb, Lexer.fail]
    have h2 := delim_failed .rbrace (docLoop_failed valid (((valueL t rest).delim .lbrace).data.length + 1) _ out h1)
    split
    · exact consumed_failed h2
    · exact h2

theorem resultLoop_json {valid : List Tok → Bool} (hv : OnlyJson valid) : ∀ (fuel : Nat) (first : Bool) (data : List Tok) (out : JsonResult),
    data.length < fuel → (resultLoop valid fuel (headL first data) out).1.failed = true ∨
      ∃ fs rest first', data = Json.toksFields first fs ++ .rbrace :: rest ∧
        (resultLoop valid fuel (headL first data) out).1 = { data := rest, started := true, first := first', tok := some .rbrace } := by
  intro fuel
  induction fuel with
  | zero => intro first data out h; exact absurd h (Nat.not_lt_zero _)
  | succ fuel ih =>
    intro first data out hlen
    rcases head_cases first data with ⟨rest, hd⟩ | ⟨k, rest, hd, hk⟩ | hf | ⟨hb, hf⟩
    · subst hd
      right
      refine ⟨[], rest, first, by simp [Json.toksFields], ?_⟩
      simp only [resultLoop, head_done, if_true]
    · simp only [resultLoop, hk, Bool.false_eq_true, if_false, key_string]
      -- the rest of the loop after a value
      have go : ∀ (v : Json) (rest' : List Tok) (l : Lexer) (out' : JsonResult), rest = .colon :: (v.toks ++ rest') → l = headL false rest' →
          (resultLoop valid fuel l out').1.failed = true ∨
          ∃ fs rest first', data = Json.toksFields first fs ++ .rbrace :: rest ∧
            (resultLoop valid fuel l out').1 = { data := rest, started := true, first := first', tok := some .rbrace } := by
        intro v rest' l out' hr hl
        subst hl
        have : rest'.length < fuel := by
          rw [hd, hr] at hlen
          simp only [List.length_append, List.length_cons] at hlen
          omega
        rcases ih false rest' out' this with h | ⟨fs, rest2, f', h1, h2⟩
        · exact .inl h
        · refine .inr ⟨(k, v) :: fs, rest2, f', ?_, h2⟩
          rw [hd, hr, h1]
          cases first <;> simp [Json.toksFields]
      rcases colon_cases first rest with ⟨t, rest', hr, hst, hn⟩ | hf
      · simp only [hn]
        by_cases htn : t = .null
        · subst htn
          simp only [decide_true, if_true]
          exact go .null rest' _ out (by simp [hr, Json.toks]) rfl
        · simp only [htn, decide_false, Bool.false_eq_true, if_false]
          split
          · rcases decodeDoc_json hv t rest' out.document htn with hf | ⟨fs, r, h1, hl⟩
            · exact .inl (resultLoop_failed valid _ _ _ hf)
            · exact go (.obj fs) r _ _ (by rw [hr, h1]) hl
          · split
            · rcases value_int t rest' with ⟨s, hs, hl⟩ | hf
              · subst hs; exact go (.num s) rest' _ _ (by simp [hr, Json.toks]) hl
              · exact .inl (resultLoop_failed valid _ _ _ hf)
            · rcases value_skip hv t rest' hst with ⟨v, r, h1, hl⟩ | hf
              · exact go v r _ _ (by rw [hr, h1]) hl
              · exact .inl (resultLoop_failed valid _ _ _ hf)
      · left
        split
        · exact resultLoop_failed valid _ _ _ (skip_failed hf)
        · split
          · exact resultLoop_failed valid _ _ _ (decodeDoc_failed _ hf)
          · split
            · exact resultLoop_failed valid _ _ _ (int_failed hf)
            · exact resultLoop_failed valid _ _ _ (skipRecursive_failed hf)
    · left
      have hb : ((headL first data).isDelim .rbrace).1 = true := by
        simp only [Lexer.isDelim] at hf ⊢; rw [hf]; rfl
      simp only [resultLoop, hb, if_true]
      exact hf
    · left
      simp only [resultLoop, hb, Bool.false_eq_true, if_false]
      have hf2 : (((headL first data).isDelim .rbrace).2.string.2.wantColon.isNull).2.failed = true := isNull_failed hf
      split
      · exact resultLoop_failed valid _ _ _ (skip_failed hf2)
      · split
        · exact resultLoop_failed valid _ _ _ (decodeDoc_failed _ hf2)
        · split
          · exact resultLoop_failed valid _ _ _ (int_failed hf2)
          · exact resultLoop_failed valid _ _ _ (skipRecursive_failed hf2)

theorem unmarshal_json {valid : List Tok → Bool} (hv : OnlyJson valid) (data : List Tok) (out : JsonResult)
    (h : (unmarshal valid data out).1 = true) : data = Json.null.toks ∨ ∃ fs, data = (Json.obj fs).toks := by
  have hnf : (decodeResult valid { data := data } out).1.failed = false := by simpa [unmarshal] using h
  have bad : ∀ t rest, data = t :: rest → (Lexer.isNull { data := data }).1 = false →
      ((Lexer.isNull { data := data }).2.delim .lbrace).failed = true → False := by
    intro t rest hd h1 h2
    unfold decodeResult at hnf
    simp only [h1, Bool.false_eq_true, if_false, Lexer.isStart, Bool.not_false, if_true] at hnf
    have h3 := consumed_failed (delim_failed .rbrace (resultLoop_failed valid
      (((Lexer.isNull { data := data }).2.delim .lbrace).data.length + 1) _ out h2))
    rw [h3] at hnf
    cases hnf
  match data with
  | [] =>
    have : (decodeResult valid { data := [] } out).1.failed = true := rfl
    rw [this] at hnf; cases hnf
  | .null :: rest =>
    left
    cases rest with
    | nil => simp [Json.toks]
    | cons t r =>
      have : (decodeResult valid { data := .null :: t :: r } out).1.failed = true := rfl
      rw [this] at hnf; cases hnf
  | .lbrace :: rest =>
    right
    have e : (decodeResult valid { data := .lbrace :: rest } out).1 =
        ((resultLoop valid (rest.length + 1) (headL true rest) out).1.delim .rbrace).consumed := rfl
    rw [e] at hnf
    rcases resultLoop_json hv (rest.length + 1) true rest out (Nat.lt_succ_self _) with h | ⟨fs, rest', f', h1, h2⟩
    · rw [consumed_failed (delim_failed _ h)] at hnf; cases hnf
    · rw [h2] at hnf
      cases rest' with
      | nil => exact ⟨fs, by rw [h1]; simp [Json.toks]⟩
      | cons t r => cases hnf
  | .rbrace :: rest => exact absurd (bad _ _ rfl rfl rfl) id
  | .lbrack :: rest => exact absurd (bad _ _ rfl rfl rfl) id
  | .rbrack :: rest => exact absurd (bad _ _ rfl rfl rfl) id
  | .colon :: rest => exact absurd (bad _ _ rfl rfl rfl) id
  | .comma :: rest => exact absurd (bad _ _ rfl rfl rfl) id
  | .str _ :: rest => exact absurd (bad _ _ rfl rfl rfl) id
  | .num _ :: rest => exact absurd (bad _ _ rfl rfl rfl) id
  | .bool _ :: rest => exact absurd (bad _ _ rfl rfl rfl) id

end Visigoth
