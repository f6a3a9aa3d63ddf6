import Verif.Proofs.JsonExact
/-!
# What decoding leaves alone, also when it fails
-/
namespace Visigoth

/-- The tokens a lexer has in view come from `S`. -/
def Lexer.within (S : List Tok) (l : Lexer) : Prop := (∀ t ∈ l.data, t ∈ S) ∧ ∀ t, l.tok = some t → t ∈ S

variable {S : List Tok} {valid : List Tok → Bool}

theorem within_fetchFrom : ∀ (ts : List Tok) (l : Lexer), (∀ t ∈ ts, t ∈ S) → l.within S → (l.fetchFrom ts).within S := by
  intro ts
  induction ts with
  | nil => intro l _ hl; exact ⟨(fun _ h => nomatch h), hl.2⟩
  | cons t ts ih =>
    intro l hts hl
    have hr : ∀ u ∈ ts, u ∈ S := fun u hu => hts u (List.mem_cons_of_mem _ hu)
    have ht : t ∈ S := hts t (List.mem_cons_self ..)
    have key : ∀ u, some t = some u → u ∈ S := fun u h => by cases h; exact ht
    cases t
    case colon => simp only [Lexer.fetchFrom]; split; exact ih _ hr ⟨hl.1, hl.2⟩; exact hl
    case comma => simp only [Lexer.fetchFrom]; split; exact ih _ hr ⟨hl.1, hl.2⟩; exact hl
    all_goals exact ⟨hr, key⟩

theorem within_peek {l : Lexer} (h : l.within S) : l.peek.within S := by
  unfold Lexer.peek
  split
  · exact within_fetchFrom _ _ h.1 h
  · exact h

theorem within_consume {l : Lexer} (h : l.within S) : l.consume.within S := ⟨h.1, fun _ h => nomatch h⟩

theorem within_fail {l : Lexer} (h : l.within S) : l.fail.within S := h

theorem within_wantComma {l : Lexer} (h : l.within S) : l.wantComma.within S := h

theorem within_delim {l : Lexer} (c : Tok) (h : l.within S) : (l.delim c).within S := by
  unfold Lexer.delim
  split
  · exact within_fail (within_consume (within_peek h))
  · exact within_consume (within_peek h)

theorem within_string {l : Lexer} (h : l.within S) : l.string.2.within S := by
  unfold Lexer.string
  split
  · exact within_peek h
  · split
    · exact within_consume (within_peek h)
    · exact within_peek h

theorem within_int {l : Lexer} (h : l.within S) : l.int.2.within S := by
  unfold Lexer.int
  split
  · exact within_peek h
  · split
    · exact within_consume (within_peek h)
    · exact within_fail (within_consume (within_peek h))
    · exact within_peek h

theorem within_skipRecursive {l : Lexer} (h : l.within S) : (l.skipRecursive valid).within S := by
  have hp := within_peek h
  have go : ∀ op cl : Tok, Lexer.within S (match skipScan op cl 1 [op] l.peek.data with
      | some (skipped, rest) =>
        if valid skipped then { l.peek.consume with data := rest } else { l.peek.consume with data := [], failed := true }
      | none => { l.peek.consume with data := [], failed := true }) := by
    intro op cl
    split
    · next sk rest hs =>
      split
      · refine ⟨fun t ht => hp.1 t ?_, fun _ h => nomatch h⟩
        have := skipScan_split _ _ _ _ _ hs
        have hne : sk ≠ [] := by
          intro he; subst he
          have : ∀ (d : List Tok) (lv : Nat) (acc rest : List Tok), skipScan op cl lv acc d ≠ some ([], rest) := by
            intro d
            induction d with
            | nil => intro lv acc rest h; cases h
            | cons t d ih =>
              intro lv acc rest h
              unfold skipScan at h
              split at h
              · exact ih _ _ _ h
              · split at h
                · split at h
                  · cases h
                  · simp at h
                  · exact ih _ _ _ h
                · exact ih _ _ _ h
          exact this _ _ _ _ hs
        obtain ⟨x, xs, rfl⟩ := List.exists_cons_of_ne_nil hne
        simp only [List.cons_append, List.nil_append, List.cons.injEq] at this
        rw [← this.2]
        exact List.mem_append_right _ ht
      · exact ⟨(fun _ h => nomatch h), fun _ h => nomatch h⟩
    · exact ⟨(fun _ h => nomatch h), fun _ h => nomatch h⟩
  unfold Lexer.skipRecursive
  dsimp only
  split
  · exact go .lbrace .rbrace
  · exact go .lbrack .rbrack
  · exact within_consume hp

theorem string_mem {l : Lexer} (h : l.within S) : l.string.1 = [] ∨ .str l.string.1 ∈ S := by
  unfold Lexer.string
  split
  · exact .inl rfl
  · split
    · next s hs => exact .inr ((within_peek h).2 _ hs)
    · exact .inl rfl

/-- What is left of a document: what it was before, unless its field is mentioned. -/
def DocKept (S : List Tok) (d d' : Doc) : Prop :=
  (.str "id".toUTF8.toList ∉ S → d'.name = d.name) ∧ (.str "raw".toUTF8.toList ∉ S → d'.content = d.content)

def DocGood (S : List Tok) (d : Doc) (x : Lexer × Doc) : Prop := x.1.within S ∧ DocKept S d x.2

theorem id_ne : ("id".toUTF8.toList : Str) ≠ [] := by decide +kernel
theorem raw_ne : ("raw".toUTF8.toList : Str) ≠ [] := by decide +kernel
theorem doc_ne : ("doc".toUTF8.toList : Str) ≠ [] := by decide +kernel
theorem hits_ne : ("hits".toUTF8.toList : Str) ≠ [] := by decide +kernel

theorem docLoop_keeps : ∀ (fuel : Nat) (l : Lexer) (out : Doc), l.within S →
    DocGood S out (docLoop valid fuel l out) := by
  intro fuel
  induction fuel with
  | zero => intro l out h; exact ⟨h, fun _ => rfl, fun _ => rfl⟩
  | succ fuel ih =>
    intro l out h
    have h1 : (l.isDelim .rbrace).2.within S := within_peek h
    simp only [docLoop]
    by_cases c1 : (l.isDelim .rbrace).1 = true
    · rw [if_pos c1]; exact ⟨h1, fun _ => rfl, fun _ => rfl⟩
    · rw [if_neg c1]
      have hkey := string_mem h1
      have h2 : ((l.isDelim .rbrace).2.string.2.wantColon.isNull).2.within S := within_peek (within_string h1)
      by_cases c2 : ((l.isDelim .rbrace).2.string.2.wantColon.isNull).1 = true
      · rw [if_pos c2]; exact ih _ _ (within_wantComma (within_consume (within_peek h2)))
      · rw [if_neg c2]
        by_cases hk : (l.isDelim .rbrace).2.string.1 = "id".toUTF8.toList
        · rw [if_pos hk]
          obtain ⟨g1, g2, g3⟩ := ih (Lexer.wantComma (Lexer.string ((l.isDelim .rbrace).2.string.2.wantColon.isNull).2).2)
            { out with name := (Lexer.string ((l.isDelim .rbrace).2.string.2.wantColon.isNull).2).1 } (within_string h2)
          refine ⟨g1, fun hn => ?_, g3⟩
          rcases hkey with hk' | hk'
          · exact absurd (hk.symm.trans hk') id_ne
          · rw [hk] at hk'; exact absurd hk' hn
        · rw [if_neg hk]
          by_cases hk : (l.isDelim .rbrace).2.string.1 = "raw".toUTF8.toList
          · rw [if_pos hk]
            obtain ⟨g1, g2, g3⟩ := ih (Lexer.wantComma (Lexer.string ((l.isDelim .rbrace).2.string.2.wantColon.isNull).2).2)
              { out with content := (Lexer.string ((l.isDelim .rbrace).2.string.2.wantColon.isNull).2).1 } (within_string h2)
            refine ⟨g1, g2, fun hn => ?_⟩
            rcases hkey with hk' | hk'
            · exact absurd (hk.symm.trans hk') raw_ne
            · rw [hk] at hk'; exact absurd hk' hn
          · rw [if_neg hk]; exact ih _ _ (within_skipRecursive h2)

theorem within_consumed {l : Lexer} (h : l.within S) : l.consumed.within S := by
  unfold Lexer.consumed
  split
  · exact h
  · split
    · exact h
    · exact h

theorem decodeDoc_keeps (l : Lexer) (out : Doc) (h : l.within S) :
    DocGood S out (decodeDoc valid l out) := by
  have h1 : l.isNull.2.within S := within_peek h
  unfold decodeDoc
  dsimp only
  split
  · refine ⟨?_, fun _ => rfl, fun _ => rfl⟩
    split
    · exact within_consume (within_peek (within_consumed h1))
    · exact within_consume (within_peek h1)
  · have h2 := docLoop_keeps (valid := valid) ((l.isNull.2.delim .lbrace).data.length + 1) _ out (within_delim .lbrace h1)
    refine ⟨?_, h2.2⟩
    split
    · exact within_consumed (within_delim _ h2.1)
    · exact within_delim _ h2.1

/-- The same for a search result. -/
def ResultKept (S : List Tok) (r r' : JsonResult) : Prop :=
  (.str "hits".toUTF8.toList ∉ S → r'.hits = r.hits) ∧ (.str "doc".toUTF8.toList ∉ S → r'.document = r.document) ∧
    DocKept S r.document r'.document

def ResultGood (S : List Tok) (r : JsonResult) (x : Lexer × JsonResult) : Prop := x.1.within S ∧ ResultKept S r x.2

theorem resultLoop_keeps : ∀ (fuel : Nat) (l : Lexer) (out : JsonResult), l.within S →
    ResultGood S out (resultLoop valid fuel l out) := by
  intro fuel
  induction fuel with
  | zero => intro l out h; exact ⟨h, fun _ => rfl, fun _ => rfl, fun _ => rfl, fun _ => rfl⟩
  | succ fuel ih =>
    intro l out h
    have h1 : (l.isDelim .rbrace).2.within S := within_peek h
    simp only [resultLoop]
    by_cases c1 : (l.isDelim .rbrace).1 = true
    · rw [if_pos c1]; exact ⟨h1, fun _ => rfl, fun _ => rfl, fun _ => rfl, fun _ => rfl⟩
    · rw [if_neg c1]
      have hkey := string_mem h1
      have h2 : ((l.isDelim .rbrace).2.string.2.wantColon.isNull).2.within S := within_peek (within_string h1)
      by_cases c2 : ((l.isDelim .rbrace).2.string.2.wantColon.isNull).1 = true
      · rw [if_pos c2]; exact ih _ _ (within_wantComma (within_consume (within_peek h2)))
      · rw [if_neg c2]
        by_cases hk : (l.isDelim .rbrace).2.string.1 = "doc".toUTF8.toList
        · rw [if_pos hk]
          obtain ⟨e1, e2, e3⟩ := decodeDoc_keeps (valid := valid) _ out.document h2
          obtain ⟨g1, g2, g3, g4, g5⟩ := ih (Lexer.wantComma (decodeDoc valid ((l.isDelim .rbrace).2.string.2.wantColon.isNull).2 out.document).1)
            { out with document := (decodeDoc valid ((l.isDelim .rbrace).2.string.2.wantColon.isNull).2 out.document).2 } e1
          refine ⟨g1, g2, fun hn => ?_, fun hn => (g4 hn).trans (e2 hn), fun hn => (g5 hn).trans (e3 hn)⟩
          rcases hkey with hk' | hk'
          · exact absurd (hk.symm.trans hk') doc_ne
          · rw [hk] at hk'; exact absurd hk' hn
        · rw [if_neg hk]
          by_cases hk : (l.isDelim .rbrace).2.string.1 = "hits".toUTF8.toList
          · rw [if_pos hk]
            obtain ⟨g1, g2, g3⟩ := ih (Lexer.wantComma (Lexer.int ((l.isDelim .rbrace).2.string.2.wantColon.isNull).2).2)
              { out with hits := (Lexer.int ((l.isDelim .rbrace).2.string.2.wantColon.isNull).2).1 } (within_int h2)
            refine ⟨g1, fun hn => ?_, g3⟩
            rcases hkey with hk' | hk'
            · exact absurd (hk.symm.trans hk') hits_ne
            · rw [hk] at hk'; exact absurd hk' hn
          · rw [if_neg hk]; exact ih _ _ (within_skipRecursive h2)

theorem unmarshal_keeps (data : List Tok) (out : JsonResult) : ResultKept data out (unmarshal valid data out).2 := by
  have h0 : Lexer.within data { data := data } := ⟨fun _ h => h, fun _ h => nomatch h⟩
  have h1 : (Lexer.isNull { data := data }).2.within data := within_peek h0
  unfold unmarshal decodeResult
  dsimp only
  split
  · exact ⟨fun _ => rfl, fun _ => rfl, fun _ => rfl, fun _ => rfl⟩
  · exact (resultLoop_keeps (valid := valid) _ _ out (within_delim .lbrace h1)).2

/-- Data that does not begin with an object leaves everything alone. -/
theorem unmarshal_other_keeps (data : List Tok) (out : JsonResult) (h : data.head? ≠ some .lbrace) : (unmarshal valid data out).2 = out := by
  have bad : (Lexer.isNull { data := data }).1 = true ∨ ((Lexer.isNull { data := data }).2.delim .lbrace).failed = true := by
    match data, h with
    | [], _ => exact .inr rfl
    | .null :: _, _ => exact .inl rfl
    | .lbrace :: _, h => exact absurd rfl h
    | .rbrace :: _, _ => exact .inr rfl
    | .lbrack :: _, _ => exact .inr rfl
    | .rbrack :: _, _ => exact .inr rfl
    | .colon :: _, _ => exact .inr rfl
    | .comma :: _, _ => exact .inr rfl
    | .str _ :: _, _ => exact .inr rfl
    | .num _ :: _, _ => exact .inr rfl
    | .bool _ :: _, _ => exact .inr rfl
  unfold unmarshal decodeResult
  dsimp only
  split
  · rfl
  · next hn =>
    rcases bad with hb | hb
    · exact absurd hb hn
    · dsimp only
      simp [resultLoop, Lexer.isDelim, peek_failed hb]

end Visigoth
