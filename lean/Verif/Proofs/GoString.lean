import Verif.Spec.Text
/-! # Lemmas about Go strings -/
namespace Visigoth

theorem decodeRune_width {s : Str} (h : s ≠ []) :
    1 ≤ (decodeRune s).2 ∧ (decodeRune s).2 ≤ s.length := by
  unfold decodeRune
  split
  · exact absurd rfl h
  · repeat' split
    all_goals simp_all
    all_goals omega

theorem charsAux_flatten (n : Nat) : ∀ s : Str, s.length ≤ n → bytesOf (charsAux n s) = s := by
  induction n with
  | zero => intro s h; simp at h; subst h; rfl
  | succ n ih =>
    intro s h
    cases s with
    | nil => rfl
    | cons b s =>
      have hw := decodeRune_width (s := b :: s) (by simp)
      have := ih ((b :: s).drop (decodeRune (b :: s)).2) (by simp only [List.length_drop]; omega)
      simp only [charsAux, bytesOf, List.flatMap_cons] at *
      rw [this, List.take_append_drop]

/-- No byte of a string is lost by reading it as characters. -/
theorem chars_flatten (s : Str) : bytesOf (chars s) = s := charsAux_flatten _ s (Nat.le_refl _)

theorem charsAux_nonempty (n : Nat) : ∀ s : Str, ∀ c ∈ charsAux n s, c.2 ≠ [] := by
  induction n with
  | zero => intro s c h; simp [charsAux] at h
  | succ n ih =>
    intro s c h
    cases s with
    | nil => simp [charsAux] at h
    | cons b s =>
      have hw := decodeRune_width (s := b :: s) (by simp)
      simp only [charsAux, List.mem_cons] at h
      rcases h with h | h
      · subst h
        intro hc
        have := congrArg List.length hc
        simp only [List.length_take, List.length_nil] at this
        omega
      · exact ih _ c h

theorem chars_nonempty (s : Str) : ∀ c ∈ chars s, c.2 ≠ [] := charsAux_nonempty _ s

/-- Offsets of a character sequence starting at `off`. -/
def withOffsets : Nat → List GoChar → List (Nat × Rune)
  | _, [] => []
  | off, c :: cs => (off, c.1) :: withOffsets (off + c.2.length) cs

theorem rangeAux_eq (n : Nat) : ∀ (off : Nat) (s : Str),
    rangeAux n off s = withOffsets off (charsAux n s) := by
  induction n with
  | zero => intros; rfl
  | succ n ih =>
    intro off s
    cases s with
    | nil => rfl
    | cons b s =>
      have hw := decodeRune_width (s := b :: s) (by simp)
      simp only [rangeAux, charsAux, withOffsets, ih, List.length_take]
      rw [Nat.min_eq_left hw.2]

theorem rangeStr_eq (s : Str) : rangeStr s = withOffsets 0 (chars s) := rangeAux_eq _ _ _

theorem withOffsets_runes (off : Nat) (cs : List GoChar) :
    (withOffsets off cs).map (·.2) = cs.map (·.1) := by
  induction cs generalizing off with
  | nil => rfl
  | cons c cs ih => simp [withOffsets, ih]

theorem runesOf_eq (s : Str) : runesOf s = (chars s).map (·.1) := by
  rw [runesOf, rangeStr_eq, withOffsets_runes]

/-- `range` visits the whole string: the fuel in `rangeStr` cuts nothing off. -/
theorem rangeStr_covers (s : Str) : bytesOf (chars s) = s ∧ runesOf s = (chars s).map (·.1) :=
  ⟨chars_flatten s, runesOf_eq s⟩

/-! ## FieldsFunc -/

/-- Splitting a character sequence; the first argument is the open token. -/
def splitChars (f : Rune → Bool) : Option (List GoChar) → List GoChar → List (List GoChar)
  | none, [] => []
  | some cur, [] => [cur]
  | none, c :: cs => if f c.1 then splitChars f none cs else splitChars f (some [c]) cs
  | some cur, c :: cs =>
    if f c.1 then cur :: splitChars f none cs else splitChars f (some (cur ++ [c])) cs

theorem bytesOf_append (a b : List GoChar) : bytesOf (a ++ b) = bytesOf a ++ bytesOf b := by
  simp [bytesOf]

theorem bytesOf_cons (a : GoChar) (b : List GoChar) : bytesOf (a :: b) = a.2 ++ bytesOf b := rfl

theorem substr_mid (a b c : Str) : substr (a ++ (b ++ c)) a.length (a.length + b.length) = b := by
  simp [substr]

theorem fieldsSpans_eq (f : Rune → Bool) (cs : List GoChar) :
    (∀ pre cur : List GoChar,
      (fieldsSpans f (bytesOf (pre ++ cur ++ cs)).length (some (bytesOf pre).length)
        (withOffsets (bytesOf (pre ++ cur)).length cs)).map
          (fun sp => substr (bytesOf (pre ++ cur ++ cs)) sp.1 sp.2)
        = (splitChars f (some cur) cs).map bytesOf) ∧
    (∀ pre : List GoChar,
      (fieldsSpans f (bytesOf (pre ++ cs)).length none
        (withOffsets (bytesOf pre).length cs)).map
          (fun sp => substr (bytesOf (pre ++ cs)) sp.1 sp.2)
        = (splitChars f none cs).map bytesOf) := by
  induction cs with
  | nil =>
    constructor
    · intro pre cur
      simp only [withOffsets, fieldsSpans, splitChars, List.map_cons, List.map_nil, List.append_nil]
      rw [bytesOf_append]
      have := substr_mid (bytesOf pre) (bytesOf cur) []
      simp only [List.append_nil] at this
      rw [List.length_append, this]
    · intro pre; rfl
  | cons c cs ih =>
    constructor
    · intro pre cur
      simp only [withOffsets, fieldsSpans, splitChars]
      split
      · next h =>
        have h2 := ih.2 (pre ++ cur ++ [c])
        simp only [List.append_assoc, List.singleton_append] at h2 ⊢
        simp only [List.map_cons]
        congr 1
        · rw [bytesOf_append, bytesOf_append, bytesOf_append, List.length_append]
          exact substr_mid _ _ _
        · have hl : (bytesOf (pre ++ (cur ++ [c]))).length
              = (bytesOf (pre ++ cur)).length + c.2.length := by
            simp [bytesOf]; omega
          rw [hl] at h2
          exact h2
      · next h =>
        have h2 := ih.1 pre (cur ++ [c])
        have hl : (bytesOf (pre ++ (cur ++ [c]))).length
              = (bytesOf (pre ++ cur)).length + c.2.length := by
            simp [bytesOf]; omega
        rw [hl] at h2
        simpa using h2
    · intro pre
      simp only [withOffsets, fieldsSpans, splitChars]
      split
      · next h =>
        have h2 := ih.2 (pre ++ [c])
        have hl : (bytesOf (pre ++ [c])).length = (bytesOf pre).length + c.2.length := by
          simp [bytesOf]
        rw [hl] at h2
        simpa using h2
      · next h =>
        have h2 := ih.1 pre [c]
        have hl : (bytesOf (pre ++ [c])).length = (bytesOf pre).length + c.2.length := by
          simp [bytesOf]
        rw [hl] at h2
        simpa using h2

theorem fieldsFunc_eq (s : Str) (f : Rune → Bool) :
    fieldsFunc s f = (splitChars f none (chars s)).map bytesOf := by
  have h := (fieldsSpans_eq f (chars s)).2 []
  simp only [List.nil_append, chars_flatten] at h
  rw [fieldsFunc, rangeStr_eq]
  exact h

/-! ### The split is the tokenization -/

theorem splitChars_seps (f : Rune → Bool) (l rest : List GoChar) (h : ∀ c ∈ l, f c.1 = true) :
    splitChars f none (l ++ rest) = splitChars f none rest := by
  induction l with
  | nil => rfl
  | cons c l ih =>
    simp only [List.mem_cons, forall_eq_or_imp] at h
    simp [splitChars, h.1, ih h.2]

theorem splitChars_open (f : Rune → Bool) (t cur rest : List GoChar) (h : ∀ c ∈ t, f c.1 = false) :
    splitChars f (some cur) (t ++ rest) = splitChars f (some (cur ++ t)) rest := by
  induction t generalizing cur with
  | nil => simp
  | cons c t ih =>
    simp only [List.mem_cons, forall_eq_or_imp] at h
    simp [splitChars, h.1, ih _ h.2]

theorem splitChars_tok (f : Rune → Bool) (t rest : List GoChar) (hne : t ≠ [])
    (h : ∀ c ∈ t, f c.1 = false) :
    splitChars f none (t ++ rest) = splitChars f (some t) rest := by
  cases t with
  | nil => exact absurd rfl hne
  | cons c t =>
    simp only [List.mem_cons, forall_eq_or_imp] at h
    simp [splitChars, h.1, splitChars_open f t [c] rest h.2]

theorem splitChars_close (f : Rune → Bool) (cur l rest : List GoChar) (hne : l ≠ [])
    (h : ∀ c ∈ l, f c.1 = true) :
    splitChars f (some cur) (l ++ rest) = cur :: splitChars f none rest := by
  cases l with
  | nil => exact absurd rfl hne
  | cons c l =>
    simp only [List.mem_cons, forall_eq_or_imp] at h
    simp [splitChars, h.1, splitChars_seps f l rest h.2]

theorem splitChars_unique_aux (keep : Rune → Bool) : ∀ (toks seps : List (List GoChar)),
    seps.length = toks.length →
    (∀ t ∈ toks, t ≠ [] ∧ ∀ c ∈ t, keep c.1 = true) →
    (∀ s ∈ seps, ∀ c ∈ s, keep c.1 = false) →
    (∀ s ∈ seps.dropLast, s ≠ []) →
    splitChars (fun r => !keep r) none (List.zipWith (· ++ ·) toks seps).flatten = toks := by
  intro toks
  induction toks with
  | nil => intro seps hl; simp [splitChars]
  | cons t toks ih =>
    intro seps hl ht hs hd
    cases seps with
    | nil => simp at hl
    | cons sp seps =>
      simp only [List.mem_cons, forall_eq_or_imp] at ht hs
      simp only [List.zipWith_cons_cons, List.flatten_cons, List.append_assoc]
      rw [splitChars_tok _ t _ ht.1.1 (by intro c hc; simp [ht.1.2 c hc])]
      cases seps with
      | nil =>
        have : toks = [] := by simpa using hl.symm
        subst this
        simp only [List.zipWith_nil_right, List.flatten_nil, List.append_nil]
        by_cases hsp : sp = []
        · subst hsp; rfl
        · have := splitChars_close (fun r => !keep r) t sp [] hsp (by intro c hc; simp [hs.1 c hc])
          simpa [splitChars] using this
      | cons sp2 seps =>
        have hd1 : sp ≠ [] := hd sp (by simp)
        rw [splitChars_close _ t sp _ hd1 (by intro c hc; simp [hs.1 c hc])]
        rw [ih (sp2 :: seps) (by simpa using hl) ht.2 hs.2
          (fun s hs' => hd s (by simp at hs' ⊢; exact Or.inr hs'))]

theorem splitChars_unique (keep : Rune → Bool) (cs : List GoChar) (toks : List (List GoChar))
    (h : IsTokenization keep cs toks) : toks = splitChars (fun r => !keep r) none cs := by
  obtain ⟨lead, seps, hl, rfl, hlead, ht, hs, hd⟩ := h
  rw [splitChars_seps _ _ _ (by intro c hc; simp [hlead c hc])]
  exact (splitChars_unique_aux keep toks seps hl ht hs hd).symm

theorem splitChars_exists_aux (keep : Rune → Bool) (cs : List GoChar) :
    IsTokenization keep cs (splitChars (fun r => !keep r) none cs) ∧
    (∀ cur : List GoChar, cur ≠ [] → (∀ c ∈ cur, keep c.1 = true) →
      ∃ toks seps rest, splitChars (fun r => !keep r) (some cur) cs = (cur ++ rest) :: toks ∧
        (∀ c ∈ rest, keep c.1 = true) ∧
        seps.length = toks.length + 1 ∧
        cs = rest ++ (List.zipWith (· ++ ·) ([] :: toks) seps).flatten ∧
        (∀ t ∈ toks, t ≠ [] ∧ ∀ c ∈ t, keep c.1 = true) ∧
        (∀ s ∈ seps, ∀ c ∈ s, keep c.1 = false) ∧
        (∀ s ∈ seps.dropLast, s ≠ [])) := by
  induction cs with
  | nil =>
    refine ⟨⟨[], [], by simp [splitChars]⟩, ?_⟩
    intro cur hne hk
    exact ⟨[], [[]], [], by simp [splitChars]⟩
  | cons c cs ih =>
    constructor
    · simp only [splitChars]
      by_cases hc : keep c.1 = true
      · simp only [hc, Bool.not_true, Bool.false_eq_true, if_false]
        obtain ⟨toks, seps, rest, h1, h2, h3, h4, h5, h6, h7⟩ :=
          ih.2 [c] (by simp) (by simpa using hc)
        rw [h1]
        cases seps with
        | nil => simp at h3
        | cons sp seps =>
          refine ⟨[], sp :: seps, by simpa using h3, ?_, by simp, ?_, h6, h7⟩
          · simp only [List.zipWith_cons_cons, List.nil_append, List.flatten_cons] at h4 ⊢
            rw [h4]; simp
          · simp only [List.mem_cons, forall_eq_or_imp]
            refine ⟨⟨by simp, ?_⟩, h5⟩
            intro x hx
            simp only [List.singleton_append, List.mem_cons] at hx
            rcases hx with rfl | hx
            · exact hc
            · exact h2 x hx
      · simp only [Bool.not_eq_true] at hc
        simp only [hc, Bool.not_false, if_true]
        obtain ⟨lead, seps, h1, h2, h3, h4, h5, h6⟩ := ih.1
        refine ⟨c :: lead, seps, h1, ?_, ?_, h4, h5, h6⟩
        · rw [List.cons_append, ← h2]
        · simpa using ⟨hc, fun a b => h3 (a, b)⟩
    · intro cur hne hk
      simp only [splitChars]
      by_cases hc : keep c.1 = true
      · simp only [hc, Bool.not_true, Bool.false_eq_true, if_false]
        obtain ⟨toks, seps, rest, h1, h2, h3, h4, h5⟩ :=
          ih.2 (cur ++ [c]) (by simp) (by
            intro x hx
            simp only [List.mem_append, List.mem_singleton] at hx
            rcases hx with hx | rfl
            · exact hk x hx
            · exact hc)
        refine ⟨toks, seps, c :: rest, by rw [h1]; simp, ?_, h3, ?_, h5⟩
        · intro x hx
          simp only [List.mem_cons] at hx
          rcases hx with rfl | hx
          · exact hc
          · exact h2 x hx
        · rw [List.cons_append, ← h4]
      · simp only [Bool.not_eq_true] at hc
        simp only [hc, Bool.not_false, if_true]
        obtain ⟨lead, seps, h1, h2, h3, h4, h5, h6⟩ := ih.1
        refine ⟨_, (c :: lead) :: seps, [], by simp, by simp, by simpa using h1, ?_, h4, ?_, ?_⟩
        · simp only [List.nil_append, List.zipWith_cons_cons, List.flatten_cons, List.cons_append]
          rw [← h2]
        · simp only [List.mem_cons, forall_eq_or_imp]
          exact ⟨⟨hc, h3⟩, h5⟩
        · intro s hs
          cases seps with
          | nil => simp at hs
          | cons s2 seps =>
            rw [List.dropLast_cons_of_ne_nil (by simp)] at hs
            simp only [List.mem_cons] at hs
            rcases hs with rfl | hs
            · simp
            · exact h6 s hs

theorem splitChars_isTokenization (keep : Rune → Bool) (cs : List GoChar) :
    IsTokenization keep cs (splitChars (fun r => !keep r) none cs) :=
  (splitChars_exists_aux keep cs).1

theorem splitChars_flatten (keep : Rune → Bool) (cs : List GoChar) :
    (∀ cur, (splitChars (fun r => !keep r) (some cur) cs).flatten
        = cur ++ cs.filter (fun c => keep c.1)) ∧
    (splitChars (fun r => !keep r) none cs).flatten = cs.filter (fun c => keep c.1) := by
  induction cs with
  | nil => simp [splitChars]
  | cons c cs ih =>
    cases hc : keep c.1
    · simp [splitChars, hc, ih]
    · simp [splitChars, hc, ih]

/-! ## Encoding -/

theorem decodeRune_1 (b0 : UInt8) (rest : Str) (h0 : b0.toNat < 0x80) :
    decodeRune (b0 :: rest) = (b0.toNat, 1) := by
  have : b0 < 0x80 := by rw [UInt8.lt_iff_toNat_lt]; exact h0
  simp [decodeRune, this]

theorem decodeRune_2 (b0 b1 : UInt8) (rest : Str) (h0 : 0xC2 ≤ b0.toNat) (h0' : b0.toNat < 0xE0)
    (h1 : 0x80 ≤ b1.toNat) (h1' : b1.toNat ≤ 0xBF) :
    decodeRune (b0 :: b1 :: rest) = ((b0.toNat % 32) * 64 + b1.toNat % 64, 2) := by
  have a1 : ¬ b0 < 0x80 := by rw [UInt8.lt_iff_toNat_lt]; show ¬ b0.toNat < 128; omega
  have a2 : ¬ b0 < 0xC2 := by rw [UInt8.lt_iff_toNat_lt]; show ¬ b0.toNat < 0xC2; omega
  have a3 : ¬ 0xF4 < b0 := by rw [UInt8.lt_iff_toNat_lt]; show ¬ 0xF4 < b0.toNat; omega
  have a4 : b0 < 0xE0 := by rw [UInt8.lt_iff_toNat_lt]; exact h0'
  have lo : acceptLo b0 ≤ b1 := by
    have n1 : b0 ≠ 0xE0 := by rintro rfl; simp at h0'
    have n2 : b0 ≠ 0xF0 := by rintro rfl; simp at h0'
    simp only [acceptLo, n1, n2, if_false, UInt8.le_iff_toNat_le]; exact h1
  have hi : b1 ≤ acceptHi b0 := by
    have n1 : b0 ≠ 0xED := by rintro rfl; simp at h0'
    have n2 : b0 ≠ 0xF4 := by rintro rfl; simp at h0'
    simp only [acceptHi, n1, n2, if_false, UInt8.le_iff_toNat_le]; exact h1'
  simp [decodeRune, a1, a2, a3, a4, lo, hi]

theorem isCont_of (b : UInt8) (h1 : 0x80 ≤ b.toNat) (h1' : b.toNat ≤ 0xBF) : isCont b = true := by
  have l : (0x80 : UInt8) ≤ b := by rw [UInt8.le_iff_toNat_le]; exact h1
  have h : b ≤ 0xBF := by rw [UInt8.le_iff_toNat_le]; exact h1'
  simp [isCont, l, h]

theorem decodeRune_3 (b0 b1 b2 : UInt8) (rest : Str) (h0 : 0xE0 ≤ b0.toNat) (h0' : b0.toNat < 0xF0)
    (h1 : 0x80 ≤ b1.toNat) (h1' : b1.toNat ≤ 0xBF)
    (hE0 : b0.toNat = 0xE0 → 0xA0 ≤ b1.toNat) (hED : b0.toNat = 0xED → b1.toNat ≤ 0x9F)
    (h2 : 0x80 ≤ b2.toNat) (h2' : b2.toNat ≤ 0xBF) :
    decodeRune (b0 :: b1 :: b2 :: rest)
      = ((b0.toNat % 16) * 4096 + (b1.toNat % 64) * 64 + b2.toNat % 64, 3) := by
  have a1 : ¬ b0 < 0x80 := by rw [UInt8.lt_iff_toNat_lt]; show ¬ b0.toNat < 128; omega
  have a2 : ¬ b0 < 0xC2 := by rw [UInt8.lt_iff_toNat_lt]; show ¬ b0.toNat < 0xC2; omega
  have a3 : ¬ 0xF4 < b0 := by rw [UInt8.lt_iff_toNat_lt]; show ¬ 0xF4 < b0.toNat; omega
  have a4 : ¬ b0 < 0xE0 := by rw [UInt8.lt_iff_toNat_lt]; show ¬ b0.toNat < 0xE0; omega
  have a5 : b0 < 0xF0 := by rw [UInt8.lt_iff_toNat_lt]; exact h0'
  have lo : acceptLo b0 ≤ b1 := by
    have n2 : b0 ≠ 0xF0 := by rintro rfl; simp at h0'
    by_cases n1 : b0 = 0xE0
    · subst n1; simp only [acceptLo, if_true, UInt8.le_iff_toNat_le]; exact hE0 rfl
    · simp only [acceptLo, n1, n2, if_false, UInt8.le_iff_toNat_le]; exact h1
  have hi : b1 ≤ acceptHi b0 := by
    have n2 : b0 ≠ 0xF4 := by rintro rfl; simp at h0'
    by_cases n1 : b0 = 0xED
    · subst n1; simp only [acceptHi, if_true, UInt8.le_iff_toNat_le]; exact hED rfl
    · simp only [acceptHi, n1, n2, if_false, UInt8.le_iff_toNat_le]; exact h1'
  simp [decodeRune, a1, a2, a3, a4, a5, lo, hi, isCont_of b2 h2 h2']

theorem decodeRune_4 (b0 b1 b2 b3 : UInt8) (rest : Str) (h0 : 0xF0 ≤ b0.toNat)
    (h0' : b0.toNat ≤ 0xF4) (h1 : 0x80 ≤ b1.toNat) (h1' : b1.toNat ≤ 0xBF)
    (hF0 : b0.toNat = 0xF0 → 0x90 ≤ b1.toNat) (hF4 : b0.toNat = 0xF4 → b1.toNat ≤ 0x8F)
    (h2 : 0x80 ≤ b2.toNat) (h2' : b2.toNat ≤ 0xBF) (h3 : 0x80 ≤ b3.toNat) (h3' : b3.toNat ≤ 0xBF) :
    decodeRune (b0 :: b1 :: b2 :: b3 :: rest)
      = ((b0.toNat % 8) * 262144 + (b1.toNat % 64) * 4096 + (b2.toNat % 64) * 64 + b3.toNat % 64, 4) := by
  have a1 : ¬ b0 < 0x80 := by rw [UInt8.lt_iff_toNat_lt]; show ¬ b0.toNat < 128; omega
  have a2 : ¬ b0 < 0xC2 := by rw [UInt8.lt_iff_toNat_lt]; show ¬ b0.toNat < 0xC2; omega
  have a3 : ¬ 0xF4 < b0 := by rw [UInt8.lt_iff_toNat_lt]; show ¬ 0xF4 < b0.toNat; omega
  have a4 : ¬ b0 < 0xE0 := by rw [UInt8.lt_iff_toNat_lt]; show ¬ b0.toNat < 0xE0; omega
  have a5 : ¬ b0 < 0xF0 := by rw [UInt8.lt_iff_toNat_lt]; show ¬ b0.toNat < 0xF0; omega
  have lo : acceptLo b0 ≤ b1 := by
    have n2 : b0 ≠ 0xE0 := by rintro rfl; simp at h0
    by_cases n1 : b0 = 0xF0
    · subst n1; simp only [acceptLo, UInt8.le_iff_toNat_le]; exact hF0 rfl
    · simp only [acceptLo, n1, n2, if_false, UInt8.le_iff_toNat_le]; exact h1
  have hi : b1 ≤ acceptHi b0 := by
    have n2 : b0 ≠ 0xED := by rintro rfl; simp at h0
    by_cases n1 : b0 = 0xF4
    · subst n1; simp only [acceptHi, UInt8.le_iff_toNat_le]; exact hF4 rfl
    · simp only [acceptHi, n1, n2, if_false, UInt8.le_iff_toNat_le]; exact h1'
  simp [decodeRune, a1, a2, a3, a4, a5, lo, hi, isCont_of b2 h2 h2', isCont_of b3 h3 h3']

theorem ofNat_toNat_lt (n : Nat) (h : n < 256) : (UInt8.ofNat n).toNat = n := by
  simp; omega

/-- Decoding an encoded scalar value gives it back. -/
theorem decodeRune_encodeRune (r : Nat) (hr : IsScalar r) (rest : Str) :
    decodeRune (encodeRune r ++ rest) = (r, (encodeRune r).length) := by
  unfold IsScalar at hr
  unfold encodeRune
  split
  · next h =>
    have e0 := ofNat_toNat_lt r (by omega)
    simp only [List.cons_append, List.nil_append]
    rw [decodeRune_1 _ _ (by omega), e0]
    rfl
  · split
    · have e0 := ofNat_toNat_lt (0xC0 + r / 64) (by omega)
      have e1 := ofNat_toNat_lt (0x80 + r % 64) (by omega)
      simp only [List.cons_append, List.nil_append]
      rw [decodeRune_2 _ _ _ (by omega) (by omega) (by omega) (by omega), e0, e1]
      simp only [List.length_cons, List.length_nil, Prod.mk.injEq, and_true]
      omega
    · split
      · next h3 => simp at h3; omega
      · split
        · have e0 := ofNat_toNat_lt (0xE0 + r / 4096) (by omega)
          have e1 := ofNat_toNat_lt (0x80 + r / 64 % 64) (by omega)
          have e2 := ofNat_toNat_lt (0x80 + r % 64) (by omega)
          simp only [List.cons_append, List.nil_append]
          rw [decodeRune_3 _ _ _ _ (by omega) (by omega) (by omega) (by omega) (by omega) (by omega)
            (by omega) (by omega), e0, e1, e2]
          simp only [List.length_cons, List.length_nil, Prod.mk.injEq, and_true]
          omega
        · have e0 := ofNat_toNat_lt (0xF0 + r / 262144) (by omega)
          have e1 := ofNat_toNat_lt (0x80 + r / 4096 % 64) (by omega)
          have e2 := ofNat_toNat_lt (0x80 + r / 64 % 64) (by omega)
          have e3 := ofNat_toNat_lt (0x80 + r % 64) (by omega)
          simp only [List.cons_append, List.nil_append]
          rw [decodeRune_4 _ _ _ _ _ (by omega) (by omega) (by omega) (by omega) (by omega)
            (by omega) (by omega) (by omega) (by omega) (by omega), e0, e1, e2, e3]
          simp only [List.length_cons, List.length_nil, Prod.mk.injEq, and_true]
          omega

theorem encodeRune_ne_nil (r : Rune) : encodeRune r ≠ [] := by
  unfold encodeRune; repeat' split
  all_goals simp

/-- The characters of a well-formed UTF-8 text are its runes. -/
theorem charsAux_encode (rs : List Rune) (h : ∀ r ∈ rs, IsScalar r) :
    ∀ n, (rs.flatMap encodeRune).length ≤ n →
      charsAux n (rs.flatMap encodeRune) = rs.map fun r => (r, encodeRune r) := by
  induction rs with
  | nil => intro n _; cases n <;> rfl
  | cons r rs ih =>
    intro n hn
    simp only [List.mem_cons, forall_eq_or_imp] at h
    simp only [List.flatMap_cons, List.map_cons] at hn ⊢
    have hd := decodeRune_encodeRune r h.1 (rs.flatMap encodeRune)
    have hne := encodeRune_ne_nil r
    have hlen : 1 ≤ (encodeRune r).length := by
      cases he : encodeRune r with
      | nil => exact absurd he hne
      | cons _ _ => simp
    cases n with
    | zero => simp only [List.length_append] at hn; omega
    | succ n =>
      cases hs : encodeRune r ++ rs.flatMap encodeRune with
      | nil => simp at hs; exact absurd hs.1 hne
      | cons b t =>
        simp only [charsAux]
        rw [← hs, hd]
        simp only [List.take_left, List.drop_left]
        rw [ih h.2 n (by simp only [List.length_append] at hn; omega)]

theorem chars_encode (rs : List Rune) (h : ∀ r ∈ rs, IsScalar r) :
    chars (rs.flatMap encodeRune) = rs.map fun r => (r, encodeRune r) :=
  charsAux_encode rs h _ (Nat.le_refl _)

end Visigoth
