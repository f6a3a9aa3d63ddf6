import Verif.Proofs.Chars
import Verif.Model.Analyze
/-! # `strings.ToLower`, UTF-8 validity, ASCII case folding -/
namespace Visigoth

/-! ## Decoding against encoding -/

theorem ofNat_eq_of (b : UInt8) (n : Nat) (h : n = b.toNat) : UInt8.ofNat n = b := by
  subst h; exact UInt8.ofNat_toNat

/-- A well-formed first character is the encoding of its rune. -/
theorem decodeRune_sound (s : Str) (hs : s ≠ []) :
    (IsScalar (decodeRune s).1 ∧ s.take (decodeRune s).2 = encodeRune (decodeRune s).1) ∨
    decodeRune s = (runeError, 1) := by
  rcases s with _ | ⟨b0, rest⟩
  · exact absurd rfl hs
  have hsc := decodeRune_scalar (b0 :: rest)
  rcases decodeRune_cases b0 rest with ⟨h1, h2⟩ | ⟨h1, h2⟩ | ⟨b1, t, rfl, h1, h2, h3, h4, h5, h6, hd⟩ |
    ⟨b1, b2, t, rfl, h1, h2, h3, h4, h5, h6, h7, h8, hd⟩ |
    ⟨b1, b2, b3, t, rfl, h1, h2, h3, h4, h5, h6, h7, h8, h9, hd⟩
  · left
    refine ⟨hsc, ?_⟩
    rw [h2]
    have : b0.toNat < 0x80 := by rw [UInt8.lt_iff_toNat_lt] at h1; exact h1
    simp only [encodeRune, this, if_true]
    simp
  · right; exact h2
  · left
    refine ⟨hsc, ?_⟩
    rw [hd] at hsc ⊢
    have e0 : ¬ b0.toNat < 0xC2 := by rw [UInt8.lt_iff_toNat_lt] at h2; exact h2
    have e0' : b0.toNat < 0xE0 := by rw [UInt8.lt_iff_toNat_lt] at h4; exact h4
    have e1 : 0x80 ≤ b1.toNat := UInt8.le_iff_toNat_le.1 (UInt8.le_trans (acceptLo_ge b0) h5)
    have e2 : b1.toNat ≤ 0xBF := UInt8.le_iff_toNat_le.1 (UInt8.le_trans h6 (acceptHi_le b0))
    generalize hr : (b0.toNat % 32) * 64 + b1.toNat % 64 = r at *
    have g1 : ¬ r < 0x80 := by omega
    have g2 : r < 0x800 := by omega
    simp only [encodeRune, g1, g2, if_true, if_false]
    simp only [List.take_succ_cons, List.take_zero]
    rw [ofNat_eq_of b0 _ (by omega), ofNat_eq_of b1 _ (by omega)]
  · left
    refine ⟨hsc, ?_⟩
    rw [hd] at hsc ⊢
    have e0 : ¬ b0.toNat < 0xE0 := by rw [UInt8.lt_iff_toNat_lt] at h4; exact h4
    have e0' : b0.toNat < 0xF0 := by rw [UInt8.lt_iff_toNat_lt] at h5; exact h5
    have e1 : 0x80 ≤ b1.toNat := UInt8.le_iff_toNat_le.1 (UInt8.le_trans (acceptLo_ge b0) h6)
    have e2 : b1.toNat ≤ 0xBF := UInt8.le_iff_toNat_le.1 (UInt8.le_trans h7 (acceptHi_le b0))
    have e3 : 0x80 ≤ b2.toNat ∧ b2.toNat ≤ 0xBF := by
      simp only [isCont, Bool.and_eq_true, decide_eq_true_eq, UInt8.le_iff_toNat_le] at h8; exact h8
    have e4 : b0.toNat = 0xE0 → 0xA0 ≤ b1.toNat := by
      intro h
      have : b0 = 0xE0 := by rw [← UInt8.toNat_inj]; exact h
      subst this
      simp only [acceptLo, if_true, UInt8.le_iff_toNat_le] at h6
      exact h6
    generalize hr : (b0.toNat % 16) * 4096 + (b1.toNat % 64) * 64 + b2.toNat % 64 = r at *
    have g1 : ¬ r < 0x80 := by omega
    have g2 : ¬ r < 0x800 := by omega
    have g3 : r < 0x10000 := by omega
    have g4 : ¬ ((0xD800 ≤ r ∧ r ≤ 0xDFFF) ∨ 0x10FFFF < r) := by
      have h : r < 0xD800 ∨ (0xDFFF < r ∧ r ≤ 0x10FFFF) := hsc
      omega
    simp only [encodeRune, g1, g2, g3, if_true, if_false, Bool.or_eq_true, Bool.and_eq_true,
      decide_eq_true_eq, g4]
    simp only [List.take_succ_cons, List.take_zero]
    rw [ofNat_eq_of b0 _ (by omega), ofNat_eq_of b1 _ (by omega), ofNat_eq_of b2 _ (by omega)]
  · left
    refine ⟨hsc, ?_⟩
    rw [hd] at hsc ⊢
    have e0 : ¬ b0.toNat < 0xF0 := by rw [UInt8.lt_iff_toNat_lt] at h5; exact h5
    have e0' : ¬ 0xF4 < b0.toNat := by rw [UInt8.lt_iff_toNat_lt] at h3; exact h3
    have e1 : 0x80 ≤ b1.toNat := UInt8.le_iff_toNat_le.1 (UInt8.le_trans (acceptLo_ge b0) h6)
    have e2 : b1.toNat ≤ 0xBF := UInt8.le_iff_toNat_le.1 (UInt8.le_trans h7 (acceptHi_le b0))
    have e3 : 0x80 ≤ b2.toNat ∧ b2.toNat ≤ 0xBF := by
      simp only [isCont, Bool.and_eq_true, decide_eq_true_eq, UInt8.le_iff_toNat_le] at h8; exact h8
    have e5 : 0x80 ≤ b3.toNat ∧ b3.toNat ≤ 0xBF := by
      simp only [isCont, Bool.and_eq_true, decide_eq_true_eq, UInt8.le_iff_toNat_le] at h9; exact h9
    have e4 : b0.toNat = 0xF0 → 0x90 ≤ b1.toNat := by
      intro h
      have : b0 = 0xF0 := by rw [← UInt8.toNat_inj]; exact h
      subst this
      simp only [acceptLo, UInt8.le_iff_toNat_le] at h6
      exact h6
    generalize hr : (b0.toNat % 8) * 262144 + (b1.toNat % 64) * 4096 + (b2.toNat % 64) * 64
      + b3.toNat % 64 = r at *
    have g1 : ¬ r < 0x80 := by omega
    have g2 : ¬ r < 0x800 := by omega
    have g3 : ¬ r < 0x10000 := by omega
    have g4 : ¬ ((0xD800 ≤ r ∧ r ≤ 0xDFFF) ∨ 0x10FFFF < r) := by
      have h : r < 0xD800 ∨ (0xDFFF < r ∧ r ≤ 0x10FFFF) := hsc
      omega
    simp only [encodeRune, g1, g2, g3, if_false, Bool.or_eq_true, Bool.and_eq_true,
      decide_eq_true_eq, g4]
    simp only [List.take_succ_cons, List.take_zero]
    rw [ofNat_eq_of b0 _ (by omega), ofNat_eq_of b1 _ (by omega), ofNat_eq_of b2 _ (by omega),
      ofNat_eq_of b3 _ (by omega)]

/-- The decoder of the model is determined by the encoding: the first character of a string is the
rune whose encoding the string starts with, or one malformed byte if there is no such rune. -/
theorem decodeRune_spec (s : Str) (hs : s ≠ []) :
    (∃ r, IsScalar r ∧ encodeRune r <+: s ∧ decodeRune s = (r, (encodeRune r).length)) ∨
    ((¬ ∃ r, IsScalar r ∧ encodeRune r <+: s) ∧ decodeRune s = (runeError, 1)) := by
  by_cases h : ∃ r, IsScalar r ∧ encodeRune r <+: s
  · left
    obtain ⟨r, hr, t, rfl⟩ := h
    exact ⟨r, hr, ⟨t, rfl⟩, decodeRune_encodeRune r hr t⟩
  · right
    refine ⟨h, ?_⟩
    rcases decodeRune_sound s hs with ⟨h1, h2⟩ | h2
    · exact absurd ⟨_, h1, ⟨s.drop (decodeRune s).2, by rw [← h2, List.take_append_drop]⟩⟩ h
    · exact h2

/-! ## Lower-casing -/

theorem charsAux_ascii (n : Nat) : ∀ s : Str, s.length ≤ n → (∀ b ∈ s, b < 0x80) →
    charsAux n s = s.map fun b => (b.toNat, [b]) := by
  induction n with
  | zero => intro s h _; simp at h; subst h; rfl
  | succ n ih =>
    intro s h hb
    cases s with
    | nil => rfl
    | cons b s =>
      have hb0 : b < 0x80 := hb b (by simp)
      have hd : decodeRune (b :: s) = (b.toNat, 1) := by simp [decodeRune, hb0]
      simp only [charsAux, hd, List.drop_one, List.tail_cons, List.map_cons]
      rw [ih s (by simpa using h) (fun x hx => hb x (by simp [hx]))]
      simp

theorem chars_ascii (s : Str) (h : ∀ b ∈ s, b < 0x80) :
    chars s = s.map fun b => (b.toNat, [b]) := charsAux_ascii _ s (Nat.le_refl _) h

theorem lowerByte (uni : Nat → Nat) (hu : CaseTable uni) (b : UInt8) (hb : b < 0x80) :
    encodeRune (uni b.toNat) = [if isUpperASCII b then b + 0x20 else b] := by
  have hb' : b.toNat < 0x80 := by rw [UInt8.lt_iff_toNat_lt] at hb; exact hb
  rw [hu.ascii _ hb']
  have hup : (isUpperASCII b = true) ↔ (0x41 ≤ b.toNat ∧ b.toNat ≤ 0x5A) := by
    simp only [isUpperASCII, Bool.and_eq_true, decide_eq_true_eq, UInt8.le_iff_toNat_le]
    exact Iff.rfl
  by_cases h : isUpperASCII b = true
  · have h' := hup.1 h
    rw [if_pos h', if_pos h]
    have : b.toNat + 0x20 < 0x80 := by omega
    simp only [encodeRune, this, if_true]
    congr 1
  · have h' : ¬ _ := fun x => h (hup.2 x)
    rw [if_neg h', if_neg h]
    simp only [encodeRune, hb', if_true, UInt8.ofNat_toNat]

/-- `strings.ToLower` lower-cases every character, on the ASCII path too. -/
theorem toLower_eq (uni : Nat → Nat) (hu : CaseTable uni) (s : Str) :
    toLower uni s = (runesOf s).flatMap fun r => encodeRune (uni r) := by
  unfold toLower
  split
  · next h =>
    have h' : ∀ b ∈ s, b < 0x80 := by simpa [List.all_eq_true] using h
    rw [runesOf_eq, chars_ascii s h']
    have key : s.map (fun b => if isUpperASCII b then b + 0x20 else b)
        = (List.map (·.1) (s.map fun b => (b.toNat, [b]))).flatMap fun r => encodeRune (uni r) := by
      clear h
      induction s with
      | nil => rfl
      | cons b s ih =>
        simp only [List.map_cons, List.flatMap_cons]
        rw [lowerByte uni hu b (h' b (by simp)), ih (fun x hx => h' x (by simp [hx]))]
        rfl
    split
    · exact key
    · next hn =>
      rw [← key]
      have : ∀ b ∈ s, isUpperASCII b = false := by
        intro b hb
        cases hc : isUpperASCII b with
        | false => rfl
        | true => exact absurd (List.any_eq_true.2 ⟨b, hb, hc⟩) hn
      clear key h h' hn
      induction s with
      | nil => rfl
      | cons b s ih =>
        rw [List.map_cons, ← ih (fun x hx => this x (by simp [hx])), this b (by simp)]
        rfl
  · rfl

theorem runesOf_encode (rs : List Rune) (h : ∀ r ∈ rs, IsScalar r) :
    runesOf (rs.flatMap encodeRune) = rs := by
  rw [runesOf_eq, chars_encode rs h]
  simp [List.map_map, Function.comp_def]

/-- The runes of a lower-cased string. -/
theorem runesOf_toLower (uni : Nat → Nat) (hu : CaseTable uni) (s : Str) :
    runesOf (toLower uni s) = (runesOf s).map uni := by
  rw [toLower_eq uni hu]
  have : ((runesOf s).flatMap fun r => encodeRune (uni r)) = ((runesOf s).map uni).flatMap encodeRune := by
    rw [List.flatMap_map]
  rw [this, runesOf_encode]
  intro r hr
  obtain ⟨q, hq, rfl⟩ := List.mem_map.1 hr
  exact hu.scalar q (runesOf_scalar s q hq)

theorem toLower_toLower (uni : Nat → Nat) (hu : CaseTable uni) (s : Str) :
    toLower uni (toLower uni s) = toLower uni s := by
  rw [toLower_eq uni hu (toLower uni s), runesOf_toLower uni hu, toLower_eq uni hu, List.flatMap_map]
  congr 1
  funext r
  rw [hu.idem]

/-- Re-encoding the characters of a valid string is the identity (justifies `mapStr`). -/
theorem mapStr_id_of_valid (s : Str) (h : ValidUTF8 s) : mapStr id s = s := by
  obtain ⟨rs, h, rfl⟩ := h
  unfold mapStr
  rw [runesOf_encode rs h]
  rfl

/-! ## ASCII case variants -/

theorem foldEq_symm {a b : UInt8} (h : foldEq a b) : foldEq b a := by
  rcases h with h | h | h
  · exact .inl h.symm
  · exact .inr (.inr h)
  · exact .inr (.inl h)

theorem foldEq_ascii {a b : UInt8} (h : foldEq a b) (hne : a ≠ b) : a.toNat < 0x80 ∧ b.toNat < 0x80 := by
  have up : ∀ c : UInt8, (0x41 ≤ c ∧ c ≤ 0x5A) → 0x41 ≤ c.toNat ∧ c.toNat ≤ 0x5A := by
    intro c hc
    simp only [UInt8.le_iff_toNat_le] at hc
    exact hc
  have e : (0x20 : UInt8).toNat = 0x20 := rfl
  rcases h with h | ⟨h, h', rfl⟩ | ⟨h, h', rfl⟩
  · exact absurd h hne
  · have := up _ ⟨h, h'⟩
    rw [UInt8.toNat_add, e]; omega
  · have := up _ ⟨h, h'⟩
    rw [UInt8.toNat_add, e]; omega

theorem foldEq_nonascii {a b : UInt8} (h : foldEq a b) (ha : 0x80 ≤ a.toNat) : a = b := by
  by_cases hne : a = b
  · exact hne
  · have := (foldEq_ascii h hne).1; omega

/-- Two characters that are the same or case variants of one ASCII letter. -/
def charFold (c d : GoChar) : Prop :=
  c = d ∨ ∃ a b : UInt8, foldEq a b ∧ a < 0x80 ∧ b < 0x80 ∧ c = (a.toNat, [a]) ∧ d = (b.toNat, [b])

theorem decodeRune_fold (a b : UInt8) (s t : Str) (hab : foldEq a b) (hst : CaseVariant s t) :
    (a = b ∧ ¬ a < 0x80 ∧ decodeRune (a :: s) = decodeRune (b :: t) ∧
      (a :: s).take (decodeRune (a :: s)).2 = (b :: t).take (decodeRune (a :: s)).2) ∨
    (a < 0x80 ∧ b < 0x80 ∧ decodeRune (a :: s) = (a.toNat, 1) ∧ decodeRune (b :: t) = (b.toNat, 1)) := by
  have key : ∀ (s t : Str), CaseVariant s t → ¬ a < 0x80 → decodeRune (a :: s) ≠ (runeError, 1) →
      decodeRune (a :: t) = decodeRune (a :: s) ∧
      (a :: s).take (decodeRune (a :: s)).2 = (a :: t).take (decodeRune (a :: s)).2 := by
    intro s t hst ha hne
    have nonas : ∀ (c : UInt8), isCont c = true → 0x80 ≤ c.toNat := by
      intro c hc
      simp only [isCont, Bool.and_eq_true, decide_eq_true_eq, UInt8.le_iff_toNat_le] at hc
      exact hc.1
    have nonlo : ∀ (c : UInt8), acceptLo a ≤ c → 0x80 ≤ c.toNat := fun c hc =>
      UInt8.le_iff_toNat_le.1 (UInt8.le_trans (acceptLo_ge a) hc)
    rcases decodeRune_cases a s with ⟨h1, h2⟩ | ⟨h1, h2⟩ |
      ⟨b1, u, rfl, h1, h2, h3, h4, h5, h6, hd⟩ |
      ⟨b1, b2, u, rfl, h1, h2, h3, h4, h5, h6, h7, h8, hd⟩ |
      ⟨b1, b2, b3, u, rfl, h1, h2, h3, h4, h5, h6, h7, h8, h9, hd⟩
    · exact absurd h1 ha
    · exact absurd h2 hne
    · cases hst with
      | cons e1 hst =>
        rename_i c1 t
        have := foldEq_nonascii e1 (nonlo _ h5); subst this
        rw [hd]
        refine ⟨?_, by simp⟩
        simp [decodeRune, h1, h2, h3, h4, h5, h6]
    · cases hst with
      | cons e1 hst => cases hst with
        | cons e2 hst =>
          have := foldEq_nonascii e1 (nonlo _ h6); subst this
          have := foldEq_nonascii e2 (nonas _ h8); subst this
          rw [hd]
          refine ⟨?_, by simp⟩
          simp [decodeRune, h1, h2, h3, h4, h5, h6, h7, h8]
    · cases hst with
      | cons e1 hst => cases hst with
        | cons e2 hst => cases hst with
          | cons e3 hst =>
            have := foldEq_nonascii e1 (nonlo _ h6); subst this
            have := foldEq_nonascii e2 (nonas _ h8); subst this
            have := foldEq_nonascii e3 (nonas _ h9); subst this
            rw [hd]
            refine ⟨?_, by simp⟩
            simp [decodeRune, h1, h2, h3, h4, h5, h6, h7, h8, h9]
  by_cases ha : a < 0x80
  · right
    have hb : b < 0x80 := by
      by_cases hne : a = b
      · exact hne ▸ ha
      · have := (foldEq_ascii hab hne).2
        rw [UInt8.lt_iff_toNat_lt]; exact this
    exact ⟨ha, hb, by simp [decodeRune, ha], by simp [decodeRune, hb]⟩
  · left
    have hab' : a = b := foldEq_nonascii hab (by rw [UInt8.lt_iff_toNat_lt] at ha; exact Nat.not_lt.1 ha)
    subst hab'
    refine ⟨rfl, ha, ?_⟩
    have hts : CaseVariant t s := by
      clear key
      induction hst with
      | nil => exact .nil
      | cons h _ ih => exact .cons (foldEq_symm h) ih
    by_cases hs : decodeRune (a :: s) = (runeError, 1)
    · by_cases ht : decodeRune (a :: t) = (runeError, 1)
      · rw [hs, ht]; simp
      · have := key t s hts ha ht
        rw [hs] at this
        exact absurd this.1.symm ht
    · have := key s t hst ha hs
      exact ⟨this.1.symm, this.2⟩

theorem CaseVariant.length {s t : Str} (h : CaseVariant s t) : s.length = t.length := by
  induction h with
  | nil => rfl
  | cons _ _ ih => simp [ih]

theorem CaseVariant.drop {s t : Str} (h : CaseVariant s t) (n : Nat) :
    CaseVariant (s.drop n) (t.drop n) := by
  induction h generalizing n with
  | nil => rw [List.drop_nil]; exact .nil
  | cons h1 h2 ih =>
    cases n with
    | zero => exact .cons h1 h2
    | succ n => exact ih n

theorem charsAux_fold (n : Nat) : ∀ s t : Str, CaseVariant s t →
    Forall2 charFold (charsAux n s) (charsAux n t) := by
  induction n with
  | zero => intro s t _; exact .nil
  | succ n ih =>
    intro s t h
    cases h with
    | nil => exact .nil
    | cons hab hst =>
      rename_i a b s t
      have hd := CaseVariant.drop (.cons hab hst)
      simp only [charsAux]
      rcases decodeRune_fold a b s t hab hst with ⟨h1, _, h3, h4⟩ | ⟨h1, h2, h3, h4⟩
      · refine .cons (.inl ?_) ?_
        · rw [← h3, h4]
        · rw [← h3]; exact ih _ _ (hd _)
      · rw [h3, h4]
        exact .cons (.inr ⟨a, b, hab, h1, h2, by simp, by simp⟩) (ih _ _ (hd 1))

theorem chars_fold (s t : Str) (h : CaseVariant s t) :
    Forall2 charFold (chars s) (chars t) := by
  unfold chars
  rw [← h.length]
  exact charsAux_fold _ s t h

theorem foldEq_toNat {a b : UInt8} (h : foldEq a b) : a.toNat = b.toNat ∨
    (0x41 ≤ a.toNat ∧ a.toNat ≤ 0x5A ∧ b.toNat = a.toNat + 0x20) ∨
    (0x41 ≤ b.toNat ∧ b.toNat ≤ 0x5A ∧ a.toNat = b.toNat + 0x20) := by
  have up : ∀ c : UInt8, (0x41 ≤ c ∧ c ≤ 0x5A) → 0x41 ≤ c.toNat ∧ c.toNat ≤ 0x5A := by
    intro c hc
    simp only [UInt8.le_iff_toNat_le] at hc
    exact hc
  have e : (0x20 : UInt8).toNat = 0x20 := rfl
  rcases h with rfl | ⟨h, h', rfl⟩ | ⟨h, h', rfl⟩
  · exact .inl rfl
  · right; left; have := up _ ⟨h, h'⟩; rw [UInt8.toNat_add, e]; omega
  · right; right; have := up _ ⟨h, h'⟩; rw [UInt8.toNat_add, e]; omega

theorem charFold_keep (f : Nat → Bool) (hf : CaseBlind f) (c d : GoChar) (h : charFold c d) :
    f c.1 = f d.1 := by
  rcases h with rfl | ⟨a, b, hab, _, _, rfl, rfl⟩
  · rfl
  · rcases foldEq_toNat hab with h | ⟨h1, h2, h3⟩ | ⟨h1, h2, h3⟩
    · show f a.toNat = f b.toNat
      rw [h]
    · show f a.toNat = f b.toNat
      rw [h3]; exact hf _ h1 h2
    · show f a.toNat = f b.toNat
      rw [h3]; exact (hf _ h1 h2).symm

theorem charFold_lower (uni : Nat → Nat) (hu : CaseTable uni) (c d : GoChar) (h : charFold c d) :
    uni c.1 = uni d.1 := by
  rcases h with rfl | ⟨a, b, hab, _, _, rfl, rfl⟩
  · rfl
  · have low : ∀ n, 0x41 ≤ n → n ≤ 0x5A → uni n = uni (n + 0x20) := by
      intro n h1 h2
      rw [hu.ascii n (by omega), hu.ascii (n + 0x20) (by omega), if_pos ⟨h1, h2⟩, if_neg (by omega)]
    show uni a.toNat = uni b.toNat
    rcases foldEq_toNat hab with h | ⟨h1, h2, h3⟩ | ⟨h1, h2, h3⟩
    · rw [h]
    · rw [h3]; exact low _ h1 h2
    · rw [h3]; exact (low _ h1 h2).symm

theorem splitChars_fold (f : Nat → Bool) (hf : CaseBlind f) (cs ds : List GoChar)
    (h : Forall2 charFold cs ds) : ∀ (cur cur' : Option (List GoChar)),
    (cur = none ∧ cur' = none ∨ ∃ x y, cur = some x ∧ cur' = some y ∧ Forall2 charFold x y) →
    Forall2 (Forall2 charFold) (splitChars f cur cs) (splitChars f cur' ds) := by
  induction h with
  | nil =>
    rintro cur cur' (⟨rfl, rfl⟩ | ⟨x, y, rfl, rfl, hxy⟩)
    · exact .nil
    · exact .cons hxy .nil
  | cons hcd hrest ih =>
    rename_i c d cs ds
    have hk := charFold_keep f hf c d hcd
    rintro cur cur' (⟨rfl, rfl⟩ | ⟨x, y, rfl, rfl, hxy⟩)
    · simp only [splitChars]
      rw [← hk]
      split
      · exact ih _ _ (.inl ⟨rfl, rfl⟩)
      · exact ih _ _ (.inr ⟨_, _, rfl, rfl, .cons hcd .nil⟩)
    · simp only [splitChars]
      rw [← hk]
      split
      · exact .cons hxy (ih _ _ (.inl ⟨rfl, rfl⟩))
      · refine ih _ _ (.inr ⟨_, _, rfl, rfl, ?_⟩)
        clear ih
        induction hxy with
        | nil => exact .cons hcd .nil
        | cons h _ ih => exact .cons h ih

theorem runes_fold (uni : Nat → Nat) (hu : CaseTable uni) (x y : List GoChar)
    (h : Forall2 charFold x y) : (x.map (·.1)).map uni = (y.map (·.1)).map uni := by
  induction h with
  | nil => rfl
  | cons h _ ih => simp only [List.map_cons]; rw [charFold_lower uni hu _ _ h, ih]

theorem toLower_token (uni : Nat → Nat) (hu : CaseTable uni) (keep : Nat → Bool) (s : Str)
    (t : List GoChar) (ht : t ∈ splitChars (fun r => !keep r) none (chars s)) :
    toLower uni (bytesOf t) = ((t.map (·.1)).map uni).flatMap encodeRune := by
  rw [toLower_eq uni hu, runesOf_eq, chars_token keep s _ (splitChars_isTokenization keep _) t ht]
  simp only [List.flatMap_map]

theorem lower_fields_fold (uni : Nat → Nat) (hu : CaseTable uni) (keep : Nat → Bool)
    (hf : CaseBlind keep) (s t : Str) (h : CaseVariant s t) :
    (fieldsFunc s (fun r => !keep r)).map (toLower uni)
      = (fieldsFunc t (fun r => !keep r)).map (toLower uni) := by
  rw [fieldsFunc_eq, fieldsFunc_eq, List.map_map, List.map_map]
  have hf' : CaseBlind (fun r => !keep r) := by
    intro r h1 h2; show (!keep r) = (!keep _); rw [hf r h1 h2]
  have hh := splitChars_fold _ hf' _ _ (chars_fold s t h) none none (.inl ⟨rfl, rfl⟩)
  have e1 : ∀ x ∈ splitChars (fun r => !keep r) none (chars s), (toLower uni ∘ bytesOf) x
      = ((x.map (·.1)).map uni).flatMap encodeRune := fun x hx => toLower_token uni hu keep s x hx
  have e2 : ∀ x ∈ splitChars (fun r => !keep r) none (chars t), (toLower uni ∘ bytesOf) x
      = ((x.map (·.1)).map uni).flatMap encodeRune := fun x hx => toLower_token uni hu keep t x hx
  rw [List.map_congr_left e1, List.map_congr_left e2]
  clear e1 e2
  generalize splitChars (fun r => !keep r) none (chars s) = l1 at hh
  generalize splitChars (fun r => !keep r) none (chars t) = l2 at hh
  induction hh with
  | nil => rfl
  | cons h _ ih =>
    simp only [List.map_cons]
    rw [runes_fold uni hu _ _ h, ih]

end Visigoth
