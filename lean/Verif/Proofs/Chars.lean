import Verif.Proofs.GoString
/-! # Characters of substrings, scalar values -/
namespace Visigoth

theorem decodeRune_cases (b0 : UInt8) (rest : Str) :
    (b0 < 0x80 ∧ decodeRune (b0 :: rest) = (b0.toNat, 1)) ∨
    (¬ b0 < 0x80 ∧ decodeRune (b0 :: rest) = (runeError, 1)) ∨
    (∃ b1 t, rest = b1 :: t ∧ ¬ b0 < 0x80 ∧ ¬ b0 < 0xC2 ∧ ¬ 0xF4 < b0 ∧ b0 < 0xE0 ∧
      acceptLo b0 ≤ b1 ∧ b1 ≤ acceptHi b0 ∧
      decodeRune (b0 :: rest) = ((b0.toNat % 32) * 64 + b1.toNat % 64, 2)) ∨
    (∃ b1 b2 t, rest = b1 :: b2 :: t ∧ ¬ b0 < 0x80 ∧ ¬ b0 < 0xC2 ∧ ¬ 0xF4 < b0 ∧ ¬ b0 < 0xE0 ∧
      b0 < 0xF0 ∧ acceptLo b0 ≤ b1 ∧ b1 ≤ acceptHi b0 ∧ isCont b2 = true ∧
      decodeRune (b0 :: rest)
        = ((b0.toNat % 16) * 4096 + (b1.toNat % 64) * 64 + b2.toNat % 64, 3)) ∨
    (∃ b1 b2 b3 t, rest = b1 :: b2 :: b3 :: t ∧ ¬ b0 < 0x80 ∧ ¬ b0 < 0xC2 ∧ ¬ 0xF4 < b0 ∧
      ¬ b0 < 0xE0 ∧ ¬ b0 < 0xF0 ∧ acceptLo b0 ≤ b1 ∧ b1 ≤ acceptHi b0 ∧ isCont b2 = true ∧
      isCont b3 = true ∧
      decodeRune (b0 :: rest)
        = ((b0.toNat % 8) * 262144 + (b1.toNat % 64) * 4096 + (b2.toNat % 64) * 64 + b3.toNat % 64,
            4)) := by
  by_cases h1 : b0 < 0x80
  · left; exact ⟨h1, by simp [decodeRune, h1]⟩
  by_cases h2 : b0 < 0xC2
  · right; left; exact ⟨h1, by simp [decodeRune, h1, h2]⟩
  by_cases h3 : 0xF4 < b0
  · right; left; exact ⟨h1, by simp [decodeRune, h1, h2, h3]⟩
  by_cases h4 : b0 < 0xE0
  · rcases rest with _ | ⟨b1, t⟩
    · right; left; exact ⟨h1, by simp [decodeRune, h1, h2, h3, h4]⟩
    · by_cases h5 : acceptLo b0 ≤ b1
      · by_cases h6 : b1 ≤ acceptHi b0
        · right; right; left
          exact ⟨b1, t, rfl, h1, h2, h3, h4, h5, h6, by simp [decodeRune, h1, h2, h3, h4, h5, h6]⟩
        · right; left; exact ⟨h1, by simp [decodeRune, h1, h2, h3, h4, h5, h6]⟩
      · right; left; exact ⟨h1, by simp [decodeRune, h1, h2, h3, h4, h5]⟩
  by_cases h5 : b0 < 0xF0
  · rcases rest with _ | ⟨b1, _ | ⟨b2, t⟩⟩
    · right; left; exact ⟨h1, by simp [decodeRune, h1, h2, h3, h4, h5]⟩
    · right; left; exact ⟨h1, by simp [decodeRune, h1, h2, h3, h4, h5]⟩
    · by_cases h6 : acceptLo b0 ≤ b1
      · by_cases h7 : b1 ≤ acceptHi b0
        · cases h8 : isCont b2
          · right; left; exact ⟨h1, by simp [decodeRune, h1, h2, h3, h4, h5, h6, h7, h8]⟩
          · right; right; right; left
            exact ⟨b1, b2, t, rfl, h1, h2, h3, h4, h5, h6, h7, h8, by
              simp [decodeRune, h1, h2, h3, h4, h5, h6, h7, h8]⟩
        · right; left; exact ⟨h1, by simp [decodeRune, h1, h2, h3, h4, h5, h6, h7]⟩
      · right; left; exact ⟨h1, by simp [decodeRune, h1, h2, h3, h4, h5, h6]⟩
  · rcases rest with _ | ⟨b1, _ | ⟨b2, _ | ⟨b3, t⟩⟩⟩
    · right; left; exact ⟨h1, by simp [decodeRune, h1, h2, h3, h4, h5]⟩
    · right; left; exact ⟨h1, by simp [decodeRune, h1, h2, h3, h4, h5]⟩
    · right; left; exact ⟨h1, by simp [decodeRune, h1, h2, h3, h4, h5]⟩
    · by_cases h6 : acceptLo b0 ≤ b1
      · by_cases h7 : b1 ≤ acceptHi b0
        · cases h8 : isCont b2
          · right; left; exact ⟨h1, by simp [decodeRune, h1, h2, h3, h4, h5, h6, h7, h8]⟩
          · cases h9 : isCont b3
            · right; left; exact ⟨h1, by simp [decodeRune, h1, h2, h3, h4, h5, h6, h7, h8, h9]⟩
            · right; right; right; right
              exact ⟨b1, b2, b3, t, rfl, h1, h2, h3, h4, h5, h6, h7, h8, h9, by
                simp [decodeRune, h1, h2, h3, h4, h5, h6, h7, h8, h9]⟩
        · right; left; exact ⟨h1, by simp [decodeRune, h1, h2, h3, h4, h5, h6, h7]⟩
      · right; left; exact ⟨h1, by simp [decodeRune, h1, h2, h3, h4, h5, h6]⟩

theorem acceptLo_ge (b : UInt8) : (0x80 : UInt8) ≤ acceptLo b := by
  unfold acceptLo
  split
  · decide
  · split <;> decide

theorem acceptHi_le (b : UInt8) : acceptHi b ≤ 0xBF := by
  unfold acceptHi
  split
  · decide
  · split <;> decide

/-- Cutting a string after its first character does not change that character. -/
theorem decodeRune_take (s : Str) (n : Nat) (h : (decodeRune s).2 ≤ n) (hs : s ≠ []) :
    decodeRune (s.take n) = decodeRune s := by
  rcases s with _ | ⟨b0, rest⟩
  · exact absurd rfl hs
  have hw := decodeRune_width (s := b0 :: rest) (by simp)
  obtain ⟨n, rfl⟩ : ∃ m, n = m + 1 := ⟨n - 1, by omega⟩
  rw [List.take_succ_cons]
  rcases decodeRune_cases b0 rest with ⟨h1, h2⟩ | ⟨h1, h2⟩ | ⟨b1, t, rfl, h1, h2, h3, h4, h5, h6, hd⟩ |
    ⟨b1, b2, t, rfl, h1, h2, h3, h4, h5, h6, h7, h8, hd⟩ |
    ⟨b1, b2, b3, t, rfl, h1, h2, h3, h4, h5, h6, h7, h8, h9, hd⟩
  · rw [h2]; simp [decodeRune, h1]
  · rw [h2]
    -- an error stays an error
    rcases decodeRune_cases b0 (rest.take n) with ⟨g1, g2⟩ | ⟨g1, g2⟩ |
      ⟨b1, t, g0, g1, g2, g3, g4, g5, g6, gd⟩ |
      ⟨b1, b2, t, g0, g1, g2, g3, g4, g5, g6, g7, g8, gd⟩ |
      ⟨b1, b2, b3, t, g0, g1, g2, g3, g4, g5, g6, g7, g8, g9, gd⟩
    · exact absurd g1 h1
    · exact g2
    · exfalso
      obtain ⟨t', rfl⟩ : ∃ t', rest = b1 :: t' := by
        have := List.take_prefix n rest; rw [g0] at this
        obtain ⟨u, hu⟩ := this; exact ⟨t ++ u, by rw [← hu]; rfl⟩
      simp [decodeRune, g1, g2, g3, g4, g5, g6] at h2
    · exfalso
      obtain ⟨t', rfl⟩ : ∃ t', rest = b1 :: b2 :: t' := by
        have := List.take_prefix n rest; rw [g0] at this
        obtain ⟨u, hu⟩ := this; exact ⟨t ++ u, by rw [← hu]; rfl⟩
      simp [decodeRune, g1, g2, g3, g4, g5, g6, g7, g8] at h2
    · exfalso
      obtain ⟨t', rfl⟩ : ∃ t', rest = b1 :: b2 :: b3 :: t' := by
        have := List.take_prefix n rest; rw [g0] at this
        obtain ⟨u, hu⟩ := this; exact ⟨t ++ u, by rw [← hu]; rfl⟩
      simp [decodeRune, g1, g2, g3, g4, g5, g6, g7, g8, g9] at h2
  · rw [hd] at h ⊢
    obtain ⟨m, rfl⟩ : ∃ m, n = m + 1 := ⟨n - 1, by simp at h; omega⟩
    simp [decodeRune, h1, h2, h3, h4, h5, h6]
  · rw [hd] at h ⊢
    obtain ⟨m, rfl⟩ : ∃ m, n = m + 2 := ⟨n - 2, by simp at h; omega⟩
    simp [decodeRune, h1, h2, h3, h4, h5, h6, h7, h8]
  · rw [hd] at h ⊢
    obtain ⟨m, rfl⟩ : ∃ m, n = m + 3 := ⟨n - 3, by simp at h; omega⟩
    simp [decodeRune, h1, h2, h3, h4, h5, h6, h7, h8, h9]

/-- Runes obtained by decoding are scalar values. -/
theorem decodeRune_scalar (s : Str) : IsScalar (decodeRune s).1 := by
  rcases s with _ | ⟨b0, rest⟩
  · right; simp [decodeRune, runeError]
  rcases decodeRune_cases b0 rest with ⟨h1, h2⟩ | ⟨h1, h2⟩ | ⟨b1, t, rfl, h1, h2, h3, h4, h5, h6, hd⟩ |
    ⟨b1, b2, t, rfl, h1, h2, h3, h4, h5, h6, h7, h8, hd⟩ |
    ⟨b1, b2, b3, t, rfl, h1, h2, h3, h4, h5, h6, h7, h8, h9, hd⟩
  · rw [h2]; left
    have : b0.toNat < 256 := b0.toNat_lt
    show b0.toNat < _
    omega
  · rw [h2]; right; simp [runeError]
  · rw [hd]; left
    show (b0.toNat % 32) * 64 + b1.toNat % 64 < _
    omega
  · rw [hd]
    have h4' : 224 ≤ b0.toNat := by
      rw [UInt8.lt_iff_toNat_lt] at h4
      have : (224 : UInt8).toNat = 224 := rfl
      omega
    have hED : b0 = 0xED → b1.toNat ≤ 0x9F := by
      rintro rfl
      simp only [acceptHi, if_true, UInt8.le_iff_toNat_le] at h7
      exact h7
    have hlt : b0.toNat < 0xF0 := by rw [UInt8.lt_iff_toNat_lt] at h5; exact h5
    have hE : b0.toNat = 0xED → b1.toNat ≤ 0x9F := fun h => hED (by
      rw [← UInt8.toNat_inj]; exact h)
    have hlo : (0x80 : Nat) ≤ b1.toNat := by
      have : (0x80 : UInt8) ≤ acceptLo b0 := by exact acceptLo_ge b0
      have := UInt8.le_iff_toNat_le.1 (UInt8.le_trans this h6)
      exact this
    have hhi : b1.toNat ≤ 0xBF := by
      have : acceptHi b0 ≤ 0xBF := by exact acceptHi_le b0
      have := UInt8.le_iff_toNat_le.1 (UInt8.le_trans h7 this)
      exact this
    show ((b0.toNat % 16) * 4096 + (b1.toNat % 64) * 64 + b2.toNat % 64) < 0xD800 ∨ _ < _ ∧ _ ≤ _
    dsimp only
    by_cases hh : b0.toNat = 0xED
    · have := hE hh
      omega
    · omega
  · rw [hd]
    right
    have h4' : 240 ≤ b0.toNat := by
      rw [UInt8.lt_iff_toNat_lt] at h5
      have : (240 : UInt8).toNat = 240 := rfl
      omega
    have hlt : b0.toNat ≤ 0xF4 := by
      rw [UInt8.lt_iff_toNat_lt] at h3
      have : (0xF4 : UInt8).toNat = 0xF4 := rfl
      omega
    have hF4 : b0.toNat = 0xF4 → b1.toNat ≤ 0x8F := by
      intro h
      have : b0 = 0xF4 := by rw [← UInt8.toNat_inj]; exact h
      subst this
      simp only [acceptHi, UInt8.le_iff_toNat_le] at h7
      exact h7
    have hF0 : b0.toNat = 0xF0 → 0x90 ≤ b1.toNat := by
      intro h
      have : b0 = 0xF0 := by rw [← UInt8.toNat_inj]; exact h
      subst this
      simp only [acceptLo, UInt8.le_iff_toNat_le] at h6
      exact h6
    have hlo : (0x80 : Nat) ≤ b1.toNat := by
      have : (0x80 : UInt8) ≤ acceptLo b0 := by exact acceptLo_ge b0
      have := UInt8.le_iff_toNat_le.1 (UInt8.le_trans this h6)
      exact this
    have hhi : b1.toNat ≤ 0xBF := by
      have : acceptHi b0 ≤ 0xBF := by exact acceptHi_le b0
      have := UInt8.le_iff_toNat_le.1 (UInt8.le_trans h7 this)
      exact this
    dsimp only
    omega

theorem charsAux_scalar (n : Nat) : ∀ s : Str, ∀ c ∈ charsAux n s, IsScalar c.1 := by
  induction n with
  | zero => intro s c h; simp [charsAux] at h
  | succ n ih =>
    intro s c h
    cases s with
    | nil => simp [charsAux] at h
    | cons b s =>
      simp only [charsAux, List.mem_cons] at h
      rcases h with h | h
      · subst h; exact decodeRune_scalar _
      · exact ih _ c h

theorem chars_scalar (s : Str) : ∀ c ∈ chars s, IsScalar c.1 := charsAux_scalar _ s

theorem runesOf_scalar (s : Str) : ∀ r ∈ runesOf s, IsScalar r := by
  intro r hr
  rw [runesOf_eq] at hr
  obtain ⟨c, hc, rfl⟩ := List.mem_map.1 hr
  exact chars_scalar s c hc

/-- More fuel does not change the characters. -/
theorem charsAux_fuel (n m : Nat) : ∀ s : Str, s.length ≤ n → s.length ≤ m →
    charsAux n s = charsAux m s := by
  induction n generalizing m with
  | zero => intro s h _; simp at h; subst h; cases m <;> rfl
  | succ n ih =>
    intro s h1 h2
    cases s with
    | nil => cases m <;> rfl
    | cons b s =>
      cases m with
      | zero => simp at h2
      | succ m =>
        have hw := decodeRune_width (s := b :: s) (by simp)
        simp only [charsAux]
        rw [ih m]
        · simp only [List.length_drop]; omega
        · simp only [List.length_drop]; omega

theorem chars_cons (b : UInt8) (s : Str) :
    chars (b :: s) = ((decodeRune (b :: s)).1, (b :: s).take (decodeRune (b :: s)).2)
      :: chars ((b :: s).drop (decodeRune (b :: s)).2) := by
  have hw := decodeRune_width (s := b :: s) (by simp)
  unfold chars
  rw [List.length_cons, charsAux]
  congr 1
  apply charsAux_fuel
  · simp only [List.length_drop, List.length_cons]; omega
  · exact Nat.le_refl _

/-- The characters of a prefix that ends at a character boundary. -/
theorem chars_prefix : ∀ (a c : List GoChar) (s : Str), chars s = a ++ c → chars (bytesOf a) = a := by
  intro a
  induction a with
  | nil => intro c s _; rfl
  | cons x a ih =>
    intro c s h
    cases s with
    | nil => simp [chars, charsAux] at h
    | cons b s =>
      have hw := decodeRune_width (s := b :: s) (by simp)
      rw [chars_cons, List.cons_append] at h
      injection h with h1 h2
      have ha := ih c _ h2
      have hx : x.2.length = (decodeRune (b :: s)).2 := by
        rw [← h1]; simp only [List.length_take]; omega
      have hfull : bytesOf a ++ bytesOf c = (b :: s).drop (decodeRune (b :: s)).2 := by
        rw [← bytesOf_append, ← h2, chars_flatten]
      have hs : b :: s = x.2 ++ (bytesOf a ++ bytesOf c) := by
        rw [hfull, ← h1, List.take_append_drop]
      have htake : x.2 ++ bytesOf a = (b :: s).take (x.2 ++ bytesOf a).length := by
        rw [hs, ← List.append_assoc, List.take_left]
      have hd : decodeRune (x.2 ++ bytesOf a) = decodeRune (b :: s) := by
        rw [htake]
        exact decodeRune_take _ _ (by rw [List.length_append]; omega) (by simp)
      rw [bytesOf_cons]
      cases hxe : x.2 ++ bytesOf a with
      | nil =>
        have := congrArg List.length hxe
        simp at this
        rw [this.1] at hx; simp at hx; omega
      | cons y ys =>
        rw [chars_cons, ← hxe, hd, ← hx, List.drop_left, List.take_left, ha]
        rw [← h1]

theorem chars_suffix : ∀ (a c : List GoChar) (s : Str), chars s = a ++ c → chars (bytesOf c) = c := by
  intro a
  induction a with
  | nil =>
    intro c s h
    simp only [List.nil_append] at h
    rw [← h, chars_flatten]
  | cons x a ih =>
    intro c s h
    cases s with
    | nil => simp [chars, charsAux] at h
    | cons b s =>
      rw [chars_cons, List.cons_append] at h
      injection h with h1 h2
      exact ih c _ h2

/-- The characters of a substring that starts and ends at character boundaries. -/
theorem chars_infix (a b c : List GoChar) (s : Str) (h : chars s = a ++ b ++ c) :
    chars (bytesOf b) = b := by
  have h1 := chars_suffix a (b ++ c) s (by rw [h, List.append_assoc])
  exact chars_prefix b c _ h1

/-! ## Tokens read back as strings -/

theorem mem_zipWith_infix (toks seps : List (List GoChar)) (h : seps.length = toks.length)
    (t : List GoChar) (ht : t ∈ toks) :
    ∃ a b, (List.zipWith (· ++ ·) toks seps).flatten = a ++ t ++ b := by
  induction toks generalizing seps with
  | nil => simp at ht
  | cons t' toks ih =>
    cases seps with
    | nil => simp at h
    | cons sp seps =>
      simp only [List.mem_cons] at ht
      rcases ht with rfl | ht
      · exact ⟨[], sp ++ (List.zipWith (· ++ ·) toks seps).flatten, by simp⟩
      · obtain ⟨a, b, hab⟩ := ih seps (by simpa using h) ht
        exact ⟨t' ++ sp ++ a, b, by simp [hab]⟩

theorem chars_token (keep : Rune → Bool) (s : Str) (toks : List (List GoChar))
    (h : IsTokenization keep (chars s) toks) (t : List GoChar) (ht : t ∈ toks) :
    chars (bytesOf t) = t := by
  obtain ⟨lead, seps, hl, heq, -⟩ := h
  obtain ⟨a, b, hab⟩ := mem_zipWith_infix toks seps hl t ht
  exact chars_infix (lead ++ a) t b s (by rw [heq, hab]; simp)

end Visigoth
