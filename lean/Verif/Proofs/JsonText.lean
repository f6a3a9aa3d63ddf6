import Verif.Spec.JsonText
import Verif.Model.JsonText
import Verif.Proofs.Chars
import Verif.Proofs.Render
/-!
# Writing and reading JSON text
-/
namespace Visigoth

/-! ## Hexadecimal digits -/

theorem u8_le {a b : UInt8} : a ≤ b ↔ a.toNat ≤ b.toNat := UInt8.le_iff_toNat_le

theorem u8_ne {a b : UInt8} (h : a.toNat ≠ b.toNat) : a ≠ b := fun e => h (by rw [e])

theorem hexValue_of {b : UInt8} {n : Nat} (h : IsHex b n) : hexValue b = some n := by
  unfold hexValue
  simp only [u8_le, show (0x30 : UInt8).toNat = 0x30 from rfl, show (0x39 : UInt8).toNat = 0x39 from rfl,
    show (0x61 : UInt8).toNat = 0x61 from rfl, show (0x66 : UInt8).toNat = 0x66 from rfl,
    show (0x41 : UInt8).toNat = 0x41 from rfl, show (0x46 : UInt8).toNat = 0x46 from rfl]
  rcases h with ⟨h1, h2, h3⟩ | ⟨h1, h2, h3⟩ | ⟨h1, h2, h3⟩
  · rw [if_pos ⟨h1, h2⟩]; congr 1; omega
  · rw [if_neg (by omega), if_pos ⟨h1, h2⟩]; congr 1; omega
  · rw [if_neg (by omega), if_neg (by omega), if_pos ⟨h1, h2⟩]; congr 1; omega

theorem getu4_of {u : Str} {n : Nat} (h : IsHex4 u n) (rest : Str) : getu4 (u ++ rest) = some (n, rest) := by
  obtain ⟨a, b, c, d, x, y, z, w, rfl, h1, h2, h3, h4, rfl⟩ := h
  simp only [List.cons_append, List.nil_append, getu4, hexValue_of h1, hexValue_of h2, hexValue_of h3, hexValue_of h4,
    Option.some.injEq, Prod.mk.injEq, and_true]
  omega

theorem hex_plain {b : UInt8} {n : Nat} (h : IsHex b n) : b ≠ 0x22 ∧ b ≠ 0x5C := by
  constructor <;> apply u8_ne
  · show b.toNat ≠ 0x22
    rcases h with h | h | h <;> omega
  · show b.toNat ≠ 0x5C
    rcases h with h | h | h <;> omega

theorem hexDigit_isHex {n : Nat} (h : n < 16) : IsHex (hexDigit n) n := by
  unfold hexDigit
  split
  · left; rw [ofNat_toNat_lt _ (by omega)]; omega
  · right; left; rw [ofNat_toNat_lt _ (by omega)]; omega

/-! ## Strings -/

theorem scanString_raw {b : UInt8} (h1 : b ≠ 0x22) (h2 : b ≠ 0x5C) (t : Str) :
    scanString (b :: t) = (scanString t).map fun p => (b :: p.1, p.2) := by
  rw [scanString.eq_def]; simp only [if_neg h1, if_neg h2]

theorem scanString_esc (c : UInt8) (t : Str) :
    scanString (0x5C :: c :: t) = (scanString t).map fun p => (0x5C :: c :: p.1, p.2) := by
  rw [scanString.eq_def]; rfl

theorem scanString_hex4 {u : Str} {n : Nat} (h : IsHex4 u n) (t : Str) :
    scanString (u ++ t) = (scanString t).map fun p => (u ++ p.1, p.2) := by
  obtain ⟨a, b, c, d, x, y, z, w, rfl, h1, h2, h3, h4, -⟩ := h
  have p1 := hex_plain h1; have p2 := hex_plain h2; have p3 := hex_plain h3; have p4 := hex_plain h4
  simp only [List.cons_append, List.nil_append]
  rw [scanString_raw p1.1 p1.2, scanString_raw p2.1 p2.2, scanString_raw p3.1 p3.2, scanString_raw p4.1 p4.2]
  cases scanString t <;> rfl

theorem scanString_text {t s : Str} (h : StrText t s) (rest : Str) :
    scanString (t ++ 0x22 :: rest) = some (t, rest) := by
  induction h with
  | nil => rw [List.nil_append, scanString.eq_def]; rfl
  | raw hq hb _ ih => rw [List.cons_append, scanString_raw hq hb, ih]; rfl
  | short hc _ ih => rw [List.cons_append, List.cons_append, scanString_esc, ih]; rfl
  | @unicode u r t s hu _ _ ih =>
    show scanString (0x5C :: 0x75 :: (u ++ t ++ 0x22 :: rest)) = _
    rw [scanString_esc, List.append_assoc, scanString_hex4 hu, ih]
    rfl
  | @pair u v hi lo t s hu hv _ _ _ ih =>
    have e : (0x5C :: 0x75 :: u ++ (0x5C :: 0x75 :: v ++ t)) ++ 0x22 :: rest
        = 0x5C :: 0x75 :: (u ++ (0x5C :: 0x75 :: (v ++ (t ++ 0x22 :: rest)))) := by simp
    rw [e, scanString_esc, scanString_hex4 hu, scanString_esc, scanString_hex4 hv, ih]
    rfl

theorem unescape_raw {b : UInt8} (h : b ≠ 0x5C) (n : Nat) (t : Str) :
    unescape (n + 1) (b :: t) = (unescape n t).map (b :: ·) := by rw [unescape, if_neg h]

theorem decodeEscape_short {c b : UInt8} (h : (c, b) ∈ shortEscapes) (t : Str) :
    decodeEscape (c :: t) = some (b.toNat, t) ∧ encodeRune b.toNat = [b] := by
  simp only [shortEscapes, List.mem_cons, Prod.mk.injEq, List.not_mem_nil, or_false] at h
  rcases h with h | h | h | h | h | h | h | h <;> (obtain ⟨rfl, rfl⟩ := h; exact ⟨by simp [decodeEscape], by decide⟩)

theorem unescape_text {t s : Str} (h : StrText t s) : ∀ n, t.length ≤ n → unescape n t = some s := by
  induction h with
  | nil => intro n _; cases n <;> rfl
  | raw hq hb _ ih =>
    intro n hn
    cases n with
    | zero => simp at hn
    | succ n => rw [unescape_raw hb, ih n (by simp at hn; omega)]; rfl
  | short hc _ ih =>
    intro n hn
    cases n with
    | zero => simp at hn
    | succ n =>
      obtain ⟨h1, h2⟩ := decodeEscape_short hc (by assumption)
      rw [unescape, if_pos rfl, (decodeEscape_short hc _).1]
      simp only []
      rw [ih n (by simp at hn; omega), h2]
      rfl
  | @unicode u r t s hu hr _ ih =>
    intro n hn
    cases n with
    | zero => simp at hn
    | succ n =>
      have e : decodeEscape (0x75 :: (u ++ t)) = some (r, t) := by
        simp only [decodeEscape, getu4_of hu]
        rw [if_neg (show ¬ (0xD800 ≤ r ∧ r < 0xE000) by omega)]
        rfl
      show unescape (n + 1) (0x5C :: 0x75 :: (u ++ t)) = _
      rw [unescape, if_pos rfl, e]
      simp only []
      rw [ih n (by simp at hn; omega)]
      rfl
  | @pair u v hi lo t s hu hv h1 h2 _ ih =>
    intro n hn
    cases n with
    | zero => simp at hn
    | succ n =>
      have e : decodeEscape (0x75 :: (u ++ (0x5C :: 0x75 :: v ++ t)))
          = some (0x10000 + (hi - 0xD800) * 0x400 + (lo - 0xDC00), t) := by
        simp only [decodeEscape, getu4_of hu]
        rw [if_pos (show 0xD800 ≤ hi ∧ hi < 0xE000 by omega)]
        simp only [pairWith, List.cons_append, getu4_of hv]
        rw [if_pos (show hi < 0xDC00 ∧ 0xDC00 ≤ lo ∧ lo < 0xE000 by omega)]
        rfl
      show unescape (n + 1) (0x5C :: 0x75 :: (u ++ (0x5C :: 0x75 :: v ++ t))) = _
      rw [unescape, if_pos rfl, e]
      simp only []
      rw [ih n (by simp at hn; omega)]
      rfl

/-! ## Numbers and words -/

theorem isDigit_of {d : UInt8} (h : 0x30 ≤ d ∧ d ≤ 0x39) : isDigit d = true := by
  simp [isDigit, h.1, h.2]

theorem scanNumber_digit {d : UInt8} (h : 0x30 ≤ d ∧ d ≤ 0x39) (a b c : Bool) (t : Str) :
    scanNumber a b c (d :: t) = (scanNumber a false c t).map fun p => (d :: p.1, p.2) := by
  rw [scanNumber]; simp only [isDigit_of h, if_true]

theorem scanNumber_digits (a c : Bool) (t : Str) : ∀ (ds : Str) (b : Bool), (∀ d ∈ ds, 0x30 ≤ d ∧ d ≤ 0x39) →
    (b = false ∨ ds ≠ []) →
    scanNumber a b c (ds ++ t) = (scanNumber a false c t).map fun p => (ds ++ p.1, p.2) := by
  intro ds
  induction ds with
  | nil =>
    intro b _ hb
    rcases hb with rfl | hb
    · simp
    · exact absurd rfl hb
  | cons d ds ih =>
    intro b h _
    rw [List.cons_append, scanNumber_digit (h d (by simp)), ih false (fun e he => h e (by simp [he])) (.inl rfl)]
    cases scanNumber a false c t <;> rfl

theorem isTokenEnd_of {b : UInt8} (h : IsBreak b) : isTokenEnd b = true := by
  rcases h with h | h | h | h | h | h | h | h | h | h <;> (subst h; decide)

theorem scanNumber_end (a c : Bool) (rest : Str) (h : ∀ b, rest.head? = some b → IsBreak b) :
    scanNumber a false c rest = some ([], rest) := by
  cases rest with
  | nil => rfl
  | cons b rest =>
    have hb := h b rfl
    have e := isTokenEnd_of hb
    rw [scanNumber]
    rcases hb with h | h | h | h | h | h | h | h | h | h <;>
      (subst h; simp only [isDigit]; rw [if_neg (by decide), if_neg (by decide +revert), if_neg (by decide +revert), if_neg (by decide), if_pos (by decide)])

theorem scanNumber_text {frac exp rest : Str} (hb : ∀ b, rest.head? = some b → IsBreak b)
    (hf : frac = [] ∨ ∃ fs, IsDigits fs ∧ frac = 0x2E :: fs)
    (he : exp = [] ∨ ∃ e sg es, (e = 0x65 ∨ e = 0x45) ∧ (sg = [] ∨ sg = [0x2B] ∨ sg = [0x2D]) ∧ IsDigits es ∧
      exp = e :: (sg ++ es)) :
    scanNumber false false false (frac ++ exp ++ rest) = some (frac ++ exp, rest) := by
  have h1 : ∀ c, scanNumber false false c (exp ++ rest) = some (exp, rest) := by
    intro c
    rcases he with rfl | ⟨e, sg, es, he, hs, hd, rfl⟩
    · exact scanNumber_end false c rest hb
    · have h2 : scanNumber true true true (sg ++ es ++ rest) = some (sg ++ es, rest) := by
        have h3 : ∀ b, scanNumber true b true (es ++ rest) = some (es, rest) := by
          intro b
          rw [scanNumber_digits true true rest es b hd.2 (.inr hd.1), scanNumber_end true true rest hb]
          simp
        rcases hs with rfl | rfl | rfl
        · exact h3 true
        · show scanNumber true true true (0x2B :: (es ++ rest)) = _
          rw [scanNumber]
          simp only [isDigit]
          rw [if_neg (by decide), if_neg (by decide), if_neg (by decide), if_pos (by decide), h3]
          rfl
        · show scanNumber true true true (0x2D :: (es ++ rest)) = _
          rw [scanNumber]
          simp only [isDigit]
          rw [if_neg (by decide), if_neg (by decide), if_neg (by decide), if_pos (by decide), h3]
          rfl
      rw [List.cons_append, scanNumber]
      rcases he with rfl | rfl
      · simp only [isDigit]
        rw [if_neg (by decide), if_neg (by decide +revert), if_pos (by decide +revert), h2]
        rfl
      · simp only [isDigit]
        rw [if_neg (by decide), if_neg (by decide +revert), if_pos (by decide +revert), h2]
        rfl
  rcases hf with rfl | ⟨fs, hd, rfl⟩
  · exact h1 false
  · rw [List.cons_append, List.cons_append, scanNumber]
    simp only [isDigit]
    rw [if_neg (by decide), if_pos (by decide), List.append_assoc, scanNumber_digits false true _ fs false hd.2 (.inl rfl), h1]
    simp

theorem all_digits {ds : Str} (h : ∀ d ∈ ds, 0x30 ≤ d ∧ d ≤ 0x39) : ds.all isDigit = true := by
  rw [List.all_eq_true]
  exact fun d hd => isDigit_of (h d hd)

theorem parseInt_signed {sign ds : Str} (hs : sign = [] ∨ sign = [0x2D]) (hd : IsDigits ds) (more : Str) :
    parseInt (sign ++ ds ++ more) = parseDigits (!decide (sign = [])) (ds ++ more) := by
  rcases hs with rfl | rfl
  · obtain ⟨d, ds', rfl⟩ : ∃ d ds', ds = d :: ds' := by
      cases ds with
      | nil => exact absurd rfl hd.1
      | cons d ds' => exact ⟨d, ds', rfl⟩
    have hne : d ≠ 0x2D := by
      have := hd.2 d (by simp)
      rintro rfl
      exact absurd this.1 (by decide)
    show parseInt (d :: (ds' ++ more)) = _
    rw [parseInt, if_neg hne]
    rfl
  · show parseInt (0x2D :: (ds ++ more)) = _
    rw [parseInt, if_pos rfl]
    rfl

theorem parseInt_text {sign ds : Str} (hs : sign = [] ∨ sign = [0x2D]) (hd : IsDigits ds) {v : Int}
    (hv : v = if sign = [] then (decimalValue ds : Int) else - (decimalValue ds : Int)) :
    (InRange v → parseInt (sign ++ ds) = some v) ∧ (¬ InRange v → parseInt (sign ++ ds) = none) := by
  have hr : InRange v ↔ (-9223372036854775808 ≤ v ∧ v < 9223372036854775808) := by
    unfold InRange
    rw [show (-2 ^ 63 : Int) = -9223372036854775808 by decide, show (2 ^ 63 : Int) = 9223372036854775808 by decide]
  have e : parseInt (sign ++ ds) = if (-9223372036854775808 : Int) ≤ v ∧ v < 9223372036854775808 then some v else none := by
    have := parseInt_signed hs hd []
    rw [List.append_nil, List.append_nil] at this
    rw [this, parseDigits, if_pos ⟨hd.1, all_digits hd.2⟩]
    have hn : v = if (!decide (sign = [])) = true then - (digitsValue ds : Int) else digitsValue ds := by
      rw [hv]
      rcases hs with rfl | rfl <;> rfl
    simp only [← hn]
  rw [e, hr]
  exact ⟨fun h => if_pos h, fun h => if_neg h⟩

theorem scanNumber_dec (a b c : Bool) : ∀ (t : Str) p, scanNumber a b c t = some p → t = p.1 ++ p.2 := by
  intro t
  induction t generalizing a b c with
  | nil => intro p h; simp only [scanNumber, Option.some.injEq] at h; subst h; rfl
  | cons d t ih =>
    intro p h
    have key : ∀ a b c, (scanNumber a b c t).map (fun p => (d :: p.1, p.2)) = some p → d :: t = p.1 ++ p.2 := by
      intro a b c h
      cases hq : scanNumber a b c t with
      | none => rw [hq] at h; cases h
      | some q =>
        rw [hq] at h
        cases h
        rw [ih _ _ _ _ hq]
        rfl
    rw [scanNumber] at h
    split at h
    · exact key _ _ _ h
    · split at h
      · exact key _ _ _ h
      · split at h
        · exact key _ _ _ h
        · split at h
          · exact key _ _ _ h
          · split at h
            · cases h; rfl
            · cases h

/-- A text with a point or an exponent is not an integer. -/
theorem parseInt_none {sign ds frac exp : Str} (hs : sign = [] ∨ sign = [0x2D]) (hd : IsDigits ds)
    (hf : frac = [] ∨ ∃ fs, IsDigits fs ∧ frac = 0x2E :: fs)
    (he : exp = [] ∨ ∃ e sg es, (e = 0x65 ∨ e = 0x45) ∧ (sg = [] ∨ sg = [0x2B] ∨ sg = [0x2D]) ∧ IsDigits es ∧
      exp = e :: (sg ++ es)) (hn : ¬ (frac = [] ∧ exp = [])) : parseInt (sign ++ ds ++ frac ++ exp) = none := by
  have hx : ∃ x ∈ frac ++ exp, isDigit x = false := by
    rcases hf with rfl | ⟨fs, -, rfl⟩
    · rcases he with rfl | ⟨e, sg, es, h, -, -, rfl⟩
      · exact absurd ⟨rfl, rfl⟩ hn
      · rcases h with rfl | rfl
        · exact ⟨0x65, by simp, by decide⟩
        · exact ⟨0x45, by simp, by decide⟩
    · exact ⟨0x2E, by simp, by decide⟩
  obtain ⟨x, hx, hxd⟩ := hx
  have hall : ∀ l : Str, (l ++ frac ++ exp).all isDigit = false := by
    intro l
    apply Bool.eq_false_iff.2
    intro h
    rw [List.all_eq_true] at h
    have := h x (by rw [List.append_assoc]; exact List.mem_append_right _ hx)
    rw [hxd] at this
    cases this
  have := parseInt_signed hs hd (frac ++ exp)
  rw [← List.append_assoc] at this
  rw [this, parseDigits, if_neg]
  rintro ⟨-, h⟩
  rw [← List.append_assoc, hall] at h
  cases h

theorem scanWord_text (w rest : Str) (h : ∀ b, rest.head? = some b → IsBreak b) : scanWord w (w ++ rest) = some rest := by
  induction w with
  | nil =>
    cases rest with
    | nil => rfl
    | cons b rest => rw [List.nil_append, scanWord, if_pos (isTokenEnd_of (h b rfl))]
  | cons w ws ih => rw [List.cons_append, scanWord, if_pos rfl, ih]

/-! ## Tokens -/

theorem lexTok_num {c : UInt8} (h : isDigit c = true ∨ c = 0x2D) (rest : Str) :
    isSpace c = false ∧
    lexTok c rest = (scanNumber false false false rest).map fun p => (.num (parseInt (c :: p.1)), p.2) := by
  have hc : c = 0x2D ∨ (0x30 ≤ c.toNat ∧ c.toNat ≤ 0x39) := by
    rcases h with h | h
    · right
      simp only [isDigit, Bool.and_eq_true, decide_eq_true_eq, u8_le] at h
      exact h
    · exact .inl h
  have hn : ∀ b : UInt8, b.toNat ≠ 0x2D → ¬ (0x30 ≤ b.toNat ∧ b.toNat ≤ 0x39) → c ≠ b := by
    intro b h1 h2
    rcases hc with rfl | hc
    · exact fun e => h1 (by rw [← e]; rfl)
    · exact fun e => h2 (by rw [← e]; exact hc)
  have n1 := hn 0x20 (by decide) (by decide)
  have n2 := hn 0x09 (by decide) (by decide)
  have n3 := hn 0x0D (by decide) (by decide)
  have n4 := hn 0x0A (by decide) (by decide)
  have n5 := hn 0x3A (by decide) (by decide)
  have n6 := hn 0x2C (by decide) (by decide)
  have n7 := hn 0x7B (by decide) (by decide)
  have n8 := hn 0x7D (by decide) (by decide)
  have n9 := hn 0x5B (by decide) (by decide)
  have n10 := hn 0x5D (by decide) (by decide)
  have n11 := hn 0x22 (by decide) (by decide)
  refine ⟨by simp [isSpace, n1, n2, n3, n4], ?_⟩
  rw [lexTok, if_neg n5, if_neg n6, if_neg n7, if_neg n8, if_neg n9, if_neg n10, if_neg n11, if_pos h]

theorem lexTok_text {k : Tok} {t : Str} (ht : TokText k t) (rest : Str)
    (hb : k.isWord = true → ∀ b, rest.head? = some b → IsBreak b) :
    ∃ c t', t = c :: t' ∧ isSpace c = false ∧ lexTok c (t' ++ rest) = some (k, rest) := by
  cases ht with
  | lbrace => exact ⟨_, _, rfl, by decide, rfl⟩
  | rbrace => exact ⟨_, _, rfl, by decide, rfl⟩
  | lbrack => exact ⟨_, _, rfl, by decide, rfl⟩
  | rbrack => exact ⟨_, _, rfl, by decide, rfl⟩
  | colon => exact ⟨_, _, rfl, by decide, rfl⟩
  | comma => exact ⟨_, _, rfl, by decide, rfl⟩
  | @str t s h =>
    refine ⟨0x22, t ++ [0x22], rfl, by decide, ?_⟩
    have e : t ++ [0x22] ++ rest = t ++ 0x22 :: rest := by simp
    rw [lexTok, if_neg (by decide), if_neg (by decide), if_neg (by decide), if_neg (by decide), if_neg (by decide),
      if_neg (by decide), if_pos rfl, e, scanString_text h]
    simp only []
    rw [unescape_text h _ (Nat.le_refl _)]
    rfl
  | @num t n h =>
    have hb := hb rfl
    obtain ⟨sign, ds, frac, exp, rfl, hs, hd, hf, he, v, hv, hn⟩ := h
    have hscan := scanNumber_text hb hf he
    have hp : parseInt (sign ++ ds ++ frac ++ exp) = n := by
      rcases hn with ⟨rfl, rfl, hr, rfl⟩ | ⟨hr, rfl⟩
      · simpa using (parseInt_text hs hd hv).1 hr
      · by_cases hfe : frac = [] ∧ exp = []
        · obtain ⟨rfl, rfl⟩ := hfe
          simpa using (parseInt_text hs hd hv).2 (fun h => hr ⟨rfl, rfl, h⟩)
        · exact parseInt_none hs hd hf he hfe
    obtain ⟨d, ds', rfl⟩ : ∃ d ds', ds = d :: ds' := by
      cases ds with
      | nil => exact absurd rfl hd.1
      | cons d ds' => exact ⟨d, ds', rfl⟩
    rcases hs with rfl | rfl
    · refine ⟨d, ds' ++ frac ++ exp, by simp, ?_⟩
      obtain ⟨h1, h2⟩ := lexTok_num (c := d) (.inl (isDigit_of (hd.2 d (by simp)))) (ds' ++ frac ++ exp ++ rest)
      refine ⟨h1, ?_⟩
      rw [h2]
      have e : ds' ++ frac ++ exp ++ rest = ds' ++ (frac ++ exp ++ rest) := by simp
      rw [e, scanNumber_digits false false _ ds' false (fun x hx => hd.2 x (by simp [hx])) (.inl rfl), hscan]
      simp only [Option.map_some, Option.some.injEq, Prod.mk.injEq, and_true]
      rw [← hp]
      simp
    · refine ⟨0x2D, d :: ds' ++ frac ++ exp, by simp, ?_⟩
      obtain ⟨h1, h2⟩ := lexTok_num (c := 0x2D) (.inr rfl) (d :: ds' ++ frac ++ exp ++ rest)
      refine ⟨h1, ?_⟩
      rw [h2]
      have e : d :: ds' ++ frac ++ exp ++ rest = (d :: ds') ++ (frac ++ exp ++ rest) := by simp
      rw [e, scanNumber_digits false false _ (d :: ds') false hd.2 (.inl rfl), hscan]
      simp only [Option.map_some, Option.some.injEq, Prod.mk.injEq, and_true]
      rw [← hp]
      simp
  | yes =>
    refine ⟨0x74, lit "rue", by decide +kernel, by decide, ?_⟩
    rw [lexTok, if_neg (by decide), if_neg (by decide), if_neg (by decide), if_neg (by decide), if_neg (by decide),
      if_neg (by decide), if_neg (by decide), if_neg (by decide), if_neg (by decide), if_pos rfl, scanWord_text _ _ (hb rfl)]
    rfl
  | no =>
    refine ⟨0x66, lit "alse", by decide +kernel, by decide, ?_⟩
    rw [lexTok, if_neg (by decide), if_neg (by decide), if_neg (by decide), if_neg (by decide), if_neg (by decide),
      if_neg (by decide), if_neg (by decide), if_neg (by decide), if_neg (by decide), if_neg (by decide), if_pos rfl,
      scanWord_text _ _ (hb rfl)]
    rfl
  | null =>
    refine ⟨0x6E, lit "ull", by decide +kernel, by decide, ?_⟩
    rw [lexTok, if_neg (by decide), if_neg (by decide), if_neg (by decide), if_neg (by decide), if_neg (by decide),
      if_neg (by decide), if_neg (by decide), if_neg (by decide), if_pos rfl, scanWord_text _ _ (hb rfl)]
    rfl

theorem lexAux_blank {ws : Str} (hw : IsBlank ws) (rest : Str) : ∀ n, ws.length ≤ n →
    lexAux n (ws ++ rest) = lexAux (n - ws.length) rest := by
  induction ws with
  | nil => intro n _; rfl
  | cons b ws ih =>
    intro n hn
    cases n with
    | zero => simp at hn
    | succ n =>
      have hs : isSpace b = true := by
        rcases hw b (by simp) with h | h | h | h <;> (subst h; decide)
      rw [List.cons_append, lexAux]
      simp only [hs, if_true]
      rw [ih (fun x hx => hw x (by simp [hx])) n (by simp at hn; omega)]
      congr 1
      simp

theorem lexAux_text {ks : List Tok} {t : Str} (h : Text ks t) : ∀ n, t.length ≤ n → lexAux n t = some ks := by
  induction h with
  | @nil ws hw =>
    intro n hn
    have := lexAux_blank hw [] n hn
    rw [List.append_nil] at this
    rw [this]
    cases n - ws.length <;> rfl
  | @cons ws t rest k ks hw ht _ hb ih =>
    intro n hn
    obtain ⟨c, t', rfl, h1, h2⟩ := lexTok_text ht rest hb
    simp only [List.length_append, List.length_cons] at hn
    rw [List.append_assoc, lexAux_blank hw _ n (by omega)]
    obtain ⟨m, hm⟩ : ∃ m, n - ws.length = m + 1 := ⟨n - ws.length - 1, by omega⟩
    rw [hm, List.cons_append, lexAux]
    simp only [h1, h2]
    rw [ih m (by omega)]
    rfl

/-- Every way to write tokens is read as these tokens. -/
theorem lexAll_text {ks : List Tok} {t : Str} (h : Text ks t) : lexAll t = some ks :=
  lexAux_text h _ (Nat.le_refl _)

/-! ## Writing -/

theorem take_encode (b0 : UInt8) (rest : Str) (h : ¬ ((decodeRune (b0 :: rest)).1 = runeError ∧ (decodeRune (b0 :: rest)).2 = 1)) :
    (b0 :: rest).take (decodeRune (b0 :: rest)).2 = encodeRune (decodeRune (b0 :: rest)).1 := by
  have back : ∀ n (b : UInt8), n = b.toNat → UInt8.ofNat n = b := by
    intro n b hn
    rw [hn]
    exact UInt8.ofNat_toNat
  have lo : ∀ b1, acceptLo b0 ≤ b1 → 0x80 ≤ b1.toNat := fun b1 h6 => by
    have : (0x80 : UInt8) ≤ acceptLo b0 := acceptLo_ge b0
    exact u8_le.1 (UInt8.le_trans this h6)
  have hi : ∀ b1, b1 ≤ acceptHi b0 → b1.toNat ≤ 0xBF := fun b1 h7 => by
    have : acceptHi b0 ≤ 0xBF := acceptHi_le b0
    exact u8_le.1 (UInt8.le_trans h7 this)
  have cont : ∀ b, isCont b = true → 0x80 ≤ b.toNat ∧ b.toNat ≤ 0xBF := by
    intro b hb
    simp only [isCont, Bool.and_eq_true, decide_eq_true_eq, u8_le] at hb
    exact hb
  have hE0 : b0.toNat = 0xE0 → ∀ b1, acceptLo b0 ≤ b1 → 0xA0 ≤ b1.toNat := by
    intro h b1 h6
    have : b0 = 0xE0 := by rw [← UInt8.toNat_inj]; exact h
    subst this
    exact u8_le.1 h6
  have hED : b0.toNat = 0xED → ∀ b1, b1 ≤ acceptHi b0 → b1.toNat ≤ 0x9F := by
    intro h b1 h6
    have : b0 = 0xED := by rw [← UInt8.toNat_inj]; exact h
    subst this
    exact u8_le.1 h6
  have hF0 : b0.toNat = 0xF0 → ∀ b1, acceptLo b0 ≤ b1 → 0x90 ≤ b1.toNat := by
    intro h b1 h6
    have : b0 = 0xF0 := by rw [← UInt8.toNat_inj]; exact h
    subst this
    exact u8_le.1 h6
  have hF4 : b0.toNat = 0xF4 → ∀ b1, b1 ≤ acceptHi b0 → b1.toNat ≤ 0x8F := by
    intro h b1 h6
    have : b0 = 0xF4 := by rw [← UInt8.toNat_inj]; exact h
    subst this
    exact u8_le.1 h6
  rcases decodeRune_cases b0 rest with ⟨h1, h2⟩ | ⟨h1, h2⟩ | ⟨b1, t, rfl, h1, h2, h3, h4, h5, h6, hd⟩ |
    ⟨b1, b2, t, rfl, h1, h2, h3, h4, h5, h6, h7, h8, hd⟩ |
    ⟨b1, b2, b3, t, rfl, h1, h2, h3, h4, h5, h6, h7, h8, h9, hd⟩
  · rw [h2]
    have : b0.toNat < 0x80 := by rw [UInt8.lt_iff_toNat_lt] at h1; exact h1
    simp only [List.take_succ_cons, List.take_zero]
    rw [encodeRune, if_pos this, UInt8.ofNat_toNat]
  · rw [h2] at h
    exact absurd ⟨rfl, rfl⟩ h
  · rw [hd]
    simp only [UInt8.lt_iff_toNat_lt] at h1 h2 h3 h4
    simp only [show (0x80 : UInt8).toNat = 0x80 from rfl, show (0xC2 : UInt8).toNat = 0xC2 from rfl, show (0xE0 : UInt8).toNat = 0xE0 from rfl] at h1 h2 h4
    have l1 := lo b1 h5; have l2 := hi b1 h6
    simp only [List.take_succ_cons, List.take_zero]
    rw [encodeRune, if_neg (by omega), if_pos (by omega), back _ b0 (by omega), back _ b1 (by omega)]
  · rw [hd]
    simp only [UInt8.lt_iff_toNat_lt] at h1 h2 h3 h4 h5
    simp only [show (0x80 : UInt8).toNat = 0x80 from rfl, show (0xC2 : UInt8).toNat = 0xC2 from rfl, show (0xE0 : UInt8).toNat = 0xE0 from rfl, show (0xF0 : UInt8).toNat = 0xF0 from rfl] at h1 h2 h4 h5
    have l1 := lo b1 h6; have l2 := hi b1 h7
    obtain ⟨c1, c2⟩ := cont b2 h8
    have e0 := fun h => hE0 h b1 h6
    have e1 := fun h => hED h b1 h7
    simp only [List.take_succ_cons, List.take_zero]
    rw [encodeRune, if_neg (by omega), if_neg (by omega), if_neg (by simp only [Bool.or_eq_true, Bool.and_eq_true, decide_eq_true_eq]; omega),
      if_pos (by omega), back _ b0 (by omega), back _ b1 (by omega), back _ b2 (by omega)]
  · rw [hd]
    simp only [UInt8.lt_iff_toNat_lt] at h1 h2 h3 h4 h5
    simp only [show (0x80 : UInt8).toNat = 0x80 from rfl, show (0xC2 : UInt8).toNat = 0xC2 from rfl, show (0xE0 : UInt8).toNat = 0xE0 from rfl, show (0xF0 : UInt8).toNat = 0xF0 from rfl, show (0xF4 : UInt8).toNat = 0xF4 from rfl] at h1 h2 h3 h4 h5
    have l1 := lo b1 h6; have l2 := hi b1 h7
    obtain ⟨c1, c2⟩ := cont b2 h8
    obtain ⟨c3, c4⟩ := cont b3 h9
    have e0 := fun h => hF0 h b1 h6
    have e1 := fun h => hF4 h b1 h7
    simp only [List.take_succ_cons, List.take_zero]
    rw [encodeRune, if_neg (by omega), if_neg (by omega), if_neg (by simp only [Bool.or_eq_true, Bool.and_eq_true, decide_eq_true_eq]; omega),
      if_neg (by omega), back _ b0 (by omega), back _ b1 (by omega), back _ b2 (by omega), back _ b3 (by omega)]

theorem strText_raws {u t s : Str} (hu : ∀ b ∈ u, b ≠ 0x22 ∧ b ≠ 0x5C) (h : StrText t s) : StrText (u ++ t) (u ++ s) := by
  induction u with
  | nil => exact h
  | cons b u ih => exact .raw (hu b (by simp)).1 (hu b (by simp)).2 (ih fun x hx => hu x (by simp [hx]))

theorem encodeRune_high {r : Nat} (h : 0x80 ≤ r) : ∀ b ∈ encodeRune r, 0x80 ≤ b.toNat := by
  intro b hb
  unfold encodeRune at hb
  rw [if_neg (by omega)] at hb
  split at hb
  · simp only [List.mem_cons, List.not_mem_nil, or_false] at hb
    rcases hb with rfl | rfl <;> rw [ofNat_toNat_lt _ (by omega)] <;> omega
  · split at hb
    · simp only [List.mem_cons, List.not_mem_nil, or_false] at hb
      rcases hb with rfl | rfl | rfl <;> decide
    · next hs =>
      simp only [Bool.or_eq_true, Bool.and_eq_true, decide_eq_true_eq] at hs
      split at hb
      · simp only [List.mem_cons, List.not_mem_nil, or_false] at hb
        rcases hb with rfl | rfl | rfl <;> rw [ofNat_toNat_lt _ (by omega)] <;> omega
      · simp only [List.mem_cons, List.not_mem_nil, or_false] at hb
        rcases hb with rfl | rfl | rfl | rfl <;> rw [ofNat_toNat_lt _ (by omega)] <;> omega

theorem decodeRune_high {c : UInt8} {rest : Str} (h1 : ¬ c < 0x80)
    (h2 : ¬ ((decodeRune (c :: rest)).1 = runeError ∧ (decodeRune (c :: rest)).2 = 1)) : 0x80 ≤ (decodeRune (c :: rest)).1 := by
  have ht := take_encode c rest h2
  rcases decodeRune_cases c rest with ⟨h, -⟩ | ⟨-, h⟩ | ⟨b1, t, rfl, -, k2, k3, k4, -, -, hd⟩ |
    ⟨b1, b2, t, rfl, -, k2, k3, k4, k5, k6, k7, k8, hd⟩ |
    ⟨b1, b2, b3, t, rfl, -, k2, k3, k4, k5, k6, k7, k8, k9, hd⟩
  · exact absurd h h1
  · rw [h] at h2; exact absurd ⟨rfl, rfl⟩ h2
  all_goals
    apply Classical.byContradiction
    intro hlt
    have hlt : (decodeRune (c :: _)).1 < 0x80 := Nat.lt_of_not_le hlt
    rw [encodeRune, if_pos hlt, hd] at ht
    simp at ht

theorem hex4_fffd : IsHex4 (lit "fffd") 0xFFFD :=
  ⟨0x66, 0x66, 0x66, 0x64, 15, 15, 15, 13, by decide, .inr (.inl (by decide)), .inr (.inl (by decide)), .inr (.inl (by decide)), .inr (.inl (by decide)), by decide⟩

theorem escapeByte_text {c : UInt8} (hc : c.toNat < 0x80) {t s : Str} (h : StrText t s) : StrText (escapeByte c ++ t) (c :: s) := by
  unfold escapeByte
  split
  · next e => subst e; exact .short (by decide) h
  · split
    · next e => subst e; exact .short (by decide) h
    · split
      · next e => subst e; exact .short (by decide) h
      · split
        · next e => subst e; exact .short (by decide) h
        · split
          · next e => subst e; exact .short (by decide) h
          · have hu : IsHex4 [0x30, 0x30, hexDigit (c.toNat / 16), hexDigit (c.toNat % 16)] c.toNat :=
              ⟨_, _, _, _, 0, 0, c.toNat / 16, c.toNat % 16, rfl, .inl (by decide), .inl (by decide), hexDigit_isHex (by omega),
                hexDigit_isHex (by omega), by omega⟩
            have := StrText.unicode hu (by omega) h
            have e : encodeRune c.toNat = [c] := by rw [encodeRune, if_pos hc, UInt8.ofNat_toNat]
            rw [e] at this
            exact this

theorem replaced_nil : replaced [] = [] := rfl

theorem replaced_cons (b : UInt8) (s : Str) :
    replaced (b :: s) = encodeRune (decodeRune (b :: s)).1 ++ replaced ((b :: s).drop (decodeRune (b :: s)).2) := by
  unfold replaced
  rw [chars_cons, List.flatMap_cons]

/-- What `Writer.String` puts between the quotes stands for the string with every byte that is not UTF-8
replaced. -/
theorem escapeAux_text {plain : UInt8 → Bool} (hp : PlainTable plain) : ∀ (n : Nat) (s : Str), s.length ≤ n →
    StrText (escapeAux plain n s) (replaced s) := by
  intro n
  induction n with
  | zero => intro s hs; cases s with
    | nil => exact .nil
    | cons _ _ => simp at hs
  | succ n ih =>
    intro s hs
    cases s with
    | nil => exact .nil
    | cons c rest =>
      simp only [List.length_cons] at hs
      have hw := decodeRune_width (s := c :: rest) (by simp)
      have hdrop : ((c :: rest).drop (decodeRune (c :: rest)).2).length ≤ n := by
        simp only [List.length_drop, List.length_cons]; omega
      rw [replaced_cons]
      by_cases h1 : c < 0x80
      · have hn : c.toNat < 0x80 := by rw [UInt8.lt_iff_toNat_lt] at h1; exact h1
        rw [decodeRune_1 c rest hn]
        have e : encodeRune c.toNat = [c] := by rw [encodeRune, if_pos hn, UInt8.ofNat_toNat]
        have := ih rest (by omega)
        rw [escapeAux, if_pos h1, e]
        show StrText _ (c :: replaced rest)
        split
        · next hpc => exact .raw (hp c hpc).2.1 (hp c hpc).2.2 this
        · exact escapeByte_text hn this
      · have hn : 0x80 ≤ c.toNat := by
          rw [UInt8.lt_iff_toNat_lt] at h1
          have : (0x80 : UInt8).toNat = 0x80 := rfl
          omega
        rw [escapeAux, if_neg h1]
        simp only []
        by_cases h2 : (decodeRune (c :: rest)).1 = runeError ∧ (decodeRune (c :: rest)).2 = 1
        · rw [if_pos h2, h2.1, h2.2]
          have := StrText.unicode hex4_fffd (by omega) (ih rest (by omega))
          exact this
        · rw [if_neg h2]
          have ht := take_encode c rest h2
          by_cases h3 : (decodeRune (c :: rest)).1 = 0x2028 ∨ (decodeRune (c :: rest)).1 = 0x2029
          · rw [if_pos h3]
            have h3 : @Eq Nat (decodeRune (c :: rest)).1 0x2028 ∨ @Eq Nat (decodeRune (c :: rest)).1 0x2029 := h3
            have hu : IsHex4 (lit "202" ++ [hexDigit ((decodeRune (c :: rest)).1 % 16)]) (decodeRune (c :: rest)).1 :=
              ⟨0x32, 0x30, 0x32, _, 2, 0, 2, (decodeRune (c :: rest)).1 % 16, rfl, .inl (by decide), .inl (by decide), .inl (by decide),
                hexDigit_isHex (by omega), by omega⟩
            have := StrText.unicode hu (by omega) (ih _ hdrop)
            exact this
          · rw [if_neg h3, ht]
            refine strText_raws ?_ (ih _ hdrop)
            have hr := decodeRune_high h1 h2
            intro b hb
            have := encodeRune_high hr b hb
            constructor <;> apply u8_ne
            · show b.toNat ≠ 0x22; omega
            · show b.toNat ≠ 0x5C; omega

theorem isDigits_of {ds : Str} {n : Nat} (h : IsDecimal ds n) : IsDigits ds := ⟨h.1, h.2.1⟩

/-- What `Writer.Int` writes. -/
theorem writeInt_text {n : Int} (h : InRange n) : NumText (writeInt n) (some n) := by
  cases n with
  | ofNat n =>
    have hd := fmtNat_isDecimal n
    refine ⟨[], fmtNat n, [], [], by simp [writeInt], .inl rfl, isDigits_of hd, .inl rfl, .inl rfl, Int.ofNat n, ?_, .inl ⟨rfl, rfl, h, rfl⟩⟩
    rw [if_pos rfl, hd.2.2.2]
    rfl
  | negSucc n =>
    have hd := fmtNat_isDecimal (n + 1)
    refine ⟨[0x2D], fmtNat (n + 1), [], [], by simp [writeInt], .inr rfl, isDigits_of hd, .inl rfl, .inl rfl, Int.negSucc n, ?_,
      .inl ⟨rfl, rfl, h, rfl⟩⟩
    rw [if_neg (by simp), hd.2.2.2]
    rfl

theorem blank_nil : IsBlank [] := fun _ h => nomatch h

/-- A token that needs nothing to end it, written in front of a text. -/
theorem text_cons {t rest : Str} {k : Tok} {ks : List Tok} (ht : TokText k t) (hk : k.isWord = false) (h : Text ks rest) :
    Text (k :: ks) (t ++ rest) := by
  have := Text.cons (ws := []) blank_nil ht h (by rw [hk]; exact fun h => nomatch h)
  exact this

/-- A name without special characters. -/
theorem tokText_name {u : Str} (hu : ∀ b ∈ u, b ≠ 0x22 ∧ b ≠ 0x5C) : TokText (.str u) (0x22 :: u ++ [0x22]) := by
  have := strText_raws hu .nil
  rw [List.append_nil] at this
  exact .str this

theorem tokText_written {plain : UInt8 → Bool} (hp : PlainTable plain) (s : Str) : TokText (.str (replaced s)) (writeString plain s) :=
  .str (escapeAux_text hp _ s (Nat.le_refl _))

/-! ## The bytes written -/

/-- UTF-8 without control characters. -/
def CleanText (t : Str) : Prop := ValidUTF8 t ∧ ∀ b ∈ t, 0x20 ≤ b

theorem CleanText.append {s t : Str} (h1 : CleanText s) (h2 : CleanText t) : CleanText (s ++ t) := by
  obtain ⟨⟨rs, hr, rfl⟩, h1⟩ := h1
  obtain ⟨⟨qs, hq, rfl⟩, h2⟩ := h2
  refine ⟨⟨rs ++ qs, ?_, by rw [List.flatMap_append]⟩, ?_⟩
  · intro r hm
    rcases List.mem_append.1 hm with hm | hm
    · exact hr r hm
    · exact hq r hm
  · intro b hb
    rcases List.mem_append.1 hb with hb | hb
    · exact h1 b hb
    · exact h2 b hb

theorem clean_ascii {t : Str} (h : ∀ b ∈ t, 0x20 ≤ b ∧ b < 0x80) : CleanText t := by
  refine ⟨⟨t.map (·.toNat), ?_, ?_⟩, fun b hb => (h b hb).1⟩
  · intro r hr
    obtain ⟨b, hb, rfl⟩ := List.mem_map.1 hr
    left
    have := (h b hb).2
    rw [UInt8.lt_iff_toNat_lt] at this
    have e : (0x80 : UInt8).toNat = 0x80 := rfl
    omega
  · induction t with
    | nil => rfl
    | cons b t ih =>
      rw [List.map_cons, List.flatMap_cons, ← ih fun x hx => h x (by simp [hx])]
      have := (h b (by simp)).2
      rw [UInt8.lt_iff_toNat_lt] at this
      rw [encodeRune, if_pos (by exact this), UInt8.ofNat_toNat]
      rfl

theorem clean_rune {r : Nat} (hs : IsScalar r) (hr : 0x80 ≤ r) : CleanText (encodeRune r) := by
  refine ⟨⟨[r], by simpa using hs, by simp⟩, ?_⟩
  intro b hb
  have := encodeRune_high hr b hb
  rw [u8_le]
  have e : (0x20 : UInt8).toNat = 0x20 := rfl
  omega

theorem hexDigit_ascii {n : Nat} (h : n < 16) : 0x20 ≤ hexDigit n ∧ hexDigit n < 0x80 := by
  rw [u8_le, UInt8.lt_iff_toNat_lt, show (0x20 : UInt8).toNat = 0x20 from rfl, show (0x80 : UInt8).toNat = 0x80 from rfl]
  rcases hexDigit_isHex h with h | h | h <;> omega

theorem clean_escapeByte {c : UInt8} (hc : c.toNat < 0x80) : CleanText (escapeByte c) := by
  unfold escapeByte
  split
  · exact clean_ascii (by decide)
  · split
    · exact clean_ascii (by decide)
    · split
      · exact clean_ascii (by decide)
      · split
        · exact clean_ascii (by decide)
        · split
          · exact clean_ascii (by decide)
          · refine clean_ascii ?_
            intro b hb
            simp only [List.mem_cons, List.not_mem_nil, or_false] at hb
            rcases hb with rfl | rfl | rfl | rfl | rfl | rfl
            · decide
            · decide
            · decide
            · decide
            · exact hexDigit_ascii (by omega)
            · exact hexDigit_ascii (by omega)

theorem clean_escapeAux {plain : UInt8 → Bool} (hp : PlainTable plain) : ∀ (n : Nat) (s : Str), CleanText (escapeAux plain n s) := by
  intro n
  induction n with
  | zero => intro s; exact clean_ascii (fun _ h => nomatch h)
  | succ n ih =>
    intro s
    cases s with
    | nil => exact clean_ascii (fun _ h => nomatch h)
    | cons c rest =>
      by_cases h1 : c < 0x80
      · have hn : c.toNat < 0x80 := by rw [UInt8.lt_iff_toNat_lt] at h1; exact h1
        rw [escapeAux, if_pos h1]
        refine CleanText.append ?_ (ih _)
        split
        · next hpc =>
          refine clean_ascii ?_
          intro b hb
          simp only [List.mem_cons, List.not_mem_nil, or_false] at hb
          subst hb
          exact ⟨(hp _ hpc).1, h1⟩
        · exact clean_escapeByte hn
      · rw [escapeAux, if_neg h1]
        simp only []
        by_cases h2 : (decodeRune (c :: rest)).1 = runeError ∧ (decodeRune (c :: rest)).2 = 1
        · rw [if_pos h2]
          exact CleanText.append (clean_ascii (by decide)) (ih _)
        · rw [if_neg h2]
          by_cases h3 : (decodeRune (c :: rest)).1 = 0x2028 ∨ (decodeRune (c :: rest)).1 = 0x2029
          · rw [if_pos h3]
            refine CleanText.append (CleanText.append (clean_ascii (by decide)) (clean_ascii ?_)) (ih _)
            intro b hb
            simp only [List.mem_cons, List.not_mem_nil, or_false] at hb
            subst hb
            exact hexDigit_ascii (Nat.mod_lt _ (by omega))
          · rw [if_neg h3, take_encode c rest h2]
            exact CleanText.append (clean_rune (decodeRune_scalar _) (decodeRune_high h1 h2)) (ih _)

theorem clean_writeString {plain : UInt8 → Bool} (hp : PlainTable plain) (s : Str) : CleanText (writeString plain s) := by
  have h : CleanText [0x22] := clean_ascii (by decide)
  exact (h.append (clean_escapeAux hp _ s)).append h

theorem clean_fmtNat (n : Nat) : CleanText (fmtNat n) := by
  refine clean_ascii ?_
  intro b hb
  have h1 := (fmtNat_isDecimal n).2.1 b hb
  refine ⟨UInt8.le_trans (by decide) h1.1, UInt8.lt_of_le_of_lt h1.2 (by decide)⟩

theorem clean_writeInt (n : Int) : CleanText (writeInt n) := by
  cases n with
  | ofNat n => exact clean_fmtNat n
  | negSucc n =>
    have h : CleanText [0x2D] := clean_ascii (by decide)
    exact h.append (clean_fmtNat _)

end Visigoth
