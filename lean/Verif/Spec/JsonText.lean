import Verif.Spec.Json
import Verif.Spec.Render
/-!
# JSON texts

How tokens may be written: any white space between them, any of the escapes of JSON in strings.
-/
namespace Visigoth

/-- `b` is a hexadecimal digit with value `n`. -/
def IsHex (b : UInt8) (n : Nat) : Prop :=
  (0x30 ≤ b.toNat ∧ b.toNat ≤ 0x39 ∧ b.toNat = 0x30 + n) ∨
  (0x61 ≤ b.toNat ∧ b.toNat ≤ 0x66 ∧ b.toNat + 10 = 0x61 + n) ∨
  (0x41 ≤ b.toNat ∧ b.toNat ≤ 0x46 ∧ b.toNat + 10 = 0x41 + n)

/-- `t` is the number `n` in four hexadecimal digits. -/
def IsHex4 (t : Str) (n : Nat) : Prop :=
  ∃ a b c d x y z w, t = [a, b, c, d] ∧ IsHex a x ∧ IsHex b y ∧ IsHex c z ∧ IsHex d w ∧
    n = x * 4096 + y * 256 + z * 16 + w

/-- The two-character escapes of JSON: the letter after the backslash, and the byte meant. -/
def shortEscapes : List (UInt8 × UInt8) :=
  [(0x22, 0x22), (0x5C, 0x5C), (0x2F, 0x2F), (0x62, 0x08), (0x66, 0x0C), (0x6E, 0x0A), (0x72, 0x0D), (0x74, 0x09)]

/-- `t`, between quotes, stands for the string `s`. -/
inductive StrText : Str → Str → Prop
  | nil : StrText [] []
  | raw {b : UInt8} {t s : Str} (hq : b ≠ 0x22) (hb : b ≠ 0x5C) (h : StrText t s) : StrText (b :: t) (b :: s)
  | short {c b : UInt8} {t s : Str} (hc : (c, b) ∈ shortEscapes) (h : StrText t s) :
      StrText (0x5C :: c :: t) (b :: s)
  | unicode {u : Str} {r : Nat} {t s : Str} (hu : IsHex4 u r) (hr : r < 0xD800 ∨ 0xDFFF < r) (h : StrText t s) :
      StrText (0x5C :: 0x75 :: u ++ t) (encodeRune r ++ s)
  | pair {u v : Str} {hi lo : Nat} {t s : Str} (hu : IsHex4 u hi) (hv : IsHex4 v lo)
      (h1 : 0xD800 ≤ hi ∧ hi < 0xDC00) (h2 : 0xDC00 ≤ lo ∧ lo < 0xE000) (h : StrText t s) :
      StrText (0x5C :: 0x75 :: u ++ (0x5C :: 0x75 :: v ++ t))
        (encodeRune (0x10000 + (hi - 0xD800) * 0x400 + (lo - 0xDC00)) ++ s)

/-- At least one decimal digit, and nothing else. -/
def IsDigits (ds : Str) : Prop := ds ≠ [] ∧ ∀ d ∈ ds, 0x30 ≤ d ∧ d ≤ 0x39

/-- The integers of 64 bits. -/
def InRange (n : Int) : Prop := -2 ^ 63 ≤ n ∧ n < 2 ^ 63

/-- `t` is a number; `n` is its value if it is written as an integer and is one of 64 bits.  (Leading zeros,
which JSON excludes, are allowed.) -/
def NumText (t : Str) (n : Option Int) : Prop :=
  ∃ sign ds frac exp, t = sign ++ ds ++ frac ++ exp ∧ (sign = [] ∨ sign = [0x2D]) ∧ IsDigits ds ∧
    (frac = [] ∨ ∃ fs, IsDigits fs ∧ frac = 0x2E :: fs) ∧
    (exp = [] ∨ ∃ e sg es, (e = 0x65 ∨ e = 0x45) ∧ (sg = [] ∨ sg = [0x2B] ∨ sg = [0x2D]) ∧ IsDigits es ∧
      exp = e :: (sg ++ es)) ∧
    ∃ v : Int, v = (if sign = [] then (decimalValue ds : Int) else - (decimalValue ds : Int)) ∧
      ((frac = [] ∧ exp = [] ∧ InRange v ∧ n = some v) ∨ (¬ (frac = [] ∧ exp = [] ∧ InRange v) ∧ n = none))

/-- `t` is a way to write the token. -/
inductive TokText : Tok → Str → Prop
  | lbrace : TokText .lbrace [0x7B]
  | rbrace : TokText .rbrace [0x7D]
  | lbrack : TokText .lbrack [0x5B]
  | rbrack : TokText .rbrack [0x5D]
  | colon : TokText .colon [0x3A]
  | comma : TokText .comma [0x2C]
  | str {t s : Str} (h : StrText t s) : TokText (.str s) (0x22 :: t ++ [0x22])
  | num {t : Str} {n : Option Int} (h : NumText t n) : TokText (.num n) t
  | yes : TokText (.bool true) (str "true")
  | no : TokText (.bool false) (str "false")
  | null : TokText .null (str "null")

/-- White space. -/
def IsBlank (t : Str) : Prop := ∀ b ∈ t, b = 0x20 ∨ b = 0x09 ∨ b = 0x0A ∨ b = 0x0D

/-- Tokens that need something to end them. -/
def Tok.isWord : Tok → Bool
  | .num _ | .bool _ | .null => true
  | _ => false

/-- White space or punctuation. -/
def IsBreak (b : UInt8) : Prop :=
  b = 0x20 ∨ b = 0x09 ∨ b = 0x0A ∨ b = 0x0D ∨ b = 0x5B ∨ b = 0x5D ∨ b = 0x7B ∨ b = 0x7D ∨ b = 0x2C ∨ b = 0x3A

/-- `t` is a way to write the tokens, with any white space between them. -/
inductive Text : List Tok → Str → Prop
  | nil {ws : Str} (hw : IsBlank ws) : Text [] ws
  | cons {ws t rest : Str} {k : Tok} {ks : List Tok} (hw : IsBlank ws) (ht : TokText k t) (h : Text ks rest)
      (hb : k.isWord = true → ∀ b, rest.head? = some b → IsBreak b) : Text (k :: ks) (ws ++ t ++ rest)

/-- The string with every byte that is not UTF-8 replaced by U+FFFD. -/
def replaced (s : Str) : Str := (chars s).flatMap fun c => encodeRune c.1

/-- A table of ASCII characters that may be written as they are. -/
def PlainTable (plain : UInt8 → Bool) : Prop := ∀ b, plain b = true → 0x20 ≤ b ∧ b ≠ 0x22 ∧ b ≠ 0x5C

end Visigoth
