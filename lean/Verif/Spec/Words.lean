import Verif.Spec.Text
import Verif.Spec.Index
/-!
# Words and terms of a text, for the end-to-end statement
-/
namespace Visigoth

/-- `w` is a word of the text: a non-empty run of kept characters with no kept character right before it
and none right after it. -/
def IsWord (keep : Rune → Bool) (text w : Str) : Prop :=
  ∃ before run after : List GoChar, chars text = before ++ run ++ after ∧ w = bytesOf run ∧ run ≠ [] ∧
    (∀ c ∈ run, keep c.1 = true) ∧
    (∀ c, before.getLast? = some c → keep c.1 = false) ∧ (∀ c, after.head? = some c → keep c.1 = false)

/-- The word in lower case, character by character. -/
def lowered (uni : Rune → Rune) (w : Str) : Str := (chars w).flatMap fun c => encodeRune (uni c.1)

/-- How a language is analysed: which characters make words, their lower case, the words to leave out and
the stem of a word. -/
structure Language where
  keep : Rune → Bool
  uni : Rune → Rune
  stop : List Str
  stem : Str → Str

/-- `t` is a term of the text: the stem of a word of the text, in lower case, that is not to be left out. -/
def Language.IsTerm (g : Language) (text t : Str) : Prop :=
  ∃ w, IsWord g.keep text w ∧ lowered g.uni w ∉ g.stop ∧ t = g.stem (lowered g.uni w)

/-- The number of words of the text that are not left out, counted as often as they occur. -/
def Language.TermCount (g : Language) (text : Str) (n : Nat) : Prop :=
  ∃ toks, IsTokenization g.keep (chars text) toks ∧
    n = (toks.filter fun w => decide (lowered g.uni (bytesOf w) ∉ g.stop)).length

/-- The text of the query has a term, and all its terms are terms of the statement. -/
def Language.Answers (g : Language) (q statement : Str) : Prop :=
  (∃ t, g.IsTerm q t) ∧ ∀ t, g.IsTerm q t → g.IsTerm statement t

open Classical in
/-- The documents that answer a query, in order of insertion. -/
noncomputable def Language.answers (g : Language) (rs : List DocRequest) (q : Str) : List Doc :=
  (rs.filter fun r => decide (g.Answers q r.statement)).map docOf

end Visigoth
