import Verif.Spec.Index
import Verif.Spec.Text
/-!
# Specification of the textual form of an index

The text shows a name and, for every token of the documents, once, the positions of the documents
that contain it.
-/
namespace Visigoth

/-- The value of a sequence of decimal digits. -/
def decimalValue (ds : Str) : Nat := ds.foldl (fun v d => 10 * v + (d.toNat - 0x30)) 0

/-- `ds` is the usual decimal representation of `n`: digits only, no superfluous leading zero. -/
def IsDecimal (ds : Str) (n : Nat) : Prop :=
  ds ≠ [] ∧ (∀ d ∈ ds, 0x30 ≤ d ∧ d ≤ 0x39) ∧ (ds.head? = some 0x30 → ds = [0x30]) ∧ decimalValue ds = n

/-- `text` lists the given numbers between brackets, separated by single blanks. -/
def IsNumbers (text : Str) (ns : List Nat) : Prop :=
  ∃ parts : List Str, parts.length = ns.length ∧
    (∀ (i : Nat) p n, parts[i]? = some p → ns[i]? = some n → IsDecimal p n) ∧
    text = str "[" ++ List.intercalate (str " ") parts ++ str "]"

/-- `line` shows that the documents at positions `ps` contain `token`. -/
def IsEntry (line token : Str) (ps : List Nat) : Prop :=
  ∃ count numbers, IsDecimal count ps.length ∧ IsNumbers numbers ps ∧
    line = str "\n\t[token=" ++ token ++ str ",length=(" ++ count ++ str ")]=" ++ numbers

/-- `text` shows an index called `label` that holds the documents of the requests `rs`. -/
def Renders (tok : Tokenizer) (label : Str) (rs : List DocRequest) (text : Str) : Prop :=
  ∃ (tokens : List Str) (lines : List Str), tokens.Nodup ∧
    (∀ t, t ∈ tokens ↔ ∃ r ∈ rs, t ∈ tok r.statement) ∧
    lines.length = tokens.length ∧
    (∀ (i : Nat) l t, lines[i]? = some l → tokens[i]? = some t → IsEntry l t (positions tok rs t)) ∧
    text = str "{\n\tname=" ++ label ++ lines.flatten ++ str "\n}"

/-- The same followed by a newline. -/
def RendersLine (tok : Tokenizer) (label : Str) (rs : List DocRequest) (text : Str) : Prop :=
  ∃ t, Renders tok label rs t ∧ text = t ++ str "\n"

end Visigoth
