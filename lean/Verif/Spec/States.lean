import Verif.Spec.Repo
import Verif.Spec.Conc
import Verif.Proofs.Calls
/-!
# Which states one caller can bring about
-/
namespace Visigoth

/-- Finitely many names. -/
def SpecState.finite (a : SpecState) : Prop :=
  (∃ ns : List Name, ∀ n, a.docs n ≠ none → n ∈ ns) ∧ ∃ ks : List Name, ∀ k, a.aliases k ≠ none → k ∈ ks

/-- No index is empty. -/
def SpecState.filled (a : SpecState) : Prop := ∀ n, a.docs n ≠ some []

/-- The aliases list existing indices, none twice. -/
def SpecState.sound (a : SpecState) : Prop := ∀ k l, a.aliases k = some l → l.Nodup ∧ ∀ n ∈ l, a.docs n ≠ none

/-- An index that is not named by the empty string. -/
def SpecState.named (a : SpecState) : Prop := ∃ n, n ≠ [] ∧ a.docs n ≠ none

/-- Completed calls of one caller, of allowed methods only, lead to a state. -/
def ReachableBy (cfg : Cfg) (ok : Op → Bool) (s : Shared) : Prop :=
  ∃ cs rets, (∀ c ∈ cs, ok c.op = true) ∧ runCalls cfg cs newIndexRepo = .ok rets s

end Visigoth
