import Verif.Model.UserPanic
import Verif.Spec.Repo
/-! # Tokenizers and builders that panic -/
namespace Visigoth

/-- How a call that runs alone ends if nothing panics. -/
def Outcome.returns {α : Type} : Outcome α → Outcome (UEnd α)
  | .ok a s => .ok (.returned a) s
  | .hang s => .hang s
  | .crash c => .crash c

/-- Calls that do not use the mutex of the index map. -/
def Op.aliasesOnly : Op → Prop
  | .hasAlias _ => True
  | .listAliases => True
  | .unAlias _ i => i = []
  | _ => False

/-- The state as it would be without anybody holding the mutex of the index map. -/
def Shared.freed (s : Shared) : Shared := { s with imu := {} }

end Visigoth
