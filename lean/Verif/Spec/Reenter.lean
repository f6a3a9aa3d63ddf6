import Verif.Model.Reenter
import Verif.Spec.Conc
/-!
# Which calls the engines and tokenizers make
-/
namespace Visigoth

/-- All calls made are in `P`, whatever the answers. -/
def Client.Only {α : Type} (P : Op → Prop) : Client α → Prop
  | .ret _ => True
  | .call op k => P op ∧ ∀ r, (k r).Only P

/-- Engines make only calls in `P`, tokenizers only calls in `Q`. -/
def COp.Only (P Q : Op → Prop) : COp → Prop
  | .plain _ => True
  | .search _ _ e => ∀ p, (e p).Only P
  | .put _ _ t => t.Only Q

/-- The calls that leave the index mutex alone. -/
def Op.aliasOnly : Op → Prop
  | .hasAlias _ | .listAliases => True
  | .unAlias _ i => i = []
  | _ => False

/-- The mutex that the call starts to take next. -/
def Thread.takes (x : Thread) : Option Mu :=
  match x.prog with
  | .act (.rlock m) _ | .act (.announce m) _ => some m
  | _ => none

/-- The mutex whose readers the call waits for. -/
def Thread.awaits (x : Thread) : Option Mu :=
  match x.prog with
  | .act (.acquire m) _ => some m
  | _ => none

/-- No call can move although one is not over, and no call that is over has kept a lock. -/
def Config.deadlock (cfg : Cfg) (c : Config) : Prop :=
  (∃ (t : Tid) (x : Thread), c.calls[t]? = some x ∧ x.running) ∧ (∀ t, ¬ c.canMove cfg t) ∧ ¬ c.leaked

end Visigoth
