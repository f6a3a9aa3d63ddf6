import Verif.Spec.Conc
import Verif.Spec.Fine
/-!
# What is said about a repository when all calls have returned
-/
namespace Visigoth

/-- The call is an `UnAlias` of an index that returned false. -/
def Thread.leaks (x : Thread) : Bool :=
  match x.op, x.prog with
  | .unAlias _ i, .ret (.bool false) => i ≠ []
  | _, _ => false

/-- All calls have returned. -/
def Config.done (c : Config) : Prop := ∀ x ∈ c.calls, ∃ r, x.prog = .ret r

def FConfig.done (c : FConfig) : Prop := ∀ x ∈ c.calls, ∃ r, x.status = .returned r

/-- One caller goes on: each call is made when the one before has returned.  The values are what the caller sees. -/
inductive OneByOne (cfg : Cfg) : Config → List Op → List SRet → Config → Prop where
  | nil (c : Config) : OneByOne cfg c [] [] c
  | cons {c c1 c2 : Config} {x : Thread} {r : Ret} {ops : List Op} {rets : List SRet} (hs : Steps cfg c c1)
      (hc : c1.calls = c.calls ++ [x]) (hr : x.prog = .ret r) (h : OneByOne cfg c1 ops rets c2) :
      OneByOne cfg c (x.op :: ops) (r.view c1.sh :: rets) c2

end Visigoth
