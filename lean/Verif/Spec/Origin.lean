import Verif.Spec.Repo
/-!
# Specification of the name an index is shown under

Which name an index was first put under is a function of the calls made: a `Put` that creates an index
gives it its own name, and a `Rename` takes the name along.
-/
namespace Visigoth

/-- The names the indices were first put under, after a completed call in state `a`. -/
def SpecState.origins (a : SpecState) (first : Name → Name) : Op → Name → Name
  | .put n _ => if (a.resolve n).isNone then upd first n n else first
  | .rename old new => if (a.docs old).isSome then upd first new (first old) else first
  | _ => first

/-- The same after a sequence of completed calls. -/
def SpecState.originsAfter : SpecState → (Name → Name) → List Op → Name → Name
  | _, first, [] => first
  | a, first, op :: ops => (a.next op).originsAfter (a.origins first op) ops

end Visigoth
