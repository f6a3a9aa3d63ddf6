import Verif.Props.Fine
import Verif.Spec.Realised
import Verif.Spec.OneMoment
/-!
# Specification: repositories with the same contents
-/
namespace Visigoth

/-- The same documents under the same names, and the same aliases.  Labels, addresses, the capacities of slices and
what is no longer reachable are not compared. -/
def SameContents (cfg : Cfg) (s s' : Shared) : Prop := ∃ L, Holds cfg s L ∧ Holds cfg s' L

/-- No mutex is held. -/
def Shared.noLocks (s : Shared) : Prop := s.imu = {} ∧ s.amu = {}

/-- From `c` calls can be made, all of them have returned in `c'`, and these are they and their results, the slices in
the rows of `ListAliases` included. -/
def Answered (cfg : Cfg) (c c' : Config) (vs : List (Op × SRet)) : Prop :=
  Steps cfg c c' ∧ Results (c'.outcomes.drop c.calls.length) c'.sh vs

/-- The same; the slices in the rows of `ListAliases` are not compared. -/
def AnsweredOnly (cfg : Cfg) (c c' : Config) (vs : List (Op × SRet)) : Prop :=
  Steps cfg c c' ∧ ResultsOnly (c'.outcomes.drop c.calls.length) vs

end Visigoth
