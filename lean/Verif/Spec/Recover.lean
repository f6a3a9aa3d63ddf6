import Verif.Model.Recover
/-!
# Executions in which a call has not begun
-/
namespace Visigoth

/-- The mutex without the read locks of call `t`. -/
def RW.without (t : Tid) (m : RW) : RW := { m with readers := m.readers.filter (· ≠ t) }

/-- The shared state without the read locks of call `t`. -/
def Shared.without (t : Tid) (s : Shared) : Shared :=
  { s with imu := s.imu.without t, amu := s.amu.without t }

/-- A call that has been made but has not begun. -/
def Thread.unstarted (cfg : Cfg) (x : Thread) : Thread := { x with prog := x.op.prog cfg }

/-- The calls, those in `D` not begun. -/
def unstartAll (cfg : Cfg) (D : List Tid) (calls : List Thread) : List Thread :=
  calls.mapIdx fun t x => if t ∈ D then x.unstarted cfg else x

end Visigoth
