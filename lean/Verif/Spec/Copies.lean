import Verif.Model.Copies
import Verif.Spec.Index
/-! # Copies of an index -/
namespace Visigoth

/-- The references of all index variables lead somewhere. -/
def Copies.Valid (w : Copies) : Prop :=
  ∀ mi ∈ w.values, mi.docs.arr < w.arrays.length ∧ mi.docs.len ≤ ((w.arrays[mi.docs.arr]?).getD []).length ∧
    ∀ p, mi.inverted = some p → p < w.maps.length

/-- The array of the slice has room behind it. -/
def Copies.room (w : Copies) (mi : IndexValue) : Prop := mi.docs.len < ((w.arrays[mi.docs.arr]?).getD []).length

instance (w : Copies) (mi : IndexValue) : Decidable (w.room mi) := inferInstanceAs (Decidable (_ < _))

/-- The variable has a map. -/
def Copies.hasMap (w : Copies) (v : Nat) : Prop := ∃ mi p, w.values[v]? = some mi ∧ mi.inverted = some p

/-- No other variable refers to the array or to the map of this one. -/
def Copies.Alone (w : Copies) (u : Nat) : Prop :=
  ∀ mu, w.values[u]? = some mu → ∀ v mv, v ≠ u → w.values[v]? = some mv →
    mv.docs.arr ≠ mu.docs.arr ∧ ∀ p, mu.inverted = some p → mv.inverted ≠ some p

/-- The statement is about this variable. -/
def CopyAct.about : CopyAct → Nat → Prop
  | .new _, _ => False
  | .copy v, u => v = u
  | .put _ v _, u => v = u
  | .setDocs v _, u => v = u
  | .setInverted v _, u => v = u

/-- `Put` after `Put` to one variable. -/
def putsTo (grow : Nat → Nat) (v : Nat) (rs : List DocRequest) : List CopyAct := rs.map (CopyAct.put grow v)

/-- Making a copy that shares nothing. -/
def deepCopy (v u : Nat) (x : MemoryIndex) : List CopyAct := [.copy v, .setDocs u x.docs, .setInverted u (some x.inverted)]

end Visigoth
