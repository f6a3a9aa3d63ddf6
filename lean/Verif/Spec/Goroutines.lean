import Verif.Model.Goroutines
/-!
# Notions used in the statements about goroutines
-/
namespace Visigoth

/-- The rest of the process leaves the indices `ps` alone.  (While `Put` or `Search` runs its
goroutines it holds the mutex that guards all indices.) -/
def Spares (ps : List Ptr) (s s' : Shared) : Prop := ∀ p ∈ ps, s'.heap[p]? = s.heap[p]?

/-- Nothing else in the process acts. -/
def Quiet (_ _ : Shared) : Prop := False

/-- What searching index `p` gives; `none` if the engine panics. -/
def partOf (cfg : Cfg) (terms : Str) (engine : Engine) (s : Shared) (p : Ptr) : Option (List SearchResult) :=
  (s.heap[p]?).bind fun mi => mi.search cfg.cp cfg.tok terms engine

/-- `Put(name, doc)` of an existing name, with its goroutines interleaved in any way
(repos_repo.go:216-238). -/
def PutInterleaved (cfg : Cfg) (o : Oracle) (t : Tid) (name : Name) (doc : DocRequest) (s s' : Shared) : Prop :=
  ∃ indices ps s1 s2 c, run cfg o t (Repo.getIndices name) s = .ok (some indices) s1 ∧
    Repo.nonNil indices = some ps ∧ run cfg o t (Repo.lock .indices) s1 = .ok () s2 ∧
    PoolSteps cfg o t Quiet (putPool cfg doc s2 ps) c ∧ c.done ∧
    run cfg o t (perform (.unlock .indices)) c.sh = .ok () s'

end Visigoth
