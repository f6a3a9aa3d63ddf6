import Verif.Proofs.Slices
/-!
# The abstraction relation between a repository and its specification
-/
namespace Visigoth

/-- The index table: unique keys, no shared object, every object the result of complete puts. -/
structure IdxOk (cfg : Cfg) (H : List MemoryIndex) (ix : GoMap Name Ptr)
    (docs : Name → Option (List DocRequest)) : Prop where
  nodup : ix.keys.Nodup
  rep : ∀ n p, ix.get n = some p → ∃ nm rs, docs n = some rs ∧ H[p]? = some (buildIndex cfg.tok nm rs)
  absent : ∀ n, ix.get n = none → docs n = none
  inj : ∀ n m p, ix.get n = some p → ix.get m = some p → n = m

theorem IdxOk.isSome {cfg H ix docs} (h : IdxOk cfg H ix docs) (n : Name) :
    (ix.get n).isSome = (docs n).isSome := by
  cases hg : ix.get n with
  | none => rw [h.absent n hg]; rfl
  | some p => obtain ⟨nm, rs, h1, _⟩ := h.rep n p hg; rw [h1]; rfl

theorem IdxOk.get_none {cfg H ix docs} (h : IdxOk cfg H ix docs) (n : Name) :
    ix.get n = none ↔ docs n = none := by
  have := h.isSome n
  cases hg : ix.get n <;> cases hd : docs n <;> simp_all

/-- A repository state and its specification. -/
structure Abs (cfg : Cfg) (s : Shared) (a : SpecState) : Prop where
  idx : IdxOk cfg s.heap s.indices a.docs
  al : AlOk s.arrays s.aliases
  view : ∀ n, a.aliases n = alView s.arrays s.aliases n
  imuR : s.imu.readers.length = a.leakedReaders
  imuW : s.imu.writer = none
  amuR : s.amu.readers = []
  amuW : s.amu.writer.isSome = a.leakedWriter

theorem abs_empty (cfg : Cfg) : Abs cfg newIndexRepo SpecState.empty := by
  refine ⟨⟨?_, ?_, ?_, ?_⟩, ⟨?_, ?_, ?_⟩, ?_, rfl, rfl, rfl, rfl⟩ <;>
    simp [newIndexRepo, GoMap.keys, SpecState.empty, alView]

end Visigoth
