import Verif.Proofs.AnyCfg
import Verif.Proofs.FineConverse
import Verif.Props.Fine
/-!
# A first `Put`, with goroutines, whatever the tokenizer does

`Proofs/AnyCfg.lean` for the model with goroutines; the `Put` that makes an index starts none.
-/
namespace Visigoth

variable {cfg : Cfg}

def fboundConfig (n : Name) (d : DocRequest) (mi : MemoryIndex) : FConfig :=
  { sh := (boundConfig n d mi).sh, calls := [{ op := .put n d, oracle := sampleOracle, st := .run (.ret .unit) }] }

def fbindingConfig (n : Name) (d : DocRequest) (mi : MemoryIndex) (p : FProg Ret) : FConfig :=
  { sh := (bindingConfig n d mi (.ret .unit)).sh, calls := [{ op := .put n d, oracle := sampleOracle, st := .run p }] }

theorem fpostings_steps (n : Name) (d : DocRequest) (next : Nat) (f : Unit → FProg Unit) (g : Unit → FProg Ret) :
    ∀ (toks : List Str) (mi : MemoryIndex), ∃ mi', mi'.name = mi.name ∧
      FSteps cfg (fbindingConfig n d mi (((Repo.putPostings 0 next toks).fine.bind f).bind g)) (fbindingConfig n d mi' ((f ()).bind g))
  | [], mi => ⟨mi, rfl, .refl _⟩
  | tok :: toks, mi => by
    obtain ⟨mi', h1, h3⟩ := fpostings_steps n d next f g toks { mi with inverted := addPosting next mi.inverted tok }
    exact ⟨mi', h1, FSteps.trans (.tail (.refl _) (.move 0 (FTStep.act rfl rfl))) h3⟩

/-- A first `Put` returns. -/
theorem fbound_reachable (cfg : Cfg) (n : Name) (d : DocRequest) :
    ∃ mi, mi.name = n ∧ FineReachable cfg (fboundConfig n d mi) := by
  have h1 : FConfig.init.play cfg ([fcallNow (.put n d)] ++ fgoes 0 11) = some (fbindingConfig n d
      { name := n, docs := [newDoc d.id d.raw], inverted := [] }
      (((Repo.putPostings 0 0 (cfg.tok d.statement)).fine.bind fun _ => (perform (.unlock .indices)).fine).bind fun _ => .ret .unit)) := by
    with_unfolding_all rfl
  obtain ⟨mi, h2, h4⟩ := fpostings_steps (cfg := cfg) n d 0 (fun _ => (perform (.unlock .indices)).fine) (fun _ => FProg.ret Ret.unit)
    (cfg.tok d.statement) { name := n, docs := [newDoc d.id d.raw], inverted := [] }
  exact ⟨mi, h2, FSteps.trans (FSteps.trans (play_fsteps h1) h4)
    (play_fsteps (xs := [.go 0]) (c' := fboundConfig n d mi) (by with_unfolding_all rfl))⟩

end Visigoth
