import Verif.Proofs.AnyIndex
/-! # The methods with the memory index written out -/
namespace Visigoth

variable {α β : Type} (cfg : Cfg)

theorem prog_bind_assoc {γ : Type} (p : Prog α) (f : α → Prog β) (g : β → Prog γ) :
    (p.bind f).bind g = p.bind fun a => (f a).bind g := by
  induction p with
  | ret a => rfl
  | crash c => rfl
  | act a k ih => simp only [Prog.bind, ih]

theorem withMemory_bind (p : IProg α) (f : α → IProg β) :
    (p.bind f).withMemory cfg = (p.withMemory cfg).bind fun a => (f a).withMemory cfg := by
  induction p with
  | ret a => rfl
  | crash c => rfl
  | act a k ih =>
    cases a
    case put p d =>
      simp only [IProg.bind, IProg.withMemory, prog_bind_assoc, ih]
    all_goals simp only [IProg.bind, IProg.withMemory, Prog.bind, ih]

theorem withMemory_lift (p : Prog α) : p.lift.withMemory cfg = p := by
  induction p with
  | ret a => rfl
  | crash c => rfl
  | act a k ih => simp only [Prog.lift, IProg.withMemory, ih]

theorem withMemory_bind' (p : IProg α) (f : α → IProg β) :
    (p >>= f).withMemory cfg = p.withMemory cfg >>= fun a => (f a).withMemory cfg := withMemory_bind cfg p f

theorem bind_ret (p : Prog α) : p.bind .ret = p := by
  induction p with
  | ret a => rfl
  | crash c => rfl
  | act a k ih => simp only [Prog.bind, ih]

theorem withMemory_putIndex (p : Ptr) (d : DocRequest) : (iperform (.put p d)).withMemory cfg = Repo.putIndex cfg p d := by
  show (Repo.putIndex cfg p d).bind (fun _ => .ret ()) = _
  exact bind_ret _

theorem withMemory_searchIndex (p : Ptr) (terms : Str) (e : Engine) :
    (IRepo.searchIndex p terms e).withMemory cfg = Repo.searchIndex p terms e := by
  unfold IRepo.searchIndex Repo.searchIndex
  rw [withMemory_bind']
  show Prog.act _ _ = Prog.act _ _
  congr 1
  funext r
  cases r <;> rfl

theorem withMemory_searchAll (terms : Str) (e : Engine) (ps : List Ptr) :
    (IRepo.searchAll terms e ps).withMemory cfg = Repo.searchAll terms e ps := by
  induction ps with
  | nil => rfl
  | cons p ps ih =>
    unfold IRepo.searchAll Repo.searchAll
    rw [withMemory_bind', withMemory_searchIndex]
    congr 1
    funext sr
    rw [withMemory_bind', ih]
    rfl

theorem withMemory_searchTargets (l : List (Option Ptr)) (terms : Str) (e : Engine) :
    (IRepo.searchTargets l terms e).withMemory cfg = Repo.searchTargets l terms e := by
  unfold IRepo.searchTargets Repo.searchTargets
  have go : ∀ ps, (do
        let ps ← iperform (.plain (.schedule ps))
        IRepo.searchAll terms e ps : IProg _).withMemory cfg = (do
        let ps ← perform (.schedule ps)
        Repo.searchAll terms e ps) := by
    intro ps
    show Prog.act _ _ = Prog.act _ _
    congr 1
    funext ps
    exact withMemory_searchAll cfg terms e ps
  match Repo.nonNil l with
  | none => rfl
  | some [] => exact go _
  | some [p] => exact withMemory_searchIndex cfg _ terms e
  | some (p :: q :: ps) => exact go _

theorem withMemory_search (name : Name) (terms : Str) (e : Engine) :
    (IRepo.search name terms e).withMemory cfg = Repo.search name terms e := by
  unfold IRepo.search Repo.search
  rw [withMemory_bind']
  show Prog.act _ _ = Prog.act _ _
  congr 1
  funext _
  show IProg.withMemory cfg (IProg.bind _ _) = Prog.bind _ _
  show Prog.act _ _ = Prog.act _ _
  congr 1
  funext r
  cases r with
  | some i =>
    show IProg.withMemory cfg (IRepo.searchTargets [some i] terms e >>= _) = Repo.searchTargets [some i] terms _ >>= _
    rw [withMemory_bind', withMemory_searchTargets]
    rfl
  | none =>
    show Prog.act _ _ = Prog.act _ _
    congr 1
    funext _
    show Prog.act _ _ = Prog.act _ _
    congr 1
    funext r
    cases r with
    | none => rfl
    | some r =>
      show IProg.withMemory cfg ((Repo.resolveFrom r 0 r.len).lift >>= _) = Repo.resolveFrom r 0 r.len >>= _
      rw [withMemory_bind', withMemory_lift]
      congr 1
      funext ps
      show Prog.act _ _ = Prog.act _ _
      congr 1
      funext _
      show IProg.withMemory cfg (IRepo.searchTargets ps terms e >>= _) = Repo.searchTargets ps terms _ >>= _
      rw [withMemory_bind', withMemory_searchTargets]
      rfl

theorem withMemory_putAll (d : DocRequest) (ps : List Ptr) :
    (IRepo.putAll d ps).withMemory cfg = Repo.putAll cfg d ps := by
  induction ps with
  | nil => rfl
  | cons p ps ih =>
    unfold IRepo.putAll Repo.putAll
    rw [withMemory_bind', withMemory_putIndex]
    congr 1
    funext _
    exact ih

theorem withMemory_putTargets (l : List (Option Ptr)) (d : DocRequest) :
    (IRepo.putTargets l d).withMemory cfg = Repo.putTargets cfg l d := by
  unfold IRepo.putTargets Repo.putTargets
  cases Repo.nonNil l with
  | none => rfl
  | some ps =>
    by_cases h : ps.Nodup
    · simp only [h, if_true]
      show Prog.act _ _ = Prog.act _ _
      congr 1
      funext ps
      exact withMemory_putAll cfg d ps
    · simp only [h, if_false]
      rfl

theorem withMemory_put (n : Name) (d : DocRequest) : (IRepo.put n d).withMemory cfg = Repo.put cfg n d := by
  unfold IRepo.put Repo.put
  rw [withMemory_bind', withMemory_lift]
  congr 1
  funext r
  rw [withMemory_bind', withMemory_lift]
  congr 1
  funext _
  cases r with
  | none =>
    show Prog.act _ _ = Prog.act _ _
    congr 1
  | some l =>
    show IProg.withMemory cfg (IRepo.putTargets l d >>= _) = Repo.putTargets cfg l d >>= _
    rw [withMemory_bind', withMemory_putTargets]
    rfl

theorem withMemory_iprog (op : Op) : op.iprog.withMemory cfg = op.prog cfg := by
  cases op with
  | put n d =>
    show IProg.withMemory cfg (IRepo.put n d >>= _) = _
    rw [withMemory_bind', withMemory_put]
    rfl
  | search n terms e =>
    show IProg.withMemory cfg (IRepo.search n terms e >>= _) = _
    rw [withMemory_bind', withMemory_search]
    show _ = Repo.search n terms e >>= _
    congr 1
    funext r
    cases r <;> rfl
  | _ => exact withMemory_lift cfg _

end Visigoth
