import Verif.Spec.Atomic
import Verif.Proofs.Refine3
import Verif.Proofs.Blocky
/-!
# Computing blocks
-/
namespace Visigoth

variable {cfg : Cfg} {o : Oracle} {t : Tid}

/-- The same data; mutexes may differ. -/
def SameData (s s' : Shared) : Prop := ∀ l, SameAt l s s'

theorem SameData.trans {s s' s'' : Shared} (h : SameData s s') (g : SameData s' s'') : SameData s s'' :=
  fun l => (h l).trans (g l)

theorem SameData.symm {s s' : Shared} (h : SameData s s') : SameData s' s := fun l => (h l).symm

theorem SameData.refl (s : Shared) : SameData s s := fun l => SameAt.refl l s

theorem SameData.heap {s s' : Shared} (h : SameData s s') : s.heap = s'.heap := (h .indices).2
theorem SameData.indices {s s' : Shared} (h : SameData s s') : s.indices = s'.indices := (h .indices).1
theorem SameData.aliases {s s' : Shared} (h : SameData s s') : s.aliases = s'.aliases := h .aliases
theorem SameData.arrays {s s' : Shared} (h : SameData s s') : s.arrays = s'.arrays := h .arrays

/-! ## Straight pieces -/

theorem pre_ok {α β : Type} {a : Act β} {k : β → Prog α} {s s' : Shared} {b : β} (h : a.isLock = false)
    (he : exec cfg o t a s = .ok b s') : pre cfg o t (.act a k) s = pre cfg o t (k b) s' := by
  conv => lhs; unfold pre
  rw [(data_none h).1, (data_none h).2, he]

theorem post_ok {α β : Type} {a : Act β} {k : β → Prog α} {s s' : Shared} {b : β} (h : a.isLock = false)
    (he : exec cfg o t a s = .ok b s') : post cfg o t (.act a k) s = post cfg o t (k b) s := by
  conv => lhs; unfold post
  rw [(data_none h).1, (data_none h).2, he]

theorem pre_tame {α β : Type} {p : Prog α} {f : α → Prog β} {s s' : Shared} {a : α} (h : Tame false p)
    (hr : run cfg o t p s = .ok a s') : pre cfg o t (p >>= f) s = pre cfg o t (f a) s' := by
  show pre cfg o t (p.bind f) s = _
  induction p generalizing s with
  | ret b => simp only [run, Outcome.ok.injEq] at hr; obtain ⟨rfl, rfl⟩ := hr; rfl
  | crash e => simp [run] at hr
  | act c k ih =>
    simp only [Prog.bind]
    simp only [run] at hr
    cases he : exec cfg o t c s with
    | ok b s1 => rw [he] at hr; rw [pre_ok h.1 he]; exact ih b (h.2.2 b) hr
    | blocked => rw [he] at hr; simp at hr
    | crash e => rw [he] at hr; simp at hr

theorem pre_tame2 {α β γ : Type} {p : Prog α} {f : α → Prog β} {g : β → Prog γ} {s s' : Shared} {a : α} (h : Tame false p)
    (hr : run cfg o t p s = .ok a s') : pre cfg o t ((p >>= f) >>= g) s = pre cfg o t (f a >>= g) s' := by
  rw [bind_assoc']; exact pre_tame h hr

theorem pre_data {β γ : Type} {a : Act γ} {f : γ → Prog β} {s s' : Shared} {b : γ} (h : a.isLock = false)
    (he : exec cfg o t a s = .ok b s') : pre cfg o t (perform a >>= f) s = pre cfg o t (f b) s' := by
  show pre cfg o t (.act a f) s = _
  exact pre_ok h he

theorem exec_read {β : Type} {a : Act β} (h : a.isLock = false) (hw : a.writes = none) {s s' : Shared} {b : β}
    (he : exec cfg o t a s = .ok b s') : s' = s := by
  cases a <;> simp only [Act.isLock, Bool.true_eq_false] at h <;> simp only [Act.writes, reduceCtorEq] at hw <;>
    simp only [exec] at he
  all_goals repeat' split at he
  all_goals cases he
  all_goals rfl

theorem post_tame {α β : Type} {p : Prog α} {f : α → Prog β} {s s' : Shared} {a : α} (h : Tame true p)
    (hr : run cfg o t p s = .ok a s') : post cfg o t (p >>= f) s = post cfg o t (f a) s := by
  show post cfg o t (p.bind f) s = _
  induction p with
  | ret b => simp only [run, Outcome.ok.injEq] at hr; obtain ⟨rfl, rfl⟩ := hr; rfl
  | crash e => simp [run] at hr
  | act c k ih =>
    simp only [Prog.bind]
    simp only [run] at hr
    cases he : exec cfg o t c s with
    | ok b s1 =>
      rw [he] at hr
      have := exec_read h.1 (h.2.1 rfl) he
      subst this
      rw [post_ok h.1 he]
      exact ih b (h.2.2 b) hr
    | blocked => rw [he] at hr; simp at hr
    | crash e => rw [he] at hr; simp at hr

/-! ## Calls of one block -/

/-- No mutex is taken after one has been released. -/
def Single {α : Type} (ph : Bool) : Prog α → Prop
  | .ret _ => True
  | .crash _ => True
  | .act a k => (ph = true → a.skips = none) ∧ ∀ b, Single (phase ph a) (k b)

theorem single_act {α β : Type} {ph : Bool} (a : Act β) (f : β → Prog α) (h : ph = true → a.skips = none)
    (hf : ∀ b, Single (phase ph a) (f b)) : Single ph (perform a >>= f) := ⟨h, hf⟩

theorem single_tame {α β : Type} {ph : Bool} {p : Prog α} {f : α → Prog β} (h : Tame false p) (hf : ∀ a, Single ph (f a)) :
    Single ph (p >>= f) := by
  show Single ph (p.bind f)
  induction p with
  | ret a => exact hf a
  | crash e => trivial
  | act a k ih =>
    refine ⟨fun _ => (data_none h.1).1, fun b => ?_⟩
    have : phase ph a = ph := by simp [phase, (data_none h.1).1, (data_none h.1).2]
    rw [this]
    exact ih b (h.2.2 b)

theorem exec_lock_crash {β : Type} {a : Act β} (h : a.isLock = true) {s : Shared} {e : Crash}
    (he : exec cfg o t a s = .crash e) : e = .invalid := by
  cases a <;> simp only [Act.isLock, Bool.false_eq_true] at h <;> simp only [exec] at he
  all_goals repeat' split at he
  all_goals cases he
  all_goals rfl

/-- What `skips` and `frees` say about the result. -/
theorem exec_lock_result {β : Type} {a : Act β} {s s' : Shared} {b b' : β}
    (he : exec cfg o t a s = .ok b s') (h : a.skips = some b' ∨ a.frees = some b') : b' = b := by
  cases a <;> simp [Act.skips, Act.frees] at h <;> rfl

theorem single_post {p : Prog Ret} : ∀ {s s0 : Shared}, Single true p → Blocky (fun _ _ => True) true p → SameData s s0 →
    (∀ r s', run cfg o t p s0 = .ok r s' → post cfg o t p s = .ret r ∧ SameData s s') ∧
    (∀ e, run cfg o t p s0 = .crash e → e ≠ .invalid → post cfg o t p s = .crash e) := by
  induction p with
  | ret a =>
    intro s s0 _ _ h
    refine ⟨fun r s' hr => ?_, fun e hr => by simp [run] at hr⟩
    simp only [run, Outcome.ok.injEq] at hr
    obtain ⟨rfl, rfl⟩ := hr
    exact ⟨rfl, h⟩
  | crash e =>
    intro s s0 _ _ _
    refine ⟨fun r s' hr => by simp [run] at hr, fun e' hr _ => ?_⟩
    simp only [run, Outcome.crash.injEq] at hr
    subst hr; rfl
  | act a k ih =>
    intro s s0 hs hb h
    have hw := (hb.1 rfl).1
    have hsk := hs.1 rfl
    unfold post
    simp only [run]
    rw [hsk]
    rcases lock_cases a with ⟨b, hb'⟩ | ⟨b, hb'⟩ | hl
    · rw [hsk] at hb'; cases hb'
    · rw [hb']
      simp only
      have hlk := (frees_lock hb').1
      cases he : exec cfg o t a s0 with
      | ok b1 s1 =>
        have := exec_lock_result he (Or.inr hb')
        subst this
        simp only
        have hp : phase true a = true := by simp [phase, hsk, hb']
        have h1 := hs.2 b
        have h2 := hb.2 b
        rw [hp] at h1 h2
        have h3 : SameData s s1 := h.trans fun l => (exec_lock_same hlk he l).symm
        exact ih b h1 h2 h3
      | blocked => exact ⟨fun r s' hr => by simp at hr, fun e hr => by simp at hr⟩
      | crash e =>
        have := exec_lock_crash hlk he
        subst this
        refine ⟨fun r s' hr => by simp at hr, fun e hr hne => ?_⟩
        simp only [Outcome.crash.injEq] at hr
        exact absurd hr.symm hne
    · rw [(data_none hl).2]
      simp only
      have hf := exec_data_frame (cfg := cfg) (o := o) (t := t) hl (s := s0) (r := s) fun l _ => h l
      cases he : exec cfg o t a s0 with
      | ok b1 s1 =>
        obtain ⟨r', h1, _⟩ := hf.1 b1 s1 he
        rw [h1]
        simp only
        have hp : phase true a = true := by simp [phase, hsk, (data_none hl).2]
        have h3 := hs.2 b1
        have h4 := hb.2 b1
        rw [hp] at h3 h4
        have h5 := exec_read hl hw he
        subst h5
        exact ih b1 h3 h4 h
      | blocked => exact absurd he (exec_data_runs hl s0)
      | crash e =>
        rw [hf.2 e he]
        refine ⟨fun r s' hr => by simp at hr, fun e' hr _ => ?_⟩
        simp only [Outcome.crash.injEq] at hr
        subst hr; rfl

theorem single_run {p : Prog Ret} : ∀ {s s0 : Shared}, Single false p → Blocky (fun _ _ => True) false p → SameData s s0 →
    (∀ r s', run cfg o t p s0 = .ok r s' → (block cfg o t p s).1 = .ret r ∧ SameData (block cfg o t p s).2 s') ∧
    (∀ e, run cfg o t p s0 = .crash e → e ≠ .invalid → (block cfg o t p s).1 = .crash e) := by
  induction p with
  | ret a =>
    intro s s0 _ _ h
    refine ⟨fun r s' hr => ?_, fun e hr => by simp [run] at hr⟩
    simp only [run, Outcome.ok.injEq] at hr
    obtain ⟨rfl, rfl⟩ := hr
    exact ⟨rfl, h⟩
  | crash e =>
    intro s s0 _ _ _
    refine ⟨fun r s' hr => by simp [run] at hr, fun e' hr _ => ?_⟩
    simp only [run, Outcome.crash.injEq] at hr
    subst hr; rfl
  | act a k ih =>
    intro s s0 hs hb h
    rcases lock_cases a with ⟨b, hb'⟩ | ⟨b, hb'⟩ | hl
    · have hlk := (skips_lock hb').1
      have hbk : block cfg o t (.act a k) s = block cfg o t (k b) s := by
        unfold block; rw [pre, hb']
      rw [hbk]
      simp only [run]
      cases he : exec cfg o t a s0 with
      | ok b1 s1 =>
        have := exec_lock_result he (Or.inl hb')
        subst this
        simp only
        have hp : phase false a = false := by simp [phase, hb']
        have h1 := hs.2 b
        have h2 := hb.2 b
        rw [hp] at h1 h2
        exact ih b h1 h2 (h.trans fun l => (exec_lock_same hlk he l).symm)
      | blocked => exact ⟨fun r s' hr => by simp at hr, fun e hr => by simp at hr⟩
      | crash e =>
        have := exec_lock_crash hlk he
        subst this
        refine ⟨fun r s' hr => by simp at hr, fun e hr hne => ?_⟩
        simp only [Outcome.crash.injEq] at hr
        exact absurd hr.symm hne
    · have hlk := frees_lock hb'
      have hpre : pre cfg o t (.act a k) s = (.act a k, s) := by rw [pre, hlk.2, hb']
      have hbk : block cfg o t (.act a k) s = (post cfg o t (k b) s, s) := by
        unfold block; rw [hpre]
        simp only
        rw [post, hlk.2, hb']
      rw [hbk]
      simp only [run]
      have hp : phase false a = true := by simp [phase, hlk.2, hb']
      cases he : exec cfg o t a s0 with
      | ok b1 s1 =>
        have := exec_lock_result he (Or.inr hb')
        subst this
        simp only
        have h1 := hs.2 b
        have h2 := hb.2 b
        rw [hp] at h1 h2
        exact single_post h1 h2 (h.trans fun l => (exec_lock_same hlk.1 he l).symm)
      | blocked => exact ⟨fun r s' hr => by simp at hr, fun e hr => by simp at hr⟩
      | crash e =>
        have := exec_lock_crash hlk.1 he
        subst this
        refine ⟨fun r s' hr => by simp at hr, fun e hr hne => ?_⟩
        simp only [Outcome.crash.injEq] at hr
        exact absurd hr.symm hne
    · have hf := exec_data_frame (cfg := cfg) (o := o) (t := t) hl (s := s0) (r := s) fun l _ => h l
      simp only [run]
      cases he : exec cfg o t a s0 with
      | ok b1 s1 =>
        obtain ⟨r', h1, h6⟩ := hf.1 b1 s1 he
        have hbk : block cfg o t (.act a k) s = block cfg o t (k b1) r' := by
          unfold block; rw [pre, (data_none hl).1, (data_none hl).2, h1]
        rw [hbk]
        simp only
        have hp : phase false a = false := by simp [phase, (data_none hl).1, (data_none hl).2]
        have h3 := hs.2 b1
        have h4 := hb.2 b1
        rw [hp] at h3 h4
        refine ih b1 h3 h4 fun l => ?_
        by_cases hw : a.writes = some l
        · exact h6 l hw
        · exact ((exec_data_same hl h1 l hw).trans (h l)).trans (exec_data_same hl he l hw).symm
      | blocked => exact absurd he (exec_data_runs hl s0)
      | crash e =>
        have hbk : block cfg o t (.act a k) s = (.crash e, s) := by
          unfold block; rw [pre, (data_none hl).1, (data_none hl).2, hf.2 e he]; rfl
        rw [hbk]
        refine ⟨fun r s' hr => by simp at hr, fun e' hr _ => ?_⟩
        simp only [Outcome.crash.injEq] at hr
        subst hr; rfl

/-- No action of the program writes `l`. -/
def Avoids {α : Type} (l : Loc) : Prog α → Prop
  | .ret _ => True
  | .crash _ => True
  | .act a k => a.writes ≠ some l ∧ ∀ b, Avoids l (k b)

theorem avoids_act {α β : Type} {l : Loc} (a : Act β) (f : β → Prog α) (h : a.writes ≠ some l)
    (hf : ∀ b, Avoids l (f b)) : Avoids l (perform a >>= f) := ⟨h, hf⟩

theorem avoids_bind {α β : Type} {l : Loc} {p : Prog α} {f : α → Prog β} (h : Avoids l p) (hf : ∀ a, Avoids l (f a)) :
    Avoids l (p >>= f) := by
  show Avoids l (p.bind f)
  induction p with
  | ret a => exact hf a
  | crash e => trivial
  | act a k ih => exact ⟨h.1, fun b => ih b (h.2 b)⟩

theorem avoids_tame {α : Type} {l : Loc} {p : Prog α} (h : Tame true p) : Avoids l p := by
  induction p with
  | ret a => trivial
  | crash e => trivial
  | act a k ih => exact ⟨by rw [h.2.1 rfl]; simp, fun b => ih b (h.2.2 b)⟩

theorem avoids_pre {p : Prog Ret} {l : Loc} : ∀ {s : Shared}, Avoids l p → SameAt l (pre cfg o t p s).2 s := by
  induction p with
  | ret a => intro s _; exact SameAt.refl _ _
  | crash e => intro s _; exact SameAt.refl _ _
  | act a k ih =>
    intro s h
    unfold pre
    rcases lock_cases a with ⟨b, hb⟩ | ⟨b, hb⟩ | hl
    · rw [hb]; exact ih b (h.2 b)
    · rw [(frees_lock hb).2, hb]; exact SameAt.refl _ _
    · rw [(data_none hl).1, (data_none hl).2]
      simp only
      cases he : exec cfg o t a s with
      | ok b s1 => exact (ih b (h.2 b)).trans (exec_data_same hl he l h.1)
      | blocked => exact SameAt.refl _ _
      | crash e => exact SameAt.refl _ _

end Visigoth
