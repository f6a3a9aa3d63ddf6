import Verif.Proofs.Labels
import Verif.Spec.Origin
/-!
# The name an index object carries, call by call
-/
namespace Visigoth

variable {cfg : Cfg} {o : Oracle} {t : Tid}

theorem andThen_inv {α β : Type} {x : Outcome α} {f : α → Shared → Outcome β} {r : β} {s' : Shared}
    (h : x.andThen f = .ok r s') : ∃ a s1, x = .ok a s1 ∧ f a s1 = .ok r s' := by
  cases x with
  | ok a s1 => exact ⟨a, s1, rfl, h⟩
  | hang s1 => cases h
  | crash c => cases h

theorem run_bind_inv {α β : Type} {p : Prog α} {f : α → Prog β} {r : β} {s s' : Shared}
    (h : run cfg o t (p >>= f) s = .ok r s') : ∃ a s1, run cfg o t p s = .ok a s1 ∧ run cfg o t (f a) s1 = .ok r s' :=
  andThen_inv (run_bind (cfg := cfg) (o := o) (t := t) p f s ▸ h)

/-- What a program leaves bound to a name it does not bind was bound before. -/
theorem run_bound {α : Type} {op : Op} {q : Prog α} {n : Name} (hn : ¬ op.binds n) : ∀ {s s' : Shared} {r : α}, Names op q →
    run cfg o t q s = .ok r s' → ∀ p, s'.indices.get n = some p → s.indices.get n = some p := by
  induction q with
  | ret a => intro s s' r _ h p hp; cases h; exact hp
  | crash e => intro s s' r _ h; cases h
  | act a k ih =>
    intro s s' r hN h p hp
    simp only [run] at h
    split at h
    · next b s1 he =>
      have h1 := ih b (hN.2.2 b) h p hp
      have hx := exec_index he n
      by_cases hu : a.unbinds = some n
      · rw [hx.2.1 hu] at h1; cases h1
      · rwa [hx.1 (fun e => hn (hN.1 n e)) hu] at h1
    · cases h
    · cases h

/-- A program that neither binds nor unbinds a name leaves it as it was. -/
theorem run_unbound {α : Type} {op : Op} {q : Prog α} {n : Name} (hn : ¬ op.binds n) (hu : ¬ op.unbinds n) :
    ∀ {s s' : Shared} {r : α}, Names op q → run cfg o t q s = .ok r s' → s'.indices.get n = s.indices.get n := by
  induction q with
  | ret a => intro s s' r _ h; cases h; rfl
  | crash e => intro s s' r _ h; cases h
  | act a k ih =>
    intro s s' r hN h
    simp only [run] at h
    split at h
    · next b s1 he =>
      rw [ih b (hN.2.2 b) h]
      exact (exec_index he n).1 (fun e => hn (hN.1 n e)) (fun e => hu (hN.2.1 n e))
    · cases h
    · cases h

theorem run_carried {α : Type} {q : Prog α} : ∀ {s s' : Shared} {r : α}, run cfg o t q s = .ok r s' →
    ∀ {p : Ptr} {n : Name}, Carries s.heap p n → Carries s'.heap p n := by
  induction q with
  | ret a => intro s s' r h p n hc; cases h; exact hc
  | crash e => intro s s' r h; cases h
  | act a k ih =>
    intro s s' r h p n hc
    simp only [run] at h
    split at h
    · next b s1 he => exact ih b h (exec_carries he hc)
    · cases h
    · cases h

/-- Every index carries the name it was first put under. -/
def OriginOk (s : Shared) (first : Name → Name) : Prop := ∀ n p, s.indices.get n = some p → Carries s.heap p (first n)

theorem origin_keep {op : Op} {α : Type} {q : Prog α} {s s' : Shared} {r : α} {first : Name → Name} (hN : Names op q)
    (h : OriginOk s first) (hrun : run cfg o t q s = .ok r s') {n : Name} (hn : ¬ op.binds n) :
    ∀ p, s'.indices.get n = some p → Carries s'.heap p (first n) :=
  fun p hp => run_carried hrun (h n p (run_bound hn hN hrun p hp))

theorem origin_put {s s' : Shared} {a : SpecState} {r : Ret} {first : Name → Name} (habs : Abs cfg s a) (n : Name) (d : DocRequest)
    (h : OriginOk s first) (hrun : run cfg o t (Op.prog cfg (.put n d)) s = .ok r s') :
    OriginOk s' (a.origins first (.put n d)) := by
  have hne : ∀ m, m ≠ n → ∀ p, s'.indices.get m = some p → Carries s'.heap p (first m) := fun m hm =>
    origin_keep (names_op (cfg := cfg) (.put n d)) h hrun (fun e => hm e.symm)
  by_cases hres : a.resolve n = none
  · have hnone : s.indices.get n = none := by
      have : (a.docs n).isSome = false := by
        cases hd : a.docs n with
        | none => rfl
        | some l => simp [SpecState.resolve, hd] at hres
      rw [← habs.idx.isSome] at this
      cases hg : s.indices.get n with
      | none => rfl
      | some p => rw [hg] at this; cases this
    have hl := lab_run (R := fun m => m ≠ n) (fun m hm => absurd hm id) (lab_op (.put n d)) (by simp)
      (fun m p hp => by
        by_cases e : m = n
        · subst e; rw [hnone] at hp; cases hp
        · exact .inl e) hrun
    intro m p hp
    by_cases e : m = n
    · subst e
      have := (hl m p hp).resolve_left (fun h => h rfl)
      simpa [SpecState.origins, hres, upd] using this
    · have := hne m e p hp
      simpa [SpecState.origins, hres, upd, e] using this
  · have hf : a.origins first (.put n d) = first := by
      show (if (a.resolve n).isNone then upd first n n else first) = first
      rw [if_neg (by simpa using hres)]
    rw [hf]
    intro m
    by_cases e : m = n
    · subst e
      obtain ⟨_, s1, h1, h2⟩ := run_bind_inv hrun
      obtain ⟨x, s2, h3, h4⟩ := run_bind_inv h1
      obtain ⟨_, s3, h5, h6⟩ := run_bind_inv h4
      cases h2
      have hx : x ≠ none := by
        have hg := run_getIndices (cfg := cfg) (o := o) (t := t) habs m
        by_cases hgo : (a.docs m).isSome ∨ a.leakedWriter = false
        · rw [hg.1 hgo] at h3
          cases h3
          simpa using hres
        · obtain ⟨_, g⟩ := hg.2 hgo
          rw [g] at h3
          cases h3
      cases x with
      | none => exact absurd rfl hx
      | some l =>
        intro p hp
        have hb : ¬ Op.list.binds m := id
        have b1 := run_bound hb (names_bind (names_putTargets l d) fun _ => names_last (.unlock .indices) rfl rfl) h6 p hp
        have b2 := run_bound hb (names_lock .indices) h5 p b1
        have b3 := run_bound hb (names_getIndices m) h3 p b2
        exact run_carried h6 (run_carried h5 (run_carried h3 (h m p b3)))
    · exact hne m e

theorem origin_rename {s s' : Shared} {a : SpecState} {r : Ret} {first : Name → Name} (habs : Abs cfg s a) (old new : Name)
    (h : OriginOk s first) (hrun : run cfg o t (Op.prog cfg (.rename old new)) s = .ok r s') :
    OriginOk s' (a.origins first (.rename old new)) := by
  have hb : ∀ m, ¬ Op.list.binds m := fun _ => id
  have hne : ∀ m, m ≠ new → ∀ p, s'.indices.get m = some p → Carries s'.heap p (first m) := fun m hm =>
    origin_keep (names_op (cfg := cfg) (.rename old new)) h hrun (fun e => hm e.symm)
  have hnew : ∀ p, s'.indices.get new = some p → Carries s'.heap p (a.origins first (.rename old new) new) := by
    obtain ⟨_, s1, h1, h2⟩ := run_bind_inv hrun
    cases h2
    obtain ⟨_, s2, h3, h4⟩ := run_bind_inv h1
    obtain ⟨x, s3, h5, h6⟩ := run_bind_inv h4
    have e5 : x = s2.indices.get old ∧ s3 = s2 := by
      rw [run_perform] at h5
      cases h5
      exact ⟨rfl, rfl⟩
    obtain ⟨hx, e5⟩ := e5
    subst e5
    intro p hp
    cases x with
    | none =>
      have b1 := run_bound (hb new) (names_plain (op := .list) (α := Bool) (.unlock .indices) (fun _ => pure false) rfl rfl fun _ => trivial) h6 p hp
      have b2 := run_bound (hb new) (names_lock .indices) h3 p b1
      have b3 := run_unbound (hb old) (fun h => h) (names_lock (op := .list) .indices) h3
      have hd : (a.docs old).isSome = false := by rw [← habs.idx.isSome, ← b3, ← hx]; rfl
      simp only [SpecState.origins, hd]
      exact run_carried h6 (run_carried h3 (h new p b2))
    | some q =>
      have b2 := run_bound (hb old) (names_lock .indices) h3 q hx.symm
      have hd : (a.docs old).isSome = true := by rw [← habs.idx.isSome, b2]; rfl
      have hc := run_carried h3 (h old q b2)
      simp only [SpecState.origins, hd, upd, if_true]
      obtain ⟨_, s4, h7, h8⟩ := run_bind_inv h6
      rw [run_perform] at h7
      cases h7
      have hcr := run_carried h8 (p := q) (n := first old) hc
      have hn : Names (.drop old) (perform (.idxDel old) >>= fun _ => perform .alKeys >>= fun ks =>
          Repo.renameAliases old new ks >>= fun _ => perform (.unlock .indices) >>= fun _ => (pure true : Prog Bool)) :=
        names_act _ _ (fun n h => by cases h) (fun n h => by cases h; rfl) fun _ => names_plain _ _ rfl rfl fun ks =>
          names_bind (names_avoids (avoids_renameAliases old new ks)) fun _ => names_plain _ _ rfl rfl fun _ => trivial
      have b4 := run_bound (op := .drop old) (fun h => h) hn h8 p hp
      have e : p = q := by
        have : (s3.indices.set new q).get new = some p := b4
        rw [GoMap.get_set_same] at this
        cases this
        rfl
      rw [e]
      exact hcr
  intro m p hp
  by_cases e : m = new
  · subst e; exact hnew p hp
  · have := hne m e p hp
    show Carries s'.heap p ((if (a.docs old).isSome then upd first new (first old) else first) m)
    split
    · simpa [upd, e] using this
    · exact this

theorem origin_op {s s' : Shared} {a : SpecState} {r : Ret} {first : Name → Name} (habs : Abs cfg s a) (op : Op)
    (h : OriginOk s first) (hrun : run cfg o t (op.prog cfg) s = .ok r s') : OriginOk s' (a.origins first op) := by
  cases op with
  | put n d => exact origin_put habs n d h hrun
  | rename old new => exact origin_rename habs old new h hrun
  | _ => exact fun n => origin_keep (names_op (cfg := cfg) _) h hrun (by intro e; exact e)

theorem origin_calls : ∀ {cs : List Call} {s s' : Shared} {a : SpecState} {rets : List SRet} {first : Name → Name},
    Abs cfg s a → OriginOk s first → runCalls cfg cs s = .ok rets s' → OriginOk s' (a.originsAfter first (cs.map Call.op)) := by
  intro cs
  induction cs with
  | nil => intro s s' a rets first _ h hrun; cases hrun; exact h
  | cons c cs ih =>
    intro s s' a rets first habs h hrun
    obtain ⟨r, s1, h1, h2⟩ := andThen_inv hrun
    obtain ⟨rs, s2, h3, h4⟩ := andThen_inv h2
    cases h4
    exact ih (step_ok habs h1).2.2.2.1 (origin_op habs c.op h h1) h3

end Visigoth
