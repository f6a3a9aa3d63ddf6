import Verif.Proofs.Naming
/-!
# Who takes an index away
-/
namespace Visigoth

variable {cfg : Cfg}

theorem RemovedDuring.step {n : Name} {t u : Tid} {c c' : Config} (h : RemovedDuring cfg n t u c) (hs : Step cfg c c') :
    RemovedDuring cfg n t u c' := by
  obtain ⟨c1, c2, x, y, h1, h2, h3, h4⟩ := h
  exact ⟨c1, c2, x, y, h1, h2, .tail h3 hs, h4⟩

/-- What a `Drop n` knows is true, or somebody has taken the index away since. -/
structure DropSome (cfg : Cfg) (n : Name) (t : Tid) (c : Config) (ph : Phase) : Prop where
  shape : ∀ x, c.calls[t]? = some x → Dropping n ph x.prog
  seen : ph = .seen → (∀ x, c.calls[t]? = some x → x.running → (c.sh.indices.get n).isSome = true ∨ ∃ u, RemovedDuring cfg n t u c)
  gone : ph = .gone → ∃ u, RemovedDuring cfg n t u c

theorem dropSome_step {n : Name} {t : Tid} {c c' : Config} {ph : Phase} (hr : ConcReachable cfg c) (h : DropSome cfg n t c ph)
    (hop : ∀ x, c'.calls[t]? = some x → x.op = .drop n) (hs : Step cfg c c') : ∃ ph', DropSome cfg n t c' ph' := by
  have keep : (∃ u, RemovedDuring cfg n t u c) → ∃ u, RemovedDuring cfg n t u c' := fun ⟨u, h⟩ => ⟨u, h.step hs⟩
  have hs0 := hs
  cases hs with
  | invoke op o =>
    by_cases ht : t < c.calls.length
    · refine ⟨ph, ?_, ?_, fun hg => keep (h.gone hg)⟩
      · intro x hx
        simp only at hx
        rw [List.getElem?_append_left ht] at hx
        exact h.shape x hx
      · intro hps x hx hrun
        simp only at hx
        rw [List.getElem?_append_left ht] at hx
        exact (h.seen hps x hx hrun).imp id keep
    · refine ⟨.unseen, ?_, fun h => (nomatch h), fun h => (nomatch h)⟩
      intro x hx
      have hx0 := hx
      simp only at hx
      rw [List.getElem?_append_right (Nat.le_of_not_lt ht), List.getElem?_singleton] at hx
      split at hx
      · cases hx
        have := hop _ hx0
        simp only at this
        subst this
        exact dropping_drop (cfg := cfg) n
      · cases hx
  | move u hm =>
    cases hm with
    | @crash s calls op o β a k e h1 he =>
      by_cases hut : u = t
      · subst hut
        have hlt := (List.getElem?_eq_some_iff.1 h1).1
        refine ⟨ph, ?_, fun _ x hx hrun => ?_, fun hg => keep (h.gone hg)⟩
        · intro x hx
          rw [List.getElem?_set_self hlt] at hx
          cases hx; trivial
        · rw [List.getElem?_set_self hlt] at hx
          cases hx; exact hrun.elim
      · refine ⟨ph, ?_, fun hps x hx hrun => ?_, fun hg => keep (h.gone hg)⟩
        · intro x hx
          simp only [List.getElem?_set, hut, if_false] at hx
          exact h.shape x hx
        · simp only [List.getElem?_set, hut, if_false] at hx
          exact (h.seen hps x hx hrun).imp id keep
    | @act s s' calls op o β a k b h1 he =>
      have hlt := (List.getElem?_eq_some_iff.1 h1).1
      by_cases hut : u = t
      · subst hut
        have hsh := h.shape _ h1
        have hopu : op = .drop n := hop ⟨op, o, k b⟩ (by simp only; rw [List.getElem?_set_self hlt])
        refine ⟨a.phase n ph b, ?_, ?_, ?_⟩
        · intro x hx
          simp only [List.getElem?_set, if_true] at hx
          rw [if_pos hlt] at hx
          cases hx
          exact hsh.2.2 b
        · intro hseen x hx hrun
          simp only
          cases hun : a.unbinds with
          | some m =>
            exfalso
            cases a <;> simp [Act.unbinds] at hun
            simp [Act.phase] at hseen
          | none =>
            rw [(exec_index he n).1 (by rw [hsh.2.1]; simp) (by rw [hun]; simp)]
            by_cases hps : ph = .seen
            · exact (h.seen hps _ h1 trivial).imp id keep
            · cases a <;> simp [Act.phase, hps] at hseen
              cases he
              exact .inl (hseen.2.1 ▸ Option.isSome_iff_ne_none.2 hseen.2.2)
        · intro hgone
          cases hun : a.unbinds with
          | some m =>
            obtain ⟨hmn, hph⟩ := hsh.1 m hun
            subst hmn
            rcases h.seen hph _ h1 trivial with hb | hb
            · exact ⟨u, _, _, _, _, hr, .act h1 he, .refl _, hb, (exec_index he m).2.1 hun, h1, trivial, h1, by rw [hopu]; rfl⟩
            · exact keep hb
          | none =>
            refine keep (h.gone ?_)
            cases a <;> simp [Act.phase, Act.unbinds] at hgone hun ⊢ <;> try exact hgone
            split at hgone
            · cases hgone
            · exact hgone
      · have hnm := names_reachable hr _ (List.mem_of_getElem? h1)
        refine ⟨ph, ?_, ?_, fun hg => keep (h.gone hg)⟩
        · intro x hx
          simp only [List.getElem?_set, hut, if_false] at hx
          exact h.shape x hx
        · intro hseen x hx hrun
          simp only [List.getElem?_set, hut, if_false] at hx
          rcases h.seen hseen x hx hrun with hb | hb
          · by_cases hu : a.unbinds = some n
            · exact .inr ⟨u, _, _, _, _, hr, .act h1 he, .refl _, hb, (exec_index he n).2.1 hu, hx, hrun, h1, hnm.2.1 n hu⟩
            · by_cases hbd : a.binds = some n
              · exact .inl ((exec_index he n).2.2 hbd)
              · left
                simp only
                rw [(exec_index he n).1 hbd hu]
                exact hb
          · exact .inr (keep hb)

theorem dropSome_reachable {n : Name} {t : Tid} {c : Config} (hr : ConcReachable cfg c)
    (hop : ∀ x, c.calls[t]? = some x → x.op = .drop n) : ∃ ph, DropSome cfg n t c ph := by
  have key : ∀ c0, Steps cfg c0 c → c0 = Config.init → ∃ ph, DropSome cfg n t c ph := by
    intro c0 hs
    induction hs with
    | refl =>
      intro hc; subst hc
      exact ⟨.unseen, fun x hx => (by simp [Config.init] at hx), fun h => (nomatch h), fun h => (nomatch h)⟩
    | @tail c1 c2 h1 hs ih =>
      intro hc
      subst hc
      obtain ⟨ph, hph⟩ := ih h1
        (fun x hx => step_pulls (P := fun u op => u = t → op = .drop n) hs (fun u x hx hu => hop x (hu ▸ hx)) t x hx rfl) rfl
      exact dropSome_step h1 hph hop hs
  exact key _ hr rfl

end Visigoth
