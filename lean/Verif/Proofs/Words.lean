import Verif.Spec.Words
import Verif.Proofs.Analyze
import Verif.Proofs.Lower
/-!
# The tokens of a text are its words
-/
namespace Visigoth

/-- After a separator a new word starts. -/
theorem splitChars_before (f : Rune → Bool) (a : List GoChar) :
    ∀ st : Option (List GoChar), (a = [] → st = none) → (∀ c, a.getLast? = some c → f c.1 = true) →
      ∃ X, ∀ rest, splitChars f st (a ++ rest) = X ++ splitChars f none rest := by
  induction a with
  | nil => intro st h _; rw [h rfl]; exact ⟨[], fun _ => rfl⟩
  | cons c a ih =>
    intro st _ hl
    by_cases ha : a = []
    · subst ha
      have hc : f c.1 = true := hl c rfl
      cases st with
      | none => exact ⟨[], fun rest => by simp [splitChars, hc]⟩
      | some cur => exact ⟨[cur], fun rest => by simp [splitChars, hc]⟩
    · have hl' : ∀ x, a.getLast? = some x → f x.1 = true := by
        intro x hx
        apply hl
        rw [List.getLast?_cons, hx]; rfl
      have key : ∀ st', ∃ X, ∀ rest, splitChars f st' (a ++ rest) = X ++ splitChars f none rest :=
        fun st' => ih st' (fun h => absurd h ha) hl'
      by_cases hc : f c.1 = true
      · obtain ⟨X, hX⟩ := key none
        cases st with
        | none => exact ⟨X, fun rest => by simp [splitChars, hc, hX]⟩
        | some cur => exact ⟨cur :: X, fun rest => by simp [splitChars, hc, hX]⟩
      · cases st with
        | none =>
          obtain ⟨X, hX⟩ := key (some [c])
          exact ⟨X, fun rest => by simp [splitChars, hc, hX]⟩
        | some cur =>
          obtain ⟨X, hX⟩ := key (some (cur ++ [c]))
          exact ⟨X, fun rest => by simp [splitChars, hc, hX]⟩

theorem mem_splitChars_of_run (f : Rune → Bool) (a run b : List GoChar) (hne : run ≠ [])
    (hr : ∀ c ∈ run, f c.1 = false) (ha : ∀ c, a.getLast? = some c → f c.1 = true)
    (hb : ∀ c, b.head? = some c → f c.1 = true) :
    run ∈ splitChars f none (a ++ run ++ b) := by
  obtain ⟨X, hX⟩ := splitChars_before f a none (fun _ => rfl) ha
  rw [List.append_assoc, hX, splitChars_tok f run b hne hr]
  apply List.mem_append_right
  cases b with
  | nil => simp [splitChars]
  | cons c b => simp [splitChars, hb c rfl]

theorem run_of_mem_splitChars (f : Rune → Bool) (cs : List GoChar) :
    (∀ t ∈ splitChars f none cs, ∃ a b, cs = a ++ t ++ b ∧ t ≠ [] ∧ (∀ c ∈ t, f c.1 = false) ∧
      (∀ c, a.getLast? = some c → f c.1 = true) ∧ (∀ c, b.head? = some c → f c.1 = true)) ∧
    (∀ cur, ∀ t ∈ splitChars f (some cur) cs,
      (∃ p b, t = cur ++ p ∧ cs = p ++ b ∧ (∀ c ∈ p, f c.1 = false) ∧ (∀ c, b.head? = some c → f c.1 = true)) ∨
      (∃ a b, cs = a ++ t ++ b ∧ t ≠ [] ∧ (∀ c ∈ t, f c.1 = false) ∧ a ≠ [] ∧
        (∀ c, a.getLast? = some c → f c.1 = true) ∧ (∀ c, b.head? = some c → f c.1 = true))) := by
  induction cs with
  | nil =>
    refine ⟨fun t ht => absurd ht (by simp [splitChars]), fun cur t ht => .inl ?_⟩
    simp only [splitChars, List.mem_singleton] at ht
    exact ⟨[], [], by simp [ht], rfl, by simp, by simp⟩
  | cons c cs ih =>
    obtain ⟨ih1, ih2⟩ := ih
    have shift : ∀ (a : List GoChar), f c.1 = true → (∀ x, a.getLast? = some x → f x.1 = true) →
        ∀ x, (c :: a).getLast? = some x → f x.1 = true := by
      intro a hc ha x hx
      rw [List.getLast?_cons] at hx
      cases h : a.getLast? with
      | none => rw [h] at hx; injection hx with hx; rw [← hx]; exact hc
      | some y => rw [h] at hx; injection hx with hx; rw [← hx]; exact ha y h
    have shift' : ∀ (a : List GoChar), a ≠ [] → (∀ x, a.getLast? = some x → f x.1 = true) →
        ∀ x, (c :: a).getLast? = some x → f x.1 = true := by
      intro a hne ha x hx
      rw [List.getLast?_cons] at hx
      cases h : a.getLast? with
      | none => exact absurd (List.getLast?_eq_none_iff.1 h) hne
      | some y => rw [h] at hx; injection hx with hx; rw [← hx]; exact ha y h
    by_cases hc : f c.1 = true
    · constructor
      · intro t ht
        simp only [splitChars, hc, if_true] at ht
        obtain ⟨a, b, e, h1, h2, h3, h4⟩ := ih1 t ht
        exact ⟨c :: a, b, by simp [e], h1, h2, shift a hc h3, h4⟩
      · intro cur t ht
        simp only [splitChars, hc, if_true, List.mem_cons] at ht
        rcases ht with ht | ht
        · exact .inl ⟨[], c :: cs, by simp [ht], rfl, by simp, by intro x hx; injection hx with hx; rw [← hx]; exact hc⟩
        · obtain ⟨a, b, e, h1, h2, h3, h4⟩ := ih1 t ht
          exact .inr ⟨c :: a, b, by simp [e], h1, h2, by simp, shift a hc h3, h4⟩
    · have hc' : f c.1 = false := by simpa using hc
      constructor
      · intro t ht
        simp only [splitChars, hc', Bool.false_eq_true, if_false] at ht
        rcases ih2 _ t ht with ⟨p, b, e1, e2, h1, h2⟩ | ⟨a, b, e, h1, h2, h3, h4, h5⟩
        · refine ⟨[], b, by simp [e1, e2], by simp [e1], ?_, by simp, h2⟩
          intro x hx
          rw [e1] at hx
          simp only [List.cons_append, List.nil_append, List.mem_cons] at hx
          rcases hx with hx | hx
          · rw [hx]; exact hc'
          · exact h1 x hx
        · exact ⟨c :: a, b, by simp [e], h1, h2, shift' a h3 h4, h5⟩
      · intro cur t ht
        simp only [splitChars, hc', Bool.false_eq_true, if_false] at ht
        rcases ih2 _ t ht with ⟨p, b, e1, e2, h1, h2⟩ | ⟨a, b, e, h1, h2, h3, h4, h5⟩
        · refine .inl ⟨c :: p, b, by simp [e1], by simp [e2], ?_, h2⟩
          intro x hx
          rcases List.mem_cons.1 hx with hx | hx
          · rw [hx]; exact hc'
          · exact h1 x hx
        · exact .inr ⟨c :: a, b, by simp [e], h1, h2, by simp, shift' a h3 h4, h5⟩

theorem isWord_iff (keep : Rune → Bool) (text w : Str) :
    IsWord keep text w ↔ w ∈ (splitChars (fun r => !keep r) none (chars text)).map bytesOf := by
  rw [List.mem_map]
  constructor
  · rintro ⟨a, run, b, e, ew, h1, h2, h3, h4⟩
    refine ⟨run, ?_, ew.symm⟩
    rw [e]
    exact mem_splitChars_of_run _ a run b h1 (fun c hc => by simp [h2 c hc]) (fun c hc => by simp [h3 c hc])
      (fun c hc => by simp [h4 c hc])
  · rintro ⟨run, hr, ew⟩
    obtain ⟨a, b, e, h1, h2, h3, h4⟩ := (run_of_mem_splitChars _ _).1 run hr
    exact ⟨a, run, b, e, ew.symm, h1, fun c hc => by simpa using h2 c hc, fun c hc => by simpa using h3 c hc,
      fun c hc => by simpa using h4 c hc⟩

theorem lowered_eq (uni : Rune → Rune) (hu : CaseTable uni) (w : Str) : toLower uni w = lowered uni w := by
  rw [toLower_eq uni hu, runesOf_eq]
  simp [lowered, List.flatMap_map]

end Visigoth
