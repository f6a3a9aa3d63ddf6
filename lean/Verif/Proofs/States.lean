import Verif.Spec.States
import Verif.Proofs.Produce
/-!
# Which states one caller can bring about, with and without `Rename` and `UnAlias`
-/
namespace Visigoth

variable {cfg : Cfg}

/-- Completed calls of allowed methods lead from one state to another. -/
def LeadsBy (cfg : Cfg) (ok : Op → Bool) (a a' : SpecState) : Prop :=
  ∃ ops rets, (∀ op ∈ ops, ok op = true) ∧ SpecState.runs cfg a ops rets a'

section
variable {ok : Op → Bool}

theorem LeadsBy.refl (a : SpecState) : LeadsBy cfg ok a a := ⟨[], [], by simp, rfl, rfl⟩

theorem LeadsBy.trans {a a' a'' : SpecState} (h : LeadsBy cfg ok a a') (h' : LeadsBy cfg ok a' a'') : LeadsBy cfg ok a a'' := by
  obtain ⟨o1, r1, k1, h1⟩ := h
  obtain ⟨o2, r2, k2, h2⟩ := h'
  exact ⟨_, _, fun op hop => (List.mem_append.1 hop).elim (k1 op) (k2 op), runs_append h1 h2⟩

theorem leadsBy_call {a a' : SpecState} (op : Op) (hok : ok op = true) (r : SRet) (h1 : ¬ a.hangs op) (h2 : ∀ c, ¬ a.crashes cfg op c)
    (h3 : a.allows cfg op r) (h4 : a.next op = a') : LeadsBy cfg ok a a' :=
  ⟨[op], [r], by simpa using hok, r, [], rfl, h1, h2, h3, rfl, h4.symm⟩

variable (hput : ∀ n d, ok (.put n d) = true)
include hput

/-- An index is created. -/
theorem by_new {n : Name} {a : SpecState} (hd : a.docs n = none) (ha : a.aliases n = none) (hr : a.leakedReaders = 0)
    (hw : a.leakedWriter = false) (d : DocRequest) : LeadsBy cfg ok a { a with docs := upd a.docs n (some [d]) } := by
  have hres : a.resolve n = none := by simp [SpecState.resolve, hd, ha]
  refine leadsBy_call (.put n d) (hput n d) .unit ?_ ?_ rfl ?_
  · simp [SpecState.hangs, hw, hr]
  · rintro c ⟨l, hl, _⟩; rw [hres] at hl; cases hl
  · simp [SpecState.next, hres]

/-- More documents are put into it. -/
theorem by_more {t : Name} {a : SpecState} (hw : a.leakedWriter = false) (hr : a.leakedReaders = 0) : ∀ (rs rs0 : List DocRequest),
    LeadsBy cfg ok { a with docs := upd a.docs t (some rs0) } { a with docs := upd a.docs t (some (rs0 ++ rs)) }
  | [], rs0 => by rw [List.append_nil]; exact .refl _
  | d :: rs, rs0 => by
    have ih := by_more (t := t) hw hr rs (rs0 ++ [d])
    rw [List.append_assoc, List.singleton_append] at ih
    refine LeadsBy.trans ?_ ih
    have hres : ({ a with docs := upd a.docs t (some rs0) } : SpecState).resolve t = some [t] := by simp [SpecState.resolve, upd]
    refine leadsBy_call (.put t d) (hput t d) .unit ?_ ?_ rfl ?_
    · simp [SpecState.hangs, hw, hr, upd]
    · rintro c ⟨l, hl, h⟩
      rw [hres] at hl
      cases hl
      rcases h with ⟨_, m, hm, h⟩ | ⟨_, _, h⟩
      · simp at hm; subst hm; simp [upd] at h
      · exact h (by simp)
    · simp only [SpecState.next, hres]
      refine SpecState.ext' (fun n => ?_) (fun _ => rfl) rfl rfl
      by_cases hn : n = t <;> simp [upd, hn]

/-- All indices; there are no aliases yet. -/
theorem by_docs (D : Name → Option (List DocRequest)) (hD : ∀ n rs, D n = some rs → rs ≠ []) :
    ∀ (ns : List Name), (∀ n ∈ ns, (D n).isSome) → ns.Nodup → ∀ (a : SpecState), (∀ n ∈ ns, a.docs n = none) → (∀ k, a.aliases k = none) →
      a.leakedReaders = 0 → a.leakedWriter = false →
      LeadsBy cfg ok a { a with docs := fun n => if n ∈ ns then D n else a.docs n }
  | [], _, _, a, _, _, _, _ => by simp only [List.not_mem_nil, if_false]; exact .refl _
  | n :: ns, hs, hn, a, h, hal, hr, hw => by
    obtain ⟨rs, hrs⟩ := Option.isSome_iff_exists.1 (hs n (.head _))
    have hn' := List.nodup_cons.1 hn
    cases rs with
    | nil => exact absurd rfl (hD n _ hrs)
    | cons d rs =>
      refine (by_new hput (h n (.head _)) (hal n) hr hw d).trans ((by_more hput hw hr rs [d]).trans ?_)
      have ih := by_docs D hD ns (fun k hk => hs k (.tail _ hk)) hn'.2 { a with docs := upd a.docs n (some ([d] ++ rs)) }
        (fun m hm => by
          have : m ≠ n := fun e => hn'.1 (e ▸ hm)
          simp [upd, this, h m (.tail _ hm)]) hal hr hw
      have e2 : ({ a with docs := fun m => if m ∈ ns then D m else upd a.docs n (some ([d] ++ rs)) m } : SpecState)
          = { a with docs := fun m => if m ∈ n :: ns then D m else a.docs m } := by
        refine SpecState.ext' (fun m => ?_) (fun _ => rfl) rfl rfl
        by_cases hm : m = n
        · subst hm; simp [upd, hrs]
        · simp [upd, hm]
      rw [← e2]
      exact ih

omit hput
variable (halias : ∀ n i, ok (.alias n i) = true)
include halias

/-- An entry is added to an alias. -/
theorem by_alias {al i : Name} {a : SpecState} (hw : a.leakedWriter = false) (hd : a.docs i ≠ none)
    (hi : i ∉ (a.aliases al).getD []) :
    LeadsBy cfg ok a { a with aliases := upd a.aliases al (some ((a.aliases al).getD [] ++ [i])) } := by
  obtain ⟨rs, hd⟩ := Option.ne_none_iff_exists'.1 hd
  refine leadsBy_call (.alias al i) (halias al i) (.bool true) ?_ (fun _ h => h) ?_ ?_
  · simp [SpecState.hangs, hw]
  · show SRet.bool true = SRet.bool ((a.docs i).isSome && decide (i ∉ (a.aliases al).getD []))
    rw [hd]
    simp [hi]
  · simp only [SpecState.next, hd, Option.isSome_some, if_true]
    cases hl : a.aliases al with
    | none => rfl
    | some l =>
      rw [hl] at hi
      simp only [Option.getD_some] at hi ⊢
      rw [if_neg hi]

theorem by_entries {al : Name} {a : SpecState} (hw : a.leakedWriter = false) : ∀ (l l0 : List Name), (l0 ++ l).Nodup →
    (∀ n ∈ l, a.docs n ≠ none) →
    LeadsBy cfg ok { a with aliases := upd a.aliases al (some l0) } { a with aliases := upd a.aliases al (some (l0 ++ l)) }
  | [], l0, _, _ => by rw [List.append_nil]; exact .refl _
  | y :: l, l0, hn, hd => by
    have e0 : l0 ++ y :: l = l0 ++ [y] ++ l := by simp
    have ih := by_entries (al := al) hw l (l0 ++ [y]) (e0 ▸ hn) (fun n h => hd n (.tail _ h))
    rw [e0]
    refine LeadsBy.trans ?_ ih
    have hy : y ∉ l0 := fun h => (List.nodup_append.1 hn).2.2 y h y (.head _) rfl
    have := by_alias (cfg := cfg) halias (a := { a with aliases := upd a.aliases al (some l0) }) (al := al) (i := y) hw (hd y (.head _))
      (by simpa [upd] using hy)
    have e : ({ a with aliases := upd (upd a.aliases al (some l0)) al (some ((upd a.aliases al (some l0) al).getD [] ++ [y])) } : SpecState)
        = { a with aliases := upd a.aliases al (some (l0 ++ [y])) } := by
      refine SpecState.ext' (fun _ => rfl) (fun k => ?_) rfl rfl
      by_cases hk : k = al <;> simp [upd, hk]
    rw [← e]
    exact this

/-- All aliases; the indices are there. -/
theorem by_aliases (AL : Name → Option (List Name)) (a0 : SpecState) (hw : a0.leakedWriter = false)
    (hAL : ∀ k l, AL k = some l → l.Nodup ∧ ∀ n ∈ l, a0.docs n ≠ none)
    (hempty : ∀ k, AL k = some [] → (∀ n i, ok (.unAlias n i) = true) ∧ ∃ n, n ≠ [] ∧ a0.docs n ≠ none) :
    ∀ (ks : List Name), (∀ k ∈ ks, (AL k).isSome) → ks.Nodup → ∀ (a : SpecState), a.docs = a0.docs → a.leakedWriter = false →
      (∀ k ∈ ks, a.aliases k = none) → LeadsBy cfg ok a { a with aliases := fun k => if k ∈ ks then AL k else a.aliases k }
  | [], _, _, a, _, _, _ => by simp only [List.not_mem_nil, if_false]; exact .refl _
  | al :: ks, hs, hn, a, hd, haw, hno => by
    obtain ⟨l, hl⟩ := Option.isSome_iff_exists.1 (hs al (.head _))
    have hn' := List.nodup_cons.1 hn
    obtain ⟨hnd, hex⟩ := hAL al l hl
    have hal := hno al (.head _)
    have first : LeadsBy cfg ok a { a with aliases := upd a.aliases al (some l) } := by
      cases l with
      | nil =>
        obtain ⟨hun, n, hne, hex⟩ := hempty al hl
        rw [← hd] at hex
        refine (by_alias halias (al := al) (i := n) haw hex (by simp [hal])).trans ?_
        obtain ⟨rs, hex⟩ := Option.ne_none_iff_exists'.1 hex
        refine leadsBy_call (.unAlias al n) (hun al n) (.bool true) ?_ (fun _ h => h) ?_ ?_
        · simp [SpecState.hangs, haw]
        · simp [SpecState.allows, hne, hex, upd]
        · refine SpecState.ext' (fun m => ?_) (fun k => ?_) ?_ ?_ <;> simp [SpecState.next, hne, hex, upd, hal]
          by_cases hk : k = al <;> simp [hk]
      | cons y l =>
        refine (by_alias halias (al := al) (i := y) haw (by rw [hd]; exact hex y (.head _)) (by simp [hal])).trans ?_
        have := by_entries (cfg := cfg) halias (al := al) (a := a) haw l [y] (by simpa using hnd) (fun n h => by rw [hd]; exact hex n (.tail _ h))
        simpa [hal] using this
    refine first.trans ?_
    have ih := by_aliases AL a0 hw hAL hempty ks (fun k hk => hs k (.tail _ hk)) hn'.2
      { a with aliases := upd a.aliases al (some l) } hd haw (fun k hk => by
        have : k ≠ al := fun e => hn'.1 (e ▸ hk)
        simp [upd, this, hno k (.tail _ hk)])
    have e : ({ a with aliases := fun k => if k ∈ ks then AL k else upd a.aliases al (some l) k } : SpecState)
        = { a with aliases := fun k => if k ∈ al :: ks then AL k else a.aliases k } := by
      refine SpecState.ext' (fun _ => rfl) (fun k => ?_) rfl rfl
      by_cases hk : k = al
      · subst hk; simp [upd, hn'.1, hl]
      · simp [upd, hk]
    rw [← e]
    exact ih

omit halias
variable (hun : ∀ n i, ok (.unAlias n i) = true)
include hun

theorem by_writer {n k : Name} {a : SpecState} (hne : n ≠ []) (hd : a.docs n ≠ none) (hk : a.aliases k = none) (hw : a.leakedWriter = false) :
    LeadsBy cfg ok a { a with leakedWriter := true } := by
  obtain ⟨rs, hd⟩ := Option.ne_none_iff_exists'.1 hd
  refine leadsBy_call (.unAlias k n) (hun k n) (.bool false) ?_ (fun _ h => h) ?_ ?_
  · simp [SpecState.hangs, hw]
  · simp [SpecState.allows, hne, hd, hk]
  · simp [SpecState.next, hne, hd, hk]

theorem by_readers {t : Name} {a : SpecState} (hne : t ≠ []) (hd : a.docs t = none) : ∀ k : Nat,
    LeadsBy cfg ok a { a with leakedReaders := a.leakedReaders + k }
  | 0 => .refl _
  | k + 1 => by
    refine (by_readers hne hd k).trans ?_
    refine leadsBy_call (.unAlias t t) (hun t t) (.bool false) ?_ (fun _ h => h) ?_ ?_
    · simp [SpecState.hangs, hne, hd]
    · simp [SpecState.allows, hne, hd]
    · simp [SpecState.next, hne, hd]; omega
end

theorem rows_get {β : Type} : ∀ {rows : GoMap Name β}, rows.keys.Nodup → ∀ k v, (k, v) ∈ rows ↔ rows.get k = some v
  | [], _, k, v => by simp
  | (a, b) :: rows, hn, k, v => by
    simp only [GoMap.keys, List.map_cons, List.nodup_cons] at hn
    have ih := rows_get (rows := rows) hn.2 k v
    simp only [List.mem_cons, GoMap.get, Prod.mk.injEq]
    by_cases h : a = k
    · subst h
      simp only [if_true, Option.some.injEq]
      constructor
      · rintro (⟨_, rfl⟩ | h)
        · rfl
        · exact absurd (List.mem_map.2 ⟨_, h, rfl⟩) hn.1
      · rintro rfl; exact .inl ⟨trivial, rfl⟩
    · rw [if_neg h, ← ih]
      constructor
      · rintro (⟨rfl, _⟩ | h')
        · exact absurd rfl h
        · exact h'
      · exact .inr

/-- The names of a finite table, none twice. -/
theorem exact_names {β : Type} {f : Name → Option β} (h : ∃ ns : List Name, ∀ n, f n ≠ none → n ∈ ns) :
    ∃ ns : List Name, ns.Nodup ∧ ∀ n, (f n).isSome ↔ n ∈ ns := by
  obtain ⟨ns, h⟩ := h
  have key : ∀ (ms : List Name), ∃ ns : List Name, ns.Nodup ∧ ∀ n, n ∈ ns ↔ n ∈ ms ∧ (f n).isSome := by
    intro ms
    induction ms with
    | nil => exact ⟨[], .nil, by simp⟩
    | cons m ms ih =>
      obtain ⟨ns, h1, h2⟩ := ih
      by_cases hm : m ∈ ns ∨ ¬ (f m).isSome
      · refine ⟨ns, h1, fun n => ?_⟩
        rw [h2, List.mem_cons]
        constructor
        · exact fun ⟨a, b⟩ => ⟨.inr a, b⟩
        · rintro ⟨rfl | a, b⟩
          · rcases hm with hm | hm
            · exact (h2 n).1 hm
            · exact absurd b hm
          · exact ⟨a, b⟩
      · have hm' : m ∉ ns ∧ (f m).isSome := ⟨fun e => hm (.inl e), Decidable.byContradiction fun e => hm (.inr e)⟩
        refine ⟨m :: ns, List.nodup_cons.2 ⟨hm'.1, h1⟩, fun n => ?_⟩
        rw [List.mem_cons, h2, List.mem_cons]
        constructor
        · rintro (rfl | ⟨a, b⟩)
          · exact ⟨.inl rfl, hm'.2⟩
          · exact ⟨.inr a, b⟩
        · rintro ⟨rfl | a, b⟩
          · exact .inl rfl
          · exact .inr ⟨a, b⟩
  obtain ⟨ms, h1, h2⟩ := key ns
  refine ⟨ms, h1, fun n => ?_⟩
  rw [h2]
  exact ⟨fun hs => ⟨h n (by intro e; rw [e] at hs; cases hs), hs⟩, fun hs => hs.2⟩

/-- The states that are brought about without `Rename`. -/
theorem leads_orderly {ok : Op → Bool} (hput : ∀ n d, ok (.put n d) = true) (halias : ∀ n i, ok (.alias n i) = true) (a : SpecState)
    (hf : a.finite) (hfill : a.filled) (hs : a.sound)
    (hun : (a.leakedWriter = true ∨ (∃ k, a.aliases k = some [])) → a.named)
    (hok : (0 < a.leakedReaders ∨ a.leakedWriter = true ∨ ∃ k, a.aliases k = some []) → ∀ n i, ok (.unAlias n i) = true) :
    LeadsBy cfg ok SpecState.empty a := by
  obtain ⟨ns, nn, hns⟩ := exact_names hf.1
  obtain ⟨ks, kn, hks⟩ := exact_names hf.2
  obtain ⟨t, ht0, ht⟩ := fresh_name (ns ++ ks)
  simp only [List.mem_append, not_or] at ht
  have ea : ∀ k, (if k ∈ ks then a.aliases k else none) = a.aliases k := by
    intro k
    split
    · rfl
    · next h =>
      cases hak : a.aliases k with
      | none => rfl
      | some l => exact absurd ((hks k).1 (by rw [hak]; rfl)) h
  have ed : ∀ n, (if n ∈ ns then a.docs n else none) = a.docs n := by
    intro n
    split
    · rfl
    · next h =>
      cases hak : a.docs n with
      | none => rfl
      | some l => exact absurd ((hns n).1 (by rw [hak]; rfl)) h
  have htn : a.docs t = none := by
    cases h : a.docs t with
    | none => rfl
    | some rs => exact absurd ((hns t).1 (by rw [h]; rfl)) ht.1
  have hta : a.aliases t = none := by
    cases h : a.aliases t with
    | none => rfl
    | some rs => exact absurd ((hks t).1 (by rw [h]; rfl)) ht.2
  have h1 : LeadsBy cfg ok SpecState.empty ⟨a.docs, fun _ => none, 0, false⟩ := by
    have := by_docs (cfg := cfg) hput a.docs (fun n rs h e => hfill n (e ▸ h)) ns (fun n h => (hns n).2 h) nn SpecState.empty
      (fun _ _ => rfl) (fun _ => rfl) rfl rfl
    simpa [SpecState.empty, ed] using this
  have h2 : LeadsBy cfg ok ⟨a.docs, fun _ => none, 0, false⟩ ⟨a.docs, a.aliases, 0, false⟩ := by
    have := by_aliases (cfg := cfg) halias a.aliases ⟨a.docs, fun _ => none, 0, false⟩ rfl hs
      (fun k h => ⟨hok (.inr (.inr ⟨k, h⟩)), hun (.inr ⟨k, h⟩)⟩) ks (fun n h => (hks n).2 h) kn ⟨a.docs, fun _ => none, 0, false⟩ rfl rfl (fun _ _ => rfl)
    simpa [ea] using this
  have h3 : LeadsBy cfg ok ⟨a.docs, a.aliases, 0, false⟩ ⟨a.docs, a.aliases, 0, a.leakedWriter⟩ := by
    cases hw : a.leakedWriter with
    | false => exact .refl _
    | true =>
      obtain ⟨n, hne, hd⟩ := hun (.inl hw)
      exact by_writer (hok (.inr (.inl hw))) (a := ⟨a.docs, a.aliases, 0, false⟩) hne hd hta rfl
  have h4 : LeadsBy cfg ok ⟨a.docs, a.aliases, 0, a.leakedWriter⟩ a := by
    cases hr : a.leakedReaders with
    | zero => rw [← hr]; exact .refl _
    | succ k =>
      have := by_readers (cfg := cfg) (hok (.inl (by omega))) (a := ⟨a.docs, a.aliases, 0, a.leakedWriter⟩) ht0 htn a.leakedReaders
      simpa using this
  exact h1.trans (h2.trans (h3.trans h4))

/-- What holds of every state of one caller. -/
theorem filled_next {a : SpecState} (h : a.filled) (op : Op) : (a.next op).filled := by
  intro n
  cases op with
  | list => exact h n
  | listAliases => exact h n
  | has _ => exact h n
  | hasAlias _ => exact h n
  | search _ _ _ => exact h n
  | string => exact h n
  | «alias» al i =>
    simp only [SpecState.next]
    split
    · split
      · exact h n
      · split <;> exact h n
    · exact h n
  | unAlias al i =>
    simp only [SpecState.next]
    split
    · exact h n
    · split
      · split <;> exact h n
      · exact h n
  | put m d =>
    simp only [SpecState.next]
    split
    · simp only [upd]; split
      · simp
      · exact h n
    · simp only
      split
      · cases a.docs n <;> simp
      · exact h n
  | rename o m =>
    simp only [SpecState.next]
    split
    · exact h n
    · next rs hrs =>
      simp only [upd]
      split
      · simp
      · split
        · intro e; cases e; exact h o hrs
        · exact h n
  | drop m =>
    simp only [SpecState.next]
    split
    · simp only [upd]; split
      · simp
      · exact h n
    · exact h n

/-- What holds without `Rename`. -/
structure Orderly (a : SpecState) : Prop where
  sound : a.sound
  named : (a.leakedWriter = true ∨ ∃ k, a.aliases k = some []) → a.named

theorem orderly_next {a : SpecState} (h : Orderly a) (op : Op) (hop : op.isRename = false) (hh : ¬ a.hangs op) : Orderly (a.next op) := by
  cases op with
  | list => exact h
  | listAliases => exact h
  | has _ => exact h
  | hasAlias _ => exact h
  | search _ _ _ => exact h
  | string => exact h
  | rename o n => cases hop
  | «alias» al i =>
    simp only [SpecState.next]
    split
    case isFalse => exact h
    case isTrue hi =>
    have hi' : a.docs i ≠ none := by intro e; rw [e] at hi; cases hi
    split
    · refine ⟨fun k l hk => ?_, fun hn => ?_⟩
      · simp only [upd] at hk
        split at hk
        · cases hk; simpa using hi'
        · exact h.sound k l hk
      · rcases hn with hn | ⟨k, hk⟩
        · exact h.named (.inl hn)
        · simp only [upd] at hk
          split at hk
          · cases hk
          · exact h.named (.inr ⟨k, hk⟩)
    · next l0 hl0 =>
      split
      · exact h
      · next hni =>
        refine ⟨fun k l hk => ?_, fun hn => ?_⟩
        · simp only [upd] at hk
          split at hk
          · cases hk
            obtain ⟨g1, g2⟩ := h.sound al l0 hl0
            refine ⟨List.nodup_append.2 ⟨g1, by simp, ?_⟩, ?_⟩
            · intro x hx y hy e
              simp at hy
              exact hni (hy ▸ e ▸ hx)
            · intro x hx
              rcases List.mem_append.1 hx with hx | hx
              · exact g2 x hx
              · simp at hx; exact hx ▸ hi'
          · exact h.sound k l hk
        · rcases hn with hn | ⟨k, hk⟩
          · exact h.named (.inl hn)
          · simp only [upd] at hk
            split at hk
            · simp at hk
            · exact h.named (.inr ⟨k, hk⟩)
  | unAlias al i =>
    simp only [SpecState.next]
    split
    · refine ⟨fun k l hk => ?_, fun hn => ?_⟩
      · simp only [upd] at hk
        split at hk
        · cases hk
        · exact h.sound k l hk
      · rcases hn with hn | ⟨k, hk⟩
        · exact h.named (.inl hn)
        · simp only [upd] at hk
          split at hk
          · cases hk
          · exact h.named (.inr ⟨k, hk⟩)
    · next hne =>
      split
      case isFalse => exact ⟨h.sound, h.named⟩
      case isTrue hi =>
      have hi' : a.named := ⟨i, hne, by intro e; rw [e] at hi; cases hi⟩
      split
      · exact ⟨h.sound, fun _ => hi'⟩
      · next l0 hl0 =>
        refine ⟨fun k l hk => ?_, fun _ => hi'⟩
        simp only [upd] at hk
        split at hk
        · cases hk
          obtain ⟨g1, g2⟩ := h.sound al l0 hl0
          exact ⟨g1.filter _, fun x hx => g2 x (List.mem_filter.1 hx).1⟩
        · exact h.sound k l hk
  | put n d =>
    have key : ∀ (docs : Name → Option (List DocRequest)), (∀ m, a.docs m ≠ none → docs m ≠ none) → Orderly { a with docs := docs } := by
      intro docs hd
      refine ⟨fun k l hk => ⟨(h.sound k l hk).1, fun m hm => hd m ((h.sound k l hk).2 m hm)⟩, fun hn => ?_⟩
      obtain ⟨m, h1, h2⟩ := h.named hn
      exact ⟨m, h1, hd m h2⟩
    simp only [SpecState.next]
    split
    · refine key _ fun m hm => ?_
      simp only [upd]; split
      · simp
      · exact hm
    · refine key _ fun m hm => ?_
      split
      · simpa using hm
      · exact hm
  | drop n =>
    simp only [SpecState.next]
    split
    case isFalse => exact h
    case isTrue hi =>
    have hw : a.leakedWriter = false := by
      cases hw : a.leakedWriter with
      | false => rfl
      | true => exact absurd ⟨hi, .inr hw⟩ hh
    refine ⟨fun k l hk => ?_, fun hn => ?_⟩
    · simp only at hk
      cases ha : a.aliases k with
      | none => rw [ha] at hk; cases hk
      | some l0 =>
        rw [ha, Option.bind_some] at hk
        split at hk
        · cases hk
        · cases hk
          obtain ⟨g1, g2⟩ := h.sound k l0 ha
          refine ⟨g1.filter _, fun x hx => ?_⟩
          have := List.mem_filter.1 hx
          simp only [upd]
          rw [if_neg (by simpa using this.2)]
          exact g2 x this.1
    · exfalso
      rcases hn with hn | ⟨k, hk⟩
      · simp only at hn; rw [hw] at hn; cases hn
      · simp only at hk
        cases ha : a.aliases k with
        | none => rw [ha] at hk; cases hk
        | some l0 =>
          rw [ha, Option.bind_some] at hk
          split at hk
          · cases hk
          · next h => exact h (by simpa using hk)

/-- What holds without `Rename` and `UnAlias`. -/
structure Tight (a : SpecState) : Prop where
  orderly : Orderly a
  full : ∀ k, a.aliases k ≠ some []
  readers : a.leakedReaders = 0
  writer : a.leakedWriter = false

theorem tight_next {a : SpecState} (h : Tight a) (op : Op) (hop : op.isRename = false) (hop' : op.isUnAlias = false) (hh : ¬ a.hangs op) :
    Tight (a.next op) := by
  refine ⟨orderly_next h.orderly op hop hh, ?_, ?_, ?_⟩
  · intro k
    cases op with
    | list => exact h.full k
    | listAliases => exact h.full k
    | has _ => exact h.full k
    | hasAlias _ => exact h.full k
    | search _ _ _ => exact h.full k
    | string => exact h.full k
    | rename o n => cases hop
    | unAlias _ _ => cases hop'
    | «alias» al i =>
      simp only [SpecState.next]
      split
      · split
        · simp only [upd]; split
          · simp
          · exact h.full k
        · split
          · exact h.full k
          · simp only [upd]; split
            · simp
            · exact h.full k
      · exact h.full k
    | put n d =>
      simp only [SpecState.next]
      split <;> exact h.full k
    | drop n =>
      simp only [SpecState.next]
      split
      · intro hk
        simp only at hk
        cases ha : a.aliases k with
        | none => rw [ha] at hk; cases hk
        | some l0 =>
          rw [ha, Option.bind_some] at hk
          split at hk
          · cases hk
          · next h => exact h (by simpa using hk)
      · exact h.full k
  · cases op <;> first | exact h.readers | (cases hop'; done) | skip
    · simp only [SpecState.next]; split
      · split
        · exact h.readers
        · split <;> exact h.readers
      · exact h.readers
    · simp only [SpecState.next]; split <;> exact h.readers
    · cases hop
    · simp only [SpecState.next]; split <;> exact h.readers
  · cases op <;> first | exact h.writer | (cases hop'; done) | skip
    · simp only [SpecState.next]; split
      · split
        · exact h.writer
        · split <;> exact h.writer
      · exact h.writer
    · simp only [SpecState.next]; split <;> exact h.writer
    · cases hop
    · simp only [SpecState.next]; split <;> exact h.writer

theorem runs_keep {P : SpecState → Prop} {ok : Op → Bool} (hP : ∀ a op, P a → ok op = true → ¬ a.hangs op → P (a.next op)) :
    ∀ {ops : List Op} {rets : List SRet} {a a' : SpecState}, SpecState.runs cfg a ops rets a' → (∀ op ∈ ops, ok op = true) → P a → P a'
  | [], _, _, _, h, _, ha => by obtain ⟨_, rfl⟩ := h; exact ha
  | op :: ops, _, _, _, h, hok, ha => by
    obtain ⟨r, rs, _, h1, _, _, h4⟩ := h
    exact runs_keep hP h4 (fun op h => hok op (.tail _ h)) (hP _ op ha (hok op (.head _)) h1)

/-- Two states of the specification of one repository. -/
theorem abs_same {s : Shared} {a b : SpecState} (h : Abs cfg s a) (h' : Abs cfg s b) :
    (∀ n, a.docs n = none ↔ b.docs n = none) ∧ (∀ n, a.docs n = some [] ↔ b.docs n = some []) ∧ a.aliases = b.aliases ∧
      a.leakedReaders = b.leakedReaders ∧ a.leakedWriter = b.leakedWriter := by
  have hn : ∀ n, a.docs n = none ↔ b.docs n = none := by
    intro n
    have e1 := h.idx.isSome n
    have e2 := h'.idx.isSome n
    rw [e1] at e2
    cases ha : a.docs n <;> cases hb : b.docs n <;> rw [ha, hb] at e2 <;> simp at e2 ⊢
  refine ⟨hn, ?_, funext fun n => by rw [h.view, h'.view], by rw [← h.imuR, ← h'.imuR], by rw [← h.amuW, ← h'.amuW]⟩
  have half : ∀ {a b : SpecState}, Abs cfg s a → Abs cfg s b → ∀ n, a.docs n = some [] → b.docs n = some [] := by
    intro a b h h' n hd
    cases hg : s.indices.get n with
    | none => rw [h.idx.absent n hg] at hd; cases hd
    | some p =>
      obtain ⟨nm, rs, h1, h2⟩ := h.idx.rep n p hg
      obtain ⟨nm', rs', h1', h2'⟩ := h'.idx.rep n p hg
      rw [hd] at h1; cases h1
      rw [h2] at h2'
      have := congrArg (fun m : MemoryIndex => m.docs.length) (Option.some.inj h2')
      simp only [buildIndex_docs, List.length_map] at this
      rw [h1', List.length_eq_zero_iff.1 this.symm]
  exact fun n => ⟨half h h' n, half h' h n⟩

theorem abs_finite {s : Shared} {a : SpecState} (h : Abs cfg s a) : a.finite := by
  refine ⟨⟨s.indices.keys, fun n hn => ?_⟩, ⟨s.aliases.keys, fun n hn => ?_⟩⟩
  · rw [GoMap.mem_keys_iff]
    cases hg : s.indices.get n with
    | none => exact absurd (h.idx.absent n hg) hn
    | some p => exact ⟨p, rfl⟩
  · rw [h.view, alView] at hn
    rw [GoMap.mem_keys_iff]
    cases hg : s.aliases.get n with
    | none => rw [hg] at hn; exact absurd rfl hn
    | some p => exact ⟨p, rfl⟩

theorem reachableBy_of {ok : Op → Bool} {a : SpecState} (h : LeadsBy cfg ok SpecState.empty a) : ∃ s, ReachableBy cfg ok s ∧ Abs cfg s a := by
  obtain ⟨ops, rets, hok, hr⟩ := h
  obtain ⟨rets', s, h1, h2⟩ := runs_realised (abs_empty cfg) hr ⟨id, fun _ => id, id, id⟩ 0
  refine ⟨s, ⟨_, _, fun c hc => ?_, h1⟩, h2⟩
  obtain ⟨op, hop, rfl⟩ := List.mem_map.1 hc
  exact hok op hop

theorem reachableBy_runs {ok : Op → Bool} {s : Shared} (h : ReachableBy cfg ok s) :
    ∃ ops rets a, (∀ op ∈ ops, ok op = true) ∧ SpecState.runs cfg SpecState.empty ops rets a ∧ Abs cfg s a := by
  obtain ⟨cs, rets, hok, hrun⟩ := h
  obtain ⟨a, h1, h2⟩ := runCalls_refines (abs_empty cfg) hrun
  refine ⟨_, _, a, fun op hop => ?_, h1, h2⟩
  obtain ⟨c, hc, rfl⟩ := List.mem_map.1 hop
  exact hok c hc

theorem filled_empty : SpecState.empty.filled := fun _ h => by cases h
theorem orderly_empty : Orderly SpecState.empty := ⟨fun _ _ h => (nomatch h), fun h => by rcases h with h | ⟨_, h⟩ <;> cases h⟩
theorem tight_empty : Tight SpecState.empty := ⟨orderly_empty, fun _ h => (nomatch h), rfl, rfl⟩

end Visigoth
