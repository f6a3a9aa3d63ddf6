import Verif.Proofs.Calls
/-!
# Every state of the specification can be brought about by one caller

Any finite tables, with no index empty.  A name that occurs nowhere serves as a scratch index.
-/
namespace Visigoth

variable {cfg : Cfg}

/-- Completed calls of one caller lead from one state to another. -/
def Leads (cfg : Cfg) (a a' : SpecState) : Prop := ∃ ops rets, SpecState.runs cfg a ops rets a'

theorem Leads.refl (a : SpecState) : Leads cfg a a := ⟨[], [], rfl, rfl⟩

theorem runs_append {a a' a'' : SpecState} {ops ops' : List Op} {rets rets' : List SRet} (h : SpecState.runs cfg a ops rets a')
    (h' : SpecState.runs cfg a' ops' rets' a'') : SpecState.runs cfg a (ops ++ ops') (rets ++ rets') a'' := by
  induction ops generalizing a rets with
  | nil => obtain ⟨rfl, rfl⟩ := h; exact h'
  | cons op ops ih =>
    obtain ⟨r, rs, rfl, h1, h2, h3, h4⟩ := h
    exact ⟨r, rs ++ rets', rfl, h1, h2, h3, ih h4⟩

theorem Leads.trans {a a' a'' : SpecState} (h : Leads cfg a a') (h' : Leads cfg a' a'') : Leads cfg a a'' := by
  obtain ⟨o1, r1, h1⟩ := h
  obtain ⟨o2, r2, h2⟩ := h'
  exact ⟨_, _, runs_append h1 h2⟩

theorem leads_call {a a' : SpecState} (op : Op) (r : SRet) (h1 : ¬ a.hangs op) (h2 : ∀ c, ¬ a.crashes cfg op c)
    (h3 : a.allows cfg op r) (h4 : a.next op = a') : Leads cfg a a' :=
  ⟨[op], [r], r, [], rfl, h1, h2, h3, rfl, h4.symm⟩

theorem SpecState.ext' {a b : SpecState} (h1 : ∀ n, a.docs n = b.docs n) (h2 : ∀ n, a.aliases n = b.aliases n)
    (h3 : a.leakedReaders = b.leakedReaders) (h4 : a.leakedWriter = b.leakedWriter) : a = b := by
  cases a; cases b
  cases (funext h1 : _ = _); cases (funext h2 : _ = _); cases h3; cases h4; rfl

/-- A scratch name, and no lock kept. -/
structure Spare (t : Name) (a : SpecState) : Prop where
  ne : t ≠ []
  docs : a.docs t = none
  aliases : a.aliases t = none
  listed : ∀ k l, a.aliases k = some l → t ∉ l
  readers : a.leakedReaders = 0
  writer : a.leakedWriter = false

theorem map_fresh {t y : Name} {l : List Name} (h : t ∉ l) : l.map (fun x => if x = t then y else x) = l := by
  have : l.map (fun x => if x = t then y else x) = l.map id := by
    apply List.map_congr_left
    intro x hx
    have : x ≠ t := fun e => h (e ▸ hx)
    simp [this]
  rw [this, List.map_id]

theorem map_self {y : Name} (l : List Name) : l.map (fun x => if x = y then y else x) = l := by
  have : l.map (fun x => if x = y then y else x) = l.map id := by
    apply List.map_congr_left
    intro x _
    by_cases h : x = y <;> simp [h]
  rw [this, List.map_id]

/-- The scratch index is created. -/
theorem leads_new {t : Name} {a : SpecState} (h : Spare t a) (d : DocRequest) :
    Leads cfg a { a with docs := upd a.docs t (some [d]) } := by
  have hr : a.resolve t = none := by simp [SpecState.resolve, h.docs, h.aliases]
  refine leads_call (.put t d) .unit ?_ ?_ rfl ?_
  · simp [SpecState.hangs, h.writer, h.readers]
  · rintro c ⟨l, hl, _⟩; rw [hr] at hl; cases hl
  · simp [SpecState.next, hr]

/-- More documents are put into the scratch index. -/
theorem leads_more {t : Name} {a : SpecState} (hw : a.leakedWriter = false) (hr : a.leakedReaders = 0) : ∀ (rs rs0 : List DocRequest),
    Leads cfg { a with docs := upd a.docs t (some rs0) } { a with docs := upd a.docs t (some (rs0 ++ rs)) }
  | [], rs0 => by rw [List.append_nil]; exact .refl _
  | d :: rs, rs0 => by
    have ih := leads_more (t := t) hw hr rs (rs0 ++ [d])
    rw [List.append_assoc, List.singleton_append] at ih
    refine Leads.trans ?_ ih
    have hres : ({ a with docs := upd a.docs t (some rs0) } : SpecState).resolve t = some [t] := by simp [SpecState.resolve, upd]
    refine leads_call (.put t d) .unit ?_ ?_ rfl ?_
    · simp [SpecState.hangs, hw, hr, upd]
    · rintro c ⟨l, hl, h⟩
      rw [hres] at hl
      cases hl
      rcases h with ⟨_, m, hm, h⟩ | ⟨_, _, h⟩
      · simp at hm; subst hm; simp [upd] at h
      · exact h (by simp)
    · simp only [SpecState.next, hres]
      refine SpecState.ext' (fun n => ?_) (fun _ => rfl) rfl rfl
      by_cases hn : n = t <;> simp [upd, hn]

/-- An index is renamed. -/
theorem leads_rename {o n : Name} {a : SpecState} (hr : a.leakedReaders = 0) {rs : List DocRequest} (hd : a.docs o = some rs) :
    Leads cfg a
      { a with docs := upd (upd a.docs n (some rs)) o none
               aliases := fun k => (a.aliases k).map (List.map fun x => if x = o then n else x) } := by
  refine leads_call (.rename o n) (.bool (a.docs o).isSome) ?_ (fun _ h => h) rfl ?_
  · simp [SpecState.hangs, hr]
  · simp [SpecState.next, hd]

/-- An index renamed to itself disappears. -/
theorem leads_vanish {o : Name} {a : SpecState} (hr : a.leakedReaders = 0) {rs : List DocRequest} (hd : a.docs o = some rs) :
    Leads cfg a { a with docs := upd a.docs o none } := by
  have h := leads_rename (cfg := cfg) (n := o) hr hd
  have e : ({ a with docs := upd (upd a.docs o (some rs)) o none, aliases := fun k => (a.aliases k).map (List.map fun x => if x = o then o else x) } : SpecState)
      = { a with docs := upd a.docs o none } := by
    refine SpecState.ext' (fun n => ?_) (fun k => ?_) rfl rfl
    · by_cases hn : n = o <;> simp [upd, hn]
    · simp only
      cases a.aliases k with
      | none => rfl
      | some l => simp only [Option.map_some]; rw [map_self]
  rw [e] at h
  exact h

/-- An alias is added to a list. -/
theorem leads_alias {al i : Name} {a : SpecState} (hw : a.leakedWriter = false) {rs : List DocRequest} (hd : a.docs i = some rs)
    (hi : i ∉ (a.aliases al).getD []) :
    Leads cfg a { a with aliases := upd a.aliases al (some ((a.aliases al).getD [] ++ [i])) } := by
  refine leads_call (.alias al i) (.bool true) ?_ (fun _ h => h) ?_ ?_
  · simp [SpecState.hangs, hw]
  · show SRet.bool true = SRet.bool ((a.docs i).isSome && decide (i ∉ (a.aliases al).getD []))
    rw [hd]
    simp [hi]
  · simp only [SpecState.next, hd, Option.isSome_some, if_true]
    cases hl : a.aliases al with
    | none => rfl
    | some l =>
      rw [hl] at hi
      simp only [Option.getD_some] at hi ⊢
      rw [if_neg hi]

/-- An empty alias. -/
theorem leads_hollow {t al : Name} {a : SpecState} (h : Spare t a) (hal : a.aliases al = none) (d : DocRequest) :
    Leads cfg a { a with aliases := upd a.aliases al (some []) } := by
  refine (leads_new h d).trans ?_
  have h2 := leads_alias (cfg := cfg) (a := { a with docs := upd a.docs t (some [d]) }) (al := al) (i := t) (rs := [d]) h.writer
    (by simp [upd]) (by simp [hal])
  refine h2.trans ?_
  refine Leads.trans (a' := { a with docs := upd a.docs t (some [d]), aliases := upd a.aliases al (some []) }) ?_ ?_
  · refine leads_call (.unAlias al t) (.bool true) ?_ (fun _ h => h) ?_ ?_
    · simp [SpecState.hangs, h.writer]
    · simp [SpecState.allows, h.ne, upd]
    · refine SpecState.ext' (fun n => ?_) (fun k => ?_) ?_ ?_ <;> simp [SpecState.next, h.ne, upd, hal]
      by_cases hk : k = al <;> simp [hk]
  · have h3 := leads_vanish (cfg := cfg) (a := { a with docs := upd a.docs t (some [d]), aliases := upd a.aliases al (some []) }) (o := t)
      (rs := [d]) h.readers (by simp [upd])
    have e : ({ a with docs := upd (upd a.docs t (some [d])) t none, aliases := upd a.aliases al (some []) } : SpecState)
        = { a with aliases := upd a.aliases al (some []) } := by
      refine SpecState.ext' (fun n => ?_) (fun _ => rfl) rfl rfl
      by_cases hn : n = t <;> simp [upd, hn, h.docs]
    rw [← e]
    exact h3

/-- One more entry, whatever it is, of an alias; there are no indices yet. -/
theorem leads_entry {t al y : Name} {a : SpecState} (h : Spare t a) (hnd : ∀ n, a.docs n = none) {l : List Name} (hal : a.aliases al = some l)
    (hty : y ≠ t) (d : DocRequest) : Leads cfg a { a with aliases := upd a.aliases al (some (l ++ [y])) } := by
  have htl := h.listed al l hal
  refine (leads_new h d).trans ?_
  refine (leads_alias (cfg := cfg) (a := { a with docs := upd a.docs t (some [d]) }) (al := al) (i := t) (rs := [d]) h.writer
    (by simp [upd]) (by simpa [hal] using htl)).trans ?_
  refine Leads.trans (leads_rename (cfg := cfg) (o := t) (n := y) (rs := [d]) (by exact h.readers) (by simp [upd])) ?_
  have h3 := leads_vanish (cfg := cfg) (o := y) (rs := [d]) (a := { a with docs := upd a.docs y (some [d]), aliases := upd a.aliases al (some (l ++ [y])) })
    h.readers (by simp [upd])
  have e1 : ({ a with docs := upd (upd (upd a.docs t (some [d])) y (some [d])) t none,
                      aliases := fun k => (upd a.aliases al (some ((a.aliases al).getD [] ++ [t])) k).map (List.map fun x => if x = t then y else x) } : SpecState)
      = { a with docs := upd a.docs y (some [d]), aliases := upd a.aliases al (some (l ++ [y])) } := by
    refine SpecState.ext' (fun n => ?_) (fun k => ?_) rfl rfl
    · by_cases hn : n = t
      · subst hn; simp [upd, Ne.symm hty, h.docs]
      · by_cases hy : n = y
        · subst hy; simp [upd, hty]
        · simp [upd, hn, hy]
    · by_cases hk : k = al
      · subst hk; simp only [upd, if_pos, hal, Option.getD_some, Option.map_some, List.map_append, map_fresh htl]; simp
      · simp only [upd, hk, if_false]
        cases hl : a.aliases k with
        | none => rfl
        | some l' => simp only [Option.map_some]; rw [map_fresh (h.listed k l' hl)]
  have e2 : ({ a with docs := upd (upd a.docs y (some [d])) y none, aliases := upd a.aliases al (some (l ++ [y])) } : SpecState)
      = { a with aliases := upd a.aliases al (some (l ++ [y])) } := by
    refine SpecState.ext' (fun n => ?_) (fun _ => rfl) rfl rfl
    by_cases hn : n = y <;> simp [upd, hn, hnd]
  rw [← e2]
  rw [e1]
  exact h3

theorem Spare.alias {t al : Name} {a : SpecState} (h : Spare t a) (hal : al ≠ t) {l : List Name} (hl : t ∉ l) :
    Spare t { a with aliases := upd a.aliases al (some l) } := by
  refine ⟨h.ne, h.docs, by simp [upd, Ne.symm hal, h.aliases], fun k l' hk => ?_, h.readers, h.writer⟩
  simp only [upd] at hk
  split at hk
  · cases hk; exact hl
  · exact h.listed k l' hk

/-- The entries of an alias. -/
theorem leads_entries {t al : Name} {a : SpecState} (h : Spare t a) (hnd : ∀ n, a.docs n = none) (hat : al ≠ t) (d : DocRequest) :
    ∀ (l l0 : List Name), t ∉ l → t ∉ l0 →
    Leads cfg { a with aliases := upd a.aliases al (some l0) } { a with aliases := upd a.aliases al (some (l0 ++ l)) }
  | [], l0, _, _ => by rw [List.append_nil]; exact .refl _
  | y :: l, l0, hl, hl0 => by
    have hty : y ≠ t := fun e => hl (by simp [e])
    have ih := leads_entries h hnd hat d l (l0 ++ [y]) (fun hm => hl (.tail _ hm)) (by simp [hl0, Ne.symm hty])
    rw [List.append_assoc, List.singleton_append] at ih
    refine Leads.trans ?_ ih
    have := leads_entry (cfg := cfg) (a := { a with aliases := upd a.aliases al (some l0) }) (y := y) (al := al) (l := l0)
      (h.alias hat hl0) hnd (by simp [upd]) hty d
    have e : ({ a with aliases := upd (upd a.aliases al (some l0)) al (some (l0 ++ [y])) } : SpecState)
        = { a with aliases := upd a.aliases al (some (l0 ++ [y])) } := by
      refine SpecState.ext' (fun _ => rfl) (fun k => ?_) rfl rfl
      by_cases hk : k = al <;> simp [upd, hk]
    rw [← e]
    exact this

/-- All aliases. -/
theorem leads_aliases {t : Name} (AL : Name → Option (List Name)) (d : DocRequest) (hAL : ∀ k l, AL k = some l → t ∉ l) :
    ∀ (ks : List Name), (∀ k ∈ ks, (AL k).isSome) → t ∉ ks → ks.Nodup → ∀ (a : SpecState), Spare t a → (∀ n, a.docs n = none) →
      (∀ k ∈ ks, a.aliases k = none) → Leads cfg a { a with aliases := fun k => if k ∈ ks then AL k else a.aliases k }
  | [], _, _, _, a, _, _, _ => by simp only [List.not_mem_nil, if_false]; exact .refl _
  | al :: ks, hs, ht, hn, a, h, hnd, hno => by
    have hat : al ≠ t := fun e => ht (by simp [e])
    obtain ⟨l, hl⟩ := Option.isSome_iff_exists.1 (hs al (.head _))
    have hn' := List.nodup_cons.1 hn
    refine (leads_hollow h (hno al (.head _)) d).trans ((leads_entries h hnd hat d l [] (hAL al l hl) (by simp)).trans ?_)
    rw [List.nil_append]
    have ih := leads_aliases AL d hAL ks (fun k hk => hs k (.tail _ hk)) (fun hm => ht (.tail _ hm)) hn'.2
      { a with aliases := upd a.aliases al (some l) } (h.alias hat (hAL al l hl)) hnd (fun k hk => by
        have : k ≠ al := fun e => hn'.1 (e ▸ hk)
        simp [upd, this, hno k (.tail _ hk)])
    have e : ({ a with aliases := fun k => if k ∈ ks then AL k else upd a.aliases al (some l) k } : SpecState)
        = { a with aliases := fun k => if k ∈ al :: ks then AL k else a.aliases k } := by
      refine SpecState.ext' (fun _ => rfl) (fun k => ?_) rfl rfl
      by_cases hk : k = al
      · subst hk; simp [upd, hn'.1, hl]
      · simp [upd, hk]
    rw [← e]
    exact ih

/-- All indices. -/
theorem leads_docs {t : Name} (D : Name → Option (List DocRequest)) (hD : ∀ n rs, D n = some rs → rs ≠ []) :
    ∀ (ns : List Name), (∀ n ∈ ns, (D n).isSome) → t ∉ ns → ∀ (a : SpecState), Spare t a →
      Leads cfg a { a with docs := fun n => if n ∈ ns then D n else a.docs n }
  | [], _, _, a, _ => by simp only [List.not_mem_nil, if_false]; exact .refl _
  | n :: ns, hs, ht, a, h => by
    have hnt : n ≠ t := fun e => ht (by simp [e])
    obtain ⟨rs, hrs⟩ := Option.isSome_iff_exists.1 (hs n (.head _))
    cases rs with
    | nil => exact absurd rfl (hD n _ hrs)
    | cons d rs =>
      refine (leads_new h d).trans ((leads_more h.writer h.readers rs [d]).trans ?_)
      refine Leads.trans (leads_rename (cfg := cfg) (o := t) (n := n) (rs := d :: rs) (by exact h.readers) (by simp [upd])) ?_
      have e1 : ({ a with docs := upd (upd (upd a.docs t (some ([d] ++ rs))) n (some (d :: rs))) t none,
                          aliases := fun k => (a.aliases k).map (List.map fun x => if x = t then n else x) } : SpecState)
          = { a with docs := upd a.docs n (some (d :: rs)) } := by
        refine SpecState.ext' (fun m => ?_) (fun k => ?_) rfl rfl
        · by_cases hm : m = t
          · subst hm; simp [upd, Ne.symm hnt, h.docs]
          · by_cases hmn : m = n
            · subst hmn; simp [upd, hnt]
            · simp [upd, hm, hmn]
        · simp only
          cases hl : a.aliases k with
          | none => rfl
          | some l => simp only [Option.map_some]; rw [map_fresh (h.listed k l hl)]
      have ih := leads_docs D hD ns (fun k hk => hs k (.tail _ hk)) (fun hm => ht (.tail _ hm))
        { a with docs := upd a.docs n (some (d :: rs)) } ⟨h.ne, by simp [upd, Ne.symm hnt, h.docs], h.aliases, h.listed, h.readers, h.writer⟩
      have e2 : ({ a with docs := fun m => if m ∈ ns then D m else upd a.docs n (some (d :: rs)) m } : SpecState)
          = { a with docs := fun m => if m ∈ n :: ns then D m else a.docs m } := by
        refine SpecState.ext' (fun m => ?_) (fun _ => rfl) rfl rfl
        by_cases hm : m = n
        · subst hm; simp [upd, hrs]
        · simp [upd, hm]
      rw [e1, ← e2]
      exact ih

/-- The alias mutex is kept. -/
theorem leads_writer {t : Name} {a : SpecState} (h : Spare t a) (d : DocRequest) : Leads cfg a { a with leakedWriter := true } := by
  refine (leads_new h d).trans ?_
  refine Leads.trans (a' := { a with docs := upd a.docs t (some [d]), leakedWriter := true }) ?_ ?_
  · refine leads_call (.unAlias t t) (.bool false) ?_ (fun _ h => h) ?_ ?_
    · simp [SpecState.hangs, h.writer]
    · simp [SpecState.allows, h.ne, upd, h.aliases]
    · simp [SpecState.next, h.ne, upd, h.aliases]
  · have h3 := leads_vanish (cfg := cfg) (a := { a with docs := upd a.docs t (some [d]), leakedWriter := true }) (o := t)
      (rs := [d]) h.readers (by simp [upd])
    have e : ({ a with docs := upd (upd a.docs t (some [d])) t none, leakedWriter := true } : SpecState) = { a with leakedWriter := true } := by
      refine SpecState.ext' (fun n => ?_) (fun _ => rfl) rfl rfl
      by_cases hn : n = t <;> simp [upd, hn, h.docs]
    rw [← e]
    exact h3

/-- The index mutex is kept. -/
theorem leads_readers {t : Name} {a : SpecState} (hne : t ≠ []) (hd : a.docs t = none) : ∀ k : Nat,
    Leads cfg a { a with leakedReaders := a.leakedReaders + k }
  | 0 => .refl _
  | k + 1 => by
    refine (leads_readers hne hd k).trans ?_
    refine leads_call (.unAlias t t) (.bool false) ?_ (fun _ h => h) ?_ ?_
    · simp [SpecState.hangs, hne, hd]
    · simp [SpecState.allows, hne, hd]
    · simp [SpecState.next, hne, hd]; omega

/-- There is always another name. -/
theorem fresh_name (l : List Name) : ∃ t : Name, t ≠ [] ∧ t ∉ l := by
  have : ∃ m, ∀ x ∈ l, x.length ≤ m := by
    induction l with
    | nil => exact ⟨0, by simp⟩
    | cons x l ih =>
      obtain ⟨m, hm⟩ := ih
      refine ⟨x.length + m, fun y hy => ?_⟩
      rcases List.mem_cons.1 hy with rfl | hy
      · omega
      · have := hm y hy; omega
  obtain ⟨m, hm⟩ := this
  refine ⟨List.replicate (m + 1) 0, by simp, fun h => ?_⟩
  have := hm _ h
  simp at this
  omega

/-- Any finite tables, no index empty, any locks kept. -/
theorem leads_any (a : SpecState) (ns ks : List Name) (hns : ∀ n, (a.docs n).isSome ↔ n ∈ ns) (hks : ∀ k, (a.aliases k).isSome ↔ k ∈ ks)
    (hk : ks.Nodup) (hne : ∀ n rs, a.docs n = some rs → rs ≠ []) : Leads cfg SpecState.empty a := by
  obtain ⟨t, ht0, ht⟩ := fresh_name (ns ++ ks ++ ks.flatMap fun k => (a.aliases k).getD [])
  simp only [List.mem_append, not_or, List.mem_flatMap, not_exists, not_and] at ht
  obtain ⟨⟨t1, t2⟩, t3⟩ := ht
  have hl : ∀ k l, a.aliases k = some l → t ∉ l := fun k l h hm => t3 k ((hks k).1 (by rw [h]; rfl)) (by rw [h]; exact hm)
  have d : DocRequest := ⟨[], [], [], 0⟩
  have s0 : Spare t SpecState.empty := ⟨ht0, rfl, rfl, fun k l h => (nomatch h), rfl, rfl⟩
  have ea : ∀ k, (if k ∈ ks then a.aliases k else SpecState.empty.aliases k) = a.aliases k := by
    intro k
    split
    · rfl
    · next h =>
      cases hak : a.aliases k with
      | none => rfl
      | some l => exact absurd ((hks k).1 (by rw [hak]; rfl)) h
  have ed : ∀ n, (if n ∈ ns then a.docs n else SpecState.empty.docs n) = a.docs n := by
    intro n
    split
    · rfl
    · next h =>
      cases hak : a.docs n with
      | none => rfl
      | some l => exact absurd ((hns n).1 (by rw [hak]; rfl)) h
  have htn : a.docs t = none := by
    cases h : a.docs t with
    | none => rfl
    | some rs => exact absurd ((hns t).1 (by rw [h]; rfl)) t1
  have hta : a.aliases t = none := by
    cases h : a.aliases t with
    | none => rfl
    | some rs => exact absurd ((hks t).1 (by rw [h]; rfl)) t2
  have h1 := leads_aliases (cfg := cfg) a.aliases d hl ks (fun k h => (hks k).2 h) t2 hk SpecState.empty s0 (fun _ => rfl) (fun _ _ => rfl)
  simp only [ea] at h1
  have s1 : Spare t { SpecState.empty with aliases := fun k => a.aliases k } := ⟨ht0, rfl, hta, hl, rfl, rfl⟩
  have h2 := leads_docs (cfg := cfg) a.docs hne ns (fun k h => (hns k).2 h) t1 _ s1
  simp only [ed] at h2
  have s2 : Spare t ⟨a.docs, a.aliases, 0, false⟩ := ⟨ht0, htn, hta, hl, rfl, rfl⟩
  have h3 : Leads cfg ⟨a.docs, a.aliases, 0, false⟩ ⟨a.docs, a.aliases, 0, a.leakedWriter⟩ := by
    cases a.leakedWriter with
    | false => exact .refl _
    | true => exact leads_writer s2 d
  have h4 := leads_readers (cfg := cfg) (a := ⟨a.docs, a.aliases, 0, a.leakedWriter⟩) ht0 htn a.leakedReaders
  have h5 := h1.trans (h2.trans (h3.trans h4))
  simp only [Nat.zero_add] at h5
  exact h5

/-- What the specification allows can be done. -/
theorem runs_realised {ops : List Op} {rets : List SRet} {a a' : SpecState} {s : Shared} (h : Abs cfg s a)
    (hr : SpecState.runs cfg a ops rets a') (o : Oracle) (t : Tid) :
    ∃ rets' s', runCalls cfg (ops.map fun op => ⟨o, t, op⟩) s = .ok rets' s' ∧ Abs cfg s' a' := by
  induction ops generalizing a rets s with
  | nil => obtain ⟨_, rfl⟩ := hr; exact ⟨[], s, rfl, h⟩
  | cons op ops ih =>
    obtain ⟨r, rs, _, h1, h2, _, h4⟩ := hr
    cases hrun : run cfg o t (op.prog cfg) s with
    | hang s' => exact absurd (step_hang h hrun) h1
    | crash c => exact absurd (step_crash h hrun).2 (h2 c)
    | ok r' s' =>
      obtain ⟨rets', s'', h5, h6⟩ := ih (step_ok h hrun).2.2.2.1 h4
      refine ⟨r'.view s' :: rets', s'', ?_, h6⟩
      simp only [List.map_cons, runCalls, hrun, Outcome.andThen, h5]

end Visigoth
