import Verif.Props.Complete
/-!
# Exact conditions for the repository claims that are false in general

For C34, C36, C38, C39, C42, C44 and C47: the claim holds exactly when the stated condition does.
-/
namespace Visigoth

variable {cfg : Cfg} {s : Shared} {a : SpecState}

/-! ## C34 -/

/-- In a state without leaked locks, `UnAlias(al, i)` is harmless exactly when `i` is empty or both
the index and the alias exist (so that it does not return false). -/
theorem C34_guard_exact (h : Abs cfg s a) (hh : Healthy a) (al i : Name) :
    FailedUnAliasHarmless cfg s al i ↔ i = [] ∨ ((a.docs i).isSome ∧ (a.aliases al).isSome) := by
  constructor
  · intro hf
    apply Classical.byContradiction
    intro hg
    rw [not_or] at hg
    obtain ⟨hi, hg⟩ := hg
    have hfalse : ((a.docs i).isSome && (a.aliases al).isSome) = false := by
      rw [Bool.eq_false_iff]; intro he; rw [Bool.and_eq_true] at he; exact hg he
    obtain ⟨r, s', h1, h2, h3, _⟩ := step_completes (op := .unAlias al i) (chooses [] []) 0 h (hh.no_hang _)
      (fun _ => id)
    simp only [SpecState.allows, if_neg hi, hfalse] at h2
    cases r <;> simp only [Ret.view, SRet.bool.injEq, reduceCtorEq] at h2
    subst h2
    rcases C34_false_always_leaks h al i hi _ _ s' h1 with ⟨_, k⟩ | ⟨_, _, k⟩
    · obtain ⟨s'', hs⟩ := C34_leaked_reader_blocks k (Nat.succ_pos _) (.put [] (newDocRequest [] []))
        (Or.inl ⟨_, _, rfl⟩) (chooses [] []) 0
      exact hf _ _ _ h1 _ _ _ _ hs
    · obtain ⟨s'', hs⟩ := C34_leaked_writer_blocks k rfl .listAliases (Or.inl rfl) (chooses [] []) 0
      exact hf _ _ _ h1 _ _ _ _ hs
  · rintro (rfl | ⟨hd, ha⟩)
    · exact C34_whole_alias_partial h hh al
    · intro o t s' hrun
      obtain ⟨_, _, h3, _, _⟩ := step_ok h hrun
      by_cases hi : i = []
      · subst hi
        exact C34_whole_alias_partial h hh al o t s' hrun
      · simp only [SpecState.allows, if_neg hi, hd, ha, Ret.view, Bool.and_self] at h3
        cases h3

/-! ## C36 -/

/-- The two lists of requests look the same to every engine: same names and contents, and statements with
the same tokens. -/
def LooksAlike (tok : Tokenizer) : List DocRequest → List DocRequest → Prop :=
  Forall2 fun r r' => (r.name = r'.name ∧ r.content = r'.content) ∧ ∀ t, t ∈ tok r.statement ↔ t ∈ tok r'.statement

/-- Some result. -/
def anyResult : SearchResult := { document := { name := [], content := [] }, hits := 0 }

theorem forall2_get {α : Type} {R : α → α → Prop} : ∀ {l l' : List α}, l.length = l'.length →
    (∀ (i : Nat) (x y : α), l[i]? = some x → l'[i]? = some y → R x y) → Forall2 R l l' := by
  intro l
  induction l with
  | nil => intro l' h _; cases l' with
    | nil => exact .nil
    | cons _ _ => simp at h
  | cons x l ih => intro l' h hr; cases l' with
    | nil => simp at h
    | cons y l' =>
      exact .cons (hr 0 x y rfl rfl) (ih (by simpa using h) fun i u v hu hv => hr (i + 1) u v (by simpa using hu) (by simpa using hv))

/-- Lists of requests for which all searches agree look the same. -/
theorem looksAlike_of_searches {cfg : Cfg} {rs rs' : List DocRequest}
    (h : ∀ ts e l, specSearch cfg rs' ts e = some l → specSearch cfg rs ts e = some l) : LooksAlike cfg.tok rs rs' := by
  have hlen : rs.length = rs'.length := by
    have := h [] (fun _ ix => some (List.replicate ix.len anyResult)) _ rfl
    simp only [specSearch, MemoryIndex.search, Option.some.injEq] at this
    have := congrArg List.length this
    simpa [indexer_len] using this
  refine forall2_get hlen fun i r r' hr hr' => ⟨?_, fun t => ?_⟩
  · have := h [] (fun _ ix => (ix.document i).map fun d => [{ document := d, hits := 0 }])
      [{ document := docOf r', hits := 0 }] (by simp [specSearch, MemoryIndex.search, indexer_document, hr'])
    simp only [specSearch, MemoryIndex.search, indexer_document, hr, Option.map_some, Option.some.injEq,
      List.cons.injEq, SearchResult.mk.injEq, and_true] at this
    simp only [docOf, Doc.mk.injEq] at this
    exact this
  · have := h [] (fun _ ix => some (((ix.indexed t).getD []).map fun i => { document := anyResult.document, hits := i })) _ rfl
    simp only [specSearch, MemoryIndex.search, indexer_indexed, Option.some.injEq] at this
    have hp : positions cfg.tok rs t = positions cfg.tok rs' t := by
      have := congrArg (List.map SearchResult.hits) this
      simpa [List.map_map, Function.comp_def] using this
    have hi : i ∈ positions cfg.tok rs t ↔ i ∈ positions cfg.tok rs' t := by rw [hp]
    obtain ⟨hlt, rfl⟩ := List.getElem?_eq_some_iff.1 hr
    obtain ⟨hlt', rfl⟩ := List.getElem?_eq_some_iff.1 hr'
    simpa [positions, hlt, hlt', hasToken] using hi

theorem LooksAlike.search {rs rs' : List DocRequest} (h : LooksAlike cfg.tok rs rs') (ts : Str) (e : Engine) :
    specSearch cfg rs ts e = specSearch cfg rs' ts e :=
  C14_equivalent_statements cfg.cp cfg.tok [] rs rs' h ts e

theorem LooksAlike.refl (tok : Tokenizer) (rs : List DocRequest) : LooksAlike tok rs rs :=
  forall2_get rfl fun i x y hx hy => by rw [hx] at hy; cases hy; exact ⟨⟨rfl, rfl⟩, fun _ => Iff.rfl⟩

/-- `Rename` of an existing index keeps all documents exactly when the new name was free or another index
looks the same as the one that had it. -/
theorem C36_guard_exact (h : Abs cfg s a) (hl : a.leakedReaders = 0) (old new : Name) (hold : (a.docs old).isSome) :
    RenameKeepsDocuments cfg s old new ↔
      ∀ rs', a.docs new = some rs' → ∃ m rs, m ≠ new ∧ a.docs m = some rs ∧ LooksAlike cfg.tok rs rs' := by
  obtain ⟨rs0, hrs0⟩ := Option.isSome_iff_exists.1 hold
  have hdocs : ∀ m, (a.next (.rename old new)).docs m
      = if m = old then none else if m = new then some rs0 else a.docs m := by
    intro m
    simp only [SpecState.next, hrs0, upd]
  constructor
  · intro hk rs' hrs'
    obtain ⟨r, s', h1, h2, h3, _⟩ := step_completes (op := .rename old new) (chooses [] []) 0 h
      (fun hh => by simp only [SpecState.hangs] at hh; omega) (fun _ => id)
    simp only [SpecState.allows, hrs0, Option.isSome_some] at h2
    cases r <;> simp only [Ret.view, SRet.bool.injEq, reduceCtorEq] at h2
    subst h2
    have hhas := has_direct h new (chooses [] []) 0
    rw [hrs'] at hhas
    obtain ⟨m', hm'⟩ := hk _ _ s' h1 new hhas
    have hfound : ∀ ts e l, specSearch cfg rs' ts e = some l →
        run cfg (chooses [] []) 0 (Op.prog cfg (.search m' ts e)) s' = .ok (.results l) s' :=
      fun ts e l hs => hm' ts e l (search_direct h hrs' hs _ _)
    have fin : ∀ z rs'', (a.next (.rename old new)).docs z = some rs'' → LooksAlike cfg.tok rs'' rs' →
        ∃ m rs, m ≠ new ∧ a.docs m = some rs ∧ LooksAlike cfg.tok rs rs' := by
      intro z rs'' hz hal
      rw [hdocs] at hz
      split at hz
      · cases hz
      · next hzo =>
        split at hz
        · next hzn =>
          cases hz
          exact ⟨old, rs0, fun he => hzo (hzn.trans he.symm), hrs0, hal⟩
        · next hzn => exact ⟨z, rs'', hzn, hz, hal⟩
    cases hd : (a.next (.rename old new)).docs m' with
    | some rs'' =>
      refine fin m' rs'' hd (looksAlike_of_searches fun ts e l hs => ?_)
      obtain ⟨l0, g1, g2⟩ := (C40_search_resolution h3 m' ts e _ _ _ _ (hfound ts e l hs)).1 rs'' hd
      cases g1
      exact g2
    | none =>
      cases ha : (a.next (.rename old new)).aliases m' with
      | none =>
        have := (C40_search_resolution h3 m' [] (fun _ _ => some []) _ _ _ _ (hfound [] _ [] rfl)).2.1 hd ha
        cases this
      | some l =>
        have one : ∃ z, l = [z] := by
          obtain ⟨order, hp, parts, g1, g2⟩ := (C40_search_resolution h3 m' [] (fun _ _ => some [anyResult]) _ _ _ _
            (hfound [] _ [anyResult] rfl)).2.2 l hd ha
          have hparts : ∀ p ∈ parts, p = [anyResult] := by
            intro p hp
            have : some p ∈ order.map (fun m => ((a.next (.rename old new)).docs m).bind fun rs =>
                specSearch cfg rs [] (fun _ _ => some [anyResult])) := by rw [g1]; exact List.mem_map_of_mem hp
            obtain ⟨z, _, hz⟩ := List.mem_map.1 this
            cases hdz : (a.next (.rename old new)).docs z with
            | none => rw [hdz] at hz; cases hz
            | some q => rw [hdz] at hz; cases hz; rfl
          have hfl : parts.flatten.length = parts.length := by
            clear g1 g2
            induction parts with
            | nil => rfl
            | cons p ps ih =>
              rw [List.flatten_cons, List.length_append, ih (fun q hq => hparts q (by simp [hq])), hparts p (by simp)]
              simp
              omega
          have hlen := congrArg List.length g1
          rw [List.length_map, List.length_map, hp.length_eq] at hlen
          injection g2 with g2
          rw [← g2] at hfl
          exact List.length_eq_one_iff.1 (by rw [hlen, ← hfl]; rfl)
        obtain ⟨z, rfl⟩ := one
        have hz : ∀ ts e p, specSearch cfg rs' ts e = some p →
            ((a.next (.rename old new)).docs z).bind (fun rs => specSearch cfg rs ts e) = some p := by
          intro ts e p hs
          obtain ⟨order, hp, parts, g1, g2⟩ := (C40_search_resolution h3 m' ts e _ _ _ _ (hfound ts e p hs)).2.2 [z] hd ha
          rw [List.perm_singleton.1 hp] at g1
          cases parts with
          | nil => simp at g1
          | cons q qs =>
            cases qs with
            | nil =>
              simp only [List.map_cons, List.map_nil, List.cons.injEq, and_true] at g1
              rw [g1]
              simp only [Ret.results.injEq] at g2
              rw [g2]
              simp
            | cons _ _ => simp at g1
        cases hdz : (a.next (.rename old new)).docs z with
        | none =>
          have := hz [] (fun _ _ => some []) [] rfl
          rw [hdz] at this
          cases this
        | some rs'' =>
          refine fin z rs'' hdz (looksAlike_of_searches fun ts e p hs => ?_)
          have := hz ts e p hs
          rw [hdz] at this
          exact this
  · intro hg o t s' hrun m hm
    have hm : (a.docs m).isSome = true := by
      have := (step_ok h hm).2.2.1
      simp only [SpecState.allows, Ret.view, SRet.bool.injEq] at this
      exact this.symm
    obtain ⟨rs, hrs⟩ := Option.isSome_iff_exists.1 hm
    obtain ⟨_, _, h3, h4, _⟩ := step_ok h hrun
    have key : ∃ m' rs1, (a.next (.rename old new)).docs m' = some rs1 ∧ LooksAlike cfg.tok rs1 rs := by
      by_cases hmn : m = new
      · subst hmn
        obtain ⟨z, rs1, hz, hdz, hal⟩ := hg rs hrs
        by_cases hzo : z = old
        · subst hzo
          rw [hrs0] at hdz
          cases hdz
          exact ⟨m, _, by rw [hdocs, if_neg fun he => hz he.symm, if_pos rfl], hal⟩
        · exact ⟨z, rs1, by rw [hdocs, if_neg hzo, if_neg hz, hdz], hal⟩
      · by_cases hmo : m = old
        · subst hmo
          rw [hrs0] at hrs
          cases hrs
          exact ⟨new, rs0, by rw [hdocs, if_neg fun he => hmn he.symm, if_pos rfl], LooksAlike.refl _ _⟩
        · exact ⟨m, rs, by rw [hdocs, if_neg hmo, if_neg hmn, hrs], LooksAlike.refl _ _⟩
    obtain ⟨m', rs1, hm', hal⟩ := key
    refine ⟨m', fun ts e l hl => ?_⟩
    obtain ⟨l0, g1, g2⟩ := (C40_search_resolution h m ts e o t _ s hl).1 rs hrs
    injection g1 with g1; subst g1
    exact search_direct h4 hm' ((hal.search ts e).trans g2) o t

example : LooksAlike spaceTok [newDocRequest (str "d") (str "go")] [newDocRequestWith (str "d") (str "go") (str "go go")] := by
  refine .cons ⟨⟨rfl, rfl⟩, fun t => ?_⟩ .nil
  rw [show spaceTok (newDocRequest (str "d") (str "go")).statement = [str "go"] by decide +kernel,
    show spaceTok (newDocRequestWith (str "d") (str "go") (str "go go")).statement = [str "go", str "go"] by decide +kernel]
  simp

/-- A true `Rename` keeps the number of indices exactly when the new name was free; otherwise one
index is gone. -/
theorem C36_count_exact (h : Abs cfg s a) (old new : Name) (o o1 o2 : Oracle) (t t1 t2 : Tid) (l l' : List Name)
    (s' : Shared) (hrun : run cfg o t (Op.prog cfg (.rename old new)) s = .ok (.bool true) s')
    (hl : run cfg o1 t1 (Op.prog cfg .list) s = .ok (.names l) s)
    (hl' : run cfg o2 t2 (Op.prog cfg .list) s' = .ok (.names l') s') :
    (l'.length = l.length ↔ a.docs new = none) ∧ ((a.docs new).isSome → l'.length + 1 = l.length) := by
  obtain ⟨_, _, h3, h4, _⟩ := step_ok h hrun
  obtain ⟨_, _, g3, _, _⟩ := step_ok h hl
  obtain ⟨_, _, k3, _, _⟩ := step_ok h4 hl'
  obtain ⟨m, hm, hn, hmem⟩ := g3
  obtain ⟨m', hm', hn', hmem'⟩ := k3
  simp only [Ret.view, SRet.names.injEq] at hm hm'
  subst hm hm'
  simp only [SpecState.allows, Ret.view, SRet.bool.injEq] at h3
  obtain ⟨rs, hrs⟩ := Option.isSome_iff_exists.1 h3.symm
  have hold : old ∈ l := (hmem old).2 h3.symm
  have hlen := List.length_erase_of_mem hold
  have hpos : 0 < l.length := List.length_pos_of_mem hold
  have hm2 : ∀ n, n ∈ l' ↔ n ≠ old ∧ (n = new ∨ n ∈ l) := by
    intro n
    rw [hmem', hmem]
    simp only [SpecState.next, hrs, upd]
    by_cases h1 : n = old
    · rw [if_pos h1]
      exact ⟨fun h => (nomatch h), fun h => absurd h1 h.1⟩
    · rw [if_neg h1]
      by_cases h2 : n = new
      · rw [if_pos h2]
        exact ⟨fun _ => ⟨h1, Or.inl h2⟩, fun _ => rfl⟩
      · rw [if_neg h2]
        exact ⟨fun h => ⟨h1, Or.inr h⟩, fun h => h.2.resolve_left h2⟩
  cases hnew : a.docs new with
  | none =>
    have hne : new ≠ old := by rintro rfl; rw [hrs] at hnew; cases hnew
    have hnl : new ∉ l := by rw [hmem, hnew]; simp
    have : l'.Perm (new :: l.erase old) := by
      rw [List.perm_ext_iff_of_nodup hn' (List.nodup_cons.2 ⟨fun hx => hnl (List.mem_of_mem_erase hx), hn.erase _⟩)]
      intro n
      rw [hm2, List.mem_cons, hn.mem_erase_iff]
      constructor
      · rintro ⟨h1, h2 | h2⟩
        · exact Or.inl h2
        · exact Or.inr ⟨h1, h2⟩
      · rintro (rfl | ⟨h1, h2⟩)
        · exact ⟨hne, Or.inl rfl⟩
        · exact ⟨h1, Or.inr h2⟩
    have := this.length_eq
    rw [List.length_cons, hlen] at this
    exact ⟨⟨fun _ => rfl, fun _ => by omega⟩, fun h => by cases h⟩
  | some rs' =>
    have hnl : new ∈ l := by rw [hmem, hnew]; rfl
    have : l'.Perm (l.erase old) := by
      rw [List.perm_ext_iff_of_nodup hn' (hn.erase _)]
      intro n
      rw [hm2, hn.mem_erase_iff]
      constructor
      · rintro ⟨h1, rfl | h2⟩
        · exact ⟨h1, hnl⟩
        · exact ⟨h1, h2⟩
      · rintro ⟨h1, h2⟩
        exact ⟨h1, Or.inr h2⟩
    have := this.length_eq
    rw [hlen] at this
    refine ⟨⟨fun he => ?_, fun he => by cases he⟩, fun _ => by omega⟩
    omega

/-! ## What two specification states of the same repository share -/

theorem Abs.same_aliases {a' : SpecState} (h : Abs cfg s a) (h' : Abs cfg s a') (k : Name) :
    a.aliases k = a'.aliases k := by rw [h.view, h'.view]

theorem Abs.same_names {a' : SpecState} (h : Abs cfg s a) (h' : Abs cfg s a') (n : Name) :
    (a.docs n).isSome = (a'.docs n).isSome := by rw [← h.idx.isSome, ← h'.idx.isSome]

/-! ## C38 -/

/-- The one call that leaves a dangling alias. -/
def SelfRename (a : SpecState) (op : Op) : Prop :=
  ∃ x k l, op = .rename x x ∧ (a.docs x).isSome ∧ a.aliases k = some l ∧ x ∈ l

theorem noDangling_next (hd : NoDangling a) (op : Op) : NoDangling (a.next op) ↔ ¬ SelfRename a op := by
  constructor
  · rintro hn ⟨x, k, l, rfl, hx, hk, hm⟩
    obtain ⟨rs, hrs⟩ := Option.isSome_iff_exists.1 hx
    have := hn k (l.map fun y => if y = x then x else y) (by simp [SpecState.next, hrs, hk]) x
      (List.mem_map.2 ⟨x, hm, by simp⟩)
    simp [SpecState.next, hrs, upd] at this
  · intro hop
    cases op with
    | list => exact hd
    | listAliases => exact hd
    | string => exact hd
    | has n => exact hd
    | hasAlias n => exact hd
    | search n ts e => exact hd
    | «alias» al i =>
      intro k l hk n hn
      by_cases hdi : (a.docs i).isSome = true
      · cases hal : a.aliases al with
        | none =>
          simp only [SpecState.next, hdi, hal, if_true] at hk ⊢
          simp only [upd] at hk
          split at hk
          · injection hk with hk; subst hk
            simp only [List.mem_singleton] at hn; subst hn; exact hdi
          · exact hd k l hk n hn
        | some l0 =>
          by_cases hm : i ∈ l0
          · simp only [SpecState.next, hdi, hal, if_true, hm] at hk ⊢
            exact hd k l hk n hn
          · simp only [SpecState.next, hdi, hal, if_true, hm, if_false] at hk ⊢
            simp only [upd] at hk
            split at hk
            · injection hk with hk; subst hk
              rcases List.mem_append.1 hn with hn | hn
              · exact hd al l0 hal n hn
              · simp only [List.mem_singleton] at hn; subst hn; exact hdi
            · exact hd k l hk n hn
      · simp only [SpecState.next, hdi] at hk ⊢
        exact hd k l hk n hn
    | unAlias al i =>
      intro k l hk n hn
      by_cases hi : i = []
      · simp only [SpecState.next, hi, if_true] at hk ⊢
        simp only [upd] at hk
        split at hk
        · simp at hk
        · exact hd k l hk n hn
      · by_cases hdi : (a.docs i).isSome = true
        · cases hal : a.aliases al with
          | none =>
            simp only [SpecState.next, hi, hdi, hal, if_true, if_false] at hk ⊢
            exact hd k l hk n hn
          | some l0 =>
            simp only [SpecState.next, hi, hdi, hal, if_true, if_false] at hk ⊢
            simp only [upd] at hk
            split at hk
            · injection hk with hk; subst hk
              exact hd al l0 hal n (List.mem_filter.1 hn).1
            · exact hd k l hk n hn
        · simp only [SpecState.next, hi, hdi, if_false] at hk ⊢
          exact hd k l hk n hn
    | put n d =>
      intro k l hk m hm
      cases hres : a.resolve n with
      | none =>
        simp only [SpecState.next, hres, upd] at hk ⊢
        split
        · rfl
        · exact hd k l hk m hm
      | some l0 =>
        simp only [SpecState.next, hres] at hk ⊢
        split
        · rw [Option.isSome_map]; exact hd k l hk m hm
        · exact hd k l hk m hm
    | rename old new =>
      intro k l hk m hm
      cases hold : a.docs old with
      | none =>
        simp only [SpecState.next, hold] at hk ⊢
        exact hd k l hk m hm
      | some rs0 =>
        simp only [SpecState.next, hold, upd] at hk ⊢
        obtain ⟨l0, hl0, rfl⟩ := Option.map_eq_some_iff.1 hk
        obtain ⟨x, hx, rfl⟩ := List.mem_map.1 hm
        by_cases hxo : x = old
        · have hne : new ≠ old := by
            intro he
            exact hop ⟨old, k, l0, by rw [he], by rw [hold]; rfl, hl0, hxo ▸ hx⟩
          rw [if_pos hxo, if_neg hne, if_pos rfl]; rfl
        · rw [if_neg hxo, if_neg hxo]
          split
          · rfl
          · exact hd k l0 hl0 x hx
    | drop n =>
      intro k l hk m hm
      simp only [SpecState.next] at hk ⊢
      split at hk
      · rename_i hdn
        rw [if_pos hdn]
        obtain ⟨l0, hl0, hk⟩ := Option.bind_eq_some_iff.1 hk
        split at hk
        · simp at hk
        · injection hk with hk; subst hk
          rw [List.mem_filter] at hm
          have hmn : m ≠ n := by simpa using hm.2
          simp only [upd, if_neg hmn]
          exact hd k l0 hl0 m hm.1
      · rename_i hdn; rw [if_neg hdn]; exact hd k l hk m hm

theorem noDangling_same {a' : SpecState} (h : Abs cfg s a) (h' : Abs cfg s a') : NoDangling a ↔ NoDangling a' := by
  unfold NoDangling
  constructor
  · intro hd k l hk n hn
    rw [← h.same_names h']
    exact hd k l (by rw [h.same_aliases h']; exact hk) n hn
  · intro hd k l hk n hn
    rw [h.same_names h']
    exact hd k l (by rw [← h.same_aliases h']; exact hk) n hn

/-- A completed call leaves a dangling alias behind exactly when it renames an existing, aliased index
to itself. -/
theorem C38_guard_exact (h : Abs cfg s a) (hd : NoDangling a) (op : Op) (o : Oracle) (t : Tid) (r : Ret)
    (s' : Shared) (hrun : run cfg o t (op.prog cfg) s = .ok r s') (a' : SpecState) (h' : Abs cfg s' a') :
    NoDangling a' ↔ ¬ ∃ x k l, op = .rename x x ∧ (a.docs x).isSome ∧ a.aliases k = some l ∧ x ∈ l := by
  obtain ⟨_, _, _, h4, _⟩ := step_ok h hrun
  rw [noDangling_same h' h4]
  exact noDangling_next hd op

example : SelfRename ⟨upd SpecState.empty.docs (str "x") (some []),
    upd SpecState.empty.aliases (str "a") (some [str "x"]), 0, false⟩ (.rename (str "x") (str "x")) :=
  ⟨str "x", str "a", [str "x"], rfl, by decide +kernel, by decide +kernel, by simp⟩

/-! ## C39 -/

/-- Every alias lists distinct names. -/
def EntriesDistinct (a : SpecState) : Prop := ∀ k l, a.aliases k = some l → l.Nodup

/-- The one call that makes an alias list a name twice. -/
def MergingRename (a : SpecState) (op : Op) : Prop :=
  ∃ old new k l, op = .rename old new ∧ old ≠ new ∧ (a.docs old).isSome ∧ a.aliases k = some l ∧
    old ∈ l ∧ new ∈ l

theorem subst_nodup {old new : Name} {l : List Name} (hn : l.Nodup) :
    (l.map fun x => if x = old then new else x).Nodup ↔ ¬ (old ≠ new ∧ old ∈ l ∧ new ∈ l) := by
  induction l with
  | nil => simp
  | cons x l ih =>
    rw [List.nodup_cons] at hn
    simp only [List.map_cons, List.nodup_cons, ih hn.2, List.mem_map, List.mem_cons]
    constructor
    · rintro ⟨h1, h2⟩ ⟨hne, h3, h4⟩
      rcases h3 with rfl | h3
      · rcases h4 with rfl | h4
        · exact hne rfl
        · exact h1 ⟨new, h4, by simp [Ne.symm hne]⟩
      · rcases h4 with rfl | h4
        · exact h1 ⟨old, h3, by simp [Ne.symm hne]⟩
        · exact h2 ⟨hne, h3, h4⟩
    · intro h
      refine ⟨?_, fun ⟨hne, h3, h4⟩ => h ⟨hne, Or.inr h3, Or.inr h4⟩⟩
      rintro ⟨y, hy, he⟩
      by_cases hxo : x = old
      · subst hxo
        rw [if_pos rfl] at he
        by_cases hyo : y = x
        · subst hyo; exact hn.1 hy
        · rw [if_neg hyo] at he
          subst he
          exact h ⟨Ne.symm hyo, Or.inl rfl, Or.inr hy⟩
      · rw [if_neg hxo] at he
        by_cases hyo : y = old
        · rw [if_pos hyo] at he
          subst hyo he
          exact h ⟨Ne.symm hxo, Or.inr hy, Or.inl rfl⟩
        · rw [if_neg hyo] at he
          subst he
          exact hn.1 hy

theorem entriesDistinct_next (hd : EntriesDistinct a) (op : Op) :
    EntriesDistinct (a.next op) ↔ ¬ MergingRename a op := by
  constructor
  · rintro hn ⟨old, new, k, l, rfl, hne, hx, hk, h1, h2⟩
    obtain ⟨rs, hrs⟩ := Option.isSome_iff_exists.1 hx
    have := hn k (l.map fun y => if y = old then new else y) (by simp [SpecState.next, hrs, hk])
    exact (subst_nodup (hd k l hk)).1 this ⟨hne, h1, h2⟩
  · intro hop
    cases op with
    | list => exact hd
    | listAliases => exact hd
    | string => exact hd
    | has n => exact hd
    | hasAlias n => exact hd
    | search n ts e => exact hd
    | «alias» al i =>
      intro k l hk
      by_cases hdi : (a.docs i).isSome = true
      · cases hal : a.aliases al with
        | none =>
          simp only [SpecState.next, hdi, hal, if_true] at hk
          simp only [upd] at hk
          split at hk
          · injection hk with hk; subst hk; simp
          · exact hd k l hk
        | some l0 =>
          by_cases hm : i ∈ l0
          · simp only [SpecState.next, hdi, hal, if_true, hm] at hk
            exact hd k l hk
          · simp only [SpecState.next, hdi, hal, if_true, hm, if_false] at hk
            simp only [upd] at hk
            split at hk
            · injection hk with hk; subst hk
              rw [List.nodup_append]
              refine ⟨hd al l0 hal, by simp, fun x hx y hy he => ?_⟩
              simp only [List.mem_singleton] at hy
              subst hy he
              exact hm hx
            · exact hd k l hk
      · simp only [SpecState.next, hdi] at hk
        exact hd k l hk
    | unAlias al i =>
      intro k l hk
      by_cases hi : i = []
      · simp only [SpecState.next, hi, if_true] at hk
        simp only [upd] at hk
        split at hk
        · simp at hk
        · exact hd k l hk
      · by_cases hdi : (a.docs i).isSome = true
        · cases hal : a.aliases al with
          | none =>
            simp only [SpecState.next, hi, hdi, hal, if_true, if_false] at hk
            exact hd k l hk
          | some l0 =>
            simp only [SpecState.next, hi, hdi, hal, if_true, if_false] at hk
            simp only [upd] at hk
            split at hk
            · injection hk with hk; subst hk
              exact (hd al l0 hal).filter _
            · exact hd k l hk
        · simp only [SpecState.next, hi, hdi, if_false] at hk
          exact hd k l hk
    | put n d =>
      intro k l hk
      cases hres : a.resolve n with
      | none =>
        simp only [SpecState.next, hres] at hk
        exact hd k l hk
      | some l0 =>
        simp only [SpecState.next, hres] at hk
        exact hd k l hk
    | rename old new =>
      intro k l hk
      cases hold : a.docs old with
      | none =>
        simp only [SpecState.next, hold] at hk
        exact hd k l hk
      | some rs0 =>
        simp only [SpecState.next, hold] at hk
        obtain ⟨l0, hl0, rfl⟩ := Option.map_eq_some_iff.1 hk
        rw [subst_nodup (hd k l0 hl0)]
        rintro ⟨h1, h2, h3⟩
        exact hop ⟨old, new, k, l0, rfl, h1, by rw [hold]; rfl, hl0, h2, h3⟩
    | drop n =>
      intro k l hk
      simp only [SpecState.next] at hk
      split at hk
      · obtain ⟨l0, hl0, hk⟩ := Option.bind_eq_some_iff.1 hk
        split at hk
        · simp at hk
        · injection hk with hk; subst hk
          exact (hd k l0 hl0).filter _
      · exact hd k l hk

/-- A completed call makes an alias list a name twice exactly when it renames an existing index onto
another entry of an alias that lists both. -/
theorem C39_guard_exact (h : Abs cfg s a) (hd : ∀ k l, a.aliases k = some l → l.Nodup) (op : Op) (o : Oracle) (t : Tid)
    (r : Ret) (s' : Shared) (hrun : run cfg o t (op.prog cfg) s = .ok r s') (a' : SpecState) (h' : Abs cfg s' a') :
    (∀ k l, a'.aliases k = some l → l.Nodup) ↔
      ¬ ∃ old new k l, op = .rename old new ∧ old ≠ new ∧ (a.docs old).isSome ∧ a.aliases k = some l ∧
        old ∈ l ∧ new ∈ l := by
  obtain ⟨_, _, _, h4, _⟩ := step_ok h hrun
  rw [show (∀ k l, a'.aliases k = some l → l.Nodup) ↔ EntriesDistinct (a.next op) from
    ⟨fun hn k l hk => hn k l (by rw [h'.same_aliases h4]; exact hk),
     fun hn k l hk => hn k l (by rw [← h'.same_aliases h4]; exact hk)⟩]
  exact entriesDistinct_next hd op

example : MergingRename ⟨upd SpecState.empty.docs (str "x") (some []),
    upd SpecState.empty.aliases (str "a") (some [str "x", str "y"]), 0, false⟩ (.rename (str "x") (str "y")) :=
  ⟨str "x", str "y", str "a", [str "x", str "y"], rfl, by decide +kernel, by decide +kernel, by decide +kernel,
    by simp, by simp⟩

/-! ## Histories -/

/-- If something holds at the beginning and not at the end, some call changed it. -/
theorem first_break {P : SpecState → Prop} {bad : SpecState → Op → Prop}
    (hstep : ∀ a op, P a → ¬ bad a op → P (a.next op)) :
    ∀ (cs : List Call) (s : Shared) (a : SpecState) (rets : List SRet) (s' : Shared), Abs cfg s a → P a →
      runCalls cfg cs s = .ok rets s' →
      (∃ a', Abs cfg s' a' ∧ P a') ∨
      ∃ cs1 c cs2 rets1 s1 a1, cs = cs1 ++ c :: cs2 ∧ runCalls cfg cs1 s = .ok rets1 s1 ∧ Abs cfg s1 a1 ∧
        P a1 ∧ bad a1 c.op := by
  intro cs
  induction cs with
  | nil =>
    intro s a rets s' h hp hrun
    simp only [runCalls, Outcome.ok.injEq] at hrun
    exact Or.inl ⟨a, hrun.2 ▸ h, hp⟩
  | cons c cs ih =>
    intro s a rets s' h hp hrun
    by_cases hb : bad a c.op
    · exact Or.inr ⟨[], c, cs, [], s, a, rfl, rfl, h, hp, hb⟩
    · simp only [runCalls] at hrun
      cases hr : run cfg c.oracle c.tid (c.op.prog cfg) s with
      | hang _ => rw [hr] at hrun; simp at hrun
      | crash _ => rw [hr] at hrun; simp at hrun
      | ok r s1 =>
        rw [hr] at hrun
        simp only [andThen_ok] at hrun
        cases hrs : runCalls cfg cs s1 with
        | hang _ => rw [hrs] at hrun; simp at hrun
        | crash _ => rw [hrs] at hrun; simp at hrun
        | ok rs s2 =>
          rw [hrs] at hrun
          simp only [andThen_ok, Outcome.ok.injEq] at hrun
          obtain ⟨_, _, _, h4, _⟩ := step_ok h hr
          rcases ih s1 _ rs s' h4 (hstep a c.op hp hb) (by rw [hrs, hrun.2]) with hl | ⟨cs1, c', cs2, rets1, s3, a3, e1, e2, e3, e4, e5⟩
          · exact Or.inl hl
          · refine Or.inr ⟨c :: cs1, c', cs2, r.view s1 :: rets1, s3, a3, by rw [e1]; rfl, ?_, e3, e4, e5⟩
            simp only [runCalls, hr, andThen_ok, e2]

/-- In every history of completed calls after which an alias lists a missing index, some call renamed
an existing, aliased index to itself. -/
theorem C38_dangling_needs_self_rename (cs : List Call) (rets : List SRet)
    (hrun : runCalls cfg cs newIndexRepo = .ok rets s) (h : Abs cfg s a) (hd : ¬ NoDangling a) :
    ∃ cs1 c cs2 rets1 s1 a1 x k l, cs = cs1 ++ c :: cs2 ∧ runCalls cfg cs1 newIndexRepo = .ok rets1 s1 ∧
      Abs cfg s1 a1 ∧ c.op = .rename x x ∧ (a1.docs x).isSome ∧ a1.aliases k = some l ∧ x ∈ l := by
  rcases first_break (cfg := cfg) (P := NoDangling) (bad := SelfRename) (fun a op h1 h2 => (noDangling_next h1 op).2 h2)
    cs newIndexRepo SpecState.empty rets s (abs_empty cfg) (by simp [NoDangling, SpecState.empty]) hrun with
    ⟨a', h1, h2⟩ | ⟨cs1, c, cs2, rets1, s1, a1, e1, e2, e3, _, x, k, l, e5⟩
  · exact absurd ((noDangling_same h1 h).1 h2) hd
  · exact ⟨cs1, c, cs2, rets1, s1, a1, x, k, l, e1, e2, e3, e5⟩

/-- In every history of completed calls after which an alias lists a name twice, some call renamed an
existing index onto another entry of an alias that listed both. -/
theorem C39_repetition_needs_merge (cs : List Call) (rets : List SRet)
    (hrun : runCalls cfg cs newIndexRepo = .ok rets s) (h : Abs cfg s a) {k : Name} {l : List Name}
    (hk : a.aliases k = some l) (hd : ¬ l.Nodup) :
    ∃ cs1 c cs2 rets1 s1 a1 old new k' l', cs = cs1 ++ c :: cs2 ∧ runCalls cfg cs1 newIndexRepo = .ok rets1 s1 ∧
      Abs cfg s1 a1 ∧ c.op = .rename old new ∧ old ≠ new ∧ (a1.docs old).isSome ∧ a1.aliases k' = some l' ∧
      old ∈ l' ∧ new ∈ l' := by
  rcases first_break (cfg := cfg) (P := EntriesDistinct) (bad := MergingRename)
    (fun a op h1 h2 => (entriesDistinct_next h1 op).2 h2)
    cs newIndexRepo SpecState.empty rets s (abs_empty cfg) (by simp [EntriesDistinct, SpecState.empty]) hrun with
    ⟨a', h1, h2⟩ | ⟨cs1, c, cs2, rets1, s1, a1, e1, e2, e3, _, old, new, k', l', e5⟩
  · exact absurd (h2 k l (by rw [h1.same_aliases h]; exact hk)) hd
  · exact ⟨cs1, c, cs2, rets1, s1, a1, old, new, k', l', e1, e2, e3, e5⟩

/-! ## C42 -/

theorem flatten_perm_eq {α : Type} {ps qs : List (List α)} (h : ps.Perm qs)
    (hc : ∀ p ∈ ps, ∀ q ∈ ps, p ++ q = q ++ p) : ps.flatten = qs.flatten := by
  induction h with
  | nil => rfl
  | cons x _ ih =>
    simp only [List.flatten_cons]
    rw [ih fun p hp q hq => hc p (List.mem_cons_of_mem _ hp) q (List.mem_cons_of_mem _ hq)]
  | swap x y l =>
    simp only [List.flatten_cons]
    rw [← List.append_assoc, ← List.append_assoc, hc y (by simp) x (by simp)]
  | trans h1 _ ih1 ih2 =>
    rw [ih1 hc]
    exact ih2 fun p hp q hq => hc p (h1.mem_iff.2 hp) q (h1.mem_iff.2 hq)

/-- What each listed index contributes to a search. -/
def contribution (cfg : Cfg) (a : SpecState) (ts : Str) (e : Engine) (m : Name) : List SearchResult :=
  ((a.docs m).bind fun rs => specSearch cfg rs ts e).getD []

/-- A search of a name in a given state has one possible result exactly when the results of any two of
the indices it resolves to are the same in both orders (for instance when one of them is empty, or
they are equal). -/
theorem C42_guard_exact (h : Abs cfg s a) (n : Name) (ts : Str) (e : Engine) (l : List Name)
    (hres : a.resolve n = some l) (hn : l.Nodup)
    (hok : ∃ o t r, run cfg o t (Op.prog cfg (.search n ts e)) s = .ok r s) :
    (∀ o o' t t' r r', run cfg o t (Op.prog cfg (.search n ts e)) s = .ok r s →
        run cfg o' t' (Op.prog cfg (.search n ts e)) s = .ok r' s → r = r') ↔
      ∀ m ∈ l, ∀ m' ∈ l, contribution cfg a ts e m ++ contribution cfg a ts e m'
        = contribution cfg a ts e m' ++ contribution cfg a ts e m := by
  obtain ⟨o0, t0, r0, h0⟩ := hok
  obtain ⟨hnh, _, h3, _, _⟩ := step_ok h h0
  simp only [SpecState.allows, hres] at h3
  obtain ⟨order0, p1, parts0, p2, p3⟩ := h3
  have hsome : ∀ m ∈ l, ((a.docs m).bind fun rs => specSearch cfg rs ts e) = some (contribution cfg a ts e m) := by
    intro m hm
    have : ((a.docs m).bind fun rs => specSearch cfg rs ts e) ∈ parts0.map some := by
      rw [← p2]; exact List.mem_map.2 ⟨m, p1.mem_iff.2 hm, rfl⟩
    obtain ⟨p, _, hp⟩ := List.mem_map.1 this
    unfold contribution
    rw [← hp]; rfl
  have hparts : ∀ order : List Name, order.Perm l →
      order.map (fun m => (a.docs m).bind fun rs => specSearch cfg rs ts e)
        = (order.map (contribution cfg a ts e)).map some := by
    intro order ho
    rw [List.map_map]
    exact List.map_congr_left fun m hm => hsome m (ho.mem_iff.1 hm)
  constructor
  · intro hall m hm m' hm'
    by_cases hmm : m = m'
    · subst hmm; rfl
    · -- an order that begins with the two
      have hm'' : m' ∈ l.erase m := (hn.mem_erase_iff).2 ⟨Ne.symm hmm, hm'⟩
      have e1 : (m :: m' :: (l.erase m).erase m').Perm l :=
        ((List.perm_cons_erase hm'').symm.cons m).trans (List.perm_cons_erase hm).symm
      have e2 : (m' :: m :: (l.erase m).erase m').Perm l := (List.Perm.swap _ _ _).trans e1
      obtain ⟨o1, g1⟩ := search_complete h n ts e hnh 0 hres e1 (hparts _ e1)
      obtain ⟨o2, g2⟩ := search_complete h n ts e hnh 0 hres e2 (hparts _ e2)
      have := hall _ _ _ _ _ _ g1 g2
      injection this with this
      simp only [List.map_cons, List.flatten_cons] at this
      rw [← List.append_assoc, ← List.append_assoc] at this
      exact List.append_cancel_right this
  · intro hc o o' t t' r r' g1 g2
    obtain ⟨_, _, q1, _, _⟩ := step_ok h g1
    obtain ⟨_, _, q2, _, _⟩ := step_ok h g2
    simp only [SpecState.allows, hres] at q1 q2
    obtain ⟨order1, u1, parts1, u2, u3⟩ := q1
    obtain ⟨order2, v1, parts2, v2, v3⟩ := q2
    rw [hparts _ u1] at u2
    rw [hparts _ v1] at v2
    have hu := (List.map_inj_right fun _ _ h => Option.some.inj h).1 u2
    have hv := (List.map_inj_right fun _ _ h => Option.some.inj h).1 v2
    subst hu hv
    cases r <;> simp only [Ret.view, SRet.results.injEq, reduceCtorEq] at u3
    cases r' <;> simp only [Ret.view, SRet.results.injEq, reduceCtorEq] at v3
    subst u3 v3
    congr 1
    refine flatten_perm_eq ((u1.trans v1.symm).map _) ?_
    intro p hp q hq
    obtain ⟨m, hm, rfl⟩ := List.mem_map.1 hp
    obtain ⟨m', hm', rfl⟩ := List.mem_map.1 hq
    exact hc m (u1.mem_iff.1 hm) m' (u1.mem_iff.1 hm')

/-- Index `x` with one document and index `y` with two: the order matters.  With the same document
twice in both it does not. -/
def twoIndexSpec (d e : DocRequest) : SpecState :=
  ((SpecState.empty.next (.put (str "x") d)).next (.put (str "y") d)).next (.put (str "y") e)

example :
    contribution sampleCfg (twoIndexSpec docD docE) [] noopAllSearch (str "x") ++
      contribution sampleCfg (twoIndexSpec docD docE) [] noopAllSearch (str "y")
    ≠ contribution sampleCfg (twoIndexSpec docD docE) [] noopAllSearch (str "y") ++
      contribution sampleCfg (twoIndexSpec docD docE) [] noopAllSearch (str "x") := by decide +kernel

example :
    contribution sampleCfg (twoIndexSpec docD docD) [] noopAllSearch (str "x") ++
      contribution sampleCfg (twoIndexSpec docD docD) [] noopAllSearch (str "y")
    = contribution sampleCfg (twoIndexSpec docD docD) [] noopAllSearch (str "y") ++
      contribution sampleCfg (twoIndexSpec docD docD) [] noopAllSearch (str "x") := by decide +kernel

/-! ## C44 -/

/-- In a state without leaked locks, a put is found exactly when the name is not an alias that lists no
index. -/
theorem C44_guard_exact (h : Abs cfg s a) (hl : a.leakedReaders = 0) (hw : a.leakedWriter = false) (n : Name)
    (d : DocRequest) : PutIsFound cfg s n d ↔ a.resolve n ≠ some [] := by
  refine ⟨fun hf hres => ?_, fun hne => C44_put_is_found_partial h n hne d⟩
  obtain ⟨r, s', h1, _, h3, _⟩ := step_completes (op := .put n d) (chooses [] []) 0 h
    (by simp [SpecState.hangs, hl, hw])
    (by
      rintro c ⟨l, e1, e2⟩
      rw [hres] at e1; injection e1 with e1; subst e1
      rcases e2 with ⟨_, m, hm, _⟩ | ⟨_, _, hnd⟩
      · cases hm
      · exact hnd List.nodup_nil)
  have hnext : a.next (.put n d) = a := by
    simp only [SpecState.next, hres]
    simp
  rw [hnext] at h3
  obtain ⟨o', ho'⟩ := search_complete h3 n [] noopAllSearch (by simp [SpecState.hangs, hw]) 0 hres (List.Perm.refl [])
    (parts := []) rfl
  obtain ⟨l, e1, e2⟩ := hf _ _ _ _ h1 _ _ _ _ _ ho'
  injection e1 with e1
  subst e1
  cases e2

/-! ## C47 -/

/-- What a `Rename` does to a slice handed out earlier: it is rewritten exactly when an alias still
uses the same backing array. -/
theorem rename_rewrites (h : Abs cfg s a) (old new : Name) (o : Oracle) (t : Tid) (s' : Shared)
    (hrun : run cfg o t (Op.prog cfg (.rename old new)) s = .ok (.bool true) s') (r : SliceRef)
    (hr : Snap s.arrays s.aliases r) :
    ((∃ k r', s.aliases.get k = some r' ∧ r'.arr = r.arr) →
      s'.elems r = (s.elems r).map fun x => if x = old then new else x) ∧
    ((¬ ∃ k r', s.aliases.get k = some r' ∧ r'.arr = r.arr) → s'.elems r = s.elems r) := by
  obtain ⟨idx, hal, view, imuR, imuW, amuR, amuW⟩ := h
  simp only [Op.prog, Repo.rename, run_bind] at hrun
  by_cases hrd : s.imu.readers = []
  · rw [run_lock .indices _ imuW hrd] at hrun
    simp only [andThen_ok, Shared.setMu] at hrun
    rw [run_perform] at hrun
    simp only [exec, Exec.outcome, andThen_ok] at hrun
    cases hg : s.indices.get old with
    | none =>
      rw [hg] at hrun
      simp only [run_bind] at hrun
      rw [run_unlock .indices _ rfl] at hrun
      simp only [andThen_ok, run_pure, Shared.setMu, Shared.mu] at hrun
      simp at hrun
    | some p =>
      rw [hg] at hrun
      simp only [run_bind] at hrun
      rw [run_perform] at hrun
      simp only [exec, Exec.outcome, andThen_ok] at hrun
      rw [run_perform] at hrun
      simp only [exec, Exec.outcome, andThen_ok] at hrun
      rw [run_perform] at hrun
      simp only [exec, Exec.outcome, andThen_ok] at hrun
      have hperm := choosePerm_perm o.keyOrder s.aliases.keys
      obtain ⟨A, h1, h2, h3⟩ := run_renameAliases (cfg := cfg) (o := o) (t := t) old new
        (choosePerm o.keyOrder s.aliases.keys)
        { s with imu := { readers := [], writer := some t },
                 indices := GoMap.delete (GoMap.set s.indices new p) old }
        (fun k _ r hk => hal.valid k r hk)
      rw [h1] at hrun
      simp only [andThen_ok] at hrun
      rw [run_unlock .indices _ rfl] at hrun
      simp only [andThen_ok, run_pure, Shared.setMu, Shared.mu, Outcome.ok.injEq] at hrun
      obtain ⟨_, rfl⟩ := hrun
      refine ⟨fun ⟨k, r', hk, hkr⟩ => ?_, fun hno => ?_⟩
      · apply List.ext_getElem?
        intro j
        have e1 := elems_getElem? ({ s with arrays := A } : Shared) r j
        have e2 := elems_getElem? s r j
        rw [List.getElem?_map]
        refine Eq.trans e1 ?_
        rw [e2]
        by_cases hj : j < r.len
        · rw [if_pos hj, if_pos hj]
          exact (h3 r.arr j).1 ⟨k, hperm.mem_iff.2 ((GoMap.mem_keys_iff _ _).2 ⟨r', hk⟩), r', hk, hkr,
            Nat.lt_of_lt_of_le hj (hr.2 k r' hk hkr)⟩
        · rw [if_neg hj, if_neg hj]; rfl
      · apply List.ext_getElem?
        intro j
        have e1 := elems_getElem? ({ s with arrays := A } : Shared) r j
        have e2 := elems_getElem? s r j
        refine Eq.trans e1 ?_
        rw [e2]
        by_cases hj : j < r.len
        · rw [if_pos hj, if_pos hj]
          exact (h3 r.arr j).2 fun ⟨k, _, r', hk, hkr, _⟩ => hno ⟨k, r', hk, hkr⟩
        · rw [if_neg hj, if_neg hj]
  · obtain ⟨s', hs'⟩ := run_lock_blocked (cfg := cfg) (o := o) (t := t) .indices s (Or.inr hrd)
    rw [hs'] at hrun
    simp at hrun

/-- The rows of `ListAliases` are the slices of the alias table. -/
theorem listAliases_rows (h : Abs cfg s a) (o : Oracle) (t : Tid) (rows : List (Name × SliceRef))
    (s1 : Shared) (hrun : run cfg o t (Op.prog cfg .listAliases) s = .ok (.rows rows) s1) :
    s1 = s ∧ ∀ e ∈ rows, s.aliases.get e.1 = some e.2 := by
  have hs1 := (step_ok h hrun).2.2.2.2.2 rfl
  subst hs1
  refine ⟨rfl, ?_⟩
  simp only [Op.prog, Repo.listAliases, run_bind] at hrun
  by_cases hw : s1.amu.writer = none
  · rw [run_rlock .aliases s1 hw] at hrun
    simp only [andThen_ok] at hrun
    rw [run_perform] at hrun
    simp only [exec, Exec.outcome, andThen_ok, Shared.setMu, Shared.mu] at hrun
    have hp := choosePerm_perm o.keyOrder s1.aliases.keys
    obtain ⟨rows', g1, g2, g3⟩ := run_listRows (cfg := cfg) (o := o) (t := t)
      (choosePerm o.keyOrder s1.aliases.keys)
      { s1 with amu := { readers := t :: s1.amu.readers, writer := s1.amu.writer } }
      (fun k hk => by
        obtain ⟨v, hv⟩ := (GoMap.mem_keys_iff _ _).1 (hp.mem_iff.1 hk)
        simp [hv])
    rw [g1] at hrun
    simp only [andThen_ok] at hrun
    rw [run_runlock .aliases _ s1.amu.readers rfl] at hrun
    simp only [andThen_ok, run_pure, Outcome.ok.injEq, Ret.rows.injEq] at hrun
    obtain ⟨rfl, _⟩ := hrun
    exact g3
  · rw [run_rlock_blocked .aliases s1 hw] at hrun
    simp at hrun

theorem map_subst_id {old new : Name} {l : List Name} :
    (l.map fun x => if x = old then new else x) = l ↔ old = new ∨ old ∉ l := by
  induction l with
  | nil => simp
  | cons x l ih =>
    simp only [List.map_cons, List.cons.injEq, ih, List.mem_cons, not_or]
    by_cases hx : x = old
    · subst hx
      simp only [if_true]
      constructor
      · rintro ⟨h1, _⟩; exact Or.inl h1.symm
      · rintro (rfl | ⟨h1, _⟩)
        · exact ⟨rfl, Or.inl rfl⟩
        · exact absurd trivial h1
    · simp only [if_neg hx]
      constructor
      · rintro ⟨_, h1 | h1⟩
        · exact Or.inl h1
        · exact Or.inr ⟨Ne.symm hx, h1⟩
      · rintro (h1 | ⟨_, h1⟩)
        · exact ⟨trivial, Or.inl h1⟩
        · exact ⟨trivial, Or.inr h1⟩

/-- A call made after `ListAliases` changes a row that was returned exactly when it renames an existing
index that the row lists to another name. -/
theorem C47_guard_exact (h : Abs cfg s a) (o : Oracle) (t : Tid) (rows : List (Name × SliceRef)) (s1 : Shared)
    (hrun : run cfg o t (Op.prog cfg .listAliases) s = .ok (.rows rows) s1) (op : Op) (o' : Oracle) (t' : Tid)
    (r : Ret) (s2 : Shared) (hop : run cfg o' t' (op.prog cfg) s1 = .ok r s2) (e : Name × SliceRef) (he : e ∈ rows) :
    s2.elems e.2 = s1.elems e.2 ↔
      ¬ ∃ old new, op = .rename old new ∧ old ≠ new ∧ (a.docs old).isSome ∧ old ∈ s1.elems e.2 := by
  obtain ⟨rfl, hrows⟩ := listAliases_rows h o t rows s1 hrun
  have hsnap := h.al.snap (hrows e he)
  cases hr : op.isRename with
  | false =>
    refine ⟨fun _ ⟨old, new, h1, _⟩ => ?_, fun _ => (((step_ok h hop).2.2.2.2.1 hr) e.2 hsnap).2⟩
    rw [h1] at hr
    cases hr
  | true =>
    cases op with
    | rename old new =>
      obtain ⟨_, _, h3, _, _⟩ := step_ok h hop
      simp only [SpecState.allows] at h3
      cases r <;> simp only [Ret.view, SRet.bool.injEq, reduceCtorEq] at h3
      subst h3
      cases hd : (a.docs old).isSome with
      | false =>
        rw [hd] at hop
        have hs2 : s2.elems e.2 = s1.elems e.2 := by
          have := hop
          obtain ⟨idx, hal, view, imuR, imuW, amuR, amuW⟩ := h
          simp only [Op.prog, Repo.rename, run_bind] at this
          by_cases hrd : s1.imu.readers = []
          · rw [run_lock .indices _ imuW hrd] at this
            simp only [andThen_ok, Shared.setMu] at this
            rw [run_perform] at this
            have hg : s1.indices.get old = none := by
              have := idx.isSome old
              rw [hd] at this
              cases hx : s1.indices.get old with
              | none => rfl
              | some _ => rw [hx] at this; cases this
            simp only [exec, Exec.outcome, andThen_ok, hg, run_bind] at this
            rw [run_unlock .indices _ rfl] at this
            simp only [andThen_ok, run_pure, Shared.setMu, Shared.mu, Outcome.ok.injEq] at this
            rw [← this.2]
            rfl
          · obtain ⟨s', hs'⟩ := run_lock_blocked (cfg := cfg) (o := o') (t := t') .indices s1 (Or.inr hrd)
            rw [hs'] at this
            simp at this
        refine ⟨fun _ ⟨x, y, h1, _, h2, _⟩ => ?_, fun _ => hs2⟩
        cases h1
        rw [hd] at h2
        cases h2
      | true =>
        rw [hd] at hop
        rw [(rename_rewrites h old new o' t' s2 hop e.2 hsnap).1 ⟨e.1, e.2, hrows e he, rfl⟩, map_subst_id]
        constructor
        · rintro hx ⟨x, y, h1, h2, _, h3⟩
          cases h1
          rcases hx with hx | hx
          · exact h2 hx
          · exact hx h3
        · intro hx
          by_cases hne : old = new
          · exact Or.inl hne
          · exact Or.inr fun hm => hx ⟨old, new, rfl, hne, hd, hm⟩
    | _ => cases hr

/-- The general case: after further calls without `Rename`, a `Rename` that returns true rewrites a row
exactly when some alias still uses the backing array of the row. -/
theorem C47_rename_rewrites (h : Abs cfg s a) (o : Oracle) (t : Tid) (rows : List (Name × SliceRef)) (s1 : Shared)
    (hrun : run cfg o t (Op.prog cfg .listAliases) s = .ok (.rows rows) s1) (cs : List Call)
    (hren : ∀ c ∈ cs, c.op.isRename = false) (rets : List SRet) (s2 : Shared)
    (hcs : runCalls cfg cs s1 = .ok rets s2) (old new : Name) (o' : Oracle) (t' : Tid) (s3 : Shared)
    (hop : run cfg o' t' (Op.prog cfg (.rename old new)) s2 = .ok (.bool true) s3)
    (e : Name × SliceRef) (he : e ∈ rows) :
    s2.elems e.2 = s1.elems e.2 ∧
    ((∃ k r, s2.aliases.get k = some r ∧ r.arr = e.2.arr) →
      s3.elems e.2 = (s1.elems e.2).map fun x => if x = old then new else x) ∧
    ((¬ ∃ k r, s2.aliases.get k = some r ∧ r.arr = e.2.arr) → s3.elems e.2 = s1.elems e.2) := by
  obtain ⟨rfl, hrows⟩ := listAliases_rows h o t rows s1 hrun
  have hsnap := h.al.snap (hrows e he)
  clear hrun hrows
  have key : ∀ (cs : List Call) (s1 : Shared) (a : SpecState) (rets : List SRet), Abs cfg s1 a →
      (∀ c ∈ cs, c.op.isRename = false) → Snap s1.arrays s1.aliases e.2 → runCalls cfg cs s1 = .ok rets s2 →
      s2.elems e.2 = s1.elems e.2 ∧ Snap s2.arrays s2.aliases e.2 ∧ ∃ a2, Abs cfg s2 a2 := by
    intro cs
    induction cs with
    | nil =>
      intro s1 a rets h _ hsn hcs
      simp only [runCalls, Outcome.ok.injEq] at hcs
      rw [← hcs.2]
      exact ⟨rfl, hsn, a, h⟩
    | cons c cs ih =>
      intro s1 a rets h hren hsn hcs
      simp only [runCalls] at hcs
      cases hr : run cfg c.oracle c.tid (c.op.prog cfg) s1 with
      | hang _ => rw [hr] at hcs; simp at hcs
      | crash _ => rw [hr] at hcs; simp at hcs
      | ok r s1' =>
        rw [hr] at hcs
        simp only [andThen_ok] at hcs
        obtain ⟨_, _, _, k4, k5⟩ := step_ok h hr
        have hk := k5.1 (hren c (by simp)) e.2 hsn
        cases hrs : runCalls cfg cs s1' with
        | hang _ => rw [hrs] at hcs; simp at hcs
        | crash _ => rw [hrs] at hcs; simp at hcs
        | ok rs s2' =>
          rw [hrs] at hcs
          simp only [andThen_ok, Outcome.ok.injEq] at hcs
          obtain ⟨e1, e2⟩ := ih s1' _ rs k4 (fun c hc => hren c (List.mem_cons_of_mem _ hc)) hk.1 (by rw [hrs, hcs.2])
          exact ⟨e1.trans hk.2, e2⟩
  obtain ⟨e1, e2, a2, e3⟩ := key cs s1 a rets h hren hsnap hcs
  obtain ⟨f1, f2⟩ := rename_rewrites e3 old new o' t' s3 hop e.2 e2
  rw [e1] at f1 f2
  exact ⟨e1, f1, f2⟩

/-! ## C39: what callers see -/

/-- Every row of `ListAliases` lists distinct names, for guarded call sequences.  Missing: as in
`C39_entries_distinct_partial`. -/
theorem C39_rows_distinct_partial (cs : List Call) (hg : Guarded cfg SpecState.empty (cs.map Call.op)) (rets : List SRet)
    (hrun : runCalls cfg cs newIndexRepo = .ok rets s) (o : Oracle) (t : Tid) (rows : List (Name × SliceRef))
    (hl : run cfg o t (Op.prog cfg .listAliases) s = .ok (.rows rows) s) : ∀ e ∈ rows, (s.elems e.2).Nodup := by
  obtain ⟨rets', s', a, h1, h, hd⟩ := C39_entries_distinct_partial cs hg
  rw [hrun] at h1
  cases h1
  intro e he
  obtain ⟨l, g1, _, g2⟩ := (step_ok h hl).2.2.1
  simp only [Ret.view, SRet.rows.injEq] at g1
  subst g1
  exact hd _ _ ((g2 e.1 (s.elems e.2)).1 (List.mem_map.2 ⟨e, he, rfl⟩))

/-- For guarded call sequences a search of an alias consists of what searching its indices gives, each of them taken
once, and a `Put` through it adds the document once to each of them and to no other index.  Missing: as above. -/
theorem C39_once_partial (cs : List Call) (hg : Guarded cfg SpecState.empty (cs.map Call.op)) (rets : List SRet)
    (hrun : runCalls cfg cs newIndexRepo = .ok rets s) (h : Abs cfg s a) (k : Name) (hk : a.docs k = none) (l : List Name)
    (hl : a.aliases k = some l) (o : Oracle) (t : Tid) :
    (∀ ts e r s', run cfg o t (Op.prog cfg (.search k ts e)) s = .ok r s' → ∃ order : List Name, order.Nodup ∧ (∀ m, m ∈ order ↔ m ∈ l) ∧
      ∃ parts : List (List SearchResult), r = .results parts.flatten ∧
        Forall2 (fun m part => ∀ o' t', run cfg o' t' (Op.prog cfg (.search m ts e)) s = .ok (.results part) s) order parts) ∧
    ∀ d, ∃ s' a', run cfg o t (Op.prog cfg (.put k d)) s = .ok .unit s' ∧ Abs cfg s' a' ∧
      ∀ m, a'.docs m = if m ∈ l then (a.docs m).map (· ++ [d]) else a.docs m := by
  obtain ⟨rets', s0, a0, h1, h2, h3, h4⟩ := C30_guarded_calls_complete cs hg
  rw [hrun] at h1
  cases h1
  have hal : ∀ n, a.aliases n = a0.aliases n := fun n => by rw [h.view, h3.view]
  have hlive : ∀ n, (a.docs n).isSome = (a0.docs n).isSome := fun n => by rw [h.same_names h3]
  have hh : Healthy a := ⟨by rw [← h.imuR, h3.imuR, h4.readers], by rw [← h.amuW, h3.amuW, h4.writer],
    fun n l' hn => h4.nodup n l' (hal n ▸ hn), fun n l' hn m hm => by rw [hlive]; exact h4.live n l' (hal n ▸ hn) m hm⟩
  refine ⟨fun ts e r s' hr => ?_, fun d => ?_⟩
  · obtain ⟨order, g1, parts, g2, g3⟩ := C41_alias_search_merges h k hk l hl ts e o t r s' hr
    exact ⟨order, g1.nodup_iff.2 (hh.nodup k l hl), fun m => g1.mem_iff, parts, g2, g3⟩
  · obtain ⟨s', a', g1, g2, g3, g4, _⟩ := C43_put_through_alias h hh k hk l hl d o t
    refine ⟨s', a', g1, g2, fun m => ?_⟩
    by_cases hm : m ∈ l
    · obtain ⟨rs, h5, h6⟩ := g3 m hm
      rw [if_pos hm, h5, h6]; rfl
    · rw [if_neg hm]; exact g4 m hm

end Visigoth
