import Verif.Proofs.Refine
/-!
# Every repository method refines its specification: `Rename`, `Drop`, `Search`, `Put`
-/
namespace Visigoth

variable {cfg : Cfg} {o : Oracle} {t : Tid}

/-! ## `Rename` -/

theorem idxOk_rename {H ix docs} (h : IdxOk cfg H ix docs) (old new : Name) (p : Ptr)
    (hp : ix.get old = some p) (rs : List DocRequest) (hrs : docs old = some rs) :
    IdxOk cfg H (GoMap.delete (GoMap.set ix new p) old) (upd (upd docs new (some rs)) old none) := by
  refine ⟨GoMap.nodup_delete _ _ (GoMap.nodup_set _ _ _ h.nodup), ?_, ?_, ?_⟩
  · intro n q hq
    rw [GoMap.get_delete] at hq
    split at hq
    · simp at hq
    · rename_i hn
      rw [GoMap.get_set] at hq
      simp only [upd, if_neg (Ne.symm hn)]
      split at hq
      · rename_i hnew
        injection hq with hq; subst hq
        obtain ⟨nm, rs', h1, h2⟩ := h.rep old p hp
        rw [hrs] at h1; injection h1 with h1; subst h1
        exact ⟨nm, rs, by rw [if_pos hnew.symm], h2⟩
      · rename_i hnew
        rw [if_neg (Ne.symm hnew)]
        exact h.rep n q hq
  · intro n hq
    rw [GoMap.get_delete] at hq
    simp only [upd]
    split at hq
    · rename_i hn; rw [if_pos hn.symm]
    · rename_i hn
      rw [if_neg (Ne.symm hn)]
      rw [GoMap.get_set] at hq
      split at hq
      · simp at hq
      · rename_i hnew
        rw [if_neg (Ne.symm hnew)]
        exact h.absent n hq
  · intro n m q hn hm
    rw [GoMap.get_delete] at hn hm
    split at hn
    · simp at hn
    · split at hm
      · simp at hm
      · rename_i h1 h2
        rw [GoMap.get_set] at hn hm
        split at hn <;> split at hm
        · simp_all
        · injection hn with hn; subst hn
          exact absurd (h.inj old m p hp hm) h2
        · injection hm with hm; subst hm
          exact absurd (h.inj old n p hp hn) h1
        · exact h.inj n m q hn hm

theorem alOk_sameShape {A B al} (h : AlOk A al) (hs : SameShape B A) : AlOk B al := by
  refine ⟨h.nodup, fun n r hr => ?_, h.distinct⟩
  obtain ⟨a, h1, h2⟩ := h.valid n r hr
  have := hs r.arr
  rw [h1] at this
  obtain ⟨b, hb1, hb2⟩ := Option.map_eq_some_iff.1 this
  exact ⟨b, hb1, by omega⟩

theorem refine_rename {s a} (h : Abs cfg s a) (old new : Name) :
    Refines cfg s a (.rename old new) (run cfg o t (Op.prog cfg (.rename old new)) s) := by
  have hR := h.imuR_nil
  obtain ⟨idx, hal, view, imuR, imuW, amuR, amuW⟩ := h
  have hi := idx.isSome old
  simp only [Op.prog, Repo.rename, run_bind]
  by_cases hr : s.imu.readers = []
  · rw [run_lock .indices]
    case h => exact imuW
    case hr => exact hr
    have hnh : ¬ a.hangs (.rename old new) := hR.1 hr
    simp only [andThen_ok, Shared.setMu]
    rw [run_perform]
    simp only [exec, Exec.outcome, andThen_ok]
    cases hg : s.indices.get old with
    | none =>
      rw [hg] at hi
      have hd : a.docs old = none := idx.absent old hg
      simp only [run_bind]
      rw [run_unlock .indices _ rfl]
      simp only [andThen_ok, run_pure, Shared.setMu, Shared.mu]
      refine ⟨hnh, fun _ => id, ?_, ?_, ⟨by simp [Op.isRename], by simp [Op.isRead]⟩⟩
      · show SRet.bool _ = _; rw [hd]; rfl
      · simp only [SpecState.next, hd]
        refine ⟨idx, hal, view, ?_, rfl, amuR, amuW⟩
        rw [← imuR, hr]
    | some p =>
      obtain ⟨nm, rs, hrs, hp⟩ := idx.rep old p hg
      simp only [run_bind]
      rw [run_perform]
      simp only [exec, Exec.outcome, andThen_ok]
      rw [run_perform]
      simp only [exec, Exec.outcome, andThen_ok]
      rw [run_perform]
      simp only [exec, Exec.outcome, andThen_ok]
      have hperm := choosePerm_perm o.keyOrder s.aliases.keys
      obtain ⟨A, h1, h2, h3⟩ := run_renameAliases (cfg := cfg) (o := o) (t := t) old new
        (choosePerm o.keyOrder s.aliases.keys)
        { s with imu := { readers := [], writer := some t },
                 indices := GoMap.delete (GoMap.set s.indices new p) old }
        (fun k _ r hk => hal.valid k r hk)
      rw [h1]
      simp only [andThen_ok]
      rw [run_unlock .indices _ rfl]
      simp only [andThen_ok, run_pure, Shared.setMu, Shared.mu]
      refine ⟨hnh, fun _ => id, ?_, ?_, ⟨by simp [Op.isRename], by simp [Op.isRead]⟩⟩
      · show SRet.bool _ = _; rw [hrs]; rfl
      · simp only [SpecState.next, hrs]
        refine ⟨idxOk_rename idx old new p hg rs hrs, alOk_sameShape hal h2, fun k => ?_, ?_, rfl, amuR, amuW⟩
        · simp only [view]
          unfold alView
          cases hk : s.aliases.get k with
          | none => simp
          | some r =>
            simp only [Option.map_some]
            congr 1
            apply List.ext_getElem?
            intro j
            have e1 := elems_getElem? ({ s with arrays := A } : Shared) r j
            have e2 := elems_getElem? s r j
            rw [List.getElem?_map]
            change (elemsIn A r)[j]? = _ at e1
            change (elemsIn s.arrays r)[j]? = _ at e2
            rw [e1, e2]
            by_cases hj : j < r.len
            · rw [if_pos hj, if_pos hj]
              have := (h3 r.arr j).1 ⟨k, hperm.mem_iff.2 ((GoMap.mem_keys_iff _ _).2 ⟨r, hk⟩), r, hk, rfl, hj⟩
              exact this.symm
            · rw [if_neg hj, if_neg hj]; rfl
        · rw [← imuR, hr]
  · obtain ⟨s', hs'⟩ := run_lock_blocked (cfg := cfg) (o := o) (t := t) .indices s (Or.inr hr)
    rw [hs']
    show 0 < a.leakedReaders
    exact Classical.not_not.1 (fun hn => hr (hR.2 hn))

/-! ## `Drop` -/

/-- What `Drop n` leaves of an alias. -/
def dropEntry (n : Name) (l : List Name) : Option (List Name) :=
  if l.filter (fun x => x ≠ n) = [] then none else some (l.filter (fun x => x ≠ n))

theorem run_dropAliases (n : Name) (ks : List Name) (hnd : ks.Nodup) (s : Shared)
    (hal : AlOk s.arrays s.aliases) :
    ∃ A al, run cfg o t (Repo.dropAliases n ks) s = .ok () { s with arrays := A, aliases := al } ∧
      AlOk A al ∧ Keeps s.arrays s.aliases A al ∧
      ∀ m, alView A al m = if m ∈ ks then (alView s.arrays s.aliases m).bind (dropEntry n)
        else alView s.arrays s.aliases m := by
  induction ks generalizing s with
  | nil => exact ⟨_, _, rfl, hal, Keeps.refl _ _, by simp⟩
  | cons k ks ih =>
    rw [List.nodup_cons] at hnd
    simp only [Repo.dropAliases, run_bind]
    rw [run_perform]
    simp only [exec, Exec.outcome, andThen_ok]
    cases hg : s.aliases.get k with
    | none =>
      obtain ⟨A, al, h1, h2, h3, h4⟩ := ih hnd.2 s hal
      refine ⟨A, al, h1, h2, h3, fun m => ?_⟩
      rw [h4]
      by_cases hm : m = k
      · subst hm
        rw [if_neg hnd.1, if_pos (by simp)]
        simp [alView, hg]
      · simp [hm]
    | some r =>
      have hvr := hal.valid k r hg
      have hlen : (elemsIn s.arrays r).length = r.len := elems_length (s := s) hvr
      have hview : alView s.arrays s.aliases k = some (elemsIn s.arrays r) := by simp [alView, hg]
      simp only [run_bind]
      rw [run_readSlice r s hvr]
      simp only [andThen_ok]
      have he : s.elems r = elemsIn s.arrays r := rfl
      rw [he, ← hlen]
      by_cases h0 : ((elemsIn s.arrays r).filter (fun x => x ≠ n)).length < 1
      · simp only [if_pos h0, run_bind]
        rw [run_perform]
        simp only [exec, Exec.outcome, andThen_ok]
        have hdel := alOk_delete hal k
        obtain ⟨A, al, h1, h2, h3, h4⟩ := ih hnd.2 { s with aliases := GoMap.delete s.aliases k } hdel.1
        refine ⟨A, al, h1, h2, hdel.2.2.trans h3, fun m => ?_⟩
        have hnil : (elemsIn s.arrays r).filter (fun x => x ≠ n) = [] := by
          rw [← List.length_eq_zero_iff]; omega
        rw [h4]
        simp only [hdel.2.1, upd]
        by_cases hm : m = k
        · subst hm
          rw [if_neg hnd.1, if_pos rfl, if_pos (by simp), hview]
          simp only [Option.bind_some, dropEntry, hnil, if_true]
        · simp [hm]
      · simp only [if_neg h0]
        have hne : ¬ (elemsIn s.arrays r).filter (fun x => x ≠ n) = [] := by
          intro hh; rw [hh] at h0; simp at h0
        by_cases hch : ((elemsIn s.arrays r).filter (fun x => x ≠ n)).length ≠ (elemsIn s.arrays r).length
        · simp only [if_pos hch, run_bind]
          rw [run_perform]
          simp only [exec, Exec.outcome, andThen_ok]
          rw [run_perform]
          simp only [exec, Exec.outcome, andThen_ok]
          have hnew := alOk_new hal k ((elemsIn s.arrays r).filter (fun x => x ≠ n) ++
              List.replicate (o.capacity ((elemsIn s.arrays r).filter (fun x => x ≠ n)).length -
                ((elemsIn s.arrays r).filter (fun x => x ≠ n)).length) [])
              ((elemsIn s.arrays r).filter (fun x => x ≠ n)).length (by rw [List.length_append]; omega)
          obtain ⟨A, al, h1, h2, h3, h4⟩ := ih hnd.2
            { s with
              arrays := s.arrays ++ [(elemsIn s.arrays r).filter (fun x => x ≠ n) ++
                List.replicate (o.capacity ((elemsIn s.arrays r).filter (fun x => x ≠ n)).length -
                ((elemsIn s.arrays r).filter (fun x => x ≠ n)).length) []],
              aliases := GoMap.set s.aliases k ⟨s.arrays.length,
                ((elemsIn s.arrays r).filter (fun x => x ≠ n)).length⟩ } hnew.1
          refine ⟨A, al, h1, h2, hnew.2.2.trans h3, fun m => ?_⟩
          rw [h4]
          simp only [hnew.2.1, upd]
          by_cases hm : m = k
          · subst hm
            rw [if_neg hnd.1, if_pos rfl, if_pos (by simp), hview, List.take_left]
            simp only [Option.bind_some, dropEntry, if_neg hne]
          · simp [hm]
        · simp only [if_neg hch]
          obtain ⟨A, al, h1, h2, h3, h4⟩ := ih hnd.2 s hal
          refine ⟨A, al, h1, h2, h3, fun m => ?_⟩
          rw [h4]
          by_cases hm : m = k
          · subst hm
            rw [if_neg hnd.1, if_pos (by simp), hview]
            simp only [Option.bind_some, dropEntry, if_neg hne]
            rw [filter_ne_length hch]
          · simp [hm]

theorem idxOk_delete {H ix docs} (h : IdxOk cfg H ix docs) (n : Name) :
    IdxOk cfg H (GoMap.delete ix n) (upd docs n none) := by
  refine ⟨GoMap.nodup_delete _ _ h.nodup, ?_, ?_, ?_⟩
  · intro m q hq
    rw [GoMap.get_delete] at hq
    split at hq
    · simp at hq
    · rename_i hm
      simp only [upd, if_neg (Ne.symm hm)]
      exact h.rep m q hq
  · intro m hq
    rw [GoMap.get_delete] at hq
    simp only [upd]
    split at hq
    · rename_i hm; rw [if_pos hm.symm]
    · rename_i hm; rw [if_neg (Ne.symm hm)]; exact h.absent m hq
  · intro m k q hm hk
    rw [GoMap.get_delete] at hm hk
    split at hm
    · simp at hm
    · split at hk
      · simp at hk
      · exact h.inj m k q hm hk

theorem refine_drop {s a} (h : Abs cfg s a) (n : Name) :
    Refines cfg s a (.drop n) (run cfg o t (Op.prog cfg (.drop n)) s) := by
  have hR := h.imuR_nil
  have hW := h.amuW_true
  obtain ⟨idx, hal, view, imuR, imuW, amuR, amuW⟩ := h
  have hi := idx.isSome n
  simp only [Op.prog, Repo.drop, run_bind, run_rlock .indices s imuW, andThen_ok]
  rw [run_perform]
  simp only [exec, Exec.outcome, andThen_ok, Shared.setMu, Shared.mu]
  cases hg : s.indices.get n with
  | none =>
    have hd : (a.docs n).isSome = false := by rw [← hi, hg]; rfl
    simp only [run_bind]
    rw [run_runlock .indices _ s.imu.readers rfl]
    simp only [andThen_ok, run_pure, Shared.setMu, Shared.mu]
    refine ⟨fun hh => ?_, fun _ => id, ?_, ?_, ⟨fun _ => Keeps.refl _ _, by simp [Op.isRead]⟩⟩
    · have := hh.1; rw [hd] at this; simp at this
    · show SRet.bool _ = _; rw [hd]
    · simp only [SpecState.next, hd, Bool.false_eq_true, if_false]
      exact ⟨idx, hal, view, imuR, imuW, amuR, amuW⟩
  | some p =>
    have hd : (a.docs n).isSome = true := by rw [← hi, hg]; rfl
    simp only [run_bind]
    rw [run_runlock .indices _ s.imu.readers rfl]
    simp only [andThen_ok, Shared.setMu, Shared.mu]
    by_cases hr : s.imu.readers = []
    · rw [run_lock .indices]
      case h => exact imuW
      case hr => exact hr
      simp only [andThen_ok, Shared.setMu]
      by_cases hw : s.amu.writer = none
      · rw [run_lock .aliases]
        case h => exact hw
        case hr => exact amuR
        simp only [andThen_ok, Shared.setMu]
        rw [run_perform]
        simp only [exec, Exec.outcome, andThen_ok]
        have hperm := choosePerm_perm o.keyOrder s.aliases.keys
        obtain ⟨A, al, h1, h2, h3, h4⟩ := run_dropAliases (cfg := cfg) (o := o) (t := t) n
          (choosePerm o.keyOrder s.aliases.keys) (hperm.nodup_iff.2 hal.nodup)
          { s with imu := { readers := [], writer := some t }, amu := { readers := [], writer := some t } } hal
        rw [h1]
        simp only [andThen_ok]
        rw [run_perform]
        simp only [exec, Exec.outcome, andThen_ok]
        rw [run_unlock .indices _ rfl]
        simp only [andThen_ok, Shared.setMu, Shared.mu]
        rw [run_unlock .aliases _ rfl]
        simp only [andThen_ok, run_pure, Shared.setMu, Shared.mu]
        refine ⟨fun hh => ?_, fun _ => id, ?_, ?_, ⟨fun _ => h3, by simp [Op.isRead]⟩⟩
        · rcases hh.2 with h0 | h0
          · exact hR.1 hr h0
          · exact hW.1 h0 hw
        · show SRet.bool _ = _; rw [hd]
        · simp only [SpecState.next, hd, if_true]
          refine ⟨idxOk_delete idx n, h2, fun k => ?_, ?_, rfl, rfl, ?_⟩
          · rw [h4]
            simp only [view]
            by_cases hk : k ∈ choosePerm o.keyOrder s.aliases.keys
            · rw [if_pos hk]; rfl
            · rw [if_neg hk]
              have : s.aliases.get k = none := by
                rw [GoMap.get_eq_none_iff]; exact fun hh => hk (hperm.mem_iff.2 hh)
              simp [alView, this]
          · rw [← imuR, hr]
          · rw [← amuW, hw]
      · obtain ⟨s', hs'⟩ := run_lock_blocked (cfg := cfg) (o := o) (t := t) .aliases
          { s with imu := { readers := [], writer := some t } } (Or.inl hw)
        rw [hs']
        exact ⟨hd, Or.inr (hW.2 hw)⟩
    · obtain ⟨s', hs'⟩ := run_lock_blocked (cfg := cfg) (o := o) (t := t) .indices
        { s with imu := { readers := s.imu.readers, writer := s.imu.writer } } (Or.inr hr)
      rw [hs']
      exact ⟨hd, Or.inl (Classical.not_not.1 (fun hn => hr (hR.2 hn)))⟩

/-! ## `Search` -/

theorem buildIndex_inverted_name (tok : Tokenizer) (nm nm' : Str) (rs : List DocRequest) :
    (buildIndex tok nm rs).inverted = (buildIndex tok nm' rs).inverted ∧
    (buildIndex tok nm rs).docs = (buildIndex tok nm' rs).docs := by
  unfold buildIndex
  generalize hx : newMemoryIndex nm = x
  generalize hy : newMemoryIndex nm' = y
  have hxy : x.inverted = y.inverted ∧ x.docs = y.docs := by subst hx hy; exact ⟨rfl, rfl⟩
  clear hx hy
  induction rs generalizing x y with
  | nil => exact hxy
  | cons r rs ih =>
    apply ih
    unfold MemoryIndex.put
    simp [hxy.1, hxy.2]

/-- What a search returns does not depend on the name the index was created under. -/
theorem search_name (tok : Tokenizer) (cp : CopyFn) (nm nm' : Str) (rs : List DocRequest) (ts : Str) (e : Engine) :
    (buildIndex tok nm rs).search cp tok ts e = (buildIndex tok nm' rs).search cp tok ts e := by
  obtain ⟨h1, h2⟩ := buildIndex_inverted_name tok nm nm' rs
  simp only [MemoryIndex.search, MemoryIndex.indexer, MemoryIndex.len, h2]
  congr 2
  · funext k
    simp only [MemoryIndex.indexed, h1]
  · funext i
    simp only [MemoryIndex.document, h2]

theorem perm_map_inv {α β : Type} {f : α → β} {l : List β} {xs : List α} (h : l.Perm (xs.map f)) :
    ∃ ys : List α, ys.Perm xs ∧ l = ys.map f := by
  generalize hm : xs.map f = m at h
  induction h generalizing xs with
  | nil => exact ⟨xs, .refl _, hm.symm⟩
  | cons a h ih =>
    cases xs with
    | nil => simp at hm
    | cons x xs =>
      simp only [List.map_cons, List.cons.injEq] at hm
      obtain ⟨ys, h1, h2⟩ := ih hm.2
      exact ⟨x :: ys, h1.cons x, by simp [h2, hm.1]⟩
  | swap a b l =>
    match xs, hm with
    | [], hm => simp at hm
    | [x], hm => simp at hm
    | x :: y :: xs, hm =>
      simp only [List.map_cons, List.cons.injEq] at hm
      exact ⟨y :: x :: xs, .swap .., by simp [hm.1, hm.2.1, hm.2.2]⟩
  | trans _ _ ih1 ih2 =>
    obtain ⟨ys, h1, h2⟩ := ih2 hm
    obtain ⟨zs, h3, h4⟩ := ih1 h2.symm
    exact ⟨zs, h3.trans h1, h4⟩

/-- The pointers of a list of existing names. -/
theorem ptrs_of_names {H ix docs} (h : IdxOk cfg H ix docs) (l : List Name)
    (hall : ∀ m ∈ l, (docs m).isSome) :
    sequence (l.map ix.get) = some (l.map fun m => (ix.get m).getD 0) := by
  rw [sequence_eq_some, List.map_map]
  apply List.map_congr_left
  intro m hm
  have h1 := h.isSome m
  rw [hall m hm] at h1
  obtain ⟨p, hp⟩ := Option.isSome_iff_exists.1 h1
  simp [hp]

theorem ptrs_none {H ix docs} (h : IdxOk cfg H ix docs) (l : List Name)
    (hex : ∃ m ∈ l, docs m = none) : sequence (l.map ix.get) = none := by
  rw [sequence_eq_none]
  obtain ⟨m, hm, hd⟩ := hex
  exact List.mem_map.2 ⟨m, hm, (h.get_none m).2 hd⟩

theorem IdxOk.ptr {H ix docs} (h : IdxOk cfg H ix docs) {m : Name} (hm : (docs m).isSome) :
    ∃ p nm rs, ix.get m = some p ∧ docs m = some rs ∧ H[p]? = some (buildIndex cfg.tok nm rs) := by
  have h1 := h.isSome m
  rw [hm] at h1
  obtain ⟨p, hp⟩ := Option.isSome_iff_exists.1 h1
  obtain ⟨nm, rs, h2, h3⟩ := h.rep m p hp
  exact ⟨p, nm, rs, hp, h2, h3⟩

theorem IdxOk.eval {H ix docs} (h : IdxOk cfg H ix docs) {m : Name} (hm : (docs m).isSome) (ts : Str) (e : Engine) :
    (H[(ix.get m).getD 0]?).bind (fun mi => mi.search cfg.cp cfg.tok ts e)
      = (docs m).bind fun rs => specSearch cfg rs ts e := by
  obtain ⟨p, nm, rs, h1, h2, h3⟩ := h.ptr hm
  simp only [h1, Option.getD_some, h3, Option.bind_some, h2, specSearch]
  exact search_name ..

/-- Searching the resolved indices. -/
theorem run_searchTargets {s : Shared} {docs} (h : IdxOk cfg s.heap s.indices docs) (l : List Name)
    (ts : Str) (e : Engine) :
    (∃ parts : List (List SearchResult), ∃ order : List Name, order.Perm l ∧ (∀ m ∈ l, (docs m).isSome) ∧
        order.map (fun m => (docs m).bind fun rs => specSearch cfg rs ts e) = parts.map some ∧
        run cfg o t (Repo.searchTargets (l.map s.indices.get) ts e) s = .ok parts.flatten s) ∨
    (∃ c, run cfg o t (Repo.searchTargets (l.map s.indices.get) ts e) s = .crash c ∧
      ((c = .nilIndex ∧ ∃ m ∈ l, docs m = none) ∨
       (c = .engine ∧ (∀ m ∈ l, (docs m).isSome) ∧
          ∃ m ∈ l, ∃ rs, docs m = some rs ∧ specSearch cfg rs ts e = none))) := by
  by_cases hall : ∀ m ∈ l, (docs m).isSome
  · have hseq := ptrs_of_names h l hall
    -- the general loop, for any order
    have key : ∀ order : List Name, order.Perm l →
        (∃ parts : List (List SearchResult),
          order.map (fun m => (docs m).bind fun rs => specSearch cfg rs ts e) = parts.map some ∧
          run cfg o t (Repo.searchAll ts e (order.map fun m => (s.indices.get m).getD 0)) s
            = .ok parts.flatten s) ∨
        (run cfg o t (Repo.searchAll ts e (order.map fun m => (s.indices.get m).getD 0)) s = .crash .engine ∧
          ∃ m ∈ l, ∃ rs, docs m = some rs ∧ specSearch cfg rs ts e = none) := by
      intro order hord
      have hall' : ∀ m ∈ order, (docs m).isSome := fun m hm => hall m (hord.mem_iff.1 hm)
      rw [run_searchAll ts e _ s (by
        intro p hp
        obtain ⟨m, hm, rfl⟩ := List.mem_map.1 hp
        obtain ⟨p, nm, rs, h1, h2, h3⟩ := h.ptr (hall' m hm)
        rw [h1]
        exact (List.getElem?_eq_some_iff.1 h3).1)]
      have hmap : (order.map fun m => (s.indices.get m).getD 0).map
            (fun p => (s.heap[p]?).bind fun mi => mi.search cfg.cp cfg.tok ts e)
          = order.map (fun m => (docs m).bind fun rs => specSearch cfg rs ts e) := by
        rw [List.map_map]
        apply List.map_congr_left
        intro m hm
        exact h.eval (hall' m hm) ts e
      rw [hmap]
      cases hs : sequence (order.map fun m => (docs m).bind fun rs => specSearch cfg rs ts e) with
      | some parts => exact Or.inl ⟨parts, (sequence_eq_some _ _).1 hs, rfl⟩
      | none =>
        right
        refine ⟨rfl, ?_⟩
        rw [sequence_eq_none] at hs
        obtain ⟨m, hm, hv⟩ := List.mem_map.1 hs
        obtain ⟨rs, hrs⟩ := Option.isSome_iff_exists.1 (hall' m hm)
        rw [hrs] at hv
        exact ⟨m, hord.mem_iff.1 hm, rs, hrs, hv⟩
    unfold Repo.searchTargets
    rw [nonNil_eq, hseq]
    -- one index or several
    have hone : (∃ m, l = [m]) ∨ ∀ m, l ≠ [m] := by
      by_cases hh : ∃ m, l = [m]
      · exact Or.inl hh
      · exact Or.inr (fun m hm => hh ⟨m, hm⟩)
    rcases hone with ⟨m, rfl⟩ | hmany
    · rcases key [m] (.refl _) with ⟨parts, h1, h2⟩ | ⟨h1, h2⟩
      · left
        refine ⟨parts, [m], .refl _, hall, h1, ?_⟩
        rw [← h2]
        simp only [List.map_cons, List.map_nil, Repo.searchAll, run_bind]
        generalize run cfg o t (Repo.searchIndex ((s.indices.get m).getD 0) ts e) s = out
        cases out <;> simp [run_pure]
      · right
        refine ⟨.engine, ?_, Or.inr ⟨rfl, hall, h2⟩⟩
        rw [← h1]
        simp only [List.map_cons, List.map_nil, Repo.searchAll, run_bind]
        generalize run cfg o t (Repo.searchIndex ((s.indices.get m).getD 0) ts e) s = out
        cases out <;> simp [run_pure]
    · obtain ⟨order, hord, heq⟩ := perm_map_inv
        (choosePerm_perm o.schedule (l.map fun m => (s.indices.get m).getD 0))
      have hrun : run cfg o t
          (match some (l.map fun m => (s.indices.get m).getD 0) with
            | none => Prog.crash .nilIndex
            | some [p] => Repo.searchIndex p ts e
            | some ps => do
              let ps ← perform (.schedule ps)
              Repo.searchAll ts e ps) s
          = run cfg o t (Repo.searchAll ts e (order.map fun m => (s.indices.get m).getD 0)) s := by
        match l, hmany with
        | [], _ =>
          simp only [List.map_nil, run_bind, run_perform, exec, Exec.outcome, andThen_ok]
          simp only [List.map_nil] at heq
          rw [heq]
        | [m], hmany => exact absurd rfl (hmany m)
        | m :: m' :: l, _ =>
          simp only [List.map_cons, run_bind, run_perform, exec, Exec.outcome, andThen_ok]
          simp only [List.map_cons] at heq
          rw [heq]
      rcases key order hord with ⟨parts, h1, h2⟩ | ⟨h1, h2⟩
      · exact Or.inl ⟨parts, order, hord, hall, h1, hrun.trans h2⟩
      · exact Or.inr ⟨.engine, hrun.trans h1, Or.inr ⟨rfl, hall, h2⟩⟩
  · have hex : ∃ m ∈ l, docs m = none := by
      apply Classical.byContradiction
      intro hn
      apply hall
      intro m hm
      cases hd : docs m with
      | none => exact absurd ⟨m, hm, hd⟩ hn
      | some _ => rfl
    right
    refine ⟨.nilIndex, ?_, Or.inl ⟨rfl, hex⟩⟩
    unfold Repo.searchTargets
    rw [nonNil_eq, ptrs_none h l hex]
    rfl

/-- The specification of a crashing search is exclusive with that of a completed one. -/
theorem search_no_crash {a : SpecState} {n : Name} {ts : Str} {e : Engine} {l : List Name}
    (hres : a.resolve n = some l) {parts : List (List SearchResult)} {order : List Name}
    (hord : order.Perm l) (hall : ∀ m ∈ l, (a.docs m).isSome)
    (hparts : order.map (fun m => (a.docs m).bind fun rs => specSearch cfg rs ts e) = parts.map some) (c : Crash) :
    ¬ a.crashes cfg (.search n ts e) c := by
  rintro ⟨l', h1, h2⟩
  rw [hres] at h1; injection h1 with h1; subst h1
  rcases h2 with ⟨_, m, hm, hd⟩ | ⟨_, _, m, hm, rs, hrs, hn⟩
  · have := hall m hm; rw [hd] at this; simp at this
  · have : (none : Option (List SearchResult)) ∈ parts.map some := by
      rw [← hparts]
      exact List.mem_map.2 ⟨m, hord.mem_iff.2 hm, by simp [hrs, hn]⟩
    simp at this

theorem refine_search {s a} (h : Abs cfg s a) (n : Name) (ts : Str) (e : Engine) :
    Refines cfg s a (.search n ts e) (run cfg o t (Op.prog cfg (.search n ts e)) s) := by
  have hW := h.amuW_true
  obtain ⟨idx, hal, view, imuR, imuW, amuR, amuW⟩ := h
  have hi := idx.isSome n
  simp only [Op.prog, Repo.search, run_bind, run_rlock .indices s imuW, andThen_ok]
  rw [run_perform]
  simp only [exec, Exec.outcome, andThen_ok, Shared.setMu, Shared.mu]
  cases hg : s.indices.get n with
  | some p =>
    have hd : (a.docs n).isSome = true := by rw [← hi, hg]; rfl
    have hres : a.resolve n = some [n] := by simp [SpecState.resolve, hd]
    have hnh : ¬ a.hangs (.search n ts e) := fun hh => by rw [hh.1] at hd; simp at hd
    have hst := run_searchTargets (cfg := cfg) (o := o) (t := t)
      (s := { s with imu := { readers := t :: s.imu.readers, writer := s.imu.writer } }) idx [n] ts e
    simp only [List.map_cons, List.map_nil, hg] at hst
    simp only [run_bind]
    rcases hst with ⟨parts, order, h1, h2, h3, h4⟩ | ⟨c, h1, h2⟩
    · rw [h4]
      simp only [andThen_ok]
      rw [run_runlock .indices _ s.imu.readers rfl]
      simp only [andThen_ok, run_pure, Shared.setMu, Shared.mu]
      refine ⟨hnh, search_no_crash hres h1 h2 h3, ?_, ⟨idx, hal, view, imuR, imuW, amuR, amuW⟩, ⟨fun _ => Keeps.refl _ _, fun _ => rfl⟩⟩
      simp only [SpecState.allows, hres]
      exact ⟨order, h1, parts, h3, rfl⟩
    · rw [h1]
      exact ⟨hnh, [n], hres, h2⟩
  | none =>
    have hd : a.docs n = none := idx.absent n hg
    simp only [run_bind]
    by_cases hw : s.amu.writer = none
    · have hnh : ¬ a.hangs (.search n ts e) := fun hh => hW.1 hh.2 hw
      rw [run_rlock .aliases]
      case h => exact hw
      simp only [andThen_ok, Shared.setMu, Shared.mu]
      rw [run_perform]
      simp only [exec, Exec.outcome, andThen_ok]
      cases hga : s.aliases.get n with
      | none =>
        have hv : a.aliases n = none := by rw [view]; simp [alView, hga]
        have hres : a.resolve n = none := by simp [SpecState.resolve, hd, hv]
        simp only [run_bind]
        rw [run_runlock .aliases _ s.amu.readers rfl]
        simp only [andThen_ok, Shared.setMu, Shared.mu]
        rw [run_runlock .indices _ s.imu.readers rfl]
        simp only [andThen_ok, run_pure, Shared.setMu, Shared.mu]
        refine ⟨hnh, ?_, ?_, ⟨idx, hal, view, imuR, imuW, amuR, amuW⟩, ⟨fun _ => Keeps.refl _ _, fun _ => rfl⟩⟩
        · rintro c ⟨l, h1, _⟩; rw [hres] at h1; simp at h1
        · simp only [SpecState.allows, hres]; rfl
      | some r =>
        have hvr := hal.valid n r hga
        have hv : a.aliases n = some (elemsIn s.arrays r) := by rw [view]; simp [alView, hga]
        have hres : a.resolve n = some (elemsIn s.arrays r) := by simp [SpecState.resolve, hd, hv]
        simp only [run_bind]
        rw [run_resolve r]
        case h => exact hvr
        simp only [andThen_ok]
        rw [run_runlock .aliases _ s.amu.readers rfl]
        simp only [andThen_ok, Shared.setMu, Shared.mu]
        have hst := run_searchTargets (cfg := cfg) (o := o) (t := t)
          (s := { s with imu := { readers := t :: s.imu.readers, writer := s.imu.writer },
                         amu := { readers := s.amu.readers, writer := s.amu.writer } }) idx (elemsIn s.arrays r) ts e
        rcases hst with ⟨parts, order, h1, h2, h3, h4⟩ | ⟨c, h1, h2⟩
        · erw [h4]
          simp only [andThen_ok]
          rw [run_runlock .indices _ s.imu.readers rfl]
          simp only [andThen_ok, run_pure, Shared.setMu, Shared.mu]
          refine ⟨hnh, search_no_crash hres h1 h2 h3, ?_, ⟨idx, hal, view, imuR, imuW, amuR, amuW⟩, ⟨fun _ => Keeps.refl _ _, fun _ => rfl⟩⟩
          simp only [SpecState.allows, hres]
          exact ⟨order, h1, parts, h3, rfl⟩
        · erw [h1]
          exact ⟨hnh, _, hres, h2⟩
    · rw [run_rlock_blocked .aliases]
      case h => exact hw
      exact ⟨hd, hW.2 hw⟩

end Visigoth
