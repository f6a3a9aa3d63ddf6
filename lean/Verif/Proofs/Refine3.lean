import Verif.Proofs.Refine2
/-!
# Every repository method refines its specification: `Put`; all methods together
-/
namespace Visigoth

variable {cfg : Cfg} {o : Oracle} {t : Tid}

theorem buildIndex_snoc (tok : Tokenizer) (nm : Str) (rs : List DocRequest) (d : DocRequest) :
    buildIndex tok nm (rs ++ [d]) = (buildIndex tok nm rs).put tok d := by
  simp [buildIndex, List.foldl_append]

/-- Putting into the objects of a set of names. -/
theorem idxOk_put {H H' ix docs} (h : IdxOk cfg H ix docs) (l : List Name)
    (ps : List Ptr) (hps : ∀ m p, ix.get m = some p → (p ∈ ps ↔ m ∈ l)) (d : DocRequest)
    (hH : ∀ q : Nat, H'[q]? = if q ∈ ps then (H[q]?).map (MemoryIndex.put cfg.tok · d) else H[q]?) :
    IdxOk cfg H' ix (fun m => if m ∈ l then (docs m).map (· ++ [d]) else docs m) := by
  refine ⟨h.nodup, ?_, ?_, h.inj⟩
  · intro n p hp
    obtain ⟨nm, rs, h1, h2⟩ := h.rep n p hp
    by_cases hn : n ∈ l
    · refine ⟨nm, rs ++ [d], by simp [hn, h1], ?_⟩
      rw [hH, if_pos ((hps n p hp).2 hn), h2, buildIndex_snoc]; rfl
    · refine ⟨nm, rs, by simp [hn, h1], ?_⟩
      rw [hH, if_neg (fun hh => hn ((hps n p hp).1 hh)), h2]
  · intro n hn
    have := h.absent n hn
    simp [this]

theorem idxOk_new {H ix docs} (h : IdxOk cfg H ix docs) (n : Name) (d : DocRequest) :
    IdxOk cfg (H ++ [(newMemoryIndex n).put cfg.tok d]) (GoMap.set ix n H.length)
      (upd docs n (some [d])) := by
  have hlt : ∀ m p, ix.get m = some p → p < H.length := by
    intro m p hp
    obtain ⟨nm, rs, _, h2⟩ := h.rep m p hp
    exact (List.getElem?_eq_some_iff.1 h2).1
  refine ⟨GoMap.nodup_set _ _ _ h.nodup, ?_, ?_, ?_⟩
  · intro m p hp
    rw [GoMap.get_set] at hp
    simp only [upd]
    split at hp
    · rename_i hm
      injection hp with hp; subst hp
      exact ⟨n, [d], by rw [if_pos hm.symm], by simp [buildIndex]⟩
    · rename_i hm
      rw [if_neg (Ne.symm hm)]
      obtain ⟨nm, rs, h1, h2⟩ := h.rep m p hp
      exact ⟨nm, rs, h1, by rw [List.getElem?_append_left (hlt m p hp), h2]⟩
  · intro m hp
    rw [GoMap.get_set] at hp
    simp only [upd]
    split at hp
    · simp at hp
    · rename_i hm
      rw [if_neg (Ne.symm hm)]
      exact h.absent m hp
  · intro m k p hm hk
    rw [GoMap.get_set] at hm hk
    split at hm <;> split at hk
    · simp_all
    · injection hm with hm
      exact absurd (hlt k p hk) (by rw [← hm]; exact Nat.lt_irrefl _)
    · injection hk with hk
      exact absurd (hlt m p hm) (by rw [← hk]; exact Nat.lt_irrefl _)
    · exact h.inj m k p hm hk

theorem nodup_ptrs {H ix docs} (h : IdxOk cfg H ix docs) (l : List Name)
    (hall : ∀ m ∈ l, (docs m).isSome) :
    (l.map fun m => (ix.get m).getD 0).Nodup ↔ l.Nodup := by
  induction l with
  | nil => simp
  | cons m l ih =>
    rw [List.map_cons, List.nodup_cons, List.nodup_cons, ih (fun k hk => hall k (List.mem_cons_of_mem _ hk))]
    have : (ix.get m).getD 0 ∈ l.map (fun m => (ix.get m).getD 0) ↔ m ∈ l := by
      constructor
      · intro hm
        obtain ⟨k, hk, he⟩ := List.mem_map.1 hm
        obtain ⟨p, _, _, h1, _, _⟩ := h.ptr (hall m (by simp))
        obtain ⟨q, _, _, h2, _, _⟩ := h.ptr (hall k (List.mem_cons_of_mem _ hk))
        simp only [h1, h2, Option.getD_some] at he
        subst he
        rw [h.inj m k q h1 h2]; exact hk
      · exact fun hm => List.mem_map_of_mem hm
    rw [this]

/-- `Put` into the resolved indices. -/
theorem run_putTargets {s : Shared} {docs} (h : IdxOk cfg s.heap s.indices docs) (l : List Name)
    (d : DocRequest) :
    (∃ H, run cfg o t (Repo.putTargets cfg (l.map s.indices.get) d) s = .ok () { s with heap := H } ∧
        (∀ m ∈ l, (docs m).isSome) ∧ l.Nodup ∧
        IdxOk cfg H s.indices (fun m => if m ∈ l then (docs m).map (· ++ [d]) else docs m)) ∨
    (∃ c, run cfg o t (Repo.putTargets cfg (l.map s.indices.get) d) s = .crash c ∧
      ((c = .nilIndex ∧ ∃ m ∈ l, docs m = none) ∨
       (c = .race ∧ (∀ m ∈ l, (docs m).isSome) ∧ ¬ l.Nodup))) := by
  unfold Repo.putTargets
  rw [nonNil_eq]
  by_cases hall : ∀ m ∈ l, (docs m).isSome
  · rw [ptrs_of_names h l hall]
    simp only
    by_cases hnd : l.Nodup
    · left
      rw [if_pos ((nodup_ptrs h l hall).2 hnd)]
      have hperm := choosePerm_perm o.schedule (l.map fun m => (s.indices.get m).getD 0)
      simp only [run_bind]
      rw [run_perform]
      simp only [exec, Exec.outcome, andThen_ok]
      obtain ⟨H, h1, h2, h3⟩ := run_putAll (cfg := cfg) (o := o) (t := t) d
        (choosePerm o.schedule (l.map fun m => (s.indices.get m).getD 0)) s
        (hperm.nodup_iff.2 ((nodup_ptrs h l hall).2 hnd)) (by
          intro p hp
          obtain ⟨m, hm, rfl⟩ := List.mem_map.1 (hperm.mem_iff.1 hp)
          obtain ⟨p, nm, rs, h1, h2, h3⟩ := h.ptr (hall m hm)
          rw [h1]
          exact (List.getElem?_eq_some_iff.1 h3).1)
      refine ⟨H, h1, hall, hnd, idxOk_put h l _ ?_ d h3⟩
      intro m p hp
      rw [hperm.mem_iff]
      constructor
      · intro hm
        obtain ⟨k, hk, he⟩ := List.mem_map.1 hm
        obtain ⟨q, _, _, h2, _, _⟩ := h.ptr (hall k hk)
        simp only [h2, Option.getD_some] at he
        subst he
        rw [h.inj m k q hp h2]; exact hk
      · intro hm
        exact List.mem_map.2 ⟨m, hm, by simp [hp]⟩
    · right
      rw [if_neg (fun hh => hnd ((nodup_ptrs h l hall).1 hh))]
      exact ⟨.race, rfl, Or.inr ⟨rfl, hall, hnd⟩⟩
  · have hex : ∃ m ∈ l, docs m = none := by
      apply Classical.byContradiction
      intro hn
      apply hall
      intro m hm
      cases hd : docs m with
      | none => exact absurd ⟨m, hm, hd⟩ hn
      | some _ => rfl
    right
    rw [ptrs_none h l hex]
    exact ⟨.nilIndex, rfl, Or.inl ⟨rfl, hex⟩⟩

/-- `getIndices` when it does not hang. -/
theorem run_getIndices {s a} (h : Abs cfg s a) (n : Name) :
    ((a.docs n).isSome ∨ a.leakedWriter = false →
      run cfg o t (Repo.getIndices n) s = .ok ((a.resolve n).map (List.map s.indices.get)) s) ∧
    (¬ ((a.docs n).isSome ∨ a.leakedWriter = false) →
      ∃ s', run cfg o t (Repo.getIndices n) s = .hang s') := by
  have hW := h.amuW_true
  have hW' := h.amuW_false
  obtain ⟨idx, hal, view, imuR, imuW, amuR, amuW⟩ := h
  have hi := idx.isSome n
  have hs : ({ s with imu := { readers := s.imu.readers, writer := s.imu.writer } } : Shared) = s := rfl
  simp only [Repo.getIndices, run_bind, run_rlock .indices s imuW, andThen_ok]
  rw [run_perform]
  simp only [exec, Exec.outcome, andThen_ok, Shared.setMu, Shared.mu]
  cases hg : s.indices.get n with
  | some p =>
    have hd : (a.docs n).isSome = true := by rw [← hi, hg]; rfl
    refine ⟨fun _ => ?_, fun hh => absurd (Or.inl hd) hh⟩
    simp only [run_bind]
    rw [run_runlock .indices _ s.imu.readers rfl]
    simp only [andThen_ok, run_pure, Shared.setMu, Shared.mu]
    simp [SpecState.resolve, hd, hg]
  | none =>
    have hd : a.docs n = none := idx.absent n hg
    simp only [run_bind]
    by_cases hw : s.amu.writer = none
    · refine ⟨fun _ => ?_, fun hh => absurd (Or.inr (hW'.2 hw)) hh⟩
      rw [run_rlock .aliases]
      case h => exact hw
      simp only [andThen_ok, Shared.setMu, Shared.mu]
      rw [run_perform]
      simp only [exec, Exec.outcome, andThen_ok]
      cases hga : s.aliases.get n with
      | none =>
        have hv : a.aliases n = none := by rw [view]; simp [alView, hga]
        simp only [run_bind]
        rw [run_runlock .aliases _ s.amu.readers rfl]
        simp only [andThen_ok, Shared.setMu, Shared.mu]
        rw [run_runlock .indices _ s.imu.readers rfl]
        simp only [andThen_ok, run_pure, Shared.setMu, Shared.mu]
        simp [SpecState.resolve, hd, hv]
      | some r =>
        have hvr := hal.valid n r hga
        have hv : a.aliases n = some (elemsIn s.arrays r) := by rw [view]; simp [alView, hga]
        simp only [run_bind]
        rw [run_resolve r]
        case h => exact hvr
        simp only [andThen_ok]
        rw [run_runlock .indices _ s.imu.readers rfl]
        simp only [andThen_ok, Shared.setMu, Shared.mu]
        rw [run_runlock .aliases _ s.amu.readers rfl]
        simp only [andThen_ok, run_pure, Shared.setMu, Shared.mu]
        simp [SpecState.resolve, hd, hv]
        rfl
    · refine ⟨fun hh => ?_, fun _ => ?_⟩
      · rcases hh with hh | hh
        · rw [hd] at hh; simp at hh
        · exact absurd (hW'.1 hh) hw
      · rw [run_rlock_blocked .aliases]
        case h => exact hw
        exact ⟨_, rfl⟩

theorem refine_put {s a} (h : Abs cfg s a) (n : Name) (d : DocRequest) :
    Refines cfg s a (.put n d) (run cfg o t (Op.prog cfg (.put n d)) s) := by
  have hR := h.imuR_nil
  have hgi := run_getIndices (o := o) (t := t) h n
  obtain ⟨idx, hal, view, imuR, imuW, amuR, amuW⟩ := h
  simp only [Op.prog, Repo.put, run_bind]
  by_cases hgo : (a.docs n).isSome ∨ a.leakedWriter = false
  · rw [hgi.1 hgo]
    simp only [andThen_ok]
    by_cases hr : s.imu.readers = []
    · have hnh : ¬ a.hangs (.put n d) := by
        rintro (hh | hh)
        · rcases hgo with h0 | h0
          · rw [hh.1] at h0; simp at h0
          · rw [hh.2] at h0; simp at h0
        · exact hR.1 hr hh
      rw [run_lock .indices]
      case h => exact imuW
      case hr => exact hr
      simp only [andThen_ok, Shared.setMu]
      cases hres : a.resolve n with
      | none =>
        have hnc : ∀ c, ¬ a.crashes cfg (.put n d) c := by
          rintro c ⟨l, h1, _⟩; rw [hres] at h1; simp at h1
        simp only [Option.map_none, run_bind]
        rw [run_perform]
        simp only [exec, Exec.outcome, andThen_ok]
        rw [run_perform]
        simp only [exec, Exec.outcome, andThen_ok]
        rw [run_putIndex s.heap.length d
          { s with heap := s.heap ++ [newMemoryIndex n], indices := GoMap.set s.indices n s.heap.length,
                   imu := { readers := [], writer := some t } } (newMemoryIndex n) (by simp)]
        simp only [andThen_ok]
        rw [run_unlock .indices _ rfl]
        simp only [andThen_ok, run_pure, Shared.setMu, Shared.mu]
        refine ⟨hnh, hnc, rfl, ?_, ⟨fun _ => Keeps.refl _ _, by simp [Op.isRead]⟩⟩
        simp only [SpecState.next, hres]
        refine ⟨?_, hal, view, ?_, rfl, amuR, amuW⟩
        · have := idxOk_new idx n d
          simpa using this
        · rw [← imuR, hr]
      | some l =>
        simp only [Option.map_some, run_bind]
        have hst := run_putTargets (cfg := cfg) (o := o) (t := t)
          (s := { s with imu := { readers := [], writer := some t } }) idx l d
        rcases hst with ⟨H, h1, h2, h3, h4⟩ | ⟨c, h1, h2⟩
        · rw [h1]
          simp only [andThen_ok]
          rw [run_unlock .indices _ rfl]
          simp only [andThen_ok, run_pure, Shared.setMu, Shared.mu]
          refine ⟨hnh, ?_, rfl, ?_, ⟨fun _ => Keeps.refl _ _, by simp [Op.isRead]⟩⟩
          · rintro c ⟨l', g1, g2⟩
            rw [hres] at g1; injection g1 with g1; subst g1
            rcases g2 with ⟨_, m, hm, hd⟩ | ⟨_, _, hn⟩
            · have := h2 m hm; rw [hd] at this; simp at this
            · exact hn h3
          · simp only [SpecState.next, hres]
            refine ⟨h4, hal, view, ?_, rfl, amuR, amuW⟩
            rw [← imuR, hr]
        · rw [h1]
          exact ⟨hnh, l, hres, h2⟩
    · obtain ⟨s', hs'⟩ := run_lock_blocked (cfg := cfg) (o := o) (t := t) .indices s (Or.inr hr)
      rw [hs']
      exact Or.inr (Classical.not_not.1 (fun hn => hr (hR.2 hn)))
  · obtain ⟨s', hs'⟩ := hgi.2 hgo
    rw [hs']
    left
    constructor
    · cases hd : a.docs n with
      | none => rfl
      | some _ => exact absurd (Or.inl (by rw [hd]; rfl)) hgo
    · cases hw : a.leakedWriter with
      | true => rfl
      | false => exact absurd (Or.inr hw) hgo

/-- Every call, in every state, for every choice of the runtime, does what the specification says. -/
theorem refine_op {s a} (h : Abs cfg s a) (op : Op) :
    Refines cfg s a op (run cfg o t (op.prog cfg) s) := by
  cases op with
  | list => exact refine_list h
  | listAliases => exact refine_listAliases h
  | has n => exact refine_has h n
  | hasAlias n => exact refine_hasAlias h n
  | alias a i => exact refine_alias h a i
  | unAlias a i => exact refine_unAlias h a i
  | put n d => exact refine_put h n d
  | search n ts e => exact refine_search h n ts e
  | rename old new => exact refine_rename h old new
  | drop n => exact refine_drop h n
  | string => exact refine_string h

end Visigoth
