import Verif.Proofs.Abs
import Verif.Proofs.Render
/-!
# Every repository method refines its specification
-/
namespace Visigoth

variable {cfg : Cfg} {o : Oracle} {t : Tid}

/-- Slices handed out earlier keep their contents, and reads change nothing at all. -/
def Frame (op : Op) (s s' : Shared) : Prop :=
  (op.isRename = false → Keeps s.arrays s.aliases s'.arrays s'.aliases) ∧ (op.isRead = true → s' = s)

/-- What it means for the outcome of a call to agree with the specification. -/
def Refines (cfg : Cfg) (s : Shared) (a : SpecState) (op : Op) : Outcome Ret → Prop
  | .ok r s' => ¬ a.hangs op ∧ (∀ c, ¬ a.crashes cfg op c) ∧ a.allows cfg op (r.view s') ∧
      Abs cfg s' (a.next op) ∧ Frame op s s'
  | .hang _ => a.hangs op
  | .crash c => ¬ a.hangs op ∧ a.crashes cfg op c

/-! ## Locks -/

theorem run_rlock (m : Mu) (s : Shared) (h : (s.mu m).writer = none) :
    run cfg o t (perform (.rlock m)) s
      = .ok () (s.setMu m { s.mu m with readers := t :: (s.mu m).readers }) := by
  rw [run_perform, exec, if_pos h]; rfl

theorem run_rlock_blocked (m : Mu) (s : Shared) (h : (s.mu m).writer ≠ none) :
    run cfg o t (perform (.rlock m)) s = .hang s := by
  rw [run_perform, exec, if_neg h]; rfl

theorem run_runlock (m : Mu) (s : Shared) (l : List Tid) (h : (s.mu m).readers = t :: l) :
    run cfg o t (perform (.runlock m)) s = .ok () (s.setMu m { s.mu m with readers := l }) := by
  rw [run_perform, exec, if_pos (by rw [h]; simp)]
  simp [Exec.outcome, h]

theorem run_lock (m : Mu) (s : Shared) (h : (s.mu m).writer = none) (hr : (s.mu m).readers = []) :
    run cfg o t (Repo.lock m) s = .ok () (s.setMu m { readers := [], writer := some t }) := by
  unfold Repo.lock
  rw [run_bind, run_perform, exec, if_pos h]
  simp only [Exec.outcome, andThen_ok]
  rw [run_perform]
  cases m <;> simp_all [exec, Shared.mu, Shared.setMu, Exec.outcome]

theorem run_lock_blocked (m : Mu) (s : Shared) (h : (s.mu m).writer ≠ none ∨ (s.mu m).readers ≠ []) :
    ∃ s', run cfg o t (Repo.lock m) s = .hang s' := by
  unfold Repo.lock
  rw [run_bind, run_perform, exec]
  by_cases hw : (s.mu m).writer = none
  · have hr := h.resolve_left (fun g => g hw)
    rw [if_pos hw]
    simp only [Exec.outcome, andThen_ok]
    rw [run_perform]
    cases m <;> simp_all [exec, Shared.mu, Shared.setMu, Exec.outcome]
  · rw [if_neg hw]; exact ⟨s, rfl⟩

theorem run_unlock (m : Mu) (s : Shared) (h : (s.mu m).writer = some t) :
    run cfg o t (perform (.unlock m)) s = .ok () (s.setMu m { s.mu m with writer := none }) := by
  rw [run_perform, exec, if_pos h]; rfl

theorem Abs.amuW_false {s a} (h : Abs cfg s a) : a.leakedWriter = false ↔ s.amu.writer = none := by
  rw [← h.amuW]; cases s.amu.writer <;> simp

theorem Abs.amuW_true {s a} (h : Abs cfg s a) : a.leakedWriter = true ↔ s.amu.writer ≠ none := by
  rw [← h.amuW]; cases s.amu.writer <;> simp

theorem Abs.imuR_nil {s a} (h : Abs cfg s a) : s.imu.readers = [] ↔ ¬ 0 < a.leakedReaders := by
  rw [← h.imuR, List.length_pos_iff]; simp

/-! ## Read-only methods -/

theorem refine_list {s a} (h : Abs cfg s a) :
    Refines cfg s a .list (run cfg o t (Op.prog cfg .list) s) := by
  obtain ⟨idx, al, view, imuR, imuW, amuR, amuW⟩ := h
  simp only [Op.prog, Repo.list, run_bind, run_rlock .indices s imuW, andThen_ok]
  rw [run_perform]
  simp only [exec, Exec.outcome, andThen_ok, Shared.setMu, Shared.mu]
  rw [run_runlock .indices _ s.imu.readers rfl]
  simp only [andThen_ok, run_pure, Shared.setMu, Shared.mu]
  have hp := choosePerm_perm o.keyOrder s.indices.keys
  refine ⟨id, fun _ => id, ⟨_, rfl, hp.nodup_iff.2 idx.nodup, fun n => ?_⟩, ?_, ⟨fun _ => Keeps.refl _ _, fun _ => rfl⟩⟩
  · rw [hp.mem_iff, GoMap.mem_keys_iff, ← idx.isSome, Option.isSome_iff_exists]
  · exact ⟨idx, al, view, imuR, imuW, amuR, amuW⟩

theorem refine_string {s a} (h : Abs cfg s a) :
    Refines cfg s a .string (run cfg o t (Op.prog cfg .string) s) := by
  obtain ⟨idx, al, view, imuR, imuW, amuR, amuW⟩ := h
  simp only [Op.prog, Repo.string, run_bind, run_rlock .indices s imuW, andThen_ok]
  rw [run_perform]
  simp only [exec, Exec.outcome, andThen_ok, Shared.setMu, Shared.mu]
  have hp := choosePerm_perm o.keyOrder s.indices.keys
  have hf : ∀ k ∈ choosePerm o.keyOrder s.indices.keys, ∃ rs nm, s.indices.get k = some (s.ptrAt k) ∧
      s.heap[s.ptrAt k]? = some (s.objAt k) ∧ a.docs k = some rs ∧ s.objAt k = buildIndex cfg.tok nm rs := by
    intro k hk
    obtain ⟨p, hg⟩ := (GoMap.mem_keys_iff _ _).1 (hp.mem_iff.1 hk)
    obtain ⟨nm, rs, h1, h2⟩ := idx.rep k p hg
    have hpt := s.ptrAt_eq hg
    have hob := s.objAt_eq hg h2
    exact ⟨rs, nm, hpt ▸ hg, by rw [hob, hpt]; exact h2, h1, hob⟩
  rw [run_renderAll _ s.ptrAt s.objAt _ (fun k hk => by
    obtain ⟨rs, nm, h1, h2, -⟩ := hf k hk
    exact ⟨h1, h2⟩)]
  simp only [andThen_ok]
  rw [run_runlock .indices _ s.imu.readers rfl]
  simp only [andThen_ok, run_pure, Shared.setMu, Shared.mu]
  refine ⟨id, fun _ => id, ⟨_, hp.nodup_iff.2 idx.nodup, fun n => ?_, _, rfl, by simp, ?_⟩,
    ⟨idx, al, view, imuR, imuW, amuR, amuW⟩, ⟨fun _ => Keeps.refl _ _, fun _ => rfl⟩⟩
  · rw [hp.mem_iff, GoMap.mem_keys_iff, ← idx.isSome, Option.isSome_iff_exists]
  · intro i n part hn hpart
    rw [List.getElem?_map, hn] at hpart
    cases hpart
    obtain ⟨rs, nm, h1, h2, h3, h4⟩ := hf n (List.mem_of_getElem? hn)
    refine ⟨rs, nm, h3, _, ?_, by rw [show str "\n" = lit "\n" by decide +kernel]⟩
    rw [h4]
    exact string_renders _ _ _ _ (choosePerm_perm _)

theorem refine_has {s a} (h : Abs cfg s a) (n : Name) :
    Refines cfg s a (.has n) (run cfg o t (Op.prog cfg (.has n)) s) := by
  obtain ⟨idx, al, view, imuR, imuW, amuR, amuW⟩ := h
  simp only [Op.prog, Repo.has, run_bind, run_rlock .indices s imuW, andThen_ok]
  rw [run_perform]
  simp only [exec, Exec.outcome, andThen_ok, Shared.setMu, Shared.mu]
  rw [run_runlock .indices _ s.imu.readers rfl]
  simp only [andThen_ok, run_pure, Shared.setMu, Shared.mu]
  refine ⟨id, fun _ => id, ?_, ⟨idx, al, view, imuR, imuW, amuR, amuW⟩, ⟨fun _ => Keeps.refl _ _, fun _ => rfl⟩⟩
  show SRet.bool _ = _
  rw [idx.isSome]

theorem refine_hasAlias {s a} (h : Abs cfg s a) (n : Name) :
    Refines cfg s a (.hasAlias n) (run cfg o t (Op.prog cfg (.hasAlias n)) s) := by
  have hW := h.amuW_true
  have hW' := h.amuW_false
  obtain ⟨idx, al, view, imuR, imuW, amuR, amuW⟩ := h
  by_cases hw : s.amu.writer = none
  · simp only [Op.prog, Repo.hasAlias, run_bind, run_rlock .aliases s hw, andThen_ok]
    rw [run_perform]
    simp only [exec, Exec.outcome, andThen_ok, Shared.setMu, Shared.mu]
    rw [run_runlock .aliases _ s.amu.readers rfl]
    simp only [andThen_ok, run_pure, Shared.setMu, Shared.mu]
    refine ⟨fun hh => hW.1 hh hw, fun _ => id, ?_, ⟨idx, al, view, imuR, imuW, amuR, amuW⟩, ⟨fun _ => Keeps.refl _ _, fun _ => rfl⟩⟩
    show SRet.bool _ = _
    rw [view]; simp [alView]
  · simp only [Op.prog, Repo.hasAlias, run_bind, run_rlock_blocked .aliases s hw, andThen_hang]
    exact hW.2 hw

theorem refine_listAliases {s a} (h : Abs cfg s a) :
    Refines cfg s a .listAliases (run cfg o t (Op.prog cfg .listAliases) s) := by
  have hW := h.amuW_true
  obtain ⟨idx, al, view, imuR, imuW, amuR, amuW⟩ := h
  by_cases hw : s.amu.writer = none
  · simp only [Op.prog, Repo.listAliases, run_bind, run_rlock .aliases s hw, andThen_ok]
    rw [run_perform]
    simp only [exec, Exec.outcome, andThen_ok, Shared.setMu, Shared.mu]
    have hp := choosePerm_perm o.keyOrder s.aliases.keys
    obtain ⟨rows, h1, h2, h3⟩ := run_listRows (cfg := cfg) (o := o) (t := t)
      (choosePerm o.keyOrder s.aliases.keys)
      { s with amu := { readers := t :: s.amu.readers, writer := s.amu.writer } }
      (fun k hk => by
        obtain ⟨v, hv⟩ := (GoMap.mem_keys_iff _ _).1 (hp.mem_iff.1 hk)
        simp [hv])
    rw [h1]
    simp only [andThen_ok]
    rw [run_runlock .aliases _ s.amu.readers rfl]
    simp only [andThen_ok, run_pure, Shared.setMu, Shared.mu]
    refine ⟨fun hh => hW.1 hh hw, fun _ => id, ⟨_, rfl, ?_, fun k v => ?_⟩,
      ⟨idx, al, view, imuR, imuW, amuR, amuW⟩, ⟨fun _ => Keeps.refl _ _, fun _ => rfl⟩⟩
    · rw [List.map_map]
      show (rows.map (·.1)).Nodup
      rw [h2]
      exact hp.nodup_iff.2 al.nodup
    · rw [view]
      unfold alView
      constructor
      · intro hm
        obtain ⟨e, he, hh⟩ := List.mem_map.1 hm
        injection hh with hh1 hh2
        subst hh1 hh2
        have := h3 e he
        simp only at this
        rw [this]; rfl
      · intro hm
        obtain ⟨r, hr, hv⟩ := Option.map_eq_some_iff.1 hm
        have hk : k ∈ rows.map (·.1) := by
          rw [h2, hp.mem_iff, GoMap.mem_keys_iff]; exact ⟨r, hr⟩
        obtain ⟨e, he, hek⟩ := List.mem_map.1 hk
        have := h3 e he
        simp only [hek] at this
        rw [hr] at this
        injection this with this
        exact List.mem_map.2 ⟨e, he, by rw [hek, ← this, ← hv]; rfl⟩
  · simp only [Op.prog, Repo.listAliases, run_bind, run_rlock_blocked .aliases s hw, andThen_hang]
    exact hW.2 hw

/-! ## `Alias` and `UnAlias` -/

theorem refine_alias {s a} (h : Abs cfg s a) (al i : Name) :
    Refines cfg s a (.alias al i) (run cfg o t (Op.prog cfg (.alias al i)) s) := by
  have hW := h.amuW_true
  have habs := h
  obtain ⟨idx, hal, view, imuR, imuW, amuR, amuW⟩ := h
  have hi := idx.isSome i
  simp only [Op.prog, Repo.alias, run_bind, run_rlock .indices s imuW, andThen_ok]
  rw [run_perform]
  simp only [exec, Exec.outcome, andThen_ok, Shared.setMu, Shared.mu]
  cases hg : s.indices.get i with
  | none =>
    rw [hg] at hi
    simp only [run_bind]
    rw [run_runlock .indices _ s.imu.readers rfl]
    simp only [andThen_ok, run_pure, Shared.setMu, Shared.mu]
    have hd : (a.docs i).isSome = false := by rw [← hi]; rfl
    refine ⟨fun hh => ?_, fun _ => id, ?_, ?_, ⟨fun _ => Keeps.refl _ _, by simp [Op.isRead]⟩⟩
    · have := hh.1; rw [hd] at this; simp at this
    · show SRet.bool _ = _; rw [hd]; rfl
    · simp only [SpecState.next, hd, Bool.false_eq_true, if_false]
      exact ⟨idx, hal, view, imuR, imuW, amuR, amuW⟩
  | some p =>
    rw [hg] at hi
    have hd : (a.docs i).isSome = true := by rw [← hi]; rfl
    by_cases hw : s.amu.writer = none
    · have hnh : ¬ a.hangs (.alias al i) := fun hh => hW.1 hh.2 hw
      simp only [run_bind]
      rw [run_lock .aliases]
      case h => exact hw
      case hr => exact amuR
      simp only [andThen_ok, Shared.setMu]
      rw [run_perform]
      simp only [exec, Exec.outcome, andThen_ok]
      cases hga : s.aliases.get al with
      | none =>
        simp only [run_bind]
        rw [run_perform]
        simp only [exec, Exec.outcome, andThen_ok]
        rw [run_perform]
        simp only [exec, Exec.outcome, andThen_ok, run_pure]
        rw [run_unlock .aliases _ rfl]
        simp only [andThen_ok]
        rw [run_runlock .indices _ s.imu.readers rfl]
        simp only [andThen_ok, Shared.setMu, Shared.mu]
        have hv : a.aliases al = none := by rw [view]; simp [alView, hga]
        have hnew := alOk_new hal al ([i] ++ List.replicate (o.capacity 1 - 1) []) 1 (by simp)
        refine ⟨hnh, fun _ => id, ?_, ?_, ⟨fun _ => hnew.2.2, by simp [Op.isRead]⟩⟩
        · show SRet.bool _ = _; rw [hd, hv]; rfl
        · simp only [SpecState.next, hd, if_true, hv]
          refine ⟨idx, hnew.1, fun m => ?_, imuR, imuW, rfl, ?_⟩
          · rw [show ([i] : List Name).length = 1 from rfl] 
            rw [hnew.2.1 m]
            simp only [upd, view]; simp
          · rw [← amuW, hw]
      | some r =>
        have hvr := hal.valid al r hga
        have hlen : (elemsIn s.arrays r).length = r.len := elems_length (s := s) hvr
        have hv : a.aliases al = some (elemsIn s.arrays r) := by rw [view]; simp [alView, hga]
        simp only [run_bind]
        rw [run_sliceHas r i _ r.len 0 (by show 0 + r.len ≤ (elemsIn s.arrays r).length; omega)]
        simp only [andThen_ok, List.drop_zero]
        have htake : (Shared.elems ({ s with imu := { readers := t :: s.imu.readers, writer := s.imu.writer }, amu := { readers := [], writer := some t } } : Shared) r).take r.len = elemsIn s.arrays r := by
          show (elemsIn s.arrays r).take r.len = _
          rw [← hlen, List.take_length]
        rw [htake]
        by_cases hm : i ∈ elemsIn s.arrays r
        · simp only [hm, decide_true, if_true, run_bind, run_pure, andThen_ok]
          rw [run_unlock .aliases _ rfl]
          simp only [andThen_ok]
          rw [run_runlock .indices _ s.imu.readers rfl]
          simp only [andThen_ok, Shared.setMu, Shared.mu]
          refine ⟨hnh, fun _ => id, ?_, ?_, ⟨fun _ => Keeps.refl _ _, by simp [Op.isRead]⟩⟩
          · show SRet.bool _ = _; rw [hd, hv]; simp [hm]
          · simp only [SpecState.next, hd, if_true, hv, hm]
            refine ⟨idx, hal, view, imuR, imuW, rfl, ?_⟩
            rw [← amuW, hw]
        · simp only [hm, decide_false, Bool.false_eq_true, if_false, run_bind]
          have hret : ∀ s' : Shared, SRet.bool true = SRet.bool ((a.docs i).isSome && decide (i ∉ (a.aliases al).getD [])) := by
            intro _; rw [hd, hv]; simp [hm]
          obtain ⟨arr, ha, hle⟩ := hvr
          rw [run_perform]
          simp only [exec, ha]
          by_cases hcap : r.len < arr.length
          · simp only [if_pos hcap, Exec.outcome, andThen_ok]
            rw [run_perform]
            simp only [exec, Exec.outcome, andThen_ok, run_pure]
            rw [run_unlock .aliases _ rfl]
            simp only [andThen_ok]
            rw [run_runlock .indices _ s.imu.readers rfl]
            simp only [andThen_ok, Shared.setMu, Shared.mu]
            have hnew := alOk_inPlace hal al r arr i hga ha hcap
            refine ⟨hnh, fun _ => id, hret s, ?_, ⟨fun _ => hnew.2.2, by simp [Op.isRead]⟩⟩
            simp only [SpecState.next, hd, if_true, hv, hm, if_false]
            refine ⟨idx, hnew.1, fun m => ?_, imuR, imuW, rfl, ?_⟩
            · rw [hnew.2.1 m]; simp only [upd, view]
            · rw [← amuW, hw]
          · simp only [if_neg hcap, Exec.outcome, andThen_ok]
            rw [run_perform]
            simp only [exec, Exec.outcome, andThen_ok, run_pure]
            rw [run_unlock .aliases _ rfl]
            simp only [andThen_ok]
            rw [run_runlock .indices _ s.imu.readers rfl]
            simp only [andThen_ok, Shared.setMu, Shared.mu]
            have hnew := alOk_new hal al (arr.take r.len ++ i :: List.replicate (o.capacity (r.len + 1) - (r.len + 1)) [])
              (r.len + 1) (by simp; omega)
            refine ⟨hnh, fun _ => id, hret s, ?_, ⟨fun _ => hnew.2.2, by simp [Op.isRead]⟩⟩
            simp only [SpecState.next, hd, if_true, hv, hm, if_false]
            refine ⟨idx, hnew.1, fun m => ?_, imuR, imuW, rfl, ?_⟩
            · rw [hnew.2.1 m]
              have : (arr.take r.len ++ i :: List.replicate (o.capacity (r.len + 1) - (r.len + 1)) []).take (r.len + 1)
                  = elemsIn s.arrays r ++ [i] := by
                have hl : (arr.take r.len).length = r.len := by simp; omega
                rw [List.take_append, hl, List.take_of_length_le (by omega)]
                simp [elemsIn, ha]
              rw [this]
              simp only [upd, view]
            · rw [← amuW, hw]
    · obtain ⟨s', hs'⟩ := run_lock_blocked (cfg := cfg) (o := o) (t := t) .aliases
        { s with imu := { readers := t :: s.imu.readers, writer := s.imu.writer } } (Or.inl hw)
      simp only [run_bind]
      rw [hs']
      exact ⟨hd, hW.2 hw⟩

theorem filter_ne_length {l : List Name} {i : Name}
    (h : ¬ (l.filter (fun x => x ≠ i)).length ≠ l.length) : l.filter (fun x => x ≠ i) = l :=
  List.filter_sublist.eq_of_length (Classical.not_not.1 h)

theorem refine_unAlias {s a} (h : Abs cfg s a) (al i : Name) :
    Refines cfg s a (.unAlias al i) (run cfg o t (Op.prog cfg (.unAlias al i)) s) := by
  have hW := h.amuW_true
  obtain ⟨idx, hal, view, imuR, imuW, amuR, amuW⟩ := h
  have hi := idx.isSome i
  simp only [Op.prog, Repo.unAlias, run_bind]
  by_cases hi0 : i = []
  · subst hi0
    simp only [List.length_nil, if_true, run_bind]
    by_cases hw : s.amu.writer = none
    · rw [run_lock .aliases]
      case h => exact hw
      case hr => exact amuR
      simp only [andThen_ok, Shared.setMu]
      rw [run_perform]
      simp only [exec, Exec.outcome, andThen_ok]
      rw [run_perform]
      simp only [exec, Exec.outcome, andThen_ok]
      rw [run_unlock .aliases _ rfl]
      simp only [andThen_ok, run_pure, Shared.setMu, Shared.mu]
      have hdel := alOk_delete hal al
      refine ⟨fun hh => hW.1 hh.2 hw, fun _ => id, ?_, ?_, ⟨fun _ => hdel.2.2, by simp [Op.isRead]⟩⟩
      · show SRet.bool _ = _
        simp [view, alView]
      · simp only [SpecState.next, if_true]
        refine ⟨idx, hdel.1, fun m => ?_, imuR, imuW, rfl, ?_⟩
        · rw [hdel.2.1 m]; simp only [upd, view]
        · rw [← amuW, hw]
    · obtain ⟨s', hs'⟩ := run_lock_blocked (cfg := cfg) (o := o) (t := t) .aliases s (Or.inl hw)
      rw [hs']
      exact ⟨Or.inl rfl, hW.2 hw⟩
  · have hil : ¬ i.length = 0 := by simpa using hi0
    simp only [if_neg hil, run_bind, run_rlock .indices s imuW, andThen_ok]
    rw [run_perform]
    simp only [exec, Exec.outcome, andThen_ok, Shared.setMu, Shared.mu]
    cases hg : s.indices.get i with
    | none =>
      rw [hg] at hi
      have hd : (a.docs i).isSome = false := by rw [← hi]; rfl
      simp only [andThen_ok, run_pure]
      refine ⟨fun hh => ?_, fun _ => id, ?_, ?_, ⟨fun _ => Keeps.refl _ _, by simp [Op.isRead]⟩⟩
      · rcases hh.1 with h0 | h0
        · exact hi0 h0
        · rw [hd] at h0; simp at h0
      · show SRet.bool _ = _; simp [hi0, hd]
      · simp only [SpecState.next, hi0, if_false, hd, Bool.false_eq_true]
        exact ⟨idx, hal, view, by simp [imuR], imuW, amuR, amuW⟩
    | some p =>
      rw [hg] at hi
      have hd : (a.docs i).isSome = true := by rw [← hi]; rfl
      simp only [run_bind]
      rw [run_runlock .indices _ s.imu.readers rfl]
      simp only [andThen_ok, Shared.setMu, Shared.mu]
      by_cases hw : s.amu.writer = none
      · rw [run_lock .aliases]
        case h => exact hw
        case hr => exact amuR
        have hnh : ¬ a.hangs (.unAlias al i) := fun hh => hW.1 hh.2 hw
        simp only [andThen_ok, Shared.setMu]
        rw [run_perform]
        simp only [exec, Exec.outcome, andThen_ok]
        cases hga : s.aliases.get al with
        | none =>
          simp only [run_pure, andThen_ok]
          have hv : a.aliases al = none := by rw [view]; simp [alView, hga]
          refine ⟨hnh, fun _ => id, ?_, ?_, ⟨fun _ => Keeps.refl _ _, by simp [Op.isRead]⟩⟩
          · show SRet.bool _ = _; simp [hi0, hv]
          · simp only [SpecState.next, hi0, if_false, hd, if_true, hv]
            exact ⟨idx, hal, view, imuR, imuW, rfl, rfl⟩
        | some r =>
          have hvr := hal.valid al r hga
          have hlen : (elemsIn s.arrays r).length = r.len := elems_length (s := s) hvr
          have hv : a.aliases al = some (elemsIn s.arrays r) := by rw [view]; simp [alView, hga]
          simp only [run_bind]
          rw [run_readSlice r]
          case h => exact hvr
          simp only [andThen_ok]
          have he : Shared.elems ({ s with imu := { readers := s.imu.readers, writer := s.imu.writer }, amu := { readers := [], writer := some t } } : Shared) r = elemsIn s.arrays r := rfl
          rw [he, ← hlen]
          by_cases hch : ((elemsIn s.arrays r).filter (fun x => x ≠ i)).length ≠ (elemsIn s.arrays r).length
          · simp only [if_pos hch, run_bind]
            rw [run_perform]
            simp only [exec, Exec.outcome, andThen_ok]
            rw [run_perform]
            simp only [exec, Exec.outcome, andThen_ok]
            rw [run_unlock .aliases _ rfl]
            simp only [andThen_ok, run_pure, Shared.setMu, Shared.mu]
            have hnew := alOk_new hal al ((elemsIn s.arrays r).filter (fun x => x ≠ i) ++
              List.replicate (o.capacity ((elemsIn s.arrays r).filter (fun x => x ≠ i)).length -
                ((elemsIn s.arrays r).filter (fun x => x ≠ i)).length) [])
              ((elemsIn s.arrays r).filter (fun x => x ≠ i)).length (by rw [List.length_append]; omega)
            refine ⟨hnh, fun _ => id, ?_, ?_, ⟨fun _ => hnew.2.2, by simp [Op.isRead]⟩⟩
            · show SRet.bool _ = _; simp [hi0, hv, hd]
            · simp only [SpecState.next, hi0, if_false, hd, if_true, hv]
              refine ⟨idx, hnew.1, fun m => ?_, imuR, imuW, rfl, ?_⟩
              · rw [hnew.2.1 m, List.take_left]; simp only [upd, view]
              · rw [← amuW, hw]
          · simp only [if_neg hch, run_bind]
            rw [run_unlock .aliases _ rfl]
            simp only [andThen_ok, run_pure, Shared.setMu, Shared.mu]
            refine ⟨hnh, fun _ => id, ?_, ?_, ⟨fun _ => Keeps.refl _ _, by simp [Op.isRead]⟩⟩
            · show SRet.bool _ = _; simp [hi0, hv, hd]
            · simp only [SpecState.next, hi0, if_false, hd, if_true, hv]
              rw [filter_ne_length hch]
              refine ⟨idx, hal, fun m => ?_, imuR, imuW, rfl, ?_⟩
              · simp only [upd]
                split
                · rename_i hm; subst hm; rw [← view, hv]
                · exact view m
              · rw [← amuW, hw]
      · obtain ⟨s', hs'⟩ := run_lock_blocked (cfg := cfg) (o := o) (t := t) .aliases
          { s with imu := { readers := s.imu.readers, writer := s.imu.writer } } (Or.inl hw)
        rw [hs']
        exact ⟨Or.inr hd, hW.2 hw⟩

end Visigoth
