import Verif.Proofs.States
import Verif.Props.RestState
/-!
# Which states there are (C94)
-/
namespace Visigoth

variable {cfg : Cfg}

/-! ## C94 -/

/-- The states one caller can bring about: all those with finitely many names and no empty index.  Nothing else is kept:
an alias may list names that do not exist, or one name twice, or nothing. -/
theorem C94_states (a : SpecState) : (∃ s, Reachable cfg s ∧ Abs cfg s a) ↔ a.finite ∧ a.filled := by
  constructor
  · rintro ⟨s, ⟨cs, rets, hrun⟩, ha⟩
    obtain ⟨b, h1, hb⟩ := runCalls_refines (abs_empty cfg) hrun
    refine ⟨abs_finite ha, fun n hn => ?_⟩
    exact runs_keep (P := SpecState.filled) (ok := fun _ => true) (fun a op h _ _ => filled_next h op) h1 (fun _ _ => rfl) filled_empty n
      (((abs_same ha hb).2.1 n).1 hn)
  · rintro ⟨hf, hfill⟩
    obtain ⟨ns, _, hns⟩ := exact_names hf.1
    obtain ⟨ks, kn, hks⟩ := exact_names hf.2
    obtain ⟨ops, rets, hruns⟩ := leads_any (cfg := cfg) a ns ks hns hks kn fun n rs h e => hfill n (e ▸ h)
    obtain ⟨rets', s, h1, h2⟩ := runs_realised (abs_empty cfg) hruns ⟨id, fun _ => id, id, id⟩ 0
    exact ⟨s, ⟨_, _, h1⟩, h2⟩

/-- Without `Rename`: aliases list existing indices, none twice; and if an alias is empty, or the alias mutex is kept,
there is an index. -/
theorem C94_states_without_rename (a : SpecState) : (∃ s, ReachableBy cfg (fun op => !op.isRename) s ∧ Abs cfg s a) ↔
    a.finite ∧ a.filled ∧ a.sound ∧ ((a.leakedWriter = true ∨ ∃ k, a.aliases k = some []) → a.named) := by
  constructor
  · rintro ⟨s, hs, ha⟩
    obtain ⟨ops, rets, b, hok, hruns, hb⟩ := reachableBy_runs hs
    obtain ⟨e1, e2, e3, e4, e5⟩ := abs_same ha hb
    have hfill := runs_keep (P := SpecState.filled) (fun a op h _ _ => filled_next h op) hruns hok filled_empty
    have hp := runs_keep (P := Orderly) (fun a op h ho hh => orderly_next h op (by simpa using ho) hh) hruns hok orderly_empty
    refine ⟨abs_finite ha, fun n hn => hfill n ((e2 n).1 hn), fun k l hk => ?_, fun hn => ?_⟩
    · obtain ⟨g1, g2⟩ := hp.sound k l (e3 ▸ hk)
      exact ⟨g1, fun n hn => fun e => g2 n hn ((e1 n).1 e)⟩
    · obtain ⟨n, h1, h2⟩ := hp.named (e3 ▸ e5 ▸ hn)
      exact ⟨n, h1, fun e => h2 ((e1 n).1 e)⟩
  · rintro ⟨hf, hfill, hs, hn⟩
    exact reachableBy_of (leads_orderly (fun _ _ => rfl) (fun _ _ => rfl) a hf hfill hs hn (fun _ _ _ => rfl))

/-- Without `Rename` and `UnAlias`: besides, no alias is empty and no lock is kept. -/
theorem C94_states_without_unAlias (a : SpecState) :
    (∃ s, ReachableBy cfg (fun op => !op.isRename && !op.isUnAlias) s ∧ Abs cfg s a) ↔
    a.finite ∧ a.filled ∧ a.sound ∧ (∀ k, a.aliases k ≠ some []) ∧ a.leakedReaders = 0 ∧ a.leakedWriter = false := by
  constructor
  · rintro ⟨s, hs, ha⟩
    obtain ⟨ops, rets, b, hok, hruns, hb⟩ := reachableBy_runs hs
    obtain ⟨e1, e2, e3, e4, e5⟩ := abs_same ha hb
    have hfill := runs_keep (P := SpecState.filled) (fun a op h _ _ => filled_next h op) hruns hok filled_empty
    have hp := runs_keep (P := Tight) (fun a op h ho hh => by
      simp only [Bool.and_eq_true, Bool.not_eq_true'] at ho
      exact tight_next h op ho.1 ho.2 hh) hruns hok tight_empty
    refine ⟨abs_finite ha, fun n hn => hfill n ((e2 n).1 hn), fun k l hk => ?_, e3 ▸ hp.full, e4 ▸ hp.readers, e5 ▸ hp.writer⟩
    obtain ⟨g1, g2⟩ := hp.orderly.sound k l (e3 ▸ hk)
    exact ⟨g1, fun n hn => fun e => g2 n hn ((e1 n).1 e)⟩
  · rintro ⟨hf, hfill, hs, hfull, hr, hw⟩
    refine reachableBy_of (leads_orderly (fun _ _ => rfl) (fun _ _ => rfl) a hf hfill hs ?_ ?_)
    · rintro (h | ⟨k, h⟩)
      · rw [hw] at h; cases h
      · exact absurd h (hfull k)
    · rintro (h | h | ⟨k, h⟩)
      · omega
      · rw [hw] at h; cases h
      · exact absurd h (hfull k)

/-- Any table whatever of finitely many aliases can be what `ListAliases` returns. -/
theorem C94_any_aliases (rows : List (Name × List Name)) (hn : (rows.map (·.1)).Nodup) :
    ∃ s, Reachable cfg s ∧ ∃ o t s' r, run cfg o t (Op.prog cfg .listAliases) s = .ok r s' ∧ r.view s' = .rows rows := by
  have look : ∀ k v, (k, v) ∈ rows ↔ GoMap.get rows k = some v := rows_get hn
  obtain ⟨s, hs, ha⟩ := (C94_states (cfg := cfg) ⟨fun _ => none, GoMap.get rows, 0, false⟩).2
    ⟨⟨⟨[], fun n h => absurd rfl h⟩, rows.map (·.1), fun k hk => by
      obtain ⟨v, hv⟩ := Option.ne_none_iff_exists'.1 hk
      exact List.mem_map.2 ⟨(k, v), (look k v).2 hv, rfl⟩⟩, fun n h => by cases h⟩
  obtain ⟨o, r, s', h1, h2⟩ := (C66_returns_exact ha .listAliases (by simp) 0 (.rows rows)).2
    ⟨by simp [SpecState.hangs], fun _ h => h, rows, rfl, hn, look⟩
  exact ⟨s, hs, o, 0, s', r, h1, h2⟩

/-- The states concurrent calls can leave behind when all have returned are no others. -/
theorem C94_states_concurrent {c : Config} (hr : ConcReachable cfg c) (hd : c.done) :
    ∃ a, Abs cfg c.sh a ∧ a.finite ∧ a.filled := by
  obtain ⟨a, ha, hne, _⟩ := abs_done hr hd
  exact ⟨a, ha, abs_finite ha, fun n h => (hne n [] h).1 rfl⟩

/-- An `UnAlias` has found its index before the `Drop` of it. -/
def lateUnAlias : List Sched :=
  [callNow (.put (str "x") docD)] ++ goes 0 13 ++ [callNow (.unAlias (str "a") (str "x"))] ++ goes 1 3 ++
    [callNow (.drop (str "x"))] ++ goes 2 11 ++ goes 1 3

/-- In C93 the one caller may need `Rename`, although no concurrent call was one: here the alias mutex is kept and there
is no index. -/
theorem C93_may_need_rename : ∃ c, ConcReachable sampleCfg c ∧ c.done ∧ (∀ x ∈ c.calls, x.op.isRename = false) ∧
    ¬ ∃ s, ReachableBy sampleCfg (fun op => !op.isRename) s ∧ Indistinct sampleCfg c.sh s := by
  obtain ⟨c, hc, hf⟩ := play_fact (cfg := sampleCfg) (c0 := Config.init) (xs := lateUnAlias)
    (f := fun c => (c.calls.all (fun x => match x.prog with | .ret _ => true | _ => false), c.calls.any (fun x => x.op.isRename),
      c.sh.amu.writer.isSome, c.sh.indices.keys)) (v := (true, false, true, [])) (by decide +kernel)
  simp only [Prod.mk.injEq] at hf
  obtain ⟨h1, h2, h3, h4⟩ := hf
  have hd : c.done := by
    intro x hx
    have := List.all_eq_true.1 h1 x hx
    split at this
    · next r h => exact ⟨r, h⟩
    · cases this
  have hr : ConcReachable sampleCfg c := play_steps hc
  refine ⟨c, hr, hd, fun x hx => ?_, ?_⟩
  · have := List.any_eq_false.1 h2 x hx
    simpa using this
  · rintro ⟨s, hs, R, hR, hb⟩
    obtain ⟨f1, f2, f3⟩ := hb _ _ hR
    obtain ⟨a, ha, _⟩ := abs_done hr hd
    obtain ⟨_, _, b, _, _, hb'⟩ := reachableBy_runs hs
    have hw : a.leakedWriter = true := by rw [← ha.amuW]; exact h3
    have hbw : b.leakedWriter = true :=
      (C66_hang_exact hb' (.hasAlias []) sampleOracle 0).1 (((f3 (.hasAlias []) sampleOracle 0).1).1 ((C66_hang_exact ha (.hasAlias []) sampleOracle 0).2 hw))
    obtain ⟨n, _, hn⟩ := ((C94_states_without_rename b).1 ⟨s, hs, hb'⟩).2.2.2 (.inl hbw)
    have hno : ∀ n, a.docs n = none := by
      intro n
      apply ha.idx.absent
      rw [GoMap.get_eq_none_iff, h4]
      simp
    obtain ⟨o, r, s1, hrun, hv⟩ := (C66_returns_exact ha .list (by simp) 0 (.names [])).2
      ⟨fun h => h, fun _ h => h, [], rfl, .nil, by simp [hno]⟩
    obtain ⟨o', r', s1', hrun', hv', _⟩ := f1 .list (by simp) o 0 r s1 hrun
    obtain ⟨_, _, h3, _⟩ := step_ok hb' hrun'
    obtain ⟨l, h5, _, h6⟩ := h3
    rw [hv', hv] at h5
    cases h5
    have := (h6 n).2 (Option.isSome_iff_ne_none.2 hn)
    cases this

/-- As in `C94_states`: an alias that lists a name twice, one that lists a name of nothing and an empty one, in a
repository with one index. -/
example : SpecState.finite ⟨upd (fun _ => none) (str "x") (some [docD]), GoMap.get [(str "a", [str "x", str "x"]), (str "b", [str "y"]), (str "c", [])], 2, true⟩ ∧
    SpecState.filled ⟨upd (fun _ => none) (str "x") (some [docD]), GoMap.get [(str "a", [str "x", str "x"]), (str "b", [str "y"]), (str "c", [])], 2, true⟩ := by
  refine ⟨⟨⟨[str "x"], fun n hn => ?_⟩, ⟨[str "a", str "b", str "c"], fun k hk => ?_⟩⟩, fun n hn => ?_⟩
  · simp only [upd] at hn
    split at hn
    · simp [*]
    · exact absurd rfl hn
  · obtain ⟨v, hv⟩ := Option.ne_none_iff_exists'.1 hk
    exact (GoMap.mem_keys_iff [(str "a", [str "x", str "x"]), (str "b", [str "y"]), (str "c", [])] k).2 ⟨v, hv⟩
  · simp only [upd] at hn
    split at hn <;> cases hn

/-- Calls that leave such an alias behind, and what `ListAliases` then returns. -/
example : answered (runCalls sampleCfg ([.put (str "x") docD, .alias (str "a") (str "x"), .put (str "y") docE, .alias (str "a") (str "y"),
      .rename (str "x") (str "y"), .rename (str "y") (str "y"), .listAliases].map (⟨sampleOracle, 0, ·⟩)) newIndexRepo) =
    some [.unit, .bool true, .unit, .bool true, .bool true, .bool true, .rows [(str "a", [str "y", str "y"])]] := by decide +kernel

/-- As in `C94_states_without_rename`: an empty alias, the alias mutex kept; and as in `C94_states_without_unAlias`. -/
example : SpecState.sound ⟨upd (fun _ => none) (str "x") (some [docD]), GoMap.get [(str "a", [str "x"]), (str "c", [])], 0, true⟩ ∧
    SpecState.named ⟨upd (fun _ => none) (str "x") (some [docD]), GoMap.get [(str "a", [str "x"]), (str "c", [])], 0, true⟩ ∧
    SpecState.sound ⟨upd (fun _ => none) (str "x") (some [docD]), GoMap.get [(str "a", [str "x"])], 0, false⟩ := by
  have hx : ∀ al rd w, (⟨upd (fun _ => none) (str "x") (some [docD]), al, rd, w⟩ : SpecState).docs (str "x") ≠ none := by
    intro al rd w; simp [upd]
  refine ⟨fun k l h => ?_, ⟨str "x", by decide +kernel, hx _ _ _⟩, fun k l h => ?_⟩
  · simp only [GoMap.get] at h
    split at h
    · cases h; exact ⟨by simp, fun n hn => by simp at hn; exact hn ▸ hx _ _ _⟩
    · split at h
      · cases h; exact ⟨by simp, fun n hn => by cases hn⟩
      · cases h
  · simp only [GoMap.get] at h
    split at h
    · cases h; exact ⟨by simp, fun n hn => by simp at hn; exact hn ▸ hx _ _ _⟩
    · cases h

end Visigoth
