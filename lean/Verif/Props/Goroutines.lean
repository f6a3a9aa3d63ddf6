import Verif.Proofs.Goroutines
import Verif.Props.Repo
/-!
# C41, C43: the goroutines of `Put` and `Search`, interleaved in any way
-/
namespace Visigoth

variable {cfg : Cfg} {o : Oracle} {t : Tid}

/-! ## C43 -/

/-- Whatever the interleaving of the writer goroutines, and whatever the rest of the process does
meanwhile to anything but these indices: when all goroutines have ended, every index has received
exactly this one put. -/
theorem C43_goroutines_each_once {doc : DocRequest} {s : Shared} {ps : List Ptr} (hnd : ps.Nodup)
    (hp : ∀ p ∈ ps, p < s.heap.length) {env : Shared → Shared → Prop}
    (henv : ∀ s s', env s s' → Spares ps s s') {c : Pool}
    (hs : PoolSteps cfg o t env (putPool cfg doc s ps) c) (hd : c.done) :
    ∀ p ∈ ps, c.sh.heap[p]? = (s.heap[p]?).map fun mi => mi.put cfg.tok doc := by
  intro p hpm
  obtain ⟨ns, h⟩ := pool_steps hnd henv hs (pool_init (cfg := cfg) (doc := doc) hp)
  obtain ⟨i, hi, hpi⟩ := List.mem_iff_getElem.1 hpm
  have hg : c.gs[i]? = some (c.gs[i]'(by rw [h.len]; exact hi)) := List.getElem?_eq_getElem _
  have hn : ns[i]? = some (ns[i]'(by rw [h.nlen]; exact hi)) := List.getElem?_eq_getElem _
  obtain ⟨mi, mi', e1, e2, hga⟩ := h.at_ i p _ _ (by rw [← hpi]; exact List.getElem?_eq_getElem hi) hg hn
  rw [hd _ (List.mem_of_getElem? hg)] at hga
  rcases hga.act (o := o) (t := t) c.sh e2 with ⟨_, _, e⟩ | ⟨_, _, _, _, _, _, e, _⟩
  · rw [e1, e2, e]; rfl
  · cases e

/-- The state then is the one reached by running the goroutines one after the other, in any order. -/
theorem C43_goroutines_state {doc : DocRequest} {s : Shared} {ps : List Ptr} (hnd : ps.Nodup)
    (hp : ∀ p ∈ ps, p < s.heap.length) {c : Pool}
    (hs : PoolSteps cfg o t Quiet (putPool cfg doc s ps) c) (hd : c.done)
    (ps' : List Ptr) (hperm : ps'.Perm ps) (o' : Oracle) (t' : Tid) :
    run cfg o' t' (Repo.putAll cfg doc ps') s = .ok () c.sh := by
  have hone := C43_goroutines_each_once hnd hp (fun _ _ hf => hf.elim) hs hd
  have hrest := pool_sameRest hnd (pool_init (cfg := cfg) (doc := doc) hp) hs
  obtain ⟨H, g1, g2, g3⟩ := run_putAll (cfg := cfg) (o := o') (t := t') doc ps' s (hperm.nodup_iff.2 hnd)
    (fun p h => hp p (hperm.mem_iff.1 h))
  have hH : H = c.sh.heap := by
    apply List.ext_getElem?
    intro q
    rw [g3]
    by_cases hq : q ∈ ps
    · rw [if_pos (hperm.mem_iff.2 hq), hone q hq]
    · rw [if_neg fun h => hq (hperm.mem_iff.1 h)]
      exact (hrest.heap q hq).symm
  rw [g1, hH]
  congr 1
  exact hrest.rest.symm

/-- No goroutine ever panics or blocks: each has ended or can move. -/
theorem C43_goroutines_progress {doc : DocRequest} {s : Shared} {ps : List Ptr} (hnd : ps.Nodup)
    (hp : ∀ p ∈ ps, p < s.heap.length) {env : Shared → Shared → Prop}
    (henv : ∀ s s', env s s' → Spares ps s s') {c : Pool}
    (hs : PoolSteps cfg o t env (putPool cfg doc s ps) c) (i : Nat) (g : Prog Unit) (hg : c.gs[i]? = some g) :
    g = .ret () ∨ ∃ c', PoolStep cfg o t Quiet c c' ∧ ∃ g', g' ≠ .crash .invalid ∧ c'.gs = c.gs.set i g' := by
  obtain ⟨ns, h⟩ := pool_steps hnd henv hs (pool_init (cfg := cfg) (doc := doc) hp)
  have hil : i < ps.length := by rw [← h.len]; exact (List.getElem?_eq_some_iff.1 hg).1
  have hn : ns[i]? = some (ns[i]'(by rw [h.nlen]; exact hil)) := List.getElem?_eq_getElem _
  obtain ⟨mi, mi', e1, e2, hga⟩ := h.at_ i _ _ _ (List.getElem?_eq_getElem hil) hg hn
  rcases hga.act (o := o) (t := t) c.sh e2 with ⟨e, _⟩ | ⟨β, a, k, b, mi'', n', e, he, hga', _⟩
  · exact Or.inl e
  · refine Or.inr ⟨_, .move i (e ▸ hg) he, _, ?_, rfl⟩
    intro hcr
    rw [hcr] at hga'
    rcases hga'.act (o := o) (t := t) { c.sh with heap := c.sh.heap.set ps[i] mi'' }
      (List.getElem?_set_self (List.getElem?_eq_some_iff.1 e2).1) with ⟨e, _⟩ | ⟨_, _, _, _, _, _, e, _⟩
    · cases e
    · cases e

/-- The goroutines end: there is no infinite execution. -/
theorem C43_goroutines_terminate {doc : DocRequest} {s : Shared} {ps : List Ptr} (hnd : ps.Nodup)
    (hp : ∀ p ∈ ps, p < s.heap.length) :
    ¬ ∃ f : Nat → Pool, f 0 = putPool cfg doc s ps ∧ ∀ n, PoolStep cfg o t Quiet (f n) (f (n + 1)) := by
  rintro ⟨f, h0, hf⟩
  have key : ∀ n, ∃ ns, PoolInv cfg doc s ps (f n) ns ∧
      ns.sum + n = (ps.map fun _ => (cfg.tok doc.statement).length + 1).sum := by
    intro n
    induction n with
    | zero => exact ⟨_, h0 ▸ pool_init hp, rfl⟩
    | succ n ih =>
      obtain ⟨ns, hi, hsum⟩ := ih
      rcases pool_step hnd (fun _ _ hf => hf.elim) hi (hf n) with ⟨_, hq, _⟩ | ⟨i, p, mi, m, _, _, hn, hi'⟩
      · exact hq.elim
      · refine ⟨_, hi', ?_⟩
        have := sum_set hn rfl
        omega
  obtain ⟨ns, _, hsum⟩ := key ((ps.map fun _ => (cfg.tok doc.statement).length + 1).sum + 1)
  omega

/-- Two goroutines never get at the same index: their next actions concern different indices. -/
theorem C43_goroutines_disjoint {doc : DocRequest} {s : Shared} {ps : List Ptr} (hnd : ps.Nodup)
    (hp : ∀ p ∈ ps, p < s.heap.length) {env : Shared → Shared → Prop}
    (henv : ∀ s s', env s s' → Spares ps s s') {c : Pool}
    (hs : PoolSteps cfg o t env (putPool cfg doc s ps) c) (i j : Nat) (hij : i ≠ j)
    {β γ : Type} {a : Act β} {a' : Act γ} {k k'} (hi : c.gs[i]? = some (.act a k)) (hj : c.gs[j]? = some (.act a' k')) :
    ∃ p q mi mi' b b', p ≠ q ∧ exec cfg o t a c.sh = .ok b { c.sh with heap := c.sh.heap.set p mi } ∧
      exec cfg o t a' c.sh = .ok b' { c.sh with heap := c.sh.heap.set q mi' } := by
  obtain ⟨ns, h⟩ := pool_steps hnd henv hs (pool_init (cfg := cfg) (doc := doc) hp)
  have one : ∀ (i : Nat) {β : Type} {a : Act β} {k}, c.gs[i]? = some (.act a k) →
      ∃ (hil : i < ps.length) (mi : MemoryIndex) (b : β), exec cfg o t a c.sh = .ok b { c.sh with heap := c.sh.heap.set ps[i] mi } := by
    intro i β a k hg
    have hil : i < ps.length := by rw [← h.len]; exact (List.getElem?_eq_some_iff.1 hg).1
    have hn : ns[i]? = some (ns[i]'(by rw [h.nlen]; exact hil)) := List.getElem?_eq_getElem _
    obtain ⟨mi, mi', e1, e2, hga⟩ := h.at_ i _ _ _ (List.getElem?_eq_getElem hil) hg hn
    rcases hga.act (o := o) (t := t) c.sh e2 with ⟨e, _⟩ | ⟨β, a, k, b, mi'', n', e, he, hga', _⟩
    · cases e
    · cases e; exact ⟨hil, mi'', b, he⟩
  obtain ⟨hil, mi, b, h1⟩ := one i hi
  obtain ⟨hjl, mi', b', h2⟩ := one j hj
  exact ⟨ps[i], ps[j], mi, mi', b, b', fun he => hij (nodup_pos hnd hil hjl he), h1, h2⟩

/-- A put to an existing name (index or alias without repeated entries) with its goroutines
interleaved in any way is the put of the sequential model, described by `C43_put_through_alias`. -/
theorem C43_put_any_interleaving {s s' : Shared} {a : SpecState} (h : Abs cfg s a) (k : Name)
    (l : List Name) (hl : a.resolve k = some l) (hnd : l.Nodup) (d : DocRequest)
    (hput : PutInterleaved cfg o t k d s s') :
    run cfg o t (Op.prog cfg (.put k d)) s = .ok .unit s' := by
  obtain ⟨indices, ps, s1, s2, c, h1, h2, h3, h4, h5, h6⟩ := hput
  have hgi := run_getIndices (o := o) (t := t) h k
  by_cases hgo : (a.docs k).isSome ∨ a.leakedWriter = false
  case neg =>
    obtain ⟨s', hs'⟩ := hgi.2 hgo
    rw [hs'] at h1; cases h1
  have hg := hgi.1 hgo
  rw [hg, hl] at h1
  cases h1
  by_cases hr : s.imu.readers = []
  case neg =>
    obtain ⟨s', hs'⟩ := run_lock_blocked (cfg := cfg) (o := o) (t := t) .indices s (Or.inr hr)
    rw [hs'] at h3; cases h3
  have hlk := run_lock (cfg := cfg) (o := o) (t := t) .indices s h.imuW hr
  rw [hlk] at h3
  cases h3
  have hall : ∀ m ∈ l, (a.docs m).isSome := by
    intro m hm
    rw [nonNil_eq, sequence_eq_some] at h2
    have : s.indices.get m ∈ ps.map some := h2 ▸ List.mem_map_of_mem hm
    obtain ⟨p, _, hp⟩ := List.mem_map.1 this
    rw [← h.idx.isSome m, ← hp]; rfl
  have hps : ps = l.map fun m => (s.indices.get m).getD 0 := by
    have := ptrs_of_names h.idx l hall
    rw [nonNil_eq, this] at h2
    exact (Option.some.inj h2).symm
  have hpn : ps.Nodup := by rw [hps]; exact (nodup_ptrs h.idx l hall).2 hnd
  have hpv : ∀ p ∈ ps, p < s.heap.length := by
    intro p hp
    rw [hps] at hp
    obtain ⟨m, hm, rfl⟩ := List.mem_map.1 hp
    obtain ⟨p, nm, rs, e1, e2, e3⟩ := h.idx.ptr (hall m hm)
    rw [e1]
    exact (List.getElem?_eq_some_iff.1 e3).1
  simp only [Op.prog, Repo.put, run_bind, hg, hl, Option.map_some, andThen_ok, hlk]
  simp only [Repo.putTargets, h2, if_pos hpn, run_bind]
  rw [run_perform]
  simp only [exec, Exec.outcome, andThen_ok]
  rw [C43_goroutines_state (s := s.setMu .indices { writer := some t }) hpn hpv h4 h5 _
    (choosePerm_perm o.schedule ps) o t]
  simp only [andThen_ok, h6, run_pure]

/-- The guard is needed: an index listed twice is written by two goroutines at once. -/
theorem C43_repeated_index_races {doc : DocRequest} {s : Shared} (p : Ptr) :
    ∃ (k k' : Nat → Prog Unit), (putPool cfg doc s [p, p]).gs[0]? = some (.act (.docAppend p (newDoc doc.id doc.raw)) k) ∧
      (putPool cfg doc s [p, p]).gs[1]? = some (.act (.docAppend p (newDoc doc.id doc.raw)) k') :=
  ⟨_, _, rfl, rfl⟩

/-! ## C41 -/

/-- Whatever the interleaving of the search goroutines, and whatever the rest of the process does
meanwhile to anything but these indices: the collected results are the concatenation, in some order, of
what searching each index gives. -/
theorem C41_goroutines_result {terms : Str} {engine : Engine} {s : Shared} {ps : List Ptr}
    {env : Shared → Shared → Prop} (henv : ∀ s s', env s s' → Spares ps s s') {c : SearchPool}
    (hs : SearchPoolSteps cfg terms engine env (searchPool s ps) c) (hd : c.finished) :
    ∃ (ps' : List Ptr) (parts : List (List SearchResult)), ps'.Perm ps ∧
      ps'.map (partOf cfg terms engine s) = parts.map some ∧ c.result = parts.flatten := by
  obtain ⟨order, h⟩ := search_steps henv hs (search_init cfg terms engine s ps)
  exact search_result h hd

/-- This is the result of running the goroutines one after the other in that order. -/
theorem C41_goroutines_sequential {terms : Str} {engine : Engine} {s : Shared} {ps : List Ptr}
    (hp : ∀ p ∈ ps, p < s.heap.length) (hone : ps.length ≠ 1)
    {env : Shared → Shared → Prop} (henv : ∀ s s', env s s' → Spares ps s s') {c : SearchPool}
    (hs : SearchPoolSteps cfg terms engine env (searchPool s ps) c) (hd : c.finished) :
    ∃ o, run cfg o t (Repo.searchTargets (ps.map some) terms engine) s = .ok c.result s := by
  obtain ⟨ps', parts, h1, h2, h3⟩ := C41_goroutines_result henv hs hd
  refine ⟨{ keyOrder := id, tokenOrder := fun _ => id, schedule := fun _ => ps', capacity := id }, ?_⟩
  have hn : Repo.nonNil (ps.map some) = some ps := by rw [nonNil_eq, sequence_eq_some]
  unfold Repo.searchTargets
  rw [hn]
  have hperm : choosePerm (fun _ => ps') ps = ps' := by
    unfold choosePerm; rw [if_pos (List.isPerm_iff.2 h1)]
  have hrun : run cfg { keyOrder := id, tokenOrder := fun _ => id, schedule := fun _ => ps', capacity := id } t
      (do let ps ← perform (.schedule ps); Repo.searchAll terms engine ps) s = .ok c.result s := by
    rw [run_bind, run_perform]
    simp only [exec, Exec.outcome, andThen_ok, hperm]
    rw [run_searchAll terms engine ps' s fun p h => hp p (h1.mem_iff.1 h)]
    have : sequence (ps'.map fun p => (s.heap[p]?).bind fun mi => mi.search cfg.cp cfg.tok terms engine)
        = some parts := (sequence_eq_some _ _).2 h2
    rw [this, h3]
  match ps, hone, hrun with
  | [], _, hrun => exact hrun
  | _ :: _ :: _, _, hrun => exact hrun

/-- A goroutine panics only if the engine does on its index. -/
theorem C41_goroutines_panic {terms : Str} {engine : Engine} {s : Shared} {ps : List Ptr}
    {env : Shared → Shared → Prop} (henv : ∀ s s', env s s' → Spares ps s s') {c : SearchPool}
    (hs : SearchPoolSteps cfg terms engine env (searchPool s ps) c) (hd : Searcher.panicked ∈ c.gs) :
    ∃ p ∈ ps, (s.heap[p]?).isSome ∧ partOf cfg terms engine s p = none := by
  obtain ⟨order, h⟩ := search_steps henv hs (search_init cfg terms engine s ps)
  obtain ⟨i, hi, he⟩ := List.mem_iff_getElem.1 hd
  obtain ⟨p, h1, h2, h3⟩ := h.panicked i (by rw [List.getElem?_eq_getElem hi, he])
  exact ⟨p, List.mem_of_getElem? h1, h2, h3⟩

/-- The goroutines cannot get stuck: unless they have all ended or one has panicked, one can move. -/
theorem C41_goroutines_progress {terms : Str} {engine : Engine} {s : Shared} {ps : List Ptr}
    (hp : ∀ p ∈ ps, p < s.heap.length) {env : Shared → Shared → Prop}
    (henv : ∀ s s', env s s' → Spares ps s s') {c : SearchPool}
    (hs : SearchPoolSteps cfg terms engine env (searchPool s ps) c) :
    c.finished ∨ Searcher.panicked ∈ c.gs ∨ ∃ c', SearchPoolStep cfg terms engine Quiet c c' := by
  obtain ⟨order, h⟩ := search_steps henv hs (search_init cfg terms engine s ps)
  exact search_progress hp h

/-- They end: there is no infinite execution. -/
theorem C41_goroutines_terminate {terms : Str} {engine : Engine} (c : SearchPool) :
    ¬ ∃ f : Nat → SearchPool, f 0 = c ∧ ∀ n, SearchPoolStep cfg terms engine Quiet (f n) (f (n + 1)) := by
  rintro ⟨f, h0, hf⟩
  have hsh : ∀ n, (f n).sh = c.sh := by
    intro n
    induction n with
    | zero => rw [h0]
    | succ n ih => rw [(search_left (hf n)).1, ih]
  have key : ∀ n, ((f n).gs.map (Searcher.left cfg terms engine c.sh)).sum + n
      ≤ (c.gs.map (Searcher.left cfg terms engine c.sh)).sum := by
    intro n
    induction n with
    | zero => rw [h0]; exact Nat.le_refl _
    | succ n ih =>
      have := (search_left (hf n)).2
      rw [hsh n] at this
      omega
  have := key ((c.gs.map (Searcher.left cfg terms engine c.sh)).sum + 1)
  omega

/-! ## Examples -/

/-- Two indices, their goroutines strictly alternating. -/
example : ∃ c, PoolSteps sampleCfg sampleOracle 0 Quiet
      (putPool sampleCfg docD (stateAfter twoIndexAlias) [0, 1]) c ∧ c.done ∧
    c.sh.heap.map (fun mi => mi.docs.length) = [2, 3] := by
  have h : ((putPool sampleCfg docD (stateAfter twoIndexAlias) [0, 1]).play sampleCfg sampleOracle 0
      [0, 1, 1, 0]).any (fun c => c.doneB && c.sh.heap.map (fun mi => mi.docs.length) == [2, 3]) = true := by
    decide +kernel
  rw [Option.any_eq_true] at h
  obtain ⟨c, h1, h2⟩ := h
  rw [Bool.and_eq_true] at h2
  exact ⟨c, play_poolSteps h1, doneB_done h2.1, eq_of_beq h2.2⟩

/-- Both search goroutines evaluate before the second one appends first. -/
example : ∃ c, SearchPoolSteps sampleCfg [] noopAllSearch Quiet
      (searchPool (stateAfter twoIndexAlias) [0, 1]) c ∧ c.finished ∧
    c.result = List.map (fun d => { document := docOf d, hits := 0 }) [docD, docE, docD] := by
  have h : ((searchPool (stateAfter twoIndexAlias) [0, 1]).play sampleCfg [] noopAllSearch
      [0, 1, 1, 1, 1, 1, 0, 0, 0]).any (fun c => decide (c.gs = [.done, .done]) &&
        decide (c.result = List.map (fun d => { document := docOf d, hits := 0 }) [docD, docE, docD])) = true := by
    decide +kernel
  rw [Option.any_eq_true] at h
  obtain ⟨c, h1, h2⟩ := h
  rw [Bool.and_eq_true, decide_eq_true_eq, decide_eq_true_eq] at h2
  refine ⟨c, play_searchSteps h1, ?_, h2.2⟩
  intro g hg
  rw [h2.1] at hg
  simpa using hg

end Visigoth
