import Verif.Proofs.Reach
import Verif.Props.ConcAtomic
import Verif.Props.Search
import Verif.Model.Fine
/-!
# C77: what is put into an index stays in it
-/
namespace Visigoth

variable {cfg : Cfg}

/-- In every execution index objects stay, keep their name, and documents and postings are only ever
appended. -/
theorem C77_only_appended {c c' : Config} (hs : Steps cfg c c') {p : Ptr} {mi : MemoryIndex} (h : c.sh.heap[p]? = some mi) :
    ∃ mi', c'.sh.heap[p]? = some mi' ∧ mi.grownTo mi' :=
  steps_grown hs p mi h

/-- In every execution a `Put` that has returned has stored its document, filed under all its tokens, in
every index its name stood for at one moment while it was running; if its name stood for nothing it has
created an index for it. -/
theorem C77_put_stored {c : Config} (hr : ConcReachable cfg c) {t : Tid} {x : Thread} {n : Name} {d : DocRequest} {r : Ret}
    (hx : c.calls[t]? = some x) (hop : x.op = .put n d) (hret : x.prog = .ret r) :
    ∃ s, Meanwhile cfg t c s ∧
      match s.targets n with
      | some l => ∀ e ∈ l, ∃ p, e = some p ∧ Stored cfg d c.sh p
      | none => ∃ p, s.heap.length ≤ p ∧ BoundBy cfg t c n p ∧ Stored cfg d c.sh p := by
  obtain ⟨H, g, _, v⟩ := reach_reachable (n := n) (d := d) hr (t := t) (fun y hy => by rw [hx] at hy; cases hy; exact hop)
  have hd := v.prog x hx
  rw [hret] at hd
  obtain ⟨hc, s, hm, hd⟩ := hd
  have hmo := v.mode
  rw [hm] at hmo
  have full : ∀ p, p ∈ g.stored.map (·.1) → Stored cfg d c.sh p := by
    intro p hp
    obtain ⟨e, he, rfl⟩ := List.mem_map.1 hp
    obtain ⟨mi, h1, h2, h3⟩ := v.stored e he
    exact ⟨mi, e.2.1, h1, h2, fun tok ht => h3 tok (hc e he tok ht)⟩
  refine ⟨s, hmo.1, ?_⟩
  split at hd
  · next ht =>
    rw [ht]
    obtain ⟨p, h1, h2, h3⟩ := hd
    exact ⟨p, h1, (v.bound p h2).1, full p (by rw [h3]; exact List.mem_singleton.2 rfl)⟩
  · next l ht =>
    rw [ht]
    obtain ⟨ps, h1, _, h3⟩ := hd
    intro e he
    rw [h1] at he
    obtain ⟨p, hp, rfl⟩ := List.mem_map.1 he
    exact ⟨p, rfl, full p (h3.symm.subset hp)⟩

/-- How a `Put` can be lost (C52), in every execution: a `Put` that has returned has stored its document in
the index of every name its name stood for at one moment while it was running, or in an index it has created
for it; and each of these names still leads to that index, unless another call has taken it away since the
`Put` was called: a `Drop` or a `Rename`, or a `Put` that had found the name standing for nothing. -/
theorem C52_lost_to {c : Config} (hr : ConcReachable cfg c) {t : Tid} {x : Thread} {n : Name} {d : DocRequest} {r : Ret}
    (hx : c.calls[t]? = some x) (hop : x.op = .put n d) (hret : x.prog = .ret r) :
    ∃ s, Meanwhile cfg t c s ∧
      (∀ m, s.standsFor n m → ∃ p, s.indices.get m = some p ∧ Stored cfg d c.sh p ∧
        (c.sh.indices.get m = some p ∨ LostTo cfg t c m p)) ∧
      (s.targets n = none → ∃ p, BoundBy cfg t c n p ∧ Stored cfg d c.sh p ∧
        (c.sh.indices.get n = some p ∨ LostTo cfg t c n p)) := by
  obtain ⟨H, g, _, v⟩ := reach_reachable (n := n) (d := d) hr (t := t) (fun y hy => by rw [hx] at hy; cases hy; exact hop)
  have hd := v.prog x hx
  rw [hret] at hd
  obtain ⟨hc, s, hm, hd⟩ := hd
  have hmo := v.mode
  rw [hm] at hmo
  have full : ∀ p, p ∈ g.stored.map (·.1) → Stored cfg d c.sh p := by
    intro p hp
    obtain ⟨e, he, rfl⟩ := List.mem_map.1 hp
    obtain ⟨mi, h1, h2, h3⟩ := v.stored e he
    exact ⟨mi, e.2.1, h1, h2, fun tok ht => h3 tok (hc e he tok ht)⟩
  refine ⟨s, hmo.1, fun m hs => ?_, fun ht => ?_⟩
  · obtain ⟨l, ht, hl⟩ : ∃ l, s.targets n = some l ∧ s.indices.get m ∈ l := by
      unfold Shared.standsFor at hs
      unfold Shared.targets
      split at hs
      · next p hp => subst hs; rw [hp]; exact ⟨_, rfl, List.mem_singleton.2 rfl⟩
      · next hp =>
        obtain ⟨r, hr, hmem⟩ := hs
        rw [hr]
        exact ⟨_, rfl, List.mem_map_of_mem hmem⟩
    rw [ht] at hd
    obtain ⟨ps, h1, _, h3⟩ := hd
    rw [h1] at hl
    obtain ⟨p, hp, hpe⟩ := List.mem_map.1 hl
    exact ⟨p, hpe.symm, full p (h3.symm.subset hp), (hmo.2 m p hpe.symm).imp id TakenBy.lost⟩
  · rw [ht] at hd
    obtain ⟨p, h1, h2, h3⟩ := hd
    exact ⟨p, (v.bound p h2).1, full p (by rw [h3]; exact List.mem_singleton.2 rfl), (v.bound p h2).2.imp id TakenBy.lost⟩

/-- It stays stored. -/
theorem C77_stays_stored {c c' : Config} (hs : Steps cfg c c') {p : Ptr} {d : DocRequest} (h : Stored cfg d c.sh p) :
    Stored cfg d c'.sh p := by
  obtain ⟨mi, i, h1, h2, h3⟩ := h
  obtain ⟨mi', g1, g2, g3⟩ := StoredAt.grown (d := d) (e := (p, i, cfg.tok d.statement)) ⟨mi, h1, h2, h3⟩ (steps_grown hs)
  exact ⟨mi', i, g1, g2, g3⟩

/-- It is found: while no call is writing, `LinearSearch` of the index with words of the statement returns
the document. -/
theorem C77_stored_is_found {c : Config} (hr : ConcReachable cfg c) (hq : c.unwritten) {p : Ptr} {d : DocRequest}
    (h : Stored cfg d c.sh p) {ts : Str} (hne : cfg.tok ts ≠ []) (hts : ∀ w ∈ cfg.tok ts, w ∈ cfg.tok d.statement) :
    ∃ mi l, c.sh.heap[p]? = some mi ∧ mi.search cfg.cp cfg.tok ts linearSearch = some l ∧
      ∃ e ∈ l, e.document = newDoc d.id d.raw := by
  obtain ⟨mi, i, h1, h2, h3⟩ := h
  obtain ⟨H, li, w, _⟩ := pre_reachable (n := []) (p := 0) hr
  obtain ⟨nm, rs, rfl, _⟩ := w.still li (fun t x hx hrun hw => li.unwritten hq hx hw hrun) mi (List.mem_of_getElem? h1)
  rw [buildIndex_docs, List.getElem?_map] at h2
  cases hri : rs[i]? with
  | none => rw [hri] at h2; cases h2
  | some r =>
    rw [hri] at h2
    refine ⟨_, _, h1, C15_linear_search_payload cfg.cp cfg.tok nm rs ts hne, _, List.mem_map_of_mem (List.mem_filter.2 ⟨List.mem_of_getElem? hri, ?_⟩), Option.some.inj h2⟩
    rw [List.all_eq_true]
    intro w hw
    obtain ⟨l, g1, g2⟩ := h3 w (hts w hw)
    have := (C11_inverted_index_exact cfg.cp cfg.tok nm rs w).2 i
    rw [MemoryIndex.indexed, cfg.cp.contents, g1] at this
    obtain ⟨r', hr', hw'⟩ := this.1 g2
    rw [hri] at hr'; cases hr'
    simpa using hw'

/-- The only way an index gets out of reach of its name: a call that may bind or unbind the name does it. -/
theorem C77_name_lost {c c' : Config} (hr : ConcReachable cfg c) (hs : Steps cfg c c') {m : Name} {p : Ptr}
    (h : c.sh.indices.get m = some p) (h' : c'.sh.indices.get m ≠ some p) :
    ∃ u y c1 c2, Steps cfg c c1 ∧ TStep cfg u c1 c2 ∧ Steps cfg c2 c' ∧ c1.calls[u]? = some y ∧
      (y.op.binds m ∨ y.op.unbinds m) ∧ c1.sh.indices.get m = some p ∧ c2.sh.indices.get m ≠ some p := by
  induction hs with
  | refl => exact absurd h h'
  | @tail c1 c2 hpre hst ih =>
    by_cases h1 : c1.sh.indices.get m = some p
    · cases hst with
      | invoke => exact absurd h1 h'
      | move u hm =>
        have hm0 := hm
        cases hm with
        | crash hx he => exact absurd h1 h'
        | @act s s' calls op o β a k b hx he =>
          refine ⟨u, _, _, _, hpre, hm0, .refl _, hx, ?_, h1, h'⟩
          have hnm := names_reachable (steps_trans hr hpre) _ (List.mem_of_getElem? hx)
          by_cases hb : a.binds = some m
          · exact .inl (hnm.1 m hb)
          · by_cases hu : a.unbinds = some m
            · exact .inr (hnm.2.1 m hu)
            · exact absurd (((exec_index he m).1 hb hu).trans h1) h'
    · obtain ⟨u, y, d1, d2, g1, g2, g3, g4⟩ := ih h1
      exact ⟨u, y, d1, d2, g1, g2, .tail g3 hst, g4⟩

/-- `C77_only_appended` with interleaved goroutines. -/
theorem C77_only_appended_goroutines {c c' : FConfig} (hs : FSteps cfg c c') {p : Ptr} {mi : MemoryIndex}
    (h : c.sh.heap[p]? = some mi) : ∃ mi', c'.sh.heap[p]? = some mi' ∧ mi.grownTo mi' := by
  have step : ∀ {c c' : FConfig}, FStep cfg c c' → HeapGrown c.sh.heap c'.sh.heap := by
    intro c c' hs
    cases hs with
    | invoke => exact .refl _
    | move t hm =>
      cases hm with
      | act _ he => exact exec_grown he
      | put _ hp =>
        cases hp with
        | move _ _ he => exact exec_grown he
        | panic => exact .refl _
        | env hf => exact hf.elim
      | _ => exact .refl _
  have : HeapGrown c.sh.heap c'.sh.heap := by
    clear h
    induction hs with
    | refl => exact .refl _
    | tail _ hs ih => exact ih.trans (step hs)
  exact this p mi h

/-- The names of the documents of each index object, and the object a name leads to. -/
def Config.stores (c : Config) (n : Name) : List (List Str) × Option Ptr :=
  (c.sh.heap.map fun mi => mi.docs.map fun e => e.name, c.sh.indices.get n)

/-- The `Put` that is lost (C52) has stored its document; the other one, which had found the name standing for
nothing as well, then took the name away (`C52_lost_to`). -/
example : (Config.init.play sampleCfg lostSchedule).map (·.stores (str "x")) = some ([[str "e"], [str "d"]], some 1) := by
  decide +kernel

/-- A `Put` that had found an index puts its document there although it has been dropped meanwhile. -/
example : (Config.init.play sampleCfg ([callNow (.put (str "x") docD)] ++ goes 0 13 ++ [callNow (.put (str "x") docE)] ++ goes 1 3 ++
      [callNow (.drop (str "x"))] ++ goes 2 11 ++ goes 1 6)).map (·.stores (str "x"))
    = some ([[str "d", str "e"]], none) := by decide +kernel

/-- A `Put` through an alias with two indices while one of them is renamed. -/
example : (Config.init.play sampleCfg ([callNow (.put (str "x") docD)] ++ goes 0 13 ++ [callNow (.put (str "y") docD)] ++ goes 1 13 ++
      [callNow (.alias (str "a") (str "x"))] ++ goes 2 9 ++ [callNow (.alias (str "a") (str "y"))] ++ goes 3 10 ++
      [callNow (.put (str "a") docE)] ++ goes 4 10 ++ [callNow (.rename (str "x") (str "z"))] ++ goes 5 11 ++ goes 4 8)).map
        (fun c => (c.endings, c.stores (str "z")))
    = some ([some (.inl .unit), some (.inl .unit), some (.inl (.bool true)), some (.inl (.bool true)), some (.inl .unit), some (.inl (.bool true))],
        [[str "d", str "e"], [str "d", str "e"]], some 0) := by decide +kernel

end Visigoth
