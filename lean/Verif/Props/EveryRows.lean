import Verif.Props.EveryConfig
import Verif.Props.FineMore
/-!
# Rows and labels with interleaved goroutines, configuration by configuration (C79)
-/
namespace Visigoth

set_option synthInstance.maxSize 1024

/-- What `ListAliases` has returned can change afterwards, with interleaved goroutines, exactly if `Put`, `Alias` and `Rename`
are used as well, whatever the tokenizer. -/
theorem C79_rows_goroutines_every (cfg : Cfg) (M : Method → Prop) :
    (∀ c c', FineReachable cfg c → FSteps cfg c c' → (∀ x ∈ c'.calls, M x.op.method) →
      ∀ (t : Tid) (x : FThread) (rows : List (Name × SliceRef)), c.calls[t]? = some x → x.op = .listAliases →
        x.status = .returned (.rows rows) → ∀ e ∈ rows, c'.sh.elems e.2 = c.sh.elems e.2) ↔
      ¬ (M .put ∧ M .alias ∧ M .listAliases ∧ M .rename) := by
  rw [← C79_rows_every cfg]
  constructor
  · intro h d d' hd hs hM t y rows hy hop hret e he
    obtain ⟨cs, h1, h2, h3⟩ := C60_executions_converse (ds := [d, d']) ⟨hd, hs, trivial⟩
    match cs, h2, h1, h3 with
    | [c, c'], _, ⟨g0, g1, _⟩, h3 =>
      obtain ⟨al, e0⟩ := h3 0 _ _ rfl rfl
      obtain ⟨al', e1⟩ := h3 1 _ _ rfl rfl
      obtain ⟨x, hx, sc⟩ := alike_back al hy
      rw [← e0, ← e1]
      refine h c c' g0 g1 (fun z hz => ?_) t x rows hx (sc.op.symm.trans hop) ?_ e he
      · obtain ⟨u, hu⟩ := List.getElem?_of_mem hz
        obtain ⟨w, hw, sw⟩ := al'.calls u z hu
        rw [← sw.op]
        exact hM w (List.mem_of_getElem? hw)
      · rw [← sc.status]
        simp [Thread.status, hret]
  · intro h c c' hc hs hM t x rows hx hop hret e he
    obtain ⟨d, d', hd, hs', al, al'⟩ := fine_two hc hs
    obtain ⟨y, hy, sc⟩ := al.calls t x hx
    rw [alike_elems al, alike_elems al']
    exact h d d' hd hs' (alike_all al' (P := fun op _ => M op.method) hM) t y rows hy (sc.op.trans hop)
      (returned_of (sc.status.trans hret)) e he

/-- After all calls and goroutines are over every index carries the name it is found by, exactly if `Put` and `Rename` are not
both used, whatever the tokenizer. -/
theorem C79_labels_goroutines_every (cfg : Cfg) (M : Method → Prop) :
    (∀ c, FineReachable cfg c → (∀ x ∈ c.calls, M x.op.method) → c.quiet → ∀ n p, c.sh.indices.get n = some p →
      ∃ mi, c.sh.heap[p]? = some mi ∧ mi.name = n) ↔ ¬ (M .put ∧ M .rename) := by
  constructor
  · rintro h ⟨hp, hn⟩
    obtain ⟨mi, hmi, -, hr⟩ := bound_reachable cfg (str "x") docD
    obtain ⟨d, hd, hf⟩ := reach_fact hr (xs := [callNow (.rename (str "x") (str "y"))] ++ goes 1 7)
      (f := fun c => (c.calls.map (·.op.method), c.calls.map (·.status), c.sh.indices.get (str "y"), (c.sh.heap[0]?).map (·.name)))
      (v := ([.put, .rename], [.returned .unit, .returned (.bool true)], some 0, some mi.name)) (by with_unfolding_all rfl)
    simp only [Prod.mk.injEq] at hf
    obtain ⟨h1, hst, h2, h3⟩ := hf
    obtain ⟨c, hc, al, hs⟩ := C60_nothing_lost hd
    have hq : c.quiet := by
      intro z hz hrun
      obtain ⟨u, hu⟩ := List.getElem?_of_mem hz
      obtain ⟨w, hw, sw⟩ := al.calls u z hu
      have : w.status ∈ d.calls.map (·.status) := List.mem_map_of_mem (List.mem_of_getElem? hw)
      rw [hst, sw.status, hrun] at this
      simp at this
    have hM : ∀ x ∈ c.calls, M x.op.method := by
      intro z hz
      obtain ⟨u, hu⟩ := List.getElem?_of_mem hz
      obtain ⟨w, hw, sw⟩ := al.calls u z hu
      rw [← sw.op]
      exact methods_of (M := M) h1 (by simp [hp, hn]) w (List.mem_of_getElem? hw)
    rw [← hs] at h2 h3
    obtain ⟨mi', hmi', hname⟩ := h c hc hM hq _ _ h2
    rw [hmi', Option.map_some, hname, hmi] at h3
    exact absurd h3 (by decide +kernel)
  · intro h c hc hM hq n p hp
    obtain ⟨d, hd, al⟩ := fine_alike hc
    rw [al.heap fun t x hx hrun => absurd hrun (hq x (List.mem_of_getElem? hx))]
    exact (C79_labels_every cfg M).2 h d ⟨hd, alike_all al (P := fun op _ => M op.method) hM⟩ n p (by rw [← al.indices]; exact hp)

/-- An index is put and renamed: it is found by a name it does not carry. -/
example : ((FConfig.init.play sampleCfg ([fcallNow (.put (str "x") docD)] ++ fgoes 0 13 ++
      [fcallNow (.rename (str "x") (str "y"))] ++ fgoes 1 7)).map fun c =>
      (c.calls.map fun x => match x.status with | .returned r => some r | _ => none, c.sh.indices.get (str "y"), c.sh.heap.map (·.name)))
    = some ([some .unit, some (.bool true)], some 0, [str "x"]) := by decide +kernel

/-- `ListAliases` shows `x`; after a `Rename` the same rows show `y`. -/
example : ((FConfig.init.play sampleCfg ([fcallNow (.put (str "x") docD)] ++ fgoes 0 13 ++ [fcallNow (.alias (str "al") (str "x"))] ++
      fgoes 1 9 ++ [fcallNow .listAliases] ++ fgoes 2 4)).bind fun c =>
      ((c.play sampleCfg ([fcallNow (.rename (str "x") (str "y"))] ++ fgoes 3 10))).map fun c' =>
        ((c.calls[2]?).bind fun x => match x.status with | .returned r => some r | _ => none, c.sh.elems ⟨0, 1⟩, c'.sh.elems ⟨0, 1⟩))
    = some (some (.rows [(str "al", ⟨0, 1⟩)]), [str "x"], [str "y"]) := by decide +kernel

end Visigoth
