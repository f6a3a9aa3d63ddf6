import Verif.Props.FineMore
import Verif.Props.Render
/-!
# `String` among interleaved goroutines (C64, C65)

What `Props/Render.lean` proves of `String` among concurrent calls, for executions in which the goroutines
of every `Put` and `Search` are interleaved with everything else.
-/
namespace Visigoth

variable {cfg : Cfg}

/-- Whenever a `String` call is about to render an index, in any interleaving of calls and goroutines, that
index is the result of a whole number of complete `Put`s of requests that calls of the execution put. -/
theorem C64_string_sees_whole_puts_goroutines {c : FConfig} (h : FineReachable cfg c) {t : Tid} {x : FThread}
    (hx : c.calls[t]? = some x) {p : Ptr} {k : Str → FProg Ret} (hp : x.st = .run (.act (.render p) k)) :
    ∃ nm rs, c.sh.heap[p]? = some (buildIndex cfg.tok nm rs) ∧ (∀ r ∈ rs, ∃ y ∈ c.calls, ∃ n, y.op = .put n r) ∧ rs ≠ [] := by
  obtain ⟨d, G, hd, sim⟩ := sim_reachable h
  obtain ⟨H, i, w⟩ := nsteps_whole (P := fun r => ∃ y ∈ c.calls, ∃ n, y.op = .put n r) hd (by
    intro y hy r hr
    obtain ⟨u, hu⟩ := List.getElem?_of_mem hy
    have hl : u < c.calls.length := Nat.lt_of_lt_of_eq (List.getElem?_eq_some_iff.1 hu).1 sim.len.symm
    obtain ⟨y', hy', hop, _, _⟩ := sim.call u _ (List.getElem?_eq_getElem hl)
    rw [hu] at hy'; cases hy'
    refine ⟨_, List.getElem_mem hl, ?_⟩
    rw [← hop]
    cases hop : y.op <;> rw [hop] at hr <;> simp only [Op.puts, reduceCtorEq, Option.some.injEq] at hr
    subst hr
    exact ⟨_, rfl⟩)
  obtain ⟨y, hy, _, _, hs⟩ := sim.call t x hx
  rw [hp] at hs
  generalize hg : G t = g at hs
  generalize hpr : y.prog = pr at hs
  cases hs with
  | run _ _ =>
    have hk := w.knows t y hy
    have hgd := i.good t y hy
    rw [hpr] at hk hgd
    have hsh : (H t).imu.shared = true := good_reads hgd rfl
    unfold FProg.flat Knows at hk
    split at hk
    · exact absurd hk id
    · next hnw =>
      obtain ⟨n, hn, h2⟩ := hk
      have hlt : p < d.sh.heap.length := Nat.lt_of_lt_of_le h2.1 hn
      have hsame := sim_same sim i w hsh (by rw [hg]; rfl)
      have hok := w.ok fun u hu => by
        by_cases hut : u = t
        · subst hut; exact hnw hu
        · exact excl_shared i.link (Ne.symm hut) hu hsh
      rw [hsame]
      obtain ⟨nm, rs, h3, h4⟩ := hok _ (List.getElem_mem hlt)
      exact ⟨nm, rs, by rw [List.getElem?_eq_getElem hlt, h3], h4⟩

/-- The index a call is about to render. -/
def FThread.renders (x : FThread) : Option Ptr :=
  match x.st with
  | .run (.act (.render p) _) => some p
  | _ => none

/-- A `String` is about to render one of two indices while a `Put` to both of them waits for the mutex. -/
example : ((FConfig.init.play sampleCfg (fineSetup ++ [fcallNow .string, fcallNow (.put (str "a") docE)] ++ fgoes 4 3
      ++ fgoes 5 3)).bind fun c => (c.calls[4]?).bind FThread.renders) = some 0 := by decide +kernel

/-- An index that no call has renamed to its present name carries that name, in any interleaving of calls
and goroutines, whenever no `Put` is writing. -/
theorem C65_label_is_name_goroutines_partial {c : FConfig} (h : FineReachable cfg c) (hu : c.unwritten) {n : Name} {p : Ptr}
    (hp : c.sh.indices.get n = some p) (hn : ∀ x ∈ c.calls, ∀ old, x.op ≠ .rename old n) :
    ∃ mi, c.sh.heap[p]? = some mi ∧ mi.name = n := by
  obtain ⟨d, hd, al⟩ := C60_nothing_new h
  rw [al.heap hu]
  refine C65_label_is_name_partial hd (by rw [← al.indices]; exact hp) ?_
  intro y hy old hop
  obtain ⟨t, ht⟩ := List.getElem?_of_mem hy
  have hl : t < c.calls.length := Nat.lt_of_lt_of_eq (List.getElem?_eq_some_iff.1 ht).1 al.len.symm
  obtain ⟨y', hy', sc⟩ := al.calls t _ (List.getElem?_eq_getElem hl)
  rw [ht] at hy'; cases hy'
  exact hn _ (List.getElem_mem hl) old (sc.op.symm.trans hop)

/-- Two indices that were never renamed, with no call running. -/
example : (FConfig.init.play sampleCfg fineSetup).map (fun c => (c.sh.indices.get (str "y"), c.sh.heap.map (·.name)))
    = some (some 1, [str "x", str "y"]) := by decide +kernel

end Visigoth
