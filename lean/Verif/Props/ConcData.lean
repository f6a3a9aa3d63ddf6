import Verif.Proofs.WholeInv
import Verif.Props.Conc
/-!
# Concurrent calls: what searches see (C48)
-/
namespace Visigoth

variable {cfg : Cfg}

/-- Whenever a `Search` is about to evaluate an engine on an index, in any execution of any number of
concurrent calls, that index is the result of a whole number of complete `Put`s, at least one, of requests
that calls of the execution put. -/
theorem C48_search_sees_whole_puts {c : Config} (hr : ConcReachable cfg c) {t : Tid} {x : Thread}
    (hx : c.calls[t]? = some x) {p : Ptr} {ts : Str} {e : Engine} {k : Option (List SearchResult) → Prog Ret}
    (hp : x.prog = .act (.evalEngine p ts e) k) :
    ∃ nm rs, c.sh.heap[p]? = some (buildIndex cfg.tok nm rs) ∧
      (∀ r ∈ rs, ∃ y ∈ c.calls, ∃ n, y.op = .put n r) ∧ rs ≠ [] := by
  obtain ⟨H, i, w⟩ := whole_reachable (P := fun r => ∃ y ∈ c.calls, ∃ n, y.op = .put n r) hr (by
    intro x hx d hd
    refine ⟨x, hx, ?_⟩
    cases hop : x.op <;> rw [hop] at hd <;> simp only [Op.puts, reduceCtorEq, Option.some.injEq] at hd
    subst hd
    exact ⟨_, rfl⟩)
  have hk := w.knows t x hx
  have hg := i.good t x hx
  rw [hp] at hk hg
  unfold Knows at hk
  split at hk
  · exact absurd hk id
  · next hnw =>
    obtain ⟨n, hn, h2⟩ := hk
    have hlt : p < c.sh.heap.length := Nat.lt_of_lt_of_le h2.1 hn
    have hok := w.ok fun u hu => by
      by_cases hut : u = t
      · subst hut; exact hnw hu
      · have h1 := link_excl i.link hut .indices (by simp [Held.get, hu, Mode.excl])
        have h2 : (H t).imu.shared = true := by
          cases hop : x.op.isRename with
          | false => exact ((hg.1 hop).1).2.1 .indices rfl
          | true => exact ((hg.2 (by cases h : x.op <;> rw [h] at hop <;> first | rfl | cases hop)).1).2.1 .indices rfl
        simp only [Held.get] at h1
        rw [h1] at h2
        cases h2
    obtain ⟨nm, rs, h3, h4⟩ := hok _ (List.getElem_mem hlt)
    exact ⟨nm, rs, by rw [List.getElem?_eq_getElem hlt, h3], h4⟩

/-- The index and the terms a call is about to evaluate an engine on. -/
def Thread.evaluates (x : Thread) : Option (Ptr × Str) :=
  match x.prog with
  | .act (.evalEngine p ts _) _ => some (p, ts)
  | _ => none

/-- Two completed `Put`s, a third that has resolved its name and announced that it wants the mutex, and
a `Search` about to evaluate its engine. -/
def searchSchedule : List Sched :=
  [callNow (.put (str "x") docD)] ++ goes 0 13 ++ [callNow (.put (str "x") docD)] ++ goes 1 9 ++
  [callNow (.put (str "x") docD)] ++ goes 2 3 ++ [callNow (.search (str "x") (str "java") linearSearch)] ++ goes 3 2 ++ goes 2 1

example : playReturns searchSchedule = some [some .unit, some .unit, none, none] := by decide +kernel

example : ((Config.init.play sampleCfg searchSchedule).bind fun c => (c.calls[3]?).bind Thread.evaluates)
    = some (0, str "java") := by decide +kernel

end Visigoth
