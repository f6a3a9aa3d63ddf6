import Verif.Proofs.IndexHeap
import Verif.Props.Index
/-!
# Callers cannot corrupt an index through `Indexed` (C12)

`World.run tok acts` is a new index together with the slices a caller holds, after any sequence of
`Put` calls, `Indexed` calls, and writes and appends of the caller through the slices it obtained
(`Model/IndexHeap.lean`).
-/
namespace Visigoth

/-- Whatever the caller does with the slices it obtained, the index is the one its Puts alone build:
same documents, same posting list for every token. -/
theorem C12_index_unaffected (tok : Tokenizer) (acts : List ClientAct) :
    (World.run tok acts).index.docs = (buildIndex tok [] (putsOf acts)).docs ∧
    ∀ key, ((World.run tok acts).index.inverted.get key).map (intsOf (World.run tok acts).index.arrays)
      = (buildIndex tok [] (putsOf acts)).inverted.get key :=
  ⟨(worldOk_run tok acts).docs, (worldOk_run tok acts).rep⟩

/-- After any history `Indexed` returns exactly the positions of the documents put that contain the
token. -/
theorem C12_indexed_returns_positions (tok : Tokenizer) (acts : List ClientAct) (cap : Nat → Nat) (key : Str) :
    (World.run tok (acts ++ [.indexed cap key])).contents (World.run tok acts).slices.length
      = some (positions tok (putsOf acts) key) := by
  have h := (worldOk_run tok acts).rep key
  simp only [World.run, List.foldl_append, List.foldl_cons, List.foldl_nil]
  change (World.step tok (World.run tok acts) (.indexed cap key)).contents (World.run tok acts).slices.length = _
  simp only [World.step, HeapIndex.indexed, allocInts, World.contents]
  rw [List.getElem?_append_right (Nat.le_refl _)]
  simp only [Nat.sub_self, List.getElem?_cons_zero, Option.map_some, intsOf]
  rw [List.getElem?_append_right (Nat.le_refl _)]
  simp only [Nat.sub_self, List.getElem?_cons_zero, Option.getD_some, List.take_left]
  congr 1
  have hb := buildIndex_inverted tok [] (putsOf acts) key
  rw [← h] at hb
  rw [← hb]
  unfold alView
  cases (World.run tok acts).index.inverted.get key with
  | none => rfl
  | some r => rfl

/-- A slice keeps its place among those the caller holds. -/
theorem C12_slices_stay (tok : Tokenizer) (acts : List ClientAct) (act : ClientAct) (h : Nat)
    (hh : h < (World.run tok acts).slices.length) :
    (World.run tok (acts ++ [act])).slices[h]? = (World.run tok acts).slices[h]? := by
  simp only [World.run, List.foldl_append, List.foldl_cons, List.foldl_nil]
  obtain ⟨new, hn⟩ := (stepOk (worldOk_run tok acts) act).slices
  change (World.step tok (World.run tok acts) act).slices[h]? = _
  rw [hn, List.getElem?_append_left hh]
  rfl

/-- A slice the caller holds changes its contents only by actions of the caller through a slice that
comes from the same `Indexed` call; in particular `Put` and `Indexed` never change one, and writing or
appending through the result of one `Indexed` call never changes the result of another. -/
theorem C12_slices_keep_contents (tok : Tokenizer) (acts : List ClientAct) (act : ClientAct) (h : Nat)
    (s : SliceRef) (call : Nat) (hs : (World.run tok acts).slices[h]? = some (s, call))
    (hact : act.through (World.run tok acts) ≠ some call) :
    (World.run tok (acts ++ [act])).contents h = (World.run tok acts).contents h := by
  have hlt := (List.getElem?_eq_some_iff.1 hs).1
  have hst := C12_slices_stay tok acts act h hlt
  have hk := (stepOk (worldOk_run tok acts) act).keep (s, call) (List.mem_of_getElem? hs) hact
  unfold World.contents
  rw [hst, hs]
  simp only [Option.map_some, World.run, List.foldl_append, List.foldl_cons, List.foldl_nil]
  exact congrArg some hk

/-- Results of different `Indexed` calls never share a backing array. -/
theorem C12_results_are_fresh (tok : Tokenizer) (acts : List ClientAct) (h h' : Nat) (s s' : SliceRef)
    (call call' : Nat) (hs : (World.run tok acts).slices[h]? = some (s, call))
    (hs' : (World.run tok acts).slices[h']? = some (s', call')) (hne : call ≠ call') : s.arr ≠ s'.arr :=
  fun he => hne ((worldOk_run tok acts).origin _ (List.mem_of_getElem? hs) _ (List.mem_of_getElem? hs') he)

/-- A history in which the caller overwrites and appends to its slices between Puts. -/
def sampleClient : List ClientAct :=
  [.put (· * 2) (newDocRequest (str "a") (str "java go")), .indexed (· * 2) (str "java"),
   .write 0 0 7, .append id 0 9, .write 0 1 5, .put (· * 2) (newDocRequest (str "b") (str "java")),
   .indexed id (str "java"), .put id (newDocRequest (str "c") (str "java")), .indexed id (str "java")]

example : (World.run spaceTok sampleClient).contents 0 = some [7] ∧
    (World.run spaceTok sampleClient).contents 1 = some [7, 5] ∧
    (World.run spaceTok sampleClient).contents 2 = some [0, 1] ∧
    (World.run spaceTok sampleClient).contents 3 = some [0, 1, 2] ∧
    (World.run spaceTok sampleClient).slices.map (·.2) = [0, 0, 1, 2] := by decide +kernel

end Visigoth
