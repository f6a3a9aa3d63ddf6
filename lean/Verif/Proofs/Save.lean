import Verif.Spec.Save
import Verif.Proofs.Index
import Verif.Proofs.Lower
import Verif.Props.Analyze
/-! # Saved indexes -/
namespace Visigoth

theorem jsonString_eq_iff (s : Str) : jsonString s = s ↔ ValidUTF8 s :=
  ⟨fun h => ⟨runesOf s, runesOf_scalar s, h.symm⟩, fun h => mapStr_id_of_valid s h⟩

theorem jsonString_valid (s : Str) : ValidUTF8 (jsonString s) := ⟨runesOf s, runesOf_scalar s, rfl⟩

theorem jsonDoc_eq_iff (d : Doc) : jsonDoc d = d ↔ ValidUTF8 d.name ∧ ValidUTF8 d.content := by
  rw [← jsonString_eq_iff, ← jsonString_eq_iff]
  obtain ⟨n, c⟩ := d
  simp [jsonDoc]

theorem get_foldl_set {K V : Type} [DecidableEq K] (l : List (K × V)) (m : GoMap K V) (k : K) :
    (l.foldl (fun m e => m.set e.1 e.2) m).get k
      = match l.reverse.find? (fun e => decide (e.1 = k)) with
        | some e => some e.2
        | none => m.get k := by
  induction l generalizing m with
  | nil => rfl
  | cons e l ih =>
    rw [List.foldl_cons, ih, List.reverse_cons, List.find?_append]
    cases l.reverse.find? (fun e => decide (e.1 = k)) with
    | some e' => rfl
    | none =>
      simp only [Option.none_or, List.find?_cons, List.find?_nil]
      by_cases h : e.1 = k
      · simp only [h, decide_true]
        exact GoMap.get_set_same _ _ _
      · simp only [h, decide_false]
        exact GoMap.get_set_ne _ _ h

/-- The posting lists after loading: those of the last token that is written as `k`, or the ones that were there. -/
theorem load_get (old mi : MemoryIndex) (order : List Str → List Str) (k : Str) :
    (old.load (mi.save order)).inverted.get k
      = match (order mi.inverted.keys).reverse.find? (fun t => decide (jsonString t = k)) with
        | some t => some ((mi.inverted.get t).getD [])
        | none => old.inverted.get k := by
  simp only [MemoryIndex.load, MemoryIndex.save, get_foldl_set, ← List.map_reverse, List.find?_map, Function.comp_def]
  cases (order mi.inverted.keys).reverse.find? (fun t => decide (jsonString t = k)) <;> rfl

theorem load_get_valid (old mi : MemoryIndex) {order : List Str → List Str} (ho : IsOrder order)
    (hv : ∀ t ∈ mi.inverted.keys, ValidUTF8 t) (k : Str) :
    (old.load (mi.save order)).inverted.get k
      = match mi.inverted.get k with
        | some l => some l
        | none => old.inverted.get k := by
  rw [load_get]
  have hm : ∀ t, t ∈ (order mi.inverted.keys).reverse ↔ t ∈ mi.inverted.keys := fun t => by
    rw [List.mem_reverse]; exact (ho _).mem_iff
  cases hf : (order mi.inverted.keys).reverse.find? (fun t => decide (jsonString t = k)) with
  | some t =>
    have h1 := List.find?_some hf
    have h2 := (hm t).1 (List.mem_of_find?_eq_some hf)
    rw [decide_eq_true_eq, (jsonString_eq_iff t).2 (hv t h2)] at h1
    subst h1
    obtain ⟨l, hl⟩ := (GoMap.mem_keys_iff _ _).1 h2
    simp only [hl, Option.getD_some]
  | none =>
    have : k ∉ mi.inverted.keys := by
      intro hk
      have := List.find?_eq_none.1 hf k ((hm k).2 hk)
      rw [(jsonString_eq_iff k).2 (hv k hk)] at this
      simp at this
    rw [(GoMap.get_eq_none_iff _ _).2 this]

theorem mem_keys_build {tok : Tokenizer} {name : Str} {rs : List DocRequest} {t : Str} :
    t ∈ (buildIndex tok name rs).inverted.keys ↔ ∃ r ∈ rs, t ∈ tok r.statement := by
  rw [GoMap.mem_keys_iff]
  have : (∃ v, (buildIndex tok name rs).inverted.get t = some v) ↔ positions tok rs t ≠ [] := by
    rw [buildIndex_inverted_get]
    by_cases h : positions tok rs t = [] <;> simp [h]
  rw [this]
  constructor
  · intro h
    obtain ⟨i, hi⟩ := List.exists_mem_of_ne_nil _ h
    obtain ⟨r, hr, ht⟩ := (mem_positions tok rs t i).1 hi
    exact ⟨r, List.mem_of_getElem? hr, ht⟩
  · rintro ⟨r, hr, ht⟩ h
    obtain ⟨i, hi⟩ := List.mem_iff_getElem?.1 hr
    have := (mem_positions tok rs t i).2 ⟨r, hi, ht⟩
    rw [h] at this
    cases this

theorem sameIndex_put {tok : Tokenizer} {a b : MemoryIndex} (h : SameIndex a b) (r : DocRequest) :
    SameIndex (a.put tok r) (b.put tok r) := by
  have step : ∀ (next : Nat) (toks : List Str) (m m' : GoMap Str (List Nat)), (∀ t, m.get t = m'.get t) →
      ∀ t, (toks.foldl (addPosting next) m).get t = (toks.foldl (addPosting next) m').get t := by
    intro next toks
    induction toks with
    | nil => intro m m' h; exact h
    | cons t toks ih =>
      intro m m' h
      refine ih _ _ fun u => ?_
      unfold addPosting
      simp only [h t]
      split
      · exact h u
      · rw [GoMap.get_set, GoMap.get_set, h u]
  refine ⟨?_, ?_⟩
  · simp only [MemoryIndex.put, h.1]
  · simp only [MemoryIndex.put, h.1]
    exact step _ _ _ _ h.2

theorem sameIndex_puts {tok : Tokenizer} {a b : MemoryIndex} (h : SameIndex a b) (rs : List DocRequest) :
    SameIndex (rs.foldl (MemoryIndex.put tok) a) (rs.foldl (MemoryIndex.put tok) b) := by
  induction rs generalizing a b with
  | nil => exact h
  | cons r rs ih => exact ih (sameIndex_put h r)

theorem sameIndex_indexer {cp : CopyFn} {a b : MemoryIndex} (h : SameIndex a b) : a.indexer cp = b.indexer cp := by
  have e : a.indexed cp = b.indexed cp := funext fun t => by simp only [MemoryIndex.indexed, h.2 t]
  have e' : a.document = b.document := funext fun i => by simp only [MemoryIndex.document, h.1]
  simp only [MemoryIndex.indexer, MemoryIndex.len, h.1, e, e']

theorem valid_of_no_error (s : Str) (h : runeError ∉ runesOf s) : ValidUTF8 s := by
  generalize hn : s.length = n
  induction n using Nat.strongRecOn generalizing s with
  | ind n ih =>
    by_cases hs : s = []
    · subst hs; exact ⟨[], by simp, rfl⟩
    · rcases C01_characters_are_utf8 s hs with ⟨r, hr, rest, h1, h2⟩ | ⟨_, b, rest, _, h2⟩
      · have hl : rest.length < n := by
          have : (encodeRune r).length ≠ 0 := fun e => encodeRune_ne_nil r (List.length_eq_zero_iff.1 e)
          rw [h1, List.length_append] at hn
          omega
        have hrest : runeError ∉ runesOf rest := by
          rw [runesOf_eq, h2] at h
          rw [runesOf_eq]
          exact fun e => h (List.mem_cons_of_mem _ e)
        obtain ⟨rs, h3, h4⟩ := ih _ hl rest hrest rfl
        refine ⟨r :: rs, ?_, ?_⟩
        · intro q hq
          rcases List.mem_cons.1 hq with rfl | hq
          · exact hr
          · exact h3 q hq
        · rw [h1, h4]; rfl
      · refine absurd ?_ h
        rw [runesOf_eq, h2]
        exact List.mem_cons_self

end Visigoth
