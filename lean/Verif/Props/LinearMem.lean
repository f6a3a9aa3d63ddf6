import Verif.Proofs.LinearMem
import Verif.Props.Ask
/-!
# C84: the documented space of `LinearSearch`

`laterCells`, `linearCells` and `intersectionSizes` are defined in `Spec/LinearMem.lean` from the list of requests.
-/
namespace Visigoth

/-- `intersection` on slices computes what it computes on lists, never reads out of range, and allocates once: room
for as many elements as the longer input has, which is always enough. -/
theorem C84_intersection (grow : Nat → Nat) (a b : List Int) :
    ∃ r, intersectionM grow a b = some (r, [max a.length b.length]) ∧ r.arr.length = max a.length b.length ∧
      r.len ≤ r.arr.length ∧ r.elems = intersection a b :=
  intersectionM_eq grow a b

example : intersectionM (fun n => 2 * n) [1, 3, 5, 7] [3, 5, 8] = some ({ arr := [3, 5, 0, 0], len := 2 }, [4]) := by
  decide +kernel

/-- Exactly how many integers `LinearSearch` allocates; the results are the same. -/
theorem C84_cells_exact (grow : Nat → Nat) (cp : CopyFn) (tok : Tokenizer) (rs : List DocRequest) (tokens : List Str) :
    ∃ l log, linearSearchM grow tokens ((buildIndex tok [] rs).indexer cp) = some (l, log) ∧
      linearSearch tokens ((buildIndex tok [] rs).indexer cp) = some l ∧
      log.sum = linearCells cp.nilEmpty tok rs (asksFor tok rs cp tokens) := by
  rw [asksFor_eq]
  exact linearSearchM_eq grow (indexer_indexed cp tok [] rs) (indexer_document cp tok [] rs) cp.nilEmpty
    (fun t h => indexed_nil cp tok [] rs t h) tokens

/-- The claim: at most `c` times I integers, I being the sizes of the intersections; one more for every token is
granted. -/
def LinearSpace (c : Nat) : Prop :=
  ∀ (grow : Nat → Nat) (cp : CopyFn) (tok : Tokenizer) (rs : List DocRequest) (tokens : List Str) (l : List SearchResult)
    (log : List Nat), linearSearchM grow tokens ((buildIndex tok [] rs).indexer cp) = some (l, log) →
    log.sum ≤ c * (tokens.length + intersectionSizes tok rs [] (asksFor tok rs cp tokens))

/-- One document with "a", `n` documents with "b". -/
def lopsided (n : Nat) : List DocRequest :=
  newDocRequest (str "x") (str "a") :: List.replicate n (newDocRequest (str "y") (str "b"))

theorem lopsided_cells (cp : CopyFn) (n : Nat) :
    asksFor spaceTok (lopsided n) cp [str "a", str "b"] = [str "a", str "b"] ∧
    n ≤ linearCells cp.nilEmpty spaceTok (lopsided n) [str "a", str "b"] ∧
    intersectionSizes spaceTok (lopsided n) [] [str "a", str "b"] = 1 := by
  have ha : hasAll spaceTok [str "a"] (newDocRequest (str "x") (str "a")) = true := by decide +kernel
  have hb : hasAll spaceTok [str "b"] (newDocRequest (str "x") (str "a")) = false := by decide +kernel
  have ha' : hasAll spaceTok [str "a"] (newDocRequest (str "y") (str "b")) = false := by decide +kernel
  have hb' : hasAll spaceTok [str "b"] (newDocRequest (str "y") (str "b")) = true := by decide +kernel
  have hab : hasAll spaceTok [str "a", str "b"] (newDocRequest (str "x") (str "a")) = false := by decide +kernel
  have hab' : hasAll spaceTok [str "a", str "b"] (newDocRequest (str "y") (str "b")) = false := by decide +kernel
  have len : ∀ ts, (matchPositions spaceTok (lopsided n) ts).length = ((lopsided n).filter (hasAll spaceTok ts)).length := by
    intro ts
    rw [matchPositions_eq, positionsWhere_length]
  have la : (matchPositions spaceTok (lopsided n) [str "a"]).length = 1 := by
    rw [len, lopsided, List.filter_cons, if_pos ha, List.filter_replicate, if_neg (by simp [ha'])]
    rfl
  have lb : (matchPositions spaceTok (lopsided n) [str "b"]).length = n := by
    rw [len, lopsided, List.filter_cons, if_neg (by simp [hb]), List.filter_replicate, if_pos hb']
    simp
  have lab : (matchPositions spaceTok (lopsided n) [str "a", str "b"]).length = 0 := by
    rw [len, lopsided, List.filter_cons, if_neg (by simp [hab]), List.filter_replicate, if_neg (by simp [hab'])]
    rfl
  have any : (lopsided n).any (hasAll spaceTok [str "a"]) = true := by simp [lopsided, ha]
  refine ⟨?_, ?_, ?_⟩
  · rw [asksFor_eq]
    simp [linearAsked, any, askedFrom]
  · simp only [linearCells, laterCells]
    rw [la, lb]
    split
    · next h =>
      simp only [Bool.and_eq_true, Bool.not_eq_true'] at h
      have hnil := (any_iff_positions (rs := lopsided n) (hasAll spaceTok [str "b"])).1 h.2
      rw [← matchPositions_eq] at hnil
      rw [hnil] at lb
      simp at lb
      omega
    · omega
  · show (matchPositions spaceTok (lopsided n) ([] ++ [str "a"])).length
      + ((matchPositions spaceTok (lopsided n) ([] ++ [str "a"] ++ [str "b"])).length + 0) = 1
    simp only [List.nil_append, List.cons_append]
    rw [la, lab]

/-- False whatever the constant: the words of the query are never found together, but the positions of the common
one are copied, and the intersection is given room for as many. -/
theorem C84_space_refuted (c : Nat) : ¬ LinearSpace c := by
  intro h
  obtain ⟨l, log, h1, _, h3⟩ := C84_cells_exact id plainCopy spaceTok (lopsided (3 * c + 1)) [str "a", str "b"]
  have h4 := h id plainCopy spaceTok _ _ l log h1
  obtain ⟨e1, e2, e3⟩ := lopsided_cells plainCopy (3 * c + 1)
  rw [e1] at h3 h4
  rw [h3, e3] at h4
  simp only [List.length_cons, List.length_nil] at h4
  omega

/-- C84 when the documents that contain one of the query tokens contain all of them (so for queries of one token).
Missing: the others, where the positions of the documents that contain only some of the tokens count
(`C84_cells_exact`). -/
theorem C84_space_partial (grow : Nat → Nat) (cp : CopyFn) (tok : Tokenizer) (rs : List DocRequest) (tokens : List Str)
    (h : ∀ r ∈ rs, ∀ t ∈ tokens, t ∈ tok r.statement → ∀ u ∈ tokens, u ∈ tok r.statement) (l : List SearchResult)
    (log : List Nat) (hs : linearSearchM grow tokens ((buildIndex tok [] rs).indexer cp) = some (l, log)) :
    log.sum ≤ 2 * intersectionSizes tok rs [] (asksFor tok rs cp tokens) := by
  obtain ⟨l', log', h1, _, h3⟩ := C84_cells_exact grow cp tok rs tokens
  rw [hs] at h1
  cases h1
  rw [h3]
  have hp : asksFor tok rs cp tokens <+: tokens := C71_asks_prefix cp tok rs tokens
  cases ha : asksFor tok rs cp tokens with
  | nil => exact Nat.zero_le _
  | cons t ts =>
    rw [ha] at hp
    have hm : ∀ u ∈ t :: ts, u ∈ tokens := fun u hu => hp.subset hu
    have := laterCells_alike cp.nilEmpty h ts [t] (by simp) (by simpa using hm t (by simp)) (fun u hu => hm u (by simp [hu]))
    simp only [linearCells, intersectionSizes, List.nil_append]
    omega

/-- One token: exactly as many integers as results. -/
theorem C84_one_token (grow : Nat → Nat) (cp : CopyFn) (tok : Tokenizer) (rs : List DocRequest) (t : Str)
    (l : List SearchResult) (log : List Nat)
    (hs : linearSearchM grow [t] ((buildIndex tok [] rs).indexer cp) = some (l, log)) : log.sum = l.length := by
  obtain ⟨l', log', h1, h2, h3⟩ := C84_cells_exact grow cp tok rs [t]
  rw [hs] at h1
  cases h1
  rw [h3, asksFor_eq]
  rw [linearSearch_eq] at h2
  cases h2
  have : linearAsked cp.nilEmpty tok rs [t] = [t] := by simp [linearAsked, askedFrom]
  rw [this]
  simp only [linearCells, laterCells, Nat.add_zero]
  rw [matchPositions_eq, positionsWhere_length]
  simp [andResults]

/-- Always: at most three integers for every pair of a token asked for and a document containing it. -/
theorem C84_bound (grow : Nat → Nat) (cp : CopyFn) (tok : Tokenizer) (rs : List DocRequest) (tokens : List Str)
    (l : List SearchResult) (log : List Nat)
    (hs : linearSearchM grow tokens ((buildIndex tok [] rs).indexer cp) = some (l, log)) :
    log.sum ≤ 3 * postings tok rs (asksFor tok rs cp tokens) := by
  obtain ⟨l', log', h1, _, h3⟩ := C84_cells_exact grow cp tok rs tokens
  rw [hs] at h1
  cases h1
  rw [h3]
  cases asksFor tok rs cp tokens with
  | nil => exact Nat.zero_le _
  | cons t ts =>
    have := laterCells_le (tok := tok) (rs := rs) cp.nilEmpty ts [t]
    simp only [linearCells, postings_cons]
    rw [matchPositions_one] at this ⊢
    omega

/-- Three documents, two words: five positions copied, room for three in the intersection. -/
example : (linearSearchM id [str "go", str "web"] ((buildIndex spaceTok [] [newDocRequest (str "1") (str "go web"),
    newDocRequest (str "2") (str "go"), newDocRequest (str "3") (str "web go")]).indexer plainCopy)).map
      (fun x => (x.1.map (·.document.name), x.2)) = some ([str "1", str "3"], [3, 2, 3]) := by decide +kernel

end Visigoth
