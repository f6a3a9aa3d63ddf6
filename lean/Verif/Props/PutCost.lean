import Verif.Proofs.PutCost
import Verif.Props.Index
/-!
# C88, C89: the size of an index and the cost of putting documents

`different`, `docsWith`, `allTokens`, `pairs`, `putCost` and `buildCost` are defined in `Spec/PutCost.lean`
from the list of requests alone.
-/
namespace Visigoth

/-! ## C88 -/

/-- An index holds one document for each `Put`, one map entry for each different token, and one position
for each pair of a document and a token of it: nothing is stored twice. -/
theorem C88_size (tok : Tokenizer) (name : Str) (rs : List DocRequest) :
    (buildIndex tok name rs).docs.length = rs.length ∧
    (buildIndex tok name rs).inverted.keys.Nodup ∧
    (buildIndex tok name rs).inverted.length = different (allTokens tok rs) ∧
    ((buildIndex tok name rs).inverted.map fun e => e.2.length).sum = pairs tok rs := by
  refine ⟨by rw [buildIndex_docs, List.length_map], buildIndex_keys_nodup tok name rs, ?_, build_total tok name rs⟩
  have := (keys_perm tok name rs).length_eq
  rw [show (buildIndex tok name rs).inverted.keys.length = (buildIndex tok name rs).inverted.length from
    List.length_map _] at this
  exact this

/-- Never more positions than tokens read; exactly as many if and only if no statement repeats a token. -/
theorem C88_positions_at_most_tokens (tok : Tokenizer) (name : Str) (rs : List DocRequest) :
    ((buildIndex tok name rs).inverted.map fun e => e.2.length).sum ≤ (allTokens tok rs).length ∧
    (((buildIndex tok name rs).inverted.map fun e => e.2.length).sum = (allTokens tok rs).length ↔
      ∀ r ∈ rs, (tok r.statement).Nodup) := by
  rw [(C88_size tok name rs).2.2.2]
  induction rs with
  | nil => simp [pairs, allTokens]
  | cons r rs ih =>
    have h1 := different_le (tok r.statement)
    have h2 := different_eq_iff (tok r.statement)
    have e1 : pairs tok (r :: rs) = different (tok r.statement) + pairs tok rs := by simp [pairs]
    have e2 : (allTokens tok (r :: rs)).length = (tok r.statement).length + (allTokens tok rs).length := by
      simp [allTokens]
    rw [e1, e2, List.forall_mem_cons, ← h2, ← ih.2]
    have := ih.1
    constructor
    · omega
    · constructor
      · intro h; constructor <;> omega
      · rintro ⟨a, b⟩; omega

/-- What one more `Put` adds: a document, a position for each of its different tokens, and a map entry for
each of them that no document had. -/
theorem C88_growth (tok : Tokenizer) (name : Str) (rs : List DocRequest) (r : DocRequest) :
    ((buildIndex tok name (rs ++ [r])).inverted.map fun e => e.2.length).sum
      = ((buildIndex tok name rs).inverted.map fun e => e.2.length).sum + different (tok r.statement) ∧
    (buildIndex tok name (rs ++ [r])).inverted.length
      = (buildIndex tok name rs).inverted.length
        + different ((tok r.statement).filter fun t => decide (docsWith tok rs t = 0)) := by
  constructor
  · rw [(C88_size tok name _).2.2.2, (C88_size tok name _).2.2.2]
    simp [pairs]
  · rw [(C88_size tok name _).2.2.1, (C88_size tok name _).2.2.1]
    have e : allTokens tok (rs ++ [r]) = allTokens tok rs ++ tok r.statement := by simp [allTokens]
    rw [e]
    unfold different
    rw [List.eraseDups_append, List.length_append]
    congr 3
    unfold List.removeAll
    apply List.filter_congr
    intro t _
    have : docsWith tok rs t = 0 ↔ t ∉ allTokens tok rs := by
      unfold docsWith allTokens
      rw [List.countP_eq_zero, List.mem_flatMap]
      simp
    by_cases h : t ∈ allTokens tok rs
    · simp [this, h]
    · simp [this, h]

/-- Three documents, four tokens in one of them (one repeated): 3 documents, 5 tokens, 6 positions. -/
def sizeRequests : List DocRequest :=
  [newDocRequest (str "a") (str "java go java rust"), newDocRequest (str "b") (str "go c"),
   newDocRequest (str "c") (str "zig")]

example : (buildIndex spaceTok [] sizeRequests).docs.length = 3 ∧
    (buildIndex spaceTok [] sizeRequests).inverted.length = 5 ∧ different (allTokens spaceTok sizeRequests) = 5 ∧
    ((buildIndex spaceTok [] sizeRequests).inverted.map fun e => e.2.length).sum = 6 ∧
    pairs spaceTok sizeRequests = 6 ∧ (allTokens spaceTok sizeRequests).length = 7 := by decide +kernel

/-! ## C89 -/

/-- Counting the iterations changes nothing about the index. -/
theorem C89_same_index (tok : Tokenizer) (s : MemoryIndex × Nat) (r : DocRequest) (name : Str) (rs : List DocRequest) :
    (MemoryIndex.putC tok s r).1 = s.1.put tok r ∧ (buildIndexC tok name rs).1 = buildIndex tok name rs :=
  ⟨putC_fst tok s r, buildIndexC_fst tok name rs⟩

/-- The iterations `Put` makes: for every token of the statement, as many as earlier documents contain it,
and one more for every repetition of a token. -/
theorem C89_put_cost (tok : Tokenizer) (name : Str) (rs : List DocRequest) (r : DocRequest) :
    (MemoryIndex.putC tok (buildIndex tok name rs, 0) r).2
      = ((tok r.statement).map (docsWith tok rs)).sum + ((tok r.statement).length - different (tok r.statement)) := by
  rw [putC_snd, Nat.zero_add]; rfl

/-- The iterations a whole history of `Put` makes. -/
theorem C89_build_cost (tok : Tokenizer) (name : Str) (rs : List DocRequest) :
    (buildIndexC tok name rs).2 = buildCost tok [] rs := buildIndexC_snd tok name rs

/-- The claim that the cost of `Put` depends on the document only: at most a constant times the number of
tokens of its statement. -/
def PutIsLinear (k : Nat) : Prop :=
  ∀ (tok : Tokenizer) (name : Str) (rs : List DocRequest) (r : DocRequest),
    (MemoryIndex.putC tok (buildIndex tok name rs, 0) r).2 ≤ k * (tok r.statement).length

/-- False for every constant, even for documents of a single token: putting one costs as much as there are
documents with that token. -/
theorem C89_refuted (k : Nat) : ¬ PutIsLinear k := by
  intro h
  have := h (fun s => [s]) [] (List.replicate (k + 1) (newDocRequest [] [])) (newDocRequest [] [])
  rw [C89_put_cost] at this
  simp [docsWith, newDocRequest, List.countP_replicate, different, List.eraseDups_cons] at this
  omega

/-- It holds with the constant `b + 1` for the documents none of whose tokens is in more than `b` stored
documents; and putting any document costs at least as much as there are documents with any one of its
tokens. -/
theorem C89_put_cost_partial (tok : Tokenizer) (name : Str) (rs : List DocRequest) (r : DocRequest) (b : Nat)
    (h : ∀ t ∈ tok r.statement, docsWith tok rs t ≤ b) :
    (MemoryIndex.putC tok (buildIndex tok name rs, 0) r).2 ≤ (b + 1) * (tok r.statement).length := by
  rw [C89_put_cost]
  have h1 : ((tok r.statement).map (docsWith tok rs)).sum ≤ b * (tok r.statement).length := by
    have := sum_le (l := (tok r.statement).map (docsWith tok rs)) (b := b) (by
      intro n hn
      obtain ⟨t, ht, rfl⟩ := List.mem_map.1 hn
      exact h t ht)
    rwa [List.length_map] at this
  rw [Nat.add_mul, Nat.one_mul]
  omega

theorem C89_at_least (tok : Tokenizer) (name : Str) (rs : List DocRequest) (r : DocRequest) (t : Str)
    (h : t ∈ tok r.statement) :
    docsWith tok rs t ≤ (MemoryIndex.putC tok (buildIndex tok name rs, 0) r).2 := by
  rw [putC_snd, Nat.zero_add]
  exact docsWith_le_putCost tok rs r t h

/-- Putting a document costs nothing exactly if its statement repeats no token and no stored document has
one of them. -/
theorem C89_free_iff (tok : Tokenizer) (name : Str) (rs : List DocRequest) (r : DocRequest) :
    (MemoryIndex.putC tok (buildIndex tok name rs, 0) r).2 = 0 ↔
      (tok r.statement).Nodup ∧ ∀ q ∈ rs, ∀ t ∈ tok r.statement, t ∉ tok q.statement := by
  rw [C89_put_cost]
  have hd := different_le (tok r.statement)
  rw [← different_eq_iff, Nat.add_eq_zero_iff]
  have hz : ((tok r.statement).map (docsWith tok rs)).sum = 0 ↔ ∀ t ∈ tok r.statement, docsWith tok rs t = 0 := by
    constructor
    · intro h t ht
      have := le_sum_of_mem (List.mem_map_of_mem (f := docsWith tok rs) ht)
      omega
    · intro h
      have := sum_le (l := (tok r.statement).map (docsWith tok rs)) (b := 0) (by
        intro n hn
        obtain ⟨t, ht, rfl⟩ := List.mem_map.1 hn
        rw [h t ht]; exact Nat.le_refl 0)
      omega
  rw [hz]
  have hc : (∀ t ∈ tok r.statement, docsWith tok rs t = 0) ↔ ∀ q ∈ rs, ∀ t ∈ tok r.statement, t ∉ tok q.statement := by
    unfold docsWith
    constructor
    · intro h q hq t ht
      have := List.countP_eq_zero.1 (h t ht) q hq
      simpa using this
    · intro h t ht
      rw [List.countP_eq_zero]
      intro q hq
      simpa using h q hq t ht
  rw [hc]
  constructor
  · rintro ⟨a, b⟩; exact ⟨by omega, a⟩
  · rintro ⟨a, b⟩; exact ⟨b, by omega⟩

/-- Building an index costs at least `n(n-1)/2` for every token that `n` documents share: it is quadratic in
the number of documents. -/
theorem C89_quadratic (tok : Tokenizer) (name : Str) (rs : List DocRequest) (t : Str) :
    docsWith tok rs t * docsWith tok rs t ≤ 2 * (buildIndexC tok name rs).2 + docsWith tok rs t := by
  rw [C89_build_cost]; exact buildCost_quadratic tok rs t

/-- If no statement repeats a token the cost is exactly the sum of `n(n-1)/2` over all tokens, `n` being the
number of documents with the token (stated without the division). -/
theorem C89_squares (tok : Tokenizer) (name : Str) (rs : List DocRequest) (h : ∀ r ∈ rs, (tok r.statement).Nodup) :
    2 * (buildIndexC tok name rs).2 + (allTokens tok rs).length
      = ((allTokens tok rs).eraseDups.map fun t => docsWith tok rs t * docsWith tok rs t).sum := by
  rw [C89_build_cost, ← total_tokens (fun n => n * n) tok name rs, build_square tok name rs h,
    ← (C88_size tok name rs).2.2.2, ((C88_positions_at_most_tokens tok name rs).2).2 h]

/-- Four equal documents: 0 + 1 + 2 + 3 iterations for each of their two tokens. -/
example : (buildIndexC spaceTok [] (List.replicate 4 (newDocRequest (str "a") (str "java go")))).2 = 12 := by
  decide +kernel

/-- Repetitions: the second `java` of the first document costs one. -/
example : (buildIndexC spaceTok [] sizeRequests).2 = 2 ∧
    (MemoryIndex.putC spaceTok (buildIndex spaceTok [] sizeRequests, 0) (newDocRequest (str "d") (str "go go"))).2 = 5 ∧
    (MemoryIndex.putC spaceTok (buildIndex spaceTok [] sizeRequests, 0) (newDocRequest (str "d") (str "ada"))).2 = 0 := by
  decide +kernel

example : (∀ r ∈ List.replicate 4 (newDocRequest (str "a") (str "java go")), (spaceTok r.statement).Nodup) ∧
    ∀ t ∈ spaceTok (str "go zig"), docsWith spaceTok sizeRequests t ≤ 2 := by decide +kernel

end Visigoth
