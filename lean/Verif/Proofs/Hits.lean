import Verif.Proofs.Linear
/-! # `HitsSearch` -/
namespace Visigoth

/-! ## Phase 1: counting -/

/-- The entry a sequence of visited documents leaves for a hash. -/
def entryOf : List Doc → HashKey → Option SearchResult := fun ds h =>
  match ds.filter (fun d => decide (d.hash = h)) with
  | [] => none
  | q :: qs => some { document := q, hits := (q :: qs).length }

/-- Visiting one more document. -/
theorem entryOf_append (ds : List Doc) (d : Doc) (h : HashKey) :
    entryOf (ds ++ [d]) h =
      if d.hash = h then
        match entryOf ds h with
        | some r => some { r with hits := r.hits + 1 }
        | none => some { document := d, hits := 1 }
      else entryOf ds h := by
  unfold entryOf
  rw [List.filter_append]
  by_cases hd : d.hash = h
  · rw [if_pos hd]
    simp only [List.filter_cons, hd, decide_true, if_true, List.filter_nil]
    cases List.filter (fun d => decide (d.hash = h)) ds with
    | nil => rfl
    | cons q qs => simp
  · rw [if_neg hd]
    simp only [List.filter_cons, hd, decide_false, List.filter_nil]
    simp

/-- The map `docHits` describes the documents visited so far. -/
def Counted (m : GoMap HashKey SearchResult) (ds : List Doc) : Prop := ∀ h, m.get h = entryOf ds h

theorem Counted.visit {m : GoMap HashKey SearchResult} {ds : List Doc} (hm : Counted m ds) (d : Doc) :
    Counted (match m.get d.hash with
      | some r => m.set d.hash { r with hits := r.hits + 1 }
      | none => m.set d.hash { document := d, hits := 1 }) (ds ++ [d]) := by
  intro h
  rw [entryOf_append, ← hm h]
  cases hg : m.get d.hash with
  | none =>
    simp only
    rw [GoMap.get_set]
    split
    · next he => subst he; rw [hg]
    · rfl
  | some r =>
    simp only
    rw [GoMap.get_set]
    split
    · next he => subst he; rw [hg]
    · rfl

theorem hitsInner_ok (ix : Indexer) (rs : List DocRequest)
    (hdoc : ∀ i, ix.document i = (rs[i]?).map docOf) :
    ∀ (ps : List Nat) (m : GoMap HashKey SearchResult) (ds : List Doc),
      (∀ i ∈ ps, i < rs.length) → Counted m ds →
      ∃ m', hitsInner ix ps m = some m' ∧
        Counted m' (ds ++ ps.filterMap fun i => (rs[i]?).map docOf) := by
  intro ps
  induction ps with
  | nil => intro m ds _ hm; exact ⟨m, rfl, by simpa using hm⟩
  | cons i ps ih =>
    intro m ds hps hm
    have hi := hps i (by simp)
    simp only [hitsInner, hdoc, List.filterMap_cons]
    rw [List.getElem?_eq_getElem hi]
    simp only [Option.map_some]
    have hv := hm.visit (docOf rs[i])
    cases hg : m.get (docOf rs[i]).hash with
    | none =>
      rw [hg] at hv
      obtain ⟨m', h1, h2⟩ := ih _ _ (fun j hj => hps j (by simp [hj])) hv
      exact ⟨m', h1, by simpa using h2⟩
    | some r =>
      rw [hg] at hv
      obtain ⟨m', h1, h2⟩ := ih _ _ (fun j hj => hps j (by simp [hj])) hv
      exact ⟨m', h1, by simpa using h2⟩

/-- The documents phase 1 visits. -/
def visited (tok : Tokenizer) (rs : List DocRequest) (tokens : List Str) : List Doc :=
  tokens.flatMap fun t => (rs.filter fun r => hasToken tok r t).map docOf

theorem hitsPhase1_ok (ix : Indexer) (tok : Tokenizer) (rs : List DocRequest)
    (hdoc : ∀ i, ix.document i = (rs[i]?).map docOf)
    (hix : ∀ t, (ix.indexed t).getD [] = positions tok rs t) :
    ∀ (tokens : List Str) (m : GoMap HashKey SearchResult) (ds : List Doc), Counted m ds →
      ∃ m', hitsPhase1 ix tokens m = some m' ∧ Counted m' (ds ++ visited tok rs tokens) := by
  intro tokens
  induction tokens with
  | nil => intro m ds hm; exact ⟨m, rfl, by simpa [visited] using hm⟩
  | cons t ts ih =>
    intro m ds hm
    have hx := hix t
    have hfm := filterMap_positionsWhere rs (fun r => hasToken tok r t) docOf
    rw [← positions_eq_where] at hfm
    have hv : visited tok rs (t :: ts)
        = (rs.filter fun r => hasToken tok r t).map docOf ++ visited tok rs ts := rfl
    simp only [hitsPhase1]
    cases hi : ix.indexed t with
    | none =>
      rw [hi] at hx
      have hx' : positions tok rs t = [] := by simpa using hx.symm
      rw [hx'] at hfm
      obtain ⟨m', h1, h2⟩ := ih m ds hm
      refine ⟨m', h1, ?_⟩
      rw [hv, ← hfm]
      simpa using h2
    | some ps =>
      rw [hi] at hx
      simp only [Option.getD_some] at hx
      subst hx
      obtain ⟨m', h1, h2⟩ := hitsInner_ok ix rs hdoc _ m ds (positions_lt tok rs t) hm
      rw [hfm] at h2
      obtain ⟨m'', h3, h4⟩ := ih m' _ h2
      refine ⟨m'', ?_, ?_⟩
      · simp only [h1]; exact h3
      · rw [hv, ← List.append_assoc]; exact h4

theorem visited_filter (tok : Tokenizer) (rs : List DocRequest) (tokens : List Str) (h : HashKey) :
    (visited tok rs tokens).filter (fun d => decide (d.hash = h))
      = (occurrences tok rs tokens h).map docOf := by
  unfold visited occurrences
  induction tokens with
  | nil => rfl
  | cons t ts ih =>
    simp only [List.flatMap_cons, List.filter_append, List.map_append, ih]
    congr 1
    rw [List.filter_map, List.filter_filter]
    rfl

theorem entryOf_visited (tok : Tokenizer) (rs : List DocRequest) (tokens : List Str) (r : DocRequest) :
    (match entryOf (visited tok rs tokens) (docOf r).hash with
      | some e => if e.hits ≥ tokens.length then some e else none
      | none => none) = hitsEntry tok rs tokens r := by
  unfold entryOf hitsEntry
  rw [visited_filter]
  cases occurrences tok rs tokens (docOf r).hash with
  | nil => rfl
  | cons q qs => simp

/-! ## Phase 2: collecting -/

theorem hitsPhase2_ok (ix : Indexer) (tok : Tokenizer) (rs : List DocRequest)
    (hdoc : ∀ i, ix.document i = (rs[i]?).map docOf) (tokens : List Str)
    (m : GoMap HashKey SearchResult) (hm : Counted m (visited tok rs tokens)) :
    ∀ ps : List Nat, (∀ i ∈ ps, i < rs.length) →
      hitsPhase2 ix tokens.length m ps
        = some (ps.filterMap fun i => (rs[i]?).bind (hitsEntry tok rs tokens)) := by
  intro ps
  induction ps with
  | nil => intro _; rfl
  | cons i ps ih =>
    intro hps
    have hi := hps i (by simp)
    simp only [hitsPhase2, hdoc, List.filterMap_cons]
    rw [List.getElem?_eq_getElem hi]
    simp only [Option.map_some, Option.bind_some]
    rw [ih (fun j hj => hps j (by simp [hj]))]
    simp only
    rw [hm, ← entryOf_visited]
    cases entryOf (visited tok rs tokens) (docOf rs[i]).hash with
    | none => rfl
    | some e => simp only; split <;> rfl

theorem filterMap_range {α β : Type} (l : List α) (f : α → Option β) :
    (List.range l.length).filterMap (fun i => (l[i]?).bind f) = l.filterMap f := by
  induction l using rev_ind with
  | h0 => rfl
  | h1 l a ih =>
    rw [List.length_append, List.length_singleton, List.range_succ, List.filterMap_append,
      List.filterMap_append, ← ih]
    congr 1
    · apply filterMap_congr_left
      intro i hi
      rw [List.mem_range] at hi
      rw [List.getElem?_append_left hi]
    · simp [List.filterMap_cons]

theorem hitsSearch_of (sort : List SearchResult → List SearchResult) (ix : Indexer) (tok : Tokenizer)
    (rs : List DocRequest) (hlen : ix.len = rs.length)
    (hdoc : ∀ i, ix.document i = (rs[i]?).map docOf)
    (hix : ∀ t, (ix.indexed t).getD [] = positions tok rs t) (tokens : List Str) :
    hitsSearch sort tokens ix = some (sort (hitsCollected tok rs tokens)) := by
  unfold hitsSearch
  obtain ⟨m, h1, h2⟩ := hitsPhase1_ok ix tok rs hdoc hix tokens [] [] (fun h => rfl)
  rw [List.nil_append] at h2
  rw [h1]
  simp only
  rw [hlen, hitsPhase2_ok ix tok rs hdoc tokens m h2 _ (fun i hi => List.mem_range.1 hi),
    filterMap_range]
  rfl

theorem hitsSearch_eq (sort : List SearchResult → List SearchResult) (cp : CopyFn) (tok : Tokenizer)
    (name : Str) (rs : List DocRequest) (tokens : List Str) :
    hitsSearch sort tokens ((buildIndex tok name rs).indexer cp)
      = some (sort (hitsCollected tok rs tokens)) :=
  hitsSearch_of sort _ tok rs (indexer_len cp tok name rs) (indexer_document cp tok name rs)
    (indexer_indexed cp tok name rs) tokens

/-! ## Distinct hashes -/

theorem filter_hash_unique (rs : List DocRequest) (hd : DistinctHashes rs) (r : DocRequest)
    (hr : r ∈ rs) (p : DocRequest → Bool) :
    (rs.filter fun q => decide ((docOf q).hash = (docOf r).hash) && p q) = if p r then [r] else [] := by
  induction rs with
  | nil => simp at hr
  | cons a rs ih =>
    obtain ⟨h1, h2⟩ := List.pairwise_cons.1 hd
    rw [List.filter_cons]
    rcases List.mem_cons.1 hr with rfl | hr'
    · have : (rs.filter fun q => decide ((docOf q).hash = (docOf r).hash) && p q) = [] := by
        rw [List.filter_eq_nil_iff]
        intro q hq hh
        simp only [Bool.and_eq_true, decide_eq_true_eq] at hh
        exact h1 q hq hh.1.symm
      rw [this]
      simp
    · have hne : (docOf a).hash ≠ (docOf r).hash := h1 r hr'
      simp only [hne, decide_false, Bool.false_and, Bool.false_eq_true, if_false]
      exact ih h2 hr'

theorem occurrences_distinct (tok : Tokenizer) (rs : List DocRequest) (hd : DistinctHashes rs)
    (tokens : List Str) (r : DocRequest) (hr : r ∈ rs) :
    occurrences tok rs tokens (docOf r).hash
      = (tokens.filter fun t => hasToken tok r t).map fun _ => r := by
  unfold occurrences
  induction tokens with
  | nil => rfl
  | cons t ts ih =>
    rw [List.flatMap_cons, ih, filter_hash_unique rs hd r hr, List.filter_cons]
    split <;> rfl

theorem hitsEntry_distinct (tok : Tokenizer) (rs : List DocRequest) (hd : DistinctHashes rs)
    (tokens : List Str) (r : DocRequest) (hr : r ∈ rs) :
    hitsEntry tok rs tokens r =
      if tokens ≠ [] ∧ hasAll tok tokens r = true then
        some { document := docOf r, hits := tokens.length } else none := by
  unfold hitsEntry
  rw [occurrences_distinct tok rs hd tokens r hr]
  have hlen : (tokens.filter fun t => hasToken tok r t).length ≤ tokens.length :=
    List.length_filter_le _ _
  by_cases hall : hasAll tok tokens r = true
  · have hf : (tokens.filter fun t => hasToken tok r t) = tokens := by
      rw [List.filter_eq_self]
      intro t ht
      exact List.all_eq_true.1 hall t ht
    rw [hf]
    cases tokens with
    | nil => simp
    | cons t ts => simp [hall]
  · rw [if_neg (fun h => hall h.2)]
    have hlt : (tokens.filter fun t => hasToken tok r t).length < tokens.length := by
      rcases Nat.lt_or_eq_of_le hlen with h | h
      · exact h
      · exfalso; apply hall
        apply List.all_eq_true.2
        have := List.length_filter_eq_length_iff.1 h
        exact this
    cases hc : (tokens.filter fun t => hasToken tok r t) with
    | nil => rfl
    | cons a l =>
      rw [hc] at hlt
      have : ¬ tokens.length ≤ (a :: l).length := by omega
      simp only [List.map_cons, List.length_cons, List.length_map]
      rw [if_neg]
      simpa using this

theorem filterMap_if {α β : Type} (l : List α) (p : α → Bool) (f : α → β) :
    l.filterMap (fun x => if p x = true then some (f x) else none) = (l.filter p).map f := by
  induction l with
  | nil => rfl
  | cons a l ih =>
    rw [List.filterMap_cons, List.filter_cons, ih]
    cases p a <;> simp

theorem hitsCollected_distinct (tok : Tokenizer) (rs : List DocRequest) (hd : DistinctHashes rs)
    (tokens : List Str) : hitsCollected tok rs tokens = andResults tok rs tokens := by
  unfold hitsCollected andResults
  rw [filterMap_congr_left (fun r hr => hitsEntry_distinct tok rs hd tokens r hr)]
  split
  · next h0 => subst h0; simp
  · next h0 => simp only [ne_eq, h0, not_false_eq_true, true_and]; exact filterMap_if _ _ _

/-! ## The order -/

theorem less_iff (a b : SearchResult) : less a b = true ↔
    a.hits > b.hits ∨ (a.hits = b.hits ∧ a.document.id < b.document.id) := by
  unfold less
  split
  · next h => simp; omega
  · next h => simp at h; simp [h]

theorem not_less_iff (a b : SearchResult) : less b a = false ↔
    a.hits > b.hits ∨ (a.hits = b.hits ∧ a.document.id ≤ b.document.id) := by
  rw [← Bool.not_eq_true, less_iff, not_or, not_and]
  constructor
  · rintro ⟨h1, h2⟩
    by_cases he : a.hits = b.hits
    · right; exact ⟨he, List.not_lt.1 (h2 he.symm)⟩
    · left; omega
  · rintro (h | ⟨h1, h2⟩)
    · exact ⟨by omega, fun h' => by omega⟩
    · exact ⟨by omega, fun _ => List.not_lt.2 h2⟩

theorem not_less_trans (a b c : SearchResult) (h1 : less b a = false) (h2 : less c b = false) :
    less c a = false := by
  rw [not_less_iff] at *
  rcases h1 with h1 | ⟨h1, h1'⟩ <;> rcases h2 with h2 | ⟨h2, h2'⟩
  · left; omega
  · left; omega
  · left; omega
  · right; exact ⟨by omega, List.le_trans h1' h2'⟩

theorem not_less_total (a b : SearchResult) : less b a = false ∨ less a b = false := by
  rw [not_less_iff, not_less_iff]
  rcases Nat.lt_trichotomy a.hits b.hits with h | h | h
  · right; left; exact h
  · rcases List.le_total a.document.id b.document.id with h' | h'
    · left; right; exact ⟨h, h'⟩
    · right; right; exact ⟨h.symm, h'⟩
  · left; left; exact h

/-- A sorting function that satisfies the contract. -/
def sampleSort (l : List SearchResult) : List SearchResult := l.mergeSort fun a b => !less b a

theorem sampleSort_contract : SortContract sampleSort := by
  intro l
  refine ⟨List.mergeSort_perm _ _, ?_⟩
  have := List.pairwise_mergeSort (le := fun a b => !less b a)
    (fun a b c h1 h2 => by
      simp only [Bool.not_eq_true'] at *
      exact not_less_trans a b c h1 h2)
    (fun a b => by
      rcases not_less_total a b with h | h <;> simp [h]) l
  exact this.imp (by intro a b h; simpa using h)

/-- Sorted rearrangements of a list whose members are determined by `Hits` and ID are equal. -/
theorem sorted_unique (l l' : List SearchResult) (hp : l.Perm l')
    (hdet : ∀ a ∈ l, ∀ b ∈ l, a.hits = b.hits → a.document.id = b.document.id → a = b)
    (h1 : l.Pairwise fun a b => less b a = false) (h2 : l'.Pairwise fun a b => less b a = false) :
    l = l' := by
  refine List.Perm.eq_of_pairwise (le := fun a b => less b a = false) ?_ h1 h2 hp
  intro a b ha hb hab hba
  rw [not_less_iff] at hab hba
  have hb' : b ∈ l := hp.mem_iff.2 hb
  rcases hab with h | ⟨h, h'⟩ <;> rcases hba with g | ⟨g, g'⟩
  · omega
  · omega
  · omega
  · exact hdet a ha b hb' h (List.le_antisymm h' g')

theorem hitsEntry_hash (tok : Tokenizer) (rs : List DocRequest) (tokens : List Str) (r : DocRequest)
    (e : SearchResult) (h : hitsEntry tok rs tokens r = some e) : e.document.hash = (docOf r).hash := by
  unfold hitsEntry at h
  cases hc : occurrences tok rs tokens (docOf r).hash with
  | nil => rw [hc] at h; simp at h
  | cons q qs =>
    rw [hc] at h
    simp only at h
    split at h
    · injection h with h
      subst h
      have : q ∈ occurrences tok rs tokens (docOf r).hash := by rw [hc]; simp
      unfold occurrences at this
      obtain ⟨t, _, ht⟩ := List.mem_flatMap.1 this
      have := (List.mem_filter.1 ht).2
      simp only [Bool.and_eq_true, decide_eq_true_eq] at this
      exact this.1
    · exact absurd h (by simp)

/-- `HitsSearch` results with equal IDs are equal. -/
theorem hitsCollected_det (tok : Tokenizer) (rs : List DocRequest) (tokens : List Str) :
    ∀ a ∈ hitsCollected tok rs tokens, ∀ b ∈ hitsCollected tok rs tokens,
      a.document.id = b.document.id → a = b := by
  intro a ha b hb hid
  unfold hitsCollected at ha hb
  obtain ⟨r, hr, h1⟩ := List.mem_filterMap.1 ha
  obtain ⟨r', hr', h2⟩ := List.mem_filterMap.1 hb
  have e1 := hitsEntry_hash tok rs tokens r a h1
  have e2 := hitsEntry_hash tok rs tokens r' b h2
  have e3 : a.document.hash = b.document.hash := by
    unfold Doc.hash; rw [hid]
  have : hitsEntry tok rs tokens r = hitsEntry tok rs tokens r' := by
    unfold hitsEntry
    rw [show (docOf r).hash = (docOf r').hash by rw [← e1, ← e2, e3]]
  rw [this, h2] at h1
  injection h1 with h1
  exact h1.symm

end Visigoth
