import Verif.Spec.Indexer
import Verif.Proofs.Hits
/-! # The engines on any index -/
namespace Visigoth

theorem intersection_nil_right (a : List Nat) : intersection a [] = [] := by
  apply List.eq_nil_iff_forall_not_mem.2
  intro x hx
  have := (interLoop_mem _ a [] x hx).2
  simp at this

theorem intersection_nil_left (b : List Nat) : intersection [] b = [] := by
  apply List.eq_nil_iff_forall_not_mem.2
  intro x hx
  have := (interLoop_mem _ [] b x hx).1
  simp at this

/-- The positions `LinearSearch` is left with. -/
def narrowed (ix : Indexer) (ts : List Str) (docs : List Nat) : List Nat :=
  ts.foldl (fun ps t => intersection ps (ix.listed t)) docs

theorem narrowed_nil (ix : Indexer) (ts : List Str) : narrowed ix ts [] = [] := by
  induction ts with
  | nil => rfl
  | cons t ts ih =>
    show narrowed ix ts (intersection [] (ix.listed t)) = []
    rw [intersection_nil_left]; exact ih

theorem linearLoop_any (ix : Indexer) : ∀ (ts : List Str) (docs : List Nat),
    (linearLoop ix ts docs).getD [] = narrowed ix ts docs := by
  intro ts
  induction ts with
  | nil => intro docs; rfl
  | cons t ts ih =>
    intro docs
    show _ = narrowed ix ts (intersection docs (ix.listed t))
    simp only [linearLoop]
    cases hi : ix.indexed t with
    | none =>
      have : ix.listed t = [] := by simp [Indexer.listed, hi]
      rw [this, intersection_nil_right, narrowed_nil]; rfl
    | some next =>
      have : ix.listed t = next := by simp [Indexer.listed, hi]
      rw [this]
      simp only
      cases hc : intersection docs next with
      | nil => rw [narrowed_nil]; rfl
      | cons d ds => exact ih _

theorem toResults_any (ix : Indexer) (hits : Nat) (ps : List Nat) :
    toResults ix hits ps
      = (ix.docsAt ps).map fun ds => ds.map fun d => { document := d, hits := hits } := by
  induction ps with
  | nil => rfl
  | cons i ps ih =>
    simp only [toResults, Indexer.docsAt, ih]
    cases ix.document i <;> cases ix.docsAt ps <;> rfl

theorem linearSearch_any (ix : Indexer) (t : Str) (ts : List Str) :
    linearSearch (t :: ts) ix = (ix.docsAt (narrowed ix ts (ix.listed t))).map fun ds =>
      ds.map fun d => { document := d, hits := ts.length + 1 } := by
  have hl := linearLoop_any ix ts (ix.listed t)
  rw [← hl, ← toResults_any]
  show (match ix.indexed t with
    | none => some []
    | some docs => match linearLoop ix ts docs with
      | none => some []
      | some docs => toResults ix (ts.length + 1) docs) = _
  cases hi : ix.indexed t with
  | none =>
    have : ix.listed t = [] := by simp [Indexer.listed, hi]
    rw [this, linearLoop_any, narrowed_nil]; rfl
  | some docs =>
    have : ix.listed t = docs := by simp [Indexer.listed, hi]
    rw [this]
    simp only
    cases linearLoop ix ts docs <;> rfl

theorem narrowed_sublist (ix : Indexer) : ∀ (ts : List Str) (docs : List Nat),
    (narrowed ix ts docs).Sublist docs ∧ ∀ x ∈ narrowed ix ts docs, ∀ t ∈ ts, x ∈ ix.listed t := by
  intro ts
  induction ts with
  | nil => intro docs; exact ⟨List.Sublist.refl _, by simp⟩
  | cons t ts ih =>
    intro docs
    obtain ⟨h1, h2⟩ := ih (intersection docs (ix.listed t))
    refine ⟨h1.trans (intersection_sublist _ _), ?_⟩
    intro x hx s hs
    rcases List.mem_cons.1 hs with rfl | hs
    · exact (interLoop_mem _ _ _ _ (h1.subset hx)).2
    · exact h2 x hx s hs

theorem narrowed_count (ix : Indexer) : ∀ (ts : List Str) (docs : List Nat),
    docs.Pairwise (· ≤ ·) → (∀ t ∈ ts, (ix.listed t).Pairwise (· ≤ ·)) → ∀ x k,
    k ≤ (narrowed ix ts docs).count x ↔ k ≤ docs.count x ∧ ∀ t ∈ ts, k ≤ (ix.listed t).count x := by
  intro ts
  induction ts with
  | nil => intro docs _ _ x k; simp [narrowed]
  | cons t ts ih =>
    intro docs hd hs x k
    have := ih (intersection docs (ix.listed t)) (hd.sublist (intersection_sublist _ _))
      (fun s h => hs s (by simp [h])) x k
    show k ≤ (narrowed ix ts (intersection docs (ix.listed t))).count x ↔ _
    rw [this, intersection_count _ _ hd (hs t (by simp))]
    simp only [List.mem_cons, forall_eq_or_imp]
    constructor
    · rintro ⟨h1, h2⟩; exact ⟨by omega, by omega, h2⟩
    · rintro ⟨h1, h2, h3⟩; exact ⟨by omega, h3⟩

theorem tally_eq (ds : List Doc) (h : HashKey) : entryOf ds h = tally ds h := by
  unfold entryOf tally
  rw [List.countP_eq_length_filter, ← List.head?_filter]
  cases ds.filter (fun d => decide (d.hash = h)) <;> rfl

theorem docsAt_append (ix : Indexer) (a b : List Nat) :
    ix.docsAt (a ++ b) = match ix.docsAt a, ix.docsAt b with
      | some x, some y => some (x ++ y)
      | _, _ => none := by
  induction a with
  | nil => simp only [List.nil_append, Indexer.docsAt]; cases ix.docsAt b <;> rfl
  | cons i a ih =>
    simp only [List.cons_append, Indexer.docsAt, ih]
    cases ix.document i <;> cases ix.docsAt a <;> cases ix.docsAt b <;> rfl

theorem hitsInner_any (ix : Indexer) : ∀ (ps : List Nat) (m : GoMap HashKey SearchResult) (ds : List Doc),
    Counted m ds →
    match ix.docsAt ps with
    | none => hitsInner ix ps m = none
    | some ds' => ∃ m', hitsInner ix ps m = some m' ∧ Counted m' (ds ++ ds') := by
  intro ps
  induction ps with
  | nil => intro m ds hm; exact ⟨m, rfl, by simpa using hm⟩
  | cons i ps ih =>
    intro m ds hm
    simp only [hitsInner, Indexer.docsAt]
    cases hd : ix.document i with
    | none => rfl
    | some d =>
      have hv := hm.visit d
      have hi := ih _ _ hv
      cases hg : m.get d.hash with
      | none =>
        rw [hg] at hi
        cases hds : ix.docsAt ps with
        | none => rw [hds] at hi; simpa only [hg] using hi
        | some ds' =>
          rw [hds] at hi
          obtain ⟨m', h1, h2⟩ := hi
          exact ⟨m', by simpa only [hg] using h1, by simpa using h2⟩
      | some r =>
        rw [hg] at hi
        cases hds : ix.docsAt ps with
        | none => rw [hds] at hi; simpa only [hg] using hi
        | some ds' =>
          rw [hds] at hi
          obtain ⟨m', h1, h2⟩ := hi
          exact ⟨m', by simpa only [hg] using h1, by simpa using h2⟩

theorem hitsPhase1_any (ix : Indexer) : ∀ (tokens : List Str) (m : GoMap HashKey SearchResult)
    (ds : List Doc), Counted m ds →
    match ix.docsAt (tokens.flatMap ix.listed) with
    | none => hitsPhase1 ix tokens m = none
    | some ds' => ∃ m', hitsPhase1 ix tokens m = some m' ∧ Counted m' (ds ++ ds') := by
  intro tokens
  induction tokens with
  | nil => intro m ds hm; exact ⟨m, rfl, by simpa using hm⟩
  | cons t ts ih =>
    intro m ds hm
    rw [List.flatMap_cons, docsAt_append]
    simp only [hitsPhase1]
    cases hi : ix.indexed t with
    | none =>
      have : ix.listed t = [] := by simp [Indexer.listed, hi]
      rw [this]
      have := ih m ds hm
      simp only [Indexer.docsAt]
      cases hds : ix.docsAt (ts.flatMap ix.listed) with
      | none => rw [hds] at this; exact this
      | some ds' => rw [hds] at this; exact this
    | some ps =>
      have : ix.listed t = ps := by simp [Indexer.listed, hi]
      rw [this]
      have h1 := hitsInner_any ix ps m ds hm
      cases hps : ix.docsAt ps with
      | none =>
        rw [hps] at h1
        simp only at h1
        simp only [h1]
      | some ds1 =>
        rw [hps] at h1
        obtain ⟨m', h2, h3⟩ := h1
        have h4 := ih m' _ h3
        simp only [h2]
        cases hds : ix.docsAt (ts.flatMap ix.listed) with
        | none => rw [hds] at h4; exact h4
        | some ds' => rw [hds] at h4; simpa using h4

theorem hitsPhase2_any (ix : Indexer) (n : Nat) (m : GoMap HashKey SearchResult) (met : List Doc)
    (hm : Counted m met) (ps : List Nat) :
    hitsPhase2 ix n m ps = (ix.docsAt ps).map fun all => collected met all n := by
  induction ps with
  | nil => rfl
  | cons i ps ih =>
    simp only [hitsPhase2, Indexer.docsAt, ih]
    cases ix.document i with
    | none => rfl
    | some d =>
      cases ix.docsAt ps with
      | none => rfl
      | some ds =>
        simp only [Option.map_some]
        rw [hm, tally_eq]
        unfold collected
        rw [List.filterMap_cons]
        cases tally met d.hash with
        | none => rfl
        | some r =>
          simp only [Option.filter]
          by_cases h : n ≤ r.hits
          · simp [h]
          · simp [h]

theorem hitsSearch_any (sort : List SearchResult → List SearchResult) (ix : Indexer) (tokens : List Str) :
    hitsSearch sort tokens ix =
      match ix.docsAt (tokens.flatMap ix.listed), ix.docsAt (List.range ix.len) with
      | some met, some all => some (sort (collected met all tokens.length))
      | _, _ => none := by
  have h0 : Counted [] [] := fun h => rfl
  have h1 := hitsPhase1_any ix tokens [] [] h0
  unfold hitsSearch
  cases hm : ix.docsAt (tokens.flatMap ix.listed) with
  | none => rw [hm] at h1; simp only at h1; rw [h1]
  | some met =>
    rw [hm] at h1
    obtain ⟨m', h2, h3⟩ := h1
    rw [h2]
    simp only
    rw [hitsPhase2_any ix _ m' met (by simpa using h3)]
    cases ix.docsAt (List.range ix.len) <;> rfl

theorem docsAt_some {ix : Indexer} {ps : List Nat} (h : ∀ i ∈ ps, ∃ d, ix.document i = some d) :
    ix.docsAt ps = some (ps.filterMap ix.document) := by
  induction ps with
  | nil => rfl
  | cons i ps ih =>
    obtain ⟨d, hd⟩ := h i (by simp)
    simp only [Indexer.docsAt, hd, ih (fun j hj => h j (by simp [hj])), List.filterMap_cons]

theorem docsAt_none {ix : Indexer} {ps : List Nat} : ix.docsAt ps = none ↔
    ∃ i ∈ ps, ix.document i = none := by
  induction ps with
  | nil => simp [Indexer.docsAt]
  | cons i ps ih =>
    simp only [Indexer.docsAt, List.mem_cons, exists_eq_or_imp]
    cases hd : ix.document i with
    | none => simp
    | some d =>
      rw [← ih]
      cases ix.docsAt ps <;> simp

theorem docsAt_congr {ix ix' : Indexer} {ps : List Nat} (h : ∀ i ∈ ps, ix.document i = ix'.document i) :
    ix.docsAt ps = ix'.docsAt ps := by
  induction ps with
  | nil => rfl
  | cons i ps ih =>
    simp only [Indexer.docsAt, h i (by simp), ih (fun j hj => h j (by simp [hj]))]

/-- Two indexes that list the same under the tokens of the query, and have the same documents at the
positions listed and up to the length, are the same to an engine. -/
structure SeenAlike (tokens : List Str) (ix ix' : Indexer) : Prop where
  len : ix.len = ix'.len
  listed : ∀ t ∈ tokens, ix.listed t = ix'.listed t
  shown : ∀ t ∈ tokens, ∀ i ∈ ix.listed t, ix.document i = ix'.document i
  docs : ∀ i, i < ix.len → ix.document i = ix'.document i

theorem narrowed_congr {ix ix' : Indexer} : ∀ (ts : List Str) (docs : List Nat),
    (∀ t ∈ ts, ix.listed t = ix'.listed t) → narrowed ix ts docs = narrowed ix' ts docs := by
  intro ts
  induction ts with
  | nil => intro _ _; rfl
  | cons t ts ih =>
    intro docs h
    show narrowed ix ts (intersection docs (ix.listed t)) = narrowed ix' ts (intersection docs (ix'.listed t))
    rw [h t (by simp)]
    exact ih _ (fun s hs => h s (by simp [hs]))

theorem flatMap_congr_mem {α β : Type} {f g : α → List β} {l : List α} (h : ∀ a ∈ l, f a = g a) :
    l.flatMap f = l.flatMap g := by
  induction l with
  | nil => rfl
  | cons a l ih => rw [List.flatMap_cons, List.flatMap_cons, h a (by simp), ih (fun b hb => h b (by simp [hb]))]

theorem SeenAlike.linear {tokens : List Str} {ix ix' : Indexer} (h : SeenAlike tokens ix ix') :
    linearSearch tokens ix = linearSearch tokens ix' := by
  cases tokens with
  | nil => rfl
  | cons t ts =>
    rw [linearSearch_any, linearSearch_any, ← h.listed t (by simp),
      narrowed_congr ts _ (fun s hs => h.listed s (by simp [hs]))]
    congr 1
    apply docsAt_congr
    intro i hi
    exact h.shown t (by simp) i ((narrowed_sublist ix' ts _).1.subset hi)

theorem SeenAlike.noopAll {tokens : List Str} {ix ix' : Indexer} (h : SeenAlike tokens ix ix') :
    noopAllSearch tokens ix = noopAllSearch tokens ix' := by
  unfold noopAllSearch
  rw [toResults_any, toResults_any, ← h.len]
  congr 1
  exact docsAt_congr fun i hi => h.docs i (List.mem_range.1 hi)

theorem SeenAlike.hits {tokens : List Str} {ix ix' : Indexer} (h : SeenAlike tokens ix ix')
    (sort : List SearchResult → List SearchResult) :
    hitsSearch sort tokens ix = hitsSearch sort tokens ix' := by
  rw [hitsSearch_any, hitsSearch_any, ← h.len, ← flatMap_congr_mem h.listed,
    docsAt_congr (ix := ix) (ix' := ix') (ps := tokens.flatMap ix.listed),
    docsAt_congr (ix := ix) (ix' := ix') (ps := List.range ix.len)]
  · exact fun i hi => h.docs i (List.mem_range.1 hi)
  · intro i hi
    obtain ⟨t, ht, hi⟩ := List.mem_flatMap.1 hi
    exact h.shown t ht i hi

/-! ## A memory index that looks the same -/

/-- A text that says its position by its length; tokenized into the query tokens listed there. -/
def sayTok (ix : Indexer) (tokens : List Str) : Tokenizer := fun s =>
  tokens.filter fun t => decide (s.length ∈ ix.listed t)

def sayDocs (ix : Indexer) : List DocRequest :=
  (List.range ix.len).map fun i =>
    { name := ((ix.document i).map Doc.name).getD [], content := ((ix.document i).map Doc.content).getD [],
      statement := List.replicate i 0, mime := mimeText }

theorem sayDocs_get (ix : Indexer) (i : Nat) (d : Doc) (hi : i < ix.len) (hd : ix.document i = some d) :
    ((sayDocs ix)[i]?).map docOf = some d := by
  simp [sayDocs, hi, hd, docOf]

theorem sayDocs_length (ix : Indexer) : (sayDocs ix).length = ix.len := by simp [sayDocs]

theorem sayDocs_positions (ix : Indexer) (tokens : List Str) (h : ix.Lawful tokens) (t : Str)
    (ht : t ∈ tokens) : positions (sayTok ix tokens) (sayDocs ix) t = ix.listed t := by
  rw [positions_eq_where]
  have e : positionsWhere (fun r => hasToken (sayTok ix tokens) r t) (sayDocs ix)
      = (List.range ix.len).filter fun i => decide (i ∈ ix.listed t) := by
    unfold positionsWhere
    rw [sayDocs_length]
    apply List.filter_congr
    intro i hi
    rw [List.mem_range] at hi
    simp [sayDocs, hi, hasToken, sayTok, ht]
  rw [e]
  apply List.Perm.eq_of_pairwise (le := (· < ·))
  · intro x y _ _ h1 h2; omega
  · exact List.Pairwise.filter _ List.pairwise_lt_range
  · exact h.sorted t ht
  · apply (List.perm_ext_iff_of_nodup _ _).2
    · intro i
      simp only [List.mem_filter, List.mem_range, decide_eq_true_eq]
      exact ⟨fun h => h.2, fun hi => ⟨h.within t ht i hi, hi⟩⟩
    · exact sorted_nodup (List.Pairwise.filter _ List.pairwise_lt_range)
    · exact sorted_nodup (h.sorted t ht)

end Visigoth
