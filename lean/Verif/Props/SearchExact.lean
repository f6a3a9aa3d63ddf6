import Verif.Proofs.Collide
import Verif.Props.Search
/-!
# When `HitsSearch` is right in spite of equal hashes (C16, C18, C22–C26)

`Props/Search.lean` proves the claims for indexes without two documents of one ID hash and refutes them
in general.  Here the exact conditions are found: each claim holds for an index if and only if the
documents of one hash satisfy the condition named.
-/
namespace Visigoth

variable {sort : List SearchResult → List SearchResult} {cp : CopyFn} {tok : Tokenizer} {rs : List DocRequest}

theorem collected_nil : hitsCollected tok rs [] = [] := by
  unfold hitsCollected
  rw [List.filterMap_eq_nil_iff]
  intro r _; rfl

/-- Two documents of one ID without a common token. -/
def quietTwins : List DocRequest := [newDocRequest (str "d") (str "java"), newDocRequest (str "d") (str "go")]

/-! ## C16 and C18 -/

/-- For a given query: exactly if it has no tokens or the documents of every shared hash together
contain fewer tokens than the query. -/
theorem C16_query_guard_exact (hs : SortContract sort) (tokens : List Str) :
    HitsExact sort cp tok rs tokens ↔ tokens = [] ∨ QueryApart tok rs tokens := by
  constructor
  · rintro ⟨l, h1, h2, -⟩
    by_cases h0 : tokens = []
    · exact .inl h0
    · rw [hitsSearch_eq] at h1
      injection h1 with h1
      subst h1
      exact .inr (apart_of_perm h0 ((hs _).1.symm.trans h2))
  · intro h
    refine ⟨_, hitsSearch_eq sort cp tok [] rs tokens, ?_, (hs _).2.imp (fun h => (not_less_iff _ _).1 h)⟩
    refine (hs _).1.trans (List.Perm.of_eq ?_)
    by_cases h0 : tokens = []
    · subst h0; rw [collected_nil]; rfl
    · exact collected_of_apart (h.resolve_left h0) h0

/-- For all queries: exactly if documents that share a hash have no tokens. -/
theorem C16_guard_exact (hs : SortContract sort) :
    (∀ tokens, HitsExact sort cp tok rs tokens) ↔ CollidingEmpty tok rs := by
  constructor
  · intro h
    exact empty_of_apart fun tokens hne => ((C16_query_guard_exact hs tokens).1 (h tokens)).resolve_left hne
  · intro h tokens
    rw [C16_query_guard_exact hs]
    by_cases h0 : tokens = []
    · exact .inl h0
    · exact .inr (apart_of_empty h h0)

theorem agree_iff_exact (hs : SortContract sort) (tokens : List Str) :
    EnginesAgree sort cp tok rs tokens ↔ HitsExact sort cp tok rs tokens := by
  constructor
  · rintro ⟨l, l', h1, h2, h3⟩
    rw [linearSearch_eq] at h1
    injection h1 with h1
    subst h1
    refine ⟨l', h2, h3.symm, ?_⟩
    rw [hitsSearch_eq] at h2
    injection h2 with h2
    subst h2
    exact (hs _).2.imp (fun h => (not_less_iff _ _).1 h)
  · rintro ⟨l, h1, h2, -⟩
    exact ⟨_, l, linearSearch_eq .., h1, h2.symm⟩

theorem C18_query_guard_exact (hs : SortContract sort) (tokens : List Str) :
    EnginesAgree sort cp tok rs tokens ↔ tokens = [] ∨ QueryApart tok rs tokens :=
  (agree_iff_exact hs tokens).trans (C16_query_guard_exact hs tokens)

theorem C18_guard_exact (hs : SortContract sort) :
    (∀ tokens, EnginesAgree sort cp tok rs tokens) ↔ CollidingEmpty tok rs := by
  rw [← C16_guard_exact (cp := cp) hs]
  exact ⟨fun h tokens => (agree_iff_exact hs tokens).1 (h tokens), fun h tokens => (agree_iff_exact hs tokens).2 (h tokens)⟩

/-- A query for which the engines agree although two documents share an ID. -/
example : ¬ DistinctHashes quietTwins ∧ QueryApart spaceTok quietTwins [str "java", str "rust"] := by
  unfold DistinctHashes QueryApart; decide +kernel

/-- An index with two documents of one ID on which the engines always agree. -/
example : ¬ DistinctHashes [newDocRequest (str "d") [], newDocRequest (str "d") [], newDocRequest (str "e") (str "go")] ∧
    CollidingEmpty spaceTok [newDocRequest (str "d") [], newDocRequest (str "d") [], newDocRequest (str "e") (str "go")] := by
  unfold DistinctHashes CollidingEmpty; decide +kernel

/-! ## C22 -/

/-- For a given query: exactly if no hash has more occurrences than the query has tokens. -/
theorem C22_query_guard_exact (hs : SortContract sort) (tokens : List Str) :
    HitsCountTokens sort cp tok rs tokens ↔ ∀ h, (occurrences tok rs tokens h).length ≤ tokens.length := by
  constructor
  · intro hc h
    cases ho : occurrences tok rs tokens h with
    | nil => simp
    | cons q qs =>
      by_cases hl : tokens.length ≤ qs.length + 1
      · have := hc _ (hitsSearch_eq ..) _ ((hs _).1.mem_iff.2 (collected_of ho hl))
        exact Nat.le_of_eq this
      · simp only [List.length_cons]; omega
  · intro hall l h e he
    rw [hitsSearch_eq] at h
    injection h with h
    subst h
    obtain ⟨q, qs, h1, h2, h3⟩ := mem_collected ((hs _).1.mem_iff.1 he)
    have := hall e.document.hash
    rw [h1, List.length_cons] at this
    rw [h3]
    show qs.length + 1 = tokens.length
    omega

/-- For all queries: exactly if documents that share a hash have no token in common. -/
theorem C22_guard_exact (hs : SortContract sort) :
    (∀ tokens, HitsCountTokens sort cp tok rs tokens) ↔ CollidingApart tok rs := by
  constructor
  · intro h
    apply apart_of_le_one
    intro k t
    have := (C22_query_guard_exact hs [t]).1 (h [t]) k
    rwa [occurrences_one] at this
  · intro h tokens
    exact (C22_query_guard_exact hs tokens).2 (fun k => occurrences_le (holders_le_one h k) tokens)

example : ¬ DistinctHashes quietTwins ∧ CollidingApart spaceTok quietTwins := by
  unfold DistinctHashes CollidingApart; decide +kernel

/-! ## C23 -/

/-- The order of the query tokens never matters: exactly if among the documents of one hash the first
one containing a token is the same for all tokens. -/
theorem C23_guard_exact (hs : SortContract sort) :
    (∀ ts ts' : List Str, ts.Perm ts' → hitsSearch sort ts ((buildIndex tok [] rs).indexer cp)
        = hitsSearch sort ts' ((buildIndex tok [] rs).indexer cp)) ↔ CollidingSame tok rs := by
  constructor
  · intro h k t t' q q' hq hq'
    have := h [t, t'] [t', t] (List.Perm.swap _ _ _)
    rw [hitsSearch_eq, hitsSearch_eq] at this
    injection this with this
    obtain ⟨l, hl⟩ : ∃ l, holders tok rs k t = q :: l := by
      cases hh : holders tok rs k t <;> rw [hh] at hq <;> simp_all
    obtain ⟨l', hl'⟩ : ∃ l', holders tok rs k t' = q' :: l' := by
      cases hh : holders tok rs k t' <;> rw [hh] at hq' <;> simp_all
    have ho : occurrences tok rs [t, t'] k = q :: (l ++ (q' :: l')) := by
      rw [occurrences_cons, occurrences_one, hl, hl']; rfl
    have ho' : occurrences tok rs [t', t] k = q' :: (l' ++ (q :: l)) := by
      rw [occurrences_cons, occurrences_one, hl, hl']; rfl
    have hm := collected_of ho (by simp; omega)
    rw [← (hs _).1.mem_iff, this, (hs _).1.mem_iff] at hm
    obtain ⟨q2, qs2, h1, _, h3⟩ := mem_collected hm
    have hk : (docOf q).hash = k := occ_hash (by rw [ho]; exact List.mem_cons_self ..)
    simp only [hk, ho', List.cons.injEq] at h1
    rw [← h1.1] at h3
    exact congrArg SearchResult.document h3
  · intro h ts ts' hp
    rw [hitsSearch_eq, hitsSearch_eq]
    congr 2
    unfold hitsCollected
    apply filterMap_congr_left
    intro r _
    have hperm : (occurrences tok rs ts (docOf r).hash).Perm (occurrences tok rs ts' (docOf r).hash) := hp.flatMap_right _
    cases ho : occurrences tok rs ts (docOf r).hash with
    | nil =>
      rw [ho] at hperm
      have ho' := hperm.symm.eq_nil
      unfold hitsEntry
      rw [ho, ho']
    | cons q qs =>
      cases ho' : occurrences tok rs ts' (docOf r).hash with
      | nil => rw [ho, ho'] at hperm; exact absurd hperm.eq_nil (by simp)
      | cons q' qs' =>
        obtain ⟨t, _, ht⟩ := occurrences_head ho
        obtain ⟨t', _, ht'⟩ := occurrences_head ho'
        have hd := h _ t t' q q' ht ht'
        rw [ho, ho'] at hperm
        have hlen := hperm.length_eq
        unfold hitsEntry
        rw [ho, ho']
        simp only [hlen, hp.length_eq, hd]

/-! ## C24 -/

/-- Adding tokens to a query only removes documents: exactly if documents that share a hash have no
token in common and those of them that contain tokens are the same document. -/
theorem C24_guard_exact (hs : SortContract sort) :
    (∀ ts ts' : List Str, ts ≠ [] → (∀ t ∈ ts, t ∈ ts') →
      ∃ l l', hitsSearch sort ts ((buildIndex tok [] rs).indexer cp) = some l ∧
        hitsSearch sort ts' ((buildIndex tok [] rs).indexer cp) = some l' ∧
        ∀ d, d ∈ l'.map (·.document) → d ∈ l.map (·.document)) ↔
    CollidingApart tok rs ∧ CollidingSame tok rs := by
  have unfold' : ∀ ts ts' : List Str, (∃ l l', hitsSearch sort ts ((buildIndex tok [] rs).indexer cp) = some l ∧
        hitsSearch sort ts' ((buildIndex tok [] rs).indexer cp) = some l' ∧
        ∀ d, d ∈ l'.map (·.document) → d ∈ l.map (·.document)) ↔
      ∀ e' ∈ hitsCollected tok rs ts', ∃ e ∈ hitsCollected tok rs ts, e.document = e'.document := by
    intro ts ts'
    constructor
    · rintro ⟨l, l', h1, h2, h3⟩ e' he'
      rw [hitsSearch_eq] at h1 h2
      injection h1 with h1
      injection h2 with h2
      subst h1 h2
      obtain ⟨e, he, hd⟩ := List.mem_map.1 (h3 _ (List.mem_map.2 ⟨e', (hs _).1.mem_iff.2 he', rfl⟩))
      exact ⟨e, (hs _).1.mem_iff.1 he, hd⟩
    · intro h
      refine ⟨_, _, hitsSearch_eq .., hitsSearch_eq .., fun d hd => ?_⟩
      obtain ⟨e', he', rfl⟩ := List.mem_map.1 hd
      obtain ⟨e, he, hd⟩ := h e' ((hs _).1.mem_iff.1 he')
      exact List.mem_map.2 ⟨e, (hs _).1.mem_iff.2 he, hd⟩
  constructor
  · intro h
    constructor
    · apply apart_of_le_one
      intro k t
      apply Nat.le_of_not_lt
      intro hlt
      obtain ⟨u, hu⟩ := fresh_token tok rs
      have ho : occurrences tok rs [t, u] k = holders tok rs k t := by
        rw [occurrences_cons, occurrences_one, holders_fresh hu, List.append_nil]
      cases hh : holders tok rs k t with
      | nil => rw [hh] at hlt; simp at hlt
      | cons q qs =>
        rw [hh] at hlt ho
        obtain ⟨e, he, _⟩ := (unfold' [u] [t, u]).1 (h [u] [t, u] (by simp) (by simp)) _ (collected_of ho (by simp at hlt ⊢; omega))
        obtain ⟨q', qs', h1, _⟩ := mem_collected he
        rw [occurrences_one, holders_fresh hu] at h1
        cases h1
    · intro k t t' q q' hq hq'
      obtain ⟨l, hl⟩ : ∃ l, holders tok rs k t = q :: l := by
        cases hh : holders tok rs k t <;> rw [hh] at hq <;> simp_all
      obtain ⟨l', hl'⟩ : ∃ l', holders tok rs k t' = q' :: l' := by
        cases hh : holders tok rs k t' <;> rw [hh] at hq' <;> simp_all
      have ho : occurrences tok rs [t, t'] k = q :: (l ++ (q' :: l')) := by
        rw [occurrences_cons, occurrences_one, hl, hl']; rfl
      obtain ⟨e, he, hd⟩ := (unfold' [t'] [t, t']).1 (h [t'] [t, t'] (by simp) (by simp)) _ (collected_of ho (by simp; omega))
      obtain ⟨q2, qs2, h1, _, h3⟩ := mem_collected he
      have hk : (docOf q).hash = k := occ_hash (by rw [ho]; exact List.mem_cons_self ..)
      have hd' : e.document = docOf q := hd
      rw [hd', hk, occurrences_one, hl', List.cons.injEq] at h1
      rw [← hd', h3, ← h1.1]
  · rintro ⟨ha, hsame⟩ ts ts' hne hsub
    rw [unfold']
    intro e' he'
    obtain ⟨q', qs', h1, h2, h3⟩ := mem_collected he'
    have hfull := occurrences_full (holders_le_one ha e'.document.hash) (tokens := ts') (by rw [h1]; simpa using h2)
    have hle := occurrences_of_full (tokens := ts) fun t ht => hfull t (hsub t ht)
    cases ho : occurrences tok rs ts e'.document.hash with
    | nil => rw [ho] at hle; exact absurd (List.length_eq_zero_iff.1 (Nat.le_zero.1 hle)) hne
    | cons q qs =>
      rw [ho, List.length_cons] at hle
      refine ⟨_, collected_of ho hle, ?_⟩
      obtain ⟨t, _, ht⟩ := occurrences_head ho
      obtain ⟨t', _, ht'⟩ := occurrences_head h1
      have := hsame _ t t' q q' ht ht'
      show docOf q = _
      rw [this, h3]

/-- One document put twice with different texts to search: equal hashes, but the claims C22–C24 and C26
hold. -/
def retaggedRequests : List DocRequest :=
  [{ name := str "d", content := str "c", statement := str "java", mime := mimeText },
   { name := str "d", content := str "c", statement := str "go", mime := mimeText }]

example : ¬ DistinctHashes retaggedRequests ∧ CollidingApart spaceTok retaggedRequests ∧
    ∀ r ∈ retaggedRequests, docOf r = { name := str "d", content := str "c" } := by
  unfold DistinctHashes CollidingApart; decide +kernel

/-- Documents that are equal up to the text to search satisfy `CollidingSame`. -/
theorem collidingSame_of_docs {d : Doc} (h : ∀ r ∈ rs, docOf r = d) : CollidingSame tok rs := by
  intro k t t' q q' hq hq'
  have h1 := mem_holders.1 (List.mem_of_head? hq)
  have h2 := mem_holders.1 (List.mem_of_head? hq')
  rw [h q h1.1, h q' h2.1]

/-! ## C25 -/

theorem holders_append (rs more : List DocRequest) (k : HashKey) (t : Str) :
    holders tok (rs ++ more) k t = holders tok rs k t ++ holders tok more k t := List.filter_append ..

theorem occurrences_length_append (rs more : List DocRequest) (tokens : List Str) (k : HashKey) :
    (occurrences tok (rs ++ more) tokens k).length
      = (occurrences tok rs tokens k).length + (occurrences tok more tokens k).length := by
  induction tokens with
  | nil => rfl
  | cons t ts ih =>
    rw [occurrences_cons, occurrences_cons, occurrences_cons, holders_append]
    simp only [List.length_append, ih]
    omega

/-- Documents put later only add results: exactly if no later document with a token has the hash of
earlier documents that contain that token or have a token in common. -/
theorem C25_guard_exact (hs : SortContract sort) (more : List DocRequest) :
    (∀ tokens, ∃ l l', hitsSearch sort tokens ((buildIndex tok [] rs).indexer cp) = some l ∧
      hitsSearch sort tokens ((buildIndex tok [] (rs ++ more)).indexer cp) = some l' ∧ l.Sublist l') ↔
    LaterApart tok rs more := by
  constructor
  · intro h r hr u hu
    -- a query whose tokens include `u` is not answered from `rs` for this hash
    have key : ∀ tokens, u ∈ tokens → (occurrences tok rs tokens (docOf r).hash).length < tokens.length ∨
        occurrences tok rs tokens (docOf r).hash = [] := by
      intro tokens hmem
      cases ho : occurrences tok rs tokens (docOf r).hash with
      | nil => exact .inr rfl
      | cons q qs =>
        refine .inl (Nat.lt_of_not_le fun hle => ?_)
        obtain ⟨l, l', h1, h2, h3⟩ := h tokens
        rw [hitsSearch_eq] at h1 h2
        injection h1 with h1
        injection h2 with h2
        subst h1 h2
        have hm := h3.subset ((hs _).1.mem_iff.2 (collected_of ho hle))
        rw [(hs _).1.mem_iff] at hm
        obtain ⟨q', qs', g1, _, g3⟩ := mem_collected hm
        have hk : (docOf q).hash = (docOf r).hash := occ_hash (by rw [ho]; exact List.mem_cons_self ..)
        have hlen := occurrences_length_append (tok := tok) rs more tokens (docOf r).hash
        simp only [hk] at g1
        rw [g1, ho] at hlen
        have hpos := List.length_pos_of_mem (mem_occurrences.2 ⟨u, hmem, mem_holders.2 ⟨hr, rfl, hu⟩⟩ :
          r ∈ occurrences tok more tokens (docOf r).hash)
        have hhits : qs.length + 1 = qs'.length + 1 := congrArg SearchResult.hits g3
        simp only [List.length_cons] at hlen
        omega
    constructor
    · intro q hq hqh hqu
      have hm := mem_holders.2 ⟨hq, hqh, hqu⟩
      rcases key [u] (by simp) with h1 | h1 <;> rw [occurrences_one] at h1
      · have := List.length_pos_of_mem hm
        simp only [List.length_singleton] at h1
        omega
      · rw [h1] at hm; cases hm
    · apply pairwise_of_sublist
      intro q q' hsub hq hq' t ht ht'
      have h2 : 2 ≤ (holders tok rs (docOf r).hash t).length :=
        pair_length hsub (by simp [hq, hasToken, ht]) (by simp [hq', hasToken, ht'])
      rcases key [t, u] (by simp) with h1 | h1 <;> rw [occurrences_cons] at h1
      · simp only [List.length_append, List.length_cons, List.length_nil] at h1
        omega
      · rw [List.append_eq_nil_iff] at h1
        rw [h1.1] at h2
        simp at h2
  · intro h tokens
    refine ⟨_, _, hitsSearch_eq .., hitsSearch_eq .., ?_⟩
    have hsub : (hitsCollected tok rs tokens).Sublist (hitsCollected tok (rs ++ more) tokens) := by
      have keep : ∀ r ∈ rs, ∀ e, hitsEntry tok rs tokens r = some e → hitsEntry tok (rs ++ more) tokens r = some e := by
        intro r hr e he
        obtain ⟨q, qs, h1, h2, h3⟩ := hitsEntry_eq_some.1 he
        have hnil : ∀ t ∈ tokens, holders tok more (docOf r).hash t = [] := by
          intro t ht
          apply List.eq_nil_iff_forall_not_mem.2
          intro x hx
          obtain ⟨g1, g2, g3⟩ := mem_holders.1 hx
          obtain ⟨k1, k2⟩ := h x g1 t g3
          rw [g2] at k1 k2
          have hone : ∀ u, (holders tok rs (docOf r).hash u).length ≤ 1 := by
            intro u
            apply Nat.le_of_not_lt
            intro hlt
            match hl : holders tok rs (docOf r).hash u with
            | [] => rw [hl] at hlt; simp at hlt
            | [_] => rw [hl] at hlt; simp at hlt
            | a :: b :: l =>
              have hsub : [a, b].Sublist rs :=
                ((List.nil_sublist l).cons_cons b |>.cons_cons a).trans (hl ▸ List.filter_sublist)
              have ha := mem_holders.1 (hl ▸ List.mem_cons_self .. : a ∈ holders tok rs (docOf r).hash u)
              have hb := mem_holders.1 (hl ▸ List.mem_cons_of_mem _ (List.mem_cons_self ..) :
                b ∈ holders tok rs (docOf r).hash u)
              exact pairwise_sublist k2 hsub ha.2.1 hb.2.1 u ha.2.2 hb.2.2
          refine occurrences_full hone (tokens := tokens) (by rw [h1]; exact h2) t ht ?_
          apply List.eq_nil_iff_forall_not_mem.2
          intro y hy
          obtain ⟨y1, y2, y3⟩ := mem_holders.1 hy
          exact k1 y y1 y2 y3
        refine hitsEntry_eq_some.2 ⟨q, qs, ?_, h2, h3⟩
        rw [← h1]
        have same : ∀ ts : List Str, (∀ t ∈ ts, holders tok more (docOf r).hash t = []) →
            occurrences tok (rs ++ more) ts (docOf r).hash = occurrences tok rs ts (docOf r).hash := by
          intro ts
          induction ts with
          | nil => intro _; rfl
          | cons t ts ih =>
            intro ht
            rw [occurrences_cons, occurrences_cons, ih fun u hu => ht u (List.mem_cons_of_mem _ hu), holders_append,
              ht t (List.mem_cons_self ..), List.append_nil]
        exact same tokens hnil
      have step : ∀ l : List DocRequest, (∀ r ∈ l, r ∈ rs) →
          (l.filterMap (hitsEntry tok rs tokens)).Sublist (l.filterMap (hitsEntry tok (rs ++ more) tokens)) := by
        intro l
        induction l with
        | nil => intro _; exact .slnil
        | cons r l ih =>
          intro hl
          have ih := ih fun x hx => hl x (List.mem_cons_of_mem _ hx)
          rw [List.filterMap_cons, List.filterMap_cons]
          cases he : hitsEntry tok rs tokens r with
          | some e =>
            rw [keep r (hl r (List.mem_cons_self ..)) e he]
            exact ih.cons_cons e
          | none =>
            cases hitsEntry tok (rs ++ more) tokens r with
            | none => exact ih
            | some e' => exact ih.cons e'
      have h1 := step rs fun _ h => h
      unfold hitsCollected
      rw [List.filterMap_append]
      exact h1.trans (List.sublist_append_left _ _)
    refine sublist_of_sorted ?_ (fun a => ?_) (hs _).2 (hs _).2
    · intro a ha b hb _ hid
      exact hitsCollected_det tok (rs ++ more) tokens a ((hs _).1.mem_iff.1 ha) b ((hs _).1.mem_iff.1 hb) hid
    · rw [(hs _).1.count_eq, (hs _).1.count_eq]
      exact hsub.count_le a

/-- Two earlier documents of one ID, and a later one of the same ID with a new token. -/
example : ¬ DistinctHashes (quietTwins ++ [newDocRequest (str "d") (str "rust")]) ∧
    LaterApart spaceTok quietTwins [newDocRequest (str "d") (str "rust")] := by
  constructor
  · unfold DistinctHashes; decide +kernel
  · unfold LaterApart
    rw [List.forall_mem_singleton]
    have h1 : ∀ u ∈ spaceTok (str "rust"), ∀ q ∈ quietTwins, u ∉ spaceTok q.statement := by decide +kernel
    have h2 : quietTwins.Pairwise fun q q' => ∀ t ∈ spaceTok q.statement, t ∉ spaceTok q'.statement := by decide +kernel
    exact fun u hu => ⟨fun q hq _ => h1 u hu q hq, h2.imp fun h _ _ => h⟩

/-! ## C26 -/

/-- A query with an unknown token finds nothing: exactly if documents that share a hash have no token in
common. -/
theorem C26_guard_exact (hs : SortContract sort) :
    (∀ (tokens : List Str) (u : Str), u ∈ tokens → (∀ r ∈ rs, u ∉ tok r.statement) →
      hitsSearch sort tokens ((buildIndex tok [] rs).indexer cp) = some []) ↔ CollidingApart tok rs := by
  constructor
  · intro h
    apply apart_of_le_one
    intro k t
    apply Nat.le_of_not_lt
    intro hlt
    obtain ⟨u, hu⟩ := fresh_token tok rs
    have h1 := h [t, u] u (by simp) hu
    rw [hitsSearch_eq] at h1
    injection h1 with h1
    have h2 : hitsCollected tok rs [t, u] = [] := ((h1 ▸ (hs (hitsCollected tok rs [t, u])).1).symm).eq_nil
    have ho : occurrences tok rs [t, u] k = holders tok rs k t := by
      rw [occurrences_cons, occurrences_one, holders_fresh hu, List.append_nil]
    cases hh : holders tok rs k t with
    | nil => rw [hh] at hlt; simp at hlt
    | cons q qs =>
      rw [hh] at hlt ho
      have := collected_of ho (by simp at hlt ⊢; omega)
      rw [h2] at this
      cases this
  · intro h tokens u hu hun
    rw [hitsSearch_eq]
    have : hitsCollected tok rs tokens = [] := by
      apply List.eq_nil_iff_forall_not_mem.2
      intro e he
      obtain ⟨q, qs, h1, h2, _⟩ := mem_collected he
      exact occurrences_full (holders_le_one h _) (by rw [h1]; simpa using h2) u hu (holders_fresh hun _)
    rw [this]
    congr 1
    exact List.perm_nil.1 (hs []).1

end Visigoth
