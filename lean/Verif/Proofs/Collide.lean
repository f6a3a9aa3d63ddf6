import Verif.Spec.Collide
import Verif.Proofs.Hits
/-! # `HitsSearch` on documents whose IDs have the same hash -/
namespace Visigoth

variable {tok : Tokenizer} {rs : List DocRequest}

theorem occurrences_cons (t : Str) (ts : List Str) (h : HashKey) :
    occurrences tok rs (t :: ts) h = holders tok rs h t ++ occurrences tok rs ts h := rfl

theorem occurrences_one (t : Str) (h : HashKey) : occurrences tok rs [t] h = holders tok rs h t := by
  rw [occurrences_cons]; simp [occurrences]

theorem mem_holders {h : HashKey} {t : Str} {r : DocRequest} :
    r ∈ holders tok rs h t ↔ r ∈ rs ∧ (docOf r).hash = h ∧ t ∈ tok r.statement := by
  simp [holders, hasToken]

theorem mem_occurrences {tokens : List Str} {h : HashKey} {r : DocRequest} :
    r ∈ occurrences tok rs tokens h ↔ ∃ t ∈ tokens, r ∈ holders tok rs h t := by
  unfold occurrences holders
  exact List.mem_flatMap

/-- Two documents at different positions. -/
theorem pair_length {p : DocRequest → Bool} {q r : DocRequest} (hs : [q, r].Sublist rs) (hq : p q = true) (hr : p r = true) :
    2 ≤ (rs.filter p).length := by
  have := (hs.filter p).length_le
  simpa [hq, hr] using this

/-- A document is alone with its hash, or two documents share the hash. -/
theorem alone_or_pair {r : DocRequest} (hr : r ∈ rs) :
    (rs.filter fun q => decide ((docOf q).hash = (docOf r).hash)) = [r] ∨
      ∃ q, ([q, r].Sublist rs ∨ [r, q].Sublist rs) ∧ (docOf q).hash = (docOf r).hash := by
  have hm : r ∈ rs.filter fun q => decide ((docOf q).hash = (docOf r).hash) := by simp [hr]
  have hall : ∀ q ∈ rs.filter (fun q => decide ((docOf q).hash = (docOf r).hash)), (docOf q).hash = (docOf r).hash := by
    intro q hq; simpa using (List.mem_filter.1 hq).2
  have hsub : (rs.filter fun q => decide ((docOf q).hash = (docOf r).hash)).Sublist rs := List.filter_sublist
  revert hm hall hsub
  generalize (rs.filter fun q => decide ((docOf q).hash = (docOf r).hash)) = l
  intro hm hall hsub
  match l with
  | [] => cases hm
  | [q] => rw [List.mem_singleton] at hm; subst hm; exact .inl rfl
  | q :: q' :: l =>
    rcases List.mem_cons.1 hm with h | h
    · subst h
      exact .inr ⟨q', .inr (((List.nil_sublist l).cons_cons q' |>.cons_cons r).trans hsub), hall q' (by simp)⟩
    · exact .inr ⟨q, .inl (((List.singleton_sublist.2 h).cons_cons q).trans hsub), hall q (by simp)⟩

theorem pairwise_sublist {R : DocRequest → DocRequest → Prop} (h : rs.Pairwise R) {q r : DocRequest} (hs : [q, r].Sublist rs) :
    R q r := by
  have := h.sublist hs
  simpa using this

theorem pairwise_of_sublist {R : DocRequest → DocRequest → Prop} (h : ∀ q r, [q, r].Sublist rs → R q r) : rs.Pairwise R :=
  List.pairwise_iff_forall_sublist.2 fun hs => h _ _ hs

/-! ## The entry of a document -/

theorem hitsEntry_eq_some {tokens : List Str} {r : DocRequest} {e : SearchResult} :
    hitsEntry tok rs tokens r = some e ↔ ∃ q qs, occurrences tok rs tokens (docOf r).hash = q :: qs ∧
      tokens.length ≤ qs.length + 1 ∧ e = { document := docOf q, hits := qs.length + 1 } := by
  unfold hitsEntry
  cases occurrences tok rs tokens (docOf r).hash with
  | nil => simp
  | cons q qs =>
    simp only [List.length_cons, List.cons.injEq, Option.ite_none_right_eq_some, Option.some.injEq]
    constructor
    · rintro ⟨h1, h2⟩; exact ⟨q, qs, ⟨rfl, rfl⟩, h1, h2.symm⟩
    · rintro ⟨q', qs', ⟨rfl, rfl⟩, h1, h2⟩; exact ⟨h1, h2.symm⟩

theorem hitsEntry_none {tokens : List Str} {r : DocRequest}
    (h : (occurrences tok rs tokens (docOf r).hash).length < tokens.length) : hitsEntry tok rs tokens r = none := by
  cases he : hitsEntry tok rs tokens r with
  | none => rfl
  | some e =>
    obtain ⟨q, qs, h1, h2, _⟩ := hitsEntry_eq_some.1 he
    rw [h1] at h
    simp at h
    omega

/-- Membership in what is collected: any document of the hash of the first occurrence. -/
theorem mem_collected {tokens : List Str} {e : SearchResult} (he : e ∈ hitsCollected tok rs tokens) :
    ∃ q qs, occurrences tok rs tokens e.document.hash = q :: qs ∧ tokens.length ≤ qs.length + 1 ∧
      e = { document := docOf q, hits := qs.length + 1 } := by
  obtain ⟨r, hr, h⟩ := List.mem_filterMap.1 he
  have hh := hitsEntry_hash tok rs tokens r e h
  rw [hh]
  exact hitsEntry_eq_some.1 h

theorem collected_of {tokens : List Str} {h : HashKey} {q : DocRequest} {qs : List DocRequest}
    (ho : occurrences tok rs tokens h = q :: qs) (hl : tokens.length ≤ qs.length + 1) :
    { document := docOf q, hits := qs.length + 1 } ∈ hitsCollected tok rs tokens := by
  have hm : q ∈ occurrences tok rs tokens h := by rw [ho]; simp
  obtain ⟨t, _, ht⟩ := mem_occurrences.1 hm
  obtain ⟨hq, hh, _⟩ := mem_holders.1 ht
  refine List.mem_filterMap.2 ⟨q, hq, hitsEntry_eq_some.2 ⟨q, qs, ?_, hl, rfl⟩⟩
  rw [hh]; exact ho

theorem occ_hash {tokens : List Str} {h : HashKey} {q : DocRequest} (hm : q ∈ occurrences tok rs tokens h) :
    (docOf q).hash = h := by
  obtain ⟨t, _, ht⟩ := mem_occurrences.1 hm
  exact (mem_holders.1 ht).2.1

/-! ## C16: exactness per query -/

theorem occurrences_alone {r : DocRequest} (h : (rs.filter fun q => decide ((docOf q).hash = (docOf r).hash)) = [r])
    (tokens : List Str) :
    occurrences tok rs tokens (docOf r).hash = (tokens.filter fun t => hasToken tok r t).map fun _ => r := by
  induction tokens with
  | nil => rfl
  | cons t ts ih =>
    rw [occurrences_cons, ih, List.filter_cons]
    have : holders tok rs (docOf r).hash t = if hasToken tok r t then [r] else [] := by
      unfold holders
      have : (rs.filter fun q => decide ((docOf q).hash = (docOf r).hash) && hasToken tok q t)
          = (rs.filter fun q => decide ((docOf q).hash = (docOf r).hash)).filter fun q => hasToken tok q t := by
        rw [List.filter_filter]; congr 1; funext q; exact Bool.and_comm _ _
      rw [this, h, List.filter_cons]
      split <;> rfl
    rw [this]
    split <;> rfl

theorem hasAll_occurrences {tokens : List Str} {r : DocRequest} (hr : r ∈ rs) (hall : hasAll tok tokens r = true) :
    tokens.length ≤ (occurrences tok rs tokens (docOf r).hash).length := by
  induction tokens with
  | nil => simp
  | cons t ts ih =>
    unfold hasAll at hall
    rw [List.all_cons, Bool.and_eq_true] at hall
    have := ih hall.2
    have hm : r ∈ holders tok rs (docOf r).hash t := mem_holders.2 ⟨hr, rfl, by simpa [hasToken] using hall.1⟩
    have := List.length_pos_of_mem hm
    rw [occurrences_cons, List.length_append, List.length_cons]
    omega

theorem collected_of_apart {tokens : List Str} (h : QueryApart tok rs tokens) (hne : tokens ≠ []) :
    hitsCollected tok rs tokens = andResults tok rs tokens := by
  unfold hitsCollected andResults
  rw [if_neg hne, ← filterMap_if]
  apply filterMap_congr_left
  intro r hr
  rcases alone_or_pair hr with h1 | ⟨q, hs, hq⟩
  · have ho := occurrences_alone (tok := tok) h1 tokens
    have hlen : (tokens.filter fun t => hasToken tok r t).length ≤ tokens.length := List.length_filter_le _ _
    by_cases hall : hasAll tok tokens r = true
    · rw [if_pos hall]
      have hf : (tokens.filter fun t => hasToken tok r t) = tokens := List.filter_eq_self.2 fun t ht => List.all_eq_true.1 hall t ht
      rw [hf] at ho
      unfold hitsEntry
      rw [ho]
      cases tokens with
      | nil => exact absurd rfl hne
      | cons t ts => simp
    · rw [if_neg hall]
      apply hitsEntry_none
      rw [ho, List.length_map]
      rcases Nat.lt_or_eq_of_le hlen with h | h
      · exact h
      · exact absurd (List.all_eq_true.2 (List.length_filter_eq_length_iff.1 h)) hall
  · have : (occurrences tok rs tokens (docOf r).hash).length < tokens.length := by
      rcases hs with hs | hs
      · have := pairwise_sublist h hs hq
        rwa [hq] at this
      · exact pairwise_sublist h hs hq.symm
    rw [hitsEntry_none this, if_neg]
    intro hall
    have := hasAll_occurrences hr hall
    omega

theorem occurrences_all {tokens : List Str} {h : HashKey}
    (hall : ∀ r ∈ rs, (docOf r).hash = h → hasAll tok tokens r = true) :
    (occurrences tok rs tokens h).length = tokens.length * (rs.filter fun r => decide ((docOf r).hash = h)).length := by
  induction tokens with
  | nil => simp [occurrences]
  | cons t ts ih =>
    have h1 : ∀ r ∈ rs, (docOf r).hash = h → hasToken tok r t = true ∧ hasAll tok ts r = true := by
      intro r hr hh
      have := hall r hr hh
      unfold hasAll at this
      rwa [List.all_cons, Bool.and_eq_true] at this
    rw [occurrences_cons, List.length_append, ih fun r hr hh => (h1 r hr hh).2, List.length_cons, Nat.succ_mul, Nat.add_comm]
    congr 1
    unfold holders
    congr 1
    apply List.filter_congr
    intro r hr
    by_cases hh : (docOf r).hash = h
    · simp [hh, (h1 r hr hh).1]
    · simp [hh]

theorem apart_of_perm {tokens : List Str} (hne : tokens ≠ [])
    (hp : (hitsCollected tok rs tokens).Perm (andResults tok rs tokens)) : QueryApart tok rs tokens := by
  apply pairwise_of_sublist
  intro q r hs hqr
  apply Nat.lt_of_not_le
  intro hle
  generalize hh : (docOf q).hash = h at hle hqr
  have hpos : 0 < tokens.length := List.length_pos_iff.2 hne
  obtain ⟨q0, qs, ho⟩ : ∃ q0 qs, occurrences tok rs tokens h = q0 :: qs := by
    cases hc : occurrences tok rs tokens h with
    | nil => rw [hc] at hle; exact absurd (List.length_eq_zero_iff.1 (Nat.le_zero.1 hle)) hne
    | cons a l => exact ⟨a, l, rfl⟩
  -- every document of the hash has an entry
  have hent : ∀ r ∈ rs, (docOf r).hash = h → hitsEntry tok rs tokens r = some { document := docOf q0, hits := qs.length + 1 } := by
    intro r hr hrh
    refine hitsEntry_eq_some.2 ⟨q0, qs, by rw [hrh]; exact ho, ?_, rfl⟩
    rw [ho] at hle; simpa using hle
  have hcount := (hp.filter fun e => decide (e.document.hash = h)).length_eq
  have h1 : ∀ l : List DocRequest, (∀ r ∈ l, r ∈ rs) →
      ((l.filterMap (hitsEntry tok rs tokens)).filter fun e => decide (e.document.hash = h)).length
        = (l.filter fun r => decide ((docOf r).hash = h)).length := by
    intro l
    induction l with
    | nil => intro _; rfl
    | cons a l ih =>
      intro hl
      have ih := ih fun r hr => hl r (List.mem_cons_of_mem _ hr)
      rw [List.filterMap_cons, List.filter_cons]
      by_cases ha : (docOf a).hash = h
      · rw [hent a (hl a (List.mem_cons_self ..)) ha]
        have : (docOf q0).hash = h := occ_hash (by rw [ho]; exact List.mem_cons_self ..)
        simp [ha, this, ih]
      · cases he : hitsEntry tok rs tokens a with
        | none => simpa [ha] using ih
        | some e =>
          have := hitsEntry_hash tok rs tokens a e he
          simp [this, ha, ih]
  have h2 : ((andResults tok rs tokens).filter fun e => decide (e.document.hash = h)).length
      = ((rs.filter fun r => decide ((docOf r).hash = h)).filter (hasAll tok tokens)).length := by
    unfold andResults
    rw [if_neg hne, List.filter_map, List.length_map, List.filter_filter, List.filter_filter]
    congr 1
    apply List.filter_congr
    intro r _
    simp [Bool.and_comm]
  have hc1 := h1 rs fun _ h => h
  unfold hitsCollected at hcount
  rw [hc1, h2] at hcount
  have hall : ∀ r ∈ rs, (docOf r).hash = h → hasAll tok tokens r = true := by
    intro r hr hrh
    exact List.length_filter_eq_length_iff.1 hcount.symm r (List.mem_filter.2 ⟨hr, by simp [hrh]⟩)
  have hlen := occurrences_all hall
  have hmem : { document := docOf q0, hits := qs.length + 1 } ∈ andResults tok rs tokens :=
    hp.mem_iff.1 (collected_of ho (by rw [ho] at hle; simpa using hle))
  unfold andResults at hmem
  rw [if_neg hne] at hmem
  obtain ⟨x, _, hx⟩ := List.mem_map.1 hmem
  have hhits : tokens.length = qs.length + 1 := congrArg SearchResult.hits hx
  rw [ho, List.length_cons, ← hhits] at hlen
  have htwo : 2 ≤ (rs.filter fun r => decide ((docOf r).hash = h)).length := pair_length hs (by simp [hh]) (by simp [hqr])
  have := Nat.mul_le_mul_left tokens.length htwo
  omega

/-! ## All queries -/

theorem empty_of_apart (h : ∀ tokens, tokens ≠ [] → QueryApart tok rs tokens) : CollidingEmpty tok rs := by
  apply pairwise_of_sublist
  intro q r hs hqr
  have none : ∀ x ∈ rs, (docOf x).hash = (docOf q).hash → tok x.statement = [] := by
    intro x hx hxh
    apply List.eq_nil_iff_forall_not_mem.2
    intro t ht
    have := pairwise_sublist (h [t] (by simp)) hs hqr
    rw [occurrences_one] at this
    have hp := List.length_pos_of_mem (mem_holders.2 ⟨hx, hxh, ht⟩)
    simp at this
    rw [this] at hp
    simp at hp
  exact ⟨none q (hs.subset (by simp)) rfl, none r (hs.subset (by simp)) hqr.symm⟩

theorem apart_of_empty (h : CollidingEmpty tok rs) {tokens : List Str} (hne : tokens ≠ []) : QueryApart tok rs tokens := by
  apply pairwise_of_sublist
  intro q r hs hqr
  have : occurrences tok rs tokens (docOf q).hash = [] := by
    apply List.eq_nil_iff_forall_not_mem.2
    intro x hx
    obtain ⟨t, _, ht⟩ := mem_occurrences.1 hx
    obtain ⟨hxr, hxh, hxt⟩ := mem_holders.1 ht
    rcases alone_or_pair hxr with h1 | ⟨a, hs', ha⟩
    · have := pair_length (p := fun q => decide ((docOf q).hash = (docOf x).hash)) hs (by simp [hxh]) (by simp [hxh, hqr])
      rw [h1] at this
      simp at this
    · have : tok x.statement = [] := by
        rcases hs' with hs' | hs'
        · exact (pairwise_sublist h hs' ha).2
        · exact (pairwise_sublist h hs' ha.symm).1
      rw [this] at hxt
      cases hxt
  rw [this]
  exact List.length_pos_iff.2 hne

/-! ## No common token -/

theorem holders_le_one (h : CollidingApart tok rs) (k : HashKey) (t : Str) : (holders tok rs k t).length ≤ 1 := by
  match hl : holders tok rs k t with
  | [] => simp
  | [_] => simp
  | a :: b :: l =>
    have hsub : [a, b].Sublist rs :=
      ((List.nil_sublist l).cons_cons b |>.cons_cons a).trans (hl ▸ List.filter_sublist)
    have ha := mem_holders.1 (hl ▸ List.mem_cons_self .. : a ∈ holders tok rs k t)
    have hb := mem_holders.1 (hl ▸ List.mem_cons_of_mem _ (List.mem_cons_self ..) : b ∈ holders tok rs k t)
    exact absurd hb.2.2 (pairwise_sublist h hsub (ha.2.1.trans hb.2.1.symm) t ha.2.2)

theorem apart_of_le_one (h : ∀ k t, (holders tok rs k t).length ≤ 1) : CollidingApart tok rs := by
  apply pairwise_of_sublist
  intro q r hs hqr t hq hr
  have := pair_length (p := fun x => decide ((docOf x).hash = (docOf q).hash) && hasToken tok x t) hs
    (by simp [hasToken, hq]) (by simp [hasToken, hr, hqr])
  have h1 := h (docOf q).hash t
  unfold holders at h1
  omega

theorem occurrences_le {k : HashKey} (h : ∀ t, (holders tok rs k t).length ≤ 1) (tokens : List Str) :
    (occurrences tok rs tokens k).length ≤ tokens.length := by
  induction tokens with
  | nil => simp [occurrences]
  | cons t ts ih =>
    rw [occurrences_cons, List.length_append, List.length_cons]
    have := h t
    omega

/-- All tokens have a holder when the number of occurrences reaches the number of tokens. -/
theorem occurrences_full {k : HashKey} (h : ∀ t, (holders tok rs k t).length ≤ 1) {tokens : List Str}
    (hl : tokens.length ≤ (occurrences tok rs tokens k).length) : ∀ t ∈ tokens, holders tok rs k t ≠ [] := by
  induction tokens with
  | nil => intro t ht; cases ht
  | cons t ts ih =>
    rw [occurrences_cons, List.length_append, List.length_cons] at hl
    have h1 := h t
    have h2 := occurrences_le h ts
    intro u hu
    rcases List.mem_cons.1 hu with rfl | hu
    · intro h0
      rw [h0] at hl
      simp at hl
      omega
    · exact ih (by omega) u hu

theorem occurrences_of_full {tokens : List Str} {k : HashKey} (hf : ∀ t ∈ tokens, holders tok rs k t ≠ []) :
    tokens.length ≤ (occurrences tok rs tokens k).length := by
  induction tokens with
  | nil => simp
  | cons t ts ih =>
    rw [occurrences_cons, List.length_append, List.length_cons]
    have h1 := List.length_pos_iff.2 (hf t (List.mem_cons_self ..))
    have h2 := ih fun u hu => hf u (List.mem_cons_of_mem _ hu)
    omega

/-- A token of no document. -/
theorem fresh_token (tok : Tokenizer) (rs : List DocRequest) : ∃ u, ∀ r ∈ rs, u ∉ tok r.statement := by
  have : ∀ l : List Str, ∃ n, ∀ t ∈ l, t.length < n := by
    intro l
    induction l with
    | nil => exact ⟨0, by simp⟩
    | cons a l ih =>
      obtain ⟨n, hn⟩ := ih
      refine ⟨n + a.length + 1, fun t ht => ?_⟩
      rcases List.mem_cons.1 ht with rfl | ht
      · omega
      · have := hn t ht; omega
  obtain ⟨n, hn⟩ := this (rs.flatMap fun r => tok r.statement)
  refine ⟨List.replicate n 0, fun r hr hu => ?_⟩
  have := hn _ (List.mem_flatMap.2 ⟨r, hr, hu⟩)
  simp at this

theorem holders_fresh {u : Str} (hu : ∀ r ∈ rs, u ∉ tok r.statement) (k : HashKey) : holders tok rs k u = [] := by
  apply List.eq_nil_iff_forall_not_mem.2
  intro x hx
  obtain ⟨h1, _, h3⟩ := mem_holders.1 hx
  exact hu x h1 h3

/-! ## The first document of a query -/

theorem occurrences_head {tokens : List Str} {k : HashKey} {q : DocRequest} {qs : List DocRequest}
    (h : occurrences tok rs tokens k = q :: qs) : ∃ t ∈ tokens, (holders tok rs k t).head? = some q := by
  induction tokens with
  | nil => cases h
  | cons t ts ih =>
    rw [occurrences_cons] at h
    cases hh : holders tok rs k t with
    | nil =>
      rw [hh] at h
      obtain ⟨u, hu, hq⟩ := ih h
      exact ⟨u, List.mem_cons_of_mem _ hu, hq⟩
    | cons a l =>
      rw [hh] at h
      simp only [List.cons_append, List.cons.injEq] at h
      refine ⟨t, List.mem_cons_self .., ?_⟩
      rw [hh, List.head?_cons, h.1]

/-! ## Sorted sublists -/

/-- A sorted list contained in a sorted list is a sublist of it. -/
theorem sublist_of_sorted {X Y : List SearchResult}
    (hdet : ∀ a ∈ Y, ∀ b ∈ Y, a.hits = b.hits → a.document.id = b.document.id → a = b)
    (hc : ∀ a, X.count a ≤ Y.count a)
    (hX : X.Pairwise fun a b => less b a = false) (hY : Y.Pairwise fun a b => less b a = false) : X.Sublist Y := by
  induction Y generalizing X with
  | nil =>
    cases X with
    | nil => exact .slnil
    | cons x X => have := hc x; simp at this
  | cons y Y ih =>
    cases X with
    | nil => exact List.nil_sublist _
    | cons x X =>
      have hdet' : ∀ a ∈ Y, ∀ b ∈ Y, a.hits = b.hits → a.document.id = b.document.id → a = b :=
        fun a ha b hb => hdet a (List.mem_cons_of_mem _ ha) b (List.mem_cons_of_mem _ hb)
      obtain ⟨hx, hX'⟩ := List.pairwise_cons.1 hX
      obtain ⟨hy, hY'⟩ := List.pairwise_cons.1 hY
      by_cases hxy : x = y
      · subst hxy
        refine (ih hdet' (fun a => ?_) hX' hY').cons_cons x
        have := hc a
        rw [List.count_cons, List.count_cons] at this
        omega
      · have hxY : x ∈ Y := by
          have h1 := hc x
          have h2 : 0 < (x :: X).count x := by simp
          have h3 : 0 < (y :: Y).count x := Nat.lt_of_lt_of_le h2 h1
          rcases List.mem_cons.1 (List.count_pos_iff.1 h3) with h | h
          · exact absurd h hxy
          · exact h
        refine (ih hdet' (fun a => ?_) hX hY').cons y
        by_cases hay : a = y
        · subst hay
          have hn : a ∉ x :: X := by
            intro ha
            rcases List.mem_cons.1 ha with h | h
            · exact hxy h.symm
            · have h1 := (not_less_iff x a).1 (hx a h)
              have h2 := (not_less_iff a x).1 (hy x hxY)
              apply hxy
              have h3 : x.hits = a.hits ∧ x.document.id = a.document.id := by
                rcases h1 with h | ⟨h, h'⟩ <;> rcases h2 with g | ⟨g, g'⟩
                · omega
                · omega
                · omega
                · exact ⟨h, List.le_antisymm h' g'⟩
              exact hdet x (List.mem_cons_of_mem _ hxY) a (List.mem_cons_self ..) h3.1 h3.2
          rw [List.count_eq_zero.2 hn]
          exact Nat.zero_le _
        · have := hc a
          rwa [List.count_cons_of_ne (Ne.symm hay)] at this

end Visigoth
