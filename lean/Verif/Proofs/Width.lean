import Verif.Spec.Width
import Verif.Proofs.Indexer
/-! # Hit counts that wrap around -/
namespace Visigoth

theorem two_pow_pred {w : Nat} (hw : 0 < w) : 2 ^ w = 2 * 2 ^ (w - 1) := by
  cases w with
  | zero => omega
  | succ w => rw [Nat.pow_succ, Nat.mul_comm]; rfl

theorem wrap_small {w n : Nat} (hw : 0 < w) (h : n < 2 ^ (w - 1)) : wrapInt w n = n := by
  unfold wrapInt
  have := two_pow_pred hw
  rw [Int.bmod_def, Int.emod_eq_of_lt (by omega) (by omega)]
  split <;> omega

theorem wrap_lt {w : Nat} (hw : 0 < w) (i : Int) : wrapInt w i < (2 ^ (w - 1) : Nat) := by
  unfold wrapInt
  have := two_pow_pred hw
  have h := Int.bmod_lt (x := i) (m := 2 ^ w) (Nat.pow_pos (by omega))
  omega

theorem wrap_neg {w n : Nat} (hw : 0 < w) (h : 2 ^ (w - 1) ≤ n) (h' : n < 2 ^ w) : wrapInt w n < 0 := by
  unfold wrapInt
  have := two_pow_pred hw
  rw [Int.bmod_def, Int.emod_eq_of_lt (by omega) (by omega)]
  split <;> omega

/-- A result whose hits have been counted with `w` bits. -/
def SearchResult.wrapped (w : Nat) (r : SearchResult) : IntResult := { document := r.document, hits := wrapInt w r.hits }

def wrapMap (w : Nat) (m : GoMap HashKey SearchResult) : GoMap HashKey IntResult := m.map fun e => (e.1, e.2.wrapped w)

theorem wrapMap_get (w : Nat) (m : GoMap HashKey SearchResult) (h : HashKey) :
    (wrapMap w m).get h = (m.get h).map (SearchResult.wrapped w) := by
  induction m with
  | nil => rfl
  | cons e m ih =>
    obtain ⟨k, v⟩ := e
    show GoMap.get ((k, v.wrapped w) :: wrapMap w m) h = _
    simp only [GoMap.get]
    split
    · rfl
    · exact ih

theorem wrapMap_set (w : Nat) (m : GoMap HashKey SearchResult) (h : HashKey) (r : SearchResult) :
    (wrapMap w m).set h (r.wrapped w) = wrapMap w (m.set h r) := by
  induction m with
  | nil => rfl
  | cons e m ih =>
    obtain ⟨k, v⟩ := e
    show GoMap.set ((k, v.wrapped w) :: wrapMap w m) h _ = _
    simp only [GoMap.set]
    split
    · rfl
    · rw [ih]; rfl

theorem hitsInnerInt_eq {w : Nat} (hw : 2 ≤ w) (ix : Indexer) (ps : List Nat) (m : GoMap HashKey SearchResult) :
    hitsInnerInt w ix ps (wrapMap w m) = (hitsInner ix ps m).map (wrapMap w) := by
  induction ps generalizing m with
  | nil => rfl
  | cons i ps ih =>
    simp only [hitsInnerInt, hitsInner]
    cases ix.document i with
    | none => rfl
    | some d =>
      simp only [wrapMap_get]
      cases m.get d.hash with
      | none =>
        simp only [Option.map_none]
        rw [← ih, ← wrapMap_set]
        have : (1 : Int) = wrapInt w (1 : Nat) := by
          rw [wrap_small (by omega)]
          · rfl
          · exact Nat.one_lt_two_pow (by omega)
        simp only [SearchResult.wrapped]
        rw [← this]
      | some r =>
        simp only [Option.map_some]
        rw [← ih, ← wrapMap_set]
        simp only [SearchResult.wrapped, wrapInt, Int.bmod_add_bmod, Int.natCast_add]
        rfl

theorem hitsPhase1Int_eq {w : Nat} (hw : 2 ≤ w) (ix : Indexer) (tokens : List Str) (m : GoMap HashKey SearchResult) :
    hitsPhase1Int w ix tokens (wrapMap w m) = (hitsPhase1 ix tokens m).map (wrapMap w) := by
  induction tokens generalizing m with
  | nil => rfl
  | cons t ts ih =>
    simp only [hitsPhase1Int, hitsPhase1]
    cases ix.indexed t with
    | none => exact ih m
    | some ps =>
      simp only [hitsInnerInt_eq hw]
      cases hitsInner ix ps m with
      | none => rfl
      | some m' => exact ih m'

/-- What is collected with wrapped counts. -/
def collectedInt (w : Nat) (met all : List Doc) (n : Nat) : List IntResult :=
  all.filterMap fun d => ((tally met d.hash).map (SearchResult.wrapped w)).filter fun r => decide ((n : Int) ≤ r.hits)

theorem hitsPhase2Int_eq (w : Nat) (ix : Indexer) (n : Nat) (m : GoMap HashKey SearchResult) (met : List Doc)
    (hm : Counted m met) (ps : List Nat) :
    hitsPhase2Int ix n (wrapMap w m) ps = (ix.docsAt ps).map fun all => collectedInt w met all n := by
  induction ps with
  | nil => rfl
  | cons i ps ih =>
    simp only [hitsPhase2Int, Indexer.docsAt, ih]
    cases ix.document i with
    | none => rfl
    | some d =>
      cases ix.docsAt ps with
      | none => rfl
      | some ds =>
        simp only [Option.map_some]
        rw [wrapMap_get, hm, tally_eq]
        unfold collectedInt
        rw [List.filterMap_cons]
        cases tally met d.hash with
        | none => rfl
        | some r =>
          simp only [Option.filter, Option.map_some]
          by_cases h : (n : Int) ≤ (r.wrapped w).hits
          · simp [h]
          · simp [h]

theorem hitsSearchInt_eq {w : Nat} (hw : 2 ≤ w) (sort : List IntResult → List IntResult) (ix : Indexer) (tokens : List Str) :
    hitsSearchInt w sort tokens ix =
      match ix.docsAt (tokens.flatMap ix.listed), ix.docsAt (List.range ix.len) with
      | some met, some all => some (sort (collectedInt w met all tokens.length))
      | _, _ => none := by
  have h0 : Counted [] [] := fun h => rfl
  have h1 := hitsPhase1_any ix tokens [] [] h0
  unfold hitsSearchInt
  rw [show ([] : GoMap HashKey IntResult) = wrapMap w [] from rfl, hitsPhase1Int_eq hw]
  cases hm : ix.docsAt (tokens.flatMap ix.listed) with
  | none => rw [hm] at h1; simp only at h1; rw [h1]; rfl
  | some met =>
    rw [hm] at h1
    obtain ⟨m', h2, h3⟩ := h1
    rw [h2]
    simp only [Option.map_some]
    rw [hitsPhase2Int_eq w ix _ m' met (by simpa using h3)]
    cases ix.docsAt (List.range ix.len) <;> rfl

theorem tally_hits {met : List Doc} {h : HashKey} {r : SearchResult} (ht : tally met h = some r) :
    r.hits = met.countP fun e => decide (e.hash = h) := by
  unfold tally at ht
  obtain ⟨d, _, rfl⟩ := Option.map_eq_some_iff.1 ht
  rfl

theorem tally_none {met : List Doc} {h : HashKey} (ht : tally met h = none) :
    met.countP (fun e => decide (e.hash = h)) = 0 := by
  unfold tally at ht
  rw [Option.map_eq_none_iff, List.find?_eq_none] at ht
  rw [List.countP_eq_zero]
  exact ht

theorem collectedInt_small {w : Nat} (hw : 0 < w) (met all : List Doc) (n : Nat)
    (h : ∀ d ∈ all, met.countP (fun e => decide (e.hash = d.hash)) < 2 ^ (w - 1)) :
    collectedInt w met all n = (collected met all n).map SearchResult.asInt := by
  unfold collectedInt collected
  induction all with
  | nil => rfl
  | cons d all ih =>
    rw [List.filterMap_cons, List.filterMap_cons, ih fun d hd => h d (List.mem_cons_of_mem _ hd)]
    cases ht : tally met d.hash with
    | none => rfl
    | some r =>
      have hr := tally_hits ht
      have hs : r.wrapped w = r.asInt := by
        have := wrap_small hw (hr ▸ h d List.mem_cons_self : r.hits < _)
        simp [SearchResult.wrapped, SearchResult.asInt, this]
      simp only [Option.map_some, hs, Option.filter]
      by_cases hn : n ≤ r.hits
      · have : (n : Int) ≤ r.asInt.hits := by simp only [SearchResult.asInt]; omega
        simp [hn, this]
      · have : ¬ (n : Int) ≤ r.asInt.hits := by simp only [SearchResult.asInt]; omega
        simp [hn, this]

theorem collectedInt_lt {w : Nat} (hw : 0 < w) {met all : List Doc} {n : Nat} {r : IntResult}
    (h : r ∈ collectedInt w met all n) : r.hits < (2 ^ (w - 1) : Nat) := by
  unfold collectedInt at h
  obtain ⟨d, _, h⟩ := List.mem_filterMap.1 h
  rw [Option.filter_eq_some_iff] at h
  obtain ⟨r', _, rfl⟩ := Option.map_eq_some_iff.1 h.1
  exact wrap_lt hw _

/-- A sorting function for results from one for results with `int`s. -/
def sortFrom (sort : List IntResult → List IntResult) (l : List SearchResult) : List SearchResult :=
  (sort (l.map SearchResult.asInt)).map fun r => { document := r.document, hits := r.hits.toNat }

theorem back_asInt (r : SearchResult) : ({ document := r.asInt.document, hits := r.asInt.hits.toNat } : SearchResult) = r := by
  simp [SearchResult.asInt]

theorem less_asInt (a b : SearchResult) : lessInt a.asInt b.asInt = less a b := by
  unfold lessInt less
  by_cases h : a.hits = b.hits
  · simp [SearchResult.asInt, h]
  · have : (a.hits : Int) ≠ b.hits := by omega
    simp [SearchResult.asInt, h, this]

theorem sortFrom_contract {sort : List IntResult → List IntResult} (h : SortContractInt sort) : SortContract (sortFrom sort) := by
  intro l
  obtain ⟨hp, hs⟩ := h (l.map SearchResult.asInt)
  refine ⟨?_, ?_⟩
  · have := hp.map fun r : IntResult => ({ document := r.document, hits := r.hits.toNat } : SearchResult)
    rw [List.map_map] at this
    refine this.trans (List.Perm.of_eq ?_)
    conv => rhs; rw [← List.map_id l]
    exact List.map_congr_left fun r _ => back_asInt r
  · unfold sortFrom
    rw [List.pairwise_map]
    refine hs.imp_of_mem ?_
    intro a b ha hb hab
    obtain ⟨a', _, rfl⟩ := List.mem_map.1 (hp.mem_iff.1 ha)
    obtain ⟨b', _, rfl⟩ := List.mem_map.1 (hp.mem_iff.1 hb)
    rw [back_asInt, back_asInt, ← less_asInt]
    exact hab

theorem sortFrom_asInt {sort : List IntResult → List IntResult} (h : SortContractInt sort) (l : List SearchResult) :
    (sortFrom sort l).map SearchResult.asInt = sort (l.map SearchResult.asInt) := by
  unfold sortFrom
  rw [List.map_map]
  conv => rhs; rw [← List.map_id (sort (l.map SearchResult.asInt))]
  apply List.map_congr_left
  intro r hr
  obtain ⟨r', _, rfl⟩ := List.mem_map.1 ((h _).1.mem_iff.1 hr)
  simp [SearchResult.asInt]

theorem docsAt_mem {ix : Indexer} {ps : List Nat} {ds : List Doc} (h : ix.docsAt ps = some ds) (d : Doc) :
    d ∈ ds ↔ ∃ i ∈ ps, ix.document i = some d := by
  induction ps generalizing ds with
  | nil => simp only [Indexer.docsAt, Option.some.injEq] at h; subst h; simp
  | cons i ps ih =>
    simp only [Indexer.docsAt] at h
    cases hi : ix.document i with
    | none => rw [hi] at h; cases h
    | some e =>
      cases hp : ix.docsAt ps with
      | none => rw [hi, hp] at h; cases h
      | some es =>
        rw [hi, hp] at h
        simp only [Option.some.injEq] at h
        subst h
        rw [List.mem_cons, ih hp]
        constructor
        · rintro (rfl | ⟨j, hj, hd⟩)
          · exact ⟨i, by simp, hi⟩
          · exact ⟨j, by simp [hj], hd⟩
        · rintro ⟨j, hj, hd⟩
          rcases List.mem_cons.1 hj with rfl | hj
          · rw [hi, Option.some.injEq] at hd
            exact Or.inl hd.symm
          · exact Or.inr ⟨j, hj, hd⟩

theorem rightHits_of {w : Nat} (hw : 2 ≤ w) {sort : List IntResult → List IntResult} (hs : SortContractInt sort)
    {tokens : List Str} {ix : Indexer} (h : ix.Countable w tokens) : RightHits w sort tokens ix := by
  refine ⟨sortFrom sort, sortFrom_contract hs, ?_⟩
  rw [hitsSearchInt_eq hw, hitsSearch_any]
  cases hm : ix.docsAt (tokens.flatMap ix.listed) with
  | none => rfl
  | some met =>
    cases ha : ix.docsAt (List.range ix.len) with
    | none => rfl
    | some all =>
      simp only [Option.map_some, Option.some.injEq]
      rw [sortFrom_asInt hs, collectedInt_small (by omega)]
      intro d hd
      obtain ⟨i, hi, hd⟩ := (docsAt_mem ha d).1 hd
      exact h met hm i (List.mem_range.1 hi) d hd

theorem countable_of {w : Nat} (hw : 2 ≤ w) {sort : List IntResult → List IntResult} (hs : SortContractInt sort)
    {tokens : List Str} {ix : Indexer} (ht : tokens.length < 2 ^ (w - 1)) (hd : ∀ i, i < ix.len → ∃ d, ix.document i = some d)
    (h : RightHits w sort tokens ix) : ix.Countable w tokens := by
  intro met hm i hi d hdi
  obtain ⟨sort', hs', h⟩ := h
  rw [hitsSearchInt_eq hw, hitsSearch_any] at h
  have hm' : ix.docsAt (tokens.flatMap ix.listed) = some met := hm
  have ha : ∃ all, ix.docsAt (List.range ix.len) = some all := by
    cases ha : ix.docsAt (List.range ix.len) with
    | some all => exact ⟨all, rfl⟩
    | none =>
      obtain ⟨j, hj, hn⟩ := docsAt_none.1 ha
      obtain ⟨e, he⟩ := hd j (List.mem_range.1 hj)
      rw [he] at hn; cases hn
  obtain ⟨all, ha⟩ := ha
  rw [hm', ha] at h
  simp only [Option.map_some, Option.some.injEq] at h
  have hda : d ∈ all := (docsAt_mem ha d).2 ⟨i, List.mem_range.2 hi, hdi⟩
  apply Decidable.byContradiction
  intro hc
  cases htal : tally met d.hash with
  | none =>
    rw [tally_none htal] at hc
    exact hc (Nat.pow_pos (by omega))
  | some r =>
    have hr := tally_hits htal
    have hmem : r ∈ collected met all tokens.length := by
      unfold collected
      rw [List.mem_filterMap]
      refine ⟨d, hda, ?_⟩
      rw [htal, Option.filter_eq_some_iff]
      refine ⟨rfl, ?_⟩
      rw [decide_eq_true_eq, hr]
      omega
    have h1 : r.asInt ∈ (sort' (collected met all tokens.length)).map SearchResult.asInt :=
      List.mem_map_of_mem ((hs' _).1.mem_iff.2 hmem)
    rw [← h] at h1
    have h2 := collectedInt_lt (by omega) ((hs _).1.mem_iff.1 h1)
    simp only [SearchResult.asInt] at h2
    omega

/-! ## Memory indexes -/

theorem met_memory (cp : CopyFn) (tok : Tokenizer) (name : Str) (rs : List DocRequest) (tokens : List Str) :
    ((buildIndex tok name rs).indexer cp).met tokens = some (visited tok rs tokens) := by
  unfold Indexer.met
  have key : ∀ ps : List Nat, (∀ i ∈ ps, i < rs.length) → ((buildIndex tok name rs).indexer cp).docsAt ps
      = some (ps.filterMap fun i => (rs[i]?).map docOf) := by
    intro ps
    induction ps with
    | nil => intro _; rfl
    | cons i ps ih =>
      intro h
      have hi := h i (by simp)
      simp only [Indexer.docsAt, indexer_document, ih fun j hj => h j (by simp [hj]), List.filterMap_cons,
        List.getElem?_eq_getElem hi, Option.map_some]
  induction tokens with
  | nil => rfl
  | cons t ts ih =>
    have hl : ((buildIndex tok name rs).indexer cp).listed t = positions tok rs t := indexer_indexed cp tok name rs t
    rw [List.flatMap_cons, docsAt_append, ih, hl, key _ (positions_lt tok rs t)]
    simp only [Option.some.injEq]
    show _ = (rs.filter fun r => hasToken tok r t).map docOf ++ visited tok rs ts
    congr 1
    exact filterMap_positionsWhere rs (fun r => hasToken tok r t) docOf

theorem countable_memory (cp : CopyFn) (tok : Tokenizer) (name : Str) (rs : List DocRequest) (tokens : List Str) (w : Nat) :
    ((buildIndex tok name rs).indexer cp).Countable w tokens ↔
      ∀ r ∈ rs, (occurrences tok rs tokens (docOf r).hash).length < 2 ^ (w - 1) := by
  have hc : ∀ h, (visited tok rs tokens).countP (fun e => decide (e.hash = h)) = (occurrences tok rs tokens h).length := by
    intro h
    rw [List.countP_eq_length_filter, visited_filter, List.length_map]
  constructor
  · intro H r hr
    obtain ⟨i, hi, he⟩ := List.getElem_of_mem hr
    rw [← hc]
    refine H _ (met_memory cp tok name rs tokens) i (by rw [indexer_len]; exact hi) (docOf r) ?_
    rw [indexer_document, List.getElem?_eq_getElem hi, he]
    rfl
  · intro H met hm i hi d hd
    rw [met_memory, Option.some.injEq] at hm
    subst hm
    rw [indexer_document] at hd
    obtain ⟨r, hr, rfl⟩ := Option.map_eq_some_iff.1 hd
    rw [hc]
    exact H r (List.mem_of_getElem? hr)

theorem occurrences_mul_le (tok : Tokenizer) (rs : List DocRequest) (tokens : List Str) (h : HashKey) :
    (occurrences tok rs tokens h).length ≤ tokens.length * rs.length := by
  unfold occurrences
  induction tokens with
  | nil => simp
  | cons t ts ih =>
    rw [List.flatMap_cons, List.length_append, List.length_cons, Nat.succ_mul]
    have := List.length_filter_le (fun r => decide ((docOf r).hash = h) && hasToken tok r t) rs
    omega

theorem occurrences_distinct_le {tok : Tokenizer} {rs : List DocRequest} (hd : DistinctHashes rs) (tokens : List Str)
    {r : DocRequest} (hr : r ∈ rs) : (occurrences tok rs tokens (docOf r).hash).length ≤ tokens.length := by
  rw [occurrences_distinct tok rs hd tokens r hr, List.length_map]
  exact List.length_filter_le _ _

/-- The same document, `n` times, under a query that has the same token `m` times. -/
theorem occurrences_replicate {tok : Tokenizer} {r : DocRequest} {t : Str} (h : hasToken tok r t = true) (n m : Nat) :
    (occurrences tok (List.replicate n r) (List.replicate m t) (docOf r).hash).length = m * n := by
  unfold occurrences
  induction m with
  | zero => simp
  | succ m ih =>
    rw [List.replicate_succ, List.flatMap_cons, List.length_append, ih, Nat.succ_mul]
    rw [List.filter_eq_self.2]
    · rw [List.length_replicate]; omega
    · intro q hq
      obtain ⟨_, rfl⟩ := List.mem_replicate.1 hq
      simp [h]

theorem collectedInt_nil {w : Nat} {met all : List Doc} {n : Nat}
    (h : ∀ d ∈ all, wrapInt w (met.countP (fun e => decide (e.hash = d.hash)) : Nat) < n) : collectedInt w met all n = [] := by
  apply List.eq_nil_iff_forall_not_mem.2
  intro r hr
  unfold collectedInt at hr
  obtain ⟨d, hd, hr⟩ := List.mem_filterMap.1 hr
  rw [Option.filter_eq_some_iff] at hr
  obtain ⟨hr, hge⟩ := hr
  obtain ⟨r', ht, rfl⟩ := Option.map_eq_some_iff.1 hr
  have := h d hd
  rw [← tally_hits ht] at this
  have hge := of_decide_eq_true hge
  simp only [SearchResult.wrapped] at hge
  omega

end Visigoth
