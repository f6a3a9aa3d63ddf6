import Verif.Proofs.Index
/-! # `intersection` and `LinearSearch` -/
namespace Visigoth

/-! ## intersection -/

theorem interLoop_mem (n : Nat) : ∀ (a b : List Nat) (x : Nat), x ∈ interLoop n a b → x ∈ a ∧ x ∈ b := by
  induction n with
  | zero => intro a b x h; simp [interLoop] at h
  | succ n ih =>
    intro a b x h
    cases a with
    | nil => simp [interLoop] at h
    | cons y a =>
      cases b with
      | nil => simp [interLoop] at h
      | cons z b =>
        simp only [interLoop] at h
        split at h
        · have := ih _ _ _ h; exact ⟨by simp [this.1], this.2⟩
        · split at h
          · have := ih _ _ _ h; exact ⟨this.1, by simp [this.2]⟩
          · rcases List.mem_cons.1 h with rfl | h
            · exact ⟨by simp, by simp; omega⟩
            · have := ih _ _ _ h; exact ⟨by simp [this.1], by simp [this.2]⟩

/-- Sorted inputs with repetitions: every value occurs the smaller number of times. -/
theorem interLoop_count (n : Nat) : ∀ a b : List Nat, a.length + b.length ≤ n →
    a.Pairwise (· ≤ ·) → b.Pairwise (· ≤ ·) →
    ∀ x, (interLoop n a b).count x = min (a.count x) (b.count x) := by
  induction n with
  | zero =>
    intro a b h _ _ x
    have : a = [] := List.eq_nil_of_length_eq_zero (by omega)
    subst this; simp [interLoop]
  | succ n ih =>
    intro a b h ha hb x
    cases a with
    | nil => simp [interLoop]
    | cons y a =>
      cases b with
      | nil => simp [interLoop]
      | cons z b =>
        simp only [List.length_cons] at h
        simp only [interLoop]
        have hy := List.pairwise_cons.1 ha
        have hz := List.pairwise_cons.1 hb
        have zero : ∀ (l : List Nat) (m v : Nat), (∀ w ∈ l, m ≤ w) → v < m → l.count v = 0 := by
          intro l m v hl hv
          rw [List.count_eq_zero]
          intro hm; have := hl v hm; omega
        split
        · next hlt =>
          rw [ih _ _ (by simp; omega) hy.2 hb]
          by_cases hx : x = y
          · subst hx
            have : (z :: b).count x = 0 := zero _ z x (by
              intro w hw
              rcases List.mem_cons.1 hw with rfl | hw
              · exact Nat.le_refl _
              · exact hz.1 w hw) hlt
            rw [this]; simp
          · rw [List.count_cons (a := x) (b := y)]
            have hx' : ¬ y = x := fun e => hx e.symm
            simp [hx']
        · split
          · next hgt =>
            rw [ih _ _ (by simp; omega) ha hz.2]
            by_cases hx : x = z
            · subst hx
              have : (y :: a).count x = 0 := zero _ y x (by
                intro w hw
                rcases List.mem_cons.1 hw with rfl | hw
                · exact Nat.le_refl _
                · exact hy.1 w hw) hgt
              rw [this]; simp
            · rw [List.count_cons (a := x) (b := z)]
              have hx' : ¬ z = x := fun e => hx e.symm
              simp [hx']
          · have : y = z := by omega
            subst this
            rw [List.count_cons, List.count_cons, List.count_cons, ih _ _ (by omega) hy.2 hz.2]
            split <;> omega

theorem interLoop_sublist {α : Type} [LT α] [DecidableLT α] (n : Nat) : ∀ a b : List α, (interLoop n a b).Sublist a := by
  induction n with
  | zero => intro a b; simp [interLoop]
  | succ n ih =>
    intro a b
    cases a with
    | nil => simp [interLoop]
    | cons y a =>
      cases b with
      | nil => simp [interLoop]
      | cons z b =>
        simp only [interLoop]
        split
        · exact (ih _ _).cons _
        · split
          · exact ih _ _
          · exact (ih _ _).cons_cons _

theorem intersection_count (a b : List Nat) (ha : a.Pairwise (· ≤ ·)) (hb : b.Pairwise (· ≤ ·)) (x : Nat) :
    (intersection a b).count x = min (a.count x) (b.count x) :=
  interLoop_count _ a b (Nat.le_refl _) ha hb x

theorem intersection_sublist {α : Type} [LT α] [DecidableLT α] (a b : List α) : (intersection a b).Sublist a := interLoop_sublist _ a b

/-- Only comparisons are made: elements may be replaced as long as their order stays the same. -/
theorem interLoop_map {α β : Type} [LT α] [DecidableLT α] [LT β] [DecidableLT β] (f : α → β)
    (hf : ∀ x y, f x < f y ↔ x < y) (n : Nat) : ∀ a b : List α,
    interLoop n (a.map f) (b.map f) = (interLoop n a b).map f := by
  induction n with
  | zero => intro a b; rfl
  | succ n ih =>
    intro a b
    cases a with
    | nil => rfl
    | cons x a =>
      cases b with
      | nil => rfl
      | cons y b =>
        simp only [List.map_cons, interLoop]
        by_cases h1 : x < y
        · rw [if_pos h1, if_pos ((hf x y).2 h1), ← List.map_cons, ih]
        · rw [if_neg h1, if_neg fun h => h1 ((hf x y).1 h)]
          by_cases h2 : x > y
          · rw [if_pos h2, if_pos ((hf y x).2 h2), ← List.map_cons, ih]
          · rw [if_neg h2, if_neg fun h => h2 ((hf y x).1 h), ih, List.map_cons]

theorem intersection_map {α β : Type} [LT α] [DecidableLT α] [LT β] [DecidableLT β] (f : α → β)
    (hf : ∀ x y, f x < f y ↔ x < y) (a b : List α) :
    intersection (a.map f) (b.map f) = (intersection a b).map f := by
  unfold intersection
  rw [List.length_map, List.length_map, interLoop_map f hf]

/-- Lists of integers are lists of natural numbers shifted down. -/
theorem int_shift (l : List Int) : ∃ k : Nat, ∀ j : Nat, k ≤ j → ∃ l' : List Nat, l = l'.map fun n : Nat => (n : Int) - j := by
  induction l with
  | nil => exact ⟨0, fun j _ => ⟨[], rfl⟩⟩
  | cons x l ih =>
    obtain ⟨k, hk⟩ := ih
    refine ⟨max k x.natAbs, fun j hj => ?_⟩
    obtain ⟨l', hl'⟩ := hk j (by omega)
    refine ⟨(x + j).toNat :: l', ?_⟩
    rw [List.map_cons, ← hl']
    congr 1
    omega

theorem sorted_nodup {l : List Nat} (h : l.Pairwise (· < ·)) : l.Nodup :=
  h.imp (fun hab => Nat.ne_of_lt hab)

/-- Strictly increasing inputs: the common elements. -/
theorem intersection_eq_filter (a b : List Nat) (ha : a.Pairwise (· < ·)) (hb : b.Pairwise (· < ·)) :
    intersection a b = a.filter fun x => decide (x ∈ b) := by
  have ha' : a.Pairwise (· ≤ ·) := ha.imp Nat.le_of_lt
  have hb' : b.Pairwise (· ≤ ·) := hb.imp Nat.le_of_lt
  apply List.Perm.eq_of_pairwise (le := (· ≤ ·))
  · intro x y _ _ h1 h2; omega
  · exact ha'.sublist (intersection_sublist a b)
  · exact ha'.sublist List.filter_sublist
  · rw [List.perm_iff_count]
    intro x
    rw [intersection_count a b ha' hb']
    by_cases hx : x ∈ b
    · rw [List.count_filter (by simpa using hx)]
      have h1 : a.count x ≤ 1 := List.nodup_iff_count.1 (sorted_nodup ha) x
      have h2 : 0 < b.count x := List.count_pos_iff.2 hx
      omega
    · have h1 : b.count x = 0 := List.count_eq_zero.2 hx
      have h2 : (a.filter fun x => decide (x ∈ b)).count x = 0 := by
        rw [List.count_eq_zero]; simp [hx]
      omega

/-! ## LinearSearch -/

section
variable (cp : CopyFn) (tok : Tokenizer) (name : Str) (rs : List DocRequest)

/-- Positions of the documents that satisfy a predicate. -/
def positionsWhere (p : DocRequest → Bool) (rs : List DocRequest) : List Nat :=
  (List.range rs.length).filter fun i => (rs[i]?).any p

theorem positions_eq_where (t : Str) :
    positions tok rs t = positionsWhere (fun r => hasToken tok r t) rs := rfl

theorem positionsWhere_sorted (p : DocRequest → Bool) :
    (positionsWhere p rs).Pairwise (· < ·) := List.Pairwise.filter _ List.pairwise_lt_range

theorem intersection_where (p q : DocRequest → Bool) :
    intersection (positionsWhere p rs) (positionsWhere q rs)
      = positionsWhere (fun r => p r && q r) rs := by
  rw [intersection_eq_filter _ _ (positionsWhere_sorted rs p) (positionsWhere_sorted rs q)]
  unfold positionsWhere
  rw [List.filter_filter]
  apply List.filter_congr
  intro i hi
  rw [List.mem_range] at hi
  simp only [List.mem_filter, List.mem_range, hi, true_and]
  rw [List.getElem?_eq_getElem hi]
  simp [Bool.and_comm]

theorem positionsWhere_append (p : DocRequest → Bool) (r : DocRequest) :
    positionsWhere p (rs ++ [r]) = positionsWhere p rs ++ if p r then [rs.length] else [] := by
  unfold positionsWhere
  rw [List.length_append, List.length_singleton, List.range_succ, List.filter_append]
  congr 1
  · apply List.filter_congr
    intro i hi
    rw [List.mem_range] at hi
    rw [List.getElem?_append_left hi]
  · simp only [List.filter_cons, List.filter_nil]
    rw [List.getElem?_append_right (Nat.le_refl _)]
    simp

theorem toResults_append (ix : Indexer) (hits : Nat) (a b : List Nat) :
    toResults ix hits (a ++ b) = match toResults ix hits a, toResults ix hits b with
      | some x, some y => some (x ++ y)
      | _, _ => none := by
  induction a with
  | nil => simp [toResults]; cases toResults ix hits b <;> rfl
  | cons i a ih =>
    rw [List.cons_append]
    simp only [toResults]
    cases ix.document i with
    | none => rfl
    | some d =>
      simp only [ih]
      cases toResults ix hits a <;> cases toResults ix hits b <;> rfl

/-- Positions valid in an index resolve to its documents. -/
theorem toResults_map (hits : Nat) (ps : List Nat) (ix : Indexer) (rs : List DocRequest)
    (hdoc : ∀ i, ix.document i = (rs[i]?).map docOf) (h : ∀ i ∈ ps, i < rs.length) :
    toResults ix hits ps
      = some (ps.filterMap fun i => (rs[i]?).map fun r => { document := docOf r, hits := hits }) := by
  induction ps with
  | nil => rfl
  | cons i ps ih =>
    simp only [toResults, hdoc, List.filterMap_cons]
    rw [List.getElem?_eq_getElem (h i (by simp))]
    simp only [Option.map_some]
    rw [ih (fun j hj => h j (by simp [hj]))]

theorem filterMap_congr_left {α β : Type} {f g : α → Option β} {l : List α}
    (h : ∀ x ∈ l, f x = g x) : l.filterMap f = l.filterMap g := by
  induction l with
  | nil => rfl
  | cons a l ih =>
    rw [List.filterMap_cons, List.filterMap_cons, h a (by simp), ih (fun x hx => h x (by simp [hx]))]

theorem filterMap_positionsWhere {β : Type} (p : DocRequest → Bool) (f : DocRequest → β) :
    (positionsWhere p rs).filterMap (fun i => (rs[i]?).map f) = (rs.filter p).map f := by
  induction rs using rev_ind with
  | h0 => rfl
  | h1 rs r ih =>
    rw [positionsWhere_append, List.filterMap_append, List.filter_append, List.map_append]
    congr 1
    · rw [← ih]
      apply filterMap_congr_left
      intro i hi
      unfold positionsWhere at hi
      rw [List.mem_filter, List.mem_range] at hi
      rw [List.getElem?_append_left hi.1]
    · cases hp : p r <;> simp [hp]

theorem positionsWhere_eq_nil (p : DocRequest → Bool) :
    positionsWhere p rs = [] ↔ rs.filter p = [] := by
  have h := filterMap_positionsWhere rs p id
  rw [List.map_id] at h
  constructor
  · intro h0; rw [h0] at h; exact h.symm
  · intro h0
    rw [h0] at h
    cases hp : positionsWhere p rs with
    | nil => rfl
    | cons i l =>
      have hi : i ∈ positionsWhere p rs := by rw [hp]; simp
      unfold positionsWhere at hi
      rw [List.mem_filter, List.mem_range] at hi
      rw [hp, List.filterMap_cons, List.getElem?_eq_getElem hi.1] at h
      simp at h

theorem linearLoop_eq (ix : Indexer) (hix : ∀ t, (ix.indexed t).getD [] = positions tok rs t) :
    ∀ (ts : List Str) (p : DocRequest → Bool),
    (linearLoop ix ts (positionsWhere p rs)).getD []
      = positionsWhere (fun r => p r && hasAll tok ts r) rs := by
  intro ts
  induction ts with
  | nil => intro p; simp [linearLoop, hasAll]
  | cons t ts ih =>
    intro p
    have hall : (fun r => p r && hasAll tok (t :: ts) r)
        = (fun r => (p r && hasToken tok r t) && hasAll tok ts r) := by
      funext r; simp [hasAll, Bool.and_assoc]
    have hempty : positionsWhere (fun r => p r && hasToken tok r t) rs = [] →
        positionsWhere (fun r => p r && hasAll tok (t :: ts) r) rs = [] := by
      intro h0
      rw [positionsWhere_eq_nil] at h0 ⊢
      rw [List.filter_eq_nil_iff] at h0 ⊢
      intro r hr hh
      apply h0 r hr
      have hh' := (congrFun hall r).symm.trans hh
      simp only [Bool.and_eq_true] at hh' ⊢
      exact hh'.1
    simp only [linearLoop]
    have hx := hix t
    cases hi : ix.indexed t with
    | none =>
      rw [hi] at hx
      have hx' : positions tok rs t = [] := by simpa using hx.symm
      simp only [Option.getD_none]
      symm
      apply hempty
      rw [← intersection_where, ← positions_eq_where, hx']
      unfold intersection
      cases h : positionsWhere p rs with
      | nil => rfl
      | cons a l => simp [interLoop]
    | some nextDocs =>
      rw [hi] at hx
      simp only [Option.getD_some] at hx
      simp only [hx, positions_eq_where, intersection_where]
      cases hc : positionsWhere (fun r => p r && hasToken tok r t) rs with
      | nil => simp only [Option.getD_none]; exact (hempty hc).symm
      | cons d ds =>
        simp only
        rw [← hc, ih, hall]

theorem linearSearch_of (ix : Indexer) (hix : ∀ t, (ix.indexed t).getD [] = positions tok rs t)
    (hdoc : ∀ i, ix.document i = (rs[i]?).map docOf) (tokens : List Str) :
    linearSearch tokens ix = some (andResults tok rs tokens) := by
  cases tokens with
  | nil => simp [linearSearch, andResults]
  | cons t ts =>
    have hx := hix t
    have hall : (fun r => hasToken tok r t && hasAll tok ts r) = hasAll tok (t :: ts) := by
      funext r; simp [hasAll]
    have e1 : linearSearch (t :: ts) ix = (match ix.indexed t with
      | none => some []
      | some docs => match linearLoop ix ts docs with
        | none => some []
        | some docs => toResults ix (t :: ts).length docs) := rfl
    rw [e1]
    unfold andResults
    rw [if_neg (by simp)]
    cases hi : ix.indexed t with
    | none =>
      rw [hi] at hx
      have hx' : positions tok rs t = [] := by simpa using hx.symm
      rw [positions_eq_where, positionsWhere_eq_nil, List.filter_eq_nil_iff] at hx'
      have : rs.filter (hasAll tok (t :: ts)) = [] := by
        rw [List.filter_eq_nil_iff]
        intro r hr hh
        apply hx' r hr
        rw [← hall] at hh
        simp only [Bool.and_eq_true] at hh
        exact hh.1
      rw [this]; rfl
    | some docs =>
      rw [hi] at hx
      simp only [Option.getD_some] at hx
      subst hx
      have hl := linearLoop_eq tok rs ix hix ts (fun r => hasToken tok r t)
      rw [← positions_eq_where] at hl
      simp only
      rw [hall] at hl
      have hp : ∀ i ∈ positionsWhere (hasAll tok (t :: ts)) rs, i < rs.length := by
        intro i hi
        unfold positionsWhere at hi
        rw [List.mem_filter, List.mem_range] at hi
        exact hi.1
      cases hc : linearLoop ix ts (positions tok rs t) with
      | none =>
        rw [hc] at hl
        simp only [Option.getD_none] at hl
        have := (positionsWhere_eq_nil rs _).1 hl.symm
        rw [this]; rfl
      | some docs =>
        rw [hc] at hl
        simp only [Option.getD_some] at hl
        subst hl
        simp only
        rw [toResults_map _ _ ix rs hdoc hp, filterMap_positionsWhere]

theorem linearSearch_eq (tokens : List Str) :
    linearSearch tokens ((buildIndex tok name rs).indexer cp) = some (andResults tok rs tokens) :=
  linearSearch_of tok rs _ (indexer_indexed cp tok name rs) (indexer_document cp tok name rs) tokens

theorem noopAll_eq (tokens : List Str) :
    noopAllSearch tokens ((buildIndex tok name rs).indexer cp)
      = some (rs.map fun r => { document := docOf r, hits := 0 }) := by
  unfold noopAllSearch
  rw [indexer_len]
  have h1 : List.range rs.length = positionsWhere (fun _ => true) rs := by
    unfold positionsWhere
    symm
    apply List.filter_eq_self.2
    intro i hi
    rw [List.mem_range] at hi
    rw [List.getElem?_eq_getElem hi]; rfl
  rw [toResults_map _ _ _ rs (indexer_document cp tok name rs) (by intro i hi; exact List.mem_range.1 hi),
    h1, filterMap_positionsWhere]
  congr 2
  exact List.filter_eq_self.2 (fun _ _ => rfl)

end
end Visigoth
