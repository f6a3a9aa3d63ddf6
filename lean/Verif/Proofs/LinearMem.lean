import Verif.Proofs.Ask
import Verif.Model.LinearMem
import Verif.Spec.LinearMem
/-!
# The memory of `LinearSearch`
-/
namespace Visigoth

theorem take_set_at {α : Type} (l : List α) (n : Nat) (x : α) (h : n < l.length) : (l.set n x).take (n + 1) = l.take n ++ [x] := by
  rw [List.take_add_one, List.getElem?_set_self h, List.take_set_of_le (Nat.le_refl n)]
  rfl

section
variable {α : Type} [LT α] [DecidableLT α] [Inhabited α]

/-- As long as there is room nothing is allocated. -/
theorem interLoopM_eq (grow : Nat → Nat) (a b : List α) : ∀ (fuel i j : Nat) (r : ArraySlice α),
    (a.length - i) + (b.length - j) ≤ fuel → r.len + min (a.length - i) (b.length - j) ≤ r.arr.length →
    ∃ r', interLoopM grow a b (fuel + 1) i j r = some (r', []) ∧ r'.arr.length = r.arr.length ∧ r'.len ≤ r'.arr.length ∧
      r'.elems = r.elems ++ interLoop fuel (a.drop i) (b.drop j) := by
  intro fuel
  induction fuel with
  | zero =>
    intro i j r h hroom
    refine ⟨r, ?_, rfl, by omega, by simp [interLoop]⟩
    rw [interLoopM, if_neg (by omega)]
  | succ n ih =>
    intro i j r h hroom
    rw [interLoopM]
    by_cases hij : i < a.length ∧ j < b.length
    · rw [if_pos hij]
      have ha : a.drop i = a[i] :: a.drop (i + 1) := List.drop_eq_getElem_cons hij.1
      have hb : b.drop j = b[j] :: b.drop (j + 1) := List.drop_eq_getElem_cons hij.2
      rw [List.getElem?_eq_getElem hij.1, List.getElem?_eq_getElem hij.2]
      simp only
      by_cases h1 : a[i] < b[j]
      · rw [if_pos h1]
        obtain ⟨r', e, hl, hle, he⟩ := ih (i + 1) j r (by omega) (by omega)
        refine ⟨r', e, hl, hle, ?_⟩
        rw [he, ha, hb]
        simp only [interLoop, h1, if_true]
      · rw [if_neg h1]
        by_cases h2 : a[i] > b[j]
        · rw [if_pos h2]
          obtain ⟨r', e, hl, hle, he⟩ := ih i (j + 1) r (by omega) (by omega)
          refine ⟨r', e, hl, hle, ?_⟩
          rw [he, ha, hb]
          simp only [interLoop, h1, h2, if_true, if_false]
        · rw [if_neg h2]
          have hlt : r.len < r.arr.length := by omega
          have happ : r.append grow a[i] = ({ arr := r.arr.set r.len a[i], len := r.len + 1 }, []) := by
            unfold ArraySlice.append
            rw [if_pos hlt]
          rw [happ]
          obtain ⟨r', e, hl, hle, he⟩ := ih (i + 1) (j + 1) { arr := r.arr.set r.len a[i], len := r.len + 1 } (by omega)
            (by simp only [List.length_set]; omega)
          refine ⟨r', by simp only [e]; rfl, by rw [hl, List.length_set], hle, ?_⟩
          rw [he, ha, hb]
          simp only [interLoop, h1, h2, if_false, ArraySlice.elems, take_set_at _ _ _ hlt]
          simp
    · rw [if_neg hij]
      refine ⟨r, rfl, rfl, by omega, ?_⟩
      have : interLoop (n + 1) (a.drop i) (b.drop j) = [] := by
        by_cases hi : i < a.length
        · have hj : b.length ≤ j := by
            have := fun h => hij ⟨hi, h⟩
            omega
          rw [List.drop_eq_nil_of_le hj, List.drop_eq_getElem_cons hi]
          rfl
        · rw [List.drop_eq_nil_of_le (by omega)]
          rfl
      rw [this, List.append_nil]

theorem intersectionM_eq (grow : Nat → Nat) (a b : List α) :
    ∃ r, intersectionM grow a b = some (r, [max a.length b.length]) ∧ r.arr.length = max a.length b.length ∧
      r.len ≤ r.arr.length ∧ r.elems = intersection a b := by
  have hmax : (if b.length > a.length then b.length else a.length) = max a.length b.length := by
    split <;> omega
  obtain ⟨r, e, hl, hle, he⟩ := interLoopM_eq grow a b (a.length + b.length) 0 0 (makeSlice (max a.length b.length))
    (by omega) (by simp [makeSlice]; omega)
  refine ⟨r, ?_, by rw [hl]; simp [makeSlice], hle, ?_⟩
  · unfold intersectionM
    simp only [hmax]
    rw [e]
    rfl
  · rw [he]
    simp [ArraySlice.elems, makeSlice, intersection]

end

section
variable {tok : Tokenizer} {rs : List DocRequest} {ix : Indexer}

theorem matchPositions_one (t : Str) : matchPositions tok rs [t] = positions tok rs t := by
  rw [matchPositions_eq, positions_eq_where]
  congr 1
  funext r
  simp [hasAll]

theorem matchPositions_next (seen : List Str) (u : Str) :
    intersection (matchPositions tok rs seen) (positions tok rs u) = matchPositions tok rs (seen ++ [u]) := by
  rw [matchPositions_eq, matchPositions_eq, positions_eq_where, intersection_where, hasAll_snoc]

theorem matchPositions_le (seen : List Str) (u : Str) :
    (matchPositions tok rs (seen ++ [u])).length ≤ (positions tok rs u).length := by
  rw [matchPositions_eq, hasAll_snoc, positions_eq_where]
  unfold positionsWhere
  rw [← List.countP_eq_length_filter, ← List.countP_eq_length_filter]
  apply List.countP_mono_left
  intro i _ hp
  cases hr : rs[i]? with
  | none => rw [hr] at hp; simp at hp
  | some r => rw [hr] at hp; simp at hp ⊢; exact hp.2

theorem inter_nil (a : List Nat) : intersection a [] = [] := by
  unfold intersection
  cases a with
  | nil => rfl
  | cons x l => simp [interLoop]

theorem linearLoopM_eq (grow : Nat → Nat) (hix : ∀ t, (ix.indexed t).getD [] = positions tok rs t) (nilEmpty : Bool)
    (hnil : ∀ t, positions tok rs t = [] → (ix.indexed t = none ↔ nilEmpty = true)) :
    ∀ (ts seen : List Str) (log : List Nat), ∃ log',
      linearLoopM grow ix ts (matchPositions tok rs seen) log = some (linearLoop ix ts (matchPositions tok rs seen), log ++ log') ∧
      log'.sum = laterCells nilEmpty tok rs seen (askedFrom tok rs seen ts) := by
  intro ts
  induction ts with
  | nil => intro seen log; exact ⟨[], by simp [linearLoopM, linearLoop], rfl⟩
  | cons u us ih =>
    intro seen log
    have hx := hix u
    have hone := matchPositions_one (tok := tok) (rs := rs) u
    have hany : rs.any (hasAll tok [u]) = false ↔ positions tok rs u = [] := by
      rw [any_iff_positions, ← matchPositions_eq, hone]
    simp only [linearLoopM, linearLoop, askedFrom, laterCells]
    cases hi : ix.indexed u with
    | none =>
      rw [hi] at hx
      have hx' : positions tok rs u = [] := by simpa using hx.symm
      refine ⟨[], by simp, ?_⟩
      rw [hany.2 hx', (hnil u hx').1 hi]
      rfl
    | some l =>
      rw [hi] at hx
      simp only [Option.getD_some] at hx
      subst hx
      have hcond : (nilEmpty && !rs.any (hasAll tok [u])) = false := by
        cases hn : nilEmpty with
        | false => rfl
        | true =>
          cases ha : rs.any (hasAll tok [u]) with
          | true => rfl
          | false =>
            have := (hnil u (hany.1 ha)).2 hn
            rw [hi] at this
            cases this
      obtain ⟨r, e, _, _, he⟩ := intersectionM_eq grow (matchPositions tok rs seen) (positions tok rs u)
      rw [matchPositions_next] at he
      simp only
      rw [e, hcond]
      simp only [he, matchPositions_next, hone, Bool.false_eq_true, if_false]
      cases hc : matchPositions tok rs (seen ++ [u]) with
      | nil =>
        have hno : rs.any (hasAll tok (seen ++ [u])) = false := by
          rw [any_iff_positions, ← matchPositions_eq]; exact hc
        refine ⟨_, rfl, ?_⟩
        simp [hno, laterCells]
      | cons d ds =>
        have hyes : rs.any (hasAll tok (seen ++ [u])) = true := by
          rw [← Bool.not_eq_false, any_iff_positions, ← matchPositions_eq, hc]; simp
        simp only
        rw [← hc]
        obtain ⟨log', h1, h2⟩ := ih (seen ++ [u]) (log ++ (positions tok rs u).length ::
          [max (matchPositions tok rs seen).length (positions tok rs u).length])
        refine ⟨_, by rw [h1, List.append_assoc], ?_⟩
        simp [hyes, h2]
        omega

theorem linearSearchM_eq (grow : Nat → Nat) (hix : ∀ t, (ix.indexed t).getD [] = positions tok rs t)
    (hdoc : ∀ i, ix.document i = (rs[i]?).map docOf) (nilEmpty : Bool)
    (hnil : ∀ t, positions tok rs t = [] → (ix.indexed t = none ↔ nilEmpty = true)) (tokens : List Str) :
    ∃ l log, linearSearchM grow tokens ix = some (l, log) ∧ linearSearch tokens ix = some l ∧
      log.sum = linearCells nilEmpty tok rs (linearAsked nilEmpty tok rs tokens) := by
  cases tokens with
  | nil => exact ⟨[], [], rfl, rfl, rfl⟩
  | cons t ts =>
    have hx := hix t
    have hone := matchPositions_one (tok := tok) (rs := rs) t
    have hany : rs.any (hasAll tok [t]) = false ↔ positions tok rs t = [] := by
      rw [any_iff_positions, ← matchPositions_eq, hone]
    simp only [linearSearchM, linearSearch, linearAsked, linearCells]
    cases hi : ix.indexed t with
    | none =>
      rw [hi] at hx
      have hx' : positions tok rs t = [] := by simpa using hx.symm
      refine ⟨[], [], rfl, rfl, ?_⟩
      rw [hany.2 hx', (hnil t hx').1 hi, hone, hx']
      rfl
    | some docs =>
      rw [hi] at hx
      simp only [Option.getD_some] at hx
      subst hx
      have hcond : (nilEmpty && !rs.any (hasAll tok [t])) = false := by
        cases hn : nilEmpty with
        | false => rfl
        | true =>
          cases ha : rs.any (hasAll tok [t]) with
          | true => rfl
          | false =>
            have := (hnil t (hany.1 ha)).2 hn
            rw [hi] at this
            cases this
      obtain ⟨log', h1, h2⟩ := linearLoopM_eq grow hix nilEmpty hnil ts [t] [(positions tok rs t).length]
      rw [hone] at h1
      simp only [h1, hcond, Bool.false_eq_true, if_false, hone]
      cases hl : linearLoop ix ts (positions tok rs t) with
      | none =>
        refine ⟨[], _, rfl, rfl, ?_⟩
        simp [h2]
      | some docs =>
        have hs := linearSearch_of tok rs ix hix hdoc (t :: ts)
        simp only [linearSearch, hi, hl] at hs
        simp only [hs]
        exact ⟨_, _, rfl, rfl, by simp [h2]⟩

theorem laterCells_le (nilEmpty : Bool) : ∀ (us seen : List Str),
    laterCells nilEmpty tok rs seen us ≤ (matchPositions tok rs seen).length + 3 * postings tok rs us := by
  intro us
  induction us with
  | nil => intro seen; exact Nat.zero_le _
  | cons u us ih =>
    intro seen
    simp only [laterCells, postings_cons]
    split
    · exact Nat.zero_le _
    · have := ih (seen ++ [u])
      have h1 := matchPositions_le (tok := tok) (rs := rs) seen u
      rw [matchPositions_one]
      omega

/-- If the documents that contain one of the tokens contain them all, every set is the same. -/
theorem laterCells_alike (nilEmpty : Bool) {tokens : List Str}
    (h : ∀ r ∈ rs, ∀ t ∈ tokens, t ∈ tok r.statement → ∀ u ∈ tokens, u ∈ tok r.statement) :
    ∀ (us seen : List Str), seen ≠ [] → (∀ t ∈ seen, t ∈ tokens) → (∀ t ∈ us, t ∈ tokens) →
      laterCells nilEmpty tok rs seen us ≤ 2 * intersectionSizes tok rs seen us := by
  have same : ∀ s s' : List Str, s ≠ [] → s' ≠ [] → (∀ t ∈ s, t ∈ tokens) → (∀ t ∈ s', t ∈ tokens) →
      (matchPositions tok rs s).length ≤ (matchPositions tok rs s').length := by
    intro s s' hs hs' hst hst'
    unfold matchPositions
    rw [← List.countP_eq_length_filter, ← List.countP_eq_length_filter]
    apply List.countP_mono_left
    intro i _ hp
    cases hr : rs[i]? with
    | none => rw [hr] at hp; simp at hp
    | some r =>
      rw [hr] at hp
      simp only [Option.any_some, hasAll, hasToken, List.all_eq_true, decide_eq_true_eq] at hp ⊢
      obtain ⟨t, ht⟩ := List.exists_mem_of_ne_nil s hs
      exact fun u hu => h r (List.mem_of_getElem? hr) t (hst t ht) (hp t ht) u (hst' u hu)
  intro us
  induction us with
  | nil => intro seen _ _ _; exact Nat.zero_le _
  | cons u us ih =>
    intro seen hne hseen hus
    have hu := hus u (by simp)
    have hsu : ∀ t ∈ seen ++ [u], t ∈ tokens := by
      intro t ht
      rcases List.mem_append.1 ht with ht | ht
      · exact hseen t ht
      · rw [List.mem_singleton.1 ht]; exact hu
    have h1 := ih (seen ++ [u]) (by simp) hsu (fun t ht => hus t (by simp [ht]))
    have hone : ∀ t ∈ [u], t ∈ tokens := by simpa using hu
    have h2 := same [u] (seen ++ [u]) (by simp) (by simp) hone hsu
    have h3 := same seen (seen ++ [u]) hne (by simp) hseen hsu
    simp only [laterCells, intersectionSizes]
    split
    · exact Nat.zero_le _
    · omega

end
end Visigoth
