import Verif.Proofs.Rows
import Verif.Props.Complete
/-!
# What callers can do to the repository through the rows of `ListAliases` (C78)
-/
namespace Visigoth

variable {cfg : Cfg} {s s1 s' : Shared} {a : SpecState} {o : Oracle} {t : Tid}

theorem slWrite_ok {r : SliceRef} {i : Nat} {v : Name} (he : exec cfg o t (.slWrite r i v) s = .ok () s') :
    ∃ x, s.arrays[r.arr]? = some x ∧ i < r.len ∧ s' = { s with arrays := s.arrays.set r.arr (x.set i v) } := by
  simp only [exec] at he
  split at he
  · next x hx =>
    split at he
    · next hi => cases he; exact ⟨x, hx, hi, rfl⟩
    · cases he
  · cases he

theorem slAppend_ok {r r' : SliceRef} {v : Name} (he : exec cfg o t (.slAppend r v) s = .ok r' s') :
    ∃ x, s.arrays[r.arr]? = some x ∧
      ((r.len < x.length ∧ r' = { r with len := r.len + 1 } ∧ s' = { s with arrays := s.arrays.set r.arr (x.set r.len v) }) ∨
       (x.length ≤ r.len ∧ ∃ y, s' = { s with arrays := s.arrays ++ [y] } ∧ r' = ⟨s.arrays.length, r.len + 1⟩ ∧
          r.len + 1 ≤ y.length + (r.len - x.length))) := by
  simp only [exec] at he
  split at he
  · cases he
  · next x hx =>
    refine ⟨x, hx, ?_⟩
    split at he
    · next hl => cases he; exact .inl ⟨hl, rfl, rfl⟩
    · next hl =>
      cases he
      refine .inr ⟨by omega, _, rfl, rfl, ?_⟩
      simp only [List.length_append, List.length_take, List.length_cons, List.length_replicate]
      omega

/-! ## Exactly what a write and an append do -/

/-- The assignment `r[i] = v` through any slice a caller holds: every alias whose slice is over the same backing
array has `v` at position `i` (if it is that long), no other alias changes, and no index. -/
theorem C78_write_exact (h : Abs cfg s a) {r : SliceRef} {i : Nat} {v : Name}
    (he : exec cfg o t (.slWrite r i v) s = .ok () s') :
    ∃ a', Abs cfg s' a' ∧ a'.docs = a.docs ∧ a'.leakedReaders = a.leakedReaders ∧ a'.leakedWriter = a.leakedWriter ∧
      (∀ k, s.shares k r → a'.aliases k = (a.aliases k).map (·.set i v)) ∧
      ∀ k, ¬ s.shares k r → a'.aliases k = a.aliases k := by
  obtain ⟨x, hx, -, rfl⟩ := slWrite_ok he
  exact abs_cell h hx

/-- `append(r, v)` through any slice a caller holds: with room behind the slice it overwrites the next position of
the backing array, for every alias over that array; without room it changes nothing. -/
theorem C78_append_exact (h : Abs cfg s a) {r r' : SliceRef} {v : Name}
    (he : exec cfg o t (.slAppend r v) s = .ok r' s') :
    ∃ x, s.arrays[r.arr]? = some x ∧
      ((r.len < x.length ∧ ∃ a', Abs cfg s' a' ∧ a'.docs = a.docs ∧ a'.leakedReaders = a.leakedReaders ∧
          a'.leakedWriter = a.leakedWriter ∧
          (∀ k, s.shares k r → a'.aliases k = (a.aliases k).map (·.set r.len v)) ∧
          ∀ k, ¬ s.shares k r → a'.aliases k = a.aliases k) ∨
       (x.length ≤ r.len ∧ Abs cfg s' a)) := by
  obtain ⟨x, hx, ⟨hl, -, rfl⟩ | ⟨hl, y, rfl, -, -⟩⟩ := slAppend_ok he
  · exact ⟨x, hx, .inl ⟨hl, abs_cell h hx⟩⟩
  · exact ⟨x, hx, .inr ⟨hl, abs_extra h y⟩⟩

/-- Whatever callers do with slices they got from the repository, it keeps representing a state of the
specification, so that C66 and the rest still say what each further call does; and the slices stay usable. -/
theorem C78_still_consistent {R : List SliceRef} (h : Owns cfg s R) : ∃ a, Abs cfg s a ∧ ∀ r ∈ R, ValidIn s.arrays r := by
  induction h with
  | new => exact ⟨_, abs_empty cfg, by simp⟩
  | call h hr ih =>
    obtain ⟨a, ha, hv⟩ := ih
    exact ⟨_, (step_ok ha hr).2.2.2.1, fun r hr' => (run_lengths hr).valid (hv r hr')⟩
  | row h hr he ih =>
    obtain ⟨a, ha, hv⟩ := ih
    obtain ⟨rfl, hrow⟩ := listAliases_rows ha _ _ _ _ hr
    refine ⟨a, ha, fun r hr' => ?_⟩
    rcases List.mem_cons.1 hr' with rfl | hr'
    · exact ha.al.valid _ _ (hrow _ he)
    · exact hv r hr'
  | reslice h hr ha' hn ih =>
    obtain ⟨a, ha, hv⟩ := ih
    refine ⟨a, ha, fun r' hr' => ?_⟩
    rcases List.mem_cons.1 hr' with rfl | hr'
    · exact ⟨_, ha', hn⟩
    · exact hv r' hr'
  | write h hr he ih =>
    obtain ⟨a, ha, hv⟩ := ih
    obtain ⟨a', ha', -⟩ := C78_write_exact ha he
    exact ⟨a', ha', fun r' hr' => (exec_lengths he).valid (hv r' hr')⟩
  | append h hr he ih =>
    obtain ⟨a, ha, hv⟩ := ih
    have hval := hv _ hr
    have hrest : ∀ q, ValidIn _ q → ValidIn _ q := fun q hq => (exec_lengths he).valid hq
    obtain ⟨x, hx, h2⟩ := slAppend_ok he
    rcases h2 with ⟨hl, rfl, rfl⟩ | ⟨hl, y, rfl, rfl, hy⟩
    · obtain ⟨a', ha', -⟩ := abs_cell ha (i := _) (v := _) hx
      refine ⟨a', ha', fun q hq => ?_⟩
      rcases List.mem_cons.1 hq with rfl | hq
      · exact (validIn_set hx _).2 ⟨x, hx, hl⟩
      · exact hrest q (hv q hq)
    · refine ⟨a, abs_extra ha y, fun q hq => ?_⟩
      rcases List.mem_cons.1 hq with rfl | hq
      · refine ⟨y, by simp, ?_⟩
        obtain ⟨x', hx', hl'⟩ := hval
        rw [hx] at hx'; cases hx'
        simp only
        omega
      · exact hrest q (hv q hq)

theorem withoutAlias_abs (h : Abs cfg s a) (hs : WithoutAlias cfg s s') : ∃ a', Abs cfg s' a' := by
  induction hs with
  | refl => exact ⟨a, h⟩
  | call _ _ hr ih => obtain ⟨b, hb⟩ := ih; exact ⟨_, (step_ok hb hr).2.2.2.1⟩
  | write _ he ih => obtain ⟨b, hb⟩ := ih; obtain ⟨b', hb', -⟩ := C78_write_exact hb he; exact ⟨b', hb'⟩
  | append _ he ih =>
    obtain ⟨b, hb⟩ := ih
    obtain ⟨_, -, ⟨-, b', hb', -⟩ | ⟨-, hb'⟩⟩ := C78_append_exact hb he
    · exact ⟨b', hb'⟩
    · exact ⟨b, hb'⟩

/-! ## Consequences right after `ListAliases` -/

/-- Writing to position `i` of a row just returned changes exactly that alias, at exactly that position. -/
theorem C78_write_changes_alias (h : Abs cfg s a) {rows : List (Name × SliceRef)}
    (hrun : run cfg o t (Op.prog cfg .listAliases) s = .ok (.rows rows) s1) {e : Name × SliceRef} (he : e ∈ rows)
    {i : Nat} {v : Name} {o' : Oracle} {t' : Tid} (hw : exec cfg o' t' (.slWrite e.2 i v) s1 = .ok () s') :
    ∃ l a', a.aliases e.1 = some l ∧ i < l.length ∧ Abs cfg s' a' ∧ a'.docs = a.docs ∧
      a'.leakedReaders = a.leakedReaders ∧ a'.leakedWriter = a.leakedWriter ∧
      a'.aliases e.1 = some (l.set i v) ∧ ∀ k, k ≠ e.1 → a'.aliases k = a.aliases k := by
  obtain ⟨rfl, hrow⟩ := listAliases_rows h _ _ _ _ hrun
  have hk := hrow e he
  obtain ⟨a', ha', h1, h2, h3, h4, h5⟩ := C78_write_exact h hw
  obtain ⟨x, hx, hi, -⟩ := slWrite_ok hw
  obtain ⟨y, hy, hlen⟩ := h.al.valid _ _ hk
  have hl : a.aliases e.1 = some (elemsIn s1.arrays e.2) := by rw [h.view, alView, hk]; rfl
  refine ⟨_, a', hl, ?_, ha', h1, h2, h3, ?_, fun k hne => h5 k ?_⟩
  · simp only [elemsIn, hy, Option.getD_some, List.length_take]; omega
  · rw [h4 _ ⟨e.2, hk, rfl⟩, hl]; rfl
  · rintro ⟨q, hq, hqr⟩
    exact hne (h.al.distinct _ _ _ _ hq hk hqr)

/-- Overwriting an element with a name that is no index: from then on `Search` of the alias crashes the process,
and so does `Put` to it. -/
theorem C78_write_crashes (h : Abs cfg s a) {rows : List (Name × SliceRef)}
    (hrun : run cfg o t (Op.prog cfg .listAliases) s = .ok (.rows rows) s1) {e : Name × SliceRef} (he : e ∈ rows)
    {i : Nat} {v : Name} {o' : Oracle} {t' : Tid} (hw : exec cfg o' t' (.slWrite e.2 i v) s1 = .ok () s')
    (hk : a.docs e.1 = none) (hv : a.docs v = none) (hleak : a.leakedWriter = false) :
    (∀ o t ts eng, run cfg o t (Op.prog cfg (.search e.1 ts eng)) s' = .crash .nilIndex) ∧
    (a.leakedReaders = 0 → ∀ o t d, run cfg o t (Op.prog cfg (.put e.1 d)) s' = .crash .nilIndex) := by
  obtain ⟨l, a', -, hi, ha', h1, h2, h3, h4, -⟩ := C78_write_changes_alias h hrun he hw
  have hres : a'.resolve e.1 = some (l.set i v) := by simp [SpecState.resolve, h1, hk, h4]
  have hmem : ∃ m ∈ l.set i v, a'.docs m = none := ⟨v, List.mem_set hi v, by rw [h1]; exact hv⟩
  constructor
  · intro o t ts eng
    rw [C66_crash_exact ha']
    refine ⟨?_, _, hres, .inl ⟨rfl, hmem⟩⟩
    simp [SpecState.hangs, h3, hleak]
  · intro h0 o t d
    rw [C66_crash_exact ha']
    refine ⟨?_, _, hres, .inl ⟨rfl, hmem⟩⟩
    simp [SpecState.hangs, h3, hleak, h2, h0]

/-- Overwriting an element with a name that stands elsewhere in the alias: from then on two goroutines of a `Put` to
the alias write the same index without synchronisation. -/
theorem C78_write_races (h : Abs cfg s a) {rows : List (Name × SliceRef)}
    (hrun : run cfg o t (Op.prog cfg .listAliases) s = .ok (.rows rows) s1) {e : Name × SliceRef} (he : e ∈ rows)
    {i : Nat} {v : Name} {o' : Oracle} {t' : Tid} (hw : exec cfg o' t' (.slWrite e.2 i v) s1 = .ok () s')
    (hk : a.docs e.1 = none) {l : List Name} (hl : a.aliases e.1 = some l) (hall : ∀ m ∈ l, (a.docs m).isSome)
    {j : Nat} (hj : l[j]? = some v) (hne : j ≠ i) (hR : a.leakedReaders = 0) (hW : a.leakedWriter = false) :
    ∀ o t d, run cfg o t (Op.prog cfg (.put e.1 d)) s' = .crash .race := by
  obtain ⟨l', a', hl', hi, ha', h1, h2, h3, h4, -⟩ := C78_write_changes_alias h hrun he hw
  rw [hl] at hl'; cases hl'
  have hres : a'.resolve e.1 = some (l.set i v) := by simp [SpecState.resolve, h1, hk, h4]
  intro o t d
  rw [C66_crash_exact ha']
  refine ⟨by simp [SpecState.hangs, h3, hW, h2, hR], _, hres, .inr ⟨rfl, fun m hm => ?_, fun hnd => ?_⟩⟩
  · rw [h1]
    rcases List.mem_or_eq_of_mem_set hm with hm | rfl
    · exact hall m hm
    · exact hall _ (List.mem_of_getElem? hj)
  · have hjl := (List.getElem?_eq_some_iff.1 hj).1
    have e1 : (l.set i v)[j]? = some v := by rw [List.getElem?_set_ne (Ne.symm hne)]; exact hj
    have e2 : (l.set i v)[i]? = some v := List.getElem?_set_self hi
    exact hne ((List.getElem?_inj (by simpa using hjl) hnd).1 (e1.trans e2.symm))

/-! ## C78 as stated is false -/

/-- The state after a call with doubling capacities. -/
def afterCall (op : Op) (s : Shared) : Shared :=
  match run sampleCfg reverseOracle 0 (op.prog sampleCfg) s with
  | .ok _ s' => s'
  | _ => s

theorem owns_afterCall {R : List SliceRef} (op : Op) (h : Owns sampleCfg s R) : Owns sampleCfg (afterCall op s) R := by
  unfold afterCall
  split
  · next hr => exact .call h hr
  · exact h

/-- Two indices, and an alias of the first. -/
def rowState : Shared :=
  afterCall (.alias (str "k") (str "a")) (afterCall (.put (str "b") docD) (afterCall (.put (str "a") docD) newIndexRepo))

def rowRef : SliceRef := ⟨0, 1⟩

theorem rowState_rows :
    run sampleCfg reverseOracle 0 (Op.prog sampleCfg .listAliases) rowState = .ok (.rows [(str "k", rowRef)]) rowState := by
  decide +kernel

theorem rowState_owns : Owns sampleCfg rowState [rowRef] :=
  .row (e := (str "k", rowRef)) (owns_afterCall _ (owns_afterCall _ (owns_afterCall _ .new))) rowState_rows (by simp)

deriving instance DecidableEq for Exec

/-- A caller that writes into a row changes what the alias lists. -/
theorem C78_write_refuted : ¬ WritesHarmless sampleCfg := by
  intro h
  have := h rowState [rowRef] rowRef 0 (str "gone") sampleOracle 0
    { rowState with arrays := [[str "gone", []]] } rowState_owns (by simp) (by decide +kernel) (str "k")
  exact absurd this (by decide +kernel)

/-- A caller that appends to a row overwrites what `Alias` has added to the alias in the meantime. -/
theorem C78_append_refuted : ¬ AppendsHarmless sampleCfg := by
  intro h
  have := h (afterCall (.alias (str "k") (str "b")) rowState) [rowRef] rowRef (str "mine") sampleOracle 0 ⟨0, 2⟩
    { afterCall (.alias (str "k") (str "b")) rowState with arrays := [[str "a", str "mine"]] }
    (owns_afterCall _ rowState_owns) (by simp) (by decide +kernel) (str "k")
  exact absurd this (by decide +kernel)

/-- What C78 claims does hold for appending as long as `Alias` has not been called since `ListAliases`, whatever else
has been called and whatever callers have written and appended in the meantime. -/
theorem C78_append_harmless_partial (h : Abs cfg s a) {rows : List (Name × SliceRef)}
    (hrun : run cfg o t (Op.prog cfg .listAliases) s = .ok (.rows rows) s1) {e : Name × SliceRef} (he : e ∈ rows)
    {s2 s3 : Shared} (hsince : WithoutAlias cfg s1 s2) {v : Name} {r' : SliceRef} {o' : Oracle} {t' : Tid}
    (hw : exec cfg o' t' (.slAppend e.2 v) s2 = .ok r' s3) : ∀ k, s3.table k = s2.table k := by
  obtain ⟨rfl, hrow⟩ := listAliases_rows h _ _ _ _ hrun
  have hk := hrow e he
  obtain ⟨hlen, hold⟩ := withoutAlias_frame hsince
  obtain ⟨y, hy, -⟩ := h.al.valid _ _ hk
  have hlt := (List.getElem?_eq_some_iff.1 hy).1
  intro k
  show (s3.aliases.get k).map (elemsIn s3.arrays) = (s2.aliases.get k).map (elemsIn s2.arrays)
  have hal : s3.aliases = s2.aliases := (exec_frame hw).2.1 (by simp [Act.writes])
  rw [hal]
  cases hq : s2.aliases.get k with
  | none => rfl
  | some q =>
    simp only [Option.map_some, Option.some.injEq]
    obtain ⟨x, hx, h2⟩ := slAppend_ok hw
    rcases h2 with ⟨hl, -, rfl⟩ | ⟨hl, z, rfl, -, -⟩
    · rw [elemsIn_set hx]
      split
      · next hqa =>
        rcases hold k q hq with hge | hq'
        · omega
        · have := h.al.distinct _ _ _ _ hq' hk hqa
          subst this
          rw [hk] at hq'; cases hq'
          apply List.set_eq_of_length_le
          simp only [elemsIn, List.length_take]
          omega
      · rfl
    · obtain ⟨a2, h2⟩ := withoutAlias_abs h hsince
      exact (validIn_append (h2.al.valid _ _ hq) z).2

/-! ## Concrete cases -/

/-- The rows of `rowState`, the write of C78_write_refuted, and the search that crashes after it. -/
example :
    exec sampleCfg sampleOracle 0 (.slWrite rowRef 0 (str "gone")) rowState =
      .ok () { rowState with arrays := [[str "gone", []]] } ∧
    run sampleCfg sampleOracle 0 (Op.prog sampleCfg (.search (str "k") (str "java") noopAllSearch))
      { rowState with arrays := [[str "gone", []]] } = .crash .nilIndex ∧
    run sampleCfg sampleOracle 0 (Op.prog sampleCfg (.put (str "k") docE))
      { rowState with arrays := [[str "gone", []]] } = .crash .nilIndex := by
  refine ⟨?_, ?_, ?_⟩ <;> decide +kernel

/-- An alias of two indices, in which the second is overwritten by the first: `Put` races. -/
example :
    rowState.table (str "k") = some [str "a"] ∧
    (afterCall (.alias (str "k") (str "b")) rowState).table (str "k") = some [str "a", str "b"] ∧
    exec sampleCfg sampleOracle 0 (.slWrite ⟨0, 2⟩ 1 (str "a")) (afterCall (.alias (str "k") (str "b")) rowState) =
      .ok () { afterCall (.alias (str "k") (str "b")) rowState with arrays := [[str "a", str "a"]] } ∧
    run sampleCfg sampleOracle 0 (Op.prog sampleCfg (.put (str "k") docE))
      { afterCall (.alias (str "k") (str "b")) rowState with arrays := [[str "a", str "a"]] } = .crash .race := by
  refine ⟨?_, ?_, ?_, ?_⟩ <;> decide +kernel

/-- Without a call of `Alias` in between, an in-place append changes no alias; what it stored is overwritten by the
repository when `Alias` is called later, so that the caller's own slice changes. -/
example :
    WithoutAlias sampleCfg rowState (afterCall (.rename (str "a") (str "c")) rowState) ∧
    exec sampleCfg sampleOracle 0 (.slAppend rowRef (str "mine")) rowState =
      .ok ⟨0, 2⟩ { rowState with arrays := [[str "a", str "mine"]] } ∧
    ({ rowState with arrays := [[str "a", str "mine"]] } : Shared).table (str "k") = some [str "a"] ∧
    ({ rowState with arrays := [[str "a", str "mine"]] } : Shared).elems ⟨0, 2⟩ = [str "a", str "mine"] ∧
    (afterCall (.alias (str "k") (str "b")) { rowState with arrays := [[str "a", str "mine"]] }).elems ⟨0, 2⟩ =
      [str "a", str "b"] := by
  refine ⟨?_, ?_, ?_, ?_, ?_⟩
  · exact .call (op := .rename (str "a") (str "c")) (o := reverseOracle) (t := 0) (r := .bool true) .refl
      (fun _ _ => nofun) (by decide +kernel)
  all_goals decide +kernel

end Visigoth
