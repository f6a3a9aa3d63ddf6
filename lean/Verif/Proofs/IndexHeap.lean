import Verif.Model.IndexHeap
import Verif.Proofs.Slices
import Verif.Proofs.Index
/-!
# The heap model of an index
-/
namespace Visigoth

theorem intsOf_eq (A : List (List Nat)) (r : SliceRef) : intsOf A r = elemsIn A r := rfl

/-- No slice of the table lies over the array. -/
def Apart (inv : GoMap Str SliceRef) (arr : Nat) : Prop := ∀ k r, inv.get k = some r → r.arr ≠ arr

theorem apart_snap {A : List (List Nat)} {inv : GoMap Str SliceRef} {r : SliceRef} (hv : ValidIn A r)
    (ha : Apart inv r.arr) : Snap A inv r :=
  ⟨hv, fun k r' hk he => absurd he (ha k r' hk)⟩

theorem replicate_take (l : List Nat) (n : Nat) : (l ++ List.replicate n 0).take l.length = l := by simp

/-- One iteration of the token loop. -/
theorem addPosting_heap (cap : Nat → Nat) (next : Nat) (x : HeapIndex) (tok : Str) (m : GoMap Str (List Nat))
    (hA : AlOk x.arrays x.inverted) (hm : ∀ k, alView x.arrays x.inverted k = m.get k) :
    (x.addPosting cap next tok).docs = x.docs ∧
    AlOk (x.addPosting cap next tok).arrays (x.addPosting cap next tok).inverted ∧
    (∀ k, alView (x.addPosting cap next tok).arrays (x.addPosting cap next tok).inverted k
      = (addPosting next m tok).get k) ∧
    Keeps x.arrays x.inverted (x.addPosting cap next tok).arrays (x.addPosting cap next tok).inverted ∧
    (∀ arr, arr < x.arrays.length → Apart x.inverted arr → Apart (x.addPosting cap next tok).inverted arr) := by
  have hnewApart : ∀ len arr, arr < x.arrays.length → Apart x.inverted arr →
      Apart (GoMap.set x.inverted tok ⟨x.arrays.length, len⟩) arr := by
    intro len arr hlt ha k r hk
    rw [GoMap.get_set] at hk
    split at hk
    · injection hk with hk; subst hk; exact Nat.ne_of_gt hlt
    · exact ha k r hk
  cases hg : x.inverted.get tok with
  | none =>
    have hmt : m.get tok = none := by rw [← hm]; simp [alView, hg]
    have heq : x.addPosting cap next tok = { x with
        arrays := x.arrays ++ [[next] ++ List.replicate (cap 1 - 1) 0]
        inverted := GoMap.set x.inverted tok ⟨x.arrays.length, 1⟩ } := by
      simp [HeapIndex.addPosting, hg, allocInts]
    rw [heq]
    obtain ⟨h1, h2, h3⟩ := alOk_new hA tok ([next] ++ List.replicate (cap 1 - 1) 0) 1 (by simp)
    refine ⟨rfl, h1, fun k => ?_, h3, hnewApart 1⟩
    rw [h2]
    simp only [addPosting, hmt, Option.getD_none, List.not_mem_nil, if_false, List.nil_append]
    rw [GoMap.get_set]
    unfold upd
    by_cases hk : k = tok
    · subst hk; simp
    · rw [if_neg hk, if_neg (Ne.symm hk), hm]
  | some r =>
    have hmt : m.get tok = some (intsOf x.arrays r) := by rw [← hm]; simp [alView, hg, intsOf_eq]
    by_cases hin : next ∈ intsOf x.arrays r
    · have heq : x.addPosting cap next tok = x := by simp [HeapIndex.addPosting, hg, hin]
      rw [heq]
      refine ⟨rfl, hA, fun k => ?_, Keeps.refl _ _, fun _ _ h => h⟩
      rw [hm]; simp [addPosting, hmt, hin]
    · obtain ⟨a, ha, hle⟩ := hA.valid tok r hg
      have hspec : ∀ k, (addPosting next m tok).get k
          = upd (fun k => m.get k) tok (some (intsOf x.arrays r ++ [next])) k := by
        intro k
        simp only [addPosting, hmt, Option.getD_some, hin, if_false]
        rw [GoMap.get_set]
        unfold upd
        by_cases hk : k = tok
        · subst hk; simp
        · rw [if_neg hk, if_neg (Ne.symm hk)]
      by_cases hlt : r.len < a.length
      · have heq : x.addPosting cap next tok = { x with
            arrays := x.arrays.set r.arr (a.set r.len next)
            inverted := GoMap.set x.inverted tok { r with len := r.len + 1 } } := by
          simp [HeapIndex.addPosting, hg, hin, appendInts, ha, hlt]
        rw [heq]
        obtain ⟨h1, h2, h3⟩ := alOk_inPlace hA tok r a next hg ha hlt
        refine ⟨rfl, h1, fun k => ?_, h3, fun arr _ hap k q hk => ?_⟩
        · rw [h2, hspec]
          unfold upd
          split
          · rfl
          · exact hm k
        · rw [GoMap.get_set] at hk
          split at hk
          · injection hk with hk; subst hk; exact hap tok r hg
          · exact hap k q hk
      · have hlen : (a.take r.len ++ [next]).length = r.len + 1 := by simp; omega
        have heq : x.addPosting cap next tok = { x with
            arrays := x.arrays ++ [(a.take r.len ++ [next]) ++
              List.replicate (cap (r.len + 1) - (r.len + 1)) 0]
            inverted := GoMap.set x.inverted tok ⟨x.arrays.length, r.len + 1⟩ } := by
          simp only [HeapIndex.addPosting, hg, hin, appendInts, ha, hlt, if_false, allocInts, hlen]
        rw [heq]
        obtain ⟨h1, h2, h3⟩ := alOk_new hA tok ((a.take r.len ++ [next]) ++
              List.replicate (cap (r.len + 1) - (r.len + 1)) 0) (r.len + 1) (by
                rw [List.length_append, hlen]; omega)
        refine ⟨rfl, h1, fun k => ?_, h3, hnewApart _⟩
        rw [h2, hspec]
        unfold upd
        split
        · congr 1
          rw [← hlen, replicate_take]
          simp [intsOf, ha]
        · exact hm k

/-- Sizes only grow. -/
theorem addPosting_length (cap : Nat → Nat) (next : Nat) (x : HeapIndex) (tok : Str) :
    x.arrays.length ≤ (x.addPosting cap next tok).arrays.length := by
  have happ : ∀ r, x.arrays.length ≤ (appendInts cap x.arrays r next).1.length := by
    intro r
    unfold appendInts allocInts
    split
    · split <;> simp
    · simp
  unfold HeapIndex.addPosting
  split
  · simp [allocInts]
  · split
    · exact Nat.le_refl _
    · exact happ _

theorem addPostings_heap (cap : Nat → Nat) (next : Nat) (toks : List Str) :
    ∀ (x : HeapIndex) (m : GoMap Str (List Nat)),
    AlOk x.arrays x.inverted → (∀ k, alView x.arrays x.inverted k = m.get k) →
    (toks.foldl (HeapIndex.addPosting cap next) x).docs = x.docs ∧
    AlOk (toks.foldl (HeapIndex.addPosting cap next) x).arrays
      (toks.foldl (HeapIndex.addPosting cap next) x).inverted ∧
    (∀ k, alView (toks.foldl (HeapIndex.addPosting cap next) x).arrays
        (toks.foldl (HeapIndex.addPosting cap next) x).inverted k
      = (toks.foldl (addPosting next) m).get k) ∧
    Keeps x.arrays x.inverted (toks.foldl (HeapIndex.addPosting cap next) x).arrays
      (toks.foldl (HeapIndex.addPosting cap next) x).inverted ∧
    (∀ arr, arr < x.arrays.length → Apart x.inverted arr →
      Apart (toks.foldl (HeapIndex.addPosting cap next) x).inverted arr) := by
  induction toks with
  | nil => intro x m hA hm; exact ⟨rfl, hA, hm, Keeps.refl _ _, fun _ _ h => h⟩
  | cons tok toks ih =>
    intro x m hA hm
    obtain ⟨h1, h2, h3, h4, h5⟩ := addPosting_heap cap next x tok m hA hm
    obtain ⟨g1, g2, g3, g4, g5⟩ := ih (x.addPosting cap next tok) (addPosting next m tok) h2 h3
    exact ⟨g1.trans h1, g2, g3, h4.trans g4, fun arr hlt ha =>
      g5 arr (Nat.lt_of_lt_of_le hlt (addPosting_length cap next x tok)) (h5 arr hlt ha)⟩

/-- The requests put by a history. -/
def putsOf : List ClientAct → List DocRequest
  | [] => []
  | .put _ r :: acts => r :: putsOf acts
  | _ :: acts => putsOf acts

theorem putsOf_append (as bs : List ClientAct) : putsOf (as ++ bs) = putsOf as ++ putsOf bs := by
  induction as with
  | nil => rfl
  | cons a as ih => cases a <;> simp [putsOf, ih]

/-- The invariant of a world. -/
structure WorldOk (tok : Tokenizer) (w : World) (rs : List DocRequest) : Prop where
  table : AlOk w.index.arrays w.index.inverted
  rep : ∀ k, alView w.index.arrays w.index.inverted k = (buildIndex tok [] rs).inverted.get k
  docs : w.index.docs = (buildIndex tok [] rs).docs
  held : ∀ e ∈ w.slices, ValidIn w.index.arrays e.1 ∧ Apart w.index.inverted e.1.arr ∧ e.2 < w.calls
  origin : ∀ e ∈ w.slices, ∀ e' ∈ w.slices, e.1.arr = e'.1.arr → e.2 = e'.2

theorem worldOk_empty (tok : Tokenizer) : WorldOk tok {} [] := by
  refine ⟨⟨?_, ?_, ?_⟩, ?_, rfl, ?_, ?_⟩ <;>
    simp [GoMap.keys, alView, buildIndex, newMemoryIndex]

/-- Which `Indexed` call an action works on the result of. -/
def ClientAct.through (w : World) : ClientAct → Option Nat
  | .write h _ _ | .append _ h _ => (w.slices[h]?).map (·.2)
  | _ => none

/-- What an action preserves. -/
structure StepOk (tok : Tokenizer) (w : World) (act : ClientAct) (w' : World) (rs : List DocRequest) : Prop where
  ok : WorldOk tok w' (rs ++ putsOf [act])
  slices : ∃ new, w'.slices = w.slices ++ new
  keep : ∀ e ∈ w.slices, act.through w ≠ some e.2 → intsOf w'.index.arrays e.1 = intsOf w.index.arrays e.1

theorem keeps_append {A : List (List Nat)} {inv : GoMap Str SliceRef} (hA : AlOk A inv) (x : List Nat) :
    AlOk (A ++ [x]) inv ∧ (∀ k, alView (A ++ [x]) inv k = alView A inv k) := by
  refine ⟨⟨hA.nodup, fun n r hn => (validIn_append (hA.valid n r hn) x).1, hA.distinct⟩, fun k => ?_⟩
  unfold alView
  cases hg : inv.get k with
  | none => rfl
  | some r => simp [(validIn_append (hA.valid k r hg) x).2]

theorem set_apart {A : List (List Nat)} {inv : GoMap Str SliceRef} (hA : AlOk A inv) {arr : Nat}
    (hap : Apart inv arr) (a : List Nat) :
    AlOk (A.set arr a) inv ∧ (∀ k, alView (A.set arr a) inv k = alView A inv k) := by
  have hget : ∀ k r, inv.get k = some r → (A.set arr a)[r.arr]? = A[r.arr]? := fun k r hk =>
    List.getElem?_set_ne (Ne.symm (hap k r hk))
  refine ⟨⟨hA.nodup, fun n r hn => ?_, hA.distinct⟩, fun k => ?_⟩
  · obtain ⟨b, h1, h2⟩ := hA.valid n r hn
    exact ⟨b, (hget n r hn).trans h1, h2⟩
  · unfold alView
    cases hg : inv.get k with
    | none => rfl
    | some r => simp [elemsIn, hget k r hg]

theorem apart_length {A : List (List Nat)} {inv : GoMap Str SliceRef} (hA : AlOk A inv) : Apart inv A.length :=
  fun k r hk => Nat.ne_of_lt (validIn_lt (hA.valid k r hk))

/-- A world with one more array and one more slice over it. -/
theorem stepOk_fresh {tok : Tokenizer} {w : World} {rs : List DocRequest} (h : WorldOk tok w rs) (l : List Nat)
    (cap : Nat → Nat) (call calls : Nat) (hc : call < calls) (hcs : w.calls ≤ calls) :
    WorldOk tok { index := { w.index with arrays := (allocInts cap w.index.arrays l).1 }
                  slices := w.slices ++ [((allocInts cap w.index.arrays l).2, call)]
                  calls := calls } rs ∧
    (∀ e ∈ w.slices, intsOf (allocInts cap w.index.arrays l).1 e.1 = intsOf w.index.arrays e.1) := by
  simp only [allocInts]
  obtain ⟨h1, h2⟩ := keeps_append h.table (l ++ List.replicate (cap l.length - l.length) 0)
  refine ⟨⟨h1, fun k => (h2 k).trans (h.rep k), h.docs, fun e he => ?_, fun e he e' he' hee => ?_⟩,
    fun e he => (validIn_append (h.held e he).1 _).2⟩
  · rcases List.mem_append.1 he with he | he
    · obtain ⟨g1, g2, g3⟩ := h.held e he
      exact ⟨(validIn_append g1 _).1, g2, Nat.lt_of_lt_of_le g3 hcs⟩
    · simp only [List.mem_singleton] at he
      subst he
      exact ⟨⟨l ++ List.replicate (cap l.length - l.length) 0, by simp, by simp⟩, apart_length h.table, hc⟩
  · have hlt : ∀ e ∈ w.slices, e.1.arr ≠ w.index.arrays.length := fun e he =>
      Nat.ne_of_lt (validIn_lt (h.held e he).1)
    rcases List.mem_append.1 he with he | he <;> rcases List.mem_append.1 he' with he' | he'
    · exact h.origin e he e' he' hee
    · simp only [List.mem_singleton] at he'; subst he'; exact absurd hee (hlt e he)
    · simp only [List.mem_singleton] at he; subst he; exact absurd hee.symm (hlt e' he')
    · simp only [List.mem_singleton] at he he'; subst he; subst he'; rfl

/-- A write into an array a slice of the caller lies over. -/
theorem stepOk_set {tok : Tokenizer} {w : World} {rs : List DocRequest} (h : WorldOk tok w rs) {s : SliceRef}
    {call : Nat} (hs : (s, call) ∈ w.slices) (a b : List Nat) (ha : w.index.arrays[s.arr]? = some a)
    (hb : b.length = a.length) :
    WorldOk tok { w with index := { w.index with arrays := w.index.arrays.set s.arr b } } rs ∧
    (∀ e ∈ w.slices, e.2 ≠ call → intsOf (w.index.arrays.set s.arr b) e.1 = intsOf w.index.arrays e.1) := by
  obtain ⟨_, hap, _⟩ := h.held _ hs
  obtain ⟨h1, h2⟩ := set_apart h.table hap b
  have hlt := (List.getElem?_eq_some_iff.1 ha).1
  refine ⟨⟨h1, fun k => (h2 k).trans (h.rep k), h.docs, fun e he => ?_, h.origin⟩, fun e he hne => ?_⟩
  · obtain ⟨⟨c, g1, g1'⟩, g2, g3⟩ := h.held e he
    refine ⟨?_, g2, g3⟩
    by_cases hee : e.1.arr = s.arr
    · rw [hee, ha] at g1
      injection g1 with g1
      subst g1
      exact ⟨b, by rw [hee]; simp [hlt], by omega⟩
    · exact ⟨c, by rw [List.getElem?_set_ne (Ne.symm hee)]; exact g1, g1'⟩
  · have hee : e.1.arr ≠ s.arr := fun hee => hne (h.origin e he (s, call) hs hee)
    simp only [intsOf, List.getElem?_set_ne (Ne.symm hee)]

theorem stepOk {tok : Tokenizer} {w : World} {rs : List DocRequest} (h : WorldOk tok w rs) (act : ClientAct) :
    StepOk tok w act (w.step tok act) rs := by
  cases act with
  | put cap r =>
    obtain ⟨h1, h2, h3, h4, h5⟩ := addPostings_heap cap w.index.docs.length (tok r.statement)
      { w.index with docs := w.index.docs ++ [newDoc r.id r.raw] } (buildIndex tok [] rs).inverted h.table h.rep
    have hbuild : buildIndex tok [] (rs ++ [r]) = (buildIndex tok [] rs).put tok r := buildIndex_append tok [] rs r
    have hk : ∀ e ∈ w.slices, Snap (w.index.put tok cap r).arrays (w.index.put tok cap r).inverted e.1 ∧
        intsOf (w.index.put tok cap r).arrays e.1 = intsOf w.index.arrays e.1 := fun e he =>
      h4 e.1 (apart_snap (h.held e he).1 (h.held e he).2.1)
    refine ⟨⟨h2, fun k => ?_, ?_, fun e he => ?_, h.origin⟩, ⟨[], by simp [World.step]⟩, fun e he _ => (hk e he).2⟩
    · rw [putsOf, putsOf, hbuild]
      show alView _ _ k = ((tok r.statement).foldl (addPosting (buildIndex tok [] rs).docs.length)
        (buildIndex tok [] rs).inverted).get k
      rw [← h.docs]
      exact h3 k
    · rw [putsOf, putsOf, hbuild]
      show (w.index.put tok cap r).docs = (buildIndex tok [] rs).docs ++ [newDoc r.id r.raw]
      rw [← h.docs]
      exact h1
    · exact ⟨(hk e he).1.1, h5 _ (validIn_lt (h.held e he).1) (h.held e he).2.1, (h.held e he).2.2⟩
  | indexed cap key =>
    obtain ⟨h1, h2⟩ := stepOk_fresh h (match w.index.inverted.get key with
      | some r => intsOf w.index.arrays r
      | none => []) cap w.calls (w.calls + 1) (Nat.lt_succ_self _) (Nat.le_succ _)
    exact ⟨by rw [show putsOf [.indexed cap key] = [] from rfl, List.append_nil]; exact h1, ⟨_, rfl⟩, fun e he _ => h2 e he⟩
  | write hd i v =>
    simp only [World.step]
    cases hs : w.slices[hd]? with
    | none => exact ⟨by simpa [putsOf] using h, ⟨[], by simp⟩, fun _ _ _ => rfl⟩
    | some e =>
      obtain ⟨s, call⟩ := e
      simp only
      cases ha : w.index.arrays[s.arr]? with
      | none => exact ⟨by simpa [putsOf] using h, ⟨[], by simp⟩, fun _ _ _ => rfl⟩
      | some a =>
        obtain ⟨h1, h2⟩ := stepOk_set h (List.mem_of_getElem? hs) a (a.set i v) ha (by simp)
        refine ⟨by simpa [putsOf] using h1, ⟨[], by simp⟩, fun e he hne => h2 e he fun hee => hne ?_⟩
        simp [ClientAct.through, hs, hee]
  | append cap hd v =>
    simp only [World.step]
    cases hs : w.slices[hd]? with
    | none => exact ⟨by simpa [putsOf] using h, ⟨[], by simp⟩, fun _ _ _ => rfl⟩
    | some e =>
      obtain ⟨s, call⟩ := e
      have hmem := List.mem_of_getElem? hs
      obtain ⟨⟨a, ha, hle⟩, hap, hcall⟩ := h.held _ hmem
      simp only at ha hle hap hcall
      by_cases hlt : s.len < a.length
      · have heq : appendInts cap w.index.arrays s v
            = (w.index.arrays.set s.arr (a.set s.len v), { s with len := s.len + 1 }) := by
          simp [appendInts, ha, hlt]
        simp only [heq]
        obtain ⟨h1, h2⟩ := stepOk_set h hmem a (a.set s.len v) ha (by simp)
        have hA := (List.getElem?_eq_some_iff.1 ha).1
        refine ⟨⟨h1.table, by simpa [putsOf] using h1.rep, by simpa [putsOf] using h1.docs, fun e he => ?_,
          fun e he e' he' hee => ?_⟩, ⟨_, rfl⟩, fun e he hne => h2 e he fun hee => hne ?_⟩
        · rcases List.mem_append.1 he with he | he
          · exact h1.held e he
          · simp only [List.mem_singleton] at he
            subst he
            exact ⟨⟨a.set s.len v, by simp [hA], by simp; omega⟩, hap, hcall⟩
        · rcases List.mem_append.1 he with he | he <;> rcases List.mem_append.1 he' with he' | he'
          · exact h.origin e he e' he' hee
          · simp only [List.mem_singleton] at he'; subst he'; exact h.origin e he (s, call) hmem hee
          · simp only [List.mem_singleton] at he; subst he; exact h.origin (s, call) hmem e' he' hee
          · simp only [List.mem_singleton] at he he'; subst he; subst he'; rfl
        · simp [ClientAct.through, hs, hee]
      · have heq : appendInts cap w.index.arrays s v
            = allocInts cap w.index.arrays (a.take s.len ++ [v]) := by
          simp [appendInts, ha, hlt]
        simp only [heq]
        obtain ⟨h1, h2⟩ := stepOk_fresh h (a.take s.len ++ [v]) cap call w.calls hcall (Nat.le_refl _)
        exact ⟨by simpa [putsOf] using h1, ⟨_, rfl⟩, fun e he _ => h2 e he⟩

theorem worldOk_run (tok : Tokenizer) (acts : List ClientAct) : WorldOk tok (World.run tok acts) (putsOf acts) := by
  suffices hgen : ∀ (acts : List ClientAct) (w : World) (rs : List DocRequest), WorldOk tok w rs →
      WorldOk tok (acts.foldl (World.step tok) w) (rs ++ putsOf acts) by
    exact hgen acts {} [] (worldOk_empty tok)
  intro acts
  induction acts with
  | nil => intro w rs h; simpa [putsOf] using h
  | cons act acts ih =>
    intro w rs h
    have := ih _ _ (stepOk h act).ok
    rw [List.append_assoc, ← putsOf_append] at this
    exact this

end Visigoth
