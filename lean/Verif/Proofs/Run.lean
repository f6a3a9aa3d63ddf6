import Verif.Spec.Repo
import Verif.Proofs.GoMap
import Verif.Proofs.Index
/-!
# Running programs alone; the loops of the repository methods
-/
namespace Visigoth

variable {cfg : Cfg} {o : Oracle} {t : Tid}

/-- Sequencing of outcomes. -/
def Outcome.andThen {α β : Type} : Outcome α → (α → Shared → Outcome β) → Outcome β
  | .ok a s, f => f a s
  | .hang s, _ => .hang s
  | .crash c, _ => .crash c

theorem run_bind {α β : Type} (p : Prog α) (f : α → Prog β) (s : Shared) :
    run cfg o t (p >>= f) s = (run cfg o t p s).andThen fun a s' => run cfg o t (f a) s' := by
  show run cfg o t (p.bind f) s = _
  induction p generalizing s with
  | ret a => rfl
  | crash c => rfl
  | act a k ih =>
    simp only [Prog.bind, run]
    cases exec cfg o t a s with
    | ok b s' => exact ih b s'
    | blocked => rfl
    | crash c => rfl

theorem run_pure {α : Type} (a : α) (s : Shared) : run cfg o t (pure a) s = .ok a s := rfl

/-- The outcome of one action. -/
def Exec.outcome {β : Type} (s : Shared) : Exec β → Outcome β
  | .ok b s' => .ok b s'
  | .blocked => .hang s
  | .crash c => .crash c

theorem run_perform {β : Type} (a : Act β) (s : Shared) :
    run cfg o t (perform a) s = (exec cfg o t a s).outcome s := by
  simp only [perform, run]
  cases exec cfg o t a s <;> rfl

theorem run_crash {α : Type} (c : Crash) (s : Shared) :
    run cfg o t (Prog.crash c : Prog α) s = .crash c := rfl

@[simp] theorem andThen_ok {α β : Type} (a : α) (s : Shared) (f : α → Shared → Outcome β) :
    (Outcome.ok a s).andThen f = f a s := rfl
@[simp] theorem andThen_hang {α β : Type} (s : Shared) (f : α → Shared → Outcome β) :
    (Outcome.hang s).andThen f = .hang s := rfl
@[simp] theorem andThen_crash {α β : Type} (c : Crash) (f : α → Shared → Outcome β) :
    (Outcome.crash c).andThen f = .crash c := rfl

/-! ## Reading slices -/

/-- The slice lies inside its backing array. -/
def Shared.Valid (s : Shared) (r : SliceRef) : Prop :=
  ∃ a, s.arrays[r.arr]? = some a ∧ r.len ≤ a.length

theorem elems_length {s : Shared} {r : SliceRef} (h : s.Valid r) : (s.elems r).length = r.len := by
  obtain ⟨a, h1, h2⟩ := h
  simp only [Shared.elems, h1, Option.getD_some, List.length_take]
  omega

theorem run_readFrom (r : SliceRef) (s : Shared) (n i : Nat) (h : i + n ≤ (s.elems r).length) :
    run cfg o t (Repo.readFrom r i n) s = .ok (((s.elems r).drop i).take n) s := by
  induction n generalizing i with
  | zero => simp [Repo.readFrom, run_pure]
  | succ n ih =>
    have hi : i < (s.elems r).length := by omega
    simp only [Repo.readFrom, run_bind, run_perform, exec, List.getElem?_eq_getElem hi, Exec.outcome,
      andThen_ok, ih (i + 1) (by omega), run_pure]
    rw [List.drop_eq_getElem_cons hi, List.take_succ_cons]

theorem run_readSlice (r : SliceRef) (s : Shared) (h : s.Valid r) :
    run cfg o t (Repo.readSlice r) s = .ok (s.elems r) s := by
  have hl := elems_length h
  rw [Repo.readSlice, run_readFrom r s r.len 0 (by omega), List.drop_zero, ← hl, List.take_length]

theorem run_sliceHas (r : SliceRef) (index : Name) (s : Shared) (n i : Nat)
    (h : i + n ≤ (s.elems r).length) :
    run cfg o t (Repo.sliceHas r index i n) s
      = .ok (decide (index ∈ ((s.elems r).drop i).take n)) s := by
  induction n generalizing i with
  | zero => simp [Repo.sliceHas, run_pure]
  | succ n ih =>
    have hi : i < (s.elems r).length := by omega
    simp only [Repo.sliceHas, run_bind, run_perform, exec, List.getElem?_eq_getElem hi, Exec.outcome,
      andThen_ok]
    rw [List.drop_eq_getElem_cons hi, List.take_succ_cons]
    split
    · rename_i he; simp [run_pure, he]
    · rename_i he
      rw [ih (i + 1) (by omega)]
      have he' : ¬ index = (s.elems r)[i] := fun h => he h.symm
      simp [he']

theorem run_resolveFrom (r : SliceRef) (s : Shared) (n i : Nat) (h : i + n ≤ (s.elems r).length) :
    run cfg o t (Repo.resolveFrom r i n) s
      = .ok ((((s.elems r).drop i).take n).map s.indices.get) s := by
  induction n generalizing i with
  | zero => simp [Repo.resolveFrom, run_pure]
  | succ n ih =>
    have hi : i < (s.elems r).length := by omega
    simp only [Repo.resolveFrom, run_bind, run_perform, exec, List.getElem?_eq_getElem hi, Exec.outcome,
      andThen_ok, ih (i + 1) (by omega), run_pure]
    rw [List.drop_eq_getElem_cons hi, List.take_succ_cons, List.map_cons]

theorem run_resolve (r : SliceRef) (s : Shared) (h : s.Valid r) :
    run cfg o t (Repo.resolveFrom r 0 r.len) s = .ok ((s.elems r).map s.indices.get) s := by
  have hl := elems_length h
  rw [run_resolveFrom r s r.len 0 (by omega), List.drop_zero, ← hl, List.take_length]

/-! ## `Rename`'s loops -/

/-- Element `k` of array `j`. -/
def cell (A : List (List Name)) (j k : Nat) : Option Name := (A[j]?).bind (·[k]?)

/-- Same arrays, same lengths. -/
def SameShape (A B : List (List Name)) : Prop := ∀ j : Nat, (A[j]?).map List.length = (B[j]?).map List.length

theorem SameShape.refl (A : List (List Name)) : SameShape A A := fun _ => rfl
theorem SameShape.trans {A B C : List (List Name)} (h : SameShape A B) (g : SameShape B C) :
    SameShape A C := fun j => (h j).trans (g j)

theorem SameShape.valid {s : Shared} {A : List (List Name)} (h : SameShape A s.arrays) {r : SliceRef} :
    ({ s with arrays := A } : Shared).Valid r ↔ s.Valid r := by
  unfold Shared.Valid
  have := h r.arr
  simp only
  cases h1 : A[r.arr]? <;> cases h2 : s.arrays[r.arr]? <;> simp_all

theorem elems_getElem? (s : Shared) (r : SliceRef) (k : Nat) :
    (s.elems r)[k]? = if k < r.len then cell s.arrays r.arr k else none := by
  unfold Shared.elems cell
  rw [List.getElem?_take]
  cases s.arrays[r.arr]? <;> simp

/-- The replacement `Rename` applies to alias entries. -/
def subst (old new : Name) (x : Name) : Name := if x = old then new else x

theorem subst_idem (old new x : Name) : subst old new (subst old new x) = subst old new x := by
  unfold subst; split <;> simp_all

theorem run_renameSlice (r : SliceRef) (old new : Name) (s : Shared) (n i : Nat)
    (hv : s.Valid r) (h : i + n ≤ r.len) :
    ∃ A, run cfg o t (Repo.renameSlice r old new i n) s = .ok () { s with arrays := A } ∧
      SameShape A s.arrays ∧
      ∀ j k, cell A j k = if j = r.arr ∧ i ≤ k ∧ k < i + n then (cell s.arrays j k).map (subst old new)
        else cell s.arrays j k := by
  induction n generalizing i s with
  | zero =>
    refine ⟨s.arrays, by simp [Repo.renameSlice, run_pure], .refl _, fun j k => ?_⟩
    rw [if_neg (by omega)]
  | succ n ih =>
    have hl := elems_length hv
    have hi : i < (s.elems r).length := by omega
    obtain ⟨a, ha, hal⟩ := hv
    have hx : (s.elems r)[i]? = some ((s.elems r)[i]) := List.getElem?_eq_getElem hi
    have hcell : cell s.arrays r.arr i = some ((s.elems r)[i]) := by
      rw [← hx, elems_getElem?, if_pos (by omega)]
    simp only [Repo.renameSlice, run_bind, run_perform, exec, hx, Exec.outcome, andThen_ok]
    by_cases he : (s.elems r)[i] = old
    · simp only [if_pos he, run_bind, run_perform, exec, ha, if_pos (show i < r.len by omega), Exec.outcome,
        andThen_ok]
      have hlt : r.arr < s.arrays.length := (List.getElem?_eq_some_iff.1 ha).1
      have hshape : SameShape (s.arrays.set r.arr (a.set i new)) s.arrays := by
        intro j
        rw [List.getElem?_set]
        by_cases hj : r.arr = j
        · subst hj
          obtain ⟨hl', he'⟩ := List.getElem?_eq_some_iff.1 ha
          simp [hlt, he']
        · simp [hj]
      obtain ⟨A, hA1, hA2, hA3⟩ := ih { s with arrays := s.arrays.set r.arr (a.set i new) } (i + 1)
        (hshape.valid.2 ⟨a, ha, hal⟩) (by omega)
      refine ⟨A, hA1, hA2.trans hshape, fun j k => ?_⟩
      rw [hA3]
      have hc : cell (s.arrays.set r.arr (a.set i new)) j k
          = if j = r.arr ∧ k = i then some new else cell s.arrays j k := by
        unfold cell
        rw [List.getElem?_set]
        by_cases hj : r.arr = j
        · subst hj
          simp only [hlt, if_true, Option.bind_some, ha, true_and]
          rw [List.getElem?_set]
          by_cases hk : i = k
          · subst hk; simp; omega
          · simp [hk, Ne.symm hk]
        · simp [hj, Ne.symm hj]
      simp only [hc]
      by_cases hji : j = r.arr ∧ k = i
      · obtain ⟨rfl, rfl⟩ := hji
        rw [if_neg (by omega), if_pos (by simp), if_pos (by omega), hcell]
        simp [subst, he]
      · simp only [if_neg hji]
        by_cases hc1 : j = r.arr ∧ i + 1 ≤ k ∧ k < i + 1 + n
        · rw [if_pos hc1, if_pos (by omega)]
        · rw [if_neg hc1, if_neg (by omega)]
    · simp only [if_neg he]
      obtain ⟨A, hA1, hA2, hA3⟩ := ih s (i + 1) ⟨a, ha, hal⟩ (by omega)
      refine ⟨A, hA1, hA2, fun j k => ?_⟩
      rw [hA3]
      by_cases hji : j = r.arr ∧ k = i
      · obtain ⟨rfl, rfl⟩ := hji
        rw [if_neg (by omega), if_pos (by omega), hcell]
        simp [subst, he]
      · by_cases hc1 : j = r.arr ∧ i + 1 ≤ k ∧ k < i + 1 + n
        · rw [if_pos hc1, if_pos (by omega)]
        · rw [if_neg hc1, if_neg (by omega)]

theorem run_renameAliases (old new : Name) (ks : List Name) (s : Shared)
    (hv : ∀ k ∈ ks, ∀ r, s.aliases.get k = some r → s.Valid r) :
    ∃ A, run cfg o t (Repo.renameAliases old new ks) s = .ok () { s with arrays := A } ∧
      SameShape A s.arrays ∧
      ∀ j k, ((∃ key ∈ ks, ∃ r, s.aliases.get key = some r ∧ r.arr = j ∧ k < r.len) →
          cell A j k = (cell s.arrays j k).map (subst old new)) ∧
        ((¬ ∃ key ∈ ks, ∃ r, s.aliases.get key = some r ∧ r.arr = j ∧ k < r.len) →
          cell A j k = cell s.arrays j k) := by
  induction ks generalizing s with
  | nil => exact ⟨s.arrays, by simp [Repo.renameAliases, run_pure], .refl _, by simp⟩
  | cons key ks ih =>
    cases hg : s.aliases.get key with
    | none =>
      obtain ⟨A, h1, h2, h3⟩ := ih s (fun k hk => hv k (List.mem_cons_of_mem _ hk))
      refine ⟨A, ?_, h2, fun j k => ?_⟩
      · simp only [Repo.renameAliases, run_bind, run_perform, exec, hg, Exec.outcome, andThen_ok, h1]
      · have : (∃ key' ∈ key :: ks, ∃ r, s.aliases.get key' = some r ∧ r.arr = j ∧ k < r.len) ↔
            ∃ key' ∈ ks, ∃ r, s.aliases.get key' = some r ∧ r.arr = j ∧ k < r.len := by
          simp [hg]
        rw [this]
        exact h3 j k
    | some r =>
      have hvr := hv key (by simp) r hg
      obtain ⟨A1, h1, h2, h3⟩ := run_renameSlice (cfg := cfg) (o := o) (t := t) r old new s r.len 0 hvr (by omega)
      obtain ⟨A, g1, g2, g3⟩ := ih { s with arrays := A1 }
        (fun k hk r' hr' => h2.valid.2 (hv k (List.mem_cons_of_mem _ hk) r' hr'))
      refine ⟨A, ?_, g2.trans h2, fun j k => ?_⟩
      · simp only [Repo.renameAliases, run_bind, run_perform, exec, hg, Exec.outcome, andThen_ok, h1, g1]
      · have hsplit : (∃ key' ∈ key :: ks, ∃ r, s.aliases.get key' = some r ∧ r.arr = j ∧ k < r.len) ↔
            (r.arr = j ∧ k < r.len) ∨
            ∃ key' ∈ ks, ∃ r, s.aliases.get key' = some r ∧ r.arr = j ∧ k < r.len := by
          simp [hg]
        rw [hsplit]
        have c1 := g3 j k
        have c2 := h3 j k
        simp only [Nat.zero_le, true_and, Nat.zero_add] at c2
        by_cases hr : r.arr = j ∧ k < r.len
        · rw [if_pos ⟨hr.1.symm, hr.2⟩] at c2
          refine ⟨fun _ => ?_, fun hn => absurd (Or.inl hr) hn⟩
          by_cases hrest : ∃ key' ∈ ks, ∃ r, s.aliases.get key' = some r ∧ r.arr = j ∧ k < r.len
          · rw [c1.1 hrest]
            show (cell A1 j k).map _ = _
            rw [c2]
            cases cell s.arrays j k <;> simp [subst_idem]
          · rw [c1.2 hrest]; exact c2
        · rw [if_neg (fun h => hr ⟨h.1.symm, h.2⟩)] at c2
          refine ⟨fun h => ?_, fun hn => ?_⟩
          · have hrest := h.resolve_left hr
            rw [c1.1 hrest]
            show (cell A1 j k).map _ = _
            rw [c2]
          · rw [c1.2 (fun h => hn (Or.inr h))]
            exact c2

/-! ## Putting a document -/

theorem run_putPostings (p : Ptr) (next : Nat) (toks : List Str) (s : Shared) (mi : MemoryIndex)
    (h : s.heap[p]? = some mi) :
    run cfg o t (Repo.putPostings p next toks) s
      = .ok () { s with heap := s.heap.set p ({ mi with
          inverted := toks.foldl (addPosting next) mi.inverted }) } := by
  induction toks generalizing s mi with
  | nil =>
    obtain ⟨hlt, he⟩ := List.getElem?_eq_some_iff.1 h
    simp only [Repo.putPostings, run_pure, List.foldl_nil]
    have : s.heap.set p mi = s.heap := by rw [← he, List.set_getElem_self]
    rw [this]
  | cons tok toks ih =>
    obtain ⟨hlt, he⟩ := List.getElem?_eq_some_iff.1 h
    simp only [Repo.putPostings, run_bind, run_perform, exec, h, Exec.outcome, andThen_ok]
    rw [ih _ { mi with inverted := addPosting next mi.inverted tok } (by simp [hlt])]
    simp

theorem run_putIndex (p : Ptr) (doc : DocRequest) (s : Shared) (mi : MemoryIndex)
    (h : s.heap[p]? = some mi) :
    run cfg o t (Repo.putIndex cfg p doc) s
      = .ok () { s with heap := s.heap.set p (mi.put cfg.tok doc) } := by
  obtain ⟨hlt, he⟩ := List.getElem?_eq_some_iff.1 h
  simp only [Repo.putIndex, run_bind, run_perform, exec, h, Exec.outcome, andThen_ok]
  rw [run_putPostings p _ _ _ { mi with docs := mi.docs ++ [newDoc doc.id doc.raw] } (by simp [hlt])]
  simp [MemoryIndex.put]

theorem run_putAll (doc : DocRequest) (ps : List Ptr) (s : Shared) (hnd : ps.Nodup)
    (h : ∀ p ∈ ps, p < s.heap.length) :
    ∃ H, run cfg o t (Repo.putAll cfg doc ps) s = .ok () { s with heap := H } ∧
      H.length = s.heap.length ∧
      ∀ q : Nat, H[q]? = if q ∈ ps then (s.heap[q]?).map (MemoryIndex.put cfg.tok · doc) else s.heap[q]? := by
  induction ps generalizing s with
  | nil => exact ⟨s.heap, by simp [Repo.putAll, run_pure], rfl, by simp⟩
  | cons p ps ih =>
    have hlt : p < s.heap.length := h p (by simp)
    have hp : s.heap[p]? = some s.heap[p] := List.getElem?_eq_getElem hlt
    rw [List.nodup_cons] at hnd
    obtain ⟨H, g1, g2, g3⟩ := ih { s with heap := s.heap.set p (s.heap[p].put cfg.tok doc) } hnd.2
      (fun q hq => by simpa using h q (List.mem_cons_of_mem _ hq))
    refine ⟨H, ?_, by simpa using g2, fun q => ?_⟩
    · simp only [Repo.putAll, run_bind, run_putIndex p doc s _ hp, andThen_ok, g1]
    · rw [g3]
      simp only [List.getElem?_set]
      by_cases hq : q = p
      · subst hq
        rw [if_neg hnd.1, if_pos (by simp)]
        simp [hlt]
      · simp [hq, Ne.symm hq]

/-! ## Searching -/

theorem run_searchIndex (p : Ptr) (terms : Str) (e : Engine) (s : Shared) (mi : MemoryIndex)
    (h : s.heap[p]? = some mi) :
    run cfg o t (Repo.searchIndex p terms e) s
      = match mi.search cfg.cp cfg.tok terms e with
        | some sr => .ok sr s
        | none => .crash .engine := by
  simp only [Repo.searchIndex, run_bind, run_perform, exec, h, Exec.outcome, andThen_ok]
  cases mi.search cfg.cp cfg.tok terms e <;> rfl

/-- All values, or `none` if one is missing. -/
def sequence {α : Type} : List (Option α) → Option (List α)
  | [] => some []
  | none :: _ => none
  | some x :: xs => (sequence xs).map (x :: ·)

theorem sequence_eq_some {α : Type} (l : List (Option α)) (xs : List α) :
    sequence l = some xs ↔ l = xs.map some := by
  induction l generalizing xs with
  | nil => cases xs <;> simp [sequence]
  | cons x l ih =>
    cases x with
    | none => cases xs <;> simp [sequence]
    | some x =>
      simp only [sequence, Option.map_eq_some_iff]
      cases xs with
      | nil => simp
      | cons y ys =>
        simp only [List.cons.injEq, List.map_cons, Option.some.injEq]
        constructor
        · rintro ⟨a, h1, h2, h3⟩; exact ⟨h2, h3 ▸ (ih a).1 h1⟩
        · rintro ⟨h1, h2⟩; exact ⟨ys, (ih ys).2 h2, h1, rfl⟩

theorem sequence_eq_none {α : Type} (l : List (Option α)) : sequence l = none ↔ none ∈ l := by
  induction l with
  | nil => simp [sequence]
  | cons x l ih => cases x <;> simp [sequence, ih]

theorem nonNil_eq (l : List (Option Ptr)) : Repo.nonNil l = sequence l := by
  induction l with
  | nil => rfl
  | cons x l ih => cases x <;> simp [Repo.nonNil, sequence, ih]

theorem run_searchAll (terms : Str) (e : Engine) (ps : List Ptr) (s : Shared)
    (h : ∀ p ∈ ps, p < s.heap.length) :
    run cfg o t (Repo.searchAll terms e ps) s
      = match sequence (ps.map fun p => (s.heap[p]?).bind fun mi => mi.search cfg.cp cfg.tok terms e) with
        | some parts => .ok parts.flatten s
        | none => .crash .engine := by
  induction ps with
  | nil => rfl
  | cons p ps ih =>
    have hlt : p < s.heap.length := h p (by simp)
    have hp : s.heap[p]? = some s.heap[p] := List.getElem?_eq_getElem hlt
    simp only [Repo.searchAll, run_bind, run_searchIndex p terms e s _ hp, List.map_cons, hp, Option.bind_some]
    cases hs : MemoryIndex.search cfg.cp cfg.tok s.heap[p] terms e with
    | none => rfl
    | some sr =>
      simp only [andThen_ok, ih (fun q hq => h q (List.mem_cons_of_mem _ hq)), sequence]
      cases sequence (ps.map fun p => (s.heap[p]?).bind fun mi => mi.search cfg.cp cfg.tok terms e) <;> rfl

/-! ## Listing -/

theorem choosePerm_perm {α : Type} [DecidableEq α] (f : List α → List α) (l : List α) :
    (choosePerm f l).Perm l := by
  unfold choosePerm
  split
  · rename_i h; exact List.isPerm_iff.1 h
  · exact .refl _

theorem run_listRows (ks : List Name) (s : Shared) (h : ∀ k ∈ ks, (s.aliases.get k).isSome) :
    ∃ rows, run cfg o t (Repo.listRows ks) s = .ok rows s ∧ rows.map (·.1) = ks ∧
      ∀ e ∈ rows, s.aliases.get e.1 = some e.2 := by
  induction ks with
  | nil => exact ⟨[], rfl, rfl, by simp⟩
  | cons k ks ih =>
    obtain ⟨rows, h1, h2, h3⟩ := ih (fun k' hk' => h k' (List.mem_cons_of_mem _ hk'))
    obtain ⟨v, hv⟩ := Option.isSome_iff_exists.1 (h k (by simp))
    refine ⟨(k, v) :: rows, ?_, by simp [h2], ?_⟩
    · simp only [Repo.listRows, run_bind, run_perform, exec, hv, Exec.outcome, andThen_ok, h1, run_pure]
    · simp only [List.mem_cons, forall_eq_or_imp]
      exact ⟨hv, h3⟩

end Visigoth
