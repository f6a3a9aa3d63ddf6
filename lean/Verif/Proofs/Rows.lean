import Verif.Spec.Rows
import Verif.Props.RepoExact
import Verif.Proofs.Reach
/-!
# Writing through slices of the alias table
-/
namespace Visigoth

variable {cfg : Cfg} {s s' : Shared} {a : SpecState} {o : Oracle} {t : Tid}

theorem validIn_set {A : List (List Name)} {j i : Nat} {x : List Name} {v : Name} (hx : A[j]? = some x) (q : SliceRef) :
    ValidIn (A.set j (x.set i v)) q ↔ ValidIn A q := by
  unfold ValidIn
  by_cases hj : j = q.arr
  · subst hj
    have hlt := (List.getElem?_eq_some_iff.1 hx).1
    rw [List.getElem?_set_self hlt, hx]
    simp
  · rw [List.getElem?_set_ne hj]

theorem elemsIn_set {A : List (List Name)} {j i : Nat} {x : List Name} {v : Name} (hx : A[j]? = some x) (q : SliceRef) :
    elemsIn (A.set j (x.set i v)) q = if q.arr = j then (elemsIn A q).set i v else elemsIn A q := by
  unfold elemsIn
  by_cases hj : q.arr = j
  · subst hj
    have hlt := (List.getElem?_eq_some_iff.1 hx).1
    rw [List.getElem?_set_self hlt, hx, if_pos rfl]
    simp [List.take_set]
  · rw [List.getElem?_set_ne (Ne.symm hj), if_neg hj]

/-- Overwriting one cell of a backing array. -/
theorem abs_cell (h : Abs cfg s a) {r : SliceRef} {x : List Name} {i : Nat} {v : Name} (hx : s.arrays[r.arr]? = some x) :
    ∃ a', Abs cfg { s with arrays := s.arrays.set r.arr (x.set i v) } a' ∧ a'.docs = a.docs ∧
      a'.leakedReaders = a.leakedReaders ∧ a'.leakedWriter = a.leakedWriter ∧
      (∀ k, s.shares k r → a'.aliases k = (a.aliases k).map (·.set i v)) ∧
      ∀ k, ¬ s.shares k r → a'.aliases k = a.aliases k := by
  let s1 : Shared := { s with arrays := s.arrays.set r.arr (x.set i v) }
  refine ⟨{ a with aliases := alView s1.arrays s1.aliases }, ⟨h.idx, ⟨h.al.nodup, ?_, h.al.distinct⟩, fun _ => rfl, h.imuR, h.imuW,
    h.amuR, h.amuW⟩, rfl, rfl, rfl, ?_, ?_⟩
  · intro n q hq
    exact (validIn_set hx q).2 (h.al.valid n q hq)
  · rintro k ⟨q, hq, hqr⟩
    rw [h.view]
    simp only [alView, s1, hq, Option.map_some, elemsIn_set hx, hqr, if_true]
  · intro k hk
    rw [h.view]
    show alView s1.arrays s1.aliases k = _
    cases hq : s.aliases.get k with
    | none => simp [alView, s1, hq]
    | some q => simp only [alView, s1, hq, Option.map_some, elemsIn_set hx]; rw [if_neg fun e => hk ⟨q, hq, e⟩]

/-- A new backing array that no alias uses. -/
theorem abs_extra (h : Abs cfg s a) (x : List Name) : Abs cfg { s with arrays := s.arrays ++ [x] } a := by
  refine ⟨h.idx, ⟨h.al.nodup, fun n q hq => (validIn_append (h.al.valid n q hq) x).1, h.al.distinct⟩, fun n => ?_, h.imuR, h.imuW,
    h.amuR, h.amuW⟩
  rw [h.view]
  cases hq : s.aliases.get n with
  | none => simp [alView, hq]
  | some q => simp [alView, hq, (validIn_append (h.al.valid n q hq) x).2]

theorem table_view (h : Abs cfg s a) (k : Name) : s.table k = a.aliases k := by
  rw [h.view]; rfl

/-- Programs that change the alias table without ever appending to one of its slices: what they store is over an
array not among the first `N`. -/
def StoresNew (N : Nat) {α : Type} : Prog α → Prop
  | .ret _ => True
  | .crash _ => True
  | .act a k =>
    match a, k with
    | .alSet _ r, k => N ≤ r.arr ∧ StoresNew N (k ())
    | .slNew _, k => ∀ r, N ≤ r.arr → StoresNew N (k r)
    | .slAppend _ _, _ => False
    | _, k => ∀ b, StoresNew N (k b)

theorem storesNew_bind {N : Nat} {α β : Type} {f : α → Prog β} {p : Prog α} (h : StoresNew N p)
    (hf : ∀ a, StoresNew N (f a)) : StoresNew N (p >>= f) := by
  induction p with
  | ret a => exact hf a
  | crash c => trivial
  | act a k ih =>
    cases a
    case alSet n r => exact ⟨h.1, ih _ h.2⟩
    case slNew l => exact fun r hr => ih _ (h r hr)
    case slAppend r v => exact h.elim
    all_goals exact fun b => ih _ (h b)

theorem storesNew_run {N : Nat} {α : Type} {p : Prog α} : ∀ {s s' : Shared} {r : α}, StoresNew N p → N ≤ s.arrays.length →
    run cfg o t p s = .ok r s' → ∀ k q, s'.aliases.get k = some q → N ≤ q.arr ∨ s.aliases.get k = some q := by
  induction p with
  | ret a => intro s s' r _ _ h k q hq; cases h; exact .inr hq
  | crash c => intro s s' r _ _ h; cases h
  | act a k ih =>
    intro s s' r hp hN h n q hq
    rw [run] at h
    split at h
    · next b s1 he =>
      cases a
      case alSet m r' =>
        simp only [exec, Exec.ok.injEq] at he
        obtain ⟨-, rfl⟩ := he
        rcases ih () hp.2 (by exact hN) h n q hq with h1 | h1
        · exact .inl h1
        · rw [GoMap.get_set] at h1
          split at h1
          · injection h1 with h1; subst h1; exact .inl hp.1
          · exact .inr h1
      case alDel m =>
        simp only [exec, Exec.ok.injEq] at he
        obtain ⟨-, rfl⟩ := he
        rcases ih () (hp ()) (by exact hN) h n q hq with h1 | h1
        · exact .inl h1
        · rw [GoMap.get_delete] at h1
          split at h1
          · cases h1
          · exact .inr h1
      case slNew l =>
        simp only [exec, Exec.ok.injEq] at he
        obtain ⟨rfl, rfl⟩ := he
        exact ih _ (hp _ hN) (by simp; omega) h n q hq
      case slAppend r' v => exact hp.elim
      case slWrite r' i v =>
        simp only [exec] at he
        split at he
        · split at he
          · simp only [Exec.ok.injEq] at he
            obtain ⟨-, rfl⟩ := he
            exact ih _ (hp _) (by simpa using hN) h n q hq
          · cases he
        · cases he
      all_goals
        obtain ⟨-, f2, f3⟩ := exec_frame he
        rw [← f2 (by simp [Act.writes])]
        exact ih _ (hp _) (by rw [f3 (by simp [Act.writes])]; exact hN) h n q hq
    · cases h
    · cases h

section
variable {N : Nat}

theorem storesNew_readFrom (r : SliceRef) : ∀ (k i : Nat), StoresNew N (Repo.readFrom r i k)
  | 0, _ => trivial
  | k + 1, i => fun _ => storesNew_bind (p := Repo.readFrom r (i + 1) k) (storesNew_readFrom r k (i + 1)) fun _ => trivial

theorem storesNew_renameSlice (r : SliceRef) (old new : Name) : ∀ (k i : Nat), StoresNew N (Repo.renameSlice r old new i k)
  | 0, _ => trivial
  | k + 1, i => fun v => by
    show StoresNew N (if v = old then perform (.slWrite r i new) >>= fun _ => Repo.renameSlice r old new (i + 1) k
      else Repo.renameSlice r old new (i + 1) k)
    split
    · exact fun _ => storesNew_renameSlice r old new k (i + 1)
    · exact storesNew_renameSlice r old new k (i + 1)

theorem storesNew_renameAliases (old new : Name) : ∀ ks, StoresNew N (Repo.renameAliases old new ks)
  | [] => trivial
  | k :: ks => fun v => by
    cases v with
    | none => exact storesNew_renameAliases old new ks
    | some r =>
      exact storesNew_bind (p := Repo.renameSlice r old new 0 r.len) (storesNew_renameSlice r old new _ _)
        fun _ => storesNew_renameAliases old new ks

theorem storesNew_resolveFrom (r : SliceRef) : ∀ (k i : Nat), StoresNew N (Repo.resolveFrom r i k)
  | 0, _ => trivial
  | k + 1, i => fun _ _ =>
    storesNew_bind (p := Repo.resolveFrom r (i + 1) k) (storesNew_resolveFrom r k (i + 1)) fun _ => trivial

theorem storesNew_searchIndex (p : Ptr) (ts : Str) (e : Engine) : StoresNew N (Repo.searchIndex p ts e) := fun b => by
  cases b <;> trivial

theorem storesNew_searchAll (ts : Str) (e : Engine) : ∀ ps, StoresNew N (Repo.searchAll ts e ps)
  | [] => trivial
  | p :: ps => storesNew_bind (p := Repo.searchIndex p ts e) (storesNew_searchIndex p ts e) fun _ =>
    storesNew_bind (p := Repo.searchAll ts e ps) (storesNew_searchAll ts e ps) fun _ => trivial

theorem storesNew_searchTargets (l : List (Option Ptr)) (ts : Str) (e : Engine) : StoresNew N (Repo.searchTargets l ts e) := by
  unfold Repo.searchTargets
  split
  · trivial
  · exact storesNew_searchIndex _ _ _
  · exact fun _ => storesNew_searchAll _ _ _

theorem storesNew_search (n : Name) (ts : Str) (e : Engine) : StoresNew N (Repo.search n ts e) := fun _ v => by
  cases v with
  | some i => exact storesNew_bind (p := Repo.searchTargets [some i] ts e) (storesNew_searchTargets _ _ _) fun _ _ => trivial
  | none =>
    refine fun _ w => ?_
    cases w with
    | none => exact fun _ _ => trivial
    | some r =>
      exact storesNew_bind (p := Repo.resolveFrom r 0 r.len) (storesNew_resolveFrom r _ _) fun l _ =>
        storesNew_bind (p := Repo.searchTargets l ts e) (storesNew_searchTargets _ _ _) fun _ _ => trivial

theorem storesNew_getIndices (n : Name) : StoresNew N (Repo.getIndices n) := fun _ v => by
  cases v with
  | some i => exact fun _ => trivial
  | none =>
    refine fun _ w => ?_
    cases w with
    | none => exact fun _ _ => trivial
    | some r => exact storesNew_bind (p := Repo.resolveFrom r 0 r.len) (storesNew_resolveFrom r _ _) fun _ _ _ => trivial

theorem storesNew_putPostings (p : Ptr) (next : Nat) : ∀ ts, StoresNew N (Repo.putPostings p next ts)
  | [] => trivial
  | _ :: ts => fun _ => storesNew_putPostings p next ts

theorem storesNew_putIndex (d : DocRequest) (p : Ptr) : StoresNew N (Repo.putIndex cfg p d) :=
  fun _ => storesNew_putPostings p _ _

theorem storesNew_putAll (d : DocRequest) : ∀ ps, StoresNew N (Repo.putAll cfg d ps)
  | [] => trivial
  | p :: ps => storesNew_bind (p := Repo.putIndex cfg p d) (storesNew_putIndex d p) fun _ => storesNew_putAll d ps

theorem storesNew_put (n : Name) (d : DocRequest) : StoresNew N (Repo.put cfg n d) :=
  storesNew_bind (p := Repo.getIndices n) (storesNew_getIndices n) fun v _ _ => by
    cases v with
    | none => exact fun p _ => storesNew_bind (p := Repo.putIndex cfg p d) (storesNew_putIndex d p) fun _ _ => trivial
    | some l =>
      refine storesNew_bind (p := Repo.putTargets cfg l d) ?_ fun _ _ => trivial
      unfold Repo.putTargets
      split
      · trivial
      · split
        · exact fun _ => storesNew_putAll d _
        · trivial

theorem storesNew_dropAliases (n : Name) : ∀ ks, StoresNew N (Repo.dropAliases n ks)
  | [] => trivial
  | k :: ks => fun v => by
    cases v with
    | none => exact storesNew_dropAliases n ks
    | some r =>
      refine storesNew_bind (p := Repo.readFrom r 0 r.len) (storesNew_readFrom r _ _) fun xs => ?_
      dsimp only
      split
      · exact fun _ => storesNew_dropAliases n ks
      · split
        · exact fun r hr => ⟨hr, storesNew_dropAliases n ks⟩
        · exact storesNew_dropAliases n ks

theorem storesNew_listRows : ∀ ks, StoresNew N (Repo.listRows ks)
  | [] => trivial
  | k :: ks => fun v => by
    cases v with
    | none => exact storesNew_listRows ks
    | some r => exact storesNew_bind (p := Repo.listRows ks) (storesNew_listRows ks) fun _ => trivial

theorem storesNew_renderAll : ∀ ks, StoresNew N (Repo.renderAll ks)
  | [] => trivial
  | k :: ks => fun v => by
    cases v with
    | none => exact storesNew_renderAll ks
    | some r => exact fun _ => storesNew_bind (p := Repo.renderAll ks) (storesNew_renderAll ks) fun _ => trivial

theorem storesNew_unAlias (al i : Name) : StoresNew N (Repo.unAlias al i) := by
  unfold Repo.unAlias
  split
  · exact fun _ _ _ _ _ => trivial
  · refine fun _ v => ?_
    cases v with
    | none => trivial
    | some p =>
      refine fun _ _ _ w => ?_
      cases w with
      | none => trivial
      | some r =>
        refine storesNew_bind (p := Repo.readFrom r 0 r.len) (storesNew_readFrom r _ _) fun xs => ?_
        dsimp only
        split
        · exact fun r hr => ⟨hr, fun _ => trivial⟩
        · exact fun _ => trivial

/-- All calls but `Alias`. -/
theorem storesNew_prog {op : Op} (h : ∀ al i, op ≠ .alias al i) : StoresNew N (op.prog cfg) := by
  cases op with
  | list => exact fun _ _ _ => trivial
  | listAliases =>
    refine storesNew_bind (p := Repo.listAliases) (fun _ ks => ?_) fun _ => trivial
    exact storesNew_bind (p := Repo.listRows ks) (storesNew_listRows _) fun _ _ => trivial
  | has n => exact fun _ _ _ => trivial
  | hasAlias n => exact fun _ _ _ => trivial
  | «alias» al i => exact absurd rfl (h al i)
  | unAlias al i => exact storesNew_bind (p := Repo.unAlias al i) (storesNew_unAlias al i) fun _ => trivial
  | put n d => exact storesNew_bind (p := Repo.put cfg n d) (storesNew_put n d) fun _ => trivial
  | search n ts e => exact storesNew_bind (p := Repo.search n ts e) (storesNew_search n ts e) fun v => by cases v <;> trivial
  | rename old new =>
    refine storesNew_bind (p := Repo.rename old new) (fun _ _ v => ?_) fun _ => trivial
    cases v with
    | none => exact fun _ => trivial
    | some p =>
      exact fun _ _ ks => storesNew_bind (p := Repo.renameAliases old new ks) (storesNew_renameAliases old new _) fun _ _ => trivial
  | drop n =>
    refine storesNew_bind (p := Repo.drop n) (fun _ v => ?_) fun _ => trivial
    cases v with
    | none => exact fun _ => trivial
    | some p =>
      exact fun _ _ _ _ _ ks => storesNew_bind (p := Repo.dropAliases n ks) (storesNew_dropAliases n _) fun _ _ _ _ => trivial
  | string =>
    refine storesNew_bind (p := Repo.string) (fun _ ks => ?_) fun _ => trivial
    exact storesNew_bind (p := Repo.renderAll ks) (storesNew_renderAll _) fun _ _ => trivial

end

/-- No call and no caller changes the length of a backing array. -/
def SameLengths (s s' : Shared) : Prop := ∀ (j : Nat) (x : List Name), s.arrays[j]? = some x → ∃ y : List Name, s'.arrays[j]? = some y ∧ y.length = x.length

theorem SameLengths.refl (s : Shared) : SameLengths s s := fun _ x h => ⟨x, h, rfl⟩

theorem SameLengths.trans {s s1 s2 : Shared} (h : SameLengths s s1) (g : SameLengths s1 s2) : SameLengths s s2 := fun j x hx =>
  let ⟨_, hy, e⟩ := h j x hx
  let ⟨z, hz, e'⟩ := g j _ hy
  ⟨z, hz, e'.trans e⟩

theorem SameLengths.valid {s s' : Shared} (h : SameLengths s s') {r : SliceRef} (hv : ValidIn s.arrays r) : ValidIn s'.arrays r :=
  let ⟨_, hx, hl⟩ := hv
  let ⟨y, hy, e⟩ := h _ _ hx
  ⟨y, hy, e ▸ hl⟩

theorem SameLengths.le {s s' : Shared} (h : SameLengths s s') : s.arrays.length ≤ s'.arrays.length := by
  rcases Nat.lt_or_ge s'.arrays.length s.arrays.length with hlt | hge
  · obtain ⟨y, hy, -⟩ := h _ _ (List.getElem?_eq_getElem hlt)
    rw [List.getElem?_eq_none (Nat.le_refl _)] at hy
    cases hy
  · exact hge

theorem sameLengths_set {s : Shared} {j i : Nat} {x : List Name} {v : Name} (hx : s.arrays[j]? = some x) :
    SameLengths s { s with arrays := s.arrays.set j (x.set i v) } := by
  intro k y hy
  by_cases hk : j = k
  · subst hk
    have hlt := (List.getElem?_eq_some_iff.1 hx).1
    rw [hx] at hy; cases hy
    exact ⟨_, List.getElem?_set_self hlt, by simp⟩
  · exact ⟨y, by simpa [List.getElem?_set_ne hk] using hy, rfl⟩

theorem sameLengths_extra (s : Shared) (x : List Name) : SameLengths s { s with arrays := s.arrays ++ [x] } := by
  intro k y hy
  exact ⟨y, by simp only; rw [List.getElem?_append_left (List.getElem?_eq_some_iff.1 hy).1]; exact hy, rfl⟩

theorem exec_lengths {β : Type} {a : Act β} {b : β} (he : exec cfg o t a s = .ok b s') : SameLengths s s' := by
  cases a
  case slWrite r i v =>
    simp only [exec] at he
    split at he
    · next x hx =>
      split at he
      · cases he; exact sameLengths_set hx
      · cases he
    · cases he
  case slAppend r v =>
    simp only [exec] at he
    split at he
    · cases he
    · next x hx =>
      split at he
      · cases he; exact sameLengths_set hx
      · cases he; exact sameLengths_extra _ _
  case slNew l => simp only [exec] at he; cases he; exact sameLengths_extra _ _
  all_goals
    obtain ⟨-, -, f3⟩ := exec_frame he
    intro j x hx
    exact ⟨x, by rw [f3 (by simp [Act.writes])]; exact hx, rfl⟩

theorem run_lengths {α : Type} {p : Prog α} : ∀ {s s' : Shared} {r : α}, run cfg o t p s = .ok r s' → SameLengths s s' := by
  induction p with
  | ret a => intro s s' r h; cases h; exact .refl _
  | crash c => intro s s' r h; cases h
  | act a k ih =>
    intro s s' r h
    rw [run] at h
    split at h
    · next b s1 he => exact (exec_lengths he).trans (ih _ h)
    · cases h
    · cases h

theorem withoutAlias_frame {s s' : Shared} (h : WithoutAlias cfg s s') : SameLengths s s' ∧
    ∀ k q, s'.aliases.get k = some q → s.arrays.length ≤ q.arr ∨ s.aliases.get k = some q := by
  induction h with
  | refl => exact ⟨.refl _, fun _ _ h => .inr h⟩
  | call h hop hr ih =>
    refine ⟨ih.1.trans (run_lengths hr), fun k q hq => ?_⟩
    rcases storesNew_run (storesNew_prog hop) ih.1.le hr k q hq with h1 | h1
    · exact .inl h1
    · exact ih.2 k q h1
  | write h he ih =>
    refine ⟨ih.1.trans (exec_lengths he), fun k q hq => ih.2 k q ?_⟩
    rw [← (exec_frame he).2.1 (by simp [Act.writes])]; exact hq
  | append h he ih =>
    refine ⟨ih.1.trans (exec_lengths he), fun k q hq => ih.2 k q ?_⟩
    rw [← (exec_frame he).2.1 (by simp [Act.writes])]; exact hq

end Visigoth
