import Verif.Spec.Snapshot
import Verif.Proofs.Reach
import Verif.Proofs.KeepNew
/-!
# The slices of the alias table in concurrent executions

Every slice that is or was in the alias table keeps its contents, except for what `Rename` writes into it.
-/
namespace Visigoth

variable {cfg : Cfg} {op : Op}

/-- What is known about a running call. -/
inductive SMode
  | none
  /-- the index mutex is held exclusively -/
  | wr
  /-- the alias mutex is held exclusively -/
  | locked
  /-- … and the alias has this slice -/
  | got (k : Name) (r : SliceRef)
  /-- … and this slice is the one of the alias with an element appended -/
  | grown (k : Name) (r : SliceRef)
  /-- … and this slice is new -/
  | new (r : SliceRef)
  /-- the index mutex is held exclusively, and this slice is or was in the table -/
  | holds (r : SliceRef)
  /-- … and has this element -/
  | at (r : SliceRef) (i : Nat) (v : Name)

/-- One action of a call. -/
def RowsAct (op : Op) (g : SMode) {β : Type} : Act β → (SMode → β → Prop) → Prop
  | .acquire .indices, Φ => Φ .wr ()
  | .acquire .aliases, Φ => Φ .locked ()
  | .rlock _, Φ | .runlock _, Φ | .announce _, Φ | .unlock _, Φ => Φ .none ()
  | .alGet k, Φ =>
    match g with
    | .locked | .got .. => Φ .locked Option.none ∧ ∀ r, Φ (.got k r) (some r)
    | .wr | .holds _ | .at .. => Φ .wr Option.none ∧ ∀ r, Φ (.holds r) (some r)
    | _ => ∀ v, Φ .none v
  | .slRead r i, Φ =>
    match g with
    | .holds r' | .at r' _ _ => r' = r ∧ ∀ v, Φ (.at r i v) v
    | _ => ∀ v, Φ g v
  | .slWrite r i v, Φ => ∃ old, g = .at r i old ∧ op = .rename old v ∧ Φ (.holds r) ()
  | .slAppend r _, Φ => ∃ k, g = .got k r ∧ ∀ r', Φ (.grown k r') r'
  | .slNew _, Φ => (g = .locked ∨ ∃ k r, g = .got k r) ∧ ∀ r', Φ (.new r') r'
  | .alSet k r, Φ => (g = .grown k r ∨ g = .new r) ∧ Φ .locked ()
  | .alDel _, Φ => (g = .locked ∨ ∃ k r, g = .got k r) ∧ Φ .locked ()
  | _, Φ => ∀ b, Φ g b

def Rows {α : Type} (op : Op) (Q : SMode → α → Prop) : SMode → Prog α → Prop
  | g, .ret a => Q g a
  | _, .crash _ => True
  | g, .act a k => RowsAct op g a fun g' b => Rows op Q g' (k b)

theorem rowsAct_mono {β : Type} {a : Act β} {g : SMode} {Φ Ψ : SMode → β → Prop} (h : ∀ g b, Φ g b → Ψ g b)
    (hr : RowsAct op g a Φ) : RowsAct op g a Ψ := by
  cases a
  case acquire m => cases m <;> exact h _ _ hr
  case rlock m => exact h _ _ hr
  case runlock m => exact h _ _ hr
  case announce m => exact h _ _ hr
  case unlock m => exact h _ _ hr
  case alGet k => cases g <;> first | exact ⟨h _ _ hr.1, fun r => h _ _ (hr.2 r)⟩ | exact fun v => h _ _ (hr v)
  case slRead r i => cases g <;> first | exact ⟨hr.1, fun v => h _ _ (hr.2 v)⟩ | exact fun v => h _ _ (hr v)
  case slWrite r i v => exact hr.imp fun _ hr => ⟨hr.1, hr.2.1, h _ _ hr.2.2⟩
  case slAppend r v => exact hr.imp fun _ hr => ⟨hr.1, fun r' => h _ _ (hr.2 r')⟩
  case slNew l => exact ⟨hr.1, fun r' => h _ _ (hr.2 r')⟩
  case alSet k r => exact ⟨hr.1, h _ _ hr.2⟩
  case alDel k => exact ⟨hr.1, h _ _ hr.2⟩
  all_goals exact fun b => h _ _ (hr b)

theorem rows_bind {α β : Type} {Q : SMode → β → Prop} {f : α → Prog β} : ∀ {q : Prog α} {g : SMode},
    Rows op (fun g' a => Rows op Q g' (f a)) g q → Rows op Q g (q >>= f)
  | .ret _, _, h => h
  | .crash _, _, _ => trivial
  | .act _ _, _, h => rowsAct_mono (fun _ _ h => rows_bind h) h

theorem rows_mono {α : Type} {Q Q' : SMode → α → Prop} (hQ : ∀ g a, Q g a → Q' g a) : ∀ {q : Prog α} {g : SMode},
    Rows op Q g q → Rows op Q' g q
  | .ret _, _, h => hQ _ _ h
  | .crash _, _, _ => trivial
  | .act _ _, _, h => rowsAct_mono (fun _ _ h => rows_mono hQ h) h

/-- Modes in which reading a slice tells nothing. -/
def SMode.plain : SMode → Prop
  | .holds _ | .at .. => False
  | _ => True

/-- Nothing at the end. -/
def anyRow {α : Type} : SMode → α → Prop := fun _ _ => True

theorem rows_read {g : SMode} (hg : g.plain) {r : SliceRef} {i : Nat} {Φ : SMode → Name → Prop} (h : ∀ v, Φ g v) :
    RowsAct op g (.slRead r i) Φ := by
  cases g <;> first | exact h | exact hg.elim

theorem rows_readFrom {g : SMode} (hg : g.plain) {r : SliceRef} : ∀ (k i : Nat), Rows op (fun g' _ => g' = g) g (Repo.readFrom r i k)
  | 0, _ => rfl
  | k + 1, i => rows_read hg fun _ => rows_bind (q := Repo.readFrom r (i + 1) k) (rows_mono (fun _ _ h => h) (rows_readFrom hg k (i + 1)))

theorem rows_sliceHas {g : SMode} (hg : g.plain) {r : SliceRef} {x : Name} : ∀ (k i : Nat),
    Rows op (fun g' _ => g' = g) g (Repo.sliceHas r x i k)
  | 0, _ => rfl
  | k + 1, i => rows_read hg fun v => by
    show Rows op _ g (if v = x then _ else _)
    split
    · rfl
    · exact rows_sliceHas hg k (i + 1)

theorem rows_alGet_none {k : Name} {Φ : SMode → Option SliceRef → Prop} (h : ∀ v, Φ .none v) : RowsAct op .none (.alGet k) Φ := h

theorem rows_resolveFrom {r : SliceRef} : ∀ (k i : Nat), Rows op (fun g' _ => g' = .none) .none (Repo.resolveFrom r i k)
  | 0, _ => rfl
  | k + 1, i => fun _ _ => rows_bind (q := Repo.resolveFrom r (i + 1) k) (rows_mono (fun _ _ h => h) (rows_resolveFrom k (i + 1)))

theorem rows_searchIndex {g : SMode} {p : Ptr} {ts : Str} {e : Engine} : Rows op (fun g' _ => g' = g) g (Repo.searchIndex p ts e) := by
  intro b
  cases b
  · trivial
  · rfl

theorem rows_searchAll {g : SMode} {ts : Str} {e : Engine} : ∀ ps, Rows op (fun g' _ => g' = g) g (Repo.searchAll ts e ps)
  | [] => rfl
  | p :: ps => rows_bind (rows_mono (by rintro _ _ rfl; exact rows_bind (rows_mono (fun _ _ h => h) (rows_searchAll ps))) rows_searchIndex)

theorem rows_searchTargets {g : SMode} {l : List (Option Ptr)} {ts : Str} {e : Engine} :
    Rows op (fun g' _ => g' = g) g (Repo.searchTargets l ts e) := by
  unfold Repo.searchTargets
  split
  · trivial
  · exact rows_searchIndex
  · exact fun ps => rows_searchAll ps

theorem rows_putPostings {g : SMode} {p : Ptr} {i : Nat} : ∀ toks, Rows op (fun g' _ => g' = g) g (Repo.putPostings p i toks)
  | [] => rfl
  | _ :: toks => fun _ => rows_putPostings toks

theorem rows_putIndex {g : SMode} {p : Ptr} {d : DocRequest} : Rows op (fun g' _ => g' = g) g (Repo.putIndex cfg p d) :=
  fun _ => rows_putPostings _

theorem rows_putAll {g : SMode} {d : DocRequest} : ∀ ps, Rows op (fun g' _ => g' = g) g (Repo.putAll cfg d ps)
  | [] => rfl
  | p :: ps => rows_bind (rows_mono (by rintro _ _ rfl; exact rows_putAll ps) rows_putIndex)

theorem rows_putTargets {g : SMode} {l : List (Option Ptr)} {d : DocRequest} :
    Rows op (fun g' _ => g' = g) g (Repo.putTargets cfg l d) := by
  unfold Repo.putTargets
  split
  · trivial
  · split
    · exact fun ps => rows_putAll ps
    · trivial

theorem rows_renderAll {g : SMode} : ∀ ks, Rows op (fun g' _ => g' = g) g (Repo.renderAll ks)
  | [] => rfl
  | k :: ks => fun v => by
    cases v with
    | none => exact rows_renderAll ks
    | some p => exact fun _ => rows_bind (q := Repo.renderAll ks) (rows_mono (fun _ _ h => h) (rows_renderAll ks))

theorem rows_listRows : ∀ ks, Rows op (fun g' _ => g' = .none) .none (Repo.listRows ks)
  | [] => rfl
  | k :: ks => rows_alGet_none fun v => by
    cases v with
    | none => exact rows_listRows ks
    | some p => exact rows_bind (q := Repo.listRows ks) (rows_mono (fun _ _ h => h) (rows_listRows ks))

theorem rows_renameSlice {old new : Name} {r : SliceRef} : ∀ (k i : Nat) (g : SMode), (g = .holds r ∨ ∃ j v, g = .at r j v) →
    Rows (.rename old new) (fun g' _ => g' = .holds r ∨ ∃ j v, g' = .at r j v) g (Repo.renameSlice r old new i k)
  | 0, _, _, h => h
  | k + 1, i, g, h => by
    have : ∀ v, Rows (.rename old new) (fun g' _ => g' = .holds r ∨ ∃ j v, g' = .at r j v) (.at r i v) (do
        if v = old then perform (.slWrite r i new)
        Repo.renameSlice r old new (i + 1) k : Prog Unit) := by
      intro v
      split
      · next hv =>
        subst hv
        exact ⟨v, rfl, rfl, rows_renameSlice k (i + 1) _ (.inl rfl)⟩
      · exact rows_renameSlice k (i + 1) _ (.inr ⟨i, v, rfl⟩)
    rcases h with rfl | ⟨j, w, rfl⟩
    · exact ⟨rfl, this⟩
    · exact ⟨rfl, this⟩

/-- The modes of `Rename` in its loop. -/
def SMode.renaming : SMode → Prop
  | .wr | .holds _ | .at .. => True
  | _ => False

theorem rows_renameAliases {old new : Name} : ∀ (ks : List Name) (g : SMode), g.renaming →
    Rows (.rename old new) (fun g' _ => g'.renaming) g (Repo.renameAliases old new ks)
  | [], _, h => h
  | k :: ks, g, h => by
    have : Rows (.rename old new) (fun g' _ => g'.renaming) .wr (Repo.renameAliases old new ks) ∧
        ∀ r, Rows (.rename old new) (fun g' _ => g'.renaming) (.holds r) (do
          Repo.renameSlice r old new 0 r.len
          Repo.renameAliases old new ks : Prog Unit) := by
      refine ⟨rows_renameAliases ks _ trivial, fun r => rows_bind (rows_mono ?_ (rows_renameSlice _ 0 _ (.inl rfl)))⟩
      rintro g' _ (rfl | ⟨j, v, rfl⟩)
      · exact rows_renameAliases ks _ trivial
      · exact rows_renameAliases ks _ trivial
    cases g <;> first | exact h.elim | exact this

/-- The modes of `Drop` in its loop. -/
def SMode.dropping : SMode → Prop
  | .locked | .got .. => True
  | _ => False

theorem SMode.dropping.cases {g : SMode} (h : g.dropping) : g = .locked ∨ ∃ k r, g = .got k r := by
  cases g <;> first | exact h.elim | exact .inl rfl | exact .inr ⟨_, _, rfl⟩

theorem rows_dropAliases {n : Name} : ∀ (ks : List Name) (g : SMode), g.dropping →
    Rows op (fun g' _ => g'.dropping) g (Repo.dropAliases n ks)
  | [], _, h => h
  | k :: ks, g, h => by
    have : Rows op (fun g' _ => g'.dropping) .locked (Repo.dropAliases n ks) ∧
        ∀ r, Rows op (fun g' _ => g'.dropping) (.got k r) (do
          let xs ← Repo.readSlice r
          let newIndices := xs.filter (fun x => x ≠ n)
          if newIndices.length < 1 then
            perform (.alDel k)
            Repo.dropAliases n ks
          else if newIndices.length ≠ r.len then
            let r ← perform (.slNew newIndices)
            perform (.alSet k r)
            Repo.dropAliases n ks
          else Repo.dropAliases n ks : Prog Unit) := by
      refine ⟨rows_dropAliases ks _ trivial, fun r => rows_bind (rows_mono ?_ (rows_readFrom (g := .got k r) trivial _ 0))⟩
      rintro g' xs rfl
      dsimp only
      split
      · exact ⟨.inr ⟨k, r, rfl⟩, rows_dropAliases ks _ trivial⟩
      · split
        · exact ⟨.inr ⟨k, r, rfl⟩, fun r' => ⟨.inr rfl, rows_dropAliases ks _ trivial⟩⟩
        · exact rows_dropAliases ks _ trivial
    cases g <;> first | exact h.elim | exact this

theorem rows_getIndices {n : Name} : Rows op (fun g' _ => g' = .none) .none (Repo.getIndices n) := by
  intro v
  cases v with
  | some p => exact rfl
  | none =>
    intro v
    cases v with
    | none => exact rfl
    | some r =>
      exact rows_bind (q := Repo.resolveFrom r 0 r.len) (rows_mono (by rintro _ _ rfl; exact rfl) (rows_resolveFrom _ _))

theorem rows_search {n : Name} {ts : Str} {e : Engine} : Rows op anyRow .none (Repo.search n ts e) := by
  intro v
  cases v with
  | some p => exact rows_bind (q := Repo.searchTargets [some p] ts e) (rows_mono (by rintro _ _ rfl; exact trivial) rows_searchTargets)
  | none =>
    intro v
    cases v with
    | none => exact trivial
    | some r =>
      refine rows_bind (q := Repo.resolveFrom r 0 r.len) (rows_mono ?_ (rows_resolveFrom _ _))
      rintro _ l rfl
      exact rows_bind (q := Repo.searchTargets l ts e) (rows_mono (by rintro _ _ rfl; exact trivial) rows_searchTargets)

theorem rows_put {n : Name} {d : DocRequest} : Rows op anyRow .none (Repo.put cfg n d) := by
  refine rows_bind (rows_mono ?_ rows_getIndices)
  rintro _ r rfl
  cases r with
  | none => exact fun p => fun _ => rows_bind (q := Repo.putIndex cfg p d) (rows_mono (by rintro _ _ rfl; exact trivial) rows_putIndex)
  | some l => exact rows_bind (q := Repo.putTargets cfg l d) (rows_mono (by rintro _ _ rfl; exact trivial) rows_putTargets)

theorem rows_alias {al i : Name} : Rows op anyRow .none (Repo.alias al i) := by
  intro v
  cases v with
  | none => exact trivial
  | some p =>
    refine ⟨?_, fun r => ?_⟩
    · exact ⟨.inl rfl, fun r' => ⟨.inr rfl, trivial⟩⟩
    · refine rows_bind (q := Repo.sliceHas r i 0 r.len) (rows_mono ?_ (rows_sliceHas (g := .got al r) trivial _ 0))
      rintro _ b rfl
      cases b with
      | true => exact trivial
      | false => exact ⟨al, rfl, fun r' => ⟨.inl rfl, trivial⟩⟩

theorem rows_unAlias {al i : Name} : Rows op anyRow .none (Repo.unAlias al i) := by
  unfold Repo.unAlias
  split
  · exact ⟨⟨.inl rfl, trivial⟩, fun r => ⟨.inr ⟨al, r, rfl⟩, trivial⟩⟩
  · intro v
    cases v with
    | none => exact trivial
    | some p =>
      refine ⟨trivial, fun r => ?_⟩
      refine rows_bind (q := Repo.readSlice r) (rows_mono ?_ (rows_readFrom (g := .got al r) trivial _ 0))
      rintro _ xs rfl
      dsimp only
      split
      · exact ⟨.inr ⟨al, r, rfl⟩, fun r' => ⟨.inr rfl, trivial⟩⟩
      · exact trivial

theorem rows_rename {old new : Name} : Rows (.rename old new) anyRow .none (Repo.rename old new) := by
  intro v
  cases v with
  | none => exact trivial
  | some p =>
    intro _ _ ks
    exact rows_bind (q := Repo.renameAliases old new ks) (rows_mono (fun _ _ _ => trivial) (rows_renameAliases ks _ trivial))

theorem rows_drop {n : Name} : Rows op anyRow .none (Repo.drop n) := by
  intro v
  cases v with
  | none => exact trivial
  | some p =>
    intro ks
    exact rows_bind (q := Repo.dropAliases n ks) (rows_mono (fun _ _ _ _ => trivial) (rows_dropAliases ks _ trivial))

theorem rows_op : ∀ op : Op, Rows op anyRow .none (op.prog cfg)
  | .list => fun _ => trivial
  | .listAliases => fun ks => rows_bind (q := Repo.listRows ks >>= _) (rows_bind (rows_mono (by rintro _ _ rfl; exact trivial) (rows_listRows ks)))
  | .has n => fun _ => trivial
  | .hasAlias n => fun _ => trivial
  | .alias al i => rows_bind (rows_mono (fun _ _ _ => trivial) rows_alias)
  | .unAlias al i => rows_bind (rows_mono (fun _ _ _ => trivial) rows_unAlias)
  | .put n d => rows_bind (rows_mono (fun _ _ _ => trivial) rows_put)
  | .search n ts e => rows_bind (rows_mono (fun _ r _ => by cases r <;> exact trivial) rows_search)
  | .rename old new => rows_bind (rows_mono (fun _ _ _ => trivial) rows_rename)
  | .drop n => rows_bind (rows_mono (fun _ _ _ => trivial) rows_drop)
  | .string => fun ks => rows_bind (q := Repo.renderAll ks >>= _) (rows_bind (rows_mono (by rintro _ _ rfl; exact trivial) (rows_renderAll ks)))

/-! ## The invariant -/

/-- All arrays are still there, with their lengths. -/
def ArrGrown (A A' : List (List Name)) : Prop := ∀ (i : Nat) a, A[i]? = some a → ∃ a', A'[i]? = some a' ∧ a'.length = a.length

theorem ArrGrown.refl (A : List (List Name)) : ArrGrown A A := fun _ a h => ⟨a, h, rfl⟩

theorem arrGrown_append (A : List (List Name)) (x : List Name) : ArrGrown A (A ++ [x]) := fun i a h =>
  ⟨a, by rw [List.getElem?_append_left (List.getElem?_eq_some_iff.1 h).1, h], rfl⟩

theorem arrGrown_set {A : List (List Name)} {j : Nat} {a : List Name} (h : A[j]? = some a) (i : Nat) (v : Name) :
    ArrGrown A (A.set j (a.set i v)) := by
  intro k b hb
  by_cases hk : j = k
  · subst hk
    rw [h] at hb; cases hb
    exact ⟨_, List.getElem?_set_self (List.getElem?_eq_some_iff.1 h).1, List.length_set⟩
  · exact ⟨b, by rw [List.getElem?_set_ne hk]; exact hb, rfl⟩

theorem ArrGrown.valid {A A' : List (List Name)} (h : ArrGrown A A') {r : SliceRef} (hv : ValidIn A r) : ValidIn A' r := by
  obtain ⟨a, h1, h2⟩ := hv
  obtain ⟨a', h3, h4⟩ := h _ _ h1
  exact ⟨a', h3, h4 ▸ h2⟩

/-- The alias table; `P` holds of all slices that are or were in it. -/
structure TableOk (s : Shared) (P : SliceRef → Prop) : Prop where
  ok : AlOk s.arrays s.aliases
  vals : ∀ k r, s.aliases.get k = some r → P r
  snap : ∀ q, P q → Snap s.arrays s.aliases q

theorem TableOk.arrays {s s' : Shared} {P : SliceRef → Prop} (h : TableOk s P) (hal : s'.aliases = s.aliases)
    (hA : ArrGrown s.arrays s'.arrays) : TableOk s' P := by
  refine ⟨⟨?_, ?_, ?_⟩, ?_, ?_⟩
  · rw [hal]; exact h.ok.nodup
  · rw [hal]; exact fun n r hn => hA.valid (h.ok.valid n r hn)
  · rw [hal]; exact h.ok.distinct
  · rw [hal]; exact h.vals
  · rw [hal]; exact fun q hq => ⟨hA.valid (h.snap q hq).1, (h.snap q hq).2⟩

/-- A slice is stored. -/
theorem TableOk.set {s s' : Shared} {P : SliceRef → Prop} (h : TableOk s P) {k : Name} {r : SliceRef}
    (hal : s'.aliases = s.aliases.set k r) (hA : s'.arrays = s.arrays) (hv : ValidIn s.arrays r)
    (hd : ∀ n q, s.aliases.get n = some q → q.arr = r.arr → n = k) (hq : ∀ q, P q → q.arr = r.arr → q.len ≤ r.len) :
    TableOk s' fun q => P q ∨ q = r := by
  have ok : AlOk s'.arrays s'.aliases := by
    rw [hal, hA]
    refine ⟨GoMap.nodup_set _ _ _ h.ok.nodup, ?_, ?_⟩
    · intro n q hn
      rw [GoMap.get_set] at hn
      split at hn
      · cases hn; exact hv
      · exact h.ok.valid n q hn
    · intro n m q q' hn hm he
      rw [GoMap.get_set] at hn hm
      split at hn <;> split at hm
      · next h1 h2 => rw [← h1, ← h2]
      · next h1 h2 => cases hn; exact h1.symm.trans (hd m q' hm he.symm).symm
      · next h1 h2 => cases hm; exact (hd n q hn he).trans h2
      · exact h.ok.distinct n m q q' hn hm he
  refine ⟨ok, ?_, ?_⟩
  · intro n q hn
    rw [hal, GoMap.get_set] at hn
    split at hn
    · cases hn; exact .inr rfl
    · exact .inl (h.vals n q hn)
  · rintro q (hP | rfl)
    · refine ⟨by rw [hA]; exact (h.snap q hP).1, fun n r' hn he => ?_⟩
      rw [hal, GoMap.get_set] at hn
      split at hn
      · cases hn; exact hq q hP he.symm
      · exact (h.snap q hP).2 n r' hn he
    · exact ok.snap (n := k) (by rw [hal, GoMap.get_set_same])

theorem TableOk.del {s s' : Shared} {P : SliceRef → Prop} (h : TableOk s P) {k : Name}
    (hal : s'.aliases = s.aliases.delete k) (hA : s'.arrays = s.arrays) : TableOk s' P := by
  have hsub : ∀ n q, s'.aliases.get n = some q → s.aliases.get n = some q := by
    intro n q hn
    rw [hal, GoMap.get_delete] at hn
    split at hn
    · cases hn
    · exact hn
  refine ⟨?_, fun n q hn => h.vals n q (hsub n q hn), fun q hq => ⟨by rw [hA]; exact (h.snap q hq).1, fun n r' hn => (h.snap q hq).2 n r' (hsub n r' hn)⟩⟩
  rw [hal, hA]
  exact (alOk_delete h.ok k).1

/-- What holds in each mode. -/
def SModeOk (s : Shared) (h : Held) (P : SliceRef → Prop) : SMode → Prop
  | .none => True
  | .wr => h.imu = .write
  | .locked => h.amu = .write
  | .got k r => h.amu = .write ∧ s.aliases.get k = some r
  | .grown k r => h.amu = .write ∧ ValidIn s.arrays r ∧ (∀ q, P q → q.arr = r.arr → q.len ≤ r.len) ∧
      ∀ n q, s.aliases.get n = some q → q.arr = r.arr → n = k
  | .new r => h.amu = .write ∧ ValidIn s.arrays r ∧ ∀ q, P q → q.arr ≠ r.arr
  | .holds r => h.imu = .write ∧ P r
  | .at r i v => h.imu = .write ∧ P r ∧ (s.elems r)[i]? = some v

/-- What a step of a call does to the slices. -/
def Rewrites (op : Op) (h : Held) (s s' : Shared) (q : SliceRef) : Prop :=
  s'.elems q = s.elems q ∨
    ∃ old new i, op = .rename old new ∧ h.imu = .write ∧ (s.elems q)[i]? = some old ∧ s'.elems q = (s.elems q).set i new

theorem elems_same {s s' : Shared} (h : s'.arrays = s.arrays) (q : SliceRef) : s'.elems q = s.elems q := by
  unfold Shared.elems; rw [h]

theorem elems_append {s s' : Shared} {x : List Name} (h : s'.arrays = s.arrays ++ [x]) {q : SliceRef} (hv : ValidIn s.arrays q) :
    s'.elems q = s.elems q := by
  have := (validIn_append hv x).2
  unfold Shared.elems; rw [h]; exact this

/-- The effect of an action of a call. -/
structure RowsStep (op : Op) (h h' : Held) (s s' : Shared) (P P' : SliceRef → Prop) (g' : SMode) : Prop where
  table : TableOk s' P'
  mode : SModeOk s' h' P' g'
  more : ∀ q, P q → P' q
  same : h.amu ≠ .write → s'.aliases = s.aliases ∧ ∀ q, P' q → P q
  grown : ArrGrown s.arrays s'.arrays
  rewrites : ∀ q, P q → Rewrites op h s s' q

theorem rows_own {o : Oracle} {t : Tid} {β : Type} {a : Act β} {s s' : Shared} {b : β} {h : Held} {P : SliceRef → Prop} {g : SMode}
    {Φ : SMode → β → Prop} (he : exec cfg o t a s = .ok b s') (hT : TableOk s P) (hm : SModeOk s h P g)
    (hw : RowsAct op g a Φ) : ∃ P' g', Φ g' b ∧ RowsStep op h (h.after a) s s' P P' g' := by
  -- nothing happens to the aliases
  have quiet : ∀ g', s'.aliases = s.aliases → s'.arrays = s.arrays → SModeOk s' (h.after a) P g' → Φ g' b →
      ∃ P' g', Φ g' b ∧ RowsStep op h (h.after a) s s' P P' g' := fun g' h1 h2 h3 h4 =>
    ⟨P, g', h4, hT.arrays h1 (by rw [h2]; exact .refl _), h3, fun _ h => h, fun _ => ⟨h1, fun _ h => h⟩, by rw [h2]; exact .refl _,
      fun q _ => .inl (elems_same h2 q)⟩
  have keep : h.after a = h → s'.aliases = s.aliases → s'.arrays = s.arrays → Φ g b →
      ∃ P' g', Φ g' b ∧ RowsStep op h (h.after a) s s' P P' g' := by
    intro h0 h1 h2 h3
    refine quiet g h1 h2 ?_ h3
    rw [h0]
    cases g <;> simp only [SModeOk, h1, h2, elems_same h2] at hm ⊢ <;> exact hm
  obtain ⟨f1, f2, f3⟩ := exec_frame he
  cases a
  case rlock m => exact quiet .none (f2 nofun) (f3 nofun) trivial hw
  case runlock m => exact quiet .none (f2 nofun) (f3 nofun) trivial hw
  case announce m => exact quiet .none (f2 nofun) (f3 nofun) trivial hw
  case unlock m => exact quiet .none (f2 nofun) (f3 nofun) trivial hw
  case acquire m =>
    cases m with
    | indices => exact quiet .wr (f2 nofun) (f3 nofun) rfl hw
    | aliases => exact quiet .locked (f2 nofun) (f3 nofun) rfl hw
  case alGet k =>
    cases he
    have lk : h.amu = .write → (Φ .locked none ∧ ∀ r, Φ (.got k r) (some r)) →
        ∃ P' g', Φ g' (s.aliases.get k) ∧ RowsStep op h (h.after (.alGet k)) s s P P' g' := by
      intro hA hw
      cases hg : s.aliases.get k with
      | none => rw [hg] at quiet; exact quiet .locked rfl rfl hA hw.1
      | some r => rw [hg] at quiet; exact quiet (.got k r) rfl rfl ⟨hA, hg⟩ (hw.2 r)
    have ik : h.imu = .write → (Φ .wr none ∧ ∀ r, Φ (.holds r) (some r)) →
        ∃ P' g', Φ g' (s.aliases.get k) ∧ RowsStep op h (h.after (.alGet k)) s s P P' g' := by
      intro hA hw
      cases hg : s.aliases.get k with
      | none => rw [hg] at quiet; exact quiet .wr rfl rfl hA hw.1
      | some r => rw [hg] at quiet; exact quiet (.holds r) rfl rfl ⟨hA, hT.vals k r hg⟩ (hw.2 r)
    cases g with
    | locked => exact lk hm hw
    | got _ _ => exact lk hm.1 hw
    | wr => exact ik hm hw
    | holds _ => exact ik hm.1 hw
    | «at» _ _ _ => exact ik hm.1 hw
    | none => exact quiet .none rfl rfl trivial (hw _)
    | grown _ _ => exact quiet .none rfl rfl trivial (hw _)
    | new _ => exact quiet .none rfl rfl trivial (hw _)
  case slRead r i =>
    simp only [exec] at he
    split at he
    · next v hv =>
      cases he
      cases g with
      | holds r' => exact quiet (.at r i b) rfl rfl ⟨hm.1, hw.1 ▸ hm.2, hv⟩ (hw.2 _)
      | «at» r' j w => exact quiet (.at r i b) rfl rfl ⟨hm.1, hw.1 ▸ hm.2.1, hv⟩ (hw.2 _)
      | _ => exact keep rfl rfl rfl (hw _)
    · cases he
  case slWrite r i v =>
    obtain ⟨old, rfl, hop, hw⟩ := hw
    obtain ⟨hm1, hm2, hm3⟩ := hm
    simp only [exec] at he
    split at he
    · next a ha =>
      split at he
      · next hi =>
        cases he
        have hA := arrGrown_set ha i v
        refine ⟨P, .holds r, hw, hT.arrays rfl hA, ⟨hm1, hm2⟩, fun _ h => h, fun _ => ⟨rfl, fun _ h => h⟩, hA, fun q hq => ?_⟩
        by_cases hqa : q.arr = r.arr
        · have e1 : s.elems q = a.take q.len := by unfold Shared.elems; rw [hqa, ha]; rfl
          have e2 : Shared.elems { s with arrays := s.arrays.set r.arr (a.set i v) } q = (a.set i v).take q.len := by
            unfold Shared.elems
            simp only
            rw [hqa, List.getElem?_set_self (List.getElem?_eq_some_iff.1 ha).1]; rfl
          by_cases hlt : i < q.len
          · refine .inr ⟨old, v, i, hop, hm1, ?_, ?_⟩
            · rw [e1, List.getElem?_take_of_lt hlt]
              have : s.elems r = a.take r.len := by unfold Shared.elems; rw [ha]; rfl
              rw [this, List.getElem?_take_of_lt hi] at hm3
              exact hm3
            · rw [e1, e2, List.take_set]
          · refine .inl ?_
            rw [e1, e2, List.take_set_of_le (Nat.le_of_not_lt hlt)]
        · refine .inl ?_
          unfold Shared.elems
          simp only
          rw [List.getElem?_set_ne (Ne.symm hqa)]
      · cases he
    · cases he
  case slAppend r v =>
    obtain ⟨k, rfl, hw⟩ := hw
    obtain ⟨hm1, hm2⟩ := hm
    have hsn := hT.ok.snap hm2
    simp only [exec] at he
    split at he
    · cases he
    · next a ha =>
      split at he
      · next hlt =>
        cases he
        have hA := arrGrown_set ha r.len v
        refine ⟨P, .grown k _, hw _, hT.arrays rfl hA, ⟨hm1, ⟨_, List.getElem?_set_self (List.getElem?_eq_some_iff.1 ha).1, ?_⟩, ?_, ?_⟩,
          fun _ h => h, fun _ => ⟨rfl, fun _ h => h⟩, hA, fun q hq => .inl ?_⟩
        · simp only [List.length_set]; exact hlt
        · exact fun q hq hqa => Nat.le_succ_of_le ((hT.snap q hq).2 k r hm2 hqa.symm)
        · exact fun n q hn hqa => hT.ok.distinct n k q r hn hm2 hqa
        · by_cases hqa : q.arr = r.arr
          · have hle := (hT.snap q hq).2 k r hm2 hqa.symm
            unfold Shared.elems
            simp only
            rw [hqa, List.getElem?_set_self (List.getElem?_eq_some_iff.1 ha).1, ha]
            exact List.take_set_of_le hle
          · unfold Shared.elems
            simp only
            rw [List.getElem?_set_ne (Ne.symm hqa)]
      · next hlt =>
        cases he
        have hA := arrGrown_append s.arrays (a.take r.len ++ v :: List.replicate (o.capacity (r.len + 1) - (r.len + 1)) [])
        obtain ⟨a', ha', hle'⟩ := hsn.1
        rw [ha] at ha'; cases ha'
        refine ⟨P, .grown k _, hw _, hT.arrays rfl hA, ⟨hm1, ⟨_, List.getElem?_concat_length, ?_⟩, ?_, ?_⟩,
          fun _ h => h, fun _ => ⟨rfl, fun _ h => h⟩, hA, fun q hq => .inl (elems_append rfl (hT.snap q hq).1)⟩
        · simp only [List.length_append, List.length_take, List.length_cons, Nat.min_eq_left hle']; omega
        · exact fun q hq hqa => absurd (validIn_lt (hT.snap q hq).1) (by rw [hqa]; exact Nat.lt_irrefl _)
        · exact fun n q hn hqa => absurd (validIn_lt (hT.ok.valid n q hn)) (by rw [hqa]; exact Nat.lt_irrefl _)
  case slNew l =>
    have hm1 : h.amu = .write := by
      rcases hw.1 with rfl | ⟨k, r, rfl⟩
      · exact hm
      · exact hm.1
    cases he
    have hA := arrGrown_append s.arrays (l ++ List.replicate (o.capacity l.length - l.length) [])
    refine ⟨P, .new _, hw.2 _, hT.arrays rfl hA, ⟨hm1, ⟨_, List.getElem?_concat_length, ?_⟩, ?_⟩,
      fun _ h => h, fun _ => ⟨rfl, fun _ h => h⟩, hA, fun q hq => .inl (elems_append rfl (hT.snap q hq).1)⟩
    · simp
    · exact fun q hq hqa => absurd (validIn_lt (hT.snap q hq).1) (by rw [hqa]; exact Nat.lt_irrefl _)
  case alSet k r =>
    cases he
    obtain ⟨hg, hw⟩ := hw
    have hk : h.amu = .write ∧ ValidIn s.arrays r ∧ (∀ q, P q → q.arr = r.arr → q.len ≤ r.len) ∧
        ∀ n q, s.aliases.get n = some q → q.arr = r.arr → n = k := by
      rcases hg with rfl | rfl
      · exact hm
      · exact ⟨hm.1, hm.2.1, fun q hq hqa => absurd hqa (hm.2.2 q hq), fun n q hn hqa => absurd hqa (hm.2.2 q (hT.vals n q hn))⟩
    exact ⟨_, .locked, hw, hT.set rfl rfl hk.2.1 hk.2.2.2 hk.2.2.1, hk.1, fun _ h => .inl h, fun hn => absurd hk.1 hn, .refl _, fun q _ => .inl rfl⟩
  case alDel k =>
    cases he
    have hm1 : h.amu = .write := by
      rcases hw.1 with rfl | ⟨k, r, rfl⟩
      · exact hm
      · exact hm.1
    exact ⟨P, .locked, hw.2, hT.del rfl rfl, hm1, fun _ h => h, fun hn => absurd hm1 hn, .refl _, fun q _ => .inl rfl⟩
  all_goals exact keep rfl (f2 nofun) (f3 nofun) (hw _)

theorem SModeOk.other {h hu hu' : Held} {s s' : Shared} {P P' : SliceRef → Prop} {g gu : SMode} (hm : SModeOk s h P g)
    (hs : RowsStep op hu hu' s s' P P' gu) (ca : h.amu = .write → hu.amu ≠ .write) (ci : h.imu = .write → hu.imu ≠ .write) :
    SModeOk s' h P' g := by
  cases g with
  | none => trivial
  | wr => exact hm
  | locked => exact hm
  | got k r => exact ⟨hm.1, by rw [(hs.same (ca hm.1)).1]; exact hm.2⟩
  | grown k r =>
    obtain ⟨e1, e2⟩ := hs.same (ca hm.1)
    exact ⟨hm.1, hs.grown.valid hm.2.1, fun q hq => hm.2.2.1 q (e2 q hq), by rw [e1]; exact hm.2.2.2⟩
  | new r =>
    obtain ⟨e1, e2⟩ := hs.same (ca hm.1)
    exact ⟨hm.1, hs.grown.valid hm.2.1, fun q hq => hm.2.2 q (e2 q hq)⟩
  | holds r => exact ⟨hm.1, hs.more r hm.2⟩
  | «at» r i v =>
    refine ⟨hm.1, hs.more r hm.2.1, ?_⟩
    rcases hs.rewrites r hm.2.1 with e | ⟨old, new, j, _, h2, _⟩
    · rw [e]; exact hm.2.2
    · exact absurd h2 (ci hm.1)

structure RowsInv (c : Config) (H : Tid → Held) (G : Tid → SMode) (P : SliceRef → Prop) : Prop where
  prog : ∀ t x, c.calls[t]? = some x → Rows x.op anyRow (G t) x.prog
  mode : ∀ t, SModeOk c.sh (H t) P (G t)
  table : TableOk c.sh P
  fresh : ∀ t, c.calls.length ≤ t → G t = .none

theorem rowsInv_init : RowsInv Config.init (fun _ => {}) (fun _ => .none) (fun _ => False) := by
  refine ⟨fun t x h => ?_, fun _ => trivial, ⟨⟨?_, ?_, ?_⟩, ?_, ?_⟩, fun _ _ => rfl⟩ <;> simp_all [Config.init, newIndexRepo, GoMap.keys]

theorem write_excl {c : Config} {H : Tid → Held} (i : LockInv c H) {t u : Tid} (htu : t ≠ u) (m : Mu) (h : (H t).get m = .write) :
    (H u).get m ≠ .write := by
  intro hw
  have := link_excl i.link htu m (by rw [h]; rfl)
  rw [hw] at this; cases this

theorem rowsInv_step {c c' : Config} {H : Tid → Held} {G : Tid → SMode} {P : SliceRef → Prop} (i : LockInv c H) (v : RowsInv c H G P)
    (hs : Step cfg c c') : ∃ H' G' P', LockInv c' H' ∧ RowsInv c' H' G' P' ∧ (∀ q, P q → P' q) ∧ ∀ q, P q → StepRewrites c c' q := by
  cases hs with
  | invoke op o =>
    refine ⟨H, G, P, lockInv_invoke i op o, ⟨fun t x hx => ?_, v.mode, v.table, fun t ht => v.fresh t ?_⟩, fun _ h => h, fun _ _ => .inl rfl⟩
    · simp only at hx
      by_cases hlt : t < c.calls.length
      · rw [List.getElem?_append_left hlt] at hx
        exact v.prog t x hx
      · rw [List.getElem?_append_right (Nat.le_of_not_lt hlt)] at hx
        rw [v.fresh t (Nat.le_of_not_lt hlt)]
        cases hj : t - c.calls.length with
        | zero =>
          rw [hj] at hx
          cases hx
          exact rows_op op
        | succ j => rw [hj] at hx; cases hx
    · simp only [List.length_append] at ht
      exact Nat.le_trans (Nat.le_add_right _ _) ht
  | move u hm =>
    cases hm with
    | @act s s' calls op o β a k b h he =>
      obtain ⟨dd, hd⟩ := (i.good u _ h).allowed
      have i' := lockInv_act i h hd he
      obtain ⟨P', g', hp, st⟩ := rows_own (h := H u) he v.table (v.mode u) (v.prog u _ h)
      refine ⟨_, fun t => if t = u then g' else G t, P', i', ⟨fun t x hx => ?_, fun t => ?_, st.table, fun t ht => ?_⟩, st.more, fun q hq => ?_⟩
      · simp only at hx ⊢
        by_cases htu : t = u
        · subst htu
          rw [List.getElem?_set_self (List.getElem?_eq_some_iff.1 h).1] at hx
          cases hx
          rw [if_pos rfl]
          exact hp
        · rw [List.getElem?_set_ne (Ne.symm htu)] at hx
          rw [if_neg htu]
          exact v.prog t x hx
      · simp only
        by_cases htu : t = u
        · subst htu
          rw [setH_same, if_pos rfl]
          exact st.mode
        · rw [setH_other _ _ htu, if_neg htu]
          exact (v.mode t).other st (write_excl i htu .aliases) (write_excl i htu .indices)
      · simp only [List.length_set] at ht
        have htu : t ≠ u := by
          intro e; subst e
          exact absurd (List.getElem?_eq_some_iff.1 h).1 (Nat.not_lt.2 ht)
        simp only [if_neg htu]
        exact v.fresh t ht
      · rcases st.rewrites q hq with e | ⟨old, new, j, h1, _, h3, h4⟩
        · exact .inl e
        · exact .inr ⟨u, _, old, new, j, h, trivial, h1, h3, h4⟩
    | @crash s calls op o β a k e h he =>
      obtain ⟨dd, hd⟩ := (i.good u _ h).allowed
      refine ⟨H, G, P, lockInv_crash i h hd he, ⟨fun t x hx => ?_, v.mode, v.table, fun t ht => v.fresh t (by simpa using ht)⟩, fun _ h => h, fun _ _ => .inl rfl⟩
      simp only at hx
      by_cases htu : t = u
      · subst htu
        rw [List.getElem?_set_self (List.getElem?_eq_some_iff.1 h).1] at hx
        cases hx
        trivial
      · rw [List.getElem?_set_ne (Ne.symm htu)] at hx
        exact v.prog t x hx

/-- Two points of an execution. -/
theorem rowsInv_steps {c c' : Config} {H : Tid → Held} {G : Tid → SMode} {P : SliceRef → Prop} (i : LockInv c H) (v : RowsInv c H G P)
    (hs : Steps cfg c c') : ∃ H' G' P', LockInv c' H' ∧ RowsInv c' H' G' P' ∧ ∀ q, P q → P' q := by
  induction hs with
  | refl => exact ⟨H, G, P, i, v, fun _ h => h⟩
  | tail _ hs ih =>
    obtain ⟨H1, G1, P1, i1, v1, m1⟩ := ih
    obtain ⟨H2, G2, P2, i2, v2, m2, _⟩ := rowsInv_step i1 v1 hs
    exact ⟨H2, G2, P2, i2, v2, fun q hq => m2 q (m1 q hq)⟩

theorem rowsInv_reachable {c : Config} (hr : ConcReachable cfg c) : ∃ H G P, LockInv c H ∧ RowsInv c H G P := by
  obtain ⟨H, G, P, i, v, _⟩ := rowsInv_steps lockInv_init rowsInv_init hr
  exact ⟨H, G, P, i, v⟩

/-! ## When a `ListAliases` looks at the table -/

/-- What is known about a running `ListAliases`. -/
inductive LMode
  | start
  /-- the alias mutex is held -/
  | locked
  /-- … and the table is the one of `s` -/
  | keys (s : Shared)
  /-- the table was the one of `s` -/
  | done (s : Shared)

/-- One action of a `ListAliases`. -/
def ListAct (g : LMode) {β : Type} : Act β → (LMode → β → Prop) → Prop
  | .rlock .aliases, Φ => g = .start ∧ Φ .locked ()
  | .alKeys, Φ => g = .locked ∧ ∀ (s : Shared) ks, ks.Perm s.aliases.keys → Φ (.keys s) ks
  | .alGet k, Φ => ∃ s, g = .keys s ∧ Φ g (s.aliases.get k)
  | .runlock .aliases, Φ => ∃ s, g = .keys s ∧ Φ (.done s) ()
  | _, _ => False

def Lists {α : Type} (Q : LMode → α → Prop) : LMode → Prog α → Prop
  | g, .ret a => Q g a
  | _, .crash _ => True
  | g, .act a k => ListAct g a fun g' b => Lists Q g' (k b)

theorem listAct_mono {β : Type} {a : Act β} {g : LMode} {Φ Ψ : LMode → β → Prop} (h : ∀ g b, Φ g b → Ψ g b)
    (hr : ListAct g a Φ) : ListAct g a Ψ := by
  cases a
  case rlock m =>
    cases m
    · exact hr.elim
    · exact ⟨hr.1, h _ _ hr.2⟩
  case alKeys => exact ⟨hr.1, fun s ks hk => h _ _ (hr.2 s ks hk)⟩
  case alGet k => exact hr.imp fun _ hr => ⟨hr.1, h _ _ hr.2⟩
  case runlock m =>
    cases m
    · exact hr.elim
    · exact hr.imp fun _ hr => ⟨hr.1, h _ _ hr.2⟩
  all_goals exact hr.elim

theorem lists_bind {α β : Type} {Q : LMode → β → Prop} {f : α → Prog β} : ∀ {q : Prog α} {g : LMode},
    Lists (fun g' a => Lists Q g' (f a)) g q → Lists Q g (q >>= f)
  | .ret _, _, h => h
  | .crash _, _, _ => trivial
  | .act _ _, _, h => listAct_mono (fun _ _ h => lists_bind h) h

theorem lists_rows {s : Shared} : ∀ (ks : List Name), (∀ k ∈ ks, k ∈ s.aliases.keys) → ∀ {Q : LMode → List (Name × SliceRef) → Prop},
    (∀ rows, rows.map (·.1) = ks → (∀ e ∈ rows, s.aliases.get e.1 = some e.2) → Q (.keys s) rows) → Lists Q (.keys s) (Repo.listRows ks)
  | [], _, Q, hQ => hQ [] rfl fun _ h => nomatch h
  | k :: ks, hk, Q, hQ => by
    refine ⟨s, rfl, ?_⟩
    obtain ⟨v, hv⟩ := (GoMap.mem_keys_iff _ _).1 (hk k List.mem_cons_self)
    rw [hv]
    refine lists_bind (q := Repo.listRows ks) (lists_rows ks (fun k' h => hk k' (List.mem_cons_of_mem _ h)) fun rows h1 h2 => ?_)
    refine hQ _ (by rw [List.map_cons, h1]) fun e he => ?_
    rcases List.mem_cons.1 he with rfl | he
    · exact hv
    · exact h2 e he

/-- What a `ListAliases` has done when it is over. -/
def ListDone (g : LMode) (r : Ret) : Prop := ∃ s rows, g = .done s ∧ r = .rows rows ∧ RowsOf rows s

theorem lists_op : Lists ListDone .start (Op.listAliases.prog cfg) := by
  refine ⟨rfl, rfl, fun s ks hp => ?_⟩
  refine lists_bind (q := Repo.listRows ks >>= _) (lists_bind (lists_rows ks (fun k hk => hp.mem_iff.1 hk) fun rows h1 h2 => ?_))
  exact ⟨s, rfl, s, rows, rfl, rfl, by rw [h1]; exact hp, h2⟩

def LModeOk (cfg : Cfg) (t : Tid) (c : Config) (h : Held) : LMode → Prop
  | .start => True
  | .locked => h.amu = .read
  | .keys s => h.amu = .read ∧ c.sh.aliases = s.aliases ∧ Meanwhile cfg t c s
  | .done s => Meanwhile cfg t c s

structure ListInv (cfg : Cfg) (t : Tid) (c : Config) (H : Tid → Held) (g : LMode) : Prop where
  prog : ∀ x, c.calls[t]? = some x → Lists ListDone g x.prog
  mode : LModeOk cfg t c (H t) g
  fresh : c.calls.length ≤ t → g = .start

theorem listInv_own {t : Tid} {s s' : Shared} {calls : List Thread} {h : Held} {g : LMode} {op : Op} {o : Oracle} {β : Type}
    {a : Act β} {k : β → Prog Ret} {b : β} (hr : ConcReachable cfg ⟨s, calls⟩) (hx : calls[t]? = some ⟨op, o, .act a k⟩)
    (he : exec cfg o t a s = .ok b s') (hm : LModeOk cfg t ⟨s, calls⟩ h g) (hp : Lists ListDone g (.act a k)) :
    ∃ g', Lists ListDone g' (k b) ∧ LModeOk cfg t ⟨s', calls.set t ⟨op, o, k b⟩⟩ (h.after a) g' := by
  have hst : Step cfg ⟨s, calls⟩ ⟨s', calls.set t ⟨op, o, k b⟩⟩ := .move t (.act hx he)
  have hnow : Meanwhile cfg t ⟨s', calls.set t ⟨op, o, k b⟩⟩ s := ⟨_, _, hr, .tail (.refl _) hst, hx, trivial, rfl⟩
  cases a
  case rlock m =>
    cases m
    · exact hp.elim
    · exact ⟨.locked, hp.2, rfl⟩
  case alKeys =>
    obtain ⟨rfl, h2⟩ := hp
    cases he
    exact ⟨.keys s, h2 s _ (choosePerm_perm _ _), hm, rfl, hnow⟩
  case alGet k' =>
    obtain ⟨s1, rfl, h2⟩ := hp
    cases he
    obtain ⟨m1, m2, m3⟩ := hm
    have m2 : s.aliases = s1.aliases := m2
    rw [← m2] at h2
    exact ⟨_, h2, m1, m2, m3.step hst⟩
  case runlock m =>
    cases m
    · exact hp.elim
    · obtain ⟨s1, rfl, h2⟩ := hp
      exact ⟨.done s1, h2, hm.2.2.step hst⟩
  all_goals exact hp.elim

theorem LModeOk.other {t u : Tid} {c c' : Config} {H : Tid → Held} (i : LockInv c H) (hs : TStep cfg u c c') {g : LMode}
    (h : LModeOk cfg t c (H t) g) : LModeOk cfg t c' (H t) g := by
  have hst : Step cfg c c' := .move u hs
  cases g with
  | start => trivial
  | locked => exact h
  | done s => exact h.step hst
  | keys s =>
    refine ⟨h.1, ?_, h.2.2.step hst⟩
    rw [← h.2.1]
    cases hs with
    | crash => rfl
    | act hx he =>
      have n2 := reader_excludes i (m := .aliases) (u := u) h.1
      exact (exec_frame he).2.1 fun hw => n2 ((good_locks (i.good u _ hx)).2.1 hw)

theorem listInv_step {t : Tid} {c c' : Config} {H : Tid → Held} {g : LMode} (hr : ConcReachable cfg c) (i : LockInv c H)
    (hop : ∀ y, c'.calls[t]? = some y → y.op = .listAliases) (hs : Step cfg c c') (v : ListInv cfg t c H g) :
    ∃ H' g', LockInv c' H' ∧ ListInv cfg t c' H' g' := by
  have hs0 := hs
  cases hs with
  | invoke op o =>
    refine ⟨H, g, lockInv_invoke i op o, ⟨fun x hx => ?_, ?_, fun h => v.fresh ?_⟩⟩
    · simp only at hx
      by_cases hlt : t < c.calls.length
      · rw [List.getElem?_append_left hlt] at hx
        exact v.prog x hx
      · have ho := hop x hx
        rw [List.getElem?_append_right (Nat.le_of_not_lt hlt)] at hx
        rw [v.fresh (Nat.le_of_not_lt hlt)]
        cases hj : t - c.calls.length with
        | zero =>
          rw [hj] at hx
          cases hx
          have ho : op = .listAliases := ho
          rw [ho]
          exact lists_op (cfg := cfg)
        | succ j => rw [hj] at hx; cases hx
    · have := v.mode
      cases g with
      | start => trivial
      | locked => exact this
      | keys s => exact ⟨this.1, this.2.1, this.2.2.step hs0⟩
      | done s => exact this.step hs0
    · simp only [List.length_append] at h
      exact Nat.le_trans (Nat.le_add_right _ _) h
  | move u hm =>
    have hm0 := hm
    cases hm with
    | @act s s' calls op o β a k b h he =>
      obtain ⟨dd, hd⟩ := (i.good u _ h).allowed
      have i' := lockInv_act i h hd he
      by_cases hut : u = t
      · subst hut
        obtain ⟨g', h1, h2⟩ := listInv_own hr h he v.mode (v.prog _ h)
        refine ⟨_, g', i', ⟨fun x hx => ?_, by rw [setH_same]; exact h2, fun hl => ?_⟩⟩
        · rw [List.getElem?_set_self (List.getElem?_eq_some_iff.1 h).1] at hx
          cases hx; exact h1
        · simp only [List.length_set] at hl
          exact absurd (List.getElem?_eq_some_iff.1 h).1 (Nat.not_lt.2 hl)
      · refine ⟨_, g, i', ⟨fun x hx => ?_, ?_, fun h => v.fresh (by simpa using h)⟩⟩
        · simp only at hx
          rw [List.getElem?_set_ne hut] at hx
          exact v.prog x hx
        · rw [setH_other _ _ (Ne.symm hut)]
          exact v.mode.other i hm0
    | @crash s calls op o β a k e h he =>
      obtain ⟨dd, hd⟩ := (i.good u _ h).allowed
      refine ⟨H, g, lockInv_crash i h hd he, ⟨fun x hx => ?_, v.mode.other i hm0, fun h => v.fresh (by simpa using h)⟩⟩
      simp only at hx
      by_cases hut : u = t
      · subst hut
        rw [List.getElem?_set_self (List.getElem?_eq_some_iff.1 h).1] at hx
        cases hx
        trivial
      · rw [List.getElem?_set_ne hut] at hx
        exact v.prog x hx

theorem listInv_reachable {c : Config} (hr : ConcReachable cfg c) {t : Tid} (hop : ∀ y, c.calls[t]? = some y → y.op = .listAliases) :
    ∃ H g, LockInv c H ∧ ListInv cfg t c H g := by
  have key : ∀ c0, Steps cfg c0 c → c0 = Config.init → ConcReachable cfg c ∧ ∃ H g, LockInv c H ∧ ListInv cfg t c H g := by
    intro c0 hs
    induction hs with
    | refl =>
      intro e; subst e
      refine ⟨.refl _, _, .start, lockInv_init, ⟨fun x hx => ?_, trivial, fun _ => rfl⟩⟩
      simp [Config.init] at hx
    | @tail c1 c2 hpre hs ih =>
      intro e
      obtain ⟨hr1, H, g, i, v⟩ := ih (by subst e; exact hpre) (fun y hy => by
        obtain ⟨y', h1, h2, _⟩ := step_calls hs hy
        rw [← h2]; exact hop y' h1) e
      exact ⟨.tail hr1 hs, listInv_step hr1 i hop hs v⟩
  exact (key _ hr rfl).2

/-! ## Slices over many steps -/

theorem RenamedTo.mono {ops ops' : Op → Prop} (h : ∀ op, ops op → ops' op) {v w : Name} (hr : RenamedTo ops v w) : RenamedTo ops' v w := by
  induction hr with
  | refl => exact .refl _
  | rename _ hop ih => exact .rename ih (h _ hop)

theorem EntriesRenamed.mono {ops ops' : Op → Prop} (h : ∀ op, ops op → ops' op) {l l' : List Name} (he : EntriesRenamed ops l l') :
    EntriesRenamed ops' l l' := ⟨he.1, fun j v w hv hw => (he.2 j v w hv hw).mono h⟩

theorem EntriesRenamed.refl (ops : Op → Prop) (l : List Name) : EntriesRenamed ops l l :=
  ⟨rfl, fun j v w hv hw => by rw [hv] at hw; cases hw; exact .refl _⟩

theorem since_step {c c1 c2 : Config} (hs : Step cfg c1 c2) {op : Op} (h : c.since c1 op) : c.since c2 op := by
  obtain ⟨u, x, h1, h2, h3⟩ := h
  obtain ⟨x', g1, g2, _⟩ := step_calls hs h1
  exact ⟨u, x', g1, g2.trans h2, h3⟩

/-- A call under way in `c1` is since `c`. -/
theorem since_running {c c1 c2 : Config} (h01 : Steps cfg c c1) (hs : Step cfg c1 c2) {u : Tid} {x : Thread} (hx : c1.calls[u]? = some x)
    (hr : x.running) : c.since c2 x.op := by
  obtain ⟨x', g1, g2, _⟩ := step_calls hs hx
  exact ⟨u, x', g1, g2, fun y hy => (steps_running h01 hy hx).2 hr⟩

theorem EntriesRenamed.step {c c1 c2 : Config} {l : List Name} {q : SliceRef} (h01 : Steps cfg c c1) (hs : Step cfg c1 c2)
    (h : EntriesRenamed (c.since c1) l (c1.sh.elems q)) (hq : StepRewrites c1 c2 q) :
    EntriesRenamed (c.since c2) l (c2.sh.elems q) := by
  rcases hq with e | ⟨u, x, old, new, i, h1, hrun, h2, h3, h4⟩
  · rw [e]
    exact h.mono fun _ => since_step hs
  · rw [h4]
    refine ⟨by rw [List.length_set]; exact h.1, fun j v w hv hw => ?_⟩
    by_cases hij : i = j
    · subst hij
      rw [List.getElem?_set_self (List.getElem?_eq_some_iff.1 h3).1] at hw
      cases hw
      exact .rename ((h.2 i v old hv h3).mono fun _ => since_step hs) (h2 ▸ since_running h01 hs h1 hrun)
    · rw [List.getElem?_set_ne hij] at hw
      exact (h.2 j v w hv hw).mono fun _ => since_step hs

theorem rowsInv_entries {c c' : Config} {H : Tid → Held} {G : Tid → SMode} {P : SliceRef → Prop} (i : LockInv c H) (v : RowsInv c H G P)
    (hs : Steps cfg c c') {q : SliceRef} (hq : P q) : EntriesRenamed (c.since c') (c.sh.elems q) (c'.sh.elems q) ∧
      ∃ H' G' P', LockInv c' H' ∧ RowsInv c' H' G' P' ∧ P' q := by
  induction hs with
  | refl => exact ⟨.refl _ _, H, G, P, i, v, hq⟩
  | tail h01 hs ih =>
    obtain ⟨h1, H1, G1, P1, i1, v1, hq1⟩ := ih
    obtain ⟨H2, G2, P2, i2, v2, m2, w2⟩ := rowsInv_step i1 v1 hs
    exact ⟨h1.step h01 hs (w2 q hq1), H2, G2, P2, i2, v2, m2 q hq1⟩

theorem renamedTo_none {ops : Op → Prop} (h : ∀ op, ops op → op.isRename = false) {v w : Name} (hr : RenamedTo ops v w) : w = v := by
  cases hr with
  | refl => rfl
  | rename _ hop => exact absurd (h _ hop) (by simp [Op.isRename])

theorem entries_none {ops : Op → Prop} (h : ∀ op, ops op → op.isRename = false) {l l' : List Name} (he : EntriesRenamed ops l l') : l' = l := by
  apply List.ext_getElem he.1
  intro j h1 h2
  exact renamedTo_none h (he.2 j _ _ (List.getElem?_eq_getElem h2) (List.getElem?_eq_getElem h1))

end Visigoth
