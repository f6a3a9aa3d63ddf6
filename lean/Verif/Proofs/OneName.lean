import Verif.Proofs.Snapshot
/-!
# In every execution, every index has one name at most when no `Rename` is under way
-/
namespace Visigoth

variable {cfg : Cfg}

/-- No two names have the same index. -/
def Inj (m : GoMap Name Ptr) : Prop := ∀ n n' p, m.get n = some p → m.get n' = some p → n = n'

theorem inj_delete {m : GoMap Name Ptr} (h : Inj m) (k : Name) : Inj (m.delete k) := by
  intro n n' p hn hn'
  rw [GoMap.get_delete] at hn hn'
  split at hn
  · cases hn
  · split at hn'
    · cases hn'
    · exact h n n' p hn hn'

/-- A new index. -/
theorem inj_set {m : GoMap Name Ptr} (h : Inj m) (k : Name) {p : Ptr} (hp : ∀ n, m.get n ≠ some p) : Inj (m.set k p) := by
  intro n n' q hn hn'
  rw [GoMap.get_set] at hn hn'
  split at hn <;> split at hn'
  · next h1 h2 => rw [← h1, ← h2]
  · cases hn; exact absurd hn' (hp n')
  · cases hn'; exact absurd hn (hp n)
  · exact h n n' q hn hn'

/-- A second name, and the first one removed. -/
theorem inj_move {m : GoMap Name Ptr} (h : Inj m) {old : Name} (new : Name) {p : Ptr} (hp : m.get old = some p) :
    Inj ((m.set new p).delete old) := by
  intro n n' q hn hn'
  rw [GoMap.get_delete, GoMap.get_set] at hn hn'
  split at hn
  · cases hn
  · next e1 =>
    split at hn'
    · cases hn'
    · next e2 =>
      split at hn <;> split at hn'
      · next h1 h2 => rw [← h1, ← h2]
      · cases hn; exact absurd (h old n' p hp hn') e2
      · cases hn'; exact absurd (h old n p hp hn) e1
      · exact h n n' q hn hn'

/-- What is known about a running call. -/
inductive NMode
  | none
  /-- the index mutex is held exclusively, and every index has one name -/
  | wr
  /-- … and this name has this index -/
  | has (n : Name) (p : Ptr)
  /-- … and no name has this index -/
  | fresh (p : Ptr)
  /-- the index mutex is held exclusively, and every index has one name, apart from this one -/
  | moved (n : Name)

def NMode.isMoved : NMode → Bool
  | .moved _ => true
  | _ => false

/-- One action of a call. -/
def NamAct (g : NMode) {β : Type} : Act β → (NMode → β → Prop) → Prop
  | .acquire .indices, Φ => g = .none ∧ Φ .wr ()
  | .unlock .indices, Φ => g.isMoved = false ∧ Φ .none ()
  | .rlock .indices, Φ | .runlock .indices, Φ | .announce .indices, Φ => g = .none ∧ Φ .none ()
  | .idxGet n, Φ =>
    match g with
    | .none => ∀ v, Φ .none v
    | .moved _ => False
    | _ => Φ .wr Option.none ∧ ∀ p, Φ (.has n p) (some p)
  | .newIndex _, Φ => g = .wr ∧ ∀ p, Φ (.fresh p) p
  | .idxSet _ p, Φ => (g = .fresh p ∧ Φ .wr ()) ∨ ∃ m, g = .has m p ∧ Φ (.moved m) ()
  | .idxDel m, Φ => (g = .wr ∨ g = .moved m) ∧ Φ .wr ()
  | _, Φ => g.isMoved = false ∧ ∀ b, Φ g b

def Nam {α : Type} (Q : NMode → α → Prop) : NMode → Prog α → Prop
  | g, .ret a => Q g a
  | g, .crash _ => g.isMoved = false
  | g, .act a k => NamAct g a fun g' b => Nam Q g' (k b)

theorem namAct_mono {β : Type} {a : Act β} {g : NMode} {Φ Ψ : NMode → β → Prop} (h : ∀ g b, Φ g b → Ψ g b)
    (hr : NamAct g a Φ) : NamAct g a Ψ := by
  cases a
  case acquire m => cases m <;> exact ⟨hr.1, by first | exact h _ _ hr.2 | exact fun b => h _ _ (hr.2 b)⟩
  case unlock m => cases m <;> exact ⟨hr.1, by first | exact h _ _ hr.2 | exact fun b => h _ _ (hr.2 b)⟩
  case rlock m => cases m <;> exact ⟨hr.1, by first | exact h _ _ hr.2 | exact fun b => h _ _ (hr.2 b)⟩
  case runlock m => cases m <;> exact ⟨hr.1, by first | exact h _ _ hr.2 | exact fun b => h _ _ (hr.2 b)⟩
  case announce m => cases m <;> exact ⟨hr.1, by first | exact h _ _ hr.2 | exact fun b => h _ _ (hr.2 b)⟩
  case idxGet n =>
    cases g with
    | none => exact fun v => h _ _ (hr v)
    | moved _ => exact hr
    | wr => exact ⟨h _ _ hr.1, fun p => h _ _ (hr.2 p)⟩
    | has _ _ => exact ⟨h _ _ hr.1, fun p => h _ _ (hr.2 p)⟩
    | fresh _ => exact ⟨h _ _ hr.1, fun p => h _ _ (hr.2 p)⟩
  case newIndex n => exact ⟨hr.1, fun p => h _ _ (hr.2 p)⟩
  case idxSet n p =>
    rcases hr with ⟨h1, h2⟩ | ⟨m, h1, h2⟩
    · exact .inl ⟨h1, h _ _ h2⟩
    · exact .inr ⟨m, h1, h _ _ h2⟩
  case idxDel m => exact ⟨hr.1, h _ _ hr.2⟩
  all_goals exact ⟨hr.1, fun b => h _ _ (hr.2 b)⟩

theorem nam_bind {α β : Type} {Q : NMode → β → Prop} {f : α → Prog β} : ∀ {q : Prog α} {g : NMode},
    Nam (fun g' a => Nam Q g' (f a)) g q → Nam Q g (q >>= f)
  | .ret _, _, h => h
  | .crash _, _, h => h
  | .act _ k, _, h => namAct_mono (fun _ b hb => nam_bind (q := k b) hb) h

theorem nam_mono {α : Type} {Q Q' : NMode → α → Prop} (hQ : ∀ g a, Q g a → Q' g a) : ∀ {q : Prog α} {g : NMode},
    Nam Q g q → Nam Q' g q
  | .ret _, _, h => hQ _ _ h
  | .crash _, _, h => h
  | .act _ _, _, h => namAct_mono (fun _ _ hb => nam_mono hQ hb) h

/-- Actions that leave the index table and its mutex alone; with `b`, those that read the table are allowed. -/
def Act.mild (b : Bool) {β : Type} : Act β → Bool
  | .acquire .indices | .unlock .indices | .announce .indices | .idxSet .. | .idxDel _ | .newIndex _ => false
  | .rlock .indices | .runlock .indices | .idxGet _ => b
  | _ => true

def Mild {α : Type} (b : Bool) : Prog α → Prop
  | .ret _ => True
  | .crash _ => True
  | .act a k => a.mild b = true ∧ ∀ v, Mild b (k v)

theorem mild_bind {α β : Type} {b : Bool} {p : Prog α} {f : α → Prog β} (h : Mild b p) (hf : ∀ a, Mild b (f a)) : Mild b (p >>= f) := by
  show Mild b (p.bind f)
  induction p with
  | ret a => exact hf a
  | crash e => trivial
  | act a k ih => exact ⟨h.1, fun v => ih v (h.2 v)⟩

theorem mild_nam {α : Type} {b : Bool} {g : NMode} (hg : g.isMoved = false) (hb : b = true → g = .none) :
    ∀ {p : Prog α}, Mild b p → Nam (fun g' _ => g' = g) g p
  | .ret _, _ => rfl
  | .crash _, _ => hg
  | .act a k, h => by
    have ih := fun v => mild_nam hg hb (h.2 v)
    have h1 := h.1
    cases a
    case acquire m =>
      cases m with
      | indices => cases h1
      | aliases => exact ⟨hg, fun v => ih v⟩
    case unlock m =>
      cases m with
      | indices => cases h1
      | aliases => exact ⟨hg, fun v => ih v⟩
    case announce m =>
      cases m with
      | indices => cases h1
      | aliases => exact ⟨hg, fun v => ih v⟩
    case rlock m =>
      cases m with
      | indices => have e := hb h1; subst e; exact ⟨rfl, ih ()⟩
      | aliases => exact ⟨hg, fun v => ih v⟩
    case runlock m =>
      cases m with
      | indices => have e := hb h1; subst e; exact ⟨rfl, ih ()⟩
      | aliases => exact ⟨hg, fun v => ih v⟩
    case idxGet n => have e := hb h1; subst e; exact fun v => ih v
    case idxSet => cases h1
    case idxDel => cases h1
    case newIndex => cases h1
    all_goals exact ⟨hg, fun v => ih v⟩

/-! ## The programs -/

theorem mild_readFrom {b : Bool} {r : SliceRef} : ∀ k i, Mild b (Repo.readFrom r i k)
  | 0, _ => trivial
  | k + 1, i => ⟨rfl, fun _ => mild_bind (p := Repo.readFrom r (i + 1) k) (mild_readFrom k (i + 1)) fun _ => trivial⟩

theorem mild_sliceHas {b : Bool} {r : SliceRef} {x : Name} : ∀ k i, Mild b (Repo.sliceHas r x i k)
  | 0, _ => trivial
  | k + 1, i => ⟨rfl, fun v => by
    show Mild b (if v = x then _ else _)
    split
    · trivial
    · exact mild_sliceHas k (i + 1)⟩

theorem mild_renameSlice {b : Bool} {r : SliceRef} {old new : Name} : ∀ k i, Mild b (Repo.renameSlice r old new i k)
  | 0, _ => trivial
  | k + 1, i => ⟨rfl, fun v => by
    show Mild b (if v = old then _ else _)
    split
    · exact ⟨rfl, fun _ => mild_renameSlice k (i + 1)⟩
    · exact mild_renameSlice k (i + 1)⟩

theorem mild_renameAliases {b : Bool} {old new : Name} : ∀ ks, Mild b (Repo.renameAliases old new ks)
  | [] => trivial
  | k :: ks => ⟨rfl, fun v => by
    cases v with
    | none => exact mild_renameAliases ks
    | some r => exact mild_bind (p := Repo.renameSlice r old new 0 r.len) (mild_renameSlice _ _) fun _ => mild_renameAliases ks⟩

theorem mild_resolveFrom {r : SliceRef} : ∀ k i, Mild true (Repo.resolveFrom r i k)
  | 0, _ => trivial
  | k + 1, i => ⟨rfl, fun _ => ⟨rfl, fun _ => mild_bind (p := Repo.resolveFrom r (i + 1) k) (mild_resolveFrom k (i + 1)) fun _ => trivial⟩⟩

theorem mild_searchIndex {b : Bool} {p : Ptr} {ts : Str} {e : Engine} : Mild b (Repo.searchIndex p ts e) :=
  ⟨rfl, fun v => by cases v <;> trivial⟩

theorem mild_searchAll {b : Bool} {ts : Str} {e : Engine} : ∀ ps, Mild b (Repo.searchAll ts e ps)
  | [] => trivial
  | _ :: ps => mild_bind mild_searchIndex fun _ => mild_bind (mild_searchAll ps) fun _ => trivial

theorem mild_searchTargets {b : Bool} {l : List (Option Ptr)} {ts : Str} {e : Engine} : Mild b (Repo.searchTargets l ts e) := by
  unfold Repo.searchTargets
  split
  · trivial
  · exact mild_searchIndex
  · exact ⟨rfl, fun ps => mild_searchAll ps⟩

theorem mild_putPostings {b : Bool} {p : Ptr} {i : Nat} : ∀ toks, Mild b (Repo.putPostings p i toks)
  | [] => trivial
  | _ :: toks => ⟨rfl, fun _ => mild_putPostings toks⟩

theorem mild_putIndex {b : Bool} {p : Ptr} {d : DocRequest} : Mild b (Repo.putIndex cfg p d) := ⟨rfl, fun _ => mild_putPostings _⟩

theorem mild_putAll {b : Bool} {d : DocRequest} : ∀ ps, Mild b (Repo.putAll cfg d ps)
  | [] => trivial
  | _ :: ps => mild_bind mild_putIndex fun _ => mild_putAll ps

theorem mild_putTargets {b : Bool} {l : List (Option Ptr)} {d : DocRequest} : Mild b (Repo.putTargets cfg l d) := by
  unfold Repo.putTargets
  split
  · trivial
  · split
    · exact ⟨rfl, fun ps => mild_putAll ps⟩
    · trivial

theorem mild_dropAliases {b : Bool} {n : Name} : ∀ ks, Mild b (Repo.dropAliases n ks)
  | [] => trivial
  | k :: ks => ⟨rfl, fun v => by
    cases v with
    | none => exact mild_dropAliases ks
    | some r =>
      refine mild_bind (p := Repo.readSlice r) (mild_readFrom _ _) fun xs => ?_
      dsimp only
      split
      · exact ⟨rfl, fun _ => mild_dropAliases ks⟩
      · split
        · exact ⟨rfl, fun _ => ⟨rfl, fun _ => mild_dropAliases ks⟩⟩
        · exact mild_dropAliases ks⟩

theorem mild_listRows {b : Bool} : ∀ ks, Mild b (Repo.listRows ks)
  | [] => trivial
  | _ :: ks => ⟨rfl, fun v => by
    cases v with
    | none => exact mild_listRows ks
    | some r => exact mild_bind (p := Repo.listRows ks) (mild_listRows ks) fun _ => trivial⟩

theorem mild_renderAll : ∀ ks, Mild true (Repo.renderAll ks)
  | [] => trivial
  | _ :: ks => ⟨rfl, fun v => by
    cases v with
    | none => exact mild_renderAll ks
    | some p => exact ⟨rfl, fun _ => mild_bind (p := Repo.renderAll ks) (mild_renderAll ks) fun _ => trivial⟩⟩

theorem mild_getIndices {n : Name} : Mild true (Repo.getIndices n) := by
  refine ⟨rfl, fun _ => ⟨rfl, fun v => ?_⟩⟩
  cases v with
  | some p => exact ⟨rfl, fun _ => trivial⟩
  | none =>
    refine ⟨rfl, fun _ => ⟨rfl, fun v => ?_⟩⟩
    cases v with
    | none => exact ⟨rfl, fun _ => ⟨rfl, fun _ => trivial⟩⟩
    | some r => exact mild_bind (p := Repo.resolveFrom r 0 r.len) (mild_resolveFrom _ _) fun _ => ⟨rfl, fun _ => ⟨rfl, fun _ => trivial⟩⟩

theorem mild_search {n : Name} {ts : Str} {e : Engine} : Mild true (Repo.search n ts e) := by
  refine ⟨rfl, fun _ => ⟨rfl, fun v => ?_⟩⟩
  cases v with
  | some p => exact mild_bind (p := Repo.searchTargets [some p] ts e) mild_searchTargets fun _ => ⟨rfl, fun _ => trivial⟩
  | none =>
    refine ⟨rfl, fun _ => ⟨rfl, fun v => ?_⟩⟩
    cases v with
    | none => exact ⟨rfl, fun _ => ⟨rfl, fun _ => trivial⟩⟩
    | some r =>
      exact mild_bind (p := Repo.resolveFrom r 0 r.len) (mild_resolveFrom _ _) fun l => ⟨rfl, fun _ =>
        mild_bind (p := Repo.searchTargets l ts e) mild_searchTargets fun _ => ⟨rfl, fun _ => trivial⟩⟩

theorem mild_alias {al i : Name} : Mild true (Repo.alias al i) := by
  refine ⟨rfl, fun _ => ⟨rfl, fun v => ?_⟩⟩
  cases v with
  | none => exact ⟨rfl, fun _ => trivial⟩
  | some p =>
    refine ⟨rfl, fun _ => ⟨rfl, fun _ => ⟨rfl, fun v => ?_⟩⟩⟩
    cases v with
    | none => exact ⟨rfl, fun _ => ⟨rfl, fun _ => ⟨rfl, fun _ => ⟨rfl, fun _ => trivial⟩⟩⟩⟩
    | some r =>
      refine mild_bind (p := Repo.sliceHas r i 0 r.len) (mild_sliceHas _ _) fun v => ?_
      cases v with
      | true => exact ⟨rfl, fun _ => ⟨rfl, fun _ => trivial⟩⟩
      | false => exact ⟨rfl, fun _ => ⟨rfl, fun _ => ⟨rfl, fun _ => ⟨rfl, fun _ => trivial⟩⟩⟩⟩

theorem mild_unAlias {al i : Name} : Mild true (Repo.unAlias al i) := by
  unfold Repo.unAlias
  split
  · exact ⟨rfl, fun _ => ⟨rfl, fun _ => ⟨rfl, fun _ => ⟨rfl, fun _ => ⟨rfl, fun _ => trivial⟩⟩⟩⟩⟩
  · refine ⟨rfl, fun _ => ⟨rfl, fun v => ?_⟩⟩
    cases v with
    | none => trivial
    | some p =>
      refine ⟨rfl, fun _ => ⟨rfl, fun _ => ⟨rfl, fun _ => ⟨rfl, fun v => ?_⟩⟩⟩⟩
      cases v with
      | none => trivial
      | some r =>
        refine mild_bind (p := Repo.readSlice r) (mild_readFrom _ _) fun xs => ?_
        dsimp only
        split
        · exact ⟨rfl, fun _ => ⟨rfl, fun _ => ⟨rfl, fun _ => trivial⟩⟩⟩
        · exact ⟨rfl, fun _ => trivial⟩

/-- Nothing special at the end. -/
def endNam {α : Type} : NMode → α → Prop := fun g _ => g.isMoved = false

theorem mild_end {α : Type} {p : Prog α} (h : Mild true p) : Nam endNam .none p :=
  nam_mono (by rintro _ _ rfl; rfl) (mild_nam (g := .none) rfl (fun _ => rfl) h)

theorem nam_put {n : Name} {d : DocRequest} : Nam endNam .none (Repo.put cfg n d) := by
  refine nam_bind (nam_mono ?_ (mild_nam (g := .none) rfl (fun _ => rfl) mild_getIndices))
  rintro _ r rfl
  refine ⟨rfl, rfl, ?_⟩
  cases r with
  | none =>
    refine ⟨rfl, fun p => .inl ⟨rfl, ?_⟩⟩
    exact nam_bind (q := Repo.putIndex cfg p d) (nam_mono (by rintro _ _ rfl; exact ⟨rfl, rfl⟩)
      (mild_nam (b := false) (g := .wr) rfl (fun h => nomatch h) mild_putIndex))
  | some l =>
    exact nam_bind (q := Repo.putTargets cfg l d) (nam_mono (by rintro _ _ rfl; exact ⟨rfl, rfl⟩)
      (mild_nam (b := false) (g := .wr) rfl (fun h => nomatch h) mild_putTargets))

theorem nam_rename {old new : Name} : Nam endNam .none (Repo.rename old new) := by
  refine ⟨rfl, rfl, ⟨rfl, rfl⟩, fun p => ?_⟩
  refine .inr ⟨old, rfl, .inr rfl, rfl, fun ks => ?_⟩
  exact nam_bind (q := Repo.renameAliases old new ks) (nam_mono (by rintro _ _ rfl; exact ⟨rfl, rfl⟩)
      (mild_nam (b := false) (g := .wr) rfl (fun h => nomatch h) (mild_renameAliases ks)))

theorem nam_drop {n : Name} : Nam endNam .none (Repo.drop n) := by
  refine ⟨rfl, fun v => ?_⟩
  cases v with
  | none => exact ⟨rfl, rfl⟩
  | some p =>
    refine ⟨rfl, rfl, rfl, rfl, fun _ => ⟨rfl, fun _ => ⟨rfl, fun ks => ?_⟩⟩⟩
    exact nam_bind (q := Repo.dropAliases n ks) (nam_mono (by
      rintro _ _ rfl; exact ⟨.inl rfl, rfl, rfl, fun _ => rfl⟩)
      (mild_nam (b := false) (g := .wr) rfl (fun h => nomatch h) (mild_dropAliases ks)))

theorem nam_op : ∀ op : Op, Nam endNam .none (op.prog cfg)
  | .list => mild_end ⟨rfl, fun _ => ⟨rfl, fun _ => ⟨rfl, fun _ => trivial⟩⟩⟩
  | .listAliases => mild_end ⟨rfl, fun _ => ⟨rfl, fun ks => mild_bind (p := Repo.listRows ks >>= _)
      (mild_bind (mild_listRows ks) fun _ => ⟨rfl, fun _ => trivial⟩) fun _ => trivial⟩⟩
  | .has n => mild_end ⟨rfl, fun _ => ⟨rfl, fun _ => ⟨rfl, fun _ => trivial⟩⟩⟩
  | .hasAlias n => mild_end ⟨rfl, fun _ => ⟨rfl, fun _ => ⟨rfl, fun _ => trivial⟩⟩⟩
  | .alias al i => mild_end (mild_bind mild_alias fun _ => trivial)
  | .unAlias al i => mild_end (mild_bind mild_unAlias fun _ => trivial)
  | .put n d => nam_bind (nam_mono (fun _ _ h => h) nam_put)
  | .search n ts e => mild_end (mild_bind mild_search fun r => by cases r <;> trivial)
  | .rename old new => nam_bind (nam_mono (fun _ _ h => h) nam_rename)
  | .drop n => nam_bind (nam_mono (fun _ _ h => h) nam_drop)
  | .string => mild_end ⟨rfl, fun _ => ⟨rfl, fun ks => mild_bind (p := Repo.renderAll ks >>= _)
      (mild_bind (mild_renderAll ks) fun _ => ⟨rfl, fun _ => trivial⟩) fun _ => trivial⟩⟩

/-! ## The invariant -/

/-- What holds in each mode. -/
def NModeOk (s : Shared) (h : Held) : NMode → Prop
  | .none => True
  | .wr => h.imu = .write ∧ Inj s.indices
  | .has n p => h.imu = .write ∧ Inj s.indices ∧ s.indices.get n = some p
  | .fresh p => h.imu = .write ∧ Inj s.indices ∧ p < s.heap.length ∧ ∀ n, s.indices.get n ≠ some p
  | .moved n => h.imu = .write ∧ Inj (s.indices.delete n)

/-- The table of the indices. -/
structure NamesOk (s : Shared) : Prop where
  nodup : s.indices.keys.Nodup
  bound : ∀ n p, s.indices.get n = some p → p < s.heap.length

/-- The effect of an action of a call. -/
structure NamStep (h h' : Held) (g g' : NMode) (s s' : Shared) : Prop where
  names : NamesOk s'
  mode : NModeOk s' h' g'
  heap : s.heap.length ≤ s'.heap.length
  same : s'.indices = s.indices ∨ (h.imu = .write ∧ (g'.isMoved = false → Inj s'.indices))
  keep : g'.isMoved = false → g.isMoved = false ∨ Inj s'.indices

theorem exec_heapLen {o : Oracle} {t : Tid} {β : Type} {a : Act β} {s s' : Shared} {b : β} (he : exec cfg o t a s = .ok b s') :
    s.heap.length ≤ s'.heap.length := by
  cases a <;> simp only [exec] at he <;> (repeat' split at he) <;>
    first
      | (cases he; exact Nat.le_refl _)
      | (cases he; rename_i m _; cases m <;> exact Nat.le_refl _)
      | (cases he; rename_i m _ _; cases m <;> exact Nat.le_refl _)
      | (injection he with _ he; subst he; simp only [List.length_append, List.length_set]; omega)
      | exact nomatch he

theorem nam_own {o : Oracle} {t : Tid} {β : Type} {a : Act β} {s s' : Shared} {b : β} {h : Held} {g : NMode}
    {Φ : NMode → β → Prop} (he : exec cfg o t a s = .ok b s') (hN : NamesOk s) (hm : NModeOk s h g)
    (hacq : a.acquires = some .indices → Inj s.indices) (hw : NamAct g a Φ) :
    ∃ g', Φ g' b ∧ NamStep h (h.after a) g g' s s' := by
  have hh := exec_heapLen he
  obtain ⟨f1, f2, f3⟩ := exec_frame he
  have names : s'.indices = s.indices → NamesOk s' := fun e =>
    ⟨by rw [e]; exact hN.nodup, fun n p hp => Nat.lt_of_lt_of_le (hN.bound n p (by rw [← e]; exact hp)) hh⟩
  have quiet : ∀ g', s'.indices = s.indices → g.isMoved = false → NModeOk s' (h.after a) g' → Φ g' b →
      ∃ g', Φ g' b ∧ NamStep h (h.after a) g g' s s' := fun g' e hg h1 h2 =>
    ⟨g', h2, names e, h1, hh, .inl e, fun _ => .inl hg⟩
  have keep : (h.after a).imu = h.imu → s'.indices = s.indices → g.isMoved = false → Φ g b →
      ∃ g', Φ g' b ∧ NamStep h (h.after a) g g' s s' := by
    intro h0 e hg h1
    refine quiet g e hg ?_ h1
    cases g with
    | none => trivial
    | wr => exact ⟨h0 ▸ hm.1, e ▸ hm.2⟩
    | has n p => exact ⟨h0 ▸ hm.1, e ▸ hm.2.1, e ▸ hm.2.2⟩
    | fresh p => exact ⟨h0 ▸ hm.1, e ▸ hm.2.1, Nat.lt_of_lt_of_le hm.2.2.1 hh, e ▸ hm.2.2.2⟩
    | moved n => exact ⟨h0 ▸ hm.1, e ▸ hm.2⟩
  cases a
  case acquire m =>
    have e := f1 nofun
    cases m with
    | indices => obtain ⟨rfl, hw⟩ := hw; exact quiet .wr e rfl ⟨rfl, e ▸ hacq rfl⟩ hw
    | aliases => exact keep rfl e hw.1 (hw.2 _)
  case unlock m =>
    have e := f1 nofun
    cases m with
    | indices => exact quiet .none e hw.1 trivial hw.2
    | aliases => exact keep rfl e hw.1 (hw.2 _)
  case rlock m =>
    have e := f1 nofun
    cases m with
    | indices => obtain ⟨rfl, hw⟩ := hw; exact quiet .none e rfl trivial hw
    | aliases => exact keep rfl e hw.1 (hw.2 _)
  case runlock m =>
    have e := f1 nofun
    cases m with
    | indices => obtain ⟨rfl, hw⟩ := hw; exact quiet .none e rfl trivial hw
    | aliases => exact keep rfl e hw.1 (hw.2 _)
  case announce m =>
    have e := f1 nofun
    cases m with
    | indices => obtain ⟨rfl, hw⟩ := hw; exact quiet .none e rfl trivial hw
    | aliases => exact keep rfl e hw.1 (hw.2 _)
  case idxGet n =>
    cases he
    have key : h.imu = .write → Inj s.indices → g.isMoved = false → (Φ .wr none ∧ ∀ p, Φ (.has n p) (some p)) →
        ∃ g', Φ g' (s.indices.get n) ∧ NamStep h (h.after (.idxGet n)) g g' s s := by
      intro h1 h2 hg hw
      cases hp : s.indices.get n with
      | none => rw [hp] at quiet; exact quiet .wr rfl hg ⟨h1, h2⟩ hw.1
      | some p => rw [hp] at quiet; exact quiet (.has n p) rfl hg ⟨h1, h2, hp⟩ (hw.2 p)
    cases g with
    | none => exact quiet .none rfl rfl trivial (hw _)
    | moved _ => exact hw.elim
    | wr => exact key hm.1 hm.2 rfl hw
    | has _ _ => exact key hm.1 hm.2.1 rfl hw
    | fresh _ => exact key hm.1 hm.2.1 rfl hw
  case newIndex nm =>
    cases he
    obtain ⟨rfl, hw⟩ := hw
    refine quiet (.fresh _) rfl rfl ⟨hm.1, hm.2, ?_, fun n hn => ?_⟩ (hw _)
    · simp
    · exact absurd (hN.bound n _ hn) (Nat.lt_irrefl _)
  case idxSet n p =>
    cases he
    rcases hw with ⟨rfl, hw⟩ | ⟨m, rfl, hw⟩
    · have hi := inj_set hm.2.1 n hm.2.2.2
      refine ⟨.wr, hw, ⟨GoMap.nodup_set _ _ _ hN.nodup, fun k q hk => ?_⟩, ⟨hm.1, hi⟩, Nat.le_refl _, .inr ⟨hm.1, fun _ => hi⟩, fun _ => .inl rfl⟩
      simp only [GoMap.get_set] at hk
      split at hk
      · cases hk; exact hm.2.2.1
      · exact hN.bound k q hk
    · have hi := inj_move hm.2.1 n hm.2.2
      refine ⟨.moved m, hw, ⟨GoMap.nodup_set _ _ _ hN.nodup, fun k q hk => ?_⟩, ⟨hm.1, hi⟩, Nat.le_refl _, .inr ⟨hm.1, fun h => nomatch (h : true = false)⟩, fun h => nomatch (h : true = false)⟩
      simp only [GoMap.get_set] at hk
      split at hk
      · cases hk; exact hN.bound m p hm.2.2
      · exact hN.bound k q hk
  case idxDel m =>
    cases he
    have hi : h.imu = .write ∧ Inj (s.indices.delete m) := by
      rcases hw.1 with rfl | rfl
      · exact ⟨hm.1, inj_delete hm.2 m⟩
      · exact hm
    refine ⟨.wr, hw.2, ⟨GoMap.nodup_delete _ _ hN.nodup, fun k q hk => ?_⟩, hi, Nat.le_refl _, .inr ⟨hi.1, fun _ => hi.2⟩, fun _ => .inr hi.2⟩
    simp only [GoMap.get_delete] at hk
    split at hk
    · cases hk
    · exact hN.bound k q hk
  case docAppend p d =>
    refine keep rfl ?_ hw.1 (hw.2 _)
    simp only [exec] at he
    split at he <;> cases he
    rfl
  case postAdd p tk nx =>
    refine keep rfl ?_ hw.1 (hw.2 _)
    simp only [exec] at he
    split at he <;> cases he
    rfl
  all_goals exact keep rfl (f1 nofun) hw.1 (hw.2 _)

theorem NModeOk.other {h hu hu' : Held} {s s' : Shared} {g gu gu' : NMode} (hm : NModeOk s h g)
    (hs : NamStep hu hu' gu gu' s s') (ci : h.imu = .write → hu.imu ≠ .write) : NModeOk s' h g := by
  have e : h.imu = .write → s'.indices = s.indices := fun hw => hs.same.resolve_right fun hh => ci hw hh.1
  cases g with
  | none => trivial
  | wr => exact ⟨hm.1, by rw [e hm.1]; exact hm.2⟩
  | has n p => exact ⟨hm.1, by rw [e hm.1]; exact hm.2⟩
  | fresh p => exact ⟨hm.1, by rw [e hm.1]; exact ⟨hm.2.1, Nat.lt_of_lt_of_le hm.2.2.1 hs.heap, hm.2.2.2⟩⟩
  | moved n => exact ⟨hm.1, by rw [e hm.1]; exact hm.2⟩

structure NamInv (c : Config) (H : Tid → Held) (G : Tid → NMode) : Prop where
  prog : ∀ t x, c.calls[t]? = some x → Nam endNam (G t) x.prog
  mode : ∀ t, NModeOk c.sh (H t) (G t)
  names : NamesOk c.sh
  inj : (∀ t, (G t).isMoved = false) → Inj c.sh.indices
  fresh : ∀ t, c.calls.length ≤ t → G t = .none

theorem namInv_init : NamInv Config.init (fun _ => {}) (fun _ => .none) := by
  refine ⟨fun t x h => ?_, fun _ => trivial, ⟨?_, ?_⟩, ?_, fun _ _ => rfl⟩ <;> simp_all [Config.init, newIndexRepo, GoMap.keys, Inj]

theorem NModeOk.held {s : Shared} {h : Held} {g : NMode} (hm : NModeOk s h g) (hg : g.isMoved = true) : h.imu = .write := by
  cases g <;> first | exact hm.1 | cases hg

theorem namInv_step {c c' : Config} {H : Tid → Held} {G : Tid → NMode} (i : LockInv c H) (v : NamInv c H G)
    (hs : Step cfg c c') : ∃ H' G', LockInv c' H' ∧ NamInv c' H' G' := by
  cases hs with
  | invoke op o =>
    refine ⟨H, G, lockInv_invoke i op o, ⟨fun t x hx => ?_, v.mode, v.names, v.inj, fun t ht => v.fresh t ?_⟩⟩
    · simp only at hx
      by_cases hlt : t < c.calls.length
      · rw [List.getElem?_append_left hlt] at hx
        exact v.prog t x hx
      · rw [List.getElem?_append_right (Nat.le_of_not_lt hlt)] at hx
        rw [v.fresh t (Nat.le_of_not_lt hlt)]
        cases hj : t - c.calls.length with
        | zero =>
          rw [hj] at hx
          cases hx
          exact nam_op op
        | succ j => rw [hj] at hx; cases hx
    · simp only [List.length_append] at ht
      exact Nat.le_trans (Nat.le_add_right _ _) ht
  | move u hm =>
    cases hm with
    | @act s s' calls op o β a k b h he =>
      obtain ⟨dd, hd⟩ := (i.good u _ h).allowed
      have i' := lockInv_act i h hd he
      obtain ⟨g', hp, st⟩ := nam_own (h := H u) he v.names (v.mode u) (fun hacq => v.inj fun t => by
        cases hg : (G t).isMoved with
        | false => rfl
        | true => exact absurd ((v.mode t).held hg) (acquire_alone i hd hacq t)) (v.prog u _ h)
      refine ⟨_, fun t => if t = u then g' else G t, i', ⟨fun t x hx => ?_, fun t => ?_, st.names, fun hall => ?_, fun t ht => ?_⟩⟩
      · simp only at hx ⊢
        by_cases htu : t = u
        · subst htu
          rw [List.getElem?_set_self (List.getElem?_eq_some_iff.1 h).1] at hx
          cases hx
          rw [if_pos rfl]
          exact hp
        · rw [List.getElem?_set_ne (Ne.symm htu)] at hx
          rw [if_neg htu]
          exact v.prog t x hx
      · simp only
        by_cases htu : t = u
        · subst htu
          rw [setH_same, if_pos rfl]
          exact st.mode
        · rw [setH_other _ _ htu, if_neg htu]
          exact (v.mode t).other st (write_excl i htu .indices)
      · have hg' : g'.isMoved = false := by have := hall u; simpa using this
        rcases st.same with e | ⟨_, hi⟩
        · rcases st.keep hg' with hg | hi
          · show Inj s'.indices
            rw [e]
            refine v.inj fun t => ?_
            by_cases htu : t = u
            · rw [htu]; exact hg
            · have := hall t; simpa [htu] using this
          · exact hi
        · exact hi hg'
      · simp only [List.length_set] at ht
        have htu : t ≠ u := by
          intro e; subst e
          exact absurd (List.getElem?_eq_some_iff.1 h).1 (Nat.not_lt.2 ht)
        simp only [if_neg htu]
        exact v.fresh t ht
    | @crash s calls op o β a k e h he =>
      obtain ⟨dd, hd⟩ := (i.good u _ h).allowed
      refine ⟨H, G, lockInv_crash i h hd he, ⟨fun t x hx => ?_, v.mode, v.names, v.inj, fun t ht => v.fresh t (by simpa using ht)⟩⟩
      simp only at hx
      by_cases htu : t = u
      · subst htu
        rw [List.getElem?_set_self (List.getElem?_eq_some_iff.1 h).1] at hx
        cases hx
        show (G t).isMoved = false
        have hp := v.prog t _ h
        cases hg : G t with
        | moved n =>
          exfalso
          rw [hg] at hp
          cases a
          case idxDel m => cases he
          case idxSet m q => rcases hp with ⟨h1, _⟩ | ⟨_, h1, _⟩ <;> cases h1
          case idxGet m => exact hp
          case newIndex m => cases hp.1
          case acquire m => cases m <;> cases hp.1
          case unlock m => cases m <;> cases hp.1
          case rlock m => cases m <;> cases hp.1
          case runlock m => cases m <;> cases hp.1
          case announce m => cases m <;> cases hp.1
          all_goals cases hp.1
        | _ => rfl
      · rw [List.getElem?_set_ne (Ne.symm htu)] at hx
        exact v.prog t x hx

theorem namInv_reachable {c : Config} (hr : ConcReachable cfg c) : ∃ H G, LockInv c H ∧ NamInv c H G := by
  unfold ConcReachable at hr
  generalize hc : Config.init = c0 at hr
  induction hr with
  | refl => subst hc; exact ⟨_, _, lockInv_init, namInv_init⟩
  | tail _ hs ih =>
    obtain ⟨H, G, i, v⟩ := ih
    exact namInv_step i v hs

/-- In every state at rest, every index has one name at most. -/
theorem inj_quiet {c : Config} (hr : ConcReachable cfg c) (hq : c.quiet) : Inj c.sh.indices ∧ NamesOk c.sh := by
  obtain ⟨H, G, i, v⟩ := namInv_reachable hr
  refine ⟨v.inj fun t => ?_, v.names⟩
  by_cases hlt : t < c.calls.length
  · have hp := v.prog t _ (List.getElem?_eq_getElem hlt)
    have hn := hq _ (List.getElem_mem hlt)
    cases he : c.calls[t].prog with
    | ret r => rw [he] at hp; exact hp
    | crash e => rw [he] at hp; exact hp
    | act a k => exact absurd (by rw [Thread.running, he]; trivial) hn
  · rw [v.fresh t (Nat.le_of_not_lt hlt)]; rfl

end Visigoth
