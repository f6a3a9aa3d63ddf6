import Verif.Spec.Twins
import Verif.Props.NoInvalid
import Verif.Props.ConcData
/-!
# Two programs that do the same to the names

`Twin R p p'`: the programs make the same actions, except that the contents of indices may differ: the documents
put, the engines run, the number of tokens.  The right program adds all its tokens at once.
-/
namespace Visigoth

variable {cfg cfg' : Cfg}

/-- Actions that do not look at the contents of indices. -/
def Act.blind {β : Type} : Act β → Bool
  | .docAppend .. | .postAdd .. | .evalEngine .. | .render _ => false
  | _ => true

/-- `p` becomes `q` by adding tokens to indices. -/
inductive Drains {α : Type} : Prog α → Prog α → Prop where
  | refl (p : Prog α) : Drains p p
  | step {p : Ptr} {tok : Str} {next : Nat} {k : Unit → Prog α} {q : Prog α} (h : Drains (k ()) q) :
      Drains (.act (.postAdd p tok next) k) q

inductive Twin (cfg cfg' : Cfg) {α : Type} (R : α → α → Prop) : Prog α → Prog α → Prop where
  | ret {a a' : α} (h : R a a') : Twin cfg cfg' R (.ret a) (.ret a')
  | crash (e : Crash) : Twin cfg cfg' R (.crash e) (.crash e)
  | act {β : Type} {a : Act β} {k k' : β → Prog α} (hb : a.blind = true) (h : ∀ b, Twin cfg cfg' R (k b) (k' b)) :
      Twin cfg cfg' R (.act a k) (.act a k')
  | eval {p : Ptr} {ts ts' : Str} {e e' : Engine} {k k' : Option (List SearchResult) → Prog α}
      (he : EngineSafe cfg e) (he' : EngineSafe cfg' e') (h : ∀ b b', Twin cfg cfg' R (k (some b)) (k' (some b'))) :
      Twin cfg cfg' R (.act (.evalEngine p ts e) k) (.act (.evalEngine p ts' e') k')
  | render {p : Ptr} {k k' : Str → Prog α} (h : ∀ b b', Twin cfg cfg' R (k b) (k' b')) :
      Twin cfg cfg' R (.act (.render p) k) (.act (.render p) k')
  | doc {p : Ptr} {d d' : Doc} {k k' : Nat → Prog α} (q : Nat → Prog α) (hd : ∀ b', Drains (k' b') (q b'))
      (h : ∀ b b', Twin cfg cfg' R (k b) (q b')) :
      Twin cfg cfg' R (.act (.docAppend p d) k) (.act (.docAppend p d') k')
  | post {p : Ptr} {tok : Str} {next : Nat} {k : Unit → Prog α} {q : Prog α} (h : Twin cfg cfg' R (k ()) q) :
      Twin cfg cfg' R (.act (.postAdd p tok next) k) q

theorem drains_bind {α β : Type} {p q : Prog α} (h : Drains p q) (f : α → Prog β) : Drains (p >>= f) (q >>= f) := by
  induction h with
  | refl p => exact .refl _
  | step h ih => exact .step ih

theorem twin_bind {α β : Type} {P : α → α → Prop} {Q : β → β → Prop} {p p' : Prog α} {f f' : α → Prog β}
    (h : Twin cfg cfg' P p p') (hf : ∀ a a', P a a' → Twin cfg cfg' Q (f a) (f' a')) :
    Twin cfg cfg' Q (p >>= f) (p' >>= f') := by
  induction h with
  | ret h => exact hf _ _ h
  | crash e => exact .crash e
  | act hb h ih => exact .act hb ih
  | eval he he' h ih => exact .eval he he' ih
  | render h ih => exact .render ih
  | doc q hd h ih => exact .doc (fun b => q b >>= f') (fun b => drains_bind (hd b) f') ih
  | post h ih => exact .post ih

/-! ## The programs of the repository -/

/-- A program of blind actions only. -/
def Blind {α : Type} : Prog α → Prop
  | .ret _ => True
  | .crash _ => True
  | .act a k => a.blind = true ∧ ∀ b, Blind (k b)

theorem blind_bind {α β : Type} {p : Prog α} {f : α → Prog β} (h : Blind p) (hf : ∀ a, Blind (f a)) : Blind (p >>= f) := by
  induction p with
  | ret a => exact hf a
  | crash c => trivial
  | act a k ih => exact ⟨h.1, fun b => ih b (h.2 b)⟩

theorem twin_blind {α : Type} {p : Prog α} (h : Blind p) : Twin cfg cfg' (· = ·) p p := by
  induction p with
  | ret a => exact .ret rfl
  | crash c => exact .crash c
  | act a k ih => exact .act h.1 fun b => ih b (h.2 b)

theorem blind_readFrom (r : SliceRef) : ∀ n i, Blind (Repo.readFrom r i n)
  | 0, _ => trivial
  | n + 1, i => ⟨rfl, fun _ => blind_bind (p := Repo.readFrom r (i + 1) n) (blind_readFrom r n (i + 1)) fun _ => trivial⟩

theorem blind_sliceHas (r : SliceRef) (x : Name) : ∀ n i, Blind (Repo.sliceHas r x i n)
  | 0, _ => trivial
  | n + 1, i => ⟨rfl, fun b => by
      dsimp only
      show Blind (if b = x then _ else _)
      split
      · trivial
      · exact blind_sliceHas r x n (i + 1)⟩

theorem blind_renameSlice (r : SliceRef) (o n : Name) : ∀ m i, Blind (Repo.renameSlice r o n i m)
  | 0, _ => trivial
  | m + 1, i => ⟨rfl, fun b => by
      show Blind (if b = o then (perform (.slWrite r i n) >>= fun _ => Repo.renameSlice r o n (i + 1) m)
        else Repo.renameSlice r o n (i + 1) m)
      split
      · exact ⟨rfl, fun _ => blind_renameSlice r o n m (i + 1)⟩
      · exact blind_renameSlice r o n m (i + 1)⟩

theorem blind_renameAliases (o n : Name) : ∀ ks, Blind (Repo.renameAliases o n ks)
  | [] => trivial
  | k :: ks => ⟨rfl, fun v => by
      cases v with
      | none => exact blind_renameAliases o n ks
      | some r => exact blind_bind (p := Repo.renameSlice r o n 0 r.len) (blind_renameSlice r o n _ 0) fun _ => blind_renameAliases o n ks⟩

theorem blind_resolveFrom (r : SliceRef) : ∀ n i, Blind (Repo.resolveFrom r i n)
  | 0, _ => trivial
  | n + 1, i => ⟨rfl, fun _ => ⟨rfl, fun _ =>
      blind_bind (p := Repo.resolveFrom r (i + 1) n) (blind_resolveFrom r n (i + 1)) fun _ => trivial⟩⟩

theorem blind_dropAliases (x : Name) : ∀ ks, Blind (Repo.dropAliases x ks)
  | [] => trivial
  | k :: ks => ⟨rfl, fun v => by
      cases v with
      | none => exact blind_dropAliases x ks
      | some r =>
        refine blind_bind (p := Repo.readSlice r) (blind_readFrom r _ 0) fun xs => ?_
        dsimp only
        split
        · exact ⟨rfl, fun _ => blind_dropAliases x ks⟩
        · split
          · exact ⟨rfl, fun _ => ⟨rfl, fun _ => blind_dropAliases x ks⟩⟩
          · exact blind_dropAliases x ks⟩

theorem blind_listRows : ∀ ks, Blind (Repo.listRows ks)
  | [] => trivial
  | k :: ks => ⟨rfl, fun v => by
      cases v with
      | none => exact blind_listRows ks
      | some r => exact blind_bind (p := Repo.listRows ks) (blind_listRows ks) fun _ => trivial⟩

theorem blind_getIndices (n : Name) : Blind (Repo.getIndices n) :=
  ⟨rfl, fun _ => ⟨rfl, fun v => by
    cases v with
    | some i => exact ⟨rfl, fun _ => trivial⟩
    | none => exact ⟨rfl, fun _ => ⟨rfl, fun v => by
        cases v with
        | none => exact ⟨rfl, fun _ => ⟨rfl, fun _ => trivial⟩⟩
        | some r => exact blind_bind (p := Repo.resolveFrom r 0 r.len) (blind_resolveFrom r _ 0) fun _ =>
            ⟨rfl, fun _ => ⟨rfl, fun _ => trivial⟩⟩⟩⟩⟩⟩

theorem blind_alias (al i : Name) : Blind (Repo.alias al i) :=
  ⟨rfl, fun _ => ⟨rfl, fun v => by
    cases v with
    | none => exact ⟨rfl, fun _ => trivial⟩
    | some _ =>
      refine ⟨rfl, fun _ => ⟨rfl, fun _ => ⟨rfl, fun v => ?_⟩⟩⟩
      cases v with
      | none => exact ⟨rfl, fun _ => ⟨rfl, fun _ => ⟨rfl, fun _ => ⟨rfl, fun _ => trivial⟩⟩⟩⟩
      | some r =>
        refine blind_bind (p := Repo.sliceHas r i 0 r.len) (blind_sliceHas r i _ 0) fun b => ?_
        cases b with
        | true => exact ⟨rfl, fun _ => ⟨rfl, fun _ => trivial⟩⟩
        | false => exact ⟨rfl, fun _ => ⟨rfl, fun _ => ⟨rfl, fun _ => ⟨rfl, fun _ => trivial⟩⟩⟩⟩⟩⟩

theorem blind_unAlias (al i : Name) : Blind (Repo.unAlias al i) := by
  unfold Repo.unAlias
  split
  · exact ⟨rfl, fun _ => ⟨rfl, fun _ => ⟨rfl, fun _ => ⟨rfl, fun _ => ⟨rfl, fun _ => trivial⟩⟩⟩⟩⟩
  · refine ⟨rfl, fun _ => ⟨rfl, fun v => ?_⟩⟩
    cases v with
    | none => trivial
    | some _ =>
      refine ⟨rfl, fun _ => ⟨rfl, fun _ => ⟨rfl, fun _ => ⟨rfl, fun v => ?_⟩⟩⟩⟩
      cases v with
      | none => trivial
      | some r =>
        refine blind_bind (p := Repo.readSlice r) (blind_readFrom r _ 0) fun xs => ?_
        dsimp only
        split
        · exact ⟨rfl, fun _ => ⟨rfl, fun _ => ⟨rfl, fun _ => trivial⟩⟩⟩
        · exact ⟨rfl, fun _ => trivial⟩

theorem blind_rename (o n : Name) : Blind (Repo.rename o n) :=
  ⟨rfl, fun _ => ⟨rfl, fun _ => ⟨rfl, fun v => by
    cases v with
    | none => exact ⟨rfl, fun _ => trivial⟩
    | some i => exact ⟨rfl, fun _ => ⟨rfl, fun _ => ⟨rfl, fun ks =>
        blind_bind (p := Repo.renameAliases o n ks) (blind_renameAliases o n ks) fun _ => ⟨rfl, fun _ => trivial⟩⟩⟩⟩⟩⟩⟩

theorem blind_drop (n : Name) : Blind (Repo.drop n) :=
  ⟨rfl, fun _ => ⟨rfl, fun v => by
    cases v with
    | none => exact ⟨rfl, fun _ => trivial⟩
    | some i => exact ⟨rfl, fun _ => ⟨rfl, fun _ => ⟨rfl, fun _ => ⟨rfl, fun _ => ⟨rfl, fun _ => ⟨rfl, fun ks =>
        blind_bind (p := Repo.dropAliases n ks) (blind_dropAliases n ks) fun _ =>
          ⟨rfl, fun _ => ⟨rfl, fun _ => ⟨rfl, fun _ => trivial⟩⟩⟩⟩⟩⟩⟩⟩⟩⟩⟩

theorem blind_listAliases : Blind Repo.listAliases :=
  ⟨rfl, fun _ => ⟨rfl, fun ks => blind_bind (p := Repo.listRows ks) (blind_listRows ks) fun _ => ⟨rfl, fun _ => trivial⟩⟩⟩

/-! ### `Put` -/

theorem drains_putPostings (p : Ptr) (next : Nat) : ∀ ts, Drains (Repo.putPostings p next ts) (.ret ())
  | [] => .refl _
  | _ :: ts => .step (drains_putPostings p next ts)

theorem twin_putPostings (p : Ptr) (next : Nat) : ∀ ts, Twin cfg cfg' (fun _ _ => True) (Repo.putPostings p next ts) (.ret ())
  | [] => .ret trivial
  | _ :: ts => .post (twin_putPostings p next ts)

theorem twin_putIndex (p : Ptr) (d d' : DocRequest) :
    Twin cfg cfg' (fun _ _ => True) (Repo.putIndex cfg p d) (Repo.putIndex cfg' p d') :=
  .doc (fun _ => .ret ()) (fun b' => drains_putPostings p b' (cfg'.tok d'.statement)) fun b _ => twin_putPostings p b (cfg.tok d.statement)

theorem twin_putAll (d d' : DocRequest) : ∀ ps,
    Twin cfg cfg' (fun _ _ => True) (Repo.putAll cfg d ps) (Repo.putAll cfg' d' ps)
  | [] => .ret trivial
  | p :: ps => twin_bind (p := Repo.putIndex cfg p d) (p' := Repo.putIndex cfg' p d') (twin_putIndex p d d')
      fun _ _ _ => twin_putAll d d' ps

theorem twin_putTargets (l : List (Option Ptr)) (d d' : DocRequest) :
    Twin cfg cfg' (fun _ _ => True) (Repo.putTargets cfg l d) (Repo.putTargets cfg' l d') := by
  unfold Repo.putTargets
  split
  · exact .crash _
  · split
    · exact .act rfl fun ps => twin_putAll d d' ps
    · exact .crash _

theorem twin_put (n : Name) (d d' : DocRequest) :
    Twin cfg cfg' (fun _ _ => True) (Repo.put cfg n d) (Repo.put cfg' n d') := by
  refine twin_bind (p := Repo.getIndices n) (p' := Repo.getIndices n) (twin_blind (blind_getIndices n)) fun r r' e => ?_
  subst e
  refine .act rfl fun _ => .act rfl fun _ => ?_
  cases r with
  | none =>
    exact .act rfl fun p => .act rfl fun _ =>
      twin_bind (p := Repo.putIndex cfg p d) (p' := Repo.putIndex cfg' p d') (twin_putIndex p d d') fun _ _ _ =>
        .act rfl fun _ => .ret trivial
  | some l =>
    exact twin_bind (p := Repo.putTargets cfg l d) (p' := Repo.putTargets cfg' l d') (twin_putTargets l d d') fun _ _ _ =>
      .act rfl fun _ => .ret trivial

/-! ### `Search` -/

section
variable {e e' : Engine} (he : EngineSafe cfg e) (he' : EngineSafe cfg' e')
include he he'

theorem twin_searchIndex (p : Ptr) (ts ts' : Str) :
    Twin cfg cfg' (fun _ _ => True) (Repo.searchIndex p ts e) (Repo.searchIndex p ts' e') :=
  .eval he he' fun _ _ => .ret trivial

theorem twin_searchAll (ts ts' : Str) : ∀ ps,
    Twin cfg cfg' (fun _ _ => True) (Repo.searchAll ts e ps) (Repo.searchAll ts' e' ps)
  | [] => .ret trivial
  | p :: ps => twin_bind (p := Repo.searchIndex p ts e) (p' := Repo.searchIndex p ts' e') (twin_searchIndex he he' p ts ts')
      fun _ _ _ => twin_bind (p := Repo.searchAll ts e ps) (p' := Repo.searchAll ts' e' ps) (twin_searchAll ts ts' ps)
        fun _ _ _ => .ret trivial

theorem twin_searchTargets (l : List (Option Ptr)) (ts ts' : Str) :
    Twin cfg cfg' (fun _ _ => True) (Repo.searchTargets l ts e) (Repo.searchTargets l ts' e') := by
  unfold Repo.searchTargets
  split
  · exact .crash _
  · exact twin_searchIndex he he' _ ts ts'
  · exact .act rfl fun ps => twin_searchAll he he' ts ts' ps

theorem twin_search (n : Name) (ts ts' : Str) :
    Twin cfg cfg' (fun r r' => r.isSome = r'.isSome) (Repo.search n ts e) (Repo.search n ts' e') := by
  refine .act rfl fun _ => .act rfl fun v => ?_
  cases v with
  | some i =>
    exact twin_bind (p := Repo.searchTargets [some i] ts e) (p' := Repo.searchTargets [some i] ts' e')
      (twin_searchTargets he he' _ ts ts') fun _ _ _ => .act rfl fun _ => .ret rfl
  | none =>
    refine .act rfl fun _ => .act rfl fun v => ?_
    cases v with
    | none => exact .act rfl fun _ => .act rfl fun _ => .ret rfl
    | some r =>
      refine twin_bind (p := Repo.resolveFrom r 0 r.len) (p' := Repo.resolveFrom r 0 r.len)
        (twin_blind (blind_resolveFrom r _ 0)) fun l l' hl => ?_
      subst hl
      exact .act rfl fun _ => twin_bind (p := Repo.searchTargets l ts e) (p' := Repo.searchTargets l ts' e')
        (twin_searchTargets he he' _ ts ts') fun _ _ _ => .act rfl fun _ => .ret rfl

end

theorem twin_renderAll : ∀ ks, Twin cfg cfg' (fun _ _ => True) (Repo.renderAll ks) (Repo.renderAll ks)
  | [] => .ret trivial
  | k :: ks => by
    refine .act (a := .idxGet k) rfl fun v => ?_
    cases v with
    | none => exact twin_renderAll ks
    | some r =>
      exact .render fun _ _ => twin_bind (p := Repo.renderAll ks) (p' := Repo.renderAll ks) (twin_renderAll ks)
        fun _ _ _ => .ret trivial

theorem twin_string : Twin cfg cfg' (fun _ _ => True) Repo.string Repo.string :=
  .act rfl fun _ => .act rfl fun ks => twin_bind (p := Repo.renderAll ks) (p' := Repo.renderAll ks) (twin_renderAll ks)
    fun _ _ _ => .act rfl fun _ => .ret trivial

/-- Return values that differ in search results and texts at most. -/
abbrev RetLike (r r' : Ret) : Prop := r'.forget = r.forget

theorem twin_prog {op op' : Op} (h : op'.forget = op.forget) (hs : op.noPanic cfg) (hs' : op'.noPanic cfg') :
    Twin cfg cfg' RetLike (op.prog cfg) (op'.prog cfg') := by
  have hblind : ∀ {α : Type} {p : Prog α} {f : α → Ret}, Blind p →
      Twin cfg cfg' RetLike (p >>= fun a => .ret (f a)) (p >>= fun a => .ret (f a)) := fun hb =>
    twin_bind (twin_blind hb) fun a a' e => by subst e; exact .ret rfl
  cases op <;> cases op' <;> simp only [Op.forget, reduceCtorEq, Op.alias.injEq, Op.unAlias.injEq, Op.rename.injEq, Op.drop.injEq,
    Op.has.injEq, Op.hasAlias.injEq, Op.put.injEq, Op.search.injEq, and_true] at h
  case list.list => exact hblind (p := Repo.list) ⟨rfl, fun _ => ⟨rfl, fun _ => ⟨rfl, fun _ => trivial⟩⟩⟩
  case listAliases.listAliases => exact hblind blind_listAliases
  case has.has n n' => subst h; exact hblind (p := Repo.has _) ⟨rfl, fun _ => ⟨rfl, fun _ => ⟨rfl, fun _ => trivial⟩⟩⟩
  case hasAlias.hasAlias n n' => subst h; exact hblind (p := Repo.hasAlias _) ⟨rfl, fun _ => ⟨rfl, fun _ => ⟨rfl, fun _ => trivial⟩⟩⟩
  case alias.alias => obtain ⟨rfl, rfl⟩ := h; exact hblind (blind_alias _ _)
  case unAlias.unAlias => obtain ⟨rfl, rfl⟩ := h; exact hblind (blind_unAlias _ _)
  case rename.rename => obtain ⟨rfl, rfl⟩ := h; exact hblind (blind_rename _ _)
  case drop.drop => subst h; exact hblind (blind_drop _)
  case put.put => subst h; exact twin_bind (p := Repo.put cfg _ _) (p' := Repo.put cfg' _ _) (twin_put _ _ _) fun _ _ _ => .ret rfl
  case search.search n ts e n' ts' e' =>
    subst h
    refine twin_bind (p := Repo.search _ _ _) (p' := Repo.search _ _ _) (twin_search hs hs' _ _ _) fun r r' hr => ?_
    cases r <;> cases r' <;> simp at hr
    · exact .ret rfl
    · exact .ret rfl
  case string.string => exact twin_bind twin_string fun _ _ _ => .ret rfl

/-! ## Actions -/

theorem SameNames.refl (s : Shared) : SameNames s s := ⟨rfl, rfl, rfl, rfl, rfl, rfl⟩

theorem SameNames.length {s s' : Shared} (h : SameNames s s') : s'.heap.length = s.heap.length := by
  have := congrArg List.length h.made
  simpa using this

/-- The outcomes of one action in two states. -/
def SameEffect {β : Type} : Exec β → Exec β → Prop
  | .ok b s, .ok b' s' => b' = b ∧ SameNames s s'
  | .blocked, .blocked => True
  | .crash e, .crash e' => e' = e
  | _, _ => False

theorem SameNames.mu {s s' : Shared} (h : SameNames s s') (m : Mu) : s'.mu m = s.mu m := by
  cases m
  · exact h.imu
  · exact h.amu

theorem SameNames.setMu {s s' : Shared} (h : SameNames s s') (m : Mu) (l : RW) : SameNames (s.setMu m l) (s'.setMu m l) := by
  cases m
  · exact ⟨h.indices, h.aliases, h.arrays, rfl, h.amu, h.made⟩
  · exact ⟨h.indices, h.aliases, h.arrays, h.imu, rfl, h.made⟩

theorem SameNames.elems {s s' : Shared} (h : SameNames s s') (r : SliceRef) : s'.elems r = s.elems r := by
  unfold Shared.elems
  rw [h.arrays]

theorem exec_blind {β : Type} {a : Act β} (hb : a.blind = true) {s s' : Shared} (h : SameNames s s') (o : Oracle) (t : Tid) :
    SameEffect (exec cfg o t a s) (exec cfg' o t a s') := by
  cases a <;> simp only [Act.blind, reduceCtorEq] at hb
  case rlock m =>
    simp only [exec, h.mu]
    split
    · exact ⟨rfl, h.setMu _ _⟩
    · trivial
  case runlock m =>
    simp only [exec, h.mu]
    split
    · exact ⟨rfl, h.setMu _ _⟩
    · rfl
  case announce m =>
    simp only [exec, h.mu]
    split
    · exact ⟨rfl, h.setMu _ _⟩
    · trivial
  case acquire m =>
    simp only [exec, h.mu]
    split
    · split
      · exact ⟨rfl, h⟩
      · trivial
    · rfl
  case unlock m =>
    simp only [exec, h.mu]
    split
    · exact ⟨rfl, h.setMu _ _⟩
    · rfl
  case idxGet n => exact ⟨by rw [h.indices], h⟩
  case idxSet n p => exact ⟨rfl, by rw [h.indices], h.aliases, h.arrays, h.imu, h.amu, h.made⟩
  case idxDel n => exact ⟨rfl, by rw [h.indices], h.aliases, h.arrays, h.imu, h.amu, h.made⟩
  case idxKeys => exact ⟨by rw [h.indices], h⟩
  case alGet n => exact ⟨by rw [h.aliases], h⟩
  case alSet n p => exact ⟨rfl, h.indices, by rw [h.aliases], h.arrays, h.imu, h.amu, h.made⟩
  case alDel n => exact ⟨rfl, h.indices, by rw [h.aliases], h.arrays, h.imu, h.amu, h.made⟩
  case alKeys => exact ⟨by rw [h.aliases], h⟩
  case slRead r i =>
    simp only [exec, h.elems]
    split
    · exact ⟨rfl, h⟩
    · rfl
  case slWrite r i v =>
    simp only [exec, h.arrays]
    split
    · split
      · exact ⟨rfl, h.indices, h.aliases, rfl, h.imu, h.amu, h.made⟩
      · rfl
    · rfl
  case slAppend r v =>
    simp only [exec, h.arrays]
    split
    · rfl
    · split
      · exact ⟨rfl, h.indices, h.aliases, rfl, h.imu, h.amu, h.made⟩
      · exact ⟨rfl, h.indices, h.aliases, rfl, h.imu, h.amu, h.made⟩
  case slNew l => exact ⟨by rw [h.arrays], h.indices, h.aliases, by rw [h.arrays], h.imu, h.amu, h.made⟩
  case newIndex n =>
    exact ⟨h.length, h.indices, h.aliases, h.arrays, h.imu, h.amu, by
      simp only [List.map_append, h.made]⟩
  case schedule ps => exact ⟨rfl, h⟩

theorem set_name {l : List MemoryIndex} {p : Nat} {mi mi' : MemoryIndex} (h : l[p]? = some mi) (hn : mi'.name = mi.name) :
    (l.set p mi').map (·.name) = l.map (·.name) := by
  rw [List.map_set, hn]
  apply List.ext_getElem?
  intro i
  rw [List.getElem?_set]
  split
  · subst_vars
    rw [List.getElem?_map, h]
    split
    · rfl
    · rename_i hlt
      rw [List.length_map] at hlt
      exact absurd (List.getElem?_eq_some_iff.1 h).1 hlt
  · rfl

/-- Writing into an index changes no name. -/
theorem exec_docAppend {p : Ptr} {d : Doc} {o : Oracle} {t : Tid} {s s1 : Shared} {b : Nat}
    (he : exec cfg o t (.docAppend p d) s = .ok b s1) : SameNames s s1 := by
  simp only [exec] at he
  split at he
  · rename_i mi hmi
    cases he
    exact ⟨rfl, rfl, rfl, rfl, rfl, set_name hmi rfl⟩
  · cases he

theorem exec_postAdd {p : Ptr} {tok : Str} {next : Nat} {o : Oracle} {t : Tid} {s s1 : Shared} {b : Unit}
    (he : exec cfg o t (.postAdd p tok next) s = .ok b s1) : SameNames s s1 := by
  simp only [exec] at he
  split at he
  · rename_i mi hmi
    cases he
    exact ⟨rfl, rfl, rfl, rfl, rfl, set_name hmi rfl⟩
  · cases he

theorem SameNames.trans {s1 s2 s3 : Shared} (h : SameNames s1 s2) (g : SameNames s2 s3) : SameNames s1 s3 :=
  ⟨g.indices.trans h.indices, g.aliases.trans h.aliases, g.arrays.trans h.arrays, g.imu.trans h.imu, g.amu.trans h.amu,
    g.made.trans h.made⟩

theorem SameNames.symm {s1 s2 : Shared} (h : SameNames s1 s2) : SameNames s2 s1 :=
  ⟨h.indices.symm, h.aliases.symm, h.arrays.symm, h.imu.symm, h.amu.symm, h.made.symm⟩

/-! ## Executions -/

/-- An action that takes no lock succeeds. -/
theorem never_blocks {c : Config} (hr : ConcReachable cfg c) {t : Tid} {op : Op} {o : Oracle} {β : Type} {a : Act β}
    {k : β → Prog Ret} (hx : c.calls[t]? = some ⟨op, o, .act a k⟩) (hb : exec cfg o t a c.sh ≠ .blocked) :
    ∃ b s', exec cfg o t a c.sh = .ok b s' := by
  rcases C54_actions_succeed hr hx with h | h
  · exact h
  · exact absurd h hb

theorem drain {p q : Prog Ret} (hd : Drains p q) : ∀ {c : Config}, ConcReachable cfg c → ∀ {t : Tid} {op : Op} {o : Oracle},
    c.calls[t]? = some ⟨op, o, p⟩ →
    ∃ c1, Steps cfg c c1 ∧ SameNames c.sh c1.sh ∧ c1.calls = c.calls.set t ⟨op, o, q⟩ := by
  induction hd with
  | refl p =>
    intro c hr t op o hx
    refine ⟨c, .refl c, .refl _, ?_⟩
    obtain ⟨hlt, he⟩ := List.getElem?_eq_some_iff.1 hx
    rw [← he, List.set_getElem_self]
  | @step p tok next k q h ih =>
    intro c hr t op o hx
    obtain ⟨b, s1, he⟩ := never_blocks hr hx (by
      simp only [exec]
      split <;> simp)
    have hs : Steps cfg c { sh := s1, calls := c.calls.set t ⟨op, o, k b⟩ } :=
      .tail (.refl c) (.move t (.act hx he))
    have hlt := (List.getElem?_eq_some_iff.1 hx).1
    obtain ⟨c1, h1, h2, h3⟩ := ih (c := { sh := s1, calls := c.calls.set t ⟨op, o, k b⟩ }) (steps_trans hr hs)
      (t := t) (op := op) (o := o) (by rw [List.getElem?_set_self hlt])
    exact ⟨c1, steps_trans hs h1, (exec_postAdd he).trans h2, by rw [h3]; simp⟩

/-- Calls that differ in documents, queries and engines at most, equally far. -/
structure TwinCalls (cfg cfg' : Cfg) (c c' : Config) : Prop where
  sh : SameNames c.sh c'.sh
  len : c'.calls.length = c.calls.length
  calls : ∀ (t : Tid) x, c.calls[t]? = some x → ∃ x', c'.calls[t]? = some x' ∧ x'.oracle = x.oracle ∧
    x'.op.forget = x.op.forget ∧ Twin cfg cfg' RetLike x.prog x'.prog

theorem TwinCalls.set {c c' : Config} (h : TwinCalls cfg cfg' c c') {s s' : Shared} (hs : SameNames s s') {t : Tid} {op op' : Op}
    {o : Oracle} {p p' : Prog Ret} (hop : op'.forget = op.forget) (hp : Twin cfg cfg' RetLike p p') :
    TwinCalls cfg cfg' { sh := s, calls := c.calls.set t ⟨op, o, p⟩ } { sh := s', calls := c'.calls.set t ⟨op', o, p'⟩ } := by
  refine ⟨hs, by simp [h.len], ?_⟩
  intro u x hx
  simp only [List.getElem?_set] at hx ⊢
  rw [h.len]
  split at hx
  · rename_i e
    rw [if_pos e]
    split at hx
    · rename_i hlt
      rw [if_pos hlt]
      cases hx
      exact ⟨_, rfl, rfl, hop, hp⟩
    · cases hx
  · rename_i e
    rw [if_neg e]
    exact h.calls u x hx

theorem ops_set {l : List Thread} {t : Tid} {op : Op} {o : Oracle} {p q : Prog Ret} (h : l[t]? = some ⟨op, o, p⟩) :
    (l.set t ⟨op, o, q⟩).map (·.op) = l.map (·.op) := by
  rw [List.map_set]
  apply List.ext_getElem?
  intro i
  rw [List.getElem?_set]
  split
  · subst_vars
    rw [List.getElem?_map, h]
    have := (List.getElem?_eq_some_iff.1 h).1
    simp [this]
  · rfl

/-- A safe engine does return. -/
theorem eval_returns {c : Config} (hr : ConcReachable cfg c) {t : Tid} {op : Op} {o : Oracle} {p : Ptr} {ts : Str} {e : Engine}
    {k : Option (List SearchResult) → Prog Ret} (hx : c.calls[t]? = some ⟨op, o, .act (.evalEngine p ts e) k⟩)
    (he : EngineSafe cfg e) : ∃ r, exec cfg o t (.evalEngine p ts e) c.sh = .ok (some r) c.sh := by
  obtain ⟨nm, rs, hh, _⟩ := C48_search_sees_whole_puts hr hx rfl
  simp only [exec, hh]
  have := he rs ts
  unfold specSearch at this
  rw [search_name cfg.tok cfg.cp [] nm] at this
  cases hv : (buildIndex cfg.tok nm rs).search cfg.cp cfg.tok ts e with
  | none => exact absurd hv this
  | some r => exact ⟨r, rfl⟩

theorem twin_move {c c1 c' : Config} (hr : ConcReachable cfg c) (hr' : ConcReachable cfg' c') (tw : TwinCalls cfg cfg' c c')
    {t : Tid} (hs : TStep cfg t c c1) :
    ∃ c1', Steps cfg' c' c1' ∧ TwinCalls cfg cfg' c1 c1' ∧ c1'.calls.map (·.op) = c'.calls.map (·.op) := by
  cases hs with
  | @crash s calls op o β a k e h he =>
    exact absurd he (action_safe hr h e)
  | @act s s1 calls op o β a k b h he =>
    obtain ⟨⟨op', o', p'⟩, hx', ho, hop, hp⟩ := tw.calls t _ h
    simp only at ho hop hp
    subst ho
    cases hp with
    | @act _ _ _ k' hb hk =>
      have hse := exec_blind (cfg := cfg) (cfg' := cfg') hb tw.sh o' t
      rw [he] at hse
      cases he' : exec cfg' o' t a c'.sh with
      | ok b' s1' =>
        rw [he'] at hse
        obtain ⟨rfl, hn⟩ := hse
        exact ⟨_, .tail (.refl _) (.move t (.act hx' he')), tw.set hn hop (hk _), ops_set hx'⟩
      | blocked => rw [he'] at hse; exact hse.elim
      | crash e => rw [he'] at hse; exact hse.elim
    | @eval p ts ts' e e' _ k' hs hs' hk =>
      obtain ⟨r, hr1⟩ := eval_returns hr h hs
      obtain ⟨r', hr2⟩ := eval_returns hr' hx' hs'
      rw [hr1] at he
      cases he
      exact ⟨_, .tail (.refl _) (.move t (.act hx' hr2)), tw.set tw.sh hop (hk _ _), ops_set hx'⟩
    | @render p _ k' hk =>
      obtain ⟨b', s1', he'⟩ := never_blocks hr' hx' (by
        simp only [exec]
        split <;> simp)
      have e1 : s1 = s := by
        simp only [exec] at he
        split at he <;> cases he
        rfl
      have e2 : s1' = c'.sh := by
        simp only [exec] at he'
        split at he' <;> cases he'
        rfl
      subst e1 e2
      exact ⟨_, .tail (.refl _) (.move t (.act hx' he')), tw.set tw.sh hop (hk _ _), ops_set hx'⟩
    | @doc p d d' _ k' q hd hk =>
      obtain ⟨b', s1', he'⟩ := never_blocks hr' hx' (by
        simp only [exec]
        split <;> simp)
      have hs1 : Steps cfg' c' { sh := s1', calls := c'.calls.set t ⟨op', o', k' b'⟩ } :=
        .tail (.refl _) (.move t (.act hx' he'))
      have hlt := (List.getElem?_eq_some_iff.1 hx').1
      obtain ⟨c2, h1, h2, h3⟩ := drain (hd b') (steps_trans hr' hs1) (t := t) (op := op') (o := o')
        (by rw [List.getElem?_set_self hlt])
      refine ⟨c2, steps_trans hs1 h1, ?_, ?_⟩
      · have := tw.set (t := t) (o := o') (((exec_docAppend he).symm.trans tw.sh).trans ((exec_docAppend he').trans h2)) hop (hk b b')
        obtain ⟨sh2, calls2⟩ := c2
        simp only [List.set_set] at h3
        subst h3
        exact this
      · rw [h3, List.set_set]; exact ops_set hx'
    | @post p tok next _ q hk =>
      refine ⟨c', .refl _, ?_, rfl⟩
      have := tw.set (t := t) (o := o') ((exec_postAdd he).symm.trans tw.sh) hop hk
      have e : c'.calls.set t ⟨op', o', p'⟩ = c'.calls := by
        obtain ⟨hlt, he⟩ := List.getElem?_eq_some_iff.1 hx'
        rw [← he, List.set_getElem_self]
      rw [e] at this
      exact this

theorem twin_reachable {c : Config} (hr : ConcReachable cfg c) : ∀ {ops : List Op}, ops.map Op.forget = c.calls.map (·.op.forget) →
    (∀ x ∈ c.calls, x.op.noPanic cfg) → (∀ op ∈ ops, op.noPanic cfg') →
    ∃ c', ConcReachable cfg' c' ∧ c'.calls.map (·.op) = ops ∧ TwinCalls cfg cfg' c c' := by
  induction hr with
  | refl =>
    intro ops ho _ _
    have : ops = [] := by
      cases ops with
      | nil => rfl
      | cons a l => simp [Config.init] at ho
    subst this
    exact ⟨Config.init, .refl _, rfl, .refl _, rfl, fun t x hx => by simp [Config.init] at hx⟩
  | @tail c1 c2 h hs ih =>
    intro ops ho h1 h2
    cases hs with
    | move t ht =>
      have hops : c2.calls.map (·.op) = c1.calls.map (·.op) := by
        cases ht with
        | act hx he => exact ops_set hx
        | crash hx he => exact ops_set hx
      have hmem : ∀ x ∈ c1.calls, x.op.noPanic cfg := by
        intro x hx
        have : x.op ∈ c1.calls.map (·.op) := List.mem_map_of_mem (f := fun y : Thread => y.op) hx
        rw [← hops] at this
        obtain ⟨y, hy, e⟩ := List.mem_map.1 this
        rw [← e]; exact h1 y hy
      have hf : ops.map Op.forget = c1.calls.map (·.op.forget) := by
        rw [ho]
        have := congrArg (List.map Op.forget) hops
        simpa [List.map_map, Function.comp_def] using this
      obtain ⟨c', hr', hc', tw⟩ := ih hf hmem h2
      obtain ⟨c1', hst, tw', ho'⟩ := twin_move h hr' tw ht
      exact ⟨c1', steps_trans hr' hst, ho'.trans hc', tw'⟩
    | invoke op o =>
      simp only [List.map_append, List.map_cons, List.map_nil] at ho
      obtain ⟨ops1, ops2, rfl, e1, e2⟩ := List.map_eq_append_iff.1 ho
      obtain ⟨op', l, rfl, e3, e4⟩ := List.map_eq_cons_iff.1 e2
      rw [List.map_eq_nil_iff] at e4
      subst e4
      obtain ⟨c', hr', hc', tw⟩ := ih e1 (fun x hx => h1 x (by simp [hx])) (fun q hq => h2 q (by simp [hq]))
      refine ⟨{ c' with calls := c'.calls ++ [{ op := op', oracle := o, prog := op'.prog cfg' }] },
        .tail hr' (.invoke c' op' o), by simp [hc'], tw.sh, by simp [tw.len], ?_⟩
      intro t x hx
      simp only [List.getElem?_append] at hx ⊢
      rw [tw.len]
      split at hx
      · rename_i hlt
        rw [if_pos hlt]
        exact tw.calls t x hx
      · rename_i hlt
        rw [if_neg hlt]
        cases hi : t - c1.calls.length with
        | succ n => rw [hi] at hx; simp at hx
        | zero =>
          rw [hi] at hx
          simp only [List.getElem?_cons_zero, Option.some.injEq] at hx ⊢
          subst hx
          exact ⟨_, rfl, rfl, e3, twin_prog e3 (h1 ⟨op, o, op.prog cfg⟩ (by simp)) (h2 op' (by simp))⟩

/-- A call that cannot move has a twin that cannot move. -/
theorem twin_stuck {c c' : Config} (hr : ConcReachable cfg c) (tw : TwinCalls cfg cfg' c c') {t : Tid}
    (h : ¬ c.canMove cfg t) : ¬ c'.canMove cfg' t := by
  rintro ⟨c1', hm⟩
  apply h
  cases hx : c.calls[t]? with
  | none =>
    have h1 : c'.calls[t]? = none := by
      rw [List.getElem?_eq_none_iff] at hx ⊢
      rw [tw.len]; exact hx
    cases hm with
    | act hx' _ => rw [hx'] at h1; cases h1
    | crash hx' _ => rw [hx'] at h1; cases h1
  | some x =>
    obtain ⟨⟨op', o', p'⟩, hx', ho, hop, hp⟩ := tw.calls t _ hx
    obtain ⟨op, o, p⟩ := x
    simp only at ho hop hp
    subst ho
    have go : ∀ {β : Type} {a : Act β} {k : β → Prog Ret}, c.calls[t]? = some ⟨op, o', .act a k⟩ →
        exec cfg o' t a c.sh ≠ .blocked → c.canMove cfg t := fun hx hb => by
      obtain ⟨b, s1, he⟩ := never_blocks hr hx hb
      exact ⟨_, .act hx he⟩
    cases hp with
    | ret h =>
      cases hm with
      | act hx2 _ => rw [hx2] at hx'; cases hx'
      | crash hx2 _ => rw [hx2] at hx'; cases hx'
    | crash e =>
      cases hm with
      | act hx2 _ => rw [hx2] at hx'; cases hx'
      | crash hx2 _ => rw [hx2] at hx'; cases hx'
    | @act β a k k' hb hk =>
      refine go hx fun hbl => ?_
      have hse := exec_blind (cfg := cfg) (cfg' := cfg') hb tw.sh o' t
      rw [hbl] at hse
      cases hm with
      | act hx2 he =>
        rw [hx2] at hx'
        cases hx'
        simp only at hse
        rw [he] at hse
        exact hse
      | crash hx2 he =>
        rw [hx2] at hx'
        cases hx'
        simp only at hse
        rw [he] at hse
        exact hse
    | eval => exact go hx (by simp only [exec]; split <;> simp)
    | render => exact go hx (by simp only [exec]; split <;> simp)
    | doc => exact go hx (by simp only [exec]; split <;> simp)
    | post => exact go hx (by simp only [exec]; split <;> simp)

end Visigoth
