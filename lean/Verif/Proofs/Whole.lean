import Verif.Proofs.Progress
import Verif.Proofs.Refine3
/-!
# Indices are only ever seen as the result of whole `Put`s
-/
namespace Visigoth

/-- Every index of the heap is the result of whole `Put`s, at least one, of requests satisfying `P`. -/
def HeapOk (P : DocRequest → Prop) (tok : Tokenizer) (Hp : List MemoryIndex) : Prop :=
  ∀ mi ∈ Hp, ∃ nm rs, mi = buildIndex tok nm rs ∧ (∀ r ∈ rs, P r) ∧ rs ≠ []

/-- What a call knows of the heap: with the index mutex held exclusively the heap itself, otherwise a
lower bound of its length. -/
inductive View
  | free (n : Nat)
  | own (Hp : List MemoryIndex)

def View.le : View → View → Prop
  | .free n, .free n' => n ≤ n'
  | .own Hp, .own Hp' => Hp = Hp'
  | _, _ => False

theorem View.le_refl (v : View) : v.le v := by cases v <;> simp [View.le]

theorem View.le_trans {u v w : View} (h : u.le v) (g : v.le w) : u.le w := by
  cases u <;> cases v <;> cases w <;> simp_all [View.le]
  exact Nat.le_trans h g

/-- The heap as far as the call knows it is whole. -/
def View.ok (P : DocRequest → Prop) (tok : Tokenizer) : View → Prop
  | .free _ => True
  | .own Hp => HeapOk P tok Hp

theorem View.ok_le {P : DocRequest → Prop} {tok : Tokenizer} {v v' : View} (hv : v.le v') (h : v.ok P tok) : v'.ok P tok := by
  cases v <;> cases v' <;> simp_all [View.le, View.ok]

/-- The heap is whole at the end of a call. -/
def EndOk {α : Type} (P : DocRequest → Prop) (tok : Tokenizer) : View → α → Prop := fun v _ => v.ok P tok

/-- Actions that neither touch the heap nor change how the index mutex is held exclusively. -/
def Act.plain {β : Type} : Act β → Bool
  | .acquire .indices | .unlock .indices | .newIndex _ | .docAppend .. | .postAdd .. | .evalEngine .. | .render _ | .idxSet .. => false
  | _ => true

/-- What an action needs for `Φ` to hold afterwards. -/
def wpAct (P : DocRequest → Prop) (tok : Tokenizer) {β : Type} (v : View) : Act β → (View → β → Prop) → Prop
  | .acquire .indices, Φ =>
    match v with
    | .free n => ∀ Hp, HeapOk P tok Hp → n ≤ Hp.length → Φ (.own Hp) ()
    | .own _ => False
  | .unlock .indices, Φ =>
    match v with
    | .free _ => False
    | .own Hp => HeapOk P tok Hp ∧ Φ (.free Hp.length) ()
  | .newIndex nm, Φ =>
    match v with
    | .free _ => False
    | .own Hp => Φ (.own (Hp ++ [newMemoryIndex nm])) Hp.length
  | .docAppend p d, Φ =>
    match v with
    | .free _ => False
    | .own Hp => ∃ mi, Hp[p]? = some mi ∧ Φ (.own (Hp.set p { mi with docs := mi.docs ++ [d] })) mi.docs.length
  | .postAdd p tok next, Φ =>
    match v with
    | .free _ => False
    | .own Hp => ∃ mi, Hp[p]? = some mi ∧ Φ (.own (Hp.set p { mi with inverted := addPosting next mi.inverted tok })) ()
  | .evalEngine p _ _, Φ =>
    match v with
    | .free n => p < n ∧ ∀ b, Φ (.free n) b
    | .own _ => False
  | .render p, Φ =>
    match v with
    | .free n => p < n ∧ ∀ b, Φ (.free n) b
    | .own _ => False
  | .idxGet _, Φ =>
    match v with
    | .free n => Φ (.free n) none ∧ ∀ n' p, n ≤ n' → p < n' → Φ (.free n') (some p)
    | .own Hp => Φ (.own Hp) none ∧ ∀ p, p < Hp.length → Φ (.own Hp) (some p)
  | .idxSet _ p, Φ =>
    match v with
    | .free _ => False
    | .own Hp => p < Hp.length ∧ Φ (.own Hp) ()
  | .schedule ps, Φ => ∀ b, b.Perm ps → Φ v b
  | .slRead .., Φ => v.ok P tok ∧ ∀ b, Φ v b
  | .slWrite .., Φ => v.ok P tok ∧ ∀ b, Φ v b
  | .slAppend .., Φ => v.ok P tok ∧ ∀ b, Φ v b
  | _, Φ => ∀ b, Φ v b

/-- The rest of a program keeps the heap whole, and leaves it whole if it panics. -/
def Whole {α : Type} (P : DocRequest → Prop) (tok : Tokenizer) (Q : View → α → Prop) (v : View) : Prog α → Prop
  | .ret a => Q v a
  | .crash _ => v.ok P tok
  | .act a k => wpAct P tok v a fun v' b => Whole P tok Q v' (k b)

variable {P : DocRequest → Prop} {tok : Tokenizer}

theorem wpAct_mono {β : Type} {v : View} {a : Act β} {Φ Ψ : View → β → Prop} (h : ∀ v' b, Φ v' b → Ψ v' b)
    (hw : wpAct P tok v a Φ) : wpAct P tok v a Ψ := by
  cases a
  case acquire m =>
    cases m
    · cases v
      · exact fun Hp h1 h2 => h _ _ (hw Hp h1 h2)
      · exact hw
    · exact fun b => h _ _ (hw b)
  case unlock m =>
    cases m
    · cases v
      · exact hw
      · exact ⟨hw.1, h _ _ hw.2⟩
    · exact fun b => h _ _ (hw b)
  case newIndex nm => cases v; exact hw; exact h _ _ hw
  case docAppend p d =>
    cases v
    · exact hw
    · obtain ⟨mi, h1, h2⟩ := hw; exact ⟨mi, h1, h _ _ h2⟩
  case postAdd p tk nx =>
    cases v
    · exact hw
    · obtain ⟨mi, h1, h2⟩ := hw; exact ⟨mi, h1, h _ _ h2⟩
  case evalEngine p ts e =>
    cases v
    · exact ⟨hw.1, fun b => h _ _ (hw.2 b)⟩
    · exact hw
  case render p =>
    cases v
    · exact ⟨hw.1, fun b => h _ _ (hw.2 b)⟩
    · exact hw
  case idxGet nm =>
    cases v
    · exact ⟨h _ _ hw.1, fun n' p h1 h2 => h _ _ (hw.2 n' p h1 h2)⟩
    · exact ⟨h _ _ hw.1, fun p h1 => h _ _ (hw.2 p h1)⟩
  case idxSet nm p =>
    cases v
    · exact hw
    · exact ⟨hw.1, h _ _ hw.2⟩
  case schedule ps => exact fun b hb => h _ _ (hw b hb)
  case slRead r i => exact ⟨hw.1, fun b => h _ _ (hw.2 b)⟩
  case slWrite r i w => exact ⟨hw.1, fun b => h _ _ (hw.2 b)⟩
  case slAppend r w => exact ⟨hw.1, fun b => h _ _ (hw.2 b)⟩
  all_goals exact fun b => h _ _ (hw b)

theorem Whole.mono {α : Type} {Q R : View → α → Prop} (hQR : ∀ v a, Q v a → R v a) :
    ∀ {p : Prog α} {v : View}, Whole P tok Q v p → Whole P tok R v p := by
  intro p
  induction p with
  | ret a => intro v h; exact hQR _ _ h
  | crash c => intro v h; exact h
  | act a k ih => intro v h; exact wpAct_mono (fun v' b h' => ih b h') h

theorem whole_bind {α β : Type} {Q : View → β → Prop} (f : α → Prog β) :
    ∀ {p : Prog α} {v : View}, Whole P tok (fun v a => Whole P tok Q v (f a)) v p → Whole P tok Q v (p >>= f) := by
  intro p
  show ∀ {v : View}, _ → Whole P tok Q v (p.bind f)
  induction p with
  | ret a => intro v h; exact h
  | crash c => intro v h; exact h
  | act a k ih => intro v h; exact wpAct_mono (fun v' b h' => ih b h') h

/-- Programs of plain actions. -/
def Plain {α : Type} : Prog α → Prop
  | .ret _ => True
  | .crash _ => True
  | .act a k => a.plain = true ∧ ∀ b, Plain (k b)

theorem wpAct_plain {β : Type} {v : View} {a : Act β} {Φ : View → β → Prop} (ha : a.plain = true)
    (hok : v.ok P tok) (h : ∀ v' b, v.le v' → Φ v' b) : wpAct P tok v a Φ := by
  cases a
  case acquire m => cases m; cases ha; exact fun b => h _ _ v.le_refl
  case unlock m => cases m; cases ha; exact fun b => h _ _ v.le_refl
  case newIndex => cases ha
  case docAppend => cases ha
  case postAdd => cases ha
  case evalEngine => cases ha
  case render => cases ha
  case idxSet => cases ha
  case idxGet nm =>
    cases v
    · exact ⟨h _ _ (View.le_refl _), fun n' p h1 h2 => h _ _ h1⟩
    · exact ⟨h _ _ (View.le_refl _), fun p h1 => h _ _ (View.le_refl _)⟩
  case schedule ps => exact fun b hb => h _ _ v.le_refl
  case slRead r i => exact ⟨hok, fun b => h _ _ v.le_refl⟩
  case slWrite r i w => exact ⟨hok, fun b => h _ _ v.le_refl⟩
  case slAppend r w => exact ⟨hok, fun b => h _ _ v.le_refl⟩
  all_goals exact fun b => h _ _ v.le_refl

theorem whole_plain {α : Type} {Q : View → α → Prop} : ∀ {p : Prog α} {v : View}, Plain p → v.ok P tok →
    (∀ v' a, v.le v' → Q v' a) → Whole P tok Q v p := by
  intro p
  induction p with
  | ret a => intro v _ _ h; exact h _ _ v.le_refl
  | crash c => intro v _ hok _; exact hok
  | act a k ih =>
    intro v hp hok h
    exact wpAct_plain hp.1 hok fun v' b hv => ih b (hp.2 b) (View.ok_le hv hok) fun v'' a hv' => h _ _ (View.le_trans hv hv')

theorem plain_bind {α β : Type} {p : Prog α} {f : α → Prog β} (hp : Plain p) (hf : ∀ a, Plain (f a)) :
    Plain (p >>= f) := by
  show Plain (p.bind f)
  induction p with
  | ret a => exact hf a
  | crash c => trivial
  | act a k ih => exact ⟨hp.1, fun b => ih b (hp.2 b)⟩

theorem plain_act {α β : Type} (a : Act β) (f : β → Prog α) (ha : a.plain = true) (h : ∀ b, Plain (f b)) :
    Plain (perform a >>= f) := ⟨ha, h⟩

theorem whole_act {α β : Type} {Q : View → α → Prop} {v : View} (a : Act β) (f : β → Prog α)
    (h : wpAct P tok v a fun v' b => Whole P tok Q v' (f b)) : Whole P tok Q v (perform a >>= f) := h

/-- A plain loop, then the rest. -/
theorem whole_loop {α β : Type} {Q : View → β → Prop} {v : View} {p : Prog α} (f : α → Prog β) (hp : Plain p)
    (hok : v.ok P tok) (hk : ∀ v' a, v.le v' → Whole P tok Q v' (f a)) : Whole P tok Q v (p >>= f) :=
  whole_bind f (whole_plain hp hok hk)

theorem plain_readFrom (r : SliceRef) (n : Nat) : ∀ i, Plain (Repo.readFrom r i n) := by
  induction n with
  | zero => intro i; trivial
  | succ n ih => intro i; exact plain_act _ _ rfl fun x => plain_bind (ih (i + 1)) fun _ => trivial

theorem plain_sliceHas (r : SliceRef) (nm : Name) (n : Nat) : ∀ i, Plain (Repo.sliceHas r nm i n) := by
  induction n with
  | zero => intro i; trivial
  | succ n ih =>
    intro i
    refine plain_act _ _ rfl fun x => ?_
    show Plain (if x = nm then _ else _)
    split
    · trivial
    · exact ih (i + 1)

theorem plain_renameSlice (r : SliceRef) (old new : Name) (n : Nat) : ∀ i, Plain (Repo.renameSlice r old new i n) := by
  induction n with
  | zero => intro i; trivial
  | succ n ih =>
    intro i
    unfold Repo.renameSlice
    refine plain_act _ _ rfl fun x => ?_
    dsimp only
    show Plain (if x = old then _ else _)
    split
    · exact plain_act _ _ rfl fun _ => ih (i + 1)
    · exact ih (i + 1)

theorem plain_renameAliases (old new : Name) (ks : List Name) : Plain (Repo.renameAliases old new ks) := by
  induction ks with
  | nil => trivial
  | cons k ks ih =>
    refine plain_act _ _ rfl fun x => ?_
    cases x with
    | none => exact ih
    | some r => exact plain_bind (plain_renameSlice r old new r.len 0) fun _ => ih

theorem plain_dropAliases (nm : Name) (ks : List Name) : Plain (Repo.dropAliases nm ks) := by
  induction ks with
  | nil => trivial
  | cons k ks ih =>
    refine plain_act _ _ rfl fun x => ?_
    cases x with
    | none => exact ih
    | some r =>
      refine plain_bind (plain_readFrom r r.len 0) fun xs => ?_
      dsimp only
      split
      · exact plain_act _ _ rfl fun _ => ih
      · split
        · exact plain_act _ _ rfl fun _ => plain_act _ _ rfl fun _ => ih
        · exact ih

theorem plain_listRows (ks : List Name) : Plain (Repo.listRows ks) := by
  induction ks with
  | nil => trivial
  | cons k ks ih =>
    refine plain_act _ _ rfl fun x => ?_
    cases x with
    | none => exact ih
    | some r => exact plain_bind ih fun _ => trivial

/-! ## Methods -/

/-- Pointers that a call may follow. -/
def PtrsIn (n : Nat) (ps : List (Option Ptr)) : Prop := ∀ p, some p ∈ ps → p < n

theorem bind_assoc' {α β γ : Type} (p : Prog α) (f : α → Prog β) (g : β → Prog γ) :
    (p >>= f) >>= g = p >>= fun a => f a >>= g := by
  show (p.bind f).bind g = p.bind fun a => (f a).bind g
  induction p with
  | ret a => rfl
  | crash c => rfl
  | act a k ih => simp only [Prog.bind]; congr 1; funext b; exact ih b

theorem whole_resolveFrom {β : Type} {Q : View → β → Prop} (r : SliceRef) (m : Nat) : ∀ (i n : Nat)
    (f : List (Option Ptr) → Prog β),
    (∀ n' ps, n ≤ n' → PtrsIn n' ps → Whole P tok Q (.free n') (f ps)) →
    Whole P tok Q (.free n) (Repo.resolveFrom r i m >>= f) := by
  induction m with
  | zero => intro i n f h; exact h n [] (Nat.le_refl n) (fun p hp => nomatch hp)
  | succ m ih =>
    intro i n f h
    refine ⟨trivial, fun x => ?_⟩
    refine ⟨?_, fun n₁ p hn hp => ?_⟩
    · show Whole P tok Q (.free n) ((Repo.resolveFrom r (i + 1) m >>= fun ps => pure (none :: ps)) >>= f)
      have : ((Repo.resolveFrom r (i + 1) m >>= fun ps => pure (none :: ps)) >>= f)
          = (Repo.resolveFrom r (i + 1) m >>= fun ps => f (none :: ps)) := bind_assoc' _ _ _
      rw [this]
      refine ih (i + 1) n _ fun n' ps h1 h2 => h n' _ h1 ?_
      intro q hq
      simp only [List.mem_cons, reduceCtorEq, false_or] at hq
      exact h2 q hq
    · show Whole P tok Q (.free n₁) ((Repo.resolveFrom r (i + 1) m >>= fun ps => pure (some p :: ps)) >>= f)
      have : ((Repo.resolveFrom r (i + 1) m >>= fun ps => pure (some p :: ps)) >>= f)
          = (Repo.resolveFrom r (i + 1) m >>= fun ps => f (some p :: ps)) := bind_assoc' _ _ _
      rw [this]
      refine ih (i + 1) n₁ _ fun n' ps h1 h2 => h n' _ (Nat.le_trans hn h1) ?_
      intro q hq
      simp only [List.mem_cons, Option.some.injEq] at hq
      rcases hq with rfl | hq
      · exact Nat.lt_of_lt_of_le hp h1
      · exact h2 q hq

theorem nonNil_mem : ∀ {l : List (Option Ptr)} {ps : List Ptr}, Repo.nonNil l = some ps → ∀ p ∈ ps, some p ∈ l := by
  intro l
  induction l with
  | nil => intro ps h p hp; simp only [Repo.nonNil, Option.some.injEq] at h; subst h; cases hp
  | cons x l ih =>
    intro ps h p hp
    cases x with
    | none => cases h
    | some q =>
      simp only [Repo.nonNil, Option.map_eq_some_iff] at h
      obtain ⟨ps', h1, rfl⟩ := h
      rcases List.mem_cons.1 hp with rfl | hp
      · simp
      · exact List.mem_cons_of_mem _ (ih h1 p hp)

theorem whole_searchIndex {β : Type} {Q : View → β → Prop} {n : Nat} {p : Ptr} (hp : p < n) (ts : Str) (e : Engine)
    (f : List SearchResult → Prog β) (h : ∀ res, Whole P tok Q (.free n) (f res)) :
    Whole P tok Q (.free n) (Repo.searchIndex p ts e >>= f) := by
  refine ⟨hp, fun b => ?_⟩
  cases b with
  | none => trivial
  | some sr => exact h sr

theorem whole_searchAll {β : Type} {Q : View → β → Prop} {n : Nat} (ts : Str) (e : Engine) (ps : List Ptr) :
    ∀ (_ : ∀ p ∈ ps, p < n) (f : List SearchResult → Prog β) (_ : ∀ res, Whole P tok Q (.free n) (f res)),
    Whole P tok Q (.free n) (Repo.searchAll ts e ps >>= f) := by
  induction ps with
  | nil => intro _ f h; exact h []
  | cons p ps ih =>
    intro hps f h
    have : (Repo.searchAll ts e (p :: ps) >>= f)
        = Repo.searchIndex p ts e >>= fun sr => Repo.searchAll ts e ps >>= fun rest => f (sr ++ rest) := by
      show ((Repo.searchIndex p ts e >>= fun sr => Repo.searchAll ts e ps >>= fun rest => pure (sr ++ rest)) >>= f) = _
      rw [bind_assoc']
      congr 1
      funext sr
      rw [bind_assoc']
      rfl
    rw [this]
    exact whole_searchIndex (hps p (by simp)) ts e _ fun sr =>
      ih (fun q hq => hps q (List.mem_cons_of_mem _ hq)) _ fun rest => h _

theorem whole_searchTargets {β : Type} {Q : View → β → Prop} {n : Nat} {l : List (Option Ptr)} (hl : PtrsIn n l) (ts : Str)
    (e : Engine) (f : List SearchResult → Prog β) (h : ∀ res, Whole P tok Q (.free n) (f res)) :
    Whole P tok Q (.free n) (Repo.searchTargets l ts e >>= f) := by
  unfold Repo.searchTargets
  cases hn : Repo.nonNil l with
  | none => trivial
  | some ps =>
    have hps : ∀ p ∈ ps, p < n := fun p hp => hl p (nonNil_mem hn p hp)
    have gen : Whole P tok Q (.free n) ((perform (.schedule ps) >>= fun ps => Repo.searchAll ts e ps) >>= f) := by
      rw [bind_assoc']
      exact fun b hb => whole_searchAll ts e b (fun p hp => hps p (hb.mem_iff.1 hp)) f h
    match ps, hps, gen with
    | [], _, gen => exact gen
    | [p], hps, _ => exact whole_searchIndex (hps p (by simp)) ts e f h
    | _ :: _ :: _, _, gen => exact gen

theorem whole_search (nm : Name) (ts : Str) (e : Engine) :
    Whole P tok (EndOk P tok) (.free 0) (Repo.search nm ts e) := by
  unfold Repo.search
  refine whole_act _ _ fun _ => whole_act _ _ ⟨?_, fun n p _ hp => ?_⟩
  · refine whole_act _ _ fun _ => whole_act _ _ fun r => ?_
    cases r with
    | none => exact whole_act _ _ fun _ => whole_act _ _ fun _ => trivial
    | some r =>
      refine whole_resolveFrom r r.len 0 0 _ fun n' ps _ hps => ?_
      refine whole_act _ _ fun _ => ?_
      exact whole_searchTargets hps ts e _ fun res => whole_act _ _ fun _ => trivial
  · refine whole_searchTargets (l := [some p]) ?_ ts e _ fun res => whole_act _ _ fun _ => trivial
    intro q hq
    simp only [List.mem_singleton, Option.some.injEq] at hq
    subst hq; exact hp

theorem whole_getIndices {β : Type} {Q : View → β → Prop} (nm : Name) (f : Option (List (Option Ptr)) → Prog β)
    (h : ∀ n r, (∀ ps, r = some ps → PtrsIn n ps) → Whole P tok Q (.free n) (f r)) :
    Whole P tok Q (.free 0) (Repo.getIndices nm >>= f) := by
  refine whole_bind f ?_
  unfold Repo.getIndices
  refine whole_act _ _ fun _ => whole_act _ _ ⟨?_, fun n p _ hp => ?_⟩
  · refine whole_act _ _ fun _ => whole_act _ _ fun r => ?_
    cases r with
    | none => exact whole_act _ _ fun _ => whole_act _ _ fun _ => h 0 none (fun _ h => nomatch h)
    | some r =>
      refine whole_resolveFrom r r.len 0 0 _ fun n' ps _ hps => ?_
      exact whole_act _ _ fun _ => whole_act _ _ fun _ => h n' (some ps) (by intro ps' h; cases h; exact hps)
  · refine whole_act _ _ fun _ => h n (some [some p]) ?_
    intro ps' h; cases h
    intro q hq
    simp only [List.mem_singleton, Option.some.injEq] at hq
    subst hq; exact hp

theorem whole_putPostings {β : Type} {Q : View → β → Prop} (p : Ptr) (next : Nat) (toks : List Str) :
    ∀ (Hp : List MemoryIndex) (mi : MemoryIndex) (_ : Hp[p]? = some mi) (f : Unit → Prog β)
      (_ : Whole P tok Q (.own (Hp.set p { mi with inverted := toks.foldl (addPosting next) mi.inverted })) (f ())),
    Whole P tok Q (.own Hp) (Repo.putPostings p next toks >>= f) := by
  induction toks with
  | nil =>
    intro Hp mi hmi f h
    have : Hp.set p mi = Hp := by
      obtain ⟨hlt, he⟩ := List.getElem?_eq_some_iff.1 hmi
      rw [← he]; exact List.set_getElem_self hlt
    simp only [List.foldl_nil, this] at h
    exact h
  | cons tk toks ih =>
    intro Hp mi hmi f h
    refine ⟨mi, hmi, ?_⟩
    have hlt := (List.getElem?_eq_some_iff.1 hmi).1
    refine ih _ { mi with inverted := addPosting next mi.inverted tk } ?_ f ?_
    · rw [List.getElem?_set_self hlt]
    · simp only [List.set_set]
      exact h

theorem whole_putIndex {β : Type} {Q : View → β → Prop} (cfg : Cfg) (p : Ptr) (doc : DocRequest) (Hp : List MemoryIndex)
    (mi : MemoryIndex) (hmi : Hp[p]? = some mi) (f : Unit → Prog β)
    (h : Whole P tok Q (.own (Hp.set p (mi.put cfg.tok doc))) (f ())) :
    Whole P tok Q (.own Hp) (Repo.putIndex cfg p doc >>= f) := by
  have hlt := (List.getElem?_eq_some_iff.1 hmi).1
  refine ⟨mi, hmi, ?_⟩
  refine whole_putPostings p _ _ _ { mi with docs := mi.docs ++ [newDoc doc.id doc.raw] } ?_ f ?_
  · rw [List.getElem?_set_self hlt]
  · simp only [List.set_set]
    exact h

theorem heapOk_put {Hp : List MemoryIndex} (h : HeapOk P tok Hp) {p : Ptr} {mi : MemoryIndex} (hmi : Hp[p]? = some mi)
    {doc : DocRequest} (hd : P doc) : HeapOk P tok (Hp.set p (mi.put tok doc)) := by
  intro m hm
  rcases List.mem_or_eq_of_mem_set hm with hm | rfl
  · exact h m hm
  · obtain ⟨nm, rs, h1, h2, _⟩ := h mi (List.mem_of_getElem? hmi)
    refine ⟨nm, rs ++ [doc], ?_, ?_, by simp⟩
    · rw [buildIndex_snoc, ← h1]
    · intro r hr
      simp only [List.mem_append, List.mem_singleton] at hr
      rcases hr with hr | rfl
      · exact h2 r hr
      · exact hd

theorem whole_putAll {β : Type} {Q : View → β → Prop} (cfg : Cfg) {doc : DocRequest} (hd : P doc) (ps : List Ptr) :
    ∀ (Hp : List MemoryIndex) (_ : HeapOk P cfg.tok Hp) (_ : ∀ p ∈ ps, p < Hp.length) (f : Unit → Prog β)
      (_ : ∀ Hp', HeapOk P cfg.tok Hp' → Whole P cfg.tok Q (.own Hp') (f ())),
    Whole P cfg.tok Q (.own Hp) (Repo.putAll cfg doc ps >>= f) := by
  induction ps with
  | nil => intro Hp hok _ f h; exact h Hp hok
  | cons p ps ih =>
    intro Hp hok hps f h
    have hlt := hps p (by simp)
    have hmi : Hp[p]? = some Hp[p] := List.getElem?_eq_getElem hlt
    have : (Repo.putAll cfg doc (p :: ps) >>= f) = Repo.putIndex cfg p doc >>= fun _ => Repo.putAll cfg doc ps >>= f := by
      show ((Repo.putIndex cfg p doc >>= fun _ => Repo.putAll cfg doc ps) >>= f) = _
      rw [bind_assoc']
    rw [this]
    refine whole_putIndex cfg p doc Hp _ hmi _ ?_
    refine ih _ (heapOk_put hok hmi hd) ?_ f h
    intro q hq
    rw [List.length_set]
    exact hps q (List.mem_cons_of_mem _ hq)

theorem whole_put (cfg : Cfg) (nm : Name) {doc : DocRequest} (hd : P doc) :
    Whole P cfg.tok (EndOk P cfg.tok) (.free 0) (Repo.put cfg nm doc) := by
  unfold Repo.put
  refine whole_getIndices nm _ fun n r hr => ?_
  refine whole_bind _ (show Whole P cfg.tok _ (.free n) (Repo.lock .indices) from fun _ Hp hok hn => ?_)
  cases r with
  | none =>
    refine whole_act _ _ (show Whole P cfg.tok _ (.own _) _ from ?_)
    refine whole_act _ _ ⟨by simp, ?_⟩
    refine whole_putIndex cfg Hp.length doc _ (newMemoryIndex nm) (by simp) _ ?_
    refine ⟨?_, trivial⟩
    rw [List.set_append_right _ _ (Nat.le_refl _), Nat.sub_self]
    intro m hm
    simp only [List.set_cons_zero, List.mem_append, List.mem_singleton] at hm
    rcases hm with hm | rfl
    · exact hok m hm
    · exact ⟨nm, [doc], rfl, fun r hr => by simp at hr; exact hr ▸ hd, nofun⟩
  | some ps =>
    dsimp only
    unfold Repo.putTargets
    cases hnn : Repo.nonNil ps with
    | none => trivial
    | some qs =>
      dsimp only
      split
      · rw [bind_assoc']
        refine whole_act _ _ fun qs' hq => ?_
        refine whole_putAll cfg hd qs' Hp hok ?_ _ fun Hp' h' => ⟨h', trivial⟩
        intro p hp
        exact Nat.lt_of_lt_of_le (hr ps rfl p (nonNil_mem hnn p (hq.mem_iff.1 hp))) hn
      · trivial

theorem whole_rename (o n : Name) : Whole P tok (EndOk P tok) (.free 0) (Repo.rename o n) := by
  unfold Repo.rename
  refine whole_bind _ (show Whole P tok _ (.free 0) (Repo.lock .indices) from fun _ Hp hok hn => ?_)
  refine whole_act _ _ ⟨⟨hok, trivial⟩, fun p hp => ?_⟩
  refine whole_act _ _ ⟨hp, ?_⟩
  refine whole_act _ _ fun _ => whole_act _ _ fun ks => ?_
  refine whole_loop _ (plain_renameAliases o n ks) hok fun v' _ hv => ?_
  cases v' with
  | free n => cases hv
  | own Hp' => cases hv; exact ⟨hok, trivial⟩

theorem whole_drop (nm : Name) : Whole P tok (EndOk P tok) (.free 0) (Repo.drop nm) := by
  unfold Repo.drop
  have gen : ∀ n, Whole P tok (EndOk P tok) (.free n) (do
      perform (.runlock .indices)
      Repo.lock .indices
      Repo.lock .aliases
      let ks ← perform .alKeys
      Repo.dropAliases nm ks
      perform (.idxDel nm)
      perform (.unlock .indices)
      perform (.unlock .aliases)
      return true) := by
    intro n
    refine whole_act _ _ fun _ => ?_
    refine whole_bind _ (show Whole P tok _ (.free n) (Repo.lock .indices) from fun _ Hp hok hn => ?_)
    refine whole_bind _ (show Whole P tok _ (.own Hp) (Repo.lock .aliases) from fun _ _ => ?_)
    refine whole_act _ _ fun ks => ?_
    refine whole_loop _ (plain_dropAliases nm ks) hok fun v' _ hv => ?_
    cases v' with
    | free n => cases hv
    | own Hp' => cases hv; exact whole_act _ _ fun _ => ⟨hok, whole_act _ _ fun _ => trivial⟩
  refine whole_act _ _ fun _ => whole_act _ _ ⟨?_, fun n p _ _ => gen n⟩
  exact whole_act _ _ fun _ => trivial

theorem whole_renderAll (ks : List Name) : ∀ n, Whole P tok (EndOk P tok) (.free n) (Repo.renderAll ks) := by
  induction ks with
  | nil => intro n; trivial
  | cons k ks ih =>
    intro n
    refine whole_act _ _ ⟨ih n, fun n' p _ hp => ?_⟩
    exact whole_act _ _ ⟨hp, fun text => whole_bind _ ((ih n').mono fun _ _ h => h)⟩

theorem whole_string : Whole P tok (EndOk P tok) (.free 0) Repo.string := by
  unfold Repo.string
  refine whole_act _ _ fun _ => whole_act _ _ fun ks => whole_bind _ ((whole_renderAll ks 0).mono fun v _ h => ?_)
  exact whole_act _ _ fun _ => h

theorem whole_map {α β : Type} {p : Prog α} {v : View} (f : α → β) (h : Whole P tok (EndOk P tok) v p) :
    Whole P tok (EndOk P tok) v (do return f (← p)) :=
  whole_bind _ (h.mono fun _ _ h => h)

/-- The requests a call puts. -/
def Op.puts : Op → Option DocRequest
  | .put _ d => some d
  | _ => none

/-- The calls that neither look into an index nor change the table of indices. -/
def Op.onlyAliases : Op → Bool
  | .list | .listAliases | .has _ | .hasAlias _ | .alias .. | .unAlias .. => true
  | _ => false

/-- The calls that only read or work on aliases. -/
theorem plain_op (cfg : Cfg) (op : Op) (h : op.onlyAliases = true) : Plain (op.prog cfg) := by
  cases op with
  | list =>
    refine plain_bind ?_ fun _ => trivial
    exact plain_act _ _ rfl fun _ => plain_act _ _ rfl fun _ => plain_act _ _ rfl fun _ => trivial
  | listAliases =>
    refine plain_bind ?_ fun _ => trivial
    exact plain_act _ _ rfl fun _ => plain_act _ _ rfl fun ks => plain_bind (plain_listRows ks) fun _ =>
      plain_act _ _ rfl fun _ => trivial
  | has n =>
    refine plain_bind ?_ fun _ => trivial
    exact plain_act _ _ rfl fun _ => plain_act _ _ rfl fun _ => plain_act _ _ rfl fun _ => trivial
  | hasAlias n =>
    refine plain_bind ?_ fun _ => trivial
    exact plain_act _ _ rfl fun _ => plain_act _ _ rfl fun _ => plain_act _ _ rfl fun _ => trivial
  | alias a i =>
    refine plain_bind ?_ fun _ => trivial
    unfold Repo.alias
    refine plain_act _ _ rfl fun _ => plain_act _ _ rfl fun x => ?_
    cases x with
    | none => exact plain_act _ _ rfl fun _ => trivial
    | some p =>
      refine plain_bind (p := Repo.lock .aliases) ⟨rfl, fun _ => ⟨rfl, fun _ => trivial⟩⟩ fun _ => ?_
      refine plain_act _ _ rfl fun r => ?_
      have tl : ∀ b : Bool, Plain (do perform (.unlock .aliases); perform (.runlock .indices); return b) :=
        fun b => plain_act _ _ rfl fun _ => plain_act _ _ rfl fun _ => trivial
      cases r with
      | none => exact plain_act _ _ rfl fun _ => plain_act _ _ rfl fun _ => tl _
      | some r =>
        refine plain_bind (plain_sliceHas r i r.len 0) fun ex => ?_
        cases ex
        · exact plain_act _ _ rfl fun _ => plain_act _ _ rfl fun _ => tl _
        · exact tl _
  | unAlias a i =>
    refine plain_bind ?_ fun _ => trivial
    unfold Repo.unAlias
    have lk : Plain (Repo.lock .aliases) := ⟨rfl, fun _ => ⟨rfl, fun _ => trivial⟩⟩
    split
    · refine plain_bind lk fun _ => plain_act _ _ rfl fun r => plain_act _ _ rfl fun _ => plain_act _ _ rfl fun _ => trivial
    · refine plain_act _ _ rfl fun _ => plain_act _ _ rfl fun x => ?_
      cases x with
      | none => trivial
      | some p =>
        refine plain_act _ _ rfl fun _ => plain_bind lk fun _ => plain_act _ _ rfl fun r => ?_
        cases r with
        | none => trivial
        | some r =>
          refine plain_bind (plain_readFrom r r.len 0) fun xs => ?_
          dsimp only
          split
          · exact plain_act _ _ rfl fun _ => plain_act _ _ rfl fun _ => plain_act _ _ rfl fun _ => trivial
          · exact plain_act _ _ rfl fun _ => trivial
  | _ => cases h

theorem whole_op (cfg : Cfg) (op : Op) (hP : ∀ d, op.puts = some d → P d) :
    Whole P cfg.tok (EndOk P cfg.tok) (.free 0) (op.prog cfg) := by
  have pl : op.onlyAliases = true → Whole P cfg.tok (EndOk P cfg.tok) (.free 0) (op.prog cfg) :=
    fun h => whole_plain (plain_op cfg op h) trivial fun _ _ hv => View.ok_le hv trivial
  cases op with
  | put n d => exact whole_map (fun _ => Ret.unit) (whole_put cfg n (hP d rfl))
  | search n ts e =>
    refine whole_bind _ ((whole_search n ts e).mono fun v r h => ?_)
    cases r <;> exact h
  | rename o n => exact whole_map Ret.bool (whole_rename o n)
  | drop n => exact whole_map Ret.bool (whole_drop n)
  | string => exact whole_map Ret.text whole_string
  | _ => exact pl rfl

end Visigoth
