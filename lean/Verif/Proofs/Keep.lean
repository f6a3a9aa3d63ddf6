import Verif.Proofs.WholeInv
import Verif.Proofs.Naming
/-!
# No `Put` to a bound name is lost

A direct invariant, for all executions: what a call knows of the index of a name `n` that stays bound to
the object `p`.
-/
namespace Visigoth

/-- `rs` has the elements of `base`, and possibly more. -/
def Extends (rs base : List DocRequest) : Prop := ∃ ex, rs.Perm (base ++ ex)

theorem Extends.refl (rs : List DocRequest) : Extends rs rs := ⟨[], by simp⟩

theorem Extends.nil (rs : List DocRequest) : Extends rs [] := ⟨rs, by simp⟩

theorem Extends.trans {a b c : List DocRequest} (h : Extends a b) (g : Extends b c) : Extends a c := by
  obtain ⟨x, hx⟩ := h
  obtain ⟨y, hy⟩ := g
  exact ⟨y ++ x, by rw [← List.append_assoc]; exact hx.trans (hy.append_right x)⟩

theorem Extends.snoc {a b : List DocRequest} (h : Extends a b) (d : DocRequest) : Extends (a ++ [d]) b := by
  obtain ⟨x, hx⟩ := h
  exact ⟨x ++ [d], by rw [← List.append_assoc]; exact hx.append_right [d]⟩

theorem Extends.add {a b : List DocRequest} (h : Extends a b) (d : List DocRequest) : Extends (a ++ d) (b ++ d) := by
  obtain ⟨x, hx⟩ := h
  refine ⟨x, (hx.append_right d).trans ?_⟩
  simp only [List.append_assoc]
  exact List.perm_append_comm.append_left b

theorem Extends.perm {a b c : List DocRequest} (h : Extends a b) (hp : b.Perm c) : Extends a c := by
  obtain ⟨x, hx⟩ := h
  exact ⟨x, hx.trans (hp.append_right x)⟩

/-- What a call knows of the object `p`: with the index mutex held exclusively the object itself and the
requests it was made of when the mutex was taken; otherwise whether it has released the mutex. -/
inductive KView
  | free (over : Bool)
  | own (rs : List DocRequest) (mi : MemoryIndex)

/-- The object is whole. -/
def KView.ok (tok : Tokenizer) : KView → Prop
  | .free _ => True
  | .own rsA mi => ∃ nm rs, mi = buildIndex tok nm rs ∧ Extends rs rsA

/-- The document a call puts under `n`. -/
def Op.mine (n : Name) : Op → Option DocRequest
  | .put m d => if m = n then some d else none
  | _ => none

/-- A `Put` to `n` that has released the mutex is over. -/
def KView.busy (mine : Option DocRequest) (v : KView) : Prop := mine.isSome = true → v ≠ .free true

/-- A call that is over: a `Put` to `n` has had the mutex and has released it. -/
def KView.ended (tok : Tokenizer) (mine : Option DocRequest) : KView → Prop
  | .free d => mine.isSome = true → d = true
  | .own rsA mi => mine = none ∧ (KView.own rsA mi).ok tok

section

variable (cfg : Cfg) (n : Name) (p : Ptr) (K : Option Ptr → Prop) (mine : Option DocRequest) (base : List DocRequest)

/-- What an action needs for `Φ` to hold afterwards; `K` is what the table may have for `n`. -/
def wpK {β : Type} (v : KView) : Act β → (KView → β → Prop) → Prop
  | .acquire .indices, Φ =>
    match v with
    | .free false => ∀ rsA nm, Φ (.own rsA (buildIndex cfg.tok nm rsA)) ()
    | _ => False
  | .unlock .indices, Φ =>
    match v with
    | .own rsA mi => (∃ nm rs, mi = buildIndex cfg.tok nm rs ∧ Extends rs (rsA ++ mine.toList)) ∧ Φ (.free true) ()
    | _ => False
  | .newIndex _, Φ =>
    match v with
    | .own rsA mi => ∀ q, (q ≠ p → Φ (.own rsA mi) q) ∧ (q = p → ∀ nm, Φ (.own [] (buildIndex cfg.tok nm [])) q)
    | _ => False
  | .docAppend q d, Φ =>
    match v with
    | .own rsA mi =>
      (q = p → Φ (.own rsA { mi with docs := mi.docs ++ [d] }) mi.docs.length) ∧ (q ≠ p → ∀ b, Φ (.own rsA mi) b)
    | _ => False
  | .postAdd q tk next, Φ =>
    match v with
    | .own rsA mi =>
      (q = p → Φ (.own rsA { mi with inverted := addPosting next mi.inverted tk }) ()) ∧ (q ≠ p → Φ (.own rsA mi) ())
    | _ => False
  | .evalEngine q ts e, Φ =>
    match v with
    | .free d => (q = p → ∀ rs, Extends rs base → Φ (.free d) (specSearch cfg rs ts e)) ∧ (q ≠ p → ∀ b, Φ (.free d) b)
    | _ => False
  | .idxGet m, Φ => ∀ b, (m = n → K b) → Φ v b
  | .idxSet m _, Φ => m ≠ n ∧ Φ v ()
  | .idxDel m, Φ => m ≠ n ∧ Φ v ()
  | .schedule ps, Φ => ∀ b, b.Perm ps → Φ v b
  | .slRead .., Φ => v.ok cfg.tok ∧ ∀ b, Φ v b
  | .slWrite .., Φ => v.ok cfg.tok ∧ ∀ b, Φ v b
  | .slAppend .., Φ => v.ok cfg.tok ∧ ∀ b, Φ v b
  | _, Φ => ∀ b, Φ v b

/-- The rest of a program keeps the index of `n`. -/
def Retains {α : Type} (Q : KView → α → Prop) (v : KView) : Prog α → Prop
  | .ret a => Q v a
  | .crash _ => v.ok cfg.tok
  | .act a k => v.busy mine ∧ wpK cfg n p K mine base v a fun v' b => Retains Q v' (k b)

end

variable {cfg : Cfg} {n : Name} {p : Ptr} {K : Option Ptr → Prop} {mine : Option DocRequest} {base : List DocRequest}

theorem wpK_mono {β : Type} {v : KView} {a : Act β} {Φ Ψ : KView → β → Prop} (h : ∀ v' b, Φ v' b → Ψ v' b)
    (hw : wpK cfg n p K mine base v a Φ) : wpK cfg n p K mine base v a Ψ := by
  cases a
  case acquire m =>
    cases m
    · cases v with
      | free d =>
        cases d
        · exact fun rsA nm => h _ _ (hw rsA nm)
        · exact hw
      | own => exact hw
    · exact fun b => h _ _ (hw b)
  case unlock m =>
    cases m
    · cases v
      · exact hw
      · exact ⟨hw.1, h _ _ hw.2⟩
    · exact fun b => h _ _ (hw b)
  case newIndex nm => cases v; exact hw; exact fun q => ⟨fun e => h _ _ ((hw q).1 e), fun e nm => h _ _ ((hw q).2 e nm)⟩
  case docAppend q d => cases v; exact hw; exact ⟨fun e => h _ _ (hw.1 e), fun e b => h _ _ (hw.2 e b)⟩
  case postAdd q tk nx => cases v; exact hw; exact ⟨fun e => h _ _ (hw.1 e), fun e => h _ _ (hw.2 e)⟩
  case evalEngine q ts e =>
    cases v
    · exact ⟨fun e rs hrs => h _ _ (hw.1 e rs hrs), fun e b => h _ _ (hw.2 e b)⟩
    · exact hw
  case idxGet m => exact fun b e => h _ _ (hw b e)
  case idxSet m q => exact ⟨hw.1, h _ _ hw.2⟩
  case idxDel m => exact ⟨hw.1, h _ _ hw.2⟩
  case schedule ps => exact fun b hb => h _ _ (hw b hb)
  case slRead r i => exact ⟨hw.1, fun b => h _ _ (hw.2 b)⟩
  case slWrite r i w => exact ⟨hw.1, fun b => h _ _ (hw.2 b)⟩
  case slAppend r w => exact ⟨hw.1, fun b => h _ _ (hw.2 b)⟩
  all_goals exact fun b => h _ _ (hw b)

theorem keep_mono {α : Type} {Q R : KView → α → Prop} (hQR : ∀ v a, Q v a → R v a) :
    ∀ {q : Prog α} {v : KView}, Retains cfg n p K mine base Q v q → Retains cfg n p K mine base R v q := by
  intro q
  induction q with
  | ret a => intro v h; exact hQR _ _ h
  | crash c => intro v h; exact h
  | act a k ih => intro v h; exact ⟨h.1, wpK_mono (fun v' b h' => ih b h') h.2⟩

theorem keep_bind {α β : Type} {Q : KView → β → Prop} (f : α → Prog β) :
    ∀ {q : Prog α} {v : KView}, Retains cfg n p K mine base (fun v a => Retains cfg n p K mine base Q v (f a)) v q →
      Retains cfg n p K mine base Q v (q >>= f) := by
  intro q
  show ∀ {v : KView}, _ → Retains cfg n p K mine base Q v (q.bind f)
  induction q with
  | ret a => intro v h; exact h
  | crash c => intro v h; exact h
  | act a k ih => intro v h; exact ⟨h.1, wpK_mono (fun v' b h' => ih b h') h.2⟩

theorem keep_act {α β : Type} {Q : KView → α → Prop} {v : KView} (a : Act β) (f : β → Prog α) (hb : v.busy mine)
    (h : wpK cfg n p K mine base v a fun v' b => Retains cfg n p K mine base Q v' (f b)) :
    Retains cfg n p K mine base Q v (perform a >>= f) := ⟨hb, h⟩

/-- Loops that only read the table of indices and work on aliases. -/
theorem keep_loop {α β : Type} {Q : KView → β → Prop} {v : KView} (hb : v.busy mine) (hok : v.ok cfg.tok) (f : α → Prog β)
    (hk : ∀ a, Retains cfg n p K mine base Q v (f a)) : ∀ {q : Prog α}, Plain q → Names .list q →
      Retains cfg n p K mine base Q v (q >>= f) := by
  intro q
  show _ → _ → Retains cfg n p K mine base Q v (q.bind f)
  induction q with
  | ret a => intro _ _; exact hk a
  | crash c => intro _ _; exact hok
  | act a k ih =>
    intro hp hN
    have g := fun b => ih b (hp.2 b) (hN.2.2 b)
    refine ⟨hb, ?_⟩
    have h1 := hp.1
    cases a
    case acquire m => cases m; cases h1; exact g
    case unlock m => cases m; cases h1; exact g
    case newIndex => cases h1
    case docAppend => cases h1
    case postAdd => cases h1
    case evalEngine => cases h1
    case render => cases h1
    case idxSet => cases h1
    case idxDel m => exact absurd (hN.2.1 m rfl) id
    case idxGet m => exact fun b _ => g b
    case schedule ps => exact fun b _ => g b
    case slRead => exact ⟨hok, g⟩
    case slWrite => exact ⟨hok, g⟩
    case slAppend => exact ⟨hok, g⟩
    all_goals exact g

theorem own_ok (tok : Tokenizer) (rsA : List DocRequest) (nm : Str) : (KView.own rsA (buildIndex tok nm rsA)).ok tok :=
  ⟨nm, rsA, rfl, .refl _⟩

theorem own_busy (rsA : List DocRequest) (mi : MemoryIndex) : (KView.own rsA mi).busy mine := fun _ h => nomatch h

theorem free_busy : (KView.free false).busy mine := fun _ h => nomatch h

/-! ## Methods -/

theorem keep_lock {β : Type} {Q : KView → β → Prop} (f : Unit → Prog β)
    (h : ∀ rsA nm, Retains cfg n p K mine base Q (.own rsA (buildIndex cfg.tok nm rsA)) (f ())) :
    Retains cfg n p K mine base Q (.free false) (Repo.lock .indices >>= f) :=
  ⟨free_busy, fun _ => ⟨free_busy, h⟩⟩

theorem keep_putPostings {β : Type} {Q : KView → β → Prop} (rsA : List DocRequest) (next : Nat) (toks : List Str) :
    ∀ (mi : MemoryIndex) (f : Unit → Prog β),
      Retains cfg n p K mine base Q (.own rsA { mi with inverted := toks.foldl (addPosting next) mi.inverted }) (f ()) →
      Retains cfg n p K mine base Q (.own rsA mi) (Repo.putPostings p next toks >>= f) := by
  induction toks with
  | nil => intro mi f h; exact h
  | cons tk toks ih =>
    intro mi f h
    exact ⟨own_busy _ _, fun _ => ih { mi with inverted := addPosting next mi.inverted tk } f h, fun e => absurd rfl e⟩

theorem keep_putPostings_ne {β : Type} {Q : KView → β → Prop} {q : Ptr} (hq : q ≠ p) (rsA : List DocRequest) (mi : MemoryIndex)
    (next : Nat) (f : Unit → Prog β) (h : Retains cfg n p K mine base Q (.own rsA mi) (f ())) : ∀ toks : List Str,
      Retains cfg n p K mine base Q (.own rsA mi) (Repo.putPostings q next toks >>= f)
  | [] => h
  | _ :: toks => ⟨own_busy _ _, fun e => absurd e hq, fun _ => keep_putPostings_ne hq rsA mi next f h toks⟩

/-- `Put` into an object: the one of `n` gains the document. -/
theorem keep_putIndex {β : Type} {Q : KView → β → Prop} (q : Ptr) (doc : DocRequest) (rsA : List DocRequest) (mi : MemoryIndex)
    (f : Unit → Prog β)
    (h : Retains cfg n p K mine base Q (.own rsA (if q = p then mi.put cfg.tok doc else mi)) (f ())) :
    Retains cfg n p K mine base Q (.own rsA mi) (Repo.putIndex cfg q doc >>= f) := by
  by_cases e : q = p
  · subst e
    rw [if_pos rfl] at h
    exact ⟨own_busy _ _, fun _ => keep_putPostings rsA _ _ { mi with docs := mi.docs ++ [newDoc doc.id doc.raw] } f h,
      fun e => absurd rfl e⟩
  · rw [if_neg e] at h
    exact ⟨own_busy _ _, fun e' => absurd e' e, fun _ b => keep_putPostings_ne e rsA mi _ f h _⟩

theorem keep_putAll {β : Type} {Q : KView → β → Prop} (doc : DocRequest) (rsA : List DocRequest) (nm : Str) (ps : List Ptr) :
    ∀ (rs : List DocRequest) (f : Unit → Prog β), Extends rs rsA → (∀ rs', Extends rs' rsA →
      Extends rs' (rs ++ if p ∈ ps then [doc] else []) → Retains cfg n p K mine base Q (.own rsA (buildIndex cfg.tok nm rs')) (f ())) →
    Retains cfg n p K mine base Q (.own rsA (buildIndex cfg.tok nm rs)) (Repo.putAll cfg doc ps >>= f) := by
  induction ps with
  | nil => intro rs f he h; exact h rs he (by simpa using Extends.refl rs)
  | cons q ps ih =>
    intro rs f he h
    have : (Repo.putAll cfg doc (q :: ps) >>= f) = Repo.putIndex cfg q doc >>= fun _ => Repo.putAll cfg doc ps >>= f := by
      show ((Repo.putIndex cfg q doc >>= fun _ => Repo.putAll cfg doc ps) >>= f) = _
      rw [bind_assoc']
    rw [this]
    refine keep_putIndex q doc rsA _ _ ?_
    by_cases e : q = p
    · rw [if_pos e, ← buildIndex_snoc]
      refine ih _ f (he.snoc doc) fun rs' h1 h2 => h rs' h1 ?_
      rw [if_pos (by rw [e]; exact List.mem_cons_self ..)]
      exact h2.trans ⟨_, List.Perm.refl _⟩
    · rw [if_neg e]
      refine ih rs f he fun rs' h1 h2 => h rs' h1 ?_
      have : p ∈ q :: ps ↔ p ∈ ps := by
        rw [List.mem_cons]
        exact ⟨fun h => h.resolve_left (Ne.symm e), .inr⟩
      simpa only [this] using h2

theorem mem_nonNil : ∀ {l : List (Option Ptr)} {ps : List Ptr} {q : Ptr}, Repo.nonNil l = some ps → some q ∈ l → q ∈ ps := by
  intro l
  induction l with
  | nil => intro ps q _ h; cases h
  | cons x l ih =>
    intro ps q h hq
    cases x with
    | none => cases h
    | some r =>
      simp only [Repo.nonNil, Option.map_eq_some_iff] at h
      obtain ⟨ps', h1, rfl⟩ := h
      rcases List.mem_cons.1 hq with e | hq
      · cases e; exact List.mem_cons_self ..
      · exact List.mem_cons_of_mem _ (ih h1 hq)

theorem keep_putTargets {β : Type} {Q : KView → β → Prop} (doc : DocRequest) (rsA : List DocRequest) (nm : Str)
    (ts : List (Option Ptr)) (f : Unit → Prog β) (h : ∀ rs', Extends rs' rsA → (some p ∈ ts → Extends rs' (rsA ++ [doc])) →
      Retains cfg n p K mine base Q (.own rsA (buildIndex cfg.tok nm rs')) (f ())) :
    Retains cfg n p K mine base Q (.own rsA (buildIndex cfg.tok nm rsA)) (Repo.putTargets cfg ts doc >>= f) := by
  unfold Repo.putTargets
  cases hnn : Repo.nonNil ts with
  | none => exact own_ok _ _ _
  | some qs =>
    dsimp only
    split
    · rw [bind_assoc']
      refine keep_act _ _ (own_busy _ _) fun qs' hq => ?_
      refine keep_putAll doc rsA nm qs' rsA f (.refl _) fun rs' h1 h2 => h rs' h1 fun hp => ?_
      have : p ∈ qs' := hq.mem_iff.2 (mem_nonNil hnn hp)
      rwa [if_pos this] at h2
    · exact own_ok _ _ _

theorem plain_resolveFrom (r : SliceRef) (k : Nat) : ∀ i, Plain (Repo.resolveFrom r i k) := by
  induction k with
  | zero => intro i; trivial
  | succ k ih => intro i; exact plain_act _ _ rfl fun _ => plain_act _ _ rfl fun _ => plain_bind (ih (i + 1)) fun _ => trivial

theorem keep_getIndices {β : Type} {Q : KView → β → Prop} (m : Name) (f : Option (List (Option Ptr)) → Prog β)
    (h : ∀ r, (m = n → (∀ b, K b → b = some p) → r = some [some p]) → Retains cfg n p K mine base Q (.free false) (f r)) :
    Retains cfg n p K mine base Q (.free false) (Repo.getIndices m >>= f) := by
  refine keep_bind f ?_
  unfold Repo.getIndices
  refine keep_act _ _ free_busy fun _ => keep_act _ _ free_busy fun b e => ?_
  cases b with
  | some q => exact keep_act _ _ free_busy fun _ => h _ fun hm hK => by rw [hK _ (e hm)]
  | none =>
    have hr : ∀ r, Retains cfg n p K mine base Q (.free false) (f r) := fun r => h r fun hm hK => nomatch hK _ (e hm)
    refine keep_act _ _ free_busy fun _ => keep_act _ _ free_busy fun r => ?_
    cases r with
    | none => exact keep_act _ _ free_busy fun _ => keep_act _ _ free_busy fun _ => hr _
    | some r =>
      refine keep_loop free_busy trivial _ (fun ps => ?_) (plain_resolveFrom r r.len 0) (names_resolveFrom r r.len 0)
      exact keep_act _ _ free_busy fun _ => keep_act _ _ free_busy fun _ => hr _

/-- The end of a call. -/
def KeptEnd (tok : Tokenizer) (mine : Option DocRequest) (G : Ret → Prop) : KView → Ret → Prop :=
  fun v r => v.ended tok mine ∧ G r

theorem keep_put (m : Name) (doc : DocRequest) (hK : m = n → ∀ b, K b → b = some p) :
    Retains cfg n p K ((Op.put m doc).mine n) base (KeptEnd cfg.tok ((Op.put m doc).mine n) fun _ => True) (.free false)
      ((Op.put m doc).prog cfg) := by
  refine keep_bind (fun _ => pure Ret.unit) (q := Repo.put cfg m doc) ?_
  refine keep_getIndices m _ fun r hr => keep_lock _ fun rsA nm => ?_
  cases r with
  | none =>
    have hm : m ≠ n := fun e => nomatch hr e (hK e)
    have hmine : (Op.put m doc).mine n = none := if_neg hm
    refine keep_act _ _ (own_busy _ _) fun q =>
      ⟨fun hq => keep_act _ _ (own_busy _ _) ⟨hm, ?_⟩, fun hq nm' => keep_act _ _ (own_busy _ _) ⟨hm, ?_⟩⟩
    · refine keep_putIndex q doc rsA _ _ ?_
      rw [if_neg hq]
      refine ⟨own_busy _ _, ⟨nm, rsA, rfl, ?_⟩, fun _ => rfl, trivial⟩
      rw [hmine]
      simpa using Extends.refl rsA
    · refine keep_putIndex q doc [] _ _ ?_
      rw [if_pos hq, ← buildIndex_snoc]
      refine ⟨own_busy _ _, ⟨nm', [doc], rfl, ?_⟩, fun _ => rfl, trivial⟩
      rw [hmine]
      exact .nil _
  | some ts =>
    refine keep_putTargets doc rsA nm ts _ fun rs' h1 h2 => ?_
    refine ⟨own_busy _ _, ⟨nm, rs', rfl, ?_⟩, fun _ => rfl, trivial⟩
    by_cases hm : m = n
    · have := hr hm (hK hm)
      cases this
      rw [show (Op.put m doc).mine n = some doc from if_pos hm]
      exact h2 (List.mem_singleton.2 rfl)
    · rw [show (Op.put m doc).mine n = none from if_neg hm]
      simpa using h1

theorem keep_rename {old new : Name} (ho : old ≠ n) (hn : new ≠ n) :
    Retains cfg n p K none base (KeptEnd cfg.tok none fun _ => True) (.free false) ((Op.rename old new).prog cfg) := by
  refine keep_bind (fun b => pure (Ret.bool b)) (q := Repo.rename old new) ?_
  refine keep_lock _ fun rsA nm => ?_
  have hun : ∃ nm' rs, buildIndex cfg.tok nm rsA = buildIndex cfg.tok nm' rs ∧ Extends rs (rsA ++ (none : Option DocRequest).toList) :=
    ⟨nm, rsA, rfl, by simpa using Extends.refl rsA⟩
  refine keep_act _ _ (own_busy _ _) fun b _ => ?_
  cases b with
  | none => exact ⟨own_busy _ _, hun, (fun _ => rfl), trivial⟩
  | some q =>
    refine keep_act _ _ (own_busy _ _) ⟨hn, ?_⟩
    refine keep_act _ _ (own_busy _ _) ⟨ho, ?_⟩
    refine keep_act _ _ (own_busy _ _) fun ks => ?_
    refine keep_loop (own_busy _ _) (own_ok _ _ _) _ (fun _ => ?_) (plain_renameAliases old new ks)
      (names_avoids (avoids_renameAliases old new ks))
    exact ⟨own_busy _ _, hun, (fun _ => rfl), trivial⟩

theorem keep_drop {m : Name} (hm : m ≠ n) :
    Retains cfg n p K none base (KeptEnd cfg.tok none fun _ => True) (.free false) ((Op.drop m).prog cfg) := by
  refine keep_bind (fun b => pure (Ret.bool b)) (q := Repo.drop m) ?_
  refine keep_act _ _ free_busy fun _ => keep_act _ _ free_busy fun b _ => ?_
  cases b with
  | none => exact keep_act _ _ free_busy fun _ => ⟨(fun h => nomatch h), trivial⟩
  | some q =>
    refine keep_act _ _ free_busy fun _ => keep_lock _ fun rsA nm => ?_
    have hun : ∃ nm' rs, buildIndex cfg.tok nm rsA = buildIndex cfg.tok nm' rs ∧ Extends rs (rsA ++ (none : Option DocRequest).toList) :=
      ⟨nm, rsA, rfl, by simpa using Extends.refl rsA⟩
    refine keep_bind _ (show Retains cfg n p K none base _ (.own rsA _) (Repo.lock .aliases) from
      ⟨own_busy _ _, fun _ => ⟨own_busy _ _, fun _ => ?_⟩⟩)
    refine keep_act _ _ (own_busy _ _) fun ks => ?_
    refine keep_loop (own_busy _ _) (own_ok _ _ _) _ (fun _ => ?_) (plain_dropAliases m ks)
      (names_avoids (avoids_dropAliases m ks))
    refine keep_act _ _ (own_busy _ _) ⟨hm, ?_⟩
    refine keep_act _ _ (own_busy _ _) ⟨hun, ?_⟩
    exact keep_act _ _ (fun h => nomatch h) fun _ => ⟨(fun h => nomatch h), trivial⟩

/-- Engines run without the exclusive lock, and leave the call's view alone. -/
theorem keep_searchAll {β : Type} {Q : KView → β → Prop} (ts : Str) (e : Engine) (ps : List Ptr) :
    ∀ (f : List SearchResult → Prog β), (∀ res, Retains cfg n p K none base Q (.free false) (f res)) →
    Retains cfg n p K none base Q (.free false) (Repo.searchAll ts e ps >>= f) := by
  induction ps with
  | nil => intro f h; exact h []
  | cons q ps ih =>
    intro f h
    have : (Repo.searchAll ts e (q :: ps) >>= f)
        = Repo.searchIndex q ts e >>= fun sr => Repo.searchAll ts e ps >>= fun rest => f (sr ++ rest) := by
      show ((Repo.searchIndex q ts e >>= fun sr => Repo.searchAll ts e ps >>= fun rest => pure (sr ++ rest)) >>= f) = _
      rw [bind_assoc']
      congr 1
      funext sr
      rw [bind_assoc']
      rfl
    rw [this]
    have hb : ∀ b : Option (List SearchResult), Retains cfg n p K none base Q (.free false)
        ((match b with | some sr => pure sr | none => Prog.crash .engine : Prog (List SearchResult)) >>=
          fun sr => Repo.searchAll ts e ps >>= fun rest => f (sr ++ rest)) := by
      intro b
      cases b with
      | none => trivial
      | some sr => exact ih _ fun rest => h _
    exact ⟨free_busy, fun _ rs _ => hb _, fun _ b => hb b⟩

theorem keep_searchTargets {β : Type} {Q : KView → β → Prop} (ts : Str) (e : Engine) (l : List (Option Ptr))
    (f : List SearchResult → Prog β) (h : ∀ res, Retains cfg n p K none base Q (.free false) (f res)) :
    Retains cfg n p K none base Q (.free false) (Repo.searchTargets l ts e >>= f) := by
  unfold Repo.searchTargets
  cases hn : Repo.nonNil l with
  | none => trivial
  | some ps =>
    have gen : Retains cfg n p K none base Q (.free false) ((perform (.schedule ps) >>= fun ps => Repo.searchAll ts e ps) >>= f) := by
      rw [bind_assoc']
      exact keep_act _ _ free_busy fun b _ => keep_searchAll ts e b f h
    match ps, gen with
    | [], gen => exact gen
    | [q], _ =>
      have hb : ∀ b : Option (List SearchResult), Retains cfg n p K none base Q (.free false)
          ((match b with | some sr => pure sr | none => Prog.crash .engine : Prog (List SearchResult)) >>= f) := by
        intro b
        cases b with
        | none => trivial
        | some sr => exact h sr
      exact ⟨free_busy, fun _ rs _ => hb _, fun _ b => hb b⟩
    | _ :: _ :: _, gen => exact gen

/-- What a `Search` of `n` finds. -/
def Op.found (cfg : Cfg) (n : Name) (base : List DocRequest) : Op → Ret → Prop
  | .search m ts e, r => m = n → ∃ rs l, Extends rs base ∧ specSearch cfg rs ts e = some l ∧ r = .results l
  | _, _ => True

theorem keep_search (m : Name) (ts : Str) (e : Engine) {G : Ret → Prop}
    (hG : ∀ r, ((∀ b, K b → b = some p) → (Op.search m ts e).found cfg n base r) → G r) :
    Retains cfg n p K none base (KeptEnd cfg.tok none G) (.free false) ((Op.search m ts e).prog cfg) := by
  refine keep_bind (q := Repo.search m ts e) _ ?_
  unfold Repo.search
  refine keep_act _ _ free_busy fun _ => keep_act _ _ free_busy fun b hb => ?_
  by_cases hex : m = n ∧ ∀ b, K b → b = some p
  · obtain ⟨hm, hK⟩ := hex
    rw [hK b (hb hm)]
    have hb : ∀ b : Option (List SearchResult), (∃ rs, Extends rs base ∧ b = specSearch cfg rs ts e) →
        Retains cfg n p K none base (fun v a => Retains cfg n p K none base (KeptEnd cfg.tok none G) v
          (match a with | some res => pure (Ret.results res) | none => pure Ret.noIndex)) (.free false)
        ((match b with | some sr => pure sr | none => Prog.crash .engine : Prog (List SearchResult)) >>= fun res => do
          perform (.runlock .indices); return some res) := by
      rintro b ⟨rs, hrs, hb⟩
      cases b with
      | none => trivial
      | some l => exact keep_act _ _ free_busy fun _ => ⟨(fun h => nomatch h), hG _ fun _ _ => ⟨rs, l, hrs, hb.symm, rfl⟩⟩
    exact ⟨free_busy, fun _ rs hrs => hb _ ⟨rs, hrs, rfl⟩, fun h => absurd rfl h⟩
  · have fin : ∀ (v : KView) (r : Ret), v = .free false → KeptEnd cfg.tok none G v r :=
      fun v r hv => by subst hv; exact ⟨(fun h => nomatch h), hG _ fun h h' => absurd ⟨h', h⟩ hex⟩
    cases b with
    | some q =>
      exact keep_searchTargets ts e _ _ fun res => keep_act _ _ free_busy fun _ => fin _ _ rfl
    | none =>
      refine keep_act _ _ free_busy fun _ => keep_act _ _ free_busy fun r => ?_
      cases r with
      | none => exact keep_act _ _ free_busy fun _ => keep_act _ _ free_busy fun _ => fin _ _ rfl
      | some r =>
        refine keep_loop free_busy trivial _ (fun ps => ?_) (plain_resolveFrom r r.len 0) (names_resolveFrom r r.len 0)
        refine keep_act _ _ free_busy fun _ => ?_
        exact keep_searchTargets ts e _ _ fun res => keep_act _ _ free_busy fun _ => fin _ _ rfl

theorem keep_renderAll {β : Type} {Q : KView → β → Prop} (ks : List Name) : ∀ f : Str → Prog β,
    (∀ x, Retains cfg n p K none base Q (.free false) (f x)) →
    Retains cfg n p K none base Q (.free false) (Repo.renderAll ks >>= f) := by
  induction ks with
  | nil => intro f h; exact h []
  | cons k ks ih =>
    intro f h
    have hb : ∀ b : Option Ptr, Retains cfg n p K none base Q (.free false)
        ((match b with
          | none => Repo.renderAll ks
          | some index => do
            let text ← perform (.render index)
            let rest ← Repo.renderAll ks
            return text ++ lit "\n" ++ rest) >>= f) := by
      intro b
      cases b with
      | none => exact ih f h
      | some q =>
        refine keep_act _ _ free_busy fun text => ?_
        show Retains cfg n p K none base Q (.free false) ((Repo.renderAll ks >>= fun rest => pure (text ++ lit "\n" ++ rest)) >>= f)
        rw [bind_assoc']
        exact ih _ fun x => h _
    exact ⟨free_busy, fun b _ => hb b⟩

theorem names_none {α : Type} {op : Op} (h1 : ∀ m, ¬ op.binds m) (h2 : ∀ m, ¬ op.unbinds m) {q : Prog α} (h : Names op q) :
    Names .list q := by
  induction q with
  | ret a => trivial
  | crash e => trivial
  | act a k ih =>
    exact ⟨fun m hm => absurd (h.1 m hm) (h1 m), fun m hm => absurd (h.2.1 m hm) (h2 m), fun b => ih b (h.2.2 b)⟩

theorem prog_bind_ret {α : Type} (q : Prog α) : q >>= pure = q := by
  show q.bind Prog.ret = q
  induction q with
  | ret a => rfl
  | crash e => rfl
  | act a k ih => simp only [Prog.bind]; congr 1; funext b; exact ih b

/-- Every call keeps the index of `n`, unless it is one that moves it, or a `Put` that may see no index. -/
theorem keep_op (op : Op) (hm : ¬ op.moves n) (hK : op.mine n ≠ none → ∀ b, K b → b = some p) {G : Ret → Prop}
    (hG : ∀ r, ((∀ b, K b → b = some p) → op.found cfg n base r) → G r) :
    Retains cfg n p K (op.mine n) base (KeptEnd cfg.tok (op.mine n) G) (.free false) (op.prog cfg) := by
  have pl : op.onlyAliases = true → op.mine n = none → (∀ r, op.found cfg n base r) → (∀ m, ¬ op.binds m) → (∀ m, ¬ op.unbinds m) →
      Retains cfg n p K (op.mine n) base (KeptEnd cfg.tok (op.mine n) G) (.free false) (op.prog cfg) := by
    intro h1 h2 h3 h4 h5
    rw [h2, ← prog_bind_ret (op.prog cfg)]
    have fin : ∀ r, KeptEnd cfg.tok none G (.free false) r := fun r => ⟨(fun h => nomatch h), hG _ fun _ => h3 r⟩
    exact keep_loop (f := pure) free_busy trivial (hk := fin) (plain_op cfg op h1) (names_none h4 h5 (names_op op))
  have all : ∀ {v : KView} {r : Ret}, (∀ r, op.found cfg n base r) → KeptEnd cfg.tok (op.mine n) (fun _ => True) v r →
      KeptEnd cfg.tok (op.mine n) G v r := fun h3 h => ⟨h.1, hG _ fun _ => h3 _⟩
  cases op with
  | put m d =>
    refine keep_mono (fun v r h => all (fun _ => trivial) h) (keep_put m d fun e => hK ?_)
    rw [show (Op.put m d).mine n = some d from if_pos e]; exact nofun
  | search m ts e => exact keep_search m ts e hG
  | rename o m =>
    exact keep_mono (fun v r h => all (fun _ => trivial) h) (keep_rename (fun h => hm (Or.inl h)) (fun h => hm (Or.inr h)))
  | drop m => exact keep_mono (fun v r h => all (fun _ => trivial) h) (keep_drop hm)
  | string =>
    refine keep_bind (q := Repo.string) _ ?_
    unfold Repo.string
    refine keep_act _ _ free_busy fun _ => keep_act _ _ free_busy fun ks => keep_renderAll ks _ fun x => ?_
    exact keep_act _ _ free_busy fun _ => ⟨(fun h => nomatch h), hG _ fun _ => trivial⟩
  | _ => exact pl rfl rfl (fun _ => trivial) (fun _ h => h) (fun _ h => h)

/-- What is kept whatever the table has is kept. -/
theorem keep_any {α : Type} {Q : KView → α → Prop} : ∀ {q : Prog α} {v : KView},
    Retains cfg n p (fun _ => True) mine base Q v q → Retains cfg n p K mine base Q v q := by
  intro q
  induction q with
  | ret a => intro v h; exact h
  | crash c => intro v h; exact h
  | act a k ih =>
    intro v h
    refine ⟨h.1, ?_⟩
    have h2 := wpK_mono (fun v' b h' => ih b h') h.2
    cases a
    case idxGet m => exact fun b _ => h2 b fun _ => trivial
    case acquire m => cases m <;> exact h2
    case unlock m => cases m <;> exact h2
    all_goals exact h2

end Visigoth
