import Verif.Spec.AnyIndex
import Verif.Proofs.Progress
/-! # A repository of any indexes and its stand-in -/
namespace Visigoth

/-! ## Packing -/

theorem unpack_packStr (s r : Str) : unpackStr (packStr s ++ r) = (s, r) := by
  induction s with
  | nil => rfl
  | cons b s ih =>
    show unpackStr (1 :: b :: (packStr s ++ r)) = _
    simp [unpackStr, ih]

theorem unpack_pack (d : DocRequest) : unpackRequest (packRequest d) = d := by
  unfold unpackRequest packRequest
  rw [List.append_assoc, List.append_assoc]
  simp only [unpack_packStr]
  rfl

/-! ## Programs -/

/-- The program of the repository of memory indexes. -/
def IProg.mirror {σ α : Type} (I : IndexImpl σ) (n : Name) : IProg α → Prog α
  | .ret a => .ret a
  | .crash c => .crash c
  | .act (.plain a) k => .act a fun b => (k b).mirror I n
  | .act (.make m) k => .act (.newIndex m) fun p => (k p).mirror I n
  | .act (.put p d) k => .act (.docAppend p (newDoc n (packRequest d))) fun _ => (k ()).mirror I n
  | .act (.search p terms e) k => .act (.evalEngine p terms (I.asEngine terms e)) fun r => (k r).mirror I n

variable {σ α β : Type} (I : IndexImpl σ) (n : Name)

theorem mirror_bind (p : IProg α) (f : α → IProg β) :
    (p.bind f).mirror I n = (p.mirror I n).bind fun a => (f a).mirror I n := by
  induction p with
  | ret a => rfl
  | crash c => rfl
  | act a k ih => cases a <;> simp only [IProg.bind, IProg.mirror, Prog.bind, ih]

theorem mirror_lift (p : Prog α) : p.lift.mirror I n = p := by
  induction p with
  | ret a => rfl
  | crash c => rfl
  | act a k ih => simp only [Prog.lift, IProg.mirror, ih]

theorem mirror_bind' (p : IProg α) (f : α → IProg β) :
    (p >>= f).mirror I n = p.mirror I n >>= fun a => (f a).mirror I n := mirror_bind I n p f

theorem mirror_searchIndex (p : Ptr) (terms : Str) (e : Engine) :
    (IRepo.searchIndex p terms e).mirror I n = Repo.searchIndex p terms (I.asEngine terms e) := by
  unfold IRepo.searchIndex Repo.searchIndex
  rw [mirror_bind']
  show Prog.act _ _ = Prog.act _ _
  congr 1
  funext r
  cases r <;> rfl

theorem mirror_searchAll (terms : Str) (e : Engine) (ps : List Ptr) :
    (IRepo.searchAll terms e ps).mirror I n = Repo.searchAll terms (I.asEngine terms e) ps := by
  induction ps with
  | nil => rfl
  | cons p ps ih =>
    unfold IRepo.searchAll Repo.searchAll
    rw [mirror_bind', mirror_searchIndex]
    congr 1
    funext sr
    rw [mirror_bind', ih]
    rfl

theorem mirror_searchTargets (l : List (Option Ptr)) (terms : Str) (e : Engine) :
    (IRepo.searchTargets l terms e).mirror I n = Repo.searchTargets l terms (I.asEngine terms e) := by
  unfold IRepo.searchTargets Repo.searchTargets
  have go : ∀ ps, (do
        let ps ← iperform (.plain (.schedule ps))
        IRepo.searchAll terms e ps : IProg _).mirror I n = (do
        let ps ← perform (.schedule ps)
        Repo.searchAll terms (I.asEngine terms e) ps) := by
    intro ps
    show Prog.act _ _ = Prog.act _ _
    congr 1
    funext ps
    exact mirror_searchAll I n terms e ps
  match Repo.nonNil l with
  | none => rfl
  | some [] => exact go _
  | some [p] => exact mirror_searchIndex I n _ terms e
  | some (p :: q :: ps) => exact go _

theorem mirror_search (name : Name) (terms : Str) (e : Engine) :
    (IRepo.search name terms e).mirror I n = Repo.search name terms (I.asEngine terms e) := by
  unfold IRepo.search Repo.search
  rw [mirror_bind']
  show Prog.act _ _ = Prog.act _ _
  congr 1
  funext _
  show IProg.mirror I n (IProg.bind _ _) = Prog.bind _ _
  show Prog.act _ _ = Prog.act _ _
  congr 1
  funext r
  cases r with
  | some i =>
    show IProg.mirror I n (IRepo.searchTargets [some i] terms e >>= _) = Repo.searchTargets [some i] terms _ >>= _
    rw [mirror_bind', mirror_searchTargets]
    rfl
  | none =>
    show Prog.act _ _ = Prog.act _ _
    congr 1
    funext _
    show Prog.act _ _ = Prog.act _ _
    congr 1
    funext r
    cases r with
    | none => rfl
    | some r =>
      show IProg.mirror I n ((Repo.resolveFrom r 0 r.len).lift >>= _) = Repo.resolveFrom r 0 r.len >>= _
      rw [mirror_bind', mirror_lift]
      congr 1
      funext ps
      show Prog.act _ _ = Prog.act _ _
      congr 1
      funext _
      show IProg.mirror I n (IRepo.searchTargets ps terms e >>= _) = Repo.searchTargets ps terms _ >>= _
      rw [mirror_bind', mirror_searchTargets]
      rfl

theorem mirror_putAll (d : DocRequest) (ps : List Ptr) :
    (IRepo.putAll d ps).mirror I n = Repo.putAll noCfg (disguised n d) ps := by
  induction ps with
  | nil => rfl
  | cons p ps ih =>
    show Prog.act _ _ = Prog.act _ _
    congr 1
    funext _
    exact ih

theorem mirror_putTargets (l : List (Option Ptr)) (d : DocRequest) :
    (IRepo.putTargets l d).mirror I n = Repo.putTargets noCfg l (disguised n d) := by
  unfold IRepo.putTargets Repo.putTargets
  cases Repo.nonNil l with
  | none => rfl
  | some ps =>
    by_cases h : ps.Nodup
    · simp only [h, if_true]
      show Prog.act _ _ = Prog.act _ _
      congr 1
      funext ps
      exact mirror_putAll I n d ps
    · simp only [h, if_false]
      rfl

theorem mirror_put (d : DocRequest) : (IRepo.put n d).mirror I n = Repo.put noCfg n (disguised n d) := by
  unfold IRepo.put Repo.put
  rw [mirror_bind', mirror_lift]
  congr 1
  funext r
  rw [mirror_bind', mirror_lift]
  congr 1
  funext _
  cases r with
  | none => rfl
  | some l =>
    show IProg.mirror I n (IRepo.putTargets l d >>= _) = Repo.putTargets noCfg l (disguised n d) >>= _
    rw [mirror_bind', mirror_putTargets]
    rfl

/-- The name a `Put` is given. -/
def Op.putName : Op → Name
  | .put n _ => n
  | _ => []

theorem mirror_iprog (op : Op) : op.iprog.mirror I op.putName = (op.disguise I).prog noCfg := by
  cases op with
  | put n d =>
    show IProg.mirror I n (IRepo.put n d >>= _) = _
    rw [mirror_bind', mirror_put]
    rfl
  | search n terms e =>
    show IProg.mirror I [] (IRepo.search n terms e >>= _) = _
    rw [mirror_bind', mirror_search]
    show _ = Repo.search n terms (I.asEngine terms e) >>= _
    congr 1
    funext r
    cases r <;> rfl
  | _ => exact mirror_lift I _ _

/-! ## Programs about names -/

def Prog.onNames : Prog α → Prop
  | .ret _ => True
  | .crash _ => True
  | .act a k => a.onNames = true ∧ ∀ b, (k b).onNames

theorem onNames_bind {p : Prog α} {f : α → Prog β} (hp : p.onNames) (hf : ∀ a, (f a).onNames) :
    (p >>= f).onNames := by
  show (p.bind f).onNames
  induction p with
  | ret a => exact hf a
  | crash c => trivial
  | act a k ih => exact ⟨hp.1, fun b => ih b (hp.2 b)⟩

theorem onNames_perform {a : Act β} (h : a.onNames = true) : (perform a).onNames := ⟨h, fun _ => trivial⟩

theorem onNames_do {a : Act β} {f : β → Prog α} (h : a.onNames = true) (hf : ∀ b, (f b).onNames) :
    (perform a >>= f).onNames := onNames_bind (onNames_perform h) hf

theorem onNames_lock (m : Mu) : (Repo.lock m).onNames := ⟨rfl, fun _ => ⟨rfl, fun _ => trivial⟩⟩

theorem onNames_readFrom (r : SliceRef) (i m : Nat) : (Repo.readFrom r i m).onNames := by
  induction m generalizing i with
  | zero => trivial
  | succ m ih => exact (onNames_do rfl fun _ => onNames_bind (ih _) fun _ => trivial)

theorem onNames_sliceHas (r : SliceRef) (x : Name) (i m : Nat) : (Repo.sliceHas r x i m).onNames := by
  induction m generalizing i with
  | zero => trivial
  | succ m ih =>
    refine (onNames_do rfl fun b => ?_)
    show Prog.onNames (if b = x then _ else _)
    split
    · trivial
    · exact ih _

theorem onNames_alias (a i : Name) : (Repo.alias a i).onNames := by
  refine (onNames_do rfl fun _ => (onNames_do rfl fun b => ?_))
  cases b with
  | none => exact ⟨rfl, fun _ => trivial⟩
  | some p =>
    refine (onNames_do rfl fun _ => (onNames_do rfl fun _ => (onNames_do rfl fun b => ?_)))
    cases b with
    | none => exact ⟨rfl, fun _ => ⟨rfl, fun _ => ⟨rfl, fun _ => ⟨rfl, fun _ => trivial⟩⟩⟩⟩
    | some r =>
      apply onNames_bind (onNames_sliceHas _ _ _ _)
      intro e
      cases e
      · exact ⟨rfl, fun _ => ⟨rfl, fun _ => ⟨rfl, fun _ => ⟨rfl, fun _ => trivial⟩⟩⟩⟩
      · exact ⟨rfl, fun _ => ⟨rfl, fun _ => trivial⟩⟩

theorem onNames_unAlias (a i : Name) : (Repo.unAlias a i).onNames := by
  unfold Repo.unAlias
  split
  · exact ⟨rfl, fun _ => ⟨rfl, fun _ => ⟨rfl, fun _ => ⟨rfl, fun _ => ⟨rfl, fun _ => trivial⟩⟩⟩⟩⟩
  · refine (onNames_do rfl fun _ => (onNames_do rfl fun b => ?_))
    cases b with
    | none => trivial
    | some p =>
      refine (onNames_do rfl fun _ => (onNames_do rfl fun _ => (onNames_do rfl fun _ => (onNames_do rfl fun b => ?_))))
      cases b with
      | none => trivial
      | some r =>
        apply onNames_bind (onNames_readFrom _ _ _)
        intro xs
        show Prog.onNames (if _ then _ else _)
        split
        · exact ⟨rfl, fun _ => ⟨rfl, fun _ => ⟨rfl, fun _ => trivial⟩⟩⟩
        · exact ⟨rfl, fun _ => trivial⟩

theorem onNames_renameSlice (r : SliceRef) (o m : Name) (i k : Nat) : (Repo.renameSlice r o m i k).onNames := by
  induction k generalizing i with
  | zero => trivial
  | succ k ih =>
    refine (onNames_do rfl fun b => ?_)
    show Prog.onNames (if b = o then _ else _)
    split
    · exact (onNames_do rfl fun _ => ih _)
    · exact ih _

theorem onNames_renameAliases (o m : Name) (ks : List Name) : (Repo.renameAliases o m ks).onNames := by
  induction ks with
  | nil => trivial
  | cons k ks ih =>
    refine (onNames_do rfl fun b => ?_)
    cases b with
    | none => exact ih
    | some r => exact onNames_bind (onNames_renameSlice _ _ _ _ _) fun _ => ih

theorem onNames_rename (o m : Name) : (Repo.rename o m).onNames := by
  refine (onNames_do rfl fun _ => (onNames_do rfl fun _ => (onNames_do rfl fun b => ?_)))
  cases b with
  | none => exact ⟨rfl, fun _ => trivial⟩
  | some p =>
    exact (onNames_do rfl fun _ => (onNames_do rfl fun _ => (onNames_do rfl fun ks =>
      onNames_bind (onNames_renameAliases _ _ _) fun _ => ⟨rfl, fun _ => trivial⟩)))

theorem onNames_resolveFrom (r : SliceRef) (i m : Nat) : (Repo.resolveFrom r i m).onNames := by
  induction m generalizing i with
  | zero => trivial
  | succ m ih => exact (onNames_do rfl fun _ => (onNames_do rfl fun _ => onNames_bind (ih _) fun _ => trivial))

theorem onNames_getIndices (m : Name) : (Repo.getIndices m).onNames := by
  refine (onNames_do rfl fun _ => (onNames_do rfl fun b => ?_))
  cases b with
  | some i => exact ⟨rfl, fun _ => trivial⟩
  | none =>
    refine (onNames_do rfl fun _ => (onNames_do rfl fun b => ?_))
    cases b with
    | none => exact ⟨rfl, fun _ => ⟨rfl, fun _ => trivial⟩⟩
    | some r => exact onNames_bind (onNames_resolveFrom _ _ _) fun _ => ⟨rfl, fun _ => ⟨rfl, fun _ => trivial⟩⟩

theorem onNames_dropAliases (m : Name) (ks : List Name) : (Repo.dropAliases m ks).onNames := by
  induction ks with
  | nil => trivial
  | cons k ks ih =>
    refine (onNames_do rfl fun b => ?_)
    cases b with
    | none => exact ih
    | some r =>
      apply onNames_bind (onNames_readFrom _ _ _)
      intro xs
      show Prog.onNames (if _ then _ else if _ then _ else _)
      split
      · exact (onNames_do rfl fun _ => ih)
      · split
        · exact (onNames_do rfl fun _ => (onNames_do rfl fun _ => ih))
        · exact ih

theorem onNames_drop (m : Name) : (Repo.drop m).onNames := by
  refine (onNames_do rfl fun _ => (onNames_do rfl fun b => ?_))
  cases b with
  | none => exact ⟨rfl, fun _ => trivial⟩
  | some p =>
    exact (onNames_do rfl fun _ => (onNames_do rfl fun _ => (onNames_do rfl fun _ => (onNames_do rfl fun _ => (onNames_do rfl fun _ => (onNames_do rfl fun ks =>
      onNames_bind (onNames_dropAliases _ _) fun _ =>
        ⟨rfl, fun _ => ⟨rfl, fun _ => ⟨rfl, fun _ => trivial⟩⟩⟩))))))

theorem onNames_listRows (ks : List Name) : (Repo.listRows ks).onNames := by
  induction ks with
  | nil => trivial
  | cons k ks ih =>
    refine (onNames_do rfl fun b => ?_)
    cases b with
    | none => exact ih
    | some r => exact onNames_bind ih fun _ => trivial

theorem onNames_op (op : Op) (h1 : ∀ n d, op ≠ .put n d) (h2 : ∀ n t e, op ≠ .search n t e)
    (h3 : op.isString = false) : (op.prog noCfg).onNames := by
  cases op with
  | put n d => exact absurd rfl (h1 n d)
  | search n t e => exact absurd rfl (h2 n t e)
  | string => cases h3
  | list => exact ⟨rfl, fun _ => ⟨rfl, fun _ => ⟨rfl, fun _ => trivial⟩⟩⟩
  | has n => exact ⟨rfl, fun _ => ⟨rfl, fun _ => ⟨rfl, fun _ => trivial⟩⟩⟩
  | hasAlias n => exact ⟨rfl, fun _ => ⟨rfl, fun _ => ⟨rfl, fun _ => trivial⟩⟩⟩
  | listAliases =>
    exact onNames_bind (p := Repo.listAliases) (onNames_do rfl fun _ => (onNames_do rfl fun _ =>
      onNames_bind (onNames_listRows _) fun _ => ⟨rfl, fun _ => trivial⟩)) fun _ => trivial
  | alias a i => exact onNames_bind (onNames_alias a i) fun _ => trivial
  | unAlias a i => exact onNames_bind (onNames_unAlias a i) fun _ => trivial
  | rename o m => exact onNames_bind (onNames_rename o m) fun _ => trivial
  | drop m => exact onNames_bind (onNames_drop m) fun _ => trivial

/-! ## Programs that use the actions of the repository for names only -/

def IProg.tidy : IProg α → Prop
  | .ret _ => True
  | .crash _ => True
  | .act (.plain a) k => a.onNames = true ∧ ∀ b, (k b).tidy
  | .act (.make _) k => ∀ b, (k b).tidy
  | .act (.put ..) k => ∀ b, (k b).tidy
  | .act (.search ..) k => ∀ b, (k b).tidy

theorem tidy_bind {p : IProg α} {f : α → IProg β} (hp : p.tidy) (hf : ∀ a, (f a).tidy) : (p >>= f).tidy := by
  show (p.bind f).tidy
  induction p with
  | ret a => exact hf a
  | crash c => trivial
  | act a k ih =>
    cases a with
    | plain a => exact ⟨hp.1, fun b => ih b (hp.2 b)⟩
    | make m => exact fun b => ih b (hp b)
    | put p d => exact fun b => ih b (hp b)
    | search p t e => exact fun b => ih b (hp b)

theorem tidy_do {a : Act β} {f : β → IProg α} (h : a.onNames = true) (hf : ∀ b, (f b).tidy) :
    (iperform (.plain a) >>= f).tidy := tidy_bind (p := iperform (.plain a)) ⟨h, fun _ => trivial⟩ hf

theorem tidy_lift {p : Prog α} (h : p.onNames) : p.lift.tidy := by
  induction p with
  | ret a => trivial
  | crash c => trivial
  | act a k ih => exact ⟨h.1, fun b => ih b (h.2 b)⟩

theorem tidy_searchIndex (p : Ptr) (terms : Str) (e : Engine) : (IRepo.searchIndex p terms e).tidy := by
  intro b
  cases b <;> trivial

theorem tidy_searchAll (terms : Str) (e : Engine) (ps : List Ptr) : (IRepo.searchAll terms e ps).tidy := by
  induction ps with
  | nil => trivial
  | cons p ps ih => exact tidy_bind (tidy_searchIndex _ _ _) fun _ => tidy_bind ih fun _ => trivial

theorem tidy_searchTargets (l : List (Option Ptr)) (terms : Str) (e : Engine) :
    (IRepo.searchTargets l terms e).tidy := by
  unfold IRepo.searchTargets
  split
  · trivial
  · exact tidy_searchIndex _ _ _
  · exact ⟨rfl, fun _ => tidy_searchAll _ _ _⟩

theorem tidy_search (m : Name) (terms : Str) (e : Engine) : (IRepo.search m terms e).tidy := by
  refine (tidy_do rfl fun _ => (tidy_do rfl fun b => ?_))
  cases b with
  | some i => exact tidy_bind (tidy_searchTargets _ _ _) fun _ => ⟨rfl, fun _ => trivial⟩
  | none =>
    refine (tidy_do rfl fun _ => (tidy_do rfl fun b => ?_))
    cases b with
    | none => exact ⟨rfl, fun _ => ⟨rfl, fun _ => trivial⟩⟩
    | some r =>
      exact tidy_bind (tidy_lift (onNames_resolveFrom _ _ _)) fun _ => (tidy_do rfl fun _ =>
        tidy_bind (tidy_searchTargets _ _ _) fun _ => ⟨rfl, fun _ => trivial⟩)

theorem tidy_putAll (d : DocRequest) (ps : List Ptr) : (IRepo.putAll d ps).tidy := by
  induction ps with
  | nil => trivial
  | cons p ps ih => exact fun _ => ih

theorem tidy_put (m : Name) (d : DocRequest) : (IRepo.put m d).tidy := by
  apply tidy_bind (tidy_lift (onNames_getIndices _))
  intro r
  apply tidy_bind (tidy_lift (onNames_lock _))
  intro _
  cases r with
  | none => exact fun _ => ⟨rfl, fun _ => fun _ => ⟨rfl, fun _ => trivial⟩⟩
  | some l =>
    apply tidy_bind
    · unfold IRepo.putTargets
      split
      · trivial
      · split
        · exact (tidy_do rfl fun _ => tidy_putAll _ _)
        · trivial
    · exact fun _ => ⟨rfl, fun _ => trivial⟩

theorem tidy_iprog (op : Op) (h : op.isString = false) : op.iprog.tidy := by
  by_cases h1 : ∃ m d, op = .put m d
  · obtain ⟨m, d, rfl⟩ := h1
    exact tidy_bind (tidy_put m d) fun _ => trivial
  · by_cases h2 : ∃ m t e, op = .search m t e
    · obtain ⟨m, t, e, rfl⟩ := h2
      apply tidy_bind (tidy_search m t e)
      intro r
      cases r <;> trivial
    · have e : op.iprog = (op.prog noCfg).lift := by
        cases op with
        | put n d => exact absurd ⟨n, d, rfl⟩ h1
        | search n t e => exact absurd ⟨n, t, e, rfl⟩ h2
        | _ => rfl
      rw [e]
      exact tidy_lift (onNames_op op (fun n d he => h1 ⟨n, d, he⟩) (fun n t e he => h2 ⟨n, t, e, he⟩) h)

/-! ## Actions about names do not see the heap -/

theorem exec_onNames {a : Act β} (h : a.onNames = true) (cfg : Cfg) (o : Oracle) (t : Tid) (s : Shared)
    (H : List MemoryIndex) :
    exec cfg o t a { s with heap := H } =
      match exec noCfg o t a s with
      | .ok b s' => .ok b { s' with heap := H }
      | .blocked => .blocked
      | .crash c => .crash c := by
  cases a
  case newIndex => cases h
  case docAppend => cases h
  case postAdd => cases h
  case evalEngine => cases h
  case render => cases h
  case rlock m =>
    cases m <;> simp only [exec, Shared.mu, Shared.setMu]
    · by_cases hc : s.imu.writer = none <;> simp only [hc] <;> rfl
    · by_cases hc : s.amu.writer = none <;> simp only [hc] <;> rfl
  case runlock m =>
    cases m <;> simp only [exec, Shared.mu, Shared.setMu]
    · by_cases hc : t ∈ s.imu.readers <;> simp only [hc] <;> rfl
    · by_cases hc : t ∈ s.amu.readers <;> simp only [hc] <;> rfl
  case announce m =>
    cases m <;> simp only [exec, Shared.mu, Shared.setMu]
    · by_cases hc : s.imu.writer = none <;> simp only [hc] <;> rfl
    · by_cases hc : s.amu.writer = none <;> simp only [hc] <;> rfl
  case acquire m =>
    cases m <;> simp only [exec, Shared.mu]
    · by_cases hc : s.imu.writer = some t <;> by_cases hd : s.imu.readers = [] <;> simp only [hc, hd] <;> rfl
    · by_cases hc : s.amu.writer = some t <;> by_cases hd : s.amu.readers = [] <;> simp only [hc, hd] <;> rfl
  case unlock m =>
    cases m <;> simp only [exec, Shared.mu, Shared.setMu]
    · by_cases hc : s.imu.writer = some t <;> simp only [hc] <;> rfl
    · by_cases hc : s.amu.writer = some t <;> simp only [hc] <;> rfl
  case slRead r i =>
    have e : ({ s with heap := H } : Shared).elems r = s.elems r := rfl
    simp only [exec, e]
    cases (s.elems r)[i]? <;> rfl
  case slWrite r i v =>
    simp only [exec]
    cases s.arrays[r.arr]? with
    | none => rfl
    | some a => by_cases hc : i < r.len <;> simp only [hc] <;> rfl
  case slAppend r v =>
    simp only [exec]
    cases s.arrays[r.arr]? with
    | none => rfl
    | some a => by_cases hc : r.len < a.length <;> simp only [hc] <;> rfl
  all_goals rfl

/-! ## Every index has a document whose name it was made for -/

def Act.isNew : Act β → Bool
  | .newIndex _ => true
  | _ => false

/-- After an index is made it is stored and given a document with the same name. -/
inductive Fills : Prog α → Prop
  | ret (a : α) : Fills (.ret a)
  | crash (c : Crash) : Fills (.crash c)
  | act {β : Type} {a : Act β} {k : β → Prog α} (h : a.isNew = false) (hk : ∀ b, Fills (k b)) : Fills (.act a k)
  | make {m : Name} {k : Ptr → Prog α} (c : Ptr → Str) (k' : Ptr → Nat → Prog α)
      (h : ∀ p, k p = .act (.idxSet m p) fun _ => .act (.docAppend p (newDoc m (c p))) (k' p))
      (hk : ∀ p b, Fills (k' p b)) : Fills (.act (.newIndex m) k)

/-- About to do so. -/
def Filling (p : Ptr) (m : Name) (q : Prog α) : Prop :=
  (∃ c k', q = .act (.idxSet m p) fun _ => .act (.docAppend p (newDoc m c)) k') ∨
  ∃ c k', q = .act (.docAppend p (newDoc m c)) k'

theorem Fills.step {a : Act β} {k : β → Prog α} (h : Fills (.act a k)) (hn : a.isNew = false) (b : β) : Fills (k b) := by
  cases h with
  | act _ hk => exact hk b
  | make => cases hn

theorem Fills.new {m : Name} {k : Ptr → Prog α} (h : Fills (.act (.newIndex m) k)) (p : Ptr) :
    Fills (k p) ∧ Filling p m (k p) := by
  cases h with
  | act hn _ => cases hn
  | make c k' h hk =>
    rw [h p]
    exact ⟨.act rfl fun _ => .act rfl fun b => hk p b, .inl ⟨_, _, rfl⟩⟩

theorem fills_bind {p : Prog α} {f : α → Prog β} (hp : Fills p) (hf : ∀ a, Fills (f a)) : Fills (p >>= f) := by
  show Fills (p.bind f)
  induction hp with
  | ret a => exact hf a
  | crash c => exact .crash c
  | act h _ ih => exact .act h ih
  | make c k' h _ ih =>
    refine .make c (fun p b => (k' p b).bind f) (fun p => ?_) ih
    rw [h p]; rfl

theorem fills_onNames {p : Prog α} (h : p.onNames) : Fills p := by
  induction p with
  | ret a => exact .ret a
  | crash c => exact .crash c
  | act a k ih =>
    refine .act ?_ fun b => ih b (h.2 b)
    have := h.1
    cases a <;> first | rfl | cases this

theorem fills_do {a : Act β} {f : β → Prog α} (h : a.isNew = false) (hf : ∀ b, Fills (f b)) :
    Fills (perform a >>= f) := fills_bind (p := perform a) (.act h fun b => .ret b) hf

theorem fills_searchIndex (p : Ptr) (terms : Str) (e : Engine) : Fills (Repo.searchIndex p terms e) := by
  refine fills_do rfl fun b => ?_
  cases b
  · exact .crash _
  · exact .ret _

theorem fills_searchAll (terms : Str) (e : Engine) (ps : List Ptr) : Fills (Repo.searchAll terms e ps) := by
  induction ps with
  | nil => exact .ret _
  | cons p ps ih => exact fills_bind (fills_searchIndex _ _ _) fun _ => fills_bind ih fun _ => .ret _

theorem fills_searchTargets (l : List (Option Ptr)) (terms : Str) (e : Engine) :
    Fills (Repo.searchTargets l terms e) := by
  unfold Repo.searchTargets
  split
  · exact .crash _
  · exact fills_searchIndex _ _ _
  · exact fills_do rfl fun _ => fills_searchAll _ _ _

theorem fills_search (m : Name) (terms : Str) (e : Engine) : Fills (Repo.search m terms e) := by
  refine fills_do rfl fun _ => fills_do rfl fun b => ?_
  cases b with
  | some i => exact fills_bind (fills_searchTargets _ _ _) fun _ => fills_do rfl fun _ => .ret _
  | none =>
    refine fills_do rfl fun _ => fills_do rfl fun b => ?_
    cases b with
    | none => exact fills_do rfl fun _ => fills_do rfl fun _ => .ret _
    | some r =>
      exact fills_bind (fills_onNames (onNames_resolveFrom _ _ _)) fun _ => fills_do rfl fun _ =>
        fills_bind (fills_searchTargets _ _ _) fun _ => fills_do rfl fun _ => .ret _

theorem fills_putAll (d : DocRequest) (ps : List Ptr) : Fills (Repo.putAll noCfg d ps) := by
  induction ps with
  | nil => exact .ret _
  | cons p ps ih => exact fills_bind (p := Repo.putIndex noCfg p d) (.act rfl fun _ => .ret _) fun _ => ih

theorem fills_put (m : Name) (d : DocRequest) : Fills (Repo.put noCfg m (disguised m d)) := by
  apply fills_bind (fills_onNames (onNames_getIndices _))
  intro r
  apply fills_bind (fills_onNames (onNames_lock _))
  intro _
  cases r with
  | none => exact .make (fun _ => packRequest d) _ (fun p => rfl) fun p b => .act rfl fun _ => .ret _
  | some l =>
    apply fills_bind
    · unfold Repo.putTargets
      split
      · exact .crash _
      · split
        · exact fills_do rfl fun _ => fills_putAll _ _
        · exact .crash _
    · exact fun _ => .act rfl fun _ => .ret _

theorem fills_op (I : IndexImpl σ) (op : Op) (h : op.isString = false) : Fills ((op.disguise I).prog noCfg) := by
  by_cases h1 : ∃ m d, op = .put m d
  · obtain ⟨m, d, rfl⟩ := h1
    exact fills_bind (fills_put m d) fun _ => .ret _
  · by_cases h2 : ∃ m t e, op = .search m t e
    · obtain ⟨m, t, e, rfl⟩ := h2
      apply fills_bind (fills_search m t (I.asEngine t e))
      intro r
      cases r <;> exact .ret _
    · have e : op.disguise I = op := by
        cases op with
        | put n d => exact absurd ⟨n, d, rfl⟩ h1
        | search n t e => exact absurd ⟨n, t, e, rfl⟩ h2
        | _ => rfl
      rw [e]
      exact fills_onNames (onNames_op op (fun n d he => h1 ⟨n, d, he⟩) (fun n t e he => h2 ⟨n, t, e, he⟩) h)

/-- Every index has a document, the first with the name the index was made for, or is about to get one. -/
structure Filled (c : Config) : Prop where
  progs : ∀ x ∈ c.calls, Fills x.prog
  objs : ∀ p mi, c.sh.heap[p]? = some mi → (∃ d ds, mi.docs = d :: ds ∧ d.name = mi.name) ∨
    (mi.docs = [] ∧ ∃ (t : Nat) (x : Thread), c.calls[t]? = some x ∧ Filling p mi.name x.prog)

def Act.appends : Act β → Option (Ptr × Doc)
  | .docAppend p d => some (p, d)
  | _ => none

def Act.makes : Act β → Option Name
  | .newIndex m => some m
  | _ => none

theorem heap_after {cfg : Cfg} {o : Oracle} {t : Tid} {a : Act β} {s s' : Shared} {b : β}
    (he : exec cfg o t a s = .ok b s') (p : Nat) (mi' : MemoryIndex) (hp : s'.heap[p]? = some mi') :
    (∃ mi, s.heap[p]? = some mi ∧ mi.name = mi'.name ∧
      ((mi.docs = mi'.docs ∧ ∀ d, a.appends ≠ some (p, d)) ∨
        ∃ d, mi'.docs = mi.docs ++ [d] ∧ a.appends = some (p, d))) ∨
    (p = s.heap.length ∧ a.makes = some mi'.name ∧ mi'.docs = []) := by
  cases a
  case newIndex m =>
    simp only [exec, Exec.ok.injEq] at he
    obtain ⟨_, rfl⟩ := he
    rw [List.getElem?_append] at hp
    split at hp
    · exact .inl ⟨mi', hp, rfl, .inl ⟨rfl, fun d h => by cases h⟩⟩
    · next hlt =>
      rcases Nat.lt_or_ge (p - s.heap.length) 1 with h | h
      · have h0 : p - s.heap.length = 0 := by omega
        rw [h0] at hp
        simp only [List.getElem?_cons_zero, Option.some.injEq] at hp
        subst hp
        exact .inr ⟨by omega, rfl, rfl⟩
      · rw [List.getElem?_eq_none (by simpa using h)] at hp; cases hp
  case docAppend q d =>
    simp only [exec] at he
    split at he
    · next mi hq =>
      simp only [Exec.ok.injEq] at he
      obtain ⟨_, rfl⟩ := he
      left
      by_cases h : q = p
      · subst h
        rw [List.getElem?_set_self (by exact (List.getElem?_eq_some_iff.1 hq).1), Option.some.injEq] at hp
        subst hp
        exact ⟨mi, hq, rfl, .inr ⟨d, rfl, rfl⟩⟩
      · rw [List.getElem?_set_ne h] at hp
        refine ⟨mi', hp, rfl, .inl ⟨rfl, fun d' h' => ?_⟩⟩
        simp only [Act.appends, Option.some.injEq, Prod.mk.injEq] at h'
        exact h h'.1
    · cases he
  case postAdd q tok next =>
    simp only [exec] at he
    split at he
    · next mi hq =>
      simp only [Exec.ok.injEq, true_and] at he
      subst he
      left
      by_cases h : q = p
      · subst h
        rw [List.getElem?_set_self (by exact (List.getElem?_eq_some_iff.1 hq).1), Option.some.injEq] at hp
        subst hp
        exact ⟨mi, hq, rfl, .inl ⟨rfl, fun d h => by cases h⟩⟩
      · rw [List.getElem?_set_ne h] at hp
        exact ⟨mi', hp, rfl, .inl ⟨rfl, fun d h => by cases h⟩⟩
    · cases he
  all_goals
    have hh : s'.heap = s.heap := by
      simp only [exec] at he <;> (repeat' split at he) <;>
        first
        | (cases he; rfl)
        | (cases he; rename_i m _; cases m <;> rfl)
        | (cases he; rename_i m _ _; cases m <;> rfl)
        | exact nomatch he
    rw [hh] at hp
    exact .inl ⟨mi', hp, rfl, .inl ⟨rfl, fun d h => by cases h⟩⟩

end Visigoth
