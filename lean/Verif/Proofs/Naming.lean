import Verif.Proofs.AtomicInv
/-!
# Which calls bind and unbind names
-/
namespace Visigoth

variable {cfg : Cfg}

def Act.binds {β : Type} : Act β → Option Name
  | .idxSet n _ => some n
  | _ => none

def Act.unbinds {β : Type} : Act β → Option Name
  | .idxDel n => some n
  | _ => none

/-- The program binds and unbinds only the names the call may. -/
def Names {α : Type} (op : Op) : Prog α → Prop
  | .ret _ => True
  | .crash _ => True
  | .act a k => (∀ n, a.binds = some n → op.binds n) ∧ (∀ n, a.unbinds = some n → op.unbinds n) ∧ ∀ b, Names op (k b)

theorem names_bind {α β : Type} {op : Op} {p : Prog α} {f : α → Prog β} (h : Names op p) (hf : ∀ a, Names op (f a)) :
    Names op (p >>= f) := by
  show Names op (p.bind f)
  induction p with
  | ret a => exact hf a
  | crash e => trivial
  | act a k ih => exact ⟨h.1, h.2.1, fun b => ih b (h.2.2 b)⟩

theorem names_act {α β : Type} {op : Op} (a : Act β) (f : β → Prog α) (h1 : ∀ n, a.binds = some n → op.binds n)
    (h2 : ∀ n, a.unbinds = some n → op.unbinds n) (hf : ∀ b, Names op (f b)) : Names op (perform a >>= f) := ⟨h1, h2, hf⟩

theorem names_avoids {α : Type} {op : Op} {p : Prog α} (h : Avoids .indices p) : Names op p := by
  induction p with
  | ret a => trivial
  | crash e => trivial
  | act a k ih =>
    refine ⟨fun n hn => ?_, fun n hn => ?_, fun b => ih b (h.2 b)⟩
    · cases a <;> simp_all [Act.binds, Avoids, Act.writes]
    · cases a <;> simp_all [Act.unbinds, Avoids, Act.writes]

theorem names_plain {α β : Type} {op : Op} (a : Act β) (f : β → Prog α) (h1 : a.binds = none) (h2 : a.unbinds = none)
    (hf : ∀ b, Names op (f b)) : Names op (perform a >>= f) :=
  ⟨fun n h => (by rw [h1] at h; cases h), fun n h => (by rw [h2] at h; cases h), hf⟩

theorem names_last {op : Op} {β : Type} (a : Act β) (h1 : a.binds = none) (h2 : a.unbinds = none) : Names op (perform a) :=
  ⟨fun n h => (by rw [h1] at h; cases h), fun n h => (by rw [h2] at h; cases h), fun _ => trivial⟩

theorem names_lock {op : Op} (m : Mu) : Names op (Repo.lock m) :=
  names_plain _ _ rfl rfl fun _ => names_last _ rfl rfl

theorem names_putPostings {op : Op} (p : Ptr) (next : Nat) : ∀ toks, Names op (Repo.putPostings p next toks)
  | [] => trivial
  | _ :: toks => names_plain _ _ rfl rfl fun _ => names_putPostings p next toks

theorem names_putIndex {op : Op} (p : Ptr) (d : DocRequest) : Names op (Repo.putIndex cfg p d) :=
  names_plain _ _ rfl rfl fun _ => names_putPostings _ _ _

theorem names_putAll {op : Op} (d : DocRequest) : ∀ ps, Names op (Repo.putAll cfg d ps)
  | [] => trivial
  | _ :: ps => names_bind (names_putIndex _ _) fun _ => names_putAll d ps

theorem names_putTargets {op : Op} (ts : List (Option Ptr)) (d : DocRequest) : Names op (Repo.putTargets cfg ts d) := by
  unfold Repo.putTargets
  split
  · trivial
  · split
    · exact names_plain _ _ rfl rfl fun _ => names_putAll _ _
    · trivial

theorem names_resolveFrom {op : Op} (r : SliceRef) : ∀ k i, Names op (Repo.resolveFrom r i k)
  | 0, _ => trivial
  | k + 1, i => names_plain _ _ rfl rfl fun _ => names_plain _ _ rfl rfl fun _ => names_bind (names_resolveFrom r k (i + 1)) fun _ => trivial

theorem names_getIndices {op : Op} (n : Name) : Names op (Repo.getIndices n) := by
  refine names_plain _ _ rfl rfl fun _ => names_plain _ _ rfl rfl fun x => ?_
  cases x with
  | some p => exact names_plain _ _ rfl rfl fun _ => trivial
  | none =>
    refine names_plain _ _ rfl rfl fun _ => names_plain _ _ rfl rfl fun r => ?_
    cases r with
    | none => exact names_plain _ _ rfl rfl fun _ => names_plain _ _ rfl rfl fun _ => trivial
    | some r =>
      exact names_bind (names_resolveFrom _ _ _) fun _ => names_plain _ _ rfl rfl fun _ => names_plain _ _ rfl rfl fun _ => trivial

theorem names_put (n : Name) (d : DocRequest) : Names (.put n d) ((Op.put n d).prog cfg) := by
  refine names_bind (p := Repo.put cfg n d) ?_ fun _ => trivial
  refine names_bind (names_getIndices n) fun r => names_bind (names_lock _) fun _ => ?_
  cases r with
  | none =>
    refine names_plain _ _ rfl rfl fun p => names_act _ _ (fun m hm => ?_) (fun _ h => nomatch h) fun _ =>
      names_bind (names_putIndex _ _) fun _ => names_last _ rfl rfl
    cases hm; rfl
  | some l => exact names_bind (names_putTargets _ _) fun _ => names_last _ rfl rfl

theorem avoids_renameSlice (r : SliceRef) (old new : Name) : ∀ n i, Avoids .indices (Repo.renameSlice r old new i n)
  | 0, _ => trivial
  | n + 1, i => by
    refine avoids_act _ _ (by simp [Act.writes]) fun x => ?_
    dsimp only
    split
    · exact avoids_act _ _ (by simp [Act.writes]) fun _ => avoids_renameSlice r old new n (i + 1)
    · exact avoids_renameSlice r old new n (i + 1)

theorem avoids_renameAliases (old new : Name) : ∀ ks, Avoids .indices (Repo.renameAliases old new ks)
  | [] => trivial
  | k :: ks => by
    refine avoids_act _ _ (by simp [Act.writes]) fun x => ?_
    cases x with
    | none => exact avoids_renameAliases old new ks
    | some r => exact avoids_bind (avoids_renameSlice _ _ _ _ _) fun _ => avoids_renameAliases old new ks

theorem names_rename (o n : Name) : Names (.rename o n) ((Op.rename o n).prog cfg) := by
  refine names_bind (p := Repo.rename o n) ?_ fun _ => trivial
  refine names_bind (names_lock _) fun _ => names_plain _ _ rfl rfl fun x => ?_
  cases x with
  | none => exact names_plain _ _ rfl rfl fun _ => trivial
  | some p =>
    refine names_act _ _ (fun m hm => ?_) (fun _ h => nomatch h) fun _ =>
      names_act _ _ (fun _ h => nomatch h) (fun m hm => ?_) fun _ =>
      names_plain _ _ rfl rfl fun ks => names_bind (names_avoids (avoids_renameAliases _ _ _)) fun _ =>
        names_plain _ _ rfl rfl fun _ => trivial
    · cases hm; rfl
    · cases hm; rfl

theorem avoids_readFrom (l : Loc) (r : SliceRef) : ∀ n i, Avoids l (Repo.readFrom r i n)
  | 0, _ => trivial
  | n + 1, i => avoids_act _ _ (by simp [Act.writes]) fun _ => avoids_bind (avoids_readFrom l r n (i + 1)) fun _ => trivial

theorem avoids_readSlice (l : Loc) (r : SliceRef) : Avoids l (Repo.readSlice r) := avoids_readFrom l r _ _

theorem avoids_dropAliases (n : Name) : ∀ ks, Avoids .indices (Repo.dropAliases n ks)
  | [] => trivial
  | k :: ks => by
    refine avoids_act _ _ (by simp [Act.writes]) fun x => ?_
    cases x with
    | none => exact avoids_dropAliases n ks
    | some r =>
      refine avoids_bind (avoids_readSlice _ _) fun xs => ?_
      dsimp only
      split
      · exact avoids_act _ _ (by simp [Act.writes]) fun _ => avoids_dropAliases n ks
      · split
        · exact avoids_act _ _ (by simp [Act.writes]) fun _ => avoids_act _ _ (by simp [Act.writes]) fun _ => avoids_dropAliases n ks
        · exact avoids_dropAliases n ks

theorem names_drop (n : Name) : Names (.drop n) ((Op.drop n).prog cfg) := by
  refine names_bind (p := Repo.drop n) ?_ fun _ => trivial
  refine names_plain _ _ rfl rfl fun _ => names_plain _ _ rfl rfl fun x => ?_
  cases x with
  | none => exact names_plain _ _ rfl rfl fun _ => trivial
  | some p =>
    refine names_plain _ _ rfl rfl fun _ => names_bind (names_lock _) fun _ => names_bind (names_lock _) fun _ =>
      names_plain _ _ rfl rfl fun ks => names_bind (names_avoids (avoids_dropAliases _ _)) fun _ =>
      names_act _ _ (fun _ h => nomatch h) (fun m hm => ?_) fun _ => names_plain _ _ rfl rfl fun _ => names_plain _ _ rfl rfl fun _ => trivial
    cases hm; rfl

theorem names_unAlias (al i : Name) : Names (.unAlias al i) ((Op.unAlias al i).prog cfg) := by
  refine names_bind (p := Repo.unAlias al i) ?_ fun _ => trivial
  unfold Repo.unAlias
  split
  · exact names_bind (names_lock _) fun _ => names_plain _ _ rfl rfl fun _ => names_plain _ _ rfl rfl fun _ =>
      names_plain _ _ rfl rfl fun _ => trivial
  · refine names_plain _ _ rfl rfl fun _ => names_plain _ _ rfl rfl fun x => ?_
    cases x with
    | none => trivial
    | some p =>
      refine names_plain _ _ rfl rfl fun _ => names_bind (names_lock _) fun _ => names_plain _ _ rfl rfl fun r => ?_
      cases r with
      | none => trivial
      | some r =>
        refine names_bind (names_avoids (avoids_readSlice _ _)) fun xs => ?_
        dsimp only
        split
        · exact names_plain _ _ rfl rfl fun _ => names_plain _ _ rfl rfl fun _ => names_plain _ _ rfl rfl fun _ => trivial
        · exact names_plain _ _ rfl rfl fun _ => trivial

theorem names_op (op : Op) : Names op (op.prog cfg) := by
  cases op with
  | put n d => exact names_put n d
  | rename o n => exact names_rename o n
  | drop n => exact names_drop n
  | unAlias al i => exact names_unAlias al i
  | alias al i => exact names_avoids (avoids_alias al i)
  | list => exact names_avoids (avoids_read _ rfl _)
  | listAliases => exact names_avoids (avoids_read _ rfl _)
  | string => exact names_avoids (avoids_read _ rfl _)
  | has n => exact names_avoids (avoids_read _ rfl _)
  | hasAlias n => exact names_avoids (avoids_read _ rfl _)
  | search n ts e => exact names_avoids (avoids_read _ rfl _)

/-- The call of a thread binds and unbinds only what it may. -/
theorem names_reachable {c : Config} (hr : ConcReachable cfg c) : ∀ x ∈ c.calls, Names x.op x.prog := by
  unfold ConcReachable at hr
  generalize hc : Config.init = c0 at hr
  induction hr with
  | refl => subst hc; intro x hx; simp [Config.init] at hx
  | tail _ hs ih =>
    intro x hx
    cases hs with
    | invoke op o =>
      rcases List.mem_append.1 hx with hx | hx
      · exact ih x hx
      · rw [List.mem_singleton] at hx; subst hx; exact names_op op
    | move t h =>
      cases h with
      | act h he =>
        rcases List.mem_or_eq_of_mem_set hx with hx | hx
        · exact ih x hx
        · subst hx; exact (ih _ (List.mem_of_getElem? h)).2.2 _
      | crash h he =>
        rcases List.mem_or_eq_of_mem_set hx with hx | hx
        · exact ih x hx
        · subst hx; trivial

theorem setMu_indices (s : Shared) (m : Mu) (l : RW) : (s.setMu m l).indices = s.indices := by cases m <;> rfl

/-- The binding of a name after an action. -/
theorem exec_index {o : Oracle} {t : Tid} {β : Type} {a : Act β} {s s' : Shared} {b : β} (he : exec cfg o t a s = .ok b s') (n : Name) :
    (a.binds ≠ some n → a.unbinds ≠ some n → s'.indices.get n = s.indices.get n) ∧
    (a.unbinds = some n → s'.indices.get n = none) ∧ (a.binds = some n → (s'.indices.get n).isSome = true) := by
  cases a
  case idxSet m p =>
    cases he
    refine ⟨fun h _ => ?_, fun h => (nomatch h), fun h => ?_⟩
    · exact GoMap.get_set_ne _ _ fun e => h (by rw [e]; rfl)
    · cases h; rw [GoMap.get_set_same]; rfl
  case idxDel m =>
    cases he
    refine ⟨fun _ h => ?_, fun h => ?_, fun h => nomatch h⟩
    · rw [GoMap.get_delete, if_neg]; intro e; exact h (by rw [e]; rfl)
    · cases h; rw [GoMap.get_delete, if_pos rfl]
  all_goals
    refine ⟨fun _ _ => ?_, fun h => (nomatch h), fun h => (nomatch h)⟩
    simp only [exec] at he
    repeat' split at he
    all_goals first | (cases he; rfl) | (cases he; rw [setMu_indices]) | cases he

/-! ## `Drop` -/

/-- What a `Drop n` knows: nothing, that `n` was bound, that it has removed `n`. -/
inductive Phase | unseen | seen | gone
deriving DecidableEq

def Act.phase (n : Name) (ph : Phase) : {β : Type} → Act β → β → Phase
  | _, .idxGet m, b => if ph = .unseen ∧ m = n ∧ b.isSome = true then .seen else ph
  | _, .idxDel _, _ => .gone
  | _, _, _ => ph

/-- The rest of a `Drop n`: it removes only `n`, having seen it, and returns true only afterwards. -/
def Dropping (n : Name) : Phase → Prog Ret → Prop
  | ph, .ret r => ph = .gone ∨ r ≠ .bool true
  | _, .crash _ => True
  | ph, .act a k => (∀ m, a.unbinds = some m → m = n ∧ ph = .seen) ∧ a.binds = none ∧ ∀ b, Dropping n (a.phase n ph b) (k b)

theorem dropping_plain {β : Type} {n : Name} {ph : Phase} (a : Act β) (f : β → Prog Ret) (h1 : a.binds = none)
    (h2 : a.unbinds = none) (hp : ∀ b, a.phase n ph b = ph) (hf : ∀ b, Dropping n ph (f b)) : Dropping n ph (.act a f) :=
  ⟨fun m h => (by rw [h2] at h; cases h), h1, fun b => by rw [hp]; exact hf b⟩

theorem phase_seen {β : Type} (n : Name) (a : Act β) (b : β) (h : a.unbinds = none) : a.phase n .seen b = .seen := by
  cases a <;> simp_all [Act.phase, Act.unbinds]

theorem dropping_avoids {α : Type} {n : Name} {p : Prog α} {f : α → Prog Ret} (h : Avoids .indices p)
    (hf : ∀ a, Dropping n .seen (f a)) : Dropping n .seen (p.bind f) := by
  induction p with
  | ret a => exact hf a
  | crash e => trivial
  | act a k ih =>
    have h1 : a.binds = none := by
      have := h.1
      cases a <;> simp_all [Act.binds, Act.writes]
    have h2 : a.unbinds = none := by
      have := h.1
      cases a <;> simp_all [Act.unbinds, Act.writes]
    exact dropping_plain _ _ h1 h2 (fun b => phase_seen n a b h2) fun b => ih b (h.2 b)

theorem dropping_drop (n : Name) : Dropping n .unseen ((Op.drop n).prog cfg) := by
  refine dropping_plain _ _ rfl rfl (fun _ => rfl) fun _ => ⟨fun _ h => (nomatch h), rfl, fun x => ?_⟩
  cases x with
  | none => exact dropping_plain _ _ rfl rfl (fun _ => rfl) fun _ => .inr (by simp)
  | some p =>
    have : (Act.idxGet n).phase n .unseen (some p) = .seen := by simp [Act.phase]
    rw [this]
    refine dropping_plain _ _ rfl rfl (fun _ => rfl) fun _ => dropping_plain _ _ rfl rfl (fun _ => rfl) fun _ =>
      dropping_plain _ _ rfl rfl (fun _ => rfl) fun _ => dropping_plain _ _ rfl rfl (fun _ => rfl) fun _ =>
      dropping_plain _ _ rfl rfl (fun _ => rfl) fun _ => dropping_plain _ _ rfl rfl (fun _ => rfl) fun ks => ?_
    show Dropping n .seen ((Repo.dropAliases n ks >>= _) >>= _)
    rw [bind_assoc']
    refine dropping_avoids (avoids_dropAliases n ks) fun _ => ?_
    refine ⟨fun m h => ?_, rfl, fun _ => ?_⟩
    · cases h; exact ⟨rfl, rfl⟩
    · exact dropping_plain _ _ rfl rfl (fun _ => rfl) fun _ => dropping_plain _ _ rfl rfl (fun _ => rfl) fun _ => .inl rfl


/-- What a `Drop n` knows is true, when no other call unbinds `n`. -/
structure DropInv (cfg : Cfg) (n : Name) (t : Tid) (c : Config) (ph : Phase) : Prop where
  shape : ∀ x, c.calls[t]? = some x → Dropping n ph x.prog
  seen : ph = .seen → (c.sh.indices.get n).isSome = true
  gone : ph = .gone → ∃ c1 c2, ConcReachable cfg c1 ∧ TStep cfg t c1 c2 ∧ Steps cfg c2 c ∧
    (c1.sh.indices.get n).isSome = true ∧ c2.sh.indices.get n = none

theorem dropInv_step {n : Name} {t : Tid} {c c' : Config} {ph : Phase} (hr : ConcReachable cfg c) (h : DropInv cfg n t c ph)
    (hop : ∀ x, c'.calls[t]? = some x → x.op = .drop n)
    (hall : ∀ u x, u ≠ t → c'.calls[u]? = some x → ¬ x.op.unbinds n) (hs : Step cfg c c') : ∃ ph', DropInv cfg n t c' ph' := by
  have keep : ∀ ph' : Phase, ph' = .gone → ph = .gone → ∃ c1 c2, ConcReachable cfg c1 ∧ TStep cfg t c1 c2 ∧ Steps cfg c2 c' ∧
    (c1.sh.indices.get n).isSome = true ∧ c2.sh.indices.get n = none := by
    intro ph' _ hg
    obtain ⟨c1, c2, h1, h2, h3, h4⟩ := h.gone hg
    exact ⟨c1, c2, h1, h2, .tail h3 hs, h4⟩
  have hs0 := hs
  cases hs with
  | invoke op o =>
    by_cases ht : t < c.calls.length
    · refine ⟨ph, ?_, h.seen, fun hg => keep ph hg hg⟩
      intro x hx
      simp only at hx
      rw [List.getElem?_append_left ht] at hx
      exact h.shape x hx
    · refine ⟨.unseen, ?_, fun h => (nomatch h), fun h => (nomatch h)⟩
      intro x hx
      have hx0 := hx
      simp only at hx
      rw [List.getElem?_append_right (Nat.le_of_not_lt ht), List.getElem?_singleton] at hx
      split at hx
      · cases hx
        have := hop _ hx0
        simp only at this
        subst this
        exact dropping_drop (cfg := cfg) n
      · cases hx
  | move u hm =>
    cases hm with
    | @crash s calls op o β a k e h1 he =>
      by_cases hut : u = t
      · subst hut
        refine ⟨ph, ?_, h.seen, fun hg => keep ph hg hg⟩
        intro x hx
        simp only [List.getElem?_set, if_true] at hx
        split at hx
        · cases hx; trivial
        · cases hx
      · refine ⟨ph, ?_, h.seen, fun hg => keep ph hg hg⟩
        intro x hx
        simp only [List.getElem?_set, hut, if_false] at hx
        exact h.shape x hx
    | @act s s' calls op o β a k b h1 he =>
      have hlt := (List.getElem?_eq_some_iff.1 h1).1
      by_cases hut : u = t
      · subst hut
        have hsh := h.shape _ h1
        refine ⟨a.phase n ph b, ?_, ?_, ?_⟩
        · intro x hx
          simp only [List.getElem?_set, if_true] at hx
          rw [if_pos hlt] at hx
          cases hx
          exact hsh.2.2 b
        · intro hseen
          simp only
          cases hun : a.unbinds with
          | some m =>
            exfalso
            cases a <;> simp [Act.unbinds] at hun
            simp [Act.phase] at hseen
          | none =>
            rw [(exec_index he n).1 (by rw [hsh.2.1]; simp) (by rw [hun]; simp)]
            by_cases hps : ph = .seen
            · exact h.seen hps
            · cases a <;> simp [Act.phase, hps] at hseen
              cases he
              exact hseen.2.1 ▸ Option.isSome_iff_ne_none.2 hseen.2.2
        · intro hgone
          cases hun : a.unbinds with
          | some m =>
            obtain ⟨hmn, hph⟩ := hsh.1 m hun
            subst hmn
            exact ⟨_, _, hr, .act h1 he, .refl _, h.seen hph, (exec_index he m).2.1 hun⟩
          | none =>
            refine keep _ rfl ?_
            cases a <;> simp [Act.phase, Act.unbinds] at hgone hun ⊢ <;> try exact hgone
            split at hgone
            · cases hgone
            · exact hgone
      · have hne : ¬ op.unbinds n := by
          refine hall u ⟨op, o, k b⟩ hut ?_
          simp only
          rw [List.getElem?_set_self hlt]
        have hnm := names_reachable hr _ (List.mem_of_getElem? h1)
        refine ⟨ph, ?_, ?_, fun hg => keep ph hg hg⟩
        · intro x hx
          simp only [List.getElem?_set, hut, if_false] at hx
          exact h.shape x hx
        · intro hseen
          simp only
          by_cases hb : a.binds = some n
          · exact (exec_index he n).2.2 hb
          · rw [(exec_index he n).1 hb fun hu => hne (hnm.2.1 n hu)]
            exact h.seen hseen

theorem step_pulls {P : Tid → Op → Prop} {c c' : Config} (hs : Step cfg c c') (h : ∀ u x, c'.calls[u]? = some x → P u x.op) :
    ∀ u x, c.calls[u]? = some x → P u x.op := by
  intro u x hx
  obtain ⟨x', hx', hop, _⟩ := step_calls hs hx
  exact hop ▸ h u x' hx'

theorem dropInv_reachable {n : Name} {t : Tid} {c : Config} (hr : ConcReachable cfg c)
    (hop : ∀ x, c.calls[t]? = some x → x.op = .drop n)
    (hall : ∀ u x, u ≠ t → c.calls[u]? = some x → ¬ x.op.unbinds n) : ∃ ph, DropInv cfg n t c ph := by
  have key : ∀ c0, Steps cfg c0 c → c0 = Config.init → ∃ ph, DropInv cfg n t c ph := by
    intro c0 hs
    induction hs with
    | refl =>
      intro hc; subst hc
      exact ⟨.unseen, fun x hx => (by simp [Config.init] at hx), fun h => (nomatch h), fun h => (nomatch h)⟩
    | @tail c1 c2 h1 hs ih =>
      intro hc
      subst hc
      obtain ⟨ph, hph⟩ := ih h1
        (fun x hx => step_pulls (P := fun u op => u = t → op = .drop n) hs (fun u x hx hu => hop x (hu ▸ hx)) t x hx rfl)
        (fun u x hu hx => step_pulls (P := fun u op => u ≠ t → ¬ op.unbinds n) hs (fun u x hx hu => hall u x hu hx) u x hx hu) rfl
      exact dropInv_step h1 hph hop hall hs
  exact key _ hr rfl

/-- No call that may bind `n` is running. -/
def Unbound (n : Name) (c : Config) : Prop := ∀ x ∈ c.calls, x.op.binds n → ¬ x.running

theorem unbound_step {n : Name} {c c' : Config} {len : Nat} (h : Unbound n c) (hlen : len ≤ c.calls.length)
    (hnew : ∀ x ∈ c'.calls.drop len, ¬ x.op.binds n) (hs : Step cfg c c') : Unbound n c' := by
  intro x hx hb
  cases hs with
  | invoke op o =>
    rcases List.mem_append.1 hx with hx | hx
    · exact h x hx hb
    · rw [List.mem_singleton] at hx
      subst hx
      exact absurd hb (hnew ⟨op, o, op.prog cfg⟩ (by simp [List.drop_append_of_le_length hlen]))
  | move u hm =>
    cases hm with
    | act h1 he =>
      rcases List.mem_or_eq_of_mem_set hx with hx | hx
      · exact h x hx hb
      · subst hx; exact absurd trivial (h _ (List.mem_of_getElem? h1) hb)
    | crash h1 he =>
      rcases List.mem_or_eq_of_mem_set hx with hx | hx
      · exact h x hx hb
      · subst hx; exact absurd trivial (h _ (List.mem_of_getElem? h1) hb)

/-- A `Drop n` when nobody binds `n`. -/
structure Drop2 (n : Name) (t : Tid) (c : Config) (ph : Phase) : Prop where
  shape : ∀ x, c.calls[t]? = some x → Dropping n ph x.prog
  gone : ph = .gone → c.sh.indices.get n = none

theorem step_unbound {n : Name} {c c' : Config} (hr : ConcReachable cfg c) (h : Unbound n c) (hs : Step cfg c c')
    (hn : c.sh.indices.get n = none) : c'.sh.indices.get n = none := by
  cases hs with
  | invoke op o => exact hn
  | move u hm =>
    cases hm with
    | crash h1 he => exact hn
    | @act s s' calls op o β a k b h1 he =>
      have hmem := List.mem_of_getElem? h1
      have hnb : a.binds ≠ some n := fun hb => h _ hmem ((names_reachable hr _ hmem).1 n hb) trivial
      by_cases hu : a.unbinds = some n
      · exact (exec_index he n).2.1 hu
      · simp only; rw [(exec_index he n).1 hnb hu]; exact hn

theorem drop2_step {n : Name} {t : Tid} {c c' : Config} {ph : Phase} (hr : ConcReachable cfg c) (hb : Unbound n c)
    (h : Drop2 n t c ph) (hop : ∀ x, c'.calls[t]? = some x → x.op = .drop n) (hs : Step cfg c c') :
    ∃ ph', Drop2 n t c' ph' ∧ (c.sh.indices.get n = none → ph = .unseen → ph' = .unseen) := by
  have keep := step_unbound hr hb hs
  cases hs with
  | invoke op o =>
    by_cases ht : t < c.calls.length
    · refine ⟨ph, ⟨?_, fun hg => keep (h.gone hg)⟩, fun _ => id⟩
      intro x hx
      simp only at hx
      rw [List.getElem?_append_left ht] at hx
      exact h.shape x hx
    · refine ⟨.unseen, ⟨?_, fun h => (nomatch h)⟩, fun _ _ => rfl⟩
      intro x hx
      have hx0 := hx
      simp only at hx
      rw [List.getElem?_append_right (Nat.le_of_not_lt ht), List.getElem?_singleton] at hx
      split at hx
      · cases hx
        have := hop _ hx0
        simp only at this
        subst this
        exact dropping_drop (cfg := cfg) n
      · cases hx
  | move u hm =>
    cases hm with
    | @crash s calls op o β a k e h1 he =>
      refine ⟨ph, ⟨?_, fun hg => keep (h.gone hg)⟩, fun _ => id⟩
      intro x hx
      by_cases hut : u = t
      · subst hut
        simp only [List.getElem?_set, if_true] at hx
        split at hx
        · cases hx; trivial
        · cases hx
      · simp only [List.getElem?_set, hut, if_false] at hx
        exact h.shape x hx
    | @act s s' calls op o β a k b h1 he =>
      have hlt := (List.getElem?_eq_some_iff.1 h1).1
      by_cases hut : u = t
      · subst hut
        have hsh := h.shape _ h1
        refine ⟨a.phase n ph b, ⟨?_, ?_⟩, ?_⟩
        · intro x hx
          simp only [List.getElem?_set, if_true] at hx
          rw [if_pos hlt] at hx
          cases hx
          exact hsh.2.2 b
        · intro hgone
          cases hun : a.unbinds with
          | some m =>
            obtain ⟨hmn, hph⟩ := hsh.1 m hun
            subst hmn
            exact (exec_index he m).2.1 hun
          | none =>
            refine keep (h.gone ?_)
            cases a <;> simp [Act.phase, Act.unbinds] at hgone hun ⊢ <;> try exact hgone
            split at hgone
            · cases hgone
            · exact hgone
        · intro hn hph
          subst hph
          cases hun : a.unbinds with
          | some m => exact absurd (hsh.1 m hun).2 (by simp)
          | none =>
            cases a <;> simp [Act.phase, Act.unbinds] at hun ⊢
            cases he
            intro hmn
            simp only at hn
            rw [hmn]; exact hn
      · refine ⟨ph, ⟨?_, fun hg => keep (h.gone hg)⟩, fun _ => id⟩
        intro x hx
        simp only [List.getElem?_set, hut, if_false] at hx
        exact h.shape x hx

theorem step_size {c c' : Config} (hs : Step cfg c c') : c.calls.length ≤ c'.calls.length := by
  cases hs with
  | invoke op o => simp
  | move u hm => cases hm <;> simp

theorem steps_size {c c' : Config} (hs : Steps cfg c c') : c.calls.length ≤ c'.calls.length := by
  induction hs with
  | refl => exact Nat.le_refl _
  | tail _ hs ih => exact Nat.le_trans ih (step_size hs)

theorem step_new {P : Op → Prop} {c c' : Config} {len : Nat} (hs : Step cfg c c') (h : ∀ x ∈ c'.calls.drop len, P x.op) :
    ∀ x ∈ c.calls.drop len, P x.op := by
  intro x hx
  obtain ⟨i, hi⟩ := List.getElem?_of_mem hx
  rw [List.getElem?_drop] at hi
  obtain ⟨x', hx', hop, _⟩ := step_calls hs hi
  refine hop ▸ h x' (List.mem_of_getElem? (i := i) ?_)
  rw [List.getElem?_drop]; exact hx'

/-- From a point where nobody binds `n` on. -/
theorem drop2_steps {n : Name} {t : Tid} {c c' : Config} {ph : Phase} {len : Nat} (hr : ConcReachable cfg c) (hb : Unbound n c)
    (hlen : len ≤ c.calls.length) (h : Drop2 n t c ph) (hop : ∀ x, c'.calls[t]? = some x → x.op = .drop n)
    (hnew : ∀ x ∈ c'.calls.drop len, ¬ x.op.binds n) (hs : Steps cfg c c') :
    ∃ ph', Drop2 n t c' ph' ∧ Unbound n c' ∧
      (c.sh.indices.get n = none → c'.sh.indices.get n = none ∧ (ph = .unseen → ph' = .unseen)) := by
  induction hs with
  | refl => exact ⟨ph, h, hb, fun hn => ⟨hn, id⟩⟩
  | @tail c1 c2 h1 hs ih =>
    obtain ⟨ph1, g1, g2, g3⟩ := ih
      (fun x hx => step_pulls (P := fun u op => u = t → op = .drop n) hs (fun u x hx hu => hop x (hu ▸ hx)) t x hx rfl)
      (step_new (P := fun op => ¬ op.binds n) hs hnew)
    have hr1 := steps_trans hr h1
    obtain ⟨ph2, g4, g5⟩ := drop2_step hr1 g2 g1 hop hs
    refine ⟨ph2, g4, unbound_step g2 (Nat.le_trans hlen (steps_size h1)) hnew hs, fun hn => ?_⟩
    obtain ⟨g6, g7⟩ := g3 hn
    exact ⟨step_unbound hr1 g2 hs g6, fun hp => g5 g6 (g7 hp)⟩

end Visigoth
