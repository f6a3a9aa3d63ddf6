import Verif.Proofs.KeepPre
/-!
# A `Put` that creates its index
-/
namespace Visigoth

variable {cfg : Cfg} {n : Name} {d : DocRequest}

/-! ## A name that is no alias -/

/-- The program does not make `n` an alias, as long as it is none. -/
def Shuns {α : Type} (n : Name) : Prog α → Prop
  | .ret _ => True
  | .crash _ => True
  | .act a k =>
    match a, k with
    | .alGet m, k => ∀ b, (m = n → b = none) → Shuns n (k b)
    | .alSet m _, k => m ≠ n ∧ Shuns n (k ())
    | _, k => ∀ b, Shuns n (k b)

/-- The name set by an action on the alias table. -/
def Act.names {β : Type} : Act β → Option Name
  | .alSet m _ => some m
  | _ => none

theorem shuns_bind {α β : Type} {q : Prog α} {f : α → Prog β} (h : Shuns n q) (hf : ∀ a, Shuns n (f a)) :
    Shuns n (q.bind f) := by
  induction q with
  | ret a => exact hf a
  | crash e => trivial
  | act a k ih =>
    cases a
    case alGet m => exact fun b hb => ih b (h b hb)
    case alSet m r => exact ⟨h.1, ih () h.2⟩
    all_goals exact fun b => ih b (h b)

/-- Programs that do not write the alias table. -/
theorem shuns_avoids {α : Type} {q : Prog α} (h : Avoids .aliases q) : Shuns n q := by
  induction q with
  | ret a => trivial
  | crash e => trivial
  | act a k ih =>
    cases a
    case alGet m => exact fun b _ => ih b (h.2 b)
    case alSet m r => exact absurd rfl h.1
    all_goals exact fun b => ih b (h.2 b)

theorem shuns_plain {α β : Type} (a : Act β) (f : β → Prog α) (h : a.names = none) (hf : ∀ b, Shuns n (f b)) :
    Shuns n (perform a >>= f) := by
  show Shuns n (.act a f)
  cases a
  case alGet m => exact fun b _ => hf b
  case alSet m r => exact nomatch h
  all_goals exact fun b => hf b

theorem shuns_get {α : Type} (m : Name) (f : Option SliceRef → Prog α) (hf : ∀ b, (m = n → b = none) → Shuns n (f b)) :
    Shuns n (perform (.alGet m) >>= f) := hf

theorem shuns_set {α : Type} (m : Name) (r : SliceRef) (f : Unit → Prog α) (hm : m ≠ n) (hf : Shuns n (f ())) :
    Shuns n (perform (.alSet m r) >>= f) := ⟨hm, hf⟩

theorem shuns_last {β : Type} (a : Act β) (h : a.names = none) : Shuns n (perform a) := shuns_plain a .ret h fun _ => trivial

theorem shuns_lock (m : Mu) : Shuns n (Repo.lock m) := shuns_plain _ _ rfl fun _ => shuns_last _ rfl

theorem shuns_readFrom (r : SliceRef) : ∀ k i, Shuns n (Repo.readFrom r i k)
  | 0, _ => trivial
  | k + 1, i => shuns_plain _ _ rfl fun _ => shuns_bind (shuns_readFrom r k (i + 1)) fun _ => trivial

theorem shuns_sliceHas (r : SliceRef) (index : Name) : ∀ k i, Shuns n (Repo.sliceHas r index i k)
  | 0, _ => trivial
  | k + 1, i => by
    refine shuns_plain _ _ rfl fun b => ?_
    split
    · trivial
    · exact shuns_sliceHas r index k (i + 1)

theorem shuns_alias {al i : Name} (h : al ≠ n) : Shuns n ((Op.alias al i).prog cfg) := by
  refine shuns_bind (q := Repo.alias al i) ?_ fun _ => trivial
  refine shuns_plain _ _ rfl fun _ => shuns_plain _ _ rfl fun x => ?_
  cases x with
  | none => exact shuns_plain _ _ rfl fun _ => trivial
  | some p =>
    refine shuns_bind (shuns_lock _) fun _ => shuns_plain _ _ rfl fun r => ?_
    have fin : ∀ b, Shuns n (((perform (.unlock .aliases) >>= fun _ => perform (.runlock .indices) >>= fun _ => pure b) : Prog Bool)) :=
      fun _ => shuns_plain _ _ rfl fun _ => shuns_plain _ _ rfl fun _ => trivial
    cases r with
    | none => exact shuns_plain _ _ rfl fun _ => shuns_set _ _ _ h (fin true)
    | some r =>
      refine shuns_bind (shuns_sliceHas _ _ _ _) fun b => ?_
      cases b with
      | true => exact fin false
      | false => exact shuns_plain _ _ rfl fun _ => shuns_set _ _ _ h (fin true)

theorem shuns_unAlias (al i : Name) : Shuns n ((Op.unAlias al i).prog cfg) := by
  refine shuns_bind (q := Repo.unAlias al i) ?_ fun _ => trivial
  unfold Repo.unAlias
  split
  · exact shuns_bind (shuns_lock _) fun _ => shuns_plain _ _ rfl fun _ => shuns_plain _ _ rfl fun _ => shuns_plain _ _ rfl fun _ => trivial
  · refine shuns_plain _ _ rfl fun _ => shuns_plain _ _ rfl fun x => ?_
    cases x with
    | none => trivial
    | some p =>
      refine shuns_plain _ _ rfl fun _ => shuns_bind (shuns_lock _) fun _ => shuns_get _ _ fun r hr => ?_
      cases r with
      | none => trivial
      | some r =>
        have ha : al ≠ n := fun e => nomatch hr e
        refine shuns_bind (shuns_readFrom _ _ _) fun xs => ?_
        dsimp only
        split
        · exact shuns_plain _ _ rfl fun _ => shuns_set _ _ _ ha (shuns_plain _ _ rfl fun _ => trivial)
        · exact shuns_plain _ _ rfl fun _ => trivial

theorem shuns_dropAliases (m : Name) : ∀ ks, Shuns n (Repo.dropAliases m ks)
  | [] => trivial
  | k :: ks => by
    refine shuns_get _ _ fun r hr => ?_
    cases r with
    | none => exact shuns_dropAliases m ks
    | some r =>
      have ha : k ≠ n := fun e => nomatch hr e
      refine shuns_bind (shuns_readFrom _ _ _) fun xs => ?_
      dsimp only
      split
      · exact shuns_plain _ _ rfl fun _ => shuns_dropAliases m ks
      · split
        · exact shuns_plain _ _ rfl fun _ => shuns_set _ _ _ ha (shuns_dropAliases m ks)
        · exact shuns_dropAliases m ks

theorem shuns_drop (m : Name) : Shuns n ((Op.drop m).prog cfg) := by
  refine shuns_bind (q := Repo.drop m) ?_ fun _ => trivial
  refine shuns_plain _ _ rfl fun _ => shuns_plain _ _ rfl fun x => ?_
  cases x with
  | none => exact shuns_plain _ _ rfl fun _ => trivial
  | some p =>
    exact shuns_plain _ _ rfl fun _ => shuns_bind (shuns_lock _) fun _ => shuns_bind (shuns_lock _) fun _ =>
      shuns_plain _ _ rfl fun ks => shuns_bind (shuns_dropAliases _ _) fun _ => shuns_plain _ _ rfl fun _ =>
      shuns_plain _ _ rfl fun _ => shuns_plain _ _ rfl fun _ => trivial

theorem shuns_renameSlice (r : SliceRef) (old new : Name) : ∀ k i, Shuns n (Repo.renameSlice r old new i k)
  | 0, _ => trivial
  | k + 1, i => by
    refine shuns_plain _ _ rfl fun x => ?_
    dsimp only
    split
    · exact shuns_plain _ _ rfl fun _ => shuns_renameSlice r old new k (i + 1)
    · exact shuns_renameSlice r old new k (i + 1)

theorem shuns_renameAliases (old new : Name) : ∀ ks, Shuns n (Repo.renameAliases old new ks)
  | [] => trivial
  | k :: ks => by
    refine shuns_plain _ _ rfl fun x => ?_
    cases x with
    | none => exact shuns_renameAliases old new ks
    | some r => exact shuns_bind (shuns_renameSlice _ _ _ _ _) fun _ => shuns_renameAliases old new ks

theorem shuns_rename (o m : Name) : Shuns n ((Op.rename o m).prog cfg) := by
  refine shuns_bind (q := Repo.rename o m) ?_ fun _ => trivial
  refine shuns_bind (shuns_lock _) fun _ => shuns_plain _ _ rfl fun x => ?_
  cases x with
  | none => exact shuns_plain _ _ rfl fun _ => trivial
  | some p =>
    exact shuns_plain _ _ rfl fun _ => shuns_plain _ _ rfl fun _ => shuns_plain _ _ rfl fun ks =>
      shuns_bind (shuns_renameAliases _ _ _) fun _ => shuns_plain _ _ rfl fun _ => trivial

theorem shuns_putPostings (p : Ptr) (next : Nat) : ∀ toks, Shuns n (Repo.putPostings p next toks)
  | [] => trivial
  | _ :: toks => shuns_plain _ _ rfl fun _ => shuns_putPostings p next toks

theorem shuns_putIndex (p : Ptr) (e : DocRequest) : Shuns n (Repo.putIndex cfg p e) :=
  shuns_plain _ _ rfl fun _ => shuns_putPostings _ _ _

theorem shuns_putAll (e : DocRequest) : ∀ ps, Shuns n (Repo.putAll cfg e ps)
  | [] => trivial
  | _ :: ps => shuns_bind (shuns_putIndex _ _) fun _ => shuns_putAll e ps

theorem shuns_putTargets (ts : List (Option Ptr)) (e : DocRequest) : Shuns n (Repo.putTargets cfg ts e) := by
  unfold Repo.putTargets
  split
  · trivial
  · split
    · exact shuns_plain _ _ rfl fun _ => shuns_putAll _ _
    · trivial

theorem shuns_resolveFrom (r : SliceRef) : ∀ k i, Shuns n (Repo.resolveFrom r i k)
  | 0, _ => trivial
  | k + 1, i => shuns_plain _ _ rfl fun _ => shuns_plain _ _ rfl fun _ => shuns_bind (shuns_resolveFrom r k (i + 1)) fun _ => trivial

theorem shuns_getIndices (m : Name) : Shuns n (Repo.getIndices m) := by
  refine shuns_plain _ _ rfl fun _ => shuns_plain _ _ rfl fun x => ?_
  cases x with
  | some p => exact shuns_plain _ _ rfl fun _ => trivial
  | none =>
    refine shuns_plain _ _ rfl fun _ => shuns_plain _ _ rfl fun r => ?_
    cases r with
    | none => exact shuns_plain _ _ rfl fun _ => shuns_plain _ _ rfl fun _ => trivial
    | some r => exact shuns_bind (shuns_resolveFrom _ _ _) fun _ => shuns_plain _ _ rfl fun _ => shuns_plain _ _ rfl fun _ => trivial

theorem shuns_put (m : Name) (e : DocRequest) : Shuns n ((Op.put m e).prog cfg) := by
  refine shuns_bind (q := Repo.put cfg m e) ?_ fun _ => trivial
  refine shuns_bind (shuns_getIndices m) fun r => shuns_bind (shuns_lock _) fun _ => ?_
  cases r with
  | none =>
    exact shuns_plain _ _ rfl fun p => shuns_plain _ _ rfl fun _ => shuns_bind (shuns_putIndex _ _) fun _ => shuns_last _ rfl
  | some l => exact shuns_bind (shuns_putTargets _ _) fun _ => shuns_last _ rfl

theorem shuns_op {op : Op} (h : ∀ i, op ≠ .alias n i) : Shuns n (op.prog cfg) := by
  cases op with
  | alias al i => exact shuns_alias fun e => h i (by rw [e])
  | unAlias al i => exact shuns_unAlias al i
  | drop m => exact shuns_drop m
  | rename o m => exact shuns_rename o m
  | put m e => exact shuns_put m e
  | list => exact shuns_avoids (avoids_read _ rfl _)
  | listAliases => exact shuns_avoids (avoids_read _ rfl _)
  | string => exact shuns_avoids (avoids_read _ rfl _)
  | has n => exact shuns_avoids (avoids_read _ rfl _)
  | hasAlias n => exact shuns_avoids (avoids_read _ rfl _)
  | search n ts e => exact shuns_avoids (avoids_read _ rfl _)

theorem setMu_aliases (s : Shared) (m : Mu) (l : RW) : (s.setMu m l).aliases = s.aliases := by cases m <;> rfl

/-- A name no call has made an alias is none. -/
theorem noAlias_reachable {c : Config} (hr : ConcReachable cfg c) (h : ∀ x ∈ c.calls, ∀ i, x.op ≠ .alias n i) :
    c.sh.aliases.get n = none ∧ ∀ x ∈ c.calls, Shuns n x.prog := by
  have key : ∀ c0, Steps cfg c0 c → c0 = Config.init → c.sh.aliases.get n = none ∧ ∀ x ∈ c.calls, Shuns n x.prog := by
    intro c0 hs
    induction hs with
    | refl => intro e; subst e; exact ⟨rfl, fun x hx => nomatch hx⟩
    | @tail c1 c2 hpre hs ih =>
      intro e
      obtain ⟨g1, g2⟩ := ih (by subst e; exact hpre) (by
        intro x hx
        obtain ⟨j, hj⟩ := List.getElem?_of_mem hx
        obtain ⟨x', hx', hop, _⟩ := step_calls hs hj
        rw [← hop]; exact h x' (List.mem_of_getElem? hx')) e
      cases hs with
      | invoke op o =>
        refine ⟨g1, fun x hx => ?_⟩
        have hx0 := hx
        rcases List.mem_append.1 hx with hx | hx
        · exact g2 x hx
        · rw [List.mem_singleton] at hx; subst hx; exact shuns_op (h _ hx0)
      | move t hm =>
        cases hm with
        | crash h1 he =>
          refine ⟨g1, fun x hx => ?_⟩
          rcases List.mem_or_eq_of_mem_set hx with hx | hx
          · exact g2 x hx
          · subst hx; trivial
        | @act s s' calls op o β a k b h1 he =>
          have hk := g2 _ (List.mem_of_getElem? h1)
          have hnew : s'.aliases.get n = none ∧ Shuns n (k b) := by
            cases a
            case alGet m => cases he; exact ⟨g1, hk _ fun e => by rw [e]; exact g1⟩
            case alSet m r =>
              cases he
              exact ⟨by show (s.aliases.set m r).get n = none; rw [GoMap.get_set_ne _ _ hk.1]; exact g1, hk.2⟩
            case alDel m =>
              cases he
              refine ⟨?_, hk ()⟩
              show (s.aliases.delete m).get n = none
              rw [GoMap.get_delete]
              split
              · rfl
              · exact g1
            all_goals
              refine ⟨?_, hk b⟩
              simp only [exec] at he
              repeat' split at he
              all_goals first | (cases he; exact g1) | (cases he; rw [setMu_aliases]; exact g1) | cases he
          refine ⟨hnew.1, fun x hx => ?_⟩
          rcases List.mem_or_eq_of_mem_set hx with hx | hx
          · exact g2 x hx
          · subst hx; exact hnew.2
  exact key _ hr rfl

/-! ## Creating the index -/

/-- What a `Put` does once the new index is in the table. -/
def afterSet (cfg : Cfg) (p : Ptr) (d : DocRequest) : Prog Ret :=
  Repo.putIndex cfg p d >>= fun _ => perform (.unlock .indices) >>= fun _ => pure .unit

/-- One action of a `Put` on its way to create the index of `n`; `o` is the object it has made. -/
def MakeAct (cfg : Cfg) (n : Name) (d : DocRequest) (o : Option Ptr) {β : Type} : Act β → (β → Prog Ret) →
    (Option Ptr → β → Prop) → Prop
  | .newIndex m, _, Φ => o = none ∧ m = n ∧ ∀ p, Φ (some p) p
  | .idxSet m q, k, _ => o = some q ∧ m = n ∧ k () = afterSet cfg q d
  | .idxDel _, _, _ => False
  | .docAppend .., _, _ => False
  | .postAdd .., _, _ => False
  | .idxGet m, _, Φ => o = none ∧ ∀ b, (m = n → b = none) → Φ o b
  | .alGet m, _, Φ => o = none ∧ ∀ b, (m = n → b = none) → Φ o b
  | _, _, Φ => o = none ∧ ∀ b, Φ o b

/-- A `Put` that will create the index of `n`, if there is none and `n` is no alias. -/
def Making (cfg : Cfg) (n : Name) (d : DocRequest) : Option Ptr → Prog Ret → Prop
  | _, .ret _ => False
  | _, .crash _ => True
  | o, .act a k => MakeAct cfg n d o a k fun o' b => Making cfg n d o' (k b)

theorem making_put : Making cfg n d none ((Op.put n d).prog cfg) := by
  refine ⟨rfl, fun _ => ⟨rfl, fun b hb => ?_⟩⟩
  rw [hb rfl]
  refine ⟨rfl, fun _ => ⟨rfl, fun r hr => ?_⟩⟩
  rw [hr rfl]
  refine ⟨rfl, fun _ => ⟨rfl, fun _ => ⟨rfl, fun _ => ⟨rfl, fun _ => ⟨rfl, rfl, fun p => ⟨rfl, rfl, ?_⟩⟩⟩⟩⟩⟩
  show (Repo.putIndex cfg p d >>= fun _ => perform (.unlock .indices)) >>= _ = _
  rw [bind_assoc']
  rfl

/-- No call but `t` that is running, or was made after `t`, touches `n`. -/
def LeftAlone (n : Name) (t : Tid) (c : Config) : Prop :=
  ∀ u y, c.calls[u]? = some y → u ≠ t → y.running ∨ t < u → ¬ y.op.binds n ∧ ¬ y.op.unbinds n

theorem spares_of {n : Name} {op : Op} (h : ¬ op.binds n ∧ ¬ op.unbinds n) : op.spares n := by
  refine ⟨?_, ?_⟩
  · cases op <;> first | rfl | exact if_neg h.1
  · cases op with
    | rename m m' => exact fun hm => hm.elim h.2 h.1
    | drop m => exact h.2
    | _ => exact id

theorem mine_of {n : Name} {op : Op} (h : ¬ op.binds n) : op.mine n = none := by
  cases op <;> first | rfl | exact if_neg h

/-- The invariant right after the new index has been put into the table. -/
theorem keep_create {c : Config} (hr : ConcReachable cfg c) {t : Tid} {o : Oracle} {p : Ptr}
    (hn : c.sh.indices.get n = some p) (hp : c.sh.heap[p]? = some (newMemoryIndex n))
    (ht : c.calls[t]? = some ⟨.put n d, o, afterSet cfg p d⟩) (hl : LeftAlone n t c) :
    ∃ H A, LockInv c H ∧ WholeInv (fun _ => True) cfg.tok c H ∧
      KeepInv cfg n p [] t c.calls.length A (fun _ => []) c H := by
  obtain ⟨H, i, w, v⟩ := pre_reachable (n := n) (p := p) hr
  have hlt := (List.getElem?_eq_some_iff.1 ht).1
  have hwt : (H t).imu = .write := (knows_own (a := .docAppend p (newDoc d.id d.raw)) (w.knows t _ ht) fun _ _ h => h).1
  have hputs : putsReturned n (c.calls.drop t) = [] := by
    rw [putsReturned_eq, List.filterMap_eq_nil_iff]
    intro x hx
    obtain ⟨j, hj⟩ := List.getElem?_of_mem hx
    rw [List.getElem?_drop] at hj
    by_cases hj0 : j = 0
    · subst hj0
      rw [Nat.add_zero, ht] at hj
      cases hj
      rfl
    · have := (hl (t + j) x hj (Nat.ne_of_gt (Nat.lt_add_of_pos_right (Nat.pos_of_ne_zero hj0))) (.inr (Nat.lt_add_of_pos_right (Nat.pos_of_ne_zero hj0)))).1
      cases hx1 : x with
      | mk op o q =>
        rw [hx1] at this
        cases op <;> first | rfl | skip
        cases q <;> first | rfl | exact if_neg this
  refine ⟨H, fun u => t ≤ u ∨ ∃ y, c.calls[u]? = some y ∧ y.running, i, w, ⟨hn, Nat.le_of_lt hlt, fun u h => .inl h,
    fun u x h hx hrun => h (.inr ⟨x, hx, hrun⟩), fun _ => .nil _, fun h => absurd hwt (h t (.inl (Nat.le_refl _))), ?_⟩⟩
  intro u x hu hx
  rw [hputs]
  have hM : ¬ c.calls.length ≤ u := Nat.not_le.2 (List.getElem?_eq_some_iff.1 hx).1
  by_cases hut : u = t
  · subst hut
    rw [ht] at hx
    cases hx
    unfold KeepKnows
    rw [if_pos hwt, show mineFrom n u u (.put n d) = some d from (if_pos (Nat.le_refl _)).trans (if_pos rfl)]
    refine ⟨[], newMemoryIndex n, hp, .refl _, ?_⟩
    refine keep_putIndex p d [] _ _ ?_
    rw [if_pos rfl]
    refine ⟨own_busy _ _, ⟨n, [d], rfl, .refl _⟩, fun _ => rfl, fun h => absurd h hM⟩
  · have hsp : ¬ x.op.binds n ∧ ¬ x.op.unbinds n := by
      refine hl u x hx hut ?_
      rcases hu with h | ⟨y, hy, hrun⟩
      · exact .inr (Nat.lt_of_le_of_ne h (Ne.symm hut))
      · rw [hx] at hy; cases hy; exact .inl hrun
    have hmine : mineFrom n t u x.op = none := by
      unfold mineFrom
      split
      · exact mine_of hsp.1
      · rfl
    rw [hmine]
    have hv := v.knows u x hx (spares_of hsp)
    have hnw := other_writes i hut hwt
    unfold PreKnows at hv
    rw [if_neg hnw] at hv
    unfold KeepKnows
    rw [if_neg hnw]
    obtain ⟨dd, h⟩ := hv
    exact ⟨dd, keep_any (keep_mono (fun _ _ h => ⟨h.1, fun h' => absurd h' hM⟩) h)⟩

/-- A `Put` to a name without index: not called yet, on its way, or the index is there. -/
inductive MakeInv (cfg : Cfg) (n : Name) (d : DocRequest) (t : Tid) (c : Config) : Prop where
  | before (h : c.calls.length ≤ t) (hn : c.sh.indices.get n = none)
  | making (x : Thread) (o : Option Ptr) (hx : c.calls[t]? = some x) (hm : Making cfg n d o x.prog)
      (hn : c.sh.indices.get n = none) (hp : ∀ p, o = some p → c.sh.heap[p]? = some (newMemoryIndex n))
  | made (p : Ptr) (H : Tid → Held) (A : Tid → Prop) (M : Nat) (i : LockInv c H) (w : WholeInv (fun _ => True) cfg.tok c H)
      (v : KeepInv cfg n p [] t M A (fun _ => []) c H)

/-- Another call does not bind `n`. -/
theorem step_other {c c' : Config} {u t : Tid} (hr : ConcReachable cfg c) (hs : TStep cfg u c c') (hut : u ≠ t)
    (hl : LeftAlone n t c) (hn : c.sh.indices.get n = none) : c'.sh.indices.get n = none := by
  cases hs with
  | crash h he => exact hn
  | @act s s' calls op o β a k b h he =>
    have hnm := names_reachable hr _ (List.mem_of_getElem? h)
    have hb : a.binds ≠ some n := fun e => (hl u _ h hut (.inl trivial)).1 (hnm.1 n e)
    by_cases hu : a.unbinds = some n
    · exact (exec_index he n).2.1 hu
    · show s'.indices.get n = none
      rw [(exec_index he n).1 hb hu]; exact hn

theorem make_step {t : Tid} {c c' : Config} (hr : ConcReachable cfg c) (hs : Step cfg c c') (hal : c.sh.aliases.get n = none)
    (hl : LeftAlone n t c) (hl' : LeftAlone n t c') (hop : ∀ y, c'.calls[t]? = some y → y.op = .put n d)
    (hm : ∀ x ∈ c'.calls.drop t, ¬ x.op.moves n) (v : MakeInv cfg n d t c) : MakeInv cfg n d t c' := by
  have hr' : ConcReachable cfg c' := .tail hr hs
  cases v with
  | made p H A M i w v =>
    obtain ⟨H', i', w', v'⟩ := keep_step i w (fun _ _ _ _ => trivial) v hm hs
    exact .made p H' A M i' w' v'
  | before h hn =>
    cases hs with
    | move u hm =>
      have hlt : u < c.calls.length := by
        cases hm with
        | act h1 _ => exact (List.getElem?_eq_some_iff.1 h1).1
        | crash h1 _ => exact (List.getElem?_eq_some_iff.1 h1).1
      refine .before ?_ (step_other hr hm (Nat.ne_of_lt (Nat.lt_of_lt_of_le hlt h)) hl hn)
      cases hm <;> simpa using h
    | invoke op o =>
      by_cases he : c.calls.length = t
      · have hx : (c.calls ++ [Thread.mk op o (op.prog cfg)])[t]? = some ⟨op, o, op.prog cfg⟩ := by
          rw [← he]; simp
        have : op = .put n d := hop _ hx
        subst this
        exact .making _ none hx making_put hn fun p hp => nomatch hp
      · refine .before ?_ hn
        simp only [List.length_append, List.length_singleton]
        exact Nat.lt_of_le_of_ne h he
  | making x ob hx hmk hn hp =>
    have hlt := (List.getElem?_eq_some_iff.1 hx).1
    cases hs with
    | invoke op o =>
      refine .making x ob ?_ hmk hn hp
      simp only
      rw [List.getElem?_append_left hlt]; exact hx
    | move u hmv =>
      by_cases hut : u = t
      · subst hut
        cases hmv with
        | @crash s calls op o β a k e h he =>
          exact .making _ ob (List.getElem?_set_self hlt) trivial hn hp
        | @act s s' calls op o β a k b h he =>
          rw [h] at hx
          cases hx
          have hx' : (calls.set u ⟨op, o, k b⟩)[u]? = some ⟨op, o, k b⟩ := List.getElem?_set_self hlt
          have hopu : op = .put n d := hop _ hx'
          subst hopu
          cases a
          case newIndex m =>
            obtain ⟨h1, h2, h3⟩ := hmk
            cases he
            subst h2
            refine .making _ (some s.heap.length) hx' (h3 _) hn fun p hp => ?_
            cases hp
            simp
          case idxSet m q =>
            obtain ⟨h1, h2, h3⟩ := hmk
            cases he
            subst h2
            have h3' : k () = afterSet cfg q d := h3
            rw [h3'] at hx' hl' hr' ⊢
            obtain ⟨H, A, i, w, v⟩ := keep_create hr' (d := d) (t := u) (o := o) (p := q) (GoMap.get_set_same _ _ _)
              (hp q h1) hx' hl'
            exact .made q H A _ i w v
          case idxDel => exact hmk.elim
          case docAppend => exact hmk.elim
          case postAdd => exact hmk.elim
          case idxGet m =>
            obtain ⟨h1, h3⟩ := hmk
            cases he
            exact .making _ ob hx' (h3 _ fun e => by rw [e]; exact hn) hn hp
          case alGet m =>
            obtain ⟨h1, h3⟩ := hmk
            cases he
            exact .making _ ob hx' (h3 _ fun e => by rw [e]; exact hal) hn hp
          all_goals
            obtain ⟨h1, h3⟩ := hmk
            refine .making _ ob hx' (h3 b) ?_ (fun p e => by rw [h1] at e; cases e)
            show s'.indices.get n = none
            rw [(exec_index he n).1 (by simp [Act.binds]) (by simp [Act.unbinds])]
            exact hn
      · have hx' : c'.calls[t]? = some x := by
          cases hmv <;> (simp only; rw [List.getElem?_set_ne hut]; exact hx)
        have hn' := step_other hr hmv hut hl hn
        cases hxq : x.prog with
        | ret r => rw [hxq] at hmk; exact hmk.elim
        | crash e => exact .making x none hx' (by rw [hxq]; trivial) hn' fun p hp => nomatch hp
        | act a' k' =>
          refine .making x ob hx' hmk hn' fun p hob => ?_
          have hpp := hp p hob
          subst hob
          rw [hxq] at hmk
          obtain ⟨H, i, w, _⟩ := pre_reachable (n := n) (p := p) hr
          have hwt : (H t).imu = .write := by
            have hg := (i.good t _ hx).1 (by rw [hop x hx']; rfl)
            rw [hxq] at hg
            cases a'
            case idxSet m q =>
              have he : (H t).imu.excl = true := hg.1.2.2 .indices rfl
              generalize (H t).imu = mo at he
              cases mo <;> first | rfl | cases he
            all_goals first | exact hmk.elim | exact nomatch hmk.1
          cases hmv with
          | crash h he => exact hpp
          | @act s s' calls op o β a k b h he =>
            obtain ⟨d'', hd''⟩ := (i.good u _ h).allowed
            have hk := knows_exec hd'' he (fun hacq => w.ok fun u hu => acquire_alone i hd'' hacq u hu) w.ptrs (w.knows u _ h)
            have heq : s'.heap = s.heap := Classical.byContradiction fun hne => other_writes i hut hwt (hk.own hne)
            show s'.heap[p]? = _
            rw [heq]; exact hpp

/-- A call that is running was running before. -/
theorem step_running {c c' : Config} (hs : Step cfg c c') {u : Tid} {x y : Thread} (hx : c.calls[u]? = some x)
    (hy : c'.calls[u]? = some y) (hrun : y.running) : x.running := by
  have hlt := (List.getElem?_eq_some_iff.1 hx).1
  cases hs with
  | invoke op o =>
    simp only at hy
    rw [List.getElem?_append_left hlt, hx] at hy
    cases hy; exact hrun
  | move t hm =>
    cases hm with
    | act h he =>
      by_cases hut : t = u
      · subst hut; rw [h] at hx; cases hx; trivial
      · simp only at hy; rw [List.getElem?_set_ne hut, hx] at hy; cases hy; exact hrun
    | crash h he =>
      by_cases hut : t = u
      · subst hut; rw [h] at hx; cases hx; trivial
      · simp only at hy; rw [List.getElem?_set_ne hut, hx] at hy; cases hy; exact hrun

theorem steps_running {c c' : Config} (hs : Steps cfg c c') : ∀ {u : Tid} {x y : Thread}, c.calls[u]? = some x →
    c'.calls[u]? = some y → y.op = x.op ∧ (y.running → x.running) := by
  induction hs with
  | refl => intro u x y h1 h2; rw [h1] at h2; cases h2; exact ⟨rfl, id⟩
  | tail _ hs ih =>
    intro u x y h1 h2
    rename_i c1 _ hs0
    have : u < c1.calls.length := Nat.lt_of_lt_of_le (List.getElem?_eq_some_iff.1 h1).1 (steps_size hs0)
    obtain ⟨g1, g2⟩ := ih h1 (List.getElem?_eq_getElem this)
    obtain ⟨y', g3, g4, _⟩ := step_calls hs (List.getElem?_eq_getElem this)
    rw [h2] at g3; cases g3
    exact ⟨g4.trans g1, fun h => g2 (step_running hs (List.getElem?_eq_getElem this) h2 h)⟩

/-- A call that has returned stays as it is. -/
theorem steps_returned {c c' : Config} (hs : Steps cfg c c') {u : Tid} {x : Thread} {r : Ret} (hx : c.calls[u]? = some x)
    (hret : x.prog = .ret r) : c'.calls[u]? = some x := by
  induction hs with
  | refl => exact hx
  | tail _ hs ih =>
    have hlt := (List.getElem?_eq_some_iff.1 ih).1
    cases hs with
    | invoke op o => simp only; rw [List.getElem?_append_left hlt]; exact ih
    | move t hm =>
      cases hm with
      | act h he =>
        have : t ≠ u := by rintro rfl; rw [h] at ih; cases ih; cases hret
        simp only; rw [List.getElem?_set_ne this]; exact ih
      | crash h he =>
        have : t ≠ u := by rintro rfl; rw [h] at ih; cases ih; cases hret
        simp only; rw [List.getElem?_set_ne this]; exact ih

/-- The whole way of a `Put` to a name without index. -/
theorem make_steps {c0 c1 : Config} (hr : ConcReachable cfg c0) (hn : c0.sh.indices.get n = none)
    (hq0 : ∀ x ∈ c0.calls, x.running → ¬ x.op.binds n ∧ ¬ x.op.unbinds n) (hs : Steps cfg c0 c1)
    (hop : ∀ y, c1.calls[c0.calls.length]? = some y → y.op = .put n d)
    (hnew : ∀ y ∈ c1.calls.drop (c0.calls.length + 1), ¬ y.op.binds n ∧ ¬ y.op.unbinds n)
    (hal : ∀ y ∈ c1.calls, ∀ i, y.op ≠ .alias n i) :
    ConcReachable cfg c1 ∧ LeftAlone n c0.calls.length c1 ∧ MakeInv cfg n d c0.calls.length c1 := by
  have alone : ∀ {c : Config}, Steps cfg c0 c →
      (∀ y ∈ c.calls.drop (c0.calls.length + 1), ¬ y.op.binds n ∧ ¬ y.op.unbinds n) → LeftAlone n c0.calls.length c := by
    intro c hs hnew u y hy hut h
    by_cases hlt : u < c0.calls.length
    · have hx := List.getElem?_eq_getElem hlt
      obtain ⟨g1, g2⟩ := steps_running hs hx hy
      rw [g1]
      refine hq0 _ (List.mem_of_getElem? hx) (g2 (h.resolve_right (Nat.not_lt.2 (Nat.le_of_lt hlt))))
    · refine hnew y (List.mem_of_getElem? (i := u - (c0.calls.length + 1)) ?_)
      rw [List.getElem?_drop, Nat.add_sub_cancel' (Nat.lt_of_le_of_ne (Nat.le_of_not_lt hlt) (Ne.symm hut))]
      exact hy
  induction hs with
  | refl => exact ⟨hr, alone (.refl _) hnew, .before (Nat.le_refl _) hn⟩
  | @tail c c' hpre hs ih =>
    obtain ⟨r, l, v⟩ := ih
      (fun y hy => by
        obtain ⟨y', g1, g2, _⟩ := step_calls hs hy
        rw [← g2]; exact hop y' g1)
      (step_new (P := fun op => ¬ op.binds n ∧ ¬ op.unbinds n) hs hnew)
      (fun y hy i => by
        obtain ⟨j, hj⟩ := List.getElem?_of_mem hy
        obtain ⟨y', g1, g2, _⟩ := step_calls hs hj
        rw [← g2]; exact hal y' (List.mem_of_getElem? g1) i)
    have l' := alone (.tail hpre hs) hnew
    refine ⟨.tail r hs, l', make_step r hs (noAlias_reachable r ?_).1 l l' hop ?_ v⟩
    · intro y hy i
      obtain ⟨j, hj⟩ := List.getElem?_of_mem hy
      obtain ⟨y', g1, g2, _⟩ := step_calls hs hj
      rw [← g2]; exact hal y' (List.mem_of_getElem? g1) i
    · intro x hx
      obtain ⟨j, hj⟩ := List.getElem?_of_mem hx
      rw [List.getElem?_drop] at hj
      by_cases hj0 : j = 0
      · subst hj0
        rw [hop x hj]
        exact id
      · have := hnew x (List.mem_of_getElem? (i := j - 1) (by
          rw [List.getElem?_drop, ← hj]; congr 1; omega))
        exact (spares_of this).2

end Visigoth
