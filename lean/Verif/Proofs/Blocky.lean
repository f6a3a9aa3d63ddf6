import Verif.Proofs.Simulation
/-!
# Every call consists of blocks
-/
namespace Visigoth

/-- A program without mutex actions; with `w`, one that writes nothing. -/
def Tame {α : Type} (w : Bool) : Prog α → Prop
  | .ret _ => True
  | .crash _ => True
  | .act a k => a.isLock = false ∧ (w = true → a.writes = none) ∧ ∀ b, Tame w (k b)

theorem tame_bind {α β : Type} {w : Bool} {p : Prog α} {f : α → Prog β} (h : Tame w p) (hf : ∀ a, Tame w (f a)) :
    Tame w (p >>= f) := by
  show Tame w (p.bind f)
  induction p with
  | ret a => exact hf a
  | crash e => trivial
  | act a k ih => exact ⟨h.1, h.2.1, fun b => ih b (h.2.2 b)⟩

theorem tame_act {α β : Type} {w : Bool} (a : Act β) (f : β → Prog α) (h : a.isLock = false) (hw : w = true → a.writes = none)
    (hf : ∀ b, Tame w (f b)) : Tame w (perform a >>= f) := ⟨h, hw, hf⟩

theorem Tame.weaken {α : Type} {w : Bool} {p : Prog α} (h : Tame true p) : Tame w p := by
  induction p with
  | ret a => trivial
  | crash e => trivial
  | act a k ih => exact ⟨h.1, fun _ => h.2.1 rfl, fun b => ih b (h.2.2 b)⟩

theorem tame_readFrom (r : SliceRef) (n : Nat) : ∀ i, Tame true (Repo.readFrom r i n) := by
  induction n with
  | zero => intro i; trivial
  | succ n ih => intro i; exact tame_act _ _ rfl (fun _ => rfl) fun x => tame_bind (ih (i + 1)) fun _ => trivial

theorem tame_sliceHas (r : SliceRef) (x : Name) (n : Nat) : ∀ i, Tame true (Repo.sliceHas r x i n) := by
  induction n with
  | zero => intro i; trivial
  | succ n ih =>
    intro i
    refine tame_act _ _ rfl (fun _ => rfl) fun y => ?_
    split
    · trivial
    · exact ih (i + 1)

theorem tame_renameSlice (r : SliceRef) (old new : Name) (n : Nat) : ∀ i, Tame false (Repo.renameSlice r old new i n) := by
  induction n with
  | zero => intro i; trivial
  | succ n ih =>
    intro i
    refine tame_act _ _ rfl (fun _ => rfl) fun y => ?_
    dsimp only
    split
    · exact tame_act _ _ rfl (by simp) fun _ => ih (i + 1)
    · exact ih (i + 1)

theorem tame_renameAliases (old new : Name) (ks : List Name) : Tame false (Repo.renameAliases old new ks) := by
  induction ks with
  | nil => trivial
  | cons k ks ih =>
    refine tame_act _ _ rfl (fun _ => rfl) fun x => ?_
    cases x with
    | none => exact ih
    | some r => exact tame_bind (tame_renameSlice r old new r.len 0) fun _ => ih

theorem tame_resolveFrom (r : SliceRef) (n : Nat) : ∀ i, Tame true (Repo.resolveFrom r i n) := by
  induction n with
  | zero => intro i; trivial
  | succ n ih =>
    intro i
    exact tame_act _ _ rfl (fun _ => rfl) fun x => tame_act _ _ rfl (fun _ => rfl) fun p =>
      tame_bind (ih (i + 1)) fun _ => trivial

theorem tame_searchIndex (p : Ptr) (ts : Str) (e : Engine) : Tame true (Repo.searchIndex p ts e) := by
  refine tame_act _ _ rfl (fun _ => rfl) fun x => ?_
  cases x <;> trivial

theorem tame_searchAll (ts : Str) (e : Engine) (ps : List Ptr) : Tame true (Repo.searchAll ts e ps) := by
  induction ps with
  | nil => trivial
  | cons p ps ih => exact tame_bind (tame_searchIndex p ts e) fun _ => tame_bind ih fun _ => trivial

theorem tame_searchTargets (ps : List (Option Ptr)) (ts : Str) (e : Engine) : Tame true (Repo.searchTargets ps ts e) := by
  unfold Repo.searchTargets
  split
  · trivial
  · exact tame_searchIndex _ _ _
  · exact tame_act _ _ rfl (fun _ => rfl) fun ps => tame_searchAll _ _ _

theorem tame_putPostings (p : Ptr) (n : Nat) (ts : List Str) : Tame false (Repo.putPostings p n ts) := by
  induction ts with
  | nil => trivial
  | cons t ts ih => exact tame_act _ _ rfl (by simp) fun _ => ih

theorem tame_putIndex (cfg : Cfg) (p : Ptr) (d : DocRequest) : Tame false (Repo.putIndex cfg p d) :=
  tame_act _ _ rfl (by simp) fun n => tame_putPostings p n _

theorem tame_putAll (cfg : Cfg) (d : DocRequest) (ps : List Ptr) : Tame false (Repo.putAll cfg d ps) := by
  induction ps with
  | nil => trivial
  | cons p ps ih => exact tame_bind (tame_putIndex cfg p d) fun _ => ih

theorem tame_putTargets (cfg : Cfg) (ps : List (Option Ptr)) (d : DocRequest) : Tame false (Repo.putTargets cfg ps d) := by
  unfold Repo.putTargets
  split
  · trivial
  · split
    · exact tame_act _ _ rfl (by simp) fun ps => tame_putAll cfg d ps
    · trivial

theorem tame_dropAliases (n : Name) (ks : List Name) : Tame false (Repo.dropAliases n ks) := by
  induction ks with
  | nil => trivial
  | cons k ks ih =>
    refine tame_act _ _ rfl (by simp) fun x => ?_
    cases x with
    | none => exact ih
    | some r =>
      refine tame_bind (tame_readFrom r r.len 0).weaken fun xs => ?_
      dsimp only
      split
      · exact tame_act _ _ rfl (by simp) fun _ => ih
      · split
        · exact tame_act _ _ rfl (by simp) fun _ => tame_act _ _ rfl (by simp) fun _ => ih
        · exact ih

theorem tame_listRows (ks : List Name) : Tame true (Repo.listRows ks) := by
  induction ks with
  | nil => trivial
  | cons k ks ih =>
    refine tame_act _ _ rfl (fun _ => rfl) fun x => ?_
    cases x with
    | none => exact ih
    | some r => exact tame_bind ih fun _ => trivial

theorem tame_renderAll (ks : List Name) : Tame true (Repo.renderAll ks) := by
  induction ks with
  | nil => trivial
  | cons k ks ih =>
    refine tame_act _ _ rfl (fun _ => rfl) fun x => ?_
    cases x with
    | none => exact ih
    | some r => exact tame_act _ _ rfl (fun _ => rfl) fun x => tame_bind ih fun _ => trivial

/-! ## Calls -/

theorem Blocky.mono {α : Type} {Q R : Bool → α → Prop} (hQR : ∀ ph a, Q ph a → R ph a) :
    ∀ {p : Prog α} {ph : Bool}, Blocky Q ph p → Blocky R ph p := by
  intro p
  induction p with
  | ret a => intro ph h; exact hQR _ _ h
  | crash e => intro ph h; trivial
  | act a k ih => intro ph h; exact ⟨h.1, fun b => ih b (h.2 b)⟩

theorem blocky_bind {α β : Type} {Q : Bool → β → Prop} (f : α → Prog β) :
    ∀ {p : Prog α} {ph : Bool}, Blocky (fun ph a => Blocky Q ph (f a)) ph p → Blocky Q ph (p >>= f) := by
  intro p
  show ∀ {ph : Bool}, _ → Blocky Q ph (p.bind f)
  induction p with
  | ret a => intro ph h; exact h
  | crash e => intro ph h; trivial
  | act a k ih => intro ph h; exact ⟨h.1, fun b => ih b (h.2 b)⟩

theorem blocky_act {α β : Type} {Q : Bool → α → Prop} {ph : Bool} (a : Act β) (f : β → Prog α)
    (h : ph = true → a.writes = none ∧ ∀ m, a.acquires ≠ some m) (hf : ∀ b, Blocky Q (phase ph a) (f b)) :
    Blocky Q ph (perform a >>= f) := ⟨h, hf⟩

theorem tame_blocky {α : Type} {w ph : Bool} (hw : ph = true → w = true) {p : Prog α} (h : Tame w p) :
    Blocky (fun ph' _ => ph' = ph) ph p := by
  induction p with
  | ret a => rfl
  | crash e => trivial
  | act a k ih =>
    refine ⟨fun hp => ⟨h.2.1 (hw hp), fun m => ?_⟩, fun b => ?_⟩
    · have := h.1
      cases a <;> simp_all [Act.isLock, Act.acquires]
    · have : phase ph a = ph := by simp [phase, (data_none h.1).1, (data_none h.1).2]
      rw [this]
      exact ih b (h.2.2 b)

theorem blocky_loop {α β : Type} {Q : Bool → β → Prop} {w ph : Bool} (hw : ph = true → w = true) {p : Prog α} (f : α → Prog β)
    (h : Tame w p) (hf : ∀ a, Blocky Q ph (f a)) : Blocky Q ph (p >>= f) :=
  blocky_bind f ((tame_blocky hw h).mono fun _ a hp => hp ▸ hf a)

theorem blocky_getIndices {ph : Bool} (n : Name) : Blocky (fun _ _ => True) ph (Repo.getIndices n) := by
  unfold Repo.getIndices
  refine blocky_act _ _ (fun _ => ⟨rfl, fun _ h => by cases h⟩) fun _ => ?_
  refine blocky_act (ph := false) _ _ (by simp) fun x => ?_
  cases x with
  | some i => exact blocky_act (ph := false) _ _ (by simp) fun _ => trivial
  | none =>
    refine blocky_act (ph := false) _ _ (by simp) fun _ => blocky_act (ph := false) _ _ (by simp) fun x => ?_
    cases x with
    | none =>
      exact blocky_act (ph := false) _ _ (by simp) fun _ =>
        blocky_act (ph := true) _ _ (fun _ => ⟨rfl, fun _ h => by cases h⟩) fun _ => trivial
    | some r =>
      exact blocky_loop (ph := false) (by simp) _ (tame_resolveFrom r r.len 0) fun ps =>
        blocky_act (ph := false) _ _ (by simp) fun _ =>
          blocky_act (ph := true) _ _ (fun _ => ⟨rfl, fun _ h => by cases h⟩) fun _ => trivial

theorem blocky_lock {α : Type} {Q : Bool → α → Prop} {ph : Bool} (m : Mu) (f : Unit → Prog α) (h : Blocky Q false (f ())) :
    Blocky Q ph (Repo.lock m >>= f) :=
  ⟨fun _ => ⟨rfl, fun _ h => by cases h⟩, fun _ => ⟨fun hh => (nomatch hh), fun _ => h⟩⟩

theorem blocky_op (cfg : Cfg) (op : Op) : Blocky (fun _ _ => True) true (op.prog cfg) := by
  have rl : ∀ {m : Mu} {α : Type} {Q : Bool → α → Prop} {ph : Bool} (f : Unit → Prog α), Blocky Q false (f ()) →
      Blocky Q ph (perform (.rlock m) >>= f) := fun f h => blocky_act _ _ (fun _ => ⟨rfl, fun _ h => by cases h⟩) fun _ => h
  have ru : ∀ {m : Mu} {α : Type} {Q : Bool → α → Prop} {ph : Bool} (f : Unit → Prog α), Blocky Q true (f ()) →
      Blocky Q ph (perform (.runlock m) >>= f) := fun f h => blocky_act _ _ (fun _ => ⟨rfl, fun _ h => by cases h⟩) fun _ => h
  have ul : ∀ {m : Mu} {α : Type} {Q : Bool → α → Prop} {ph : Bool} (f : Unit → Prog α), Blocky Q true (f ()) →
      Blocky Q ph (perform (.unlock m) >>= f) := fun f h => blocky_act _ _ (fun _ => ⟨rfl, fun _ h => by cases h⟩) fun _ => h
  have da : ∀ {α β : Type} {Q : Bool → α → Prop} (a : Act β) (f : β → Prog α), a.isLock = false → (∀ b, Blocky Q false (f b)) →
      Blocky Q false (perform a >>= f) := by
    intro α β Q a f h hf
    refine blocky_act _ _ (by simp) fun b => ?_
    have : phase false a = false := by simp [phase, (data_none h).1, (data_none h).2]
    rw [this]
    exact hf b
  have lp : ∀ {α β : Type} {Q : Bool → β → Prop} {w : Bool} {p : Prog α} (f : α → Prog β), Tame w p → (∀ a, Blocky Q false (f a)) →
      Blocky Q false (p >>= f) := fun f h hf => blocky_loop (by simp) f h hf
  cases op with
  | list => exact blocky_bind _ (rl _ (da _ _ rfl fun _ => ru _ trivial))
  | listAliases => exact blocky_bind _ (rl _ (da _ _ rfl fun ks => lp _ (tame_listRows ks) fun _ => ru _ trivial))
  | string => exact blocky_bind _ (rl _ (da _ _ rfl fun ks => lp _ (tame_renderAll ks) fun _ => ru _ trivial))
  | has n => exact blocky_bind _ (rl _ (da _ _ rfl fun _ => ru _ trivial))
  | hasAlias n => exact blocky_bind _ (rl _ (da _ _ rfl fun _ => ru _ trivial))
  | alias a i =>
    refine blocky_bind _ ?_
    unfold Repo.alias
    refine rl _ (da _ _ rfl fun x => ?_)
    cases x with
    | none => exact ru _ trivial
    | some p =>
      refine blocky_lock _ _ (da _ _ rfl fun r => ?_)
      have tl : ∀ b : Bool, Blocky (fun _ a => Blocky (fun _ _ => True) true (pure (Ret.bool a) : Prog Ret)) false
          (do perform (.unlock .aliases); perform (.runlock .indices); return b) :=
        fun b => ul _ (ru _ trivial)
      cases r with
      | none => exact da _ _ rfl fun _ => da _ _ rfl fun _ => tl _
      | some r =>
        refine lp _ (tame_sliceHas r i r.len 0) fun ex => ?_
        cases ex
        · exact da _ _ rfl fun _ => da _ _ rfl fun _ => tl _
        · exact tl _
  | unAlias a i =>
    refine blocky_bind _ ?_
    unfold Repo.unAlias
    split
    · exact blocky_lock _ _ (da _ _ rfl fun _ => da _ _ rfl fun _ => ul _ trivial)
    · refine rl _ (da _ _ rfl fun x => ?_)
      cases x with
      | none => trivial
      | some p =>
        refine ru _ (blocky_lock _ _ (da _ _ rfl fun r => ?_))
        cases r with
        | none => trivial
        | some r =>
          refine lp _ (tame_readFrom r r.len 0) fun xs => ?_
          dsimp only
          split
          · exact da _ _ rfl fun _ => da _ _ rfl fun _ => ul _ trivial
          · exact ul _ trivial
  | put n d =>
    refine blocky_bind _ ?_
    unfold Repo.put
    refine blocky_bind _ ((blocky_getIndices n).mono fun ph r _ => ?_)
    refine blocky_lock _ _ ?_
    cases r with
    | none => exact da _ _ rfl fun p => da _ _ rfl fun _ => lp _ (tame_putIndex cfg p d) fun _ => ⟨by simp, fun _ => trivial⟩
    | some ps => exact lp _ (tame_putTargets cfg ps d) fun _ => ⟨by simp, fun _ => trivial⟩
  | search n ts e =>
    refine blocky_bind _ (Blocky.mono (Q := fun _ _ => True) (fun ph r _ => by cases r <;> trivial) ?_)
    unfold Repo.search
    refine rl _ (da _ _ rfl fun x => ?_)
    cases x with
    | some p => exact lp _ (tame_searchTargets _ _ _) fun _ => ru _ trivial
    | none =>
      refine rl _ (da _ _ rfl fun r => ?_)
      cases r with
      | none => exact ru _ (ru _ trivial)
      | some r =>
        refine lp _ (tame_resolveFrom r r.len 0) fun ps => ru _ ?_
        exact blocky_loop (w := true) (by simp) _ (tame_searchTargets _ _ _) fun _ => ru _ trivial
  | rename old new =>
    refine blocky_bind _ ?_
    unfold Repo.rename
    refine blocky_lock _ _ (da _ _ rfl fun x => ?_)
    cases x with
    | none => exact ul _ trivial
    | some p => exact da _ _ rfl fun _ => da _ _ rfl fun _ => da _ _ rfl fun ks => lp _ (tame_renameAliases old new ks) fun _ => ul _ trivial
  | drop n =>
    refine blocky_bind _ ?_
    unfold Repo.drop
    refine rl _ (da _ _ rfl fun x => ?_)
    cases x with
    | none => exact ru _ trivial
    | some p =>
      exact ru _ (blocky_lock _ _ (blocky_lock _ _ (da _ _ rfl fun ks => lp _ (tame_dropAliases n ks) fun _ =>
        da _ _ rfl fun _ => ul _ (ul _ trivial))))

/-- Calls start with taking a mutex. -/
theorem post_start (cfg : Cfg) (o : Oracle) (t : Tid) (op : Op) (s : Shared) : post cfg o t (op.prog cfg) s = op.prog cfg := by
  cases op
  case unAlias a i =>
    simp only [Op.prog, Repo.unAlias]
    split <;> rfl
  all_goals rfl

/-- Every call starts with an action. -/
theorem prog_acts (cfg : Cfg) (op : Op) : ∃ (β : Type) (a : Act β) (k : β → Prog Ret), op.prog cfg = .act a k := by
  cases op
  case unAlias al i =>
    simp only [Op.prog, Repo.unAlias]
    split <;> exact ⟨_, _, _, rfl⟩
  all_goals exact ⟨_, _, _, rfl⟩

/-- Simulation of single steps. -/
theorem rel_step {cfg : Cfg} {d : Discipline} {c c' C : Config} {H : Tid → Held} {ph : Tid → Bool}
    (i : LockInv c H) (r : Rel d cfg c C H ph) (hsuit' : ∀ x ∈ c.calls, Copes d x) (hsuit : ∀ x ∈ c'.calls, Copes d x)
    (hs : Step cfg c c') : ∃ H' C' ph', LockInv c' H' ∧ BMove cfg C C' ∧ Rel d cfg c' C' H' ph' := by
  cases hs with
  | move t h => exact rel_move i r hsuit' h
  | invoke op o =>
    have ld : Laws d := by
      refine ((hsuit ⟨op, o, op.prog cfg⟩ (by simp)).suits ?_).laws
      obtain ⟨β, a, k, hk⟩ := prog_acts cfg op
      unfold Thread.running
      rw [hk]
      trivial
    refine ⟨H, _, setPh ph c.calls.length true, lockInv_invoke i op o, .inr (.invoke C op o), ?_⟩
    refine ⟨by simp [r.size], ?_, ?_⟩
    · intro t x hx
      simp only at hx ⊢
      by_cases ht : t < c.calls.length
      · rw [List.getElem?_append_left ht] at hx
        obtain ⟨q, h1, h2⟩ := r.thread t x hx
        refine ⟨q, by rw [List.getElem?_append_left (by rw [r.size]; exact ht)]; exact h1, ?_⟩
        rw [setPh_other _ _ (Nat.ne_of_lt ht)]
        exact h2
      · rw [List.getElem?_append_right (Nat.le_of_not_lt ht)] at hx
        have h0 : t - c.calls.length = 0 := by
          cases hh : t - c.calls.length with
          | zero => rfl
          | succ n => rw [hh] at hx; simp at hx
        rw [h0] at hx
        simp only [List.getElem?_cons_zero, Option.some.injEq] at hx
        subst hx
        have ht' : t = c.calls.length := Nat.le_antisymm (Nat.le_of_sub_eq_zero h0) (Nat.le_of_not_lt ht)
        subst ht'
        refine ⟨op.prog cfg, ?_, ?_⟩
        · rw [← r.size, List.getElem?_append_right (Nat.le_refl _)]; simp
        · rw [setPh_same]
          exact ⟨blocky_op cfg op, by simp only [if_true]; exact (post_start cfg o _ op _).symm⟩
    · intro l
      rcases r.data l with h | ⟨t, h1, h2⟩
      · exact Or.inl h
      · refine Or.inr ⟨t, ?_, h2⟩
        have : t ≠ c.calls.length := by
          intro h
          subst h
          rw [i.fresh _ (Nat.le_refl _), ld.none l] at h2
          cases h2
        rwa [setPh_other _ _ this]

theorem rel_init (d : Discipline) (cfg : Cfg) : Rel d cfg Config.init Config.init (fun _ => {}) (fun _ => true) :=
  ⟨rfl, fun t x hx => by simp [Config.init] at hx, fun l => Or.inl (SameAt.refl _ _)⟩

/-- Every interleaved execution of calls that follow a discipline is matched by an execution of
blocks. -/
theorem rel_reachable {cfg : Cfg} {d : Discipline} {c : Config} (hr : ConcReachable cfg c) (hsuit : ∀ x ∈ c.calls, Suits d x.op) :
    ∃ H C ph, LockInv c H ∧ BSteps cfg Config.init C ∧ Rel d cfg c C H ph := by
  unfold ConcReachable at hr
  generalize hc : Config.init = c0 at hr
  induction hr with
  | refl => subst hc; exact ⟨_, _, _, lockInv_init, .refl _, rel_init d cfg⟩
  | @tail c1 _ _ hs ih =>
    have hsuit' : ∀ x ∈ c1.calls, Suits d x.op := fun x hx => by
      obtain ⟨t, ht⟩ := List.getElem?_of_mem hx
      obtain ⟨x', hx', hop, _⟩ := step_calls hs ht
      exact hop ▸ hsuit x' (List.mem_of_getElem? hx')
    obtain ⟨H, C, ph, i, hb, r⟩ := ih hsuit'
    obtain ⟨H', C', ph', h1, h2, h3⟩ := rel_step i r (fun x hx => .inl (hsuit' x hx)) (fun x hx => .inl (hsuit x hx)) hs
    exact ⟨H', C', ph', h1, hb.trans h2.steps, h3⟩

/-- A finished call has finished in the matching execution. -/
theorem rel_over {cfg : Cfg} {d : Discipline} {c C : Config} {H : Tid → Held} {ph : Tid → Bool} (r : Rel d cfg c C H ph)
    {t : Tid} {x : Thread} (hx : c.calls[t]? = some x) (hs : ¬ x.running) : C.calls[t]? = some x := by
  obtain ⟨q, h1, h2, h3⟩ := r.thread t x hx
  have hst : stopped x.prog = true ∧ ∀ s, post cfg x.oracle t x.prog s = x.prog := by
    unfold Thread.running at hs
    cases hp : x.prog with
    | ret a => exact ⟨rfl, fun _ => rfl⟩
    | crash e => exact ⟨rfl, fun _ => rfl⟩
    | act a k => rw [hp] at hs; exact absurd trivial hs
  cases hph : ph t with
  | false =>
    rw [hph] at h3
    simp only [Bool.false_eq_true, if_false] at h3
    rw [hst.1] at h3; cases h3.1
  | true =>
    rw [hph] at h3
    simp only [if_true] at h3
    rw [h3, hst.2] at h1
    exact h1

end Visigoth
