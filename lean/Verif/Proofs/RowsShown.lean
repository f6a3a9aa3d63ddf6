import Verif.Proofs.AtRest
/-!
# The rows of `ListAliases` without `Rename`
-/
namespace Visigoth

variable {cfg : Cfg}

/-! ## Which calls return rows -/

/-- Whatever the program returns satisfies `P`. -/
def Yields {α : Type} (P : α → Prop) : Prog α → Prop
  | .ret a => P a
  | .crash _ => True
  | .act _ k => ∀ b, Yields P (k b)

theorem yields_bind {α β : Type} {P : β → Prop} {f : α → Prog β} (h : ∀ a, Yields P (f a)) : ∀ q : Prog α, Yields P (q >>= f)
  | .ret a => h a
  | .crash _ => trivial
  | .act _ k => fun b => yields_bind h (k b)

/-- Rows come from `ListAliases` only. -/
def Op.rowsOnly (op : Op) (r : Ret) : Prop := ∀ l, r = .rows l → op = .listAliases

theorem yields_op (cfg : Cfg) (op : Op) : Yields op.rowsOnly (op.prog cfg) := by
  have key : ∀ {α : Type} (f : α → Ret) (q : Prog α), (∀ a l, f a ≠ .rows l) → Yields op.rowsOnly (q >>= fun a => .ret (f a)) :=
    fun f q h => yields_bind (P := op.rowsOnly) (f := fun a => .ret (f a)) (fun a => fun l e => absurd e (h a l)) q
  cases op with
  | listAliases => exact yields_bind (P := Op.rowsOnly .listAliases) (f := fun a => .ret (Ret.rows a)) (fun _ => fun _ _ => rfl) Repo.listAliases
  | search n ts e =>
    refine yields_bind (fun a => ?_) (Repo.search n ts e)
    cases a <;> exact fun _ h => nomatch h
  | put n d => exact key (fun _ => .unit) (Repo.put cfg n d) nofun
  | list => exact key .names Repo.list nofun
  | has n => exact key .bool (Repo.has n) nofun
  | hasAlias n => exact key .bool (Repo.hasAlias n) nofun
  | alias al i => exact key .bool (Repo.alias al i) nofun
  | unAlias al i => exact key .bool (Repo.unAlias al i) nofun
  | rename o n => exact key .bool (Repo.rename o n) nofun
  | drop n => exact key .bool (Repo.drop n) nofun
  | string => exact key .text Repo.string nofun

theorem yields_step {c c' : Config} (hs : Step cfg c c') (h : ∀ x ∈ c.calls, Yields x.op.rowsOnly x.prog) :
    ∀ x ∈ c'.calls, Yields x.op.rowsOnly x.prog := by
  intro x hx
  cases hs with
  | invoke op o =>
    rcases List.mem_append.1 hx with hx | hx
    · exact h x hx
    · rw [List.mem_singleton] at hx; subst hx; exact yields_op cfg op
  | move t hm =>
    cases hm with
    | @act s s' calls op o β a k b hc he =>
      rcases List.mem_or_eq_of_mem_set hx with hx | hx
      · exact h x hx
      · subst hx; exact h _ (List.mem_of_getElem? hc) b
    | @crash s calls op o β a k e hc he =>
      rcases List.mem_or_eq_of_mem_set hx with hx | hx
      · exact h x hx
      · subst hx; trivial

theorem yields_reachable {c : Config} (hr : ConcReachable cfg c) : ∀ x ∈ c.calls, Yields x.op.rowsOnly x.prog := by
  unfold ConcReachable at hr
  generalize hc : Config.init = c0 at hr
  induction hr with
  | refl => subst hc; intro x hx; cases hx
  | tail _ hs ih => exact yields_step hs ih

/-! ## A running `ListAliases` -/

theorem agrees_plain {s : Shared} {r : Ret} {v : SRet} (h : r.agrees v) (hr : ∀ l, r ≠ .rows l) : r.view s = v := by
  cases r <;> cases v <;> simp_all [Ret.agrees, Ret.view]

/-- A running `ListAliases` is about to take the mutex, or holds it and writes nothing. -/
theorem list_reads {c : Config} {H : Tid → Held} (hr : ConcReachable cfg c) (i : LockInv c H) {t : Tid} {op : Op} {o : Oracle}
    {β : Type} {a : Act β} {k : β → Prog Ret} (hx : c.calls[t]? = some ⟨op, o, .act a k⟩) (hop : op = .listAliases) :
    a.skips.isSome = true ∨ ((H t).amu = .read ∧ a.writes = none) := by
  obtain ⟨H2, g, i2, v⟩ := listInv_reachable hr (t := t) (fun y hy => by rw [hx] at hy; cases hy; exact hop)
  have hm := v.mode
  have hp := v.prog _ hx
  have hread : (H2 t).amu = .read → (H t).amu = .read := fun h => ((i.link .aliases).mem t).1 (((i2.link .aliases).mem t).2 h)
  cases a
  case rlock m => exact .inl rfl
  case alKeys =>
    obtain ⟨rfl, _⟩ := hp
    exact .inr ⟨hread hm, rfl⟩
  case alGet k' =>
    obtain ⟨s, rfl, _⟩ := hp
    exact .inr ⟨hread hm.1, rfl⟩
  case runlock m =>
    cases m
    · exact hp.elim
    · obtain ⟨s, rfl, _⟩ := hp
      exact .inr ⟨hread hm.1, rfl⟩
  all_goals exact hp.elim

/-- What a `ListAliases` returns when it releases the mutex is the table. -/
theorem list_ends {c : Config} (hr : ConcReachable cfg c) {t : Tid} {op : Op} {o : Oracle}
    {β : Type} {a : Act β} {k : β → Prog Ret} (hx : c.calls[t]? = some ⟨op, o, .act a k⟩) (hop : op = .listAliases)
    {b : β} {s' : Shared} (he : exec cfg o t a c.sh = .ok b s') {r : Ret} (hb : k b = .ret r) :
    a.frees = some b ∧ ∃ rows, r = .rows rows ∧ RowsOf rows c.sh := by
  obtain ⟨H2, g, i2, v⟩ := listInv_reachable hr (t := t) (fun y hy => by rw [hx] at hy; cases hy; exact hop)
  have hm := v.mode
  have hp := v.prog _ hx
  cases a
  case rlock m =>
    cases m
    · exact hp.elim
    · have : Lists ListDone _ (k b) := hp.2
      rw [hb] at this
      obtain ⟨_, _, h, _⟩ := this; cases h
  case alKeys =>
    obtain ⟨rfl, h2⟩ := hp
    cases he
    have : Lists ListDone _ (k (choosePerm o.keyOrder c.sh.aliases.keys)) := h2 c.sh _ (choosePerm_perm _ _)
    rw [hb] at this
    obtain ⟨_, _, h, _⟩ := this; cases h
  case alGet k' =>
    obtain ⟨s, rfl, h2⟩ := hp
    cases he
    have h2 : Lists ListDone (.keys s) (k (s.aliases.get k')) := h2
    rw [← hm.2.1, hb] at h2
    obtain ⟨_, _, h, _⟩ := h2; cases h
  case runlock m =>
    cases m
    · exact hp.elim
    · obtain ⟨s, rfl, h2⟩ := hp
      have h2 : Lists ListDone (.done s) (k b) := h2
      rw [hb] at h2
      obtain ⟨s1, rows, h3, h4, h5⟩ := h2
      cases h3
      refine ⟨rfl, rows, h4, ?_⟩
      unfold RowsOf
      rw [hm.2.1]
      exact h5
  all_goals exact hp.elim

/-- What a call may read is not changed by others, nor by itself if it writes nothing. -/
theorem reading_same {c c' : Config} {H : Tid → Held} (i : LockInv c H) (hsuit : ∀ x ∈ c.calls, Copes strict x) {t : Tid}
    (hH : (H t).amu = .read) (hs : Step cfg c c') : c'.sh.aliases = c.sh.aliases ∧ c'.sh.arrays = c.sh.arrays := by
  cases hs with
  | invoke op o => exact ⟨rfl, rfl⟩
  | move u hm =>
    cases hm with
    | crash => exact ⟨rfl, rfl⟩
    | @act s s' calls op o β a k b hc he =>
      have su := (hsuit _ (List.mem_of_getElem? hc)).suits trivial
      have hn := reader_excludes i (m := .aliases) (u := u) hH
      have hw : ∀ l, a.writes = some l → l = .indices := by
        intro l hl
        have hL : a.isLock = false := by cases a <;> simp_all [Act.isLock, Act.writes]
        have := (allowed_data (su.obeys (i.good u _ hc)).1 hL).2 l hl
        cases l with
        | indices => rfl
        | aliases => exact absurd (by cases hh : (H u).amu <;> simp_all [strict, Mode.excl, Held.get]) hn
        | arrays => exact absurd (by cases hh : (H u).amu <;> simp_all [strict, Mode.excl, Held.get]) hn
      obtain ⟨_, f2, f3⟩ := exec_frame he
      exact ⟨f2 fun h => (nomatch hw _ h), f3 fun h => (nomatch hw _ h)⟩

/-- While a call reads the alias table, it is the table of the execution of atomic steps. -/
theorem reading_table {c C : Config} {A : AConfig} {H : Tid → Held} {ph : Tid → Bool} (i : LockInv c H) (r : Rel strict cfg c C H ph)
    (ra : ARel cfg C A) {t : Tid} (hH : (H t).amu = .read) (n : Name) : A.st.aliases n = (c.sh.aliases.get n).map c.sh.elems := by
  have key : ∀ l, l ≠ .indices → SameAt l c.sh C.sh := by
    intro l hl
    rcases r.data l with h | ⟨u, _, h⟩
    · exact h
    · have hn := reader_excludes i (m := .aliases) (u := u) hH
      cases l with
      | indices => exact absurd rfl hl
      | aliases => exact absurd (by cases hh : (H u).amu <;> simp_all [strict, Mode.excl, Held.get]) hn
      | arrays => exact absurd (by cases hh : (H u).amu <;> simp_all [strict, Mode.excl, Held.get]) hn
  have h1 : c.sh.aliases = C.sh.aliases := key .aliases nofun
  have h2 : c.sh.arrays = C.sh.arrays := key .arrays nofun
  rw [ra.abs.view n]
  unfold alView
  rw [h1, ← h2]
  rfl

theorem path_ret {d : Discipline} {o : Oracle} {t : Tid} {y : Ret} {S : Shared} {h : Held} {p : Prog Ret} {s : Shared}
    (hp : Path d cfg o t (.ret y) S h p s) : p = .ret y := by
  induction hp with
  | nil => rfl
  | lock _ _ _ ih => cases ih
  | data _ _ _ _ _ ih => cases ih

/-- A running call whose task is over is in the second phase of its last block. -/
theorem over_post {c C : Config} {A : AConfig} {H : Tid → Held} {ph : Tid → Bool} {d : Discipline} (r : Rel d cfg c C H ph)
    (ra : ARel cfg C A) {t : Tid} {x : Thread} (hx : c.calls[t]? = some x) {v : SRet} (hv : A.tasks[t]? = some (x.op, .over v)) :
    ∃ y, post cfg x.oracle t x.prog c.sh = .ret y ∧ y.agrees v := by
  obtain ⟨q, h1, h2, h3⟩ := r.thread t x hx
  obtain ⟨k, h4, h5⟩ := ra.task t _ h1
  rw [hv] at h4
  cases h4
  simp only at h5
  cases h5 with
  | over y v hy =>
    cases hph : ph t with
    | true =>
      rw [hph] at h3
      simp only [if_true] at h3
      exact ⟨y, h3.symm, hy⟩
    | false =>
      rw [hph] at h3
      simp only [Bool.false_eq_true, if_false] at h3
      obtain ⟨h6, s, h7, _⟩ := h3
      rw [path_ret h7] at h6
      cases h6

/-- Rows that have been returned are not changed by calls other than `Rename`. -/
theorem rows_kept {c c' : Config} (hr : ConcReachable cfg c) (hsuit : ∀ x ∈ c.calls, Copes strict x) (hs : Step cfg c c') {t : Tid}
    {x : Thread} {rows : List (Name × SliceRef)} (hx : c.calls[t]? = some x) (hop : x.op = .listAliases) (hp : x.prog = .ret (.rows rows)) :
    (Ret.rows rows).view c'.sh = (Ret.rows rows).view c.sh := by
  obtain ⟨H, g, _, v⟩ := listInv_reachable hr (t := t) (fun y hy => by rw [hx] at hy; cases hy; exact hop)
  have h1 := v.prog x hx
  rw [hp] at h1
  obtain ⟨s, rows', rfl, hr', hrows⟩ := h1
  cases hr'
  obtain ⟨c0, y, h0, h01, h2, h3, rfl⟩ := v.mode
  obtain ⟨H0, G, P, i0, v0⟩ := rowsInv_reachable h0
  simp only [Ret.view, SRet.rows.injEq]
  apply List.map_congr_left
  intro e he
  obtain ⟨_, H1, G1, P1, i1, v1, hq1⟩ := rowsInv_entries i0 v0 h01 (v0.table.vals _ _ (hrows.2 e he))
  obtain ⟨_, _, _, _, _, _, h⟩ := rowsInv_step i1 v1 hs
  rcases h e.2 hq1 with h | ⟨u, z, old, new, j, h4, h5, h6, _⟩
  · rw [h]
  · rcases (hsuit z (List.mem_of_getElem? h4)).suits h5 with ⟨_, h⟩ | ⟨h, _⟩
    · rw [h6] at h; cases h
    · exact absurd (congrArg (fun d => d.rd .arrays { amu := .read }) h) (by decide)

/-! ## The invariant -/

structure RowsLink (cfg : Cfg) (c : Config) (A : AConfig) : Prop where
  reach : ConcReachable cfg c
  fit : ∀ (t : Nat) k, A.tasks[t]? = some (.listAliases, k) → k = .call .listAliases ∨ k.left = 0
  held : ∀ (t : Nat) x v, c.calls[t]? = some x → x.op = .listAliases → x.running → A.tasks[t]? = some (x.op, .over v) →
    A.st.spec.allows cfg .listAliases v
  shown : RowsShown c A

theorem rowsLink_init (cfg : Cfg) : RowsLink cfg Config.init AConfig.init :=
  ⟨.refl _, fun t k h => by simp [AConfig.init] at h, fun t x v h => by simp [Config.init] at h, fun t x r h => by simp [Config.init] at h⟩

/-- Two lists of rows of one table, with the aliases in the same order. -/
theorem rows_unique {s : Shared} {rows : List (Name × SliceRef)} {l : List (Name × List Name)} (h : RowsOf rows s)
    (hk : rows.map (·.1) = l.map (·.1)) (hl : ∀ e ∈ l, (s.aliases.get e.1).map s.elems = some e.2) :
    rows.map (fun e => (e.1, s.elems e.2)) = l := by
  have h2 := h.2
  clear h
  induction rows generalizing l with
  | nil => cases l with
    | nil => rfl
    | cons e l => cases hk
  | cons e rows ih => cases l with
    | nil => cases hk
    | cons f l =>
      simp only [List.map_cons, List.cons.injEq] at hk ⊢
      refine ⟨?_, ih hk.2 (fun e he => hl e (List.mem_cons_of_mem _ he)) fun e he => h2 e (List.mem_cons_of_mem _ he)⟩
      have h3 := hl f List.mem_cons_self
      rw [← hk.1, h2 e List.mem_cons_self] at h3
      simp only [Option.map_some, Option.some.injEq] at h3
      exact Prod.ext hk.1 h3

/-- One step. -/
theorem rowsLink_step {c c' : Config} {A : AConfig} (h : Linked strict cfg c A) (hl : RowsLink cfg c A) (hsuit' : ∀ x ∈ c.calls, Copes strict x)
    (hsuit : ∀ x ∈ c'.calls, Copes strict x) (hs : Step cfg c c') :
    ∃ A', ASteps cfg A A' ∧ Linked strict cfg c' A' ∧ RowsLink cfg c' A' := by
  obtain ⟨H, C, ph, i, r, ra⟩ := h
  obtain ⟨H', C', ph', i', hb, r'⟩ := rel_step i r hsuit' hsuit hs
  obtain ⟨A', hA, ra'⟩ := aRel_move ra hb
  have hL : Linked strict cfg c' A' := ⟨H', C', ph', i', r', ra'⟩
  have ho := linked_observed (fun l => by cases l <;> rfl) hL
  have hr' : ConcReachable cfg c' := .tail hl.reach hs
  -- a running `ListAliases` whose task is over holds the alias mutex
  have hread : ∀ {c C : Config} {A : AConfig} {H : Tid → Held} {ph : Tid → Bool}, ConcReachable cfg c → LockInv c H → Rel strict cfg c C H ph →
      ARel cfg C A → ∀ (t : Nat) x v, c.calls[t]? = some x → x.op = .listAliases → x.running → A.tasks[t]? = some (x.op, .over v) →
      (H t).amu = .read := by
    intro c C A H ph hr i r ra t x v hx hop hrun hv
    obtain ⟨y, h1, _⟩ := over_post r ra hx hv
    obtain ⟨op, o, p⟩ := x
    cases p with
    | ret y => exact absurd hrun id
    | crash e => exact absurd hrun id
    | act a k =>
      rcases list_reads hr i hx hop with h | h
      · simp only [post] at h1
        cases hsk : a.skips with
        | none => rw [hsk] at h; cases h
        | some b => rw [hsk] at h1; cases h1
      · exact h.1
  -- what becomes of a task that is over
  have hover : ∀ (t : Nat) op v, A.tasks[t]? = some (op, .over v) → A'.tasks[t]? = some (op, .over v) := by
    intro t op v ht
    rcases hA with rfl | hA
    · exact ht
    · cases hA with
      | invoke op' => exact (List.getElem?_append_left (List.getElem?_eq_some_iff.1 ht).1).trans ht
      | run u hu hs' =>
        have : u ≠ t := by
          rintro rfl
          rw [ht] at hu
          cases hu
          cases hs'
        rw [List.getElem?_set_ne this]
        exact ht
  refine ⟨A', hA.steps, hL, hr', ?_, ?_, ?_⟩
  · intro t k hk
    rcases hA with rfl | hA
    · exact hl.fit t k hk
    · cases hA with
      | invoke op' =>
        simp only at hk
        by_cases hlt : t < A.tasks.length
        · rw [List.getElem?_append_left hlt] at hk
          exact hl.fit t k hk
        · rw [List.getElem?_append_right (Nat.le_of_not_lt hlt)] at hk
          cases hj : t - A.tasks.length with
          | zero => rw [hj] at hk; cases hk; exact .inl rfl
          | succ j => rw [hj] at hk; cases hk
      | @run a a' ts u op k0 k1 hu hs' =>
        simp only at hk
        by_cases hut : u = t
        · subst hut
          rw [List.getElem?_set_self (List.getElem?_eq_some_iff.1 hu).1] at hk
          cases hk
          have := atomic_left hs'
          rcases hl.fit u k0 hu with rfl | h0
          · right
            have : (Task.call Op.listAliases).left = 1 := rfl
            omega
          · omega
        · rw [List.getElem?_set_ne hut] at hk
          exact hl.fit t k hk
  · intro t x' v hx' hop hrun hv
    have key : ∀ x, c.calls[t]? = some x → x.running → x.op = x'.op → A.tasks[t]? = some (x.op, .over v) →
        A'.st.spec.allows cfg .listAliases v := by
      intro x hx hrun0 hopx hv0
      have h1 := hl.held t x v hx (hopx.trans hop) hrun0 hv0
      have hH := hread hl.reach i r ra t x v hx (hopx.trans hop) hrun0 hv0
      have hH' := hread hr' i' r' ra' t x' v hx' hop hrun hv
      have h2 := reading_same i hsuit' hH hs
      have h3 : A'.st.aliases = A.st.aliases := by
        funext n
        rw [reading_table i' r' ra' hH' n, reading_table i r ra hH n, h2.1]
        unfold Shared.elems
        rw [h2.2]
      obtain ⟨l, e1, e2, e3⟩ := h1
      exact ⟨l, e1, e2, fun k w => by rw [e3 k w]; show _ = _ ↔ A'.st.aliases k = some w; rw [h3]; rfl⟩
    have old : A.tasks[t]? = some (x'.op, .over v) → A'.st.spec.allows cfg .listAliases v := by
      intro hv0
      have hlt : t < c.calls.length := by
        rw [← r.size, ← ra.size]; exact (List.getElem?_eq_some_iff.1 hv0).1
      have hx := List.getElem?_eq_getElem hlt
      obtain ⟨e1, e2⟩ := steps_running (.tail (.refl c) hs) hx hx'
      exact key _ hx (e2 hrun) e1.symm (e1 ▸ hv0)
    rcases hA with rfl | hA
    · exact old hv
    · cases hA with
      | invoke op' =>
        simp only at hv
        by_cases hlt : t < A.tasks.length
        · rw [List.getElem?_append_left hlt] at hv
          exact old hv
        · rw [List.getElem?_append_right (Nat.le_of_not_lt hlt)] at hv
          cases hj : t - A.tasks.length with
          | zero => rw [hj] at hv; cases hv
          | succ j => rw [hj] at hv; cases hv
      | @run a a' ts u op k0 k1 hu hs' =>
        simp only at hv
        by_cases hut : u = t
        · subst hut
          rw [List.getElem?_set_self (List.getElem?_eq_some_iff.1 hu).1] at hv
          cases hv
          rw [hop] at hu
          rcases hl.fit u k0 hu with rfl | h0
          · cases hs' with
            | read _ h => exact h
          · have := atomic_left hs'
            omega
        · rw [List.getElem?_set_ne hut] at hv
          exact old hv
  · intro t x' y hx' hy
    obtain ⟨v, h1, h2⟩ := ho.returned t x' y hx' hy
    rw [h1]
    suffices h : y.view c'.sh = v by rw [h]
    by_cases hrows : ∀ l, y ≠ .rows l
    · exact agrees_plain h2 hrows
    · have hrows : ∃ l, y = .rows l := Classical.byContradiction fun h => hrows fun l e => h ⟨l, e⟩
      obtain ⟨rows, rfl⟩ := hrows
      have hop : x'.op = .listAliases := by
        have := yields_reachable hr' x' (List.mem_of_getElem? hx')
        rw [hy] at this
        exact this rows rfl
      -- returned before
      have old : ∀ x, c.calls[t]? = some x → x.prog = .ret (.rows rows) → (Ret.rows rows).view c'.sh = v := by
        intro x hx hp
        obtain ⟨e1, -⟩ := steps_running (.tail (.refl c) hs) hx hx'
        have h3 := hover t _ _ (hl.shown t x _ hx hp)
        rw [← e1, h1] at h3
        cases h3
        exact rows_kept hl.reach hsuit' hs hx (e1.symm.trans hop) hp
      cases hs with
      | invoke op o =>
        simp only at hx'
        by_cases hlt : t < c.calls.length
        · rw [List.getElem?_append_left hlt] at hx'
          exact old x' hx' hy
        · rw [List.getElem?_append_right (Nat.le_of_not_lt hlt)] at hx'
          cases hj : t - c.calls.length with
          | zero =>
            rw [hj] at hx'
            cases hx'
            obtain ⟨β, a, k, hk⟩ := prog_acts cfg op
            rw [hk] at hy
            cases hy
          | succ j => rw [hj] at hx'; cases hx'
      | move u hm =>
        cases hm with
        | @crash s calls op o β a k e hc he =>
          simp only at hx'
          by_cases hut : u = t
          · subst hut
            rw [List.getElem?_set_self (List.getElem?_eq_some_iff.1 hc).1] at hx'
            cases hx'
            cases hy
          · rw [List.getElem?_set_ne hut] at hx'
            exact old x' hx' hy
        | @act s s' calls op o β a k b hc he =>
          simp only at hx'
          by_cases hut : u = t
          · subst hut
            rw [List.getElem?_set_self (List.getElem?_eq_some_iff.1 hc).1] at hx'
            cases hx'
            simp only at hy hop
            obtain ⟨hf, rows', e, hrows⟩ := list_ends hl.reach hc hop he hy
            cases e
            have hsame := exec_lock_same (frees_lock hf).1 he
            have e1 : s'.aliases = s.aliases := hsame .aliases
            have e2 : s'.arrays = s.arrays := hsame .arrays
            -- the task was over before the mutex was released
            obtain ⟨v0, hv0⟩ : ∃ v0, A.tasks[u]? = some (op, .over v0) := by
              obtain ⟨q, h3, h4, h5⟩ := r.thread u _ hc
              cases hph : ph u with
              | false =>
                rw [hph] at h5
                simp only [Bool.false_eq_true, if_false] at h5
                have := h5.1
                simp [stopped, hf] at this
              | true =>
                rw [hph] at h5
                simp only [if_true, post, (frees_lock hf).2, hf, hy] at h5
                obtain ⟨k', h6, h7⟩ := ra.task u _ h3
                subst h5
                simp only at h6 h7
                generalize hp : (Prog.ret (Ret.rows rows) : Prog Ret) = p at h7
                cases h7 with
                | over r' v hv => exact ⟨v, h6⟩
                | dead e => cases hp
                | putting n d ts hb => cases hp
                | dropping n => cases hp
                | unAliasing al i => cases hp
                | call op =>
                  obtain ⟨β, a, k, hk⟩ := prog_acts cfg op
                  rw [hk] at hp; cases hp
            have h3 := hover u _ _ hv0
            rw [h1] at h3
            cases h3
            have hH := hread hl.reach i r ra u _ v hc hop trivial hv0
            obtain ⟨l, rfl, _, hl'⟩ := hl.held u _ v hc hop trivial hv0
            have hel : s'.elems = s.elems := by funext q; unfold Shared.elems; rw [e2]
            simp only [Ret.view, hel, SRet.rows.injEq]
            refine rows_unique hrows h2 fun e he => ?_
            rw [← reading_table i r ra hH e.1]
            exact (hl' e.1 e.2).1 he
          · rw [List.getElem?_set_ne hut] at hx'
            exact old x' hx' hy

theorem fits_all {c c' : Config} (hs : Step cfg c c') (hop : ∀ x ∈ c'.calls, x.op.isRename = false) :
    (∀ x ∈ c.calls, Copes strict x) ∧ ∀ x ∈ c'.calls, Copes strict x := by
  refine ⟨fun x hx => .inl (.inl ⟨rfl, ?_⟩), fun x hx => .inl (.inl ⟨rfl, hop x hx⟩)⟩
  obtain ⟨t, ht⟩ := List.getElem?_of_mem hx
  obtain ⟨x', h1, h2, _⟩ := step_calls hs ht
  exact h2 ▸ hop x' (List.mem_of_getElem? h1)

theorem steps_ops {P : Op → Prop} {c c' : Config} (hs : Steps cfg c c') (h : ∀ x ∈ c'.calls, P x.op) : ∀ x ∈ c.calls, P x.op := by
  induction hs with
  | refl => exact h
  | tail _ hs ih =>
    refine ih fun x hx => ?_
    obtain ⟨t, ht⟩ := List.getElem?_of_mem hx
    obtain ⟨x', h1, h2, _⟩ := step_calls hs ht
    exact h2 ▸ h x' (List.mem_of_getElem? h1)

theorem strict_guarded : WriteGuarded strict := fun l => by cases l <;> rfl

/-- Executions without `Rename` from the start on. -/
theorem shown_steps {c c' : Config} {A : AConfig} (h : Linked strict cfg c A) (hl : RowsLink cfg c A) (hs : Steps cfg c c')
    (hop : ∀ x ∈ c'.calls, x.op.isRename = false) :
    ∃ A', ASteps cfg A A' ∧ Linked strict cfg c' A' ∧ RowsLink cfg c' A' := by
  induction hs with
  | refl => exact ⟨A, .refl A, h, hl⟩
  | @tail c1 c2 _ hs ih =>
    obtain ⟨A1, g1, g2, g3⟩ := ih (fun x hx => by
      obtain ⟨t, ht⟩ := List.getElem?_of_mem hx
      obtain ⟨x', e1, e2, _⟩ := step_calls hs ht
      exact e2 ▸ hop x' (List.mem_of_getElem? e1))
    obtain ⟨A2, g4, g5, g6⟩ := rowsLink_step g2 g3 (fits_all hs hop).1 (fits_all hs hop).2 hs
    exact ⟨A2, g1.trans g4, g5, g6⟩

/-- At rest. -/
theorem rowsLink_rest {c : Config} {A : AConfig} (hr : ConcReachable cfg c) (hq : c.quiet)
    (hA : A.tasks = c.calls.map fun x => (x.op, x.task c.sh)) : RowsLink cfg c A := by
  refine ⟨hr, fun t k hk => .inr ?_, fun t x v hx _ hrun => absurd hrun (hq x (List.mem_of_getElem? hx)), fun t x y hx hy => ?_⟩
  · rw [hA, List.getElem?_map] at hk
    cases hx : c.calls[t]? with
    | none => rw [hx] at hk; cases hk
    | some x =>
      rw [hx] at hk
      simp only [Option.map_some, Option.some.injEq, Prod.mk.injEq] at hk
      have := hq x (List.mem_of_getElem? hx)
      rw [← hk.2]
      unfold Thread.task
      unfold Thread.running at this
      cases hp : x.prog with
      | ret r => rfl
      | crash e => rfl
      | act a k => rw [hp] at this; exact absurd trivial this
  · rw [hA, List.getElem?_map, hx]
    simp only [Option.map_some, Thread.task, hy]

/-- From a state at rest on. -/
theorem rowsLink_since {c0 c c' : Config} {A : AConfig} (hq : c0.quiet) (ht : c.calls.take c0.calls.length = c0.calls)
    (h : Linked strict cfg c A) (hl : RowsLink cfg c A) (hn : ∀ x ∈ c'.calls.drop c0.calls.length, x.op.isRename = false)
    (hs : Step cfg c c') : ∃ A', ASteps cfg A A' ∧ Linked strict cfg c' A' ∧ RowsLink cfg c' A' := by
  have hn' : ∀ x ∈ c'.calls.drop c0.calls.length, Suits strict x.op := fun x hx => .inl ⟨rfl, hn x hx⟩
  exact rowsLink_step h hl (fits_of hq ht (step_new (P := Suits strict) hs hn')) (fits_of hq (step_take hq ht hs) hn') hs

end Visigoth
