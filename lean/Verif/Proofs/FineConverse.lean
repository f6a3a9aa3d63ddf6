import Verif.Proofs.FineProps
/-!
# Every execution with goroutines run one after the other is an execution with goroutines interleaved
-/
namespace Visigoth

variable {cfg : Cfg}

/-- Permutations come from orders of the positions. -/
theorem perm_positions {α : Type} {q l : List α} (h : q.Perm l) :
    ∃ js : List Nat, js.Perm (List.range l.length) ∧ js.map (fun j => l[j]?) = q.map some := by
  have key : ∀ l : List α, (List.range l.length).map (fun j => l[j]?) = l.map some := by
    intro l
    apply List.ext_getElem?
    intro i
    by_cases hi : i < l.length
    · simp [hi]
    · simp [Nat.le_of_not_lt hi]
  induction h with
  | nil => exact ⟨[], .refl _, rfl⟩
  | @cons x l1 l2 h ih =>
    obtain ⟨js, h1, h2⟩ := ih
    refine ⟨0 :: js.map (· + 1), ?_, ?_⟩
    · rw [List.length_cons, List.range_succ_eq_map]
      exact (h1.map _).cons _
    · simp only [List.map_cons, List.getElem?_cons_zero, List.map_map, List.cons.injEq, true_and]
      rw [← h2]
      apply List.map_congr_left
      intro j _
      simp
  | @swap x y l =>
    refine ⟨1 :: 0 :: (List.range l.length).map (· + 2), ?_, ?_⟩
    · rw [List.length_cons, List.length_cons, List.range_succ_eq_map, List.range_succ_eq_map]
      simp only [List.map_cons, List.map_map]
      exact List.Perm.swap _ _ _
    · simp only [List.map_cons, List.getElem?_cons_zero, List.map_map, List.getElem?_cons_succ, List.cons.injEq, true_and]
      rw [← key l]
      apply List.map_congr_left
      intro j _
      simp
  | @trans l1 l2 l3 _ _ ih1 ih2 =>
    obtain ⟨js1, p1, e1⟩ := ih1
    obtain ⟨js2, p2, e2⟩ := ih2
    have hlen : js2.length = l2.length := by simpa using congrArg List.length e2
    have hd : ∀ i : Nat, i < l2.length → ∃ j : Nat, js2[i]? = some j ∧ l3[j]? = l2[i]? := by
      intro i hi
      have hj : i < js2.length := by omega
      refine ⟨js2[i], List.getElem?_eq_getElem hj, ?_⟩
      have := congrArg (fun l => l[i]?) e2
      simp only [List.getElem?_map, List.getElem?_eq_getElem hj, List.getElem?_eq_getElem hi, Option.map_some,
        Option.some.injEq] at this
      rw [this, List.getElem?_eq_getElem hi]
    refine ⟨js1.map fun i => (js2[i]?).getD 0, ?_, ?_⟩
    · refine (p1.map _).trans ?_
      have : (List.range l2.length).map (fun i => (js2[i]?).getD 0) = js2 := by
        apply List.ext_getElem?
        intro i
        by_cases hi : i < l2.length
        · have hj : i < js2.length := by omega
          simp [hi, hj]
        · have hj : ¬ i < js2.length := by omega
          simp [Nat.le_of_not_lt hi, Nat.le_of_not_lt hj]
      rw [this]; exact p2
    · rw [← e1, List.map_map]
      apply List.map_congr_left
      intro i hi
      have hi : i < l2.length := by simpa using p1.mem_iff.1 hi
      obtain ⟨j, h1, h2⟩ := hd i hi
      simp [h1, h2]

/-- Goroutines one after the other. -/
def seqAll : List (Prog Unit) → Prog Unit
  | [] => .ret ()
  | g :: gs => g.bind fun _ => seqAll gs

theorem putAll_seq (doc : DocRequest) (q : List Ptr) :
    Repo.putAll cfg doc q = seqAll (q.map fun p => Repo.putIndex cfg p doc) := by
  induction q with
  | nil => rfl
  | cons p q ih => simp only [List.map_cons, seqAll, ← ih]; rfl

theorem searchAll_nil (terms : Str) (engine : Engine) (k : List SearchResult → FProg Ret) (result : List SearchResult) :
    ((Repo.searchAll terms engine []).bind fun r => (k (result ++ r)).flat cfg) = (k result).flat cfg := by
  show (k (result ++ [])).flat cfg = _
  rw [List.append_nil]

/-- State of a call with goroutines, and the program left if they run one after the other. -/
inductive CoSim (cfg : Cfg) : FState → Prog Ret → Prop where
  | run (p : FProg Ret) : CoSim cfg (.run p) (p.flat cfg)
  | putting (gs : List (Prog Unit)) (k : FProg Ret) (js : List Nat) (q : List (Prog Unit)) (hnd : js.Nodup)
      (hq : js.map (fun j => gs[j]?) = q.map some) (hd : ∀ (j : Nat) g, gs[j]? = some g → j ∈ js ∨ g = .ret ()) :
      CoSim cfg (.putting gs k) ((seqAll q).bind fun _ => k.flat cfg)
  | searching (result : List SearchResult) (gs : List Searcher) (terms : Str) (engine : Engine)
      (k : List SearchResult → FProg Ret) (js : List Nat) (q : List Ptr) (hnd : js.Nodup)
      (hq : js.map (fun j => gs[j]?) = q.map fun p => some (.start p))
      (hd : ∀ (j : Nat) g, gs[j]? = some g → j ∈ js ∨ g = .done) :
      CoSim cfg (.searching result none gs terms engine k)
        ((Repo.searchAll terms engine q).bind fun r => (k (result ++ r)).flat cfg)

/-- Call `t` gets from one state to another. -/
def Goes (cfg : Cfg) (t : Tid) (op : Op) (o : Oracle) (s : Shared) (x : FState) (s' : Shared) (x' : FState) : Prop :=
  ∀ calls : List FThread, t < calls.length →
    FSteps cfg { sh := s, calls := calls.set t { op := op, oracle := o, st := x } }
      { sh := s', calls := calls.set t { op := op, oracle := o, st := x' } }

theorem FSteps.trans {a b c : FConfig} (h : FSteps cfg a b) (g : FSteps cfg b c) : FSteps cfg a c := by
  induction g with
  | refl => exact h
  | tail _ hs ih => exact .tail ih hs

variable {t : Tid} {op : Op} {o : Oracle}

theorem Goes.refl {s : Shared} {x : FState} : Goes cfg t op o s x s x := fun _ _ => .refl _

theorem Goes.trans {s s' s'' : Shared} {x x' x'' : FState} (h : Goes cfg t op o s x s' x') (g : Goes cfg t op o s' x' s'' x'') :
    Goes cfg t op o s x s'' x'' := fun calls hl => FSteps.trans (h calls hl) (g calls hl)

theorem Goes.one {s s' : Shared} {x x' : FState}
    (h : ∀ calls : List FThread, calls[t]? = some { op := op, oracle := o, st := x } →
      FTStep cfg t { sh := s, calls := calls } { sh := s', calls := calls.set t { op := op, oracle := o, st := x' } }) :
    Goes cfg t op o s x s' x' := by
  intro calls hl
  have := h (calls.set t { op := op, oracle := o, st := x }) (List.getElem?_set_self hl)
  rw [List.set_set] at this
  exact .tail (.refl _) (.move t this)

/-- Replacing a goroutine that is not in a list of others. -/
theorem map_set_other {α : Type _} {gs : List α} {js : List Nat} {j : Nat} {g : α} (hj : j ∉ js) :
    js.map (fun i => (gs.set j g)[i]?) = js.map (fun i => gs[i]?) := by
  apply List.map_congr_left
  intro i hi
  exact List.getElem?_set_ne (by rintro rfl; exact hj hi)

theorem others_set {α : Type _} {gs : List α} {js : List Nat} {j : Nat} {a g e : α} (hgj : gs[j]? = some a)
    (hd : ∀ (i : Nat) b, gs[i]? = some b → i ∈ j :: js ∨ b = e) (hg : g = e) :
    ∀ (i : Nat) b, (gs.set j g)[i]? = some b → i ∈ js ∨ b = e := by
  intro i b hi
  rcases set_get hgj hi with ⟨rfl, rfl⟩ | ⟨hne, hi⟩
  · exact Or.inr hg
  · rcases hd i b hi with h | h
    · rcases List.mem_cons.1 h with h | h
      · exact absurd h.symm hne
      · exact Or.inl h
    · exact Or.inr h

/-- A search goroutine that has computed its results appends them. -/
theorem goes_append {terms : Str} {engine : Engine} {k : List SearchResult → FProg Ret} {s : Shared} {j : Nat}
    (sr : List SearchResult) : ∀ (result : List SearchResult) (gs : List Searcher), gs[j]? = some (.appending sr) →
      Goes cfg t op o s (.searching result (some j) gs terms engine k) s
        (.searching (result ++ sr) none (gs.set j .done) terms engine k) := by
  induction sr with
  | nil =>
    intro result gs hg
    rw [List.append_nil]
    exact .one fun calls h => .search h (.unlock j hg)
  | cons x sr ih =>
    intro result gs hg
    have h1 : Goes cfg t op o s (.searching result (some j) gs terms engine k) s
        (.searching (result ++ [x]) (some j) (gs.set j (.appending sr)) terms engine k) :=
      .one fun calls h => .search h (.append j hg)
    have h2 := ih (result ++ [x]) (gs.set j (.appending sr)) (set_get_self hg)
    rw [List.set_set, List.append_assoc] at h2
    exact h1.trans h2

/-- Every action is matched. -/
theorem cosim_act {s s' : Shared} {x : FState} {p : Prog Ret} (h : CoSim cfg x p) {β : Type} {a : Act β} {k : β → Prog Ret}
    {b : β} (hp : p = .act a k) (he : exec cfg o t a s = .ok b s') :
    ∃ x', Goes cfg t op o s x s' x' ∧ CoSim cfg x' (k b) := by
  have hrun : ∀ p : FProg Ret, p.flat cfg = .act a k → ∃ x', Goes cfg t op o s (.run p) s' x' ∧ CoSim cfg x' (k b) := by
    intro p hp
    cases p with
    | ret r => cases hp
    | crash e => cases hp
    | act a' k' => cases hp; exact ⟨_, .one fun calls h => .act h he, .run _⟩
    | forkPut ps doc k' =>
      cases hp
      cases he
      refine ⟨_, .one fun calls h => .forkPut h, ?_⟩
      obtain ⟨js, h1, h2⟩ := perm_positions (choosePerm_perm o.schedule ps)
      dsimp only
      rw [putAll_seq]
      refine .putting _ _ js _ (h1.nodup_iff.2 List.nodup_range) ?_ ?_
      · have := congrArg (fun l => l.map (Option.map fun p => Repo.putIndex cfg p doc)) h2
        simp only [List.map_map] at this
        rw [List.map_map]
        rw [show (some ∘ fun p => Repo.putIndex cfg p doc) = ((Option.map fun p => Repo.putIndex cfg p doc) ∘ some) from rfl]
        rw [← this]
        apply List.map_congr_left
        intro j _
        simp [putPool]
      · intro j g hj
        refine Or.inl (h1.mem_iff.2 ?_)
        have := (List.getElem?_eq_some_iff.1 hj).1
        simpa [putPool] using this
    | forkSearch ps terms engine k' =>
      cases hp
      cases he
      refine ⟨_, .one fun calls h => .forkSearch h, ?_⟩
      obtain ⟨js, h1, h2⟩ := perm_positions (choosePerm_perm o.schedule ps)
      refine .searching [] _ terms engine k' js _ (h1.nodup_iff.2 List.nodup_range) ?_ ?_
      · have := congrArg (fun l => l.map (Option.map Searcher.start)) h2
        simp only [List.map_map] at this
        rw [show (fun p => some (Searcher.start p)) = (Option.map Searcher.start ∘ some) from rfl]
        rw [← this]
        apply List.map_congr_left
        intro j _
        simp [searchPool]
      · intro j g hj
        refine Or.inl (h1.mem_iff.2 ?_)
        have := (List.getElem?_eq_some_iff.1 hj).1
        simpa [searchPool] using this
  cases h with
  | run p => exact hrun p hp
  | putting gs k' js q hnd hq hd =>
    induction js generalizing q with
    | nil =>
      cases q with
      | cons g q => cases hq
      | nil =>
        obtain ⟨x', h1, h2⟩ := hrun k' hp
        refine ⟨x', Goes.trans (.one fun calls h => .putJoin h ?_) h1, h2⟩
        intro g hg
        obtain ⟨j, hj⟩ := List.getElem?_of_mem hg
        rcases hd j g hj with h | h
        · cases h
        · exact h
    | cons j js ih =>
      cases q with
      | nil => cases hq
      | cons g q =>
        simp only [List.map_cons, List.cons.injEq] at hq
        have hnd' := List.nodup_cons.1 hnd
        cases g with
        | crash e => cases hp
        | ret u =>
          refine ih q hnd'.2 hq.2 ?_ hp
          intro i g hi
          rcases hd i g hi with h | h
          · rcases List.mem_cons.1 h with rfl | h
            · rw [hq.1] at hi; cases hi; exact Or.inr rfl
            · exact Or.inl h
          · exact Or.inr h
        | act a' k'' =>
          cases hp
          refine ⟨_, .one fun calls h => .put h (.move j hq.1 he), ?_⟩
          refine .putting _ k' (j :: js) (k'' b :: q) hnd ?_ ?_
          · simp only [List.map_cons, map_set_other hnd'.1, hq.2, set_get_self hq.1]
          · intro i g hi
            rcases set_get hq.1 hi with ⟨rfl, rfl⟩ | ⟨_, hi⟩
            · exact Or.inl (List.mem_cons_self ..)
            · exact hd i g hi
  | searching result gs terms engine k' js q hnd hq hd =>
    cases js with
    | nil =>
      cases q with
      | cons g q => cases hq
      | nil =>
        obtain ⟨x', h1, h2⟩ := hrun (k' result) (by rw [searchAll_nil] at hp; exact hp)
        refine ⟨x', Goes.trans (.one fun calls h => .searchJoin h ?_) h1, h2⟩
        intro g hg
        obtain ⟨j, hj⟩ := List.getElem?_of_mem hg
        rcases hd j g hj with h | h
        · cases h
        · exact h
    | cons j js =>
      cases q with
      | nil => cases hq
      | cons p q =>
        simp only [List.map_cons, List.cons.injEq] at hq
        have hnd' := List.nodup_cons.1 hnd
        cases hp
        simp only [exec] at he
        split at he
        case h_2 => cases he
        next mi hmi =>
        cases he
        cases hs : mi.search cfg.cp cfg.tok terms engine with
        | none =>
          refine ⟨.run (.crash .engine), Goes.trans (.one fun calls h => .search h (.panic j hq.1 hmi hs)) (.one fun calls h =>
            .searchPanic h (List.mem_of_getElem? (set_get_self hq.1))), ?_⟩
          exact .run (.crash .engine)
        | some sr =>
          have h1 : Goes cfg t op o s (.searching result none gs terms engine k') s
              (.searching result none (gs.set j (.evaluated sr)) terms engine k') :=
            .one fun calls h => .search h (.eval j hq.1 hmi hs)
          have h2 : Goes cfg t op o s (.searching result none (gs.set j (.evaluated sr)) terms engine k') s
              (.searching result (some j) ((gs.set j (.evaluated sr)).set j (.appending sr)) terms engine k') :=
            .one fun calls h => .search h (.lock j (set_get_self hq.1) rfl)
          rw [List.set_set] at h2
          have h3 := goes_append (cfg := cfg) (t := t) (op := op) (o := o) (terms := terms) (engine := engine) (k := k') (s := s)
            sr result (gs.set j (.appending sr)) (set_get_self hq.1)
          rw [List.set_set] at h3
          refine ⟨_, h1.trans (h2.trans h3), ?_⟩
          have e : (((Repo.searchAll terms engine q).bind fun rest => Prog.ret (sr ++ rest)).bind
              fun r => (k' (result ++ r)).flat cfg) =
              (Repo.searchAll terms engine q).bind fun r => (k' ((result ++ sr) ++ r)).flat cfg := by
            have := bind_assoc' (Repo.searchAll terms engine q) (fun rest => Prog.ret (sr ++ rest))
              (fun r => (k' (result ++ r)).flat cfg)
            simp only [List.append_assoc]
            exact this
          show CoSim cfg _ (((Repo.searchAll terms engine q).bind fun rest => Prog.ret (sr ++ rest)).bind
              fun r => (k' (result ++ r)).flat cfg)
          rw [e]
          refine .searching _ _ terms engine k' js q hnd'.2 ?_ (others_set hq.1 hd rfl)
          rw [map_set_other hnd'.1]; exact hq.2

/-- So is every panic. -/
theorem cosim_crash {s : Shared} {x : FState} {p : Prog Ret} (h : CoSim cfg x p) {β : Type} {a : Act β} {k : β → Prog Ret}
    {e : Crash} (hp : p = .act a k) (he : exec cfg o t a s = .crash e)
    (hv : ∀ q ts en, (⟨β, a⟩ : Σ β, Act β) = ⟨_, .evalEngine q ts en⟩ → q < s.heap.length) :
    Goes cfg t op o s x s (.run (.crash e)) := by
  have hrun : ∀ p : FProg Ret, p.flat cfg = .act a k → Goes cfg t op o s (.run p) s (.run (.crash e)) := by
    intro p hp
    cases p with
    | ret r => cases hp
    | crash e => cases hp
    | act a' k' => cases hp; exact .one fun calls h => .crash h he
    | forkPut ps doc k' => cases hp; cases he
    | forkSearch ps terms engine k' => cases hp; cases he
  cases h with
  | run p => exact hrun p hp
  | putting gs k' js q hnd hq hd =>
    induction js generalizing q with
    | nil =>
      cases q with
      | cons g q => cases hq
      | nil =>
        refine Goes.trans (.one fun calls h => .putJoin h ?_) (hrun k' hp)
        intro g hg
        obtain ⟨j, hj⟩ := List.getElem?_of_mem hg
        rcases hd j g hj with h | h
        · cases h
        · exact h
    | cons j js ih =>
      cases q with
      | nil => cases hq
      | cons g q =>
        simp only [List.map_cons, List.cons.injEq] at hq
        have hnd' := List.nodup_cons.1 hnd
        cases g with
        | crash e => cases hp
        | ret u =>
          refine ih q hnd'.2 hq.2 ?_ hp
          intro i g hi
          rcases hd i g hi with h | h
          · rcases List.mem_cons.1 h with rfl | h
            · rw [hq.1] at hi; cases hi; exact Or.inr rfl
            · exact Or.inl h
          · exact Or.inr h
        | act a' k'' =>
          cases hp
          exact Goes.trans (.one fun calls h => .put h (.panic j hq.1 he)) (.one fun calls h =>
            .putPanic h (List.mem_of_getElem? (set_get_self hq.1)))
  | searching result gs terms engine k' js q hnd hq hd =>
    cases js with
    | nil =>
      cases q with
      | cons g q => cases hq
      | nil =>
        refine Goes.trans (.one fun calls h => .searchJoin h ?_) (hrun (k' result) (by rw [searchAll_nil] at hp; exact hp))
        intro g hg
        obtain ⟨j, hj⟩ := List.getElem?_of_mem hg
        rcases hd j g hj with h | h
        · cases h
        · exact h
    | cons j js =>
      cases q with
      | nil => cases hq
      | cons p q =>
        cases hp
        have hl := hv _ _ _ rfl
        simp [exec, List.getElem?_eq_getElem hl] at he

/-- Goroutines that have ended are waited for. -/
theorem cosim_settle {s : Shared} {x : FState} {p : Prog Ret} (h : CoSim cfg x p) :
    ∃ x', Goes cfg t op o s x s x' ∧ CoSim cfg x' p ∧
      (Thread.status { op := op, oracle := o, prog := p }) = FThread.status { op := op, oracle := o, st := x' } := by
  cases h with
  | run p => exact ⟨_, .refl, .run p, flat_status _ _ _ _ p⟩
  | putting gs k' js q hnd hq hd =>
    induction js generalizing q with
    | nil =>
      cases q with
      | cons g q => cases hq
      | nil =>
        refine ⟨_, .one fun calls h => .putJoin h ?_, .run k', flat_status _ _ _ _ k'⟩
        intro g hg
        obtain ⟨j, hj⟩ := List.getElem?_of_mem hg
        rcases hd j g hj with h | h
        · cases h
        · exact h
    | cons j js ih =>
      cases q with
      | nil => cases hq
      | cons g q =>
        have hq' := hq
        simp only [List.map_cons, List.cons.injEq] at hq
        have hnd' := List.nodup_cons.1 hnd
        cases g with
        | crash e => exact ⟨_, .one fun calls h => .putPanic h (List.mem_of_getElem? hq.1), .run (.crash e), rfl⟩
        | ret u =>
          refine ih q hnd'.2 hq.2 ?_
          intro i g hi
          rcases hd i g hi with h | h
          · rcases List.mem_cons.1 h with rfl | h
            · rw [hq.1] at hi; cases hi; exact Or.inr rfl
            · exact Or.inl h
          · exact Or.inr h
        | act a' k'' => exact ⟨_, .refl, .putting gs k' (j :: js) (.act a' k'' :: q) hnd hq' hd, rfl⟩
  | searching result gs terms engine k' js q hnd hq hd =>
    cases js with
    | nil =>
      cases q with
      | cons g q => cases hq
      | nil =>
        refine ⟨.run (k' result), .one fun calls h => .searchJoin h ?_, ?_, ?_⟩
        · intro g hg
          obtain ⟨j, hj⟩ := List.getElem?_of_mem hg
          rcases hd j g hj with h | h
          · cases h
          · exact h
        · rw [searchAll_nil]; exact .run (k' result)
        · rw [searchAll_nil]; exact flat_status _ _ _ _ (k' result)
    | cons j js =>
      cases q with
      | nil => cases hq
      | cons p q => exact ⟨_, .refl, .searching result gs terms engine k' (j :: js) (p :: q) hnd hq hd, rfl⟩

/-- An index that is read exists. -/
theorem eval_exists {d : Config} (hr : ConcReachable cfg d) {o : Oracle} {k : Option (List SearchResult) → Prog Ret}
    {q : Ptr} {ts : Str} {en : Engine}
    (h : d.calls[t]? = some { op := op, oracle := o, prog := .act (.evalEngine q ts en) k }) : q < d.sh.heap.length := by
  obtain ⟨H, i, w⟩ := whole_reachable (P := fun _ => True) hr (fun _ _ _ _ => trivial)
  have hk := w.knows t _ h
  unfold Knows at hk
  split at hk
  · exact hk.elim
  · obtain ⟨n, hn, hk⟩ := hk
    exact Nat.lt_of_lt_of_le hk.1 hn

structure CoMatch (cfg : Cfg) (d : Config) (c : FConfig) : Prop where
  sh : c.sh = d.sh
  len : c.calls.length = d.calls.length
  calls : ∀ (t : Tid) y, d.calls[t]? = some y → ∃ x, c.calls[t]? = some x ∧ x.op = y.op ∧
    (x.oracle.keyOrder = y.oracle.keyOrder ∧ x.oracle.capacity = y.oracle.capacity ∧ (y.status = .running → x.oracle = y.oracle)) ∧
    y.status = x.status ∧ CoSim cfg x.st y.prog

theorem comatch_set {s s' : Shared} {calls : List Thread} {c : FConfig} (m : CoMatch cfg { sh := s, calls := calls } c)
    {p : Prog Ret} {x' : FState} (hx : ∃ x, c.calls[t]? = some x)
    (hst : (Thread.status { op := op, oracle := o, prog := p }) = FThread.status { op := op, oracle := o, st := x' })
    (hc : CoSim cfg x' p) :
    CoMatch cfg { sh := s', calls := calls.set t { op := op, oracle := o, prog := p } }
      { sh := s', calls := c.calls.set t { op := op, oracle := o, st := x' } } := by
  obtain ⟨x, hx⟩ := hx
  have hl := (List.getElem?_eq_some_iff.1 hx).1
  have hl' : t < calls.length := Nat.lt_of_lt_of_eq hl m.len
  refine ⟨rfl, by simpa using m.len, ?_⟩
  intro u y hu
  by_cases hut : u = t
  · subst hut
    simp only [List.getElem?_set_self hl', Option.some.injEq] at hu
    subst hu
    exact ⟨_, List.getElem?_set_self hl, rfl, ⟨rfl, rfl, fun _ => rfl⟩, hst, hc⟩
  · simp only at hu ⊢
    rw [List.getElem?_set_ne (Ne.symm hut)] at hu ⊢
    exact m.calls u y hu

theorem comatch_steps {d d' : Config} {c0 : FConfig} (hd : ConcReachable cfg d) (m0 : CoMatch cfg d c0) (h : Steps cfg d d') :
    ∃ c, FSteps cfg c0 c ∧ CoMatch cfg d' c := by
  induction h with
  | refl => exact ⟨c0, .refl _, m0⟩
  | @tail d1 d2 h1 hs ih =>
    obtain ⟨c, hr, m⟩ := ih
    -- a call moves as `Goes` says
    have move : ∀ {s s' : Shared} {calls : List Thread} {t : Tid} {op : Op} {o : Oracle} {p p' : Prog Ret},
        d1 = { sh := s, calls := calls } → calls[t]? = some { op := op, oracle := o, prog := p } →
        d2 = { sh := s', calls := calls.set t { op := op, oracle := o, prog := p' } } →
        Thread.status { op := op, oracle := o, prog := p } = .running → (∀ x, CoSim cfg x p → ∃ x', Goes cfg t op o s x s' x' ∧ CoSim cfg x' p') →
        ∃ c, FSteps cfg c0 c ∧ CoMatch cfg d2 c := by
      rintro s s' calls t op o p p' rfl ht rfl hrun hgo
      obtain ⟨⟨xop, xo, x⟩, hx, hop, ⟨_, _, hor⟩, _, hcs⟩ := m.calls t _ ht
      replace hor := hor hrun
      simp only at hop hor hcs
      subst hop hor
      obtain ⟨x1, g1, c1⟩ := hgo x hcs
      obtain ⟨x2, g2, c2, hst⟩ := cosim_settle (t := t) (op := xop) (o := xo) (s := s') c1
      have hl := (List.getElem?_eq_some_iff.1 hx).1
      have hsteps := (g1.trans g2) c.calls hl
      rw [set_same' hx] at hsteps
      refine ⟨_, FSteps.trans hr (?_ : FSteps cfg c _), comatch_set m ⟨_, hx⟩ hst c2⟩
      have : c = { sh := s, calls := c.calls } := by rw [← show c.sh = s from m.sh]
      rw [this]; exact hsteps
    cases hs with
    | invoke op o =>
      refine ⟨_, .tail hr (.invoke c op o), m.sh, by simpa using m.len, ?_⟩
      intro t y hy
      simp only at hy ⊢
      rcases Nat.lt_or_ge t d1.calls.length with hl | hl
      · rw [List.getElem?_append_left hl] at hy
        rw [List.getElem?_append_left (by rw [m.len]; exact hl)]
        exact m.calls t y hy
      · rw [List.getElem?_append_right hl] at hy
        rw [List.getElem?_append_right (by rw [m.len]; exact hl), m.len]
        cases hi : t - d1.calls.length with
        | zero =>
          rw [hi] at hy; cases hy
          refine ⟨_, rfl, rfl, ⟨rfl, rfl, fun _ => rfl⟩, ?_, ?_⟩
          · have := flat_status (cfg := cfg) op op o o (op.fine cfg)
            rw [flat_op] at this; exact this
          · have := CoSim.run (cfg := cfg) (op.fine cfg)
            rw [flat_op] at this; exact this
        | succ n => rw [hi] at hy; cases hy
    | move t h =>
      cases h with
      | act h he => exact move rfl h rfl rfl fun x hx => cosim_act hx rfl he
      | @crash s calls op o β a k e h he =>
        refine move rfl h rfl rfl fun x hx => ⟨_, cosim_crash hx rfl he ?_, .run (.crash e)⟩
        intro q ts en heq
        cases heq
        exact eval_exists (steps_trans hd h1) h

theorem comatch_init : CoMatch cfg Config.init FConfig.init := ⟨rfl, rfl, fun t y h => by simp [Config.init] at h⟩

theorem comatch_reachable {d : Config} (h : ConcReachable cfg d) : ∃ c, FineReachable cfg c ∧ CoMatch cfg d c :=
  comatch_steps (.refl _) comatch_init h

theorem comatch_alike {d : Config} {c : FConfig} (m : CoMatch cfg d c) : Alike c d := by
  refine ⟨m.len, ?_, ?_, ?_, ?_, ?_, ?_, ?_, ?_⟩
  · intro t x hx
    have hl : t < d.calls.length := Nat.lt_of_lt_of_eq (List.getElem?_eq_some_iff.1 hx).1 m.len
    obtain ⟨x', hx', hop, hor, hst, _⟩ := m.calls t _ (List.getElem?_eq_getElem hl)
    rw [hx] at hx'; cases hx'
    exact ⟨_, List.getElem?_eq_getElem hl, hop.symm, hor.1.symm, hor.2.1.symm, hst⟩
  all_goals rw [m.sh]
  exact fun _ => rfl

/-- Several points of an execution. -/
theorem comatch_chain : ∀ (ds : List Config) {d : Config} {c : FConfig}, ConcReachable cfg d → CoMatch cfg d c →
    Successive (Steps cfg) (d :: ds) → ∃ cs : List FConfig, Successive (FSteps cfg) (c :: cs) ∧ cs.length = ds.length ∧
      ∀ (i : Nat) c d, cs[i]? = some c → ds[i]? = some d → CoMatch cfg d c
  | [], _, _, _, _, _ => ⟨[], trivial, rfl, fun i c d h => by simp at h⟩
  | d1 :: ds, d, c, hd, m, ⟨h, hc⟩ => by
    obtain ⟨c1, hs, m1⟩ := comatch_steps hd m h
    obtain ⟨cs, h1, h2, h3⟩ := comatch_chain ds (steps_trans hd h) m1 hc
    refine ⟨c1 :: cs, ⟨hs, h1⟩, by simp [h2], ?_⟩
    intro i c d hc hd
    cases i with
    | zero => cases hc; cases hd; exact m1
    | succ i => exact h3 i c d hc hd

end Visigoth
