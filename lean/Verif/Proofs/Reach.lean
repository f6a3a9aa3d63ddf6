import Verif.Spec.Reach
import Verif.Proofs.Removed
import Verif.Proofs.KeepNew
import Verif.Proofs.Labels
/-!
# Index objects only grow, and a `Put` reaches the indices its name stands for
-/
namespace Visigoth

variable {cfg : Cfg} {n : Name} {d : DocRequest}

/-! ## Growth -/

theorem grown_refl (a : MemoryIndex) : a.grownTo a := ⟨rfl, List.prefix_refl _, fun _ l h => ⟨l, h, List.prefix_refl _⟩⟩

theorem grown_trans {a b c : MemoryIndex} (h : a.grownTo b) (g : b.grownTo c) : a.grownTo c := by
  refine ⟨g.1.trans h.1, h.2.1.trans g.2.1, fun tok l hl => ?_⟩
  obtain ⟨l', h1, h2⟩ := h.2.2 tok l hl
  obtain ⟨l'', h3, h4⟩ := g.2.2 tok l' h1
  exact ⟨l'', h3, h2.trans h4⟩

theorem grown_docs (a : MemoryIndex) (e : Doc) : a.grownTo { a with docs := a.docs ++ [e] } :=
  ⟨rfl, List.prefix_append _ _, fun _ l h => ⟨l, h, List.prefix_refl _⟩⟩

theorem grown_post (a : MemoryIndex) (tok : Str) (i : Nat) : a.grownTo { a with inverted := addPosting i a.inverted tok } := by
  refine ⟨rfl, List.prefix_refl _, fun tok' l h => ?_⟩
  simp only [addPosting]
  split
  · exact ⟨l, h, List.prefix_refl _⟩
  · by_cases ht : tok' = tok
    · subst ht
      rw [GoMap.get_set_same, h]
      exact ⟨_, rfl, List.prefix_append _ _⟩
    · rw [GoMap.get_set_ne _ _ (Ne.symm ht)]
      exact ⟨l, h, List.prefix_refl _⟩

/-- All objects are still there and have only grown. -/
def HeapGrown (H H' : List MemoryIndex) : Prop :=
  ∀ (p : Nat) mi, H[p]? = some mi → ∃ mi', H'[p]? = some mi' ∧ mi.grownTo mi'

theorem HeapGrown.refl (H : List MemoryIndex) : HeapGrown H H := fun _ mi h => ⟨mi, h, grown_refl _⟩

theorem HeapGrown.trans {H H' H'' : List MemoryIndex} (h : HeapGrown H H') (g : HeapGrown H' H'') : HeapGrown H H'' := by
  intro p mi hp
  obtain ⟨mi', h1, h2⟩ := h p mi hp
  obtain ⟨mi'', h3, h4⟩ := g p mi' h1
  exact ⟨mi'', h3, grown_trans h2 h4⟩

theorem heapGrown_set {H : List MemoryIndex} {p : Nat} {mi mi' : MemoryIndex} (hp : H[p]? = some mi) (hg : mi.grownTo mi') :
    HeapGrown H (H.set p mi') := by
  intro q m hq
  by_cases hpq : p = q
  · subst hpq
    rw [hp] at hq; cases hq
    exact ⟨mi', List.getElem?_set_self (List.getElem?_eq_some_iff.1 hp).1, hg⟩
  · rw [List.getElem?_set_ne hpq]; exact ⟨m, hq, grown_refl _⟩

theorem heapGrown_append (H : List MemoryIndex) (mi : MemoryIndex) : HeapGrown H (H ++ [mi]) := by
  intro q m hq
  rw [List.getElem?_append_left (List.getElem?_eq_some_iff.1 hq).1]
  exact ⟨m, hq, grown_refl _⟩

theorem exec_grown {o : Oracle} {t : Tid} {β : Type} {a : Act β} {s s' : Shared} {b : β} (he : exec cfg o t a s = .ok b s') :
    HeapGrown s.heap s'.heap := by
  cases a
  case newIndex m => cases he; exact heapGrown_append _ _
  case docAppend p e =>
    simp only [exec] at he
    split at he
    · next h => cases he; exact heapGrown_set h (grown_docs _ _)
    · cases he
  case postAdd p tok i =>
    simp only [exec] at he
    split at he
    · next h => cases he; exact heapGrown_set h (grown_post _ _ _)
    · cases he
  all_goals
    have : s'.heap = s.heap := by
      simp only [exec] at he
      repeat' split at he
      all_goals first | (cases he; exact setMu_heap _ _ _) | (cases he; rfl) | cases he
    rw [this]; exact .refl _

theorem step_grown {c c' : Config} (hs : Step cfg c c') : HeapGrown c.sh.heap c'.sh.heap := by
  cases hs with
  | invoke => exact .refl _
  | move t hm =>
    cases hm with
    | act h he => exact exec_grown he
    | crash h he => exact .refl _

theorem steps_grown {c c' : Config} (hs : Steps cfg c c') : HeapGrown c.sh.heap c'.sh.heap := by
  induction hs with
  | refl => exact .refl _
  | tail _ hs ih => exact ih.trans (step_grown hs)

theorem heapGrown_length {H H' : List MemoryIndex} (h : HeapGrown H H') : H.length ≤ H'.length := by
  refine Nat.le_of_not_lt fun hlt => ?_
  obtain ⟨mi', h1, _⟩ := h H'.length _ (List.getElem?_eq_getElem hlt)
  exact absurd (List.getElem?_eq_some_iff.1 h1).1 (Nat.lt_irrefl _)

/-! ## The way of a `Put` -/

/-- What is known about a running `Put`. -/
inductive PutMode
  | start
  /-- the index mutex is held -/
  | locked
  /-- the name has been looked up in `s` -/
  | idx (s : Shared)
  /-- the alias mutex is held as well -/
  | idxA (s : Shared)
  /-- the aliases have been looked at in `s` -/
  | both (s : Shared)
  /-- the repository was `s` -/
  | closed (s : Shared)

structure PutGhost where
  mode : PutMode
  /-- a new index has been put into the table -/
  bound : Option Ptr
  /-- object, position and tokens done -/
  stored : List (Ptr × Nat × List Str)

/-- The name has been resolved. -/
def PutGhost.isClosed (g : PutGhost) : Prop := ∃ s, g.mode = .closed s

/-- One action of a `Put`. -/
def ReachAct (n : Name) (d : DocRequest) (g : PutGhost) {β : Type} : Act β → (PutGhost → β → Prop) → Prop
  | .rlock .indices, Φ => g.mode = .start ∧ Φ { g with mode := .locked } ()
  | .rlock .aliases, Φ => ∃ s, g.mode = .idx s ∧ Φ { g with mode := .idxA s } ()
  | .idxGet m, Φ =>
    (g.mode = .locked ∧ m = n ∧ ∀ s, Φ { g with mode := .idx s } (s.indices.get n)) ∨
    ∃ s, g.mode = .both s ∧ Φ g (s.indices.get m)
  | .alGet m, Φ => ∃ s, g.mode = .idxA s ∧ m = n ∧ ∀ s', s'.indices = s.indices → Φ { g with mode := .both s' } (s'.aliases.get n)
  | .slRead r i, Φ => ∃ s, g.mode = .both s ∧ ∀ v, (s.elems r)[i]? = some v → Φ g v
  | .runlock _, Φ => ∃ s, (g.mode = .idx s ∨ g.mode = .both s ∨ g.mode = .closed s) ∧ Φ { g with mode := .closed s } ()
  | .newIndex m, Φ => ∃ s, g.mode = .closed s ∧ m = n ∧ ∀ p, s.heap.length ≤ p → Φ g p
  | .idxSet m q, Φ => (∃ s, g.mode = .closed s ∧ s.targets n = none) ∧ m = n ∧ Φ { g with bound := some q } ()
  | .docAppend p e, Φ => g.isClosed ∧ e = newDoc d.id d.raw ∧ ∀ i, Φ { g with stored := (p, i, []) :: g.stored } i
  | .postAdd p tok i, Φ => g.isClosed ∧ ∃ ts rest, g.stored = (p, i, ts) :: rest ∧ Φ { g with stored := (p, i, tok :: ts) :: rest } ()
  | .schedule ps, Φ => g.isClosed ∧ ∀ qs, qs.Perm ps → Φ g qs
  | .idxDel _, _ | .alSet .., _ | .alDel _, _ | .slWrite .., _ | .slAppend .., _ | .slNew _, _ => False
  | _, Φ => g.isClosed ∧ ∀ b, Φ g b

def Reach {α : Type} (n : Name) (d : DocRequest) (Q : PutGhost → α → Prop) : PutGhost → Prog α → Prop
  | g, .ret a => Q g a
  | _, .crash _ => True
  | g, .act a k => ReachAct n d g a fun g' b => Reach n d Q g' (k b)

theorem reachAct_mono {β : Type} {a : Act β} {g : PutGhost} {Φ Ψ : PutGhost → β → Prop} (h : ∀ g b, Φ g b → Ψ g b)
    (hr : ReachAct n d g a Φ) : ReachAct n d g a Ψ := by
  cases a
  case rlock m =>
    cases m
    · exact ⟨hr.1, h _ _ hr.2⟩
    · exact hr.imp fun _ hr => ⟨hr.1, h _ _ hr.2⟩
  case idxGet m => exact hr.imp (fun hr => ⟨hr.1, hr.2.1, fun s => h _ _ (hr.2.2 s)⟩) fun hr => hr.imp fun _ hr => ⟨hr.1, h _ _ hr.2⟩
  case alGet m => exact hr.imp fun _ hr => ⟨hr.1, hr.2.1, fun s hs => h _ _ (hr.2.2 s hs)⟩
  case slRead r i => exact hr.imp fun _ hr => ⟨hr.1, fun v hv => h _ _ (hr.2 v hv)⟩
  case runlock m => exact hr.imp fun _ hr => ⟨hr.1, h _ _ hr.2⟩
  case newIndex m => exact hr.imp fun _ hr => ⟨hr.1, hr.2.1, fun p hp => h _ _ (hr.2.2 p hp)⟩
  case idxSet m q => exact ⟨hr.1, hr.2.1, h _ _ hr.2.2⟩
  case docAppend p e => exact ⟨hr.1, hr.2.1, fun i => h _ _ (hr.2.2 i)⟩
  case postAdd p tok i => exact ⟨hr.1, hr.2.imp fun _ hr => hr.imp fun _ hr => ⟨hr.1, h _ _ hr.2⟩⟩
  case schedule ps => exact ⟨hr.1, fun qs hq => h _ _ (hr.2 qs hq)⟩
  all_goals first | exact hr.elim | exact ⟨hr.1, fun b => h _ _ (hr.2 b)⟩

theorem reach_bind {α β : Type} {Q : PutGhost → β → Prop} {f : α → Prog β} : ∀ {q : Prog α} {g : PutGhost},
    Reach n d (fun g' a => Reach n d Q g' (f a)) g q → Reach n d Q g (q.bind f)
  | .ret _, _, h => h
  | .crash _, _, _ => trivial
  | .act _ _, _, h => reachAct_mono (fun _ _ h => reach_bind h) h

/-- All documents a `Put` has stored are complete. -/
def PutGhost.complete (cfg : Cfg) (d : DocRequest) (g : PutGhost) : Prop :=
  ∀ e ∈ g.stored, ∀ tok ∈ cfg.tok d.statement, tok ∈ e.2.2

/-- What a `Put` has done when it is over. -/
def PutDone (cfg : Cfg) (n : Name) (d : DocRequest) (g : PutGhost) : Prop :=
  g.complete cfg d ∧ ∃ s, g.mode = .closed s ∧
    match s.targets n with
    | none => ∃ p, s.heap.length ≤ p ∧ g.bound = some p ∧ g.stored.map (·.1) = [p]
    | some l => ∃ ps, l = ps.map some ∧ g.bound = none ∧ (g.stored.map (·.1)).Perm ps

theorem reach_putPostings {p : Ptr} {i : Nat} {Q : PutGhost → Unit → Prop} : ∀ (toks : List Str) (g : PutGhost) (ts : List Str)
    (rest : List (Ptr × Nat × List Str)), g.isClosed → g.stored = (p, i, ts) :: rest →
    (∀ ts', (∀ tok ∈ ts, tok ∈ ts') → (∀ tok ∈ toks, tok ∈ ts') → Q { g with stored := (p, i, ts') :: rest } ()) →
    Reach n d Q g (Repo.putPostings p i toks)
  | [], g, ts, rest, _, hg, hQ => by
    have := hQ ts (fun _ h => h) fun _ h => nomatch h
    rw [← hg] at this
    exact this
  | tok :: toks, g, ts, rest, hcl, hg, hQ => by
    refine ⟨hcl, ts, rest, hg, reach_putPostings toks _ (tok :: ts) rest hcl rfl fun ts' h1 h2 => hQ ts' (fun _ h => h1 _ (List.mem_cons_of_mem _ h)) fun x hx => ?_⟩
    rcases List.mem_cons.1 hx with hx | hx
    · subst hx; exact h1 _ List.mem_cons_self
    · exact h2 x hx

theorem reach_putIndex {p : Ptr} {Q : PutGhost → Unit → Prop} {g : PutGhost} (hcl : g.isClosed)
    (hQ : ∀ i ts', (∀ tok ∈ cfg.tok d.statement, tok ∈ ts') → Q { g with stored := (p, i, ts') :: g.stored } ()) :
    Reach n d Q g (Repo.putIndex cfg p d) :=
  ⟨hcl, rfl, fun i => reach_putPostings _ _ [] g.stored hcl rfl fun ts' _ h => hQ i ts' h⟩

theorem reach_putAll {Q : PutGhost → Unit → Prop} : ∀ (ps : List Ptr) (g : PutGhost), g.isClosed → g.complete cfg d →
    (∀ g', g'.complete cfg d → g'.mode = g.mode → g'.bound = g.bound → (g'.stored.map (·.1)).Perm (ps ++ g.stored.map (·.1)) → Q g' ()) →
    Reach n d Q g (Repo.putAll cfg d ps)
  | [], g, _, hc, hQ => hQ g hc rfl rfl (.refl _)
  | p :: ps, g, hcl, hc, hQ => by
    refine reach_bind (reach_putIndex hcl fun i ts' hts => reach_putAll ps _ hcl ?_ fun g' h1 h2 h3 h4 => hQ g' h1 h2 h3 ?_)
    · intro e he
      rcases List.mem_cons.1 he with he | he
      · subst he; exact hts
      · exact hc e he
    · refine h4.trans ?_
      simp only [List.map_cons]
      exact List.perm_middle

theorem reach_resolveFrom {r : SliceRef} {s : Shared} {g : PutGhost} (hm : g.mode = .both s) :
    ∀ k i {Q : PutGhost → List (Option Ptr) → Prop}, Q g ((((s.elems r).drop i).take k).map s.indices.get) →
    Reach n d Q g (Repo.resolveFrom r i k)
  | 0, i, Q, hQ => by
    rw [List.take_zero] at hQ
    exact hQ
  | k + 1, i, Q, hQ => by
    refine ⟨s, hm, fun v hv => Or.inr ⟨s, hm, ?_⟩⟩
    refine reach_bind (q := Repo.resolveFrom r (i + 1) k) (reach_resolveFrom hm k (i + 1) ?_)
    obtain ⟨hlt, hv'⟩ := List.getElem?_eq_some_iff.1 hv
    rw [List.drop_eq_getElem_cons hlt, List.take_succ_cons, List.map_cons, hv'] at hQ
    exact hQ

theorem nonNil_map : ∀ {l : List (Option Ptr)} {ps : List Ptr}, Repo.nonNil l = some ps → l = ps.map some
  | [], ps, h => by cases h; rfl
  | none :: _, ps, h => nomatch h
  | some p :: l, ps, h => by
    simp only [Repo.nonNil] at h
    cases h1 : Repo.nonNil l with
    | none => rw [h1] at h; cases h
    | some qs => rw [h1] at h; cases h; rw [nonNil_map h1]; rfl

/-- What is known once the name has been resolved. -/
def Resolved (n : Name) (g : PutGhost) (r : Option (List (Option Ptr))) : Prop :=
  ∃ s, g = ⟨.closed s, none, []⟩ ∧ s.targets n = r

theorem reach_getIndices : Reach n d (Resolved n) ⟨.start, none, []⟩ (Repo.getIndices n) := by
  refine ⟨rfl, Or.inl ⟨rfl, rfl, fun s => ?_⟩⟩
  cases hs : s.indices.get n with
  | some p => exact ⟨s, .inl rfl, s, rfl, by rw [Shared.targets, hs]⟩
  | none =>
    refine ⟨s, rfl, s, rfl, rfl, fun s' hs' => ?_⟩
    rw [← hs'] at hs
    cases ha : s'.aliases.get n with
    | none => exact ⟨s', .inr (.inl rfl), s', .inr (.inr rfl), s', rfl, by rw [Shared.targets, hs, ha]; rfl⟩
    | some r =>
      refine reach_bind (q := Repo.resolveFrom r 0 r.len) (reach_resolveFrom (s := s') rfl _ _ ?_)
      refine ⟨s', .inr (.inl rfl), s', .inr (.inr rfl), s', rfl, ?_⟩
      rw [Shared.targets, hs, ha, List.drop_zero, List.take_of_length_le (by unfold Shared.elems; rw [List.length_take]; exact Nat.min_le_left _ _)]
      rfl

theorem reach_mono {α : Type} {Q Q' : PutGhost → α → Prop} (hQ : ∀ g a, Q g a → Q' g a) : ∀ {q : Prog α} {g : PutGhost},
    Reach n d Q g q → Reach n d Q' g q
  | .ret _, _, h => hQ _ _ h
  | .crash _, _, _ => trivial
  | .act _ _, _, h => reachAct_mono (fun _ _ h => reach_mono hQ h) h

theorem targets_none {s : Shared} (h : s.targets n = none) : s.indices.get n = none := by
  unfold Shared.targets at h
  split at h
  · cases h
  · assumption

theorem reach_put : Reach n d (fun g _ => PutDone cfg n d g) ⟨.start, none, []⟩ ((Op.put n d).prog cfg) := by
  refine reach_bind (q := Repo.put cfg n d) ?_
  refine reach_bind (reach_mono ?_ reach_getIndices)
  rintro g r ⟨s, rfl, hr⟩
  have hcl : PutGhost.isClosed ⟨.closed s, none, []⟩ := ⟨s, rfl⟩
  refine reach_bind (q := Repo.lock .indices) ⟨hcl, fun _ => ⟨hcl, fun _ => ?_⟩⟩
  cases r with
  | none =>
    refine ⟨s, rfl, rfl, fun p hp => ⟨⟨s, rfl, hr⟩, rfl, reach_bind (q := Repo.putIndex cfg p d) (reach_putIndex ⟨s, rfl⟩ fun i ts' hts => ?_)⟩⟩
    refine ⟨⟨s, rfl⟩, fun _ => ⟨fun e he => ?_, s, rfl, ?_⟩⟩
    · rw [List.mem_singleton.1 he]; exact hts
    · rw [hr]; exact ⟨p, hp, rfl, rfl⟩
  | some l =>
    refine reach_bind (q := Repo.putTargets cfg l d) ?_
    unfold Repo.putTargets
    cases hl : Repo.nonNil l with
    | none => trivial
    | some ps =>
      simp only
      split
      · refine ⟨hcl, fun qs hq => ?_⟩
        refine reach_putAll qs _ hcl (fun e he => nomatch he) fun g' h1 h2 h3 h4 => ⟨⟨s, h2⟩, fun _ => ⟨h1, s, h2, ?_⟩⟩
        rw [hr]
        rw [List.map_nil, List.append_nil] at h4
        exact ⟨ps, nonNil_map hl, h3, h4.trans hq⟩
      · trivial

/-! ## The invariant -/

/-- The document of the request is at the position, filed under the tokens. -/
def StoredAt (d : DocRequest) (Hp : List MemoryIndex) (e : Ptr × Nat × List Str) : Prop :=
  ∃ mi, Hp[e.1]? = some mi ∧ mi.docs[e.2.1]? = some (newDoc d.id d.raw) ∧
    ∀ tok ∈ e.2.2, ∃ l, mi.inverted.get tok = some l ∧ e.2.1 ∈ l

theorem StoredAt.grown {H H' : List MemoryIndex} {e : Ptr × Nat × List Str} (h : StoredAt d H e) (g : HeapGrown H H') :
    StoredAt d H' e := by
  obtain ⟨mi, h1, h2, h3⟩ := h
  obtain ⟨mi', g1, g2, g3, g4⟩ := g _ _ h1
  refine ⟨mi', g1, ?_, fun tok ht => ?_⟩
  · obtain ⟨ex, hex⟩ := g3
    rw [← hex, List.getElem?_append_left (List.getElem?_eq_some_iff.1 h2).1]; exact h2
  · obtain ⟨l, h4, h5⟩ := h3 tok ht
    obtain ⟨l', h6, h7⟩ := g4 tok l h4
    exact ⟨l', h6, h7.subset h5⟩

theorem Meanwhile.step {t : Tid} {c c' : Config} {s : Shared} (h : Meanwhile cfg t c s) (hs : Step cfg c c') : Meanwhile cfg t c' s := by
  obtain ⟨c1, x, h1, h2, h3⟩ := h
  exact ⟨c1, x, h1, .tail h2 hs, h3⟩

theorem BoundBy.step {t : Tid} {c c' : Config} {p : Ptr} (h : BoundBy cfg t c n p) (hs : Step cfg c c') : BoundBy cfg t c' n p := by
  obtain ⟨c1, c2, h1, h2, h3, h4⟩ := h
  exact ⟨c1, c2, h1, h2, .tail h3 hs, h4⟩

theorem Meanwhile.called {t : Tid} {c : Config} {s : Shared} (h : Meanwhile cfg t c s) : t < c.calls.length := by
  obtain ⟨c1, x, _, h2, h3, _⟩ := h
  have : ∀ {c c' : Config}, Steps cfg c c' → t < c.calls.length → t < c'.calls.length := by
    intro c c' hs hlt
    induction hs with
    | refl => exact hlt
    | tail _ hs ih =>
      obtain ⟨_, h, _⟩ := step_calls hs (List.getElem?_eq_getElem ih)
      exact (List.getElem?_eq_some_iff.1 h).1
  exact this h2 (List.getElem?_eq_some_iff.1 h3).1

theorem BoundBy.called {t : Tid} {c : Config} {p : Ptr} (h : BoundBy cfg t c n p) : t < c.calls.length := by
  obtain ⟨c1, c2, h1, h2, h3, _⟩ := h
  obtain ⟨x, hx, hrun⟩ : ∃ x, c1.calls[t]? = some x ∧ x.running := by
    cases h2 with
    | act h _ => exact ⟨_, h, trivial⟩
    | crash h _ => exact ⟨_, h, trivial⟩
  exact Meanwhile.called (cfg := cfg) (s := c1.sh) ⟨c1, x, h1, steps_trans (.tail (.refl _) (.move t h2)) h3, hx, hrun, rfl⟩

theorem TakenBy.step {t : Tid} {c c' : Config} {m : Name} {p : Ptr} (h : TakenBy cfg t c m p) (hs : Step cfg c c') :
    TakenBy cfg t c' m p := by
  obtain ⟨u, y, c1, c2, h1, h2, h3, h4, h5⟩ := h
  exact ⟨u, y, c1, c2, h1, h2, h3, .tail h4 hs, h5⟩

theorem KeptOrTaken.same {t : Tid} {c c' : Config} {m : Name} {p : Ptr} (h : KeptOrTaken cfg t c m p) (hs : Step cfg c c')
    (he : c'.sh.indices.get m = c.sh.indices.get m) : KeptOrTaken cfg t c' m p :=
  h.imp (fun h => he.trans h) fun h => h.step hs

theorem KeptOrTaken.other {t u : Tid} {c c' : Config} {m : Name} {p : Ptr} (hr : ConcReachable cfg c) (hlt : t < c.calls.length)
    (hut : u ≠ t) (hs : TStep cfg u c c') (h : KeptOrTaken cfg t c m p) : KeptOrTaken cfg t c' m p := by
  rcases h with h | h
  · by_cases h' : c'.sh.indices.get m = some p
    · exact .inl h'
    · refine .inr ?_
      have hs0 := hs
      cases hs with
      | crash hx he => exact absurd h h'
      | @act s s' calls op o β a k b hx he =>
        refine ⟨u, _, _, _, hut, hr, hs0, .refl _, hlt, hx, ?_, h, h'⟩
        have hnm := names_reachable hr _ (List.mem_of_getElem? hx)
        by_cases hb : a.binds = some m
        · exact .inl (hnm.1 m hb)
        · by_cases hu : a.unbinds = some m
          · exact .inr (hnm.2.1 m hu)
          · exact absurd (((exec_index he m).1 hb hu).trans h) h'
  · exact .inr (h.step (.move u hs))

/-- What holds in each mode. -/
def ModeOk (cfg : Cfg) (t : Tid) (c : Config) (h : Held) : PutMode → Prop
  | .start => True
  | .locked => h.imu = .read
  | .idx s => h.imu = .read ∧ c.sh.indices = s.indices ∧ Meanwhile cfg t c s
  | .idxA s => h.imu = .read ∧ h.amu = .read ∧ c.sh.indices = s.indices ∧ Meanwhile cfg t c s
  | .both s => h.imu = .read ∧ h.amu = .read ∧ c.sh.indices = s.indices ∧ c.sh.aliases = s.aliases ∧
      c.sh.arrays = s.arrays ∧ Meanwhile cfg t c s
  | .closed s => Meanwhile cfg t c s ∧ ∀ m p, s.indices.get m = some p → KeptOrTaken cfg t c m p

structure ReachInv (cfg : Cfg) (n : Name) (d : DocRequest) (t : Tid) (c : Config) (H : Tid → Held) (g : PutGhost) : Prop where
  prog : ∀ x, c.calls[t]? = some x → Reach n d (fun g _ => PutDone cfg n d g) g x.prog
  mode : ModeOk cfg t c (H t) g.mode
  stored : ∀ e ∈ g.stored, StoredAt d c.sh.heap e
  bound : ∀ p, g.bound = some p → BoundBy cfg t c n p ∧ KeptOrTaken cfg t c n p

/-- Nobody else writes what a reader has locked. -/
theorem reader_excludes {c : Config} {H : Tid → Held} (i : LockInv c H) {m : Mu} {t u : Tid} (h : (H t).get m = .read) :
    (H u).get m ≠ .write := by
  intro hw
  have := (i.link m).excl u hw
  have hm := ((i.link m).mem t).2 h
  rw [this] at hm
  cases hm

theorem setMu_arrays (s : Shared) (m : Mu) (l : RW) : (s.setMu m l).arrays = s.arrays := by cases m <;> rfl

theorem exec_frame {o : Oracle} {t : Tid} {β : Type} {a : Act β} {s s' : Shared} {b : β} (he : exec cfg o t a s = .ok b s') :
    (a.writes ≠ some .indices → s'.indices = s.indices) ∧ (a.writes ≠ some .aliases → s'.aliases = s.aliases) ∧
    (a.writes ≠ some .arrays → s'.arrays = s.arrays) := by
  cases a <;> simp only [exec] at he <;> (repeat' split at he) <;>
    first
      | (cases he; exact ⟨fun _ => rfl, fun _ => rfl, fun _ => rfl⟩)
      | (cases he; exact ⟨fun _ => setMu_indices _ _ _, fun _ => setMu_aliases _ _ _, fun _ => setMu_arrays _ _ _⟩)
      | (cases he; exact ⟨fun h => absurd rfl h, fun _ => rfl, fun _ => rfl⟩)
      | (cases he; exact ⟨fun _ => rfl, fun h => absurd rfl h, fun _ => rfl⟩)
      | (cases he; exact ⟨fun _ => rfl, fun _ => rfl, fun h => absurd rfl h⟩)
      | cases he

theorem good_locks {op : Op} {h : Held} {β : Type} {a : Act β} {k : β → Prog Ret} (g : Good op h (.act a k)) :
    (a.writes = some .indices → h.imu = .write) ∧ (a.writes = some .aliases → h.amu = .write) ∧
    (a.writes = some .arrays → h.amu = .write ∨ h.imu = .write) := by
  have hl : a.isLock = true → a.writes = none := by cases a <;> simp [Act.isLock, Act.writes]
  by_cases hL : a.isLock = true
  · rw [hl hL]; exact ⟨nofun, nofun, nofun⟩
  · have hL' : a.isLock = false := by simpa using hL
    by_cases hren : op.isRename = false
    · have := (allowed_data (g.1 hren).1 hL').2
      refine ⟨fun hw => ?_, fun hw => ?_, fun hw => ?_⟩ <;> have := this _ hw <;>
        simp only [strict, Mode.excl, beq_iff_eq] at this <;> simp [this]
    · have hun : op.isUnAlias = false := by cases op <;> simp [Op.isRename, Op.isUnAlias] at hren ⊢
      have := (allowed_data (g.2 hun).1 hL').2
      refine ⟨fun hw => ?_, fun hw => ?_, fun hw => ?_⟩ <;> have := this _ hw <;>
        simp only [broad, Mode.excl, Bool.or_eq_true, Bool.and_eq_true, beq_iff_eq] at this
      · exact this
      · exact this.2
      · exact this.imp And.right id

theorem ModeOk.other {t u : Tid} {c c' : Config} {H : Tid → Held} (hr : ConcReachable cfg c) (hut : u ≠ t) (i : LockInv c H) (hs : TStep cfg u c c') {m : PutMode}
    (h : ModeOk cfg t c (H t) m) : ModeOk cfg t c' (H t) m := by
  have hst : Step cfg c c' := .move u hs
  have key : (H t).imu = .read → c'.sh.indices = c.sh.indices ∧ ((H t).amu = .read → c'.sh.aliases = c.sh.aliases ∧ c'.sh.arrays = c.sh.arrays) := by
    intro hi
    cases hs with
    | crash => exact ⟨rfl, fun _ => ⟨rfl, rfl⟩⟩
    | act hx he =>
      obtain ⟨f1, f2, f3⟩ := exec_frame he
      obtain ⟨l1, l2, l3⟩ := good_locks (i.good u _ hx)
      have n1 := reader_excludes i (m := .indices) (u := u) hi
      refine ⟨f1 fun hw => n1 (l1 hw), fun ha => ?_⟩
      have n2 := reader_excludes i (m := .aliases) (u := u) ha
      exact ⟨f2 fun hw => n2 (l2 hw), f3 fun hw => (l3 hw).elim n2 n1⟩
  cases m with
  | start => trivial
  | locked => exact h
  | idx s => exact ⟨h.1, (key h.1).1.trans h.2.1, h.2.2.step hst⟩
  | idxA s => exact ⟨h.1, h.2.1, (key h.1).1.trans h.2.2.1, h.2.2.2.step hst⟩
  | both s => exact ⟨h.1, h.2.1, (key h.1).1.trans h.2.2.1, ((key h.1).2 h.2.1).1.trans h.2.2.2.1,
      ((key h.1).2 h.2.1).2.trans h.2.2.2.2.1, h.2.2.2.2.2.step hst⟩
  | closed s => exact ⟨h.1.step hst, fun m p hp => (h.2 m p hp).other hr h.1.called hut hs⟩

theorem ModeOk.still {t : Tid} {c c' : Config} {h : Held} (hs : Step cfg c c') (he : c'.sh = c.sh) {m : PutMode}
    (this : ModeOk cfg t c h m) : ModeOk cfg t c' h m := by
  cases m <;> simp only [ModeOk, he] at this ⊢
  · exact this
  · exact ⟨this.1, this.2.1, this.2.2.step hs⟩
  · exact ⟨this.1, this.2.1, this.2.2.1, this.2.2.2.step hs⟩
  · exact ⟨this.1, this.2.1, this.2.2.1, this.2.2.2.1, this.2.2.2.2.1, this.2.2.2.2.2.step hs⟩
  · exact ⟨this.1.step hs, fun m p hp => (this.2 m p hp).same hs (by rw [he])⟩

theorem reach_own {t : Tid} {s s' : Shared} {calls : List Thread} {H : Tid → Held} {g : PutGhost} {op : Op} {o : Oracle} {β : Type}
    {a : Act β} {k : β → Prog Ret} {b : β} (hr : ConcReachable cfg ⟨s, calls⟩) (h : calls[t]? = some ⟨op, o, .act a k⟩)
    (he : exec cfg o t a s = .ok b s')
    (v : ReachInv cfg n d t ⟨s, calls⟩ H g) :
    ∃ g', ReachInv cfg n d t ⟨s', calls.set t ⟨op, o, k b⟩⟩ (setH H t ((H t).after a)) g' := by
  have hst : Step cfg ⟨s, calls⟩ ⟨s', calls.set t ⟨op, o, k b⟩⟩ := .move t (.act h he)
  have hx' : (calls.set t ⟨op, o, k b⟩)[t]? = some ⟨op, o, k b⟩ := List.getElem?_set_self (List.getElem?_eq_some_iff.1 h).1
  have hnow : Meanwhile cfg t ⟨s', calls.set t ⟨op, o, k b⟩⟩ s := ⟨_, _, hr, .tail (.refl _) hst, h, trivial, rfl⟩
  have hgr := exec_grown he
  have hst' : ∀ e ∈ g.stored, StoredAt d s'.heap e := fun e he => (v.stored e he).grown hgr
  have hsame : a.writes ≠ some .indices → s'.indices = s.indices := (exec_frame he).1
  have hkeep : s'.indices = s.indices → ∀ m p, KeptOrTaken cfg t ⟨s, calls⟩ m p → KeptOrTaken cfg t ⟨s', calls.set t ⟨op, o, k b⟩⟩ m p :=
    fun hw m p h => h.same hst (congrArg (GoMap.get · m) hw)
  have hcls : s'.indices = s.indices → ∀ s1, g.mode = .closed s1 → ModeOk cfg t ⟨s', calls.set t ⟨op, o, k b⟩⟩ ((H t).after a) (.closed s1) := by
    intro hw s1 h1
    have := v.mode
    rw [h1] at this
    exact ⟨this.1.step hst, fun m p hp => hkeep hw m p (this.2 m p hp)⟩
  have hbd : s'.indices = s.indices → ∀ p, g.bound = some p →
      BoundBy cfg t ⟨s', calls.set t ⟨op, o, k b⟩⟩ n p ∧ KeptOrTaken cfg t ⟨s', calls.set t ⟨op, o, k b⟩⟩ n p :=
    fun hw p hp => ⟨(v.bound p hp).1.step hst, hkeep hw n p (v.bound p hp).2⟩
  have hv := v.prog _ h
  have hmo := v.mode
  have mk : ∀ g', Reach n d (fun g _ => PutDone cfg n d g) g' (k b) →
      ModeOk cfg t ⟨s', calls.set t ⟨op, o, k b⟩⟩ ((H t).after a) g'.mode → (∀ e ∈ g'.stored, StoredAt d s'.heap e) →
      (∀ p, g'.bound = some p → BoundBy cfg t ⟨s', calls.set t ⟨op, o, k b⟩⟩ n p ∧
        KeptOrTaken cfg t ⟨s', calls.set t ⟨op, o, k b⟩⟩ n p) →
      ∃ g', ReachInv cfg n d t ⟨s', calls.set t ⟨op, o, k b⟩⟩ (setH H t ((H t).after a)) g' := by
    intro g' h1 h2 h3 h4
    refine ⟨g', fun x hx => ?_, by rw [setH_same]; exact h2, h3, h4⟩
    rw [hx'] at hx; cases hx; exact h1
  cases a
  case rlock m =>
    obtain ⟨f1, f2, f3⟩ := exec_frame he
    cases m with
    | indices => exact mk _ hv.2 rfl hst' (hbd (hsame nofun))
    | aliases =>
      obtain ⟨s1, h1, h2⟩ := hv
      rw [h1] at hmo
      exact mk _ h2 ⟨hmo.1, rfl, (f1 nofun).trans hmo.2.1, hmo.2.2.step hst⟩ hst' (hbd (hsame nofun))
  case idxGet m =>
    cases he
    rcases hv with ⟨h1, h2, h3⟩ | ⟨s1, h1, h2⟩
    · rw [h1] at hmo
      subst h2
      exact mk _ (h3 s) ⟨hmo, rfl, hnow⟩ hst' (hbd (hsame nofun))
    · rw [h1] at hmo
      have : s1.indices.get m = s.indices.get m := by rw [hmo.2.2.1]
      rw [this] at h2
      refine mk _ h2 ?_ hst' (hbd (hsame nofun))
      rw [h1]
      exact ⟨hmo.1, hmo.2.1, hmo.2.2.1, hmo.2.2.2.1, hmo.2.2.2.2.1, hmo.2.2.2.2.2.step hst⟩
  case alGet m =>
    cases he
    obtain ⟨s1, h1, h2, h3⟩ := hv
    rw [h1] at hmo
    subst h2
    exact mk _ (h3 s hmo.2.2.1) ⟨hmo.1, hmo.2.1, rfl, rfl, rfl, hnow⟩ hst' (hbd (hsame nofun))
  case slRead r j =>
    obtain ⟨s1, h1, h2⟩ := hv
    rw [h1] at hmo
    simp only [exec] at he
    split at he
    · next v0 hv0 =>
      cases he
      have : s1.elems r = s.elems r := by unfold Shared.elems; rw [hmo.2.2.2.2.1]
      refine mk _ (h2 _ (by rw [this]; exact hv0)) ?_ hst' (hbd (hsame nofun))
      rw [h1]
      exact ⟨hmo.1, hmo.2.1, hmo.2.2.1, hmo.2.2.2.1, hmo.2.2.2.2.1, hmo.2.2.2.2.2.step hst⟩
    · cases he
  case runlock m =>
    obtain ⟨s1, h1, h2⟩ := hv
    refine mk _ h2 ?_ hst' (hbd (hsame nofun))
    have hs' := (exec_frame he).1 nofun
    rcases h1 with h1 | h1 | h1
    · rw [h1] at hmo
      exact ⟨hmo.2.2.step hst, fun m p hp => .inl (by rw [← hmo.2.1] at hp; exact (congrArg (GoMap.get · m) hs').trans hp)⟩
    · rw [h1] at hmo
      exact ⟨hmo.2.2.2.2.2.step hst, fun m p hp => .inl (by rw [← hmo.2.2.1] at hp; exact (congrArg (GoMap.get · m) hs').trans hp)⟩
    · exact hcls (hsame nofun) _ h1
  case newIndex m =>
    obtain ⟨s1, h1, h2, h3⟩ := hv
    cases he
    rw [h1] at hmo
    obtain ⟨⟨c1, x1, g1, g2, g3, g4, g5⟩, _⟩ := hmo
    refine mk g (h3 _ ?_) (by rw [h1]; exact hcls rfl _ h1) hst' (hbd rfl)
    rw [← g5]; exact heapGrown_length (steps_grown g2)
  case idxSet m q =>
    obtain ⟨⟨s1, h1, h0⟩, h2, h3⟩ := hv
    cases he
    subst h2
    rw [h1] at hmo
    refine mk _ h3 (by rw [h1]; exact ⟨hmo.1.step hst, fun m' p hp => (hmo.2 m' p hp).same hst (GoMap.get_set_ne _ _ (by
      rintro rfl; rw [targets_none h0] at hp; cases hp))⟩) hst' fun p hp => ?_
    cases hp
    exact ⟨⟨_, _, hr, .act h rfl, .refl _, GoMap.get_set_same _ _ _⟩, .inl (GoMap.get_set_same _ _ _)⟩
  case docAppend p e =>
    obtain ⟨⟨s1, h1⟩, h2, h3⟩ := hv
    subst h2
    simp only [exec] at he
    split at he
    · next mi hmi =>
      cases he
      refine mk _ (h3 _) (by rw [h1]; exact hcls rfl _ h1) (fun e he => ?_) (hbd rfl)
      rcases List.mem_cons.1 he with he | he
      · subst he
        exact ⟨_, List.getElem?_set_self (List.getElem?_eq_some_iff.1 hmi).1, by simp, fun _ h => nomatch h⟩
      · exact hst' e he
    · cases he
  case postAdd p tok j =>
    obtain ⟨⟨s1, h1⟩, ts, rest, h2, h3⟩ := hv
    simp only [exec] at he
    split at he
    · next mi hmi =>
      cases he
      refine mk _ h3 (by rw [h1]; exact hcls rfl _ h1) (fun e he => ?_) (hbd rfl)
      rcases List.mem_cons.1 he with he | he
      · subst he
        obtain ⟨mi', g1, g2, g3⟩ := hst' (p, j, ts) (by rw [h2]; exact List.mem_cons_self)
        refine ⟨mi', g1, g2, fun x hx => ?_⟩
        rcases List.mem_cons.1 hx with hx | hx
        · subst hx
          rw [List.getElem?_set_self (List.getElem?_eq_some_iff.1 hmi).1] at g1
          cases g1
          simp only [addPosting]
          split
          · next hin =>
            cases hg : mi.inverted.get x with
            | none => rw [hg] at hin; cases hin
            | some l => rw [hg] at hin; exact ⟨l, rfl, hin⟩
          · exact ⟨_, GoMap.get_set_same _ _ _, by simp⟩
        · exact g3 x hx
      · exact hst' e (by rw [h2]; exact List.mem_cons_of_mem _ he)
    · cases he
  case schedule ps =>
    obtain ⟨⟨s1, h1⟩, h2⟩ := hv
    cases he
    exact mk _ (h2 _ (choosePerm_perm _ _)) (by rw [h1]; exact hcls (hsame nofun) _ h1) hst' (hbd (hsame nofun))
  all_goals first
    | exact hv.elim
    | (obtain ⟨⟨s1, h1⟩, h2⟩ := hv; exact mk _ (h2 _) (by rw [h1]; exact hcls (hsame nofun) _ h1) hst' (hbd (hsame nofun)))

theorem reach_step {t : Tid} {c c' : Config} {H : Tid → Held} {g : PutGhost} (hr : ConcReachable cfg c) (i : LockInv c H)
    (hop : ∀ y, c'.calls[t]? = some y → y.op = .put n d) (hs : Step cfg c c')
    (v : ReachInv cfg n d t c H g) (hg : c.calls.length ≤ t → g = ⟨.start, none, []⟩) :
    ∃ H' g', LockInv c' H' ∧ ReachInv cfg n d t c' H' g' ∧ (c'.calls.length ≤ t → g' = ⟨.start, none, []⟩) := by
  have hs0 := hs
  cases hs with
  | invoke op o =>
    refine ⟨H, g, lockInv_invoke i op o, ⟨fun x hx => ?_, ?_, v.stored, fun p hp => ⟨(v.bound p hp).1.step hs0, (v.bound p hp).2.same hs0 rfl⟩⟩, fun h => hg ?_⟩
    · simp only at hx
      by_cases hlt : t < c.calls.length
      · rw [List.getElem?_append_left hlt] at hx
        exact v.prog x hx
      · have ho := hop x hx
        rw [List.getElem?_append_right (Nat.le_of_not_lt hlt)] at hx
        rw [hg (Nat.le_of_not_lt hlt)]
        cases hj : t - c.calls.length with
        | zero =>
          rw [hj] at hx
          cases hx
          have ho : op = .put n d := ho
          rw [ho]
          exact reach_put
        | succ j => rw [hj] at hx; cases hx
    · exact v.mode.still hs0 rfl
    · simp only [List.length_append] at h
      exact Nat.le_trans (Nat.le_add_right _ _) h
  | move u hm =>
    have hm0 := hm
    cases hm with
    | @act s s' calls op o β a k b h he =>
      obtain ⟨dd, hd⟩ := (i.good u _ h).allowed
      have i' := lockInv_act i h hd he
      by_cases hut : u = t
      · subst hut
        obtain ⟨g', v'⟩ := reach_own hr h he v
        refine ⟨_, g', i', v', fun hl => ?_⟩
        simp only [List.length_set] at hl
        exact absurd (List.getElem?_eq_some_iff.1 h).1 (Nat.not_lt.2 hl)
      · refine ⟨_, g, i', ⟨fun x hx => ?_, ?_, fun e he' => (v.stored e he').grown (exec_grown he),
          fun p hp => ⟨(v.bound p hp).1.step hs0, (v.bound p hp).2.other hr (v.bound p hp).1.called hut hm0⟩⟩, fun h => hg ?_⟩
        · simp only at hx
          rw [List.getElem?_set_ne hut] at hx
          exact v.prog x hx
        · rw [setH_other _ _ (Ne.symm hut)]
          exact v.mode.other hr hut i hm0
        · simpa using h
    | @crash s calls op o β a k e h he =>
      obtain ⟨dd, hd⟩ := (i.good u _ h).allowed
      refine ⟨H, g, lockInv_crash i h hd he, ⟨fun x hx => ?_, v.mode.still hs0 rfl, v.stored, fun p hp => ⟨(v.bound p hp).1.step hs0, (v.bound p hp).2.same hs0 rfl⟩⟩, fun h => hg ?_⟩
      · simp only at hx
        by_cases hut : u = t
        · subst hut
          rw [List.getElem?_set_self (List.getElem?_eq_some_iff.1 h).1] at hx
          cases hx
          trivial
        · rw [List.getElem?_set_ne hut] at hx
          exact v.prog x hx
      · simpa using h

theorem reach_reachable {c : Config} (hr : ConcReachable cfg c) {t : Tid} (hop : ∀ y, c.calls[t]? = some y → y.op = .put n d) :
    ∃ H g, LockInv c H ∧ ReachInv cfg n d t c H g := by
  have key : ∀ c0, Steps cfg c0 c → c0 = Config.init → ConcReachable cfg c ∧
      ∃ H g, LockInv c H ∧ ReachInv cfg n d t c H g ∧ (c.calls.length ≤ t → g = ⟨.start, none, []⟩) := by
    intro c0 hs
    induction hs with
    | refl =>
      intro e; subst e
      refine ⟨.refl _, _, ⟨.start, none, []⟩, lockInv_init, ⟨fun x hx => ?_, trivial, (fun e he => nomatch he), (fun p hp => nomatch hp)⟩, fun _ => rfl⟩
      simp [Config.init] at hx
    | @tail c1 c2 hpre hs ih =>
      intro e
      obtain ⟨hr1, H, g, i, v, hg⟩ := ih (by subst e; exact hpre) (fun y hy => by
        obtain ⟨y', h1, h2, _⟩ := step_calls hs hy
        rw [← h2]; exact hop y' h1) e
      exact ⟨.tail hr1 hs, reach_step hr1 i hop hs v hg⟩
  obtain ⟨_, H, g, i, v, _⟩ := key _ hr rfl
  exact ⟨H, g, i, v⟩

/-- A `Put` takes a name away only if the name stood for nothing when it looked. -/
theorem TakenBy.lost {t : Tid} {c : Config} {m : Name} {p : Ptr} (h : TakenBy cfg t c m p) : LostTo cfg t c m p := by
  obtain ⟨u, y, c1, c2, h1, h2, h3, h4, h5, h6, h7, h8, h9⟩ := h
  refine ⟨u, y, c1, c2, h1, h2, h3, h4, h5, h6, h8, h9, ?_⟩
  cases hop : y.op with
  | put n d =>
    rw [hop] at h7
    rcases h7 with h7 | h7
    · have h7 : n = m := h7
      subst h7
      refine .inr (.inr ⟨d, ?_⟩)
      obtain ⟨H, g, _, v⟩ := reach_reachable (n := n) (d := d) h2 (t := u) (fun z hz => by rw [h6] at hz; cases hz; exact hop)
      have hv := v.prog y h6
      have hmo := v.mode
      cases h3 with
      | crash => exact absurd h8 h9
      | @act s s' calls op o β a k b hx he =>
        rw [h6] at hx; cases hx
        cases a
        case idxSet m' q =>
          obtain ⟨⟨s, g1, g2⟩, _⟩ := hv
          rw [g1] at hmo
          exact ⟨s, rfl, hmo.1, g2⟩
        case idxDel m' => exact hv.elim
        all_goals exact absurd (((exec_index he n).1 nofun nofun).trans h8) h9
    · exact h7.elim
  | drop n =>
    rw [hop] at h7
    rcases h7 with h7 | h7
    · exact h7.elim
    · exact .inl (congrArg Op.drop h7)
  | rename a b =>
    rw [hop] at h7
    rcases h7 with h7 | h7
    · exact .inr (.inl ⟨a, .inr (congrArg (Op.rename a) h7)⟩)
    · exact .inr (.inl ⟨b, .inl (congrArg (Op.rename · b) h7)⟩)
  | _ => rw [hop] at h7; exact h7.elim False.elim False.elim

end Visigoth
