import Verif.Spec.Goroutines
import Verif.Proofs.Run
/-!
# Lemmas about interleaved goroutines
-/
namespace Visigoth

/-! ## `Put` -/

/-- The index after the goroutine has appended the document and handled the tokens `done`. -/
def partPut (doc : DocRequest) (mi : MemoryIndex) (done : List Str) : MemoryIndex :=
  { mi with docs := mi.docs ++ [newDoc doc.id doc.raw]
            inverted := done.foldl (addPosting mi.docs.length) mi.inverted }

theorem partPut_all (cfg : Cfg) (doc : DocRequest) (mi : MemoryIndex) :
    partPut doc mi (cfg.tok doc.statement) = mi.put cfg.tok doc := rfl

/-- Where a goroutine is: its remaining program, the index it writes, and the number of actions left. -/
inductive GAt (cfg : Cfg) (p : Ptr) (doc : DocRequest) (mi : MemoryIndex) :
    Prog Unit → MemoryIndex → Nat → Prop where
  | start : GAt cfg p doc mi (Repo.putIndex cfg p doc) mi ((cfg.tok doc.statement).length + 1)
  | post (done rest : List Str) (h : done ++ rest = cfg.tok doc.statement) :
      GAt cfg p doc mi (Repo.putPostings p mi.docs.length rest) (partPut doc mi done) rest.length

variable {cfg : Cfg} {o : Oracle} {t : Tid} {doc : DocRequest}

/-- A goroutine that has not ended can move, and only changes its own index. -/
theorem GAt.act {p : Ptr} {mi mi' : MemoryIndex} {g : Prog Unit} {n : Nat} (h : GAt cfg p doc mi g mi' n)
    (s : Shared) (hs : s.heap[p]? = some mi') :
    (g = .ret () ∧ n = 0 ∧ mi' = mi.put cfg.tok doc) ∨
    ∃ (β : Type) (a : Act β) (k : β → Prog Unit) (b : β) (mi'' : MemoryIndex) (n' : Nat),
      g = .act a k ∧ exec cfg o t a s = .ok b { s with heap := s.heap.set p mi'' } ∧
      GAt cfg p doc mi (k b) mi'' n' ∧ n = n' + 1 := by
  cases h with
  | start =>
    refine Or.inr ⟨_, _, _, _, _, _, rfl, ?_, .post [] _ rfl, rfl⟩
    simp [exec, hs, partPut]
  | post done rest hd =>
    cases rest with
    | nil =>
      refine Or.inl ⟨rfl, rfl, ?_⟩
      rw [← partPut_all, ← hd, List.append_nil]
    | cons tok rest =>
      refine Or.inr ⟨_, _, _, (), _, _, rfl, ?_, .post (done ++ [tok]) rest (by simpa using hd), by simp⟩
      simp [exec, hs, partPut]

/-- Invariant of a pool started on the indices `ps` in state `s0`. -/
structure PoolInv (cfg : Cfg) (doc : DocRequest) (s0 : Shared) (ps : List Ptr) (c : Pool)
    (ns : List Nat) : Prop where
  len : c.gs.length = ps.length
  nlen : ns.length = ps.length
  at_ : ∀ (i : Nat) (p : Ptr) (g : Prog Unit) (n : Nat), ps[i]? = some p → c.gs[i]? = some g → ns[i]? = some n →
    ∃ mi mi', s0.heap[p]? = some mi ∧ c.sh.heap[p]? = some mi' ∧ GAt cfg p doc mi g mi' n

theorem pool_init {s : Shared} {ps : List Ptr} (hp : ∀ p ∈ ps, p < s.heap.length) :
    PoolInv cfg doc s ps (putPool cfg doc s ps)
      (ps.map fun _ => (cfg.tok doc.statement).length + 1) := by
  refine ⟨by simp [putPool], by simp, ?_⟩
  intro i p g n h1 h2 h3
  have hl := hp p (List.mem_of_getElem? h1)
  refine ⟨s.heap[p], s.heap[p], List.getElem?_eq_getElem hl, List.getElem?_eq_getElem hl, ?_⟩
  simp only [putPool, List.getElem?_map, h1, Option.map_some, Option.some.injEq] at h2 h3
  subst h2 h3
  exact .start

theorem heap_set_other {s : Shared} {p q : Ptr} (mi : MemoryIndex) (h : p ≠ q) :
    (s.heap.set p mi)[q]? = s.heap[q]? := List.getElem?_set_ne h

theorem sum_set {l : List Nat} {i n m : Nat} (h : l[i]? = some (n + 1)) (hm : m = n) :
    (l.set i m).sum + 1 = l.sum := by
  subst hm
  induction l generalizing i with
  | nil => simp at h
  | cons x l ih =>
    cases i with
    | zero => simp at h; subst h; simp; omega
    | succ i => simp at h; have := ih h; simp; omega

theorem nodup_pos {α : Type} {l : List α} (h : l.Nodup) {i j : Nat} (hi : i < l.length) (hj : j < l.length)
    (he : l[i] = l[j]) : i = j := by
  have hp := List.pairwise_iff_getElem.1 h
  rcases Nat.lt_trichotomy i j with hlt | heq | hgt
  · exact absurd he (hp i j hi hj hlt)
  · exact heq
  · exact absurd he.symm (hp j i hj hi hgt)

/-- Effect of one step of the pool on the invariant. -/
theorem pool_step {s0 : Shared} {ps : List Ptr} {c c' : Pool} {ns : List Nat} {env : Shared → Shared → Prop}
    (hnd : ps.Nodup) (henv : ∀ s s', env s s' → Spares ps s s') (h : PoolInv cfg doc s0 ps c ns)
    (hs : PoolStep cfg o t env c c') :
    (∃ s', env c.sh s' ∧ c' = { c with sh := s' } ∧ PoolInv cfg doc s0 ps c' ns) ∨
    ∃ i p mi n, ps[i]? = some p ∧ c'.sh = { c.sh with heap := c.sh.heap.set p mi } ∧
      ns[i]? = some (n + 1) ∧ PoolInv cfg doc s0 ps c' (ns.set i n) := by
  have key : ∀ {gs : List (Prog Unit)} {s : Shared} {β : Type} {a : Act β} {k : β → Prog Unit} {i : Nat},
      PoolInv cfg doc s0 ps { sh := s, gs := gs } ns → gs[i]? = some (.act a k) →
      ∃ (p : Ptr) (mi mi' mi'' : MemoryIndex) (n : Nat) (b : β), ps[i]? = some p ∧ s0.heap[p]? = some mi ∧ s.heap[p]? = some mi' ∧
        exec cfg o t a s = .ok b { s with heap := s.heap.set p mi'' } ∧
        GAt cfg p doc mi (k b) mi'' n ∧ ns[i]? = some (n + 1) := by
    intro gs s β a k i hi hg
    have hil : i < gs.length := by
      rcases Nat.lt_or_ge i gs.length with hlt | hge
      · exact hlt
      · rw [List.getElem?_eq_none hge] at hg; exact absurd hg (by simp)
    have hl : gs.length = ps.length := hi.len
    have hp : ps[i]? = some ps[i] := List.getElem?_eq_getElem (by omega)
    have hn : ns[i]? = some (ns[i]'(by rw [hi.nlen]; omega)) := List.getElem?_eq_getElem _
    obtain ⟨mi, mi', e1, e2, hga⟩ := hi.at_ i _ _ _ hp hg hn
    rcases hga.act (o := o) (t := t) s e2 with ⟨e, _⟩ | ⟨β', a', k', b, mi'', n', e, he, hga', hn'⟩
    · cases e
    · cases e
      exact ⟨_, mi, mi', mi'', n', b, hp, e1, e2, he, hga', by rw [hn, hn']⟩
  cases hs with
  | env he =>
    refine Or.inl ⟨_, he, rfl, h.len, h.nlen, ?_⟩
    intro i p g n h1 h2 h3
    obtain ⟨mi, mi', e1, e2, hga⟩ := h.at_ i p g n h1 h2 h3
    refine ⟨mi, mi', e1, ?_, hga⟩
    rw [← e2]; exact henv _ _ he p (List.mem_of_getElem? h1)
  | panic i hg he =>
    obtain ⟨_, _, _, _, _, _, _, _, _, he', _⟩ := key h hg
    rw [he'] at he; cases he
  | move i hg he =>
    obtain ⟨p, mi, mi', mi'', n, b, hp, e0, e1, he', hga, hn⟩ := key h hg
    rw [he'] at he; cases he
    refine Or.inr ⟨i, p, mi'', n, hp, rfl, hn, ?_, ?_, ?_⟩
    · simpa using h.len
    · simpa using h.nlen
    · intro j q g m h1 h2 h3
      by_cases hij : i = j
      · subst hij
        rw [hp] at h1; cases h1
        have hil : i < ps.length := (List.getElem?_eq_some_iff.1 hp).1
        rw [List.getElem?_set_self (by have := h.len; simp only at this; omega)] at h2
        rw [List.getElem?_set_self (by rw [h.nlen]; omega)] at h3
        cases h2; cases h3
        refine ⟨mi, mi'', e0, ?_, hga⟩
        exact List.getElem?_set_self (List.getElem?_eq_some_iff.1 e1).1
      · have hpq : p ≠ q := by
          intro hpq; subst hpq
          have a1 := List.getElem?_eq_some_iff.1 hp
          have a2 := List.getElem?_eq_some_iff.1 h1
          exact hij (nodup_pos hnd a1.1 a2.1 (a1.2.trans a2.2.symm))
        rw [List.getElem?_set_ne hij] at h2 h3
        obtain ⟨mj, mj', f1, f2, hgj⟩ := h.at_ j q g m h1 h2 h3
        exact ⟨mj, mj', f1, by rw [← f2]; exact heap_set_other _ hpq, hgj⟩

/-- The invariant along executions. -/
theorem pool_steps {s0 : Shared} {ps : List Ptr} {c c' : Pool} {env : Shared → Shared → Prop}
    (hnd : ps.Nodup) (henv : ∀ s s', env s s' → Spares ps s s')
    (hs : PoolSteps cfg o t env c c') {ns : List Nat} (h : PoolInv cfg doc s0 ps c ns) :
    ∃ ns', PoolInv cfg doc s0 ps c' ns' := by
  induction hs with
  | refl => exact ⟨ns, h⟩
  | @tail c1 c2 h1 hs ih =>
    obtain ⟨ns', hi⟩ := ih
    rcases pool_step hnd henv hi hs with ⟨_, _, _, hi'⟩ | ⟨_, _, _, _, _, _, _, hi'⟩
    · exact ⟨_, hi'⟩
    · exact ⟨_, hi'⟩

/-- Everything outside the indices `ps`. -/
structure SameRest (ps : List Ptr) (s s' : Shared) : Prop where
  heapLen : s'.heap.length = s.heap.length
  heap : ∀ q, q ∉ ps → s'.heap[q]? = s.heap[q]?
  rest : s' = { s with heap := s'.heap }

theorem pool_sameRest {ps : List Ptr} {c c' : Pool}
    (hnd : ps.Nodup) {s0 : Shared} {ns : List Nat} (h : PoolInv cfg doc s0 ps c ns)
    (hs : PoolSteps cfg o t Quiet c c') :
    SameRest ps c.sh c'.sh := by
  have henv : ∀ s s' : Shared, Quiet s s' → Spares ps s s' := fun _ _ hf => hf.elim
  induction hs with
  | refl => exact ⟨rfl, fun _ _ => rfl, rfl⟩
  | @tail c1 c2 h1 hs ih =>
    obtain ⟨ns', hi⟩ := pool_steps hnd henv h1 h
    rcases pool_step hnd henv hi hs with ⟨_, hf, _⟩ | ⟨i, p, mi, n, hp, he, _, _⟩
    · exact hf.elim
    · refine ⟨?_, ?_, ?_⟩
      · rw [he]; simpa using ih.heapLen
      · intro q hq
        rw [he, ← ih.heap q hq]
        exact List.getElem?_set_ne fun (hpq : p = q) => hq (hpq ▸ List.mem_of_getElem? hp)
      · rw [he, ih.rest]

/-! ## `Search` -/

/-- Results of the goroutines at the given positions. -/
def partsOf (cfg : Cfg) (terms : Str) (engine : Engine) (s : Shared) (ps : List Ptr) (order : List Nat) :
    List SearchResult :=
  order.flatMap fun j => ((ps[j]?).bind (partOf cfg terms engine s)).getD []

/-- `order` lists the positions of the goroutines that have taken the private mutex. -/
structure SearchInv (cfg : Cfg) (terms : Str) (engine : Engine) (s0 : Shared) (ps : List Ptr)
    (c : SearchPool) (order : List Nat) : Prop where
  len : c.gs.length = ps.length
  same : Spares ps s0 c.sh
  start : ∀ (i : Nat) (q : Ptr), c.gs[i]? = some (Searcher.start q) → ps[i]? = some q
  evaluated : ∀ (i : Nat) (sr : List SearchResult), c.gs[i]? = some (Searcher.evaluated sr) →
    ∃ p, ps[i]? = some p ∧ partOf cfg terms engine s0 p = some sr
  panicked : ∀ i : Nat, c.gs[i]? = some Searcher.panicked → ∃ p, ps[i]? = some p ∧
    (s0.heap[p]?).isSome ∧ partOf cfg terms engine s0 p = none
  nodup : order.Nodup
  mem : ∀ i : Nat, i ∈ order ↔ c.gs[i]? = some Searcher.done ∨ ∃ rest, c.gs[i]? = some (Searcher.appending rest)
  computed : ∀ i ∈ order, ∃ p sr, ps[i]? = some p ∧ partOf cfg terms engine s0 p = some sr
  hold : ∀ (i : Nat) (rest : List SearchResult), c.gs[i]? = some (Searcher.appending rest) → c.rl = some i
  cur : ∀ i : Nat, c.rl = some i → ∃ front rest, order = front ++ [i] ∧
    c.gs[i]? = some (Searcher.appending rest) ∧ c.result ++ rest = partsOf cfg terms engine s0 ps order
  idle : c.rl = none → c.result = partsOf cfg terms engine s0 ps order

theorem search_init (cfg : Cfg) (terms : Str) (engine : Engine) (s : Shared) (ps : List Ptr) :
    SearchInv cfg terms engine s ps (searchPool s ps) [] := by
  have hg : ∀ (i : Nat) g, (searchPool s ps).gs[i]? = some g → ∃ p, ps[i]? = some p ∧ g = .start p := by
    intro i g h
    simp only [searchPool, List.getElem?_map, Option.map_eq_some_iff] at h
    obtain ⟨p, h1, h2⟩ := h
    exact ⟨p, h1, h2.symm⟩
  refine ⟨by simp [searchPool], fun _ _ => rfl, ?_, ?_, ?_, List.nodup_nil, ?_, by simp, ?_, ?_, fun _ => rfl⟩
  · intro i q h; obtain ⟨p, h1, h2⟩ := hg i _ h; cases h2; exact h1
  · intro i q h; obtain ⟨p, h1, h2⟩ := hg i _ h; cases h2
  · intro i h; obtain ⟨p, h1, h2⟩ := hg i _ h; cases h2
  · intro i
    refine ⟨fun h => absurd h List.not_mem_nil, ?_⟩
    rintro (h | ⟨_, h⟩) <;> (obtain ⟨p, h1, h2⟩ := hg i _ h; cases h2)
  · intro i q h; obtain ⟨p, h1, h2⟩ := hg i _ h; cases h2
  · intro i h; cases h

theorem set_get {α : Type _} {l : List α} {i j : Nat} {a b x : α} (hi : l[i]? = some x) (h : (l.set i a)[j]? = some b) :
    (i = j ∧ a = b) ∨ (i ≠ j ∧ l[j]? = some b) := by
  by_cases hij : i = j
  · subst hij
    rw [List.getElem?_set_self (List.getElem?_eq_some_iff.1 hi).1] at h
    exact Or.inl ⟨rfl, Option.some.inj h⟩
  · rw [List.getElem?_set_ne hij] at h
    exact Or.inr ⟨hij, h⟩

theorem set_get_self {α : Type _} {l : List α} {i : Nat} {a x : α} (hi : l[i]? = some x) :
    (l.set i a)[i]? = some a := List.getElem?_set_self (List.getElem?_eq_some_iff.1 hi).1

theorem set_get_other {α : Type _} {l : List α} {i j : Nat} {a : α} (h : i ≠ j) : (l.set i a)[j]? = l[j]? :=
  List.getElem?_set_ne h

theorem partOf_same {terms : Str} {engine : Engine} {ps : List Ptr} {s s' : Shared} (h : Spares ps s s') {p : Ptr}
    (hp : p ∈ ps) : partOf cfg terms engine s' p = partOf cfg terms engine s p := by
  simp only [partOf, h p hp]

theorem search_step {terms : Str} {engine : Engine} {s0 : Shared} {ps : List Ptr} {c c' : SearchPool}
    {order : List Nat} {env : Shared → Shared → Prop} (henv : ∀ s s', env s s' → Spares ps s s')
    (h : SearchInv cfg terms engine s0 ps c order) (hs : SearchPoolStep cfg terms engine env c c') :
    ∃ order', SearchInv cfg terms engine s0 ps c' order' := by
  obtain ⟨len, same, start, evaluated, panicked, nodup, mem, computed, hold, cur, idle⟩ := h
  cases hs with
  | env he =>
    refine ⟨order, len, ?_, start, evaluated, panicked, nodup, mem, computed, hold, cur, idle⟩
    intro p hp
    rw [← same p hp]; exact henv _ _ he p hp
  | @eval p mi sr i hg hp he =>
    have hpi := start i p hg
    have hpm := List.mem_of_getElem? hpi
    refine ⟨order, by simpa using len, same, ?_, ?_, ?_, nodup, ?_, computed, ?_, ?_, idle⟩
    · intro j q hj
      rcases set_get hg hj with ⟨_, e⟩ | ⟨_, e⟩
      · cases e
      · exact start j q e
    · intro j sr' hj
      rcases set_get hg hj with ⟨rfl, e⟩ | ⟨_, e⟩
      · cases e
        refine ⟨p, hpi, ?_⟩
        rw [← partOf_same same hpm]
        simp only [partOf, hp, Option.bind_some, he]
      · exact evaluated j sr' e
    · intro j hj
      rcases set_get hg hj with ⟨_, e⟩ | ⟨_, e⟩
      · cases e
      · exact panicked j e
    · intro j
      rw [mem]
      by_cases hij : i = j
      · subst hij
        simp [hg, set_get_self hg]
      · simp [set_get_other hij]
    · intro j rest hj
      rcases set_get hg hj with ⟨_, e⟩ | ⟨_, e⟩
      · cases e
      · exact hold j rest e
    · intro j hj
      obtain ⟨front, rest, e1, e2, e3⟩ := cur j hj
      refine ⟨front, rest, e1, ?_, e3⟩
      have hij : i ≠ j := by intro hij; subst hij; rw [hg] at e2; cases e2
      rw [set_get_other hij]; exact e2
  | @panic p mi i hg hp he =>
    have hpi := start i p hg
    have hpm := List.mem_of_getElem? hpi
    refine ⟨order, by simpa using len, same, ?_, ?_, ?_, nodup, ?_, computed, ?_, ?_, idle⟩
    · intro j q hj
      rcases set_get hg hj with ⟨_, e⟩ | ⟨_, e⟩
      · cases e
      · exact start j q e
    · intro j sr' hj
      rcases set_get hg hj with ⟨rfl, e⟩ | ⟨_, e⟩
      · cases e
      · exact evaluated j sr' e
    · intro j hj
      rcases set_get hg hj with ⟨rfl, e⟩ | ⟨_, e⟩
      · refine ⟨p, hpi, ?_, ?_⟩
        · rw [← same p hpm, hp]; rfl
        · rw [← partOf_same same hpm]
          simp only [partOf, hp, Option.bind_some, he]
      · exact panicked j e
    · intro j
      rw [mem]
      by_cases hij : i = j
      · subst hij
        simp [hg, set_get_self hg]
      · simp [set_get_other hij]
    · intro j rest hj
      rcases set_get hg hj with ⟨_, e⟩ | ⟨_, e⟩
      · cases e
      · exact hold j rest e
    · intro j hj
      obtain ⟨front, rest, e1, e2, e3⟩ := cur j hj
      refine ⟨front, rest, e1, ?_, e3⟩
      have hij : i ≠ j := by intro hij; subst hij; rw [hg] at e2; cases e2
      rw [set_get_other hij]; exact e2
  | @lock sr i hg hl =>
    obtain ⟨p, hpi, hpart⟩ := evaluated i sr hg
    have hni : i ∉ order := by
      rw [mem]; rw [hg]; rintro (e | ⟨_, e⟩) <;> cases e
    refine ⟨order ++ [i], by simpa using len, same, ?_, ?_, ?_, ?_, ?_, ?_, ?_, ?_, (fun e => nomatch e)⟩
    · intro j q hj
      rcases set_get hg hj with ⟨_, e⟩ | ⟨_, e⟩
      · cases e
      · exact start j q e
    · intro j sr' hj
      rcases set_get hg hj with ⟨rfl, e⟩ | ⟨_, e⟩
      · cases e
      · exact evaluated j sr' e
    · intro j hj
      rcases set_get hg hj with ⟨rfl, e⟩ | ⟨_, e⟩
      · cases e
      · exact panicked j e
    · rw [List.nodup_append]
      refine ⟨nodup, by simp, ?_⟩
      intro a ha b hb
      simp only [List.mem_singleton] at hb
      subst hb
      intro hab; subst hab; exact hni ha
    · intro j
      rw [List.mem_append, List.mem_singleton, mem]
      by_cases hij : i = j
      · subst hij
        simp [set_get_self hg]
      · simp [set_get_other hij, Ne.symm hij]
    · intro j hj
      rw [List.mem_append, List.mem_singleton] at hj
      rcases hj with hj | rfl
      · exact computed j hj
      · exact ⟨p, sr, hpi, hpart⟩
    · intro j rest hj
      rcases set_get hg hj with ⟨rfl, _⟩ | ⟨_, e⟩
      · rfl
      · rw [hl] at hold; exact nomatch hold j rest e
    · intro j hj
      cases hj
      refine ⟨order, sr, rfl, set_get_self hg, ?_⟩
      show c.result ++ sr = _
      rw [idle hl]
      simp [partsOf, hpi, hpart]
  | @append x rest i hg =>
    have hrl := hold i _ hg
    refine ⟨order, by simpa using len, same, ?_, ?_, ?_, nodup, ?_, computed, ?_, ?_, ?_⟩
    · intro j q hj
      rcases set_get hg hj with ⟨_, e⟩ | ⟨_, e⟩
      · cases e
      · exact start j q e
    · intro j sr' hj
      rcases set_get hg hj with ⟨rfl, e⟩ | ⟨_, e⟩
      · cases e
      · exact evaluated j sr' e
    · intro j hj
      rcases set_get hg hj with ⟨rfl, e⟩ | ⟨_, e⟩
      · cases e
      · exact panicked j e
    · intro j
      rw [mem]
      by_cases hij : i = j
      · subst hij
        simp [hg, set_get_self hg]
      · simp [set_get_other hij]
    · intro j r hj
      rcases set_get hg hj with ⟨rfl, _⟩ | ⟨_, e⟩
      · exact hrl
      · exact hold j r e
    · intro j hj
      have : i = j := Option.some.inj (hrl.symm.trans hj)
      subst this
      obtain ⟨front, r, e1, e2, e3⟩ := cur i hrl
      rw [hg] at e2; cases e2
      refine ⟨front, rest, e1, set_get_self hg, ?_⟩
      rw [← e3]; simp
    · intro e
      exact nomatch hrl.symm.trans e
  | unlock i hg =>
    have hrl := hold i _ hg
    refine ⟨order, by simpa using len, same, ?_, ?_, ?_, nodup, ?_, computed, ?_, (fun _ e => nomatch e), ?_⟩
    · intro j q hj
      rcases set_get hg hj with ⟨_, e⟩ | ⟨_, e⟩
      · cases e
      · exact start j q e
    · intro j sr' hj
      rcases set_get hg hj with ⟨rfl, e⟩ | ⟨_, e⟩
      · cases e
      · exact evaluated j sr' e
    · intro j hj
      rcases set_get hg hj with ⟨rfl, e⟩ | ⟨_, e⟩
      · cases e
      · exact panicked j e
    · intro j
      rw [mem]
      by_cases hij : i = j
      · subst hij
        simp [hg, set_get_self hg]
      · simp [set_get_other hij]
    · intro j r hj
      rcases set_get hg hj with ⟨rfl, e⟩ | ⟨hij, e⟩
      · cases e
      · exact absurd (Option.some.inj (hrl.symm.trans (hold j r e))) hij
    · intro _
      obtain ⟨front, r, e1, e2, e3⟩ := cur i hrl
      rw [hg] at e2; cases e2
      rw [List.append_nil] at e3
      exact e3

theorem search_steps {terms : Str} {engine : Engine} {s0 : Shared} {ps : List Ptr} {c c' : SearchPool}
    {order : List Nat} {env : Shared → Shared → Prop} (henv : ∀ s s', env s s' → Spares ps s s')
    (hs : SearchPoolSteps cfg terms engine env c c') (h : SearchInv cfg terms engine s0 ps c order) :
    ∃ order', SearchInv cfg terms engine s0 ps c' order' := by
  induction hs with
  | refl => exact ⟨order, h⟩
  | @tail c1 c2 h1 hs ih =>
    obtain ⟨o', hi⟩ := ih
    exact search_step henv hi hs

theorem filterMap_range_get {α : Type} (l : List α) : (List.range l.length).filterMap (fun j => l[j]?) = l := by
  induction l with
  | nil => rfl
  | cons x l ih =>
    rw [List.length_cons, List.range_succ_eq_map, List.filterMap_cons, List.filterMap_map]
    simp only [List.getElem?_cons_zero]
    congr 1

/-- Steps left for a search goroutine. -/
def Searcher.left (cfg : Cfg) (terms : Str) (engine : Engine) (s : Shared) : Searcher → Nat
  | .start p => ((partOf cfg terms engine s p).getD []).length + 3
  | .evaluated sr => sr.length + 2
  | .appending rest => rest.length + 1
  | .done => 0
  | .panicked => 0

theorem sum_map_set {α : Type} (f : α → Nat) {l : List α} {i : Nat} {x y : α} (h : l[i]? = some x)
    (hlt : f y < f x) : ((l.set i y).map f).sum < (l.map f).sum := by
  induction l generalizing i with
  | nil => simp at h
  | cons z l ih =>
    cases i with
    | zero => simp at h; subst h; simp; omega
    | succ i =>
      simp at h
      have := ih h
      simp only [List.set_cons_succ, List.map_cons, List.sum_cons]
      omega

theorem search_left {terms : Str} {engine : Engine} {c c' : SearchPool}
    (hs : SearchPoolStep cfg terms engine Quiet c c') :
    c'.sh = c.sh ∧ (c'.gs.map (Searcher.left cfg terms engine c.sh)).sum
      < (c.gs.map (Searcher.left cfg terms engine c.sh)).sum := by
  cases hs with
  | env he => exact he.elim
  | eval i hg hp he =>
    refine ⟨rfl, sum_map_set _ hg ?_⟩
    simp [Searcher.left, partOf, hp, he]
  | panic i hg hp he => exact ⟨rfl, sum_map_set _ hg (by simp [Searcher.left])⟩
  | lock i hg hl => exact ⟨rfl, sum_map_set _ hg (by simp [Searcher.left])⟩
  | append i hg => exact ⟨rfl, sum_map_set _ hg (by simp [Searcher.left])⟩
  | unlock i hg => exact ⟨rfl, sum_map_set _ hg (by simp [Searcher.left])⟩

/-- When all search goroutines have ended, the results are those of the indices in some order. -/
theorem search_result {terms : Str} {engine : Engine} {s : Shared} {ps : List Ptr} {c : SearchPool} {order : List Nat}
    (h : SearchInv cfg terms engine s ps c order) (hd : c.finished) :
    ∃ (ps' : List Ptr) (parts : List (List SearchResult)), ps'.Perm ps ∧
      ps'.map (partOf cfg terms engine s) = parts.map some ∧ c.result = parts.flatten := by
  have hmem : ∀ i : Nat, i ∈ order ↔ i ∈ List.range ps.length := by
    intro i
    rw [h.mem, List.mem_range, ← h.len]
    constructor
    · rintro (e | ⟨_, e⟩) <;> exact (List.getElem?_eq_some_iff.1 e).1
    · intro hi
      exact Or.inl (by rw [List.getElem?_eq_getElem hi, hd _ (List.getElem_mem hi)])
  have hperm : order.Perm (List.range ps.length) :=
    (List.perm_ext_iff_of_nodup h.nodup List.nodup_range).2 hmem
  have hrl : c.rl = none := by
    cases hc : c.rl with
    | none => rfl
    | some i =>
      obtain ⟨front, rest, e1, e2, e3⟩ := h.cur i hc
      exact nomatch hd _ (List.mem_of_getElem? e2)
  have hall : ∀ j ∈ order, ∃ p sr, ps[j]? = some p ∧ partOf cfg terms engine s p = some sr := h.computed
  refine ⟨order.filterMap fun j => ps[j]?, order.map fun j => ((ps[j]?).bind (partOf cfg terms engine s)).getD [],
    ?_, ?_, ?_⟩
  · have := hperm.filterMap fun j => ps[j]?
    rwa [filterMap_range_get] at this
  · clear hperm hmem h
    induction order with
    | nil => rfl
    | cons j order ih =>
      obtain ⟨p, sr, e1, e2⟩ := hall j (by simp)
      simp only [List.filterMap_cons, e1, List.map_cons, e2, Option.bind_some, Option.getD_some]
      rw [ih fun j hj => hall j (List.mem_cons_of_mem _ hj)]
  · rw [h.idle hrl, partsOf, List.flatMap_def]

/-- Search goroutines cannot get stuck. -/
theorem search_progress {terms : Str} {engine : Engine} {s : Shared} {ps : List Ptr}
    (hp : ∀ p ∈ ps, p < s.heap.length) {c : SearchPool} {order : List Nat} (h : SearchInv cfg terms engine s ps c order) :
    c.finished ∨ Searcher.panicked ∈ c.gs ∨ ∃ c', SearchPoolStep cfg terms engine Quiet c c' := by
  cases hc : c.rl with
  | some i =>
    obtain ⟨front, rest, e1, e2, e3⟩ := h.cur i hc
    cases rest with
    | nil => exact Or.inr (Or.inr ⟨_, .unlock i e2⟩)
    | cons x rest => exact Or.inr (Or.inr ⟨_, .append i e2⟩)
  | none =>
    by_cases hf : c.finished
    · exact Or.inl hf
    · simp only [SearchPool.finished, Classical.not_forall] at hf
      obtain ⟨g, hg, hne⟩ := hf
      obtain ⟨i, hi, he⟩ := List.mem_iff_getElem.1 hg
      have hgi : c.gs[i]? = some g := by rw [List.getElem?_eq_getElem hi, he]
      cases g with
      | start p =>
        have hpi := h.start i p hgi
        have hpm := List.mem_of_getElem? hpi
        have hmi : c.sh.heap[p]? = some (s.heap[p]'(hp p hpm)) := by
          rw [h.same p hpm]; exact List.getElem?_eq_getElem _
        cases he : (s.heap[p]'(hp p hpm)).search cfg.cp cfg.tok terms engine with
        | none => exact Or.inr (Or.inr ⟨_, .panic i hgi hmi he⟩)
        | some sr => exact Or.inr (Or.inr ⟨_, .eval i hgi hmi he⟩)
      | evaluated sr => exact Or.inr (Or.inr ⟨_, .lock i hgi hc⟩)
      | appending rest => exact nomatch hc.symm.trans (h.hold i rest hgi)
      | done => exact absurd rfl hne
      | panicked => exact Or.inr (Or.inl hg)

/-! ## Playing schedules -/

/-- Goroutine `i` moves. -/
def Pool.next (cfg : Cfg) (o : Oracle) (t : Tid) (c : Pool) (i : Nat) : Option Pool :=
  match c.gs[i]? with
  | some (.act a k) =>
    match exec cfg o t a c.sh with
    | .ok b s' => some { sh := s', gs := c.gs.set i (k b) }
    | _ => none
  | _ => none

def Pool.play (cfg : Cfg) (o : Oracle) (t : Tid) (c : Pool) : List Nat → Option Pool
  | [] => some c
  | i :: is => (c.next cfg o t i).bind fun c' => c'.play cfg o t is

/-- All goroutines have ended (decidable form). -/
def Pool.doneB (c : Pool) : Bool := c.gs.all fun g => match g with | .ret _ => true | _ => false

theorem poolSteps_head {env : Shared → Shared → Prop} {c c' c'' : Pool} (hs : PoolStep cfg o t env c c')
    (h : PoolSteps cfg o t env c' c'') : PoolSteps cfg o t env c c'' := by
  induction h with
  | refl => exact .tail (.refl _) hs
  | tail _ hs ih => exact .tail ih hs

theorem play_poolSteps {env : Shared → Shared → Prop} {c c' : Pool} {is : List Nat}
    (h : c.play cfg o t is = some c') : PoolSteps cfg o t env c c' := by
  induction is generalizing c with
  | nil => cases h; exact .refl _
  | cons i is ih =>
    simp only [Pool.play, Option.bind_eq_some_iff] at h
    obtain ⟨c1, h1, h2⟩ := h
    refine poolSteps_head ?_ (ih h2)
    unfold Pool.next at h1
    split at h1
    · rename_i a k hg
      split at h1
      · rename_i b s' he
        cases h1
        exact .move i hg he
      · cases h1
    · cases h1

theorem doneB_done {c : Pool} (h : c.doneB = true) : c.done := by
  intro g hg
  have := List.all_eq_true.1 h g hg
  match g, this with
  | .ret (), _ => rfl

/-- Search goroutine `i` moves. -/
def SearchPool.next (cfg : Cfg) (terms : Str) (engine : Engine) (c : SearchPool) (i : Nat) : Option SearchPool :=
  match c.gs[i]? with
  | some (.start p) =>
    match c.sh.heap[p]? with
    | some mi =>
      match mi.search cfg.cp cfg.tok terms engine with
      | some sr => some { c with gs := c.gs.set i (.evaluated sr) }
      | none => none
    | none => none
  | some (.evaluated sr) =>
    match c.rl with
    | none => some { c with rl := some i, gs := c.gs.set i (.appending sr) }
    | some _ => none
  | some (.appending (x :: rest)) =>
    some { c with result := c.result ++ [x], gs := c.gs.set i (.appending rest) }
  | some (.appending []) => some { c with rl := none, gs := c.gs.set i .done }
  | _ => none

def SearchPool.play (cfg : Cfg) (terms : Str) (engine : Engine) (c : SearchPool) : List Nat → Option SearchPool
  | [] => some c
  | i :: is => (c.next cfg terms engine i).bind fun c' => c'.play cfg terms engine is

theorem next_searchStep {terms : Str} {engine : Engine} {env : Shared → Shared → Prop} {c c' : SearchPool} {i : Nat}
    (h : c.next cfg terms engine i = some c') : SearchPoolStep cfg terms engine env c c' := by
  unfold SearchPool.next at h
  split at h
  · rename_i p hg
    split at h
    · rename_i mi hp
      split at h
      · rename_i sr he; cases h; exact .eval i hg hp he
      · cases h
    · cases h
  · rename_i sr hg
    split at h
    · rename_i hl; cases h; exact .lock i hg hl
    · cases h
  · rename_i x rest hg; cases h; exact .append i hg
  · rename_i hg; cases h; exact .unlock i hg
  · cases h

theorem searchSteps_head {terms : Str} {engine : Engine} {env : Shared → Shared → Prop} {c c' c'' : SearchPool}
    (hs : SearchPoolStep cfg terms engine env c c') (h : SearchPoolSteps cfg terms engine env c' c'') :
    SearchPoolSteps cfg terms engine env c c'' := by
  induction h with
  | refl => exact .tail (.refl _) hs
  | tail _ hs ih => exact .tail ih hs

theorem play_searchSteps {terms : Str} {engine : Engine} {env : Shared → Shared → Prop} {c c' : SearchPool}
    {is : List Nat} (h : c.play cfg terms engine is = some c') : SearchPoolSteps cfg terms engine env c c' := by
  induction is generalizing c with
  | nil => cases h; exact .refl _
  | cons i is ih =>
    simp only [SearchPool.play, Option.bind_eq_some_iff] at h
    obtain ⟨c1, h1, h2⟩ := h
    exact searchSteps_head (next_searchStep h1) (ih h2)

end Visigoth
