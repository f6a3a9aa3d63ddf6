import Verif.Model.Fine
import Verif.Proofs.Nondet
import Verif.Proofs.Goroutines
/-!
# Interleaved goroutines add no behaviour
-/
namespace Visigoth

/-- The program with its goroutines run one after the other. -/
def FProg.flat (cfg : Cfg) {α : Type} : FProg α → Prog α
  | .ret a => .ret a
  | .act a k => .act a fun b => (k b).flat cfg
  | .crash c => .crash c
  | .forkPut ps doc k => .act (.schedule ps) fun q => (Repo.putAll cfg doc q).bind fun _ => k.flat cfg
  | .forkSearch ps terms engine k =>
    .act (.schedule ps) fun q => (Repo.searchAll terms engine q).bind fun r => (k r).flat cfg

section
variable {cfg : Cfg}

theorem flat_fine {α : Type} (p : Prog α) : p.fine.flat cfg = p := by
  induction p with
  | ret a => rfl
  | crash c => rfl
  | act a k ih => simp only [Prog.fine, FProg.flat, ih]

theorem flat_bind {α β : Type} (p : FProg α) (f : α → FProg β) :
    (p >>= f).flat cfg = p.flat cfg >>= fun a => (f a).flat cfg := by
  show (p.bind f).flat cfg = (p.flat cfg).bind fun a => (f a).flat cfg
  induction p with
  | ret a => rfl
  | crash c => rfl
  | act a k ih => simp only [FProg.bind, FProg.flat, Prog.bind, ih]
  | forkPut ps doc k ih =>
    simp only [FProg.bind, FProg.flat, Prog.bind, ih]
    congr 1; funext q
    exact (bind_assoc' (Repo.putAll cfg doc q) (fun _ => k.flat cfg) _).symm
  | forkSearch ps terms engine k ih =>
    simp only [FProg.bind, FProg.flat, Prog.bind, ih]
    congr 1; funext q
    exact (bind_assoc' (Repo.searchAll terms engine q) (fun r => (k r).flat cfg) _).symm

theorem flat_pure {α : Type} (a : α) : (pure a : FProg α).flat cfg = pure a := rfl

theorem bind_pure' {α : Type} (p : Prog α) : p.bind .ret = p := by
  induction p with
  | ret a => rfl
  | crash c => rfl
  | act a k ih => simp only [Prog.bind, ih]

theorem flat_searchTargets (l : List (Option Ptr)) (ts : Str) (e : Engine) :
    (Repo.fineSearchTargets l ts e).flat cfg = Repo.searchTargets l ts e := by
  unfold Repo.fineSearchTargets Repo.searchTargets
  have gen : ∀ ps : List Ptr, (FProg.forkSearch ps ts e .ret).flat cfg =
      (perform (.schedule ps) >>= fun ps => Repo.searchAll ts e ps) := by
    intro ps
    show Prog.act (.schedule ps) _ = Prog.act (.schedule ps) _
    congr 1; funext q
    exact bind_pure' _
  match Repo.nonNil l with
  | none => rfl
  | some [] => exact gen _
  | some [p] => exact flat_fine _
  | some (_ :: _ :: _) => exact gen _

theorem flat_search (n : Name) (ts : Str) (e : Engine) : (Repo.fineSearch n ts e).flat cfg = Repo.search n ts e := by
  unfold Repo.fineSearch Repo.search
  simp only [flat_bind, flat_fine]
  congr 1; funext _
  congr 1; funext r
  cases r with
  | some i => simp only [flat_bind, flat_fine, flat_searchTargets]; rfl
  | none =>
    simp only [flat_bind, flat_fine]
    congr 1; funext _
    congr 1; funext r
    cases r with
    | none => simp only [flat_bind, flat_fine]; rfl
    | some r => simp only [flat_bind, flat_fine, flat_searchTargets]; rfl

theorem flat_putTargets (l : List (Option Ptr)) (d : DocRequest) :
    (Repo.finePutTargets l d).flat cfg = Repo.putTargets cfg l d := by
  unfold Repo.finePutTargets Repo.putTargets
  match Repo.nonNil l with
  | none => rfl
  | some ps =>
    dsimp only
    split
    · show Prog.act (.schedule ps) _ = Prog.act (.schedule ps) _
      congr 1; funext q
      exact bind_pure' _
    · rfl

theorem flat_put (n : Name) (d : DocRequest) : (Repo.finePut cfg n d).flat cfg = Repo.put cfg n d := by
  unfold Repo.finePut Repo.put
  simp only [flat_bind, flat_fine]
  congr 1; funext r
  congr 1; funext _
  cases r with
  | none => simp only [flat_bind, flat_fine]
  | some l => simp only [flat_bind, flat_fine, flat_putTargets]

/-- The goroutine-level programs are the programs of `Model/Repo.lean`. -/
theorem flat_op (op : Op) : (op.fine cfg).flat cfg = op.prog cfg := by
  cases op with
  | put n d => simp only [Op.fine, Op.prog, flat_bind, flat_put]; rfl
  | search n ts e =>
    simp only [Op.fine, Op.prog, flat_bind, flat_search]
    congr 1; funext r
    cases r <;> rfl
  | _ => exact flat_fine _

end

/-! ## Actions that do not involve the indices -/

/-- Actions on the heap of indices. -/
def Act.onHeap {β : Type} : Act β → Bool
  | .newIndex _ | .docAppend .. | .postAdd .. | .evalEngine .. | .render _ => true
  | _ => false

/-- The effect of an action that does not involve the heap, with another heap. -/
def Exec.withHeap {β : Type} (Hp : List MemoryIndex) : Exec β → Exec β
  | .ok b s => .ok b { s with heap := Hp }
  | .blocked => .blocked
  | .crash e => .crash e

theorem exec_withHeap {cfg : Cfg} {o : Oracle} {t : Tid} {β : Type} {a : Act β} {s : Shared} (ha : a.onHeap = false)
    (Hp : List MemoryIndex) : exec cfg o t a { s with heap := Hp } = (exec cfg o t a s).withHeap Hp := by
  cases a with
  | rlock m =>
    cases m
    · by_cases h : s.imu.writer = none <;> simp [exec, Shared.mu, Shared.setMu, h, Exec.withHeap]
    · by_cases h : s.amu.writer = none <;> simp [exec, Shared.mu, Shared.setMu, h, Exec.withHeap]
  | runlock m =>
    cases m
    · by_cases h : t ∈ s.imu.readers <;> simp [exec, Shared.mu, Shared.setMu, h, Exec.withHeap]
    · by_cases h : t ∈ s.amu.readers <;> simp [exec, Shared.mu, Shared.setMu, h, Exec.withHeap]
  | announce m =>
    cases m
    · by_cases h : s.imu.writer = none <;> simp [exec, Shared.mu, Shared.setMu, h, Exec.withHeap]
    · by_cases h : s.amu.writer = none <;> simp [exec, Shared.mu, Shared.setMu, h, Exec.withHeap]
  | acquire m =>
    cases m
    · by_cases h : s.imu.writer = some t <;> by_cases h' : s.imu.readers = [] <;> simp [exec, Shared.mu, h, h', Exec.withHeap]
    · by_cases h : s.amu.writer = some t <;> by_cases h' : s.amu.readers = [] <;> simp [exec, Shared.mu, h, h', Exec.withHeap]
  | unlock m =>
    cases m
    · by_cases h : s.imu.writer = some t <;> simp [exec, Shared.mu, Shared.setMu, h, Exec.withHeap]
    · by_cases h : s.amu.writer = some t <;> simp [exec, Shared.mu, Shared.setMu, h, Exec.withHeap]
  | slRead r i =>
    simp only [exec, Shared.elems]
    cases (List.take r.len (s.arrays[r.arr]?.getD []))[i]? <;> rfl
  | slWrite r i v =>
    simp only [exec]
    cases s.arrays[r.arr]? with
    | none => rfl
    | some a => dsimp only; split <;> rfl
  | slAppend r v =>
    simp only [exec]
    cases s.arrays[r.arr]? with
    | none => rfl
    | some a => dsimp only; split <;> rfl
  | newIndex | docAppend | postAdd | evalEngine | render => cases ha
  | _ => rfl

theorem exec_sameHeap {cfg : Cfg} {o : Oracle} {t : Tid} {β : Type} {a : Act β} {s s' : Shared} {b : β}
    (ha : a.onHeap = false) (he : exec cfg o t a s = .ok b s') : s'.heap = s.heap := by
  have h := exec_withHeap (cfg := cfg) (o := o) (t := t) (s := s) ha s.heap
  have hs : ({ s with heap := s.heap } : Shared) = s := rfl
  rw [hs, he] at h
  injection h with _ h
  rw [h]

/-! ## Running a program inside a call -/

theorem run_nsteps {cfg : Cfg} {o : Oracle} {t : Tid} {α : Type} {f : α → Prog Ret} {op : Op} :
    ∀ {p : Prog α} {s s' : Shared} {a : α} {calls : List Thread}, t < calls.length →
      run cfg o t p s = .ok a s' →
      NSteps cfg { sh := s, calls := calls.set t { op := op, oracle := o, prog := p.bind f } }
        { sh := s', calls := calls.set t { op := op, oracle := o, prog := f a } } := by
  intro p
  induction p with
  | ret a => intro s s' b calls _ h; cases h; exact .refl _
  | crash c => intro s s' b calls _ h; cases h
  | act a k ih =>
    intro s s' b calls hl h
    simp only [run] at h
    split at h
    · next b' s1 he =>
      have h1 := ih b' (calls := calls) hl h
      have h2 := TStep.act (cfg := cfg) (calls := calls.set t { op := op, oracle := o, prog := (Prog.act a k).bind f })
        (k := fun b => (k b).bind f) (List.getElem?_set_self hl) he
      rw [List.set_set] at h2
      exact NSteps.trans (.tail (.refl _) (.step (.move t h2))) h1
    · cases h
    · cases h

/-! ## The simulation -/

/-- Goroutines of one `Put` are only started for distinct indices. -/
def Distinct {α : Type} : FProg α → Prop
  | .ret _ => True
  | .act _ k => ∀ b, Distinct (k b)
  | .crash _ => True
  | .forkPut ps _ k => ps.Nodup ∧ Distinct k
  | .forkSearch _ _ _ k => ∀ r, Distinct (k r)

theorem distinct_fine {α : Type} (p : Prog α) : Distinct p.fine := by
  induction p with
  | ret a => trivial
  | crash c => trivial
  | act a k ih => exact ih

theorem distinct_bind {α β : Type} {p : FProg α} {f : α → FProg β} (h : Distinct p) (hf : ∀ a, Distinct (f a)) :
    Distinct (p >>= f) := by
  show Distinct (p.bind f)
  induction p with
  | ret a => exact hf a
  | crash c => trivial
  | act a k ih => exact fun b => ih b (h b)
  | forkPut ps doc k ih => exact ⟨h.1, ih h.2⟩
  | forkSearch ps terms engine k ih => exact fun b => ih b (h b)

theorem distinct_searchTargets (l : List (Option Ptr)) (ts : Str) (e : Engine) : Distinct (Repo.fineSearchTargets l ts e) := by
  unfold Repo.fineSearchTargets
  split
  · trivial
  · exact distinct_fine _
  · exact fun _ => trivial

theorem distinct_op (cfg : Cfg) (op : Op) : Distinct (op.fine cfg) := by
  cases op with
  | put n d =>
    refine distinct_bind ?_ fun _ => trivial
    unfold Repo.finePut
    refine distinct_bind (distinct_fine _) fun r => distinct_bind (distinct_fine _) fun _ => ?_
    cases r with
    | none =>
      exact distinct_bind (distinct_fine _) fun _ => distinct_bind (distinct_fine _) fun _ =>
        distinct_bind (distinct_fine _) fun _ => distinct_fine _
    | some l =>
      refine distinct_bind ?_ fun _ => distinct_fine _
      unfold Repo.finePutTargets
      split
      · trivial
      · split
        · next h => exact ⟨h, trivial⟩
        · trivial
  | search n ts e =>
    refine distinct_bind ?_ fun r => by cases r <;> trivial
    unfold Repo.fineSearch
    refine distinct_bind (distinct_fine _) fun _ => distinct_bind (distinct_fine _) fun r => ?_
    cases r with
    | some i =>
      exact distinct_bind (distinct_searchTargets _ _ _) fun _ => distinct_bind (distinct_fine _) fun _ => trivial
    | none =>
      refine distinct_bind (distinct_fine _) fun _ => distinct_bind (distinct_fine _) fun r => ?_
      cases r with
      | none => exact distinct_bind (distinct_fine _) fun _ => distinct_bind (distinct_fine _) fun _ => trivial
      | some r =>
        exact distinct_bind (distinct_fine _) fun _ => distinct_bind (distinct_fine _) fun _ =>
          distinct_bind (distinct_searchTargets _ _ _) fun _ => distinct_bind (distinct_fine _) fun _ => trivial
  | _ => exact distinct_fine _

/-- What a call is doing, with the indices involved. -/
inductive Ghost where
  | seq
  | put (ps : List Ptr) (doc : DocRequest)
  | search (ps : List Ptr)

/-- The indices a call is writing. -/
def Ghost.writing : Ghost → List Ptr
  | .put ps _ => ps
  | _ => []

/-- The indices a call is writing or reading. -/
def Ghost.using : Ghost → List Ptr
  | .put ps _ => ps
  | .search ps => ps
  | .seq => []

/-- The state of a call, in shared state `s`, and the program left in the matching execution without
interleaved goroutines, in shared state `s0`. -/
inductive SimState (cfg : Cfg) (s s0 : Shared) : Ghost → FState → Prog Ret → Prop where
  | run (p : FProg Ret) (hp : Distinct p) : SimState cfg s s0 .seq (.run p) (p.flat cfg)
  | putting (ps : List Ptr) (doc : DocRequest) (gs : List (Prog Unit)) (ns : List Nat) (k : FProg Ret) (hnd : ps.Nodup) (hk : Distinct k)
      (h : PoolInv cfg doc s0 ps { sh := s, gs := gs } ns) :
      SimState cfg s s0 (.put ps doc) (.putting gs k) ((FProg.forkPut ps doc k).flat cfg)
  | searching (ps : List Ptr) (result : List SearchResult) (rl : Option Nat) (gs : List Searcher) (terms : Str)
      (engine : Engine) (order : List Nat) (k : List SearchResult → FProg Ret) (hk : ∀ r, Distinct (k r))
      (h : SearchInv cfg terms engine s0 ps { sh := s, result := result, rl := rl, gs := gs } order) :
      SimState cfg s s0 (.search ps) (.searching result rl gs terms engine k)
        ((FProg.forkSearch ps terms engine k).flat cfg)

/-- Only the indices in use matter. -/
theorem SimState.frame {cfg : Cfg} {s s0 s' s0' : Shared} {g : Ghost} {x : FState} {p : Prog Ret}
    (h : SimState cfg s s0 g x p) (hs : Spares g.using s s') (hs0 : Spares g.using s0 s0') : SimState cfg s' s0' g x p := by
  cases h with
  | run p hp => exact .run p hp
  | putting ps doc gs ns k hnd hk h =>
    refine .putting ps doc gs ns k hnd hk ⟨h.len, h.nlen, ?_⟩
    intro i p g n h1 h2 h3
    obtain ⟨mi, mi', e1, e2, hg⟩ := h.at_ i p g n h1 h2 h3
    have hm := List.mem_of_getElem? h1
    exact ⟨mi, mi', by rw [hs0 p hm]; exact e1, by show s'.heap[p]? = _; rw [hs p hm]; exact e2, hg⟩
  | searching ps result rl gs terms engine order k hk h =>
    have hpo : ∀ p ∈ ps, partOf cfg terms engine s0' p = partOf cfg terms engine s0 p := fun p hp => partOf_same hs0 hp
    have hparts : ∀ order : List Nat, (partsOf cfg terms engine s0' ps order) = partsOf cfg terms engine s0 ps order := by
      intro order
      unfold partsOf
      congr 1; funext j
      cases hj : ps[j]? with
      | none => rfl
      | some p => simp only [Option.bind_some, hpo p (List.mem_of_getElem? hj)]
    refine .searching ps result rl gs terms engine order k hk ⟨h.len, ?_, h.start, ?_, ?_, h.nodup, h.mem, ?_, h.hold, ?_, ?_⟩
    · intro p hp
      show s'.heap[p]? = s0'.heap[p]?
      rw [hs p hp, hs0 p hp]; exact h.same p hp
    · intro i sr hi
      obtain ⟨p, h1, h2⟩ := h.evaluated i sr hi
      exact ⟨p, h1, by rw [hpo p (List.mem_of_getElem? h1)]; exact h2⟩
    · intro i hi
      obtain ⟨p, h1, h2, h3⟩ := h.panicked i hi
      have hm := List.mem_of_getElem? h1
      exact ⟨p, h1, by rw [hs0 p hm]; exact h2, by rw [hpo p hm]; exact h3⟩
    · intro i hi
      obtain ⟨p, sr, h1, h2⟩ := h.computed i hi
      exact ⟨p, sr, h1, by rw [hpo p (List.mem_of_getElem? h1)]; exact h2⟩
    · intro i hi
      obtain ⟨front, rest, e1, e2, e3⟩ := h.cur i hi
      exact ⟨front, rest, e1, e2, by rw [hparts]; exact e3⟩
    · intro hr
      rw [hparts]; exact h.idle hr

/-- Configurations `c` with and `d` without interleaved goroutines match. -/
structure Sim (cfg : Cfg) (c : FConfig) (d : Config) (G : Tid → Ghost) : Prop where
  len : c.calls.length = d.calls.length
  call : ∀ t x, c.calls[t]? = some x → ∃ y, d.calls[t]? = some y ∧ y.op = x.op ∧ y.oracle = x.oracle ∧
    SimState cfg c.sh d.sh (G t) x.st y.prog
  fresh : ∀ t, c.calls.length ≤ t → G t = .seq
  rest : c.sh = { d.sh with heap := c.sh.heap }
  heapLen : c.sh.heap.length = d.sh.heap.length
  heap : ∀ q : Ptr, (∀ t, q ∉ (G t).writing) → c.sh.heap[q]? = d.sh.heap[q]?

/-! ### Locks -/

theorem good_writes {op : Op} {h : Held} {β : Type} {a : Act β} {k : β → Prog Ret} (g : Good op h (.act a k))
    (hw : a.writes = some .indices) : h.imu = .write := by
  have key : h.imu.excl = true := by
    by_cases hR : op.isRename = false
    · exact (allowed_call (x := { op := op, oracle := ⟨id, fun _ => id, id, id⟩, prog := .act a k }) (g.1 hR) .indices).2 hw
    · have : op.isUnAlias = false := by cases op <;> simp [Op.isRename, Op.isUnAlias] at hR ⊢
      exact (allowed_call (x := { op := op, oracle := ⟨id, fun _ => id, id, id⟩, prog := .act a k }) (g.2 this) .indices).2 hw
  simpa [Mode.excl] using key

theorem good_reads {op : Op} {h : Held} {β : Type} {a : Act β} {k : β → Prog Ret} (g : Good op h (.act a k))
    (hw : a.reads = some .indices) : h.imu.shared = true := by
  by_cases hR : op.isRename = false
  · exact (allowed_call (x := { op := op, oracle := ⟨id, fun _ => id, id, id⟩, prog := .act a k }) (g.1 hR) .indices).1 hw
  · have : op.isUnAlias = false := by cases op <;> simp [Op.isRename, Op.isUnAlias] at hR ⊢
    exact (allowed_call (x := { op := op, oracle := ⟨id, fun _ => id, id, id⟩, prog := .act a k }) (g.2 this) .indices).1 hw

theorem perm_front {α : Type} [DecidableEq α] {l : List α} {x : α} (h : x ∈ l) : (x :: l.erase x).Perm l :=
  (List.perm_cons_erase h).symm

/-- A call about to write indices holds the index mutex exclusively, and the indices exist. -/
theorem fork_put {cfg : Cfg} {P : DocRequest → Prop} {d : Config} {H : Tid → Held} (i : LockInv d H)
    (w : WholeInv P cfg.tok d H) {t : Tid} {y : Thread} (hy : d.calls[t]? = some y) {ps : List Ptr}
    {doc : DocRequest} {k : FProg Ret} (hp : y.prog = (FProg.forkPut ps doc k).flat cfg) {p : Ptr} (hm : p ∈ ps) :
    (H t).imu = .write ∧ p < d.sh.heap.length := by
  have hg := i.good t y hy
  rw [hp] at hg
  have hw := good_writes (hg.act (p :: ps.erase p)) rfl
  refine ⟨hw, ?_⟩
  have hk := w.knows t y hy
  rw [hp] at hk
  unfold Knows at hk
  have hw' : (H t).imu = .write := hw
  rw [if_pos hw'] at hk
  obtain ⟨mi, h1, _⟩ := hk (p :: ps.erase p) (perm_front hm)
  exact (List.getElem?_eq_some_iff.1 h1).1

theorem fork_search {cfg : Cfg} {P : DocRequest → Prop} {d : Config} {H : Tid → Held} (i : LockInv d H)
    (w : WholeInv P cfg.tok d H) {t : Tid} {y : Thread} (hy : d.calls[t]? = some y) {ps : List Ptr}
    {terms : Str} {engine : Engine} {k : List SearchResult → FProg Ret}
    (hp : y.prog = (FProg.forkSearch ps terms engine k).flat cfg) {p : Ptr} (hm : p ∈ ps) :
    (H t).imu.shared = true ∧ p < d.sh.heap.length := by
  have hg := i.good t y hy
  rw [hp] at hg
  have hw : (H t).imu.shared = true := good_reads (hg.act (p :: ps.erase p)) rfl
  refine ⟨hw, ?_⟩
  have hk := w.knows t y hy
  rw [hp] at hk
  unfold Knows at hk
  split at hk
  · exact (hk (p :: ps.erase p) (perm_front hm)).elim
  · obtain ⟨n, hn, hk⟩ := hk
    exact Nat.lt_of_lt_of_le (hk (p :: ps.erase p) (perm_front hm)).1 hn

theorem excl_shared {H : Tid → Held} {s : Shared} (k : Link H s) {t u : Tid} (htu : u ≠ t) (ht : (H t).imu = .write)
    (hu : (H u).imu.shared = true) : False := by
  have hr := (k .indices).excl t ht
  cases hm : (H u).imu with
  | none => rw [hm] at hu; cases hu
  | pend => rw [hm] at hu; cases hu
  | read =>
    have := ((k .indices).mem u).2 hm
    rw [hr] at this; cases this
  | write => exact htu (only_writer k (((k .indices).wr t).2 (Or.inr ht)) hm)

/-- Whoever uses an index holds the index mutex, and the index exists. -/
theorem sim_writing {cfg : Cfg} {P : DocRequest → Prop} {c : FConfig} {d : Config} {G : Tid → Ghost} {H : Tid → Held} (sim : Sim cfg c d G)
    (i : LockInv d H) (w : WholeInv P cfg.tok d H) {t : Tid} {q : Ptr} (hq : q ∈ (G t).writing) :
    (H t).imu = .write ∧ q < d.sh.heap.length := by
  rcases Nat.lt_or_ge t c.calls.length with hl | hl
  · obtain ⟨y, hy, _, _, hs⟩ := sim.call t _ (List.getElem?_eq_getElem hl)
    generalize hg : G t = g at hs hq
    generalize hp : y.prog = p at hs
    generalize c.calls[t].st = x at hs
    cases hs with
    | run p => cases hq
    | putting ps doc gs ns k hnd hk h => exact fork_put i w hy hp hq
    | searching ps result rl gs terms engine order k hk h => cases hq
  · rw [sim.fresh t hl] at hq; cases hq

theorem sim_using {cfg : Cfg} {P : DocRequest → Prop} {c : FConfig} {d : Config} {G : Tid → Ghost} {H : Tid → Held} (sim : Sim cfg c d G)
    (i : LockInv d H) (w : WholeInv P cfg.tok d H) {t : Tid} {q : Ptr} (hq : q ∈ (G t).using) :
    (H t).imu.shared = true ∧ q < d.sh.heap.length := by
  rcases Nat.lt_or_ge t c.calls.length with hl | hl
  · obtain ⟨y, hy, _, _, hs⟩ := sim.call t _ (List.getElem?_eq_getElem hl)
    generalize hg : G t = g at hs hq
    generalize hp : y.prog = p at hs
    generalize c.calls[t].st = x at hs
    cases hs with
    | run p => cases hq
    | putting ps doc gs ns k hnd hk h => have := fork_put i w hy hp hq; exact ⟨by rw [this.1]; rfl, this.2⟩
    | searching ps result rl gs terms engine order k hk h => exact fork_search i w hy hp hq
  · rw [sim.fresh t hl] at hq; cases hq

/-- While a call holds the index mutex and is not writing indices itself, the heaps are the same. -/
theorem sim_same {cfg : Cfg} {P : DocRequest → Prop} {c : FConfig} {d : Config} {G : Tid → Ghost} {H : Tid → Held} (sim : Sim cfg c d G)
    (i : LockInv d H) (w : WholeInv P cfg.tok d H) {t : Tid} (ht : (H t).imu.shared = true)
    (hg : (G t).writing = []) : c.sh = d.sh := by
  have hh : c.sh.heap = d.sh.heap := by
    apply List.ext_getElem?
    intro q
    refine sim.heap q fun u hu => ?_
    have hne : u ≠ t := by rintro rfl; rw [hg] at hu; cases hu
    exact excl_shared i.link hne.symm (sim_writing sim i w hu).1 ht
  rw [sim.rest, hh]

/-! ### Steps -/

def setG (G : Tid → Ghost) (t : Tid) (g : Ghost) : Tid → Ghost := fun u => if u = t then g else G u

theorem setG_same (G : Tid → Ghost) (t : Tid) (g : Ghost) : setG G t g t = g := by simp [setG]

theorem setG_other (G : Tid → Ghost) {t u : Tid} (g : Ghost) (hu : u ≠ t) : setG G t g u = G u := by simp [setG, hu]

/-- One call moves on both sides. -/
theorem Sim.set {cfg : Cfg} {s s0 s' s0' : Shared} {calls : List FThread} {calls0 : List Thread} {G : Tid → Ghost}
    (sim : Sim cfg { sh := s, calls := calls } { sh := s0, calls := calls0 } G) {t : Tid} {x : FThread}
    (hx : calls[t]? = some x) {x' : FThread} {y' : Thread} (hop : y'.op = x'.op) (hor : y'.oracle = x'.oracle) {g : Ghost}
    (hs : SimState cfg s' s0' g x'.st y'.prog)
    (hsp : ∀ u, u ≠ t → Spares (G u).using s s' ∧ Spares (G u).using s0 s0')
    (rest : s' = { s0' with heap := s'.heap }) (heapLen : s'.heap.length = s0'.heap.length)
    (heap : ∀ q : Ptr, q ∉ g.writing → (∀ u, u ≠ t → q ∉ (G u).writing) → s'.heap[q]? = s0'.heap[q]?) :
    Sim cfg { sh := s', calls := calls.set t x' } { sh := s0', calls := calls0.set t y' } (setG G t g) := by
  have hlt := (List.getElem?_eq_some_iff.1 hx).1
  have hlt0 : t < calls0.length := Nat.lt_of_lt_of_eq hlt sim.len
  refine ⟨by simpa using sim.len, ?_, ?_, rest, heapLen, ?_⟩
  · intro u z hz
    simp only at hz ⊢
    by_cases hut : u = t
    · subst hut
      rw [List.getElem?_set_self hlt] at hz
      cases hz
      exact ⟨y', List.getElem?_set_self hlt0, hop, hor, by rw [setG_same]; exact hs⟩
    · rw [List.getElem?_set_ne (Ne.symm hut)] at hz
      obtain ⟨y, h1, h2, h3, h4⟩ := sim.call u z hz
      refine ⟨y, by rw [List.getElem?_set_ne (Ne.symm hut)]; exact h1, h2, h3, ?_⟩
      rw [setG_other _ _ hut]
      exact h4.frame (hsp u hut).1 (hsp u hut).2
  · intro u hu
    simp only [List.length_set] at hu
    rw [setG_other _ _ (by intro h; subst h; omega)]
    exact sim.fresh u hu
  · intro q hq
    refine heap q (by have := hq t; rwa [setG_same] at this) fun u hut => ?_
    have := hq u
    rwa [setG_other _ _ hut] at this

theorem spares_refl (ps : List Ptr) (s : Shared) : Spares ps s s := fun _ _ => rfl

theorem spares_heap {ps : List Ptr} {s s' : Shared} (h : s'.heap = s.heap) : Spares ps s s' := fun _ _ => by rw [h]

theorem sim_act {cfg : Cfg} {s s' s0 : Shared} {calls : List FThread} {calls0 : List Thread} {G : Tid → Ghost}
    (sim : Sim cfg { sh := s, calls := calls } { sh := s0, calls := calls0 } G) {H : Tid → Held}
    (i : LockInv { sh := s0, calls := calls0 } H) (w : WholeInv (fun _ => True) cfg.tok { sh := s0, calls := calls0 } H)
    {t : Tid} {op : Op} {o : Oracle} {β : Type} {a : Act β} {k : β → FProg Ret} {b : β}
    (h : calls[t]? = some { op := op, oracle := o, st := .run (.act a k) }) (he : exec cfg o t a s = .ok b s') :
    ∃ d' G', NStep cfg { sh := s0, calls := calls0 } d' ∧
      Sim cfg { sh := s', calls := calls.set t { op := op, oracle := o, st := .run (k b) } } d' G' := by
  obtain ⟨y, hy, hop, hor, hst⟩ := sim.call t _ h
  obtain ⟨yop, yo, yp⟩ := y
  simp only at hop hor hst hy
  subst hop hor
  generalize hg : G t = g at hst
  cases hst with
  | run p hp =>
    have hgw : (G t).writing = [] := by rw [hg]; rfl
    by_cases ha : a.onHeap = false
    · have hrest := sim.rest
      simp only at hrest
      rw [hrest, exec_withHeap ha] at he
      cases he0 : exec cfg yo t a s0 with
      | blocked => rw [he0] at he; cases he
      | crash e => rw [he0] at he; cases he
      | ok b' s0' =>
        rw [he0] at he
        simp only [Exec.withHeap, Exec.ok.injEq] at he
        obtain ⟨rfl, rfl⟩ := he
        have hh := exec_sameHeap ha he0
        refine ⟨_, _, .step (.move t (.act hy he0)), sim.set h (g := .seq) rfl rfl (.run _ (hp b')) ?_ rfl ?_ ?_⟩
        · intro u _
          exact ⟨spares_heap rfl, spares_heap hh⟩
        · simp only [hh]; exact sim.heapLen
        · intro q _ hq
          simp only [hh]
          refine sim.heap q fun u => ?_
          by_cases hut : u = t
          · subst hut; rw [hgw]; simp
          · exact hq u hut
    · have hgood := i.good t _ hy
      have hsh : (H t).imu.shared = true := by
        cases a <;> first | exact absurd rfl ha | skip
        · rw [good_writes hgood rfl]; rfl
        · rw [good_writes hgood rfl]; rfl
        · rw [good_writes hgood rfl]; rfl
        · exact good_reads hgood rfl
        · exact good_reads hgood rfl
      have hsame := sim_same sim i w hsh hgw
      simp only at hsame
      subst hsame
      have hspare : ∀ u, u ≠ t → Spares (G u).using s s' := by
        intro u hut q hq
        by_cases hw : a.writes = some .indices
        · exact (excl_shared i.link hut (good_writes hgood hw) (sim_using sim i w hq).1).elim
        · cases a <;> first | exact absurd rfl ha | exact absurd rfl hw | skip
          all_goals simp only [exec] at he
          all_goals split at he
          all_goals first | (injection he with _ he; subst he; rfl) | simp at he
      refine ⟨_, _, .step (.move t (.act hy he)), sim.set h (g := .seq) rfl rfl (.run _ (hp b)) ?_ rfl rfl ?_⟩
      · intro u hut
        exact ⟨hspare u hut, hspare u hut⟩
      · intro q _ _; rfl

theorem sim_crash {cfg : Cfg} {s s0 : Shared} {calls : List FThread} {calls0 : List Thread} {G : Tid → Ghost}
    (sim : Sim cfg { sh := s, calls := calls } { sh := s0, calls := calls0 } G) {H : Tid → Held}
    (i : LockInv { sh := s0, calls := calls0 } H) (w : WholeInv (fun _ => True) cfg.tok { sh := s0, calls := calls0 } H)
    {t : Tid} {op : Op} {o : Oracle} {β : Type} {a : Act β} {k : β → FProg Ret} {e : Crash}
    (h : calls[t]? = some { op := op, oracle := o, st := .run (.act a k) }) (he : exec cfg o t a s = .crash e) :
    ∃ d' G', NStep cfg { sh := s0, calls := calls0 } d' ∧
      Sim cfg { sh := s, calls := calls.set t { op := op, oracle := o, st := .run (.crash e) } } d' G' := by
  obtain ⟨y, hy, hop, hor, hst⟩ := sim.call t _ h
  obtain ⟨yop, yo, yp⟩ := y
  simp only at hop hor hst hy
  subst hop hor
  generalize hg : G t = g at hst
  cases hst with
  | run p hp =>
    have hgw : (G t).writing = [] := by rw [hg]; rfl
    have he0 : exec cfg yo t a s0 = .crash e := by
      by_cases ha : a.onHeap = false
      · have hrest := sim.rest
        simp only at hrest
        rw [hrest, exec_withHeap ha] at he
        cases he0 : exec cfg yo t a s0 with
        | blocked => rw [he0] at he; cases he
        | ok b s' => rw [he0] at he; cases he
        | crash e' => rw [he0] at he; cases he; rfl
      · have hgood := i.good t _ hy
        have hsh : (H t).imu.shared = true := by
          cases a <;> first | exact absurd rfl ha | skip
          · rw [good_writes hgood rfl]; rfl
          · rw [good_writes hgood rfl]; rfl
          · rw [good_writes hgood rfl]; rfl
          · exact good_reads hgood rfl
          · exact good_reads hgood rfl
        have hsame := sim_same sim i w hsh hgw
        simp only at hsame
        rw [← hsame]; exact he
    refine ⟨_, _, .step (.move t (.crash hy he0)), sim.set h (g := .seq) rfl rfl (.run _ trivial) ?_ sim.rest sim.heapLen ?_⟩
    · exact fun u _ => ⟨spares_refl _ _, spares_refl _ _⟩
    · intro q _ hq
      refine sim.heap q fun u => ?_
      by_cases hut : u = t
      · subst hut; rw [hgw]; simp
      · exact hq u hut

/-- Same shared states, only the state of call `t` changes. -/
theorem Sim.set_still {cfg : Cfg} {s s0 : Shared} {calls : List FThread} {calls0 : List Thread} {G : Tid → Ghost}
    (sim : Sim cfg { sh := s, calls := calls } { sh := s0, calls := calls0 } G) {t : Tid} {x : FThread}
    (hx : calls[t]? = some x) {x' : FThread} {y' : Thread} (hop : y'.op = x'.op) (hor : y'.oracle = x'.oracle) {g : Ghost}
    (hs : SimState cfg s s0 g x'.st y'.prog) (hw : ∀ q, q ∈ (G t).writing → q ∈ g.writing) :
    Sim cfg { sh := s, calls := calls.set t x' } { sh := s0, calls := calls0.set t y' } (setG G t g) := by
  refine sim.set hx hop hor hs (fun u _ => ⟨spares_refl _ _, spares_refl _ _⟩) sim.rest sim.heapLen ?_
  intro q h1 h2
  refine sim.heap q fun u hu => ?_
  by_cases hut : u = t
  · subst hut; exact h1 (hw q hu)
  · exact h2 u hut hu

theorem set_same' {α : Type _} {l : List α} {i : Nat} {x : α} (h : l[i]? = some x) : l.set i x = l := by
  obtain ⟨hlt, he⟩ := List.getElem?_eq_some_iff.1 h
  rw [← he]; exact List.set_getElem_self hlt

section
variable {cfg : Cfg} {s s0 : Shared} {calls : List FThread} {calls0 : List Thread} {G : Tid → Ghost}
  {H : Tid → Held} {t : Tid} {op : Op} {o : Oracle}

theorem sim_forkPut (sim : Sim cfg { sh := s, calls := calls } { sh := s0, calls := calls0 } G)
    (i : LockInv { sh := s0, calls := calls0 } H) (w : WholeInv (fun _ => True) cfg.tok { sh := s0, calls := calls0 } H)
    {ps : List Ptr} {doc : DocRequest} {k : FProg Ret}
    (h : calls[t]? = some { op := op, oracle := o, st := .run (.forkPut ps doc k) }) :
    ∃ G', Sim cfg { sh := s, calls := calls.set t { op := op, oracle := o, st := .putting (putPool cfg doc s ps).gs k } }
      { sh := s0, calls := calls0 } G' := by
  obtain ⟨y, hy, hop, hor, hst⟩ := sim.call t _ h
  simp only at hop hor hst hy
  generalize hg : G t = g at hst
  generalize hp : y.prog = p at hst
  cases hst with
  | run p hd =>
    have hgw : (G t).writing = [] := by rw [hg]; rfl
    rw [← set_same' hy]
    refine ⟨_, sim.set_still h (g := .put ps doc) hop hor ?_ (by rw [hgw]; simp)⟩
    rw [hp]
    have hinit := pool_init (cfg := cfg) (doc := doc) (s := s0) (ps := ps) fun q hq => (fork_put i w hy hp hq).2
    refine (SimState.putting ps doc (putPool cfg doc s0 ps).gs _ k hd.1 hd.2 hinit).frame ?_ (spares_refl _ _)
    intro q hq
    have hsame := sim_same sim i w (t := t) (by rw [(fork_put i w hy hp hq).1]; rfl) hgw
    simp only at hsame
    rw [hsame]

theorem sim_forkSearch (sim : Sim cfg { sh := s, calls := calls } { sh := s0, calls := calls0 } G)
    (i : LockInv { sh := s0, calls := calls0 } H) (w : WholeInv (fun _ => True) cfg.tok { sh := s0, calls := calls0 } H)
    {ps : List Ptr} {terms : Str} {engine : Engine} {k : List SearchResult → FProg Ret}
    (h : calls[t]? = some { op := op, oracle := o, st := .run (.forkSearch ps terms engine k) }) :
    ∃ G', Sim cfg
      { sh := s, calls := calls.set t
          { op := op, oracle := o, st := .searching [] none (searchPool s ps).gs terms engine k } }
      { sh := s0, calls := calls0 } G' := by
  obtain ⟨y, hy, hop, hor, hst⟩ := sim.call t _ h
  simp only at hop hor hst hy
  generalize hg : G t = g at hst
  generalize hp : y.prog = p at hst
  cases hst with
  | run p hd =>
    have hgw : (G t).writing = [] := by rw [hg]; rfl
    rw [← set_same' hy]
    refine ⟨_, sim.set_still h (g := .search ps) hop hor ?_ (by rw [hgw]; simp)⟩
    rw [hp]
    have hinit := search_init cfg terms engine s0 ps
    refine (SimState.searching ps [] none (searchPool s0 ps).gs terms engine [] k hd hinit).frame ?_ (spares_refl _ _)
    intro q hq
    have hsame := sim_same sim i w (fork_search i w hy hp hq).1 hgw
    simp only at hsame
    rw [hsame]

theorem sim_put (sim : Sim cfg { sh := s, calls := calls } { sh := s0, calls := calls0 } G)
    (i : LockInv { sh := s0, calls := calls0 } H) (w : WholeInv (fun _ => True) cfg.tok { sh := s0, calls := calls0 } H)
    {gs gs' : List (Prog Unit)} {k : FProg Ret} {s' : Shared}
    (h : calls[t]? = some { op := op, oracle := o, st := .putting gs k })
    (hs : PoolStep cfg o t (fun _ _ => False) { sh := s, gs := gs } { sh := s', gs := gs' }) :
    ∃ G', Sim cfg { sh := s', calls := calls.set t { op := op, oracle := o, st := .putting gs' k } }
      { sh := s0, calls := calls0 } G' := by
  obtain ⟨y, hy, hop, hor, hst⟩ := sim.call t _ h
  simp only at hop hor hst hy
  generalize hg : G t = g at hst
  generalize hp : y.prog = p at hst
  cases hst with
  | putting ps doc gs ns k hnd hk hinv =>
    rcases pool_step hnd (fun _ _ hf => hf.elim) hinv hs with ⟨_, hf, _⟩ | ⟨j, p, mi, n, hj, he, hn, hinv'⟩
    · exact hf.elim
    · simp only at he
      have hpm := List.mem_of_getElem? hj
      have hw := fork_put i w hy hp hpm
      rw [← set_same' hy]
      refine ⟨_, sim.set h (g := .put ps doc) hop hor ?_ ?_ ?_ ?_ ?_⟩
      · rw [hp]; exact .putting ps doc gs' _ k hnd hk hinv'
      · intro u hut
        refine ⟨?_, spares_refl _ _⟩
        intro q hq
        exact (excl_shared i.link hut hw.1 (sim_using sim i w hq).1).elim
      · have := sim.rest
        simp only at this
        rw [he, this]
      · rw [he, List.length_set]; exact sim.heapLen
      · intro q h1 h2
        rw [he, List.getElem?_set_ne (by rintro rfl; exact h1 hpm)]
        refine sim.heap q fun u => ?_
        by_cases hut : u = t
        · subst hut; rw [hg]; exact h1
        · exact h2 u hut

theorem sim_putPanic (sim : Sim cfg { sh := s, calls := calls } { sh := s0, calls := calls0 } G)
    {gs : List (Prog Unit)} {k : FProg Ret} {e : Crash}
    (h : calls[t]? = some { op := op, oracle := o, st := .putting gs k }) (he : .crash e ∈ gs) : False := by
  obtain ⟨y, hy, hop, hor, hst⟩ := sim.call t _ h
  simp only at hop hor hst hy
  generalize hg : G t = g at hst
  generalize hp : y.prog = p at hst
  cases hst with
  | putting ps doc gs ns k hnd hk hinv =>
    obtain ⟨j, hj, hje⟩ := List.mem_iff_getElem.1 he
    have hl : j < ps.length := Nat.lt_of_lt_of_eq hj hinv.len
    have hl' : j < ns.length := by rw [hinv.nlen]; exact hl
    obtain ⟨mi, mi', e1, e2, hga⟩ := hinv.at_ j _ _ _ (List.getElem?_eq_getElem hl)
      (by rw [List.getElem?_eq_getElem hj, hje]) (List.getElem?_eq_getElem hl')
    rcases hga.act (o := o) (t := t) s e2 with ⟨e, _⟩ | ⟨_, _, _, _, _, _, e, _⟩ <;> cases e

theorem sim_putJoin (sim : Sim cfg { sh := s, calls := calls } { sh := s0, calls := calls0 } G)
    (i : LockInv { sh := s0, calls := calls0 } H) (w : WholeInv (fun _ => True) cfg.tok { sh := s0, calls := calls0 } H)
    {gs : List (Prog Unit)} {k : FProg Ret}
    (h : calls[t]? = some { op := op, oracle := o, st := .putting gs k }) (hd : Pool.done { sh := s, gs := gs }) :
    ∃ d' G', NSteps cfg { sh := s0, calls := calls0 } d' ∧
      Sim cfg { sh := s, calls := calls.set t { op := op, oracle := o, st := .run k } } d' G' := by
  obtain ⟨y, hy, hop, hor, hst⟩ := sim.call t _ h
  obtain ⟨yop, yo, yp⟩ := y
  simp only at hop hor hst hy
  subst hop hor
  generalize hg : G t = g at hst
  generalize hp : yp = p at hst
  cases hst with
  | putting ps doc gs ns k hnd hk hinv =>
    have hlt0 := (List.getElem?_eq_some_iff.1 hy).1
    have hin : ∀ q ∈ ps, q < s0.heap.length := fun q hq => (fork_put i w hy hp hq).2
    obtain ⟨Hp, hrun, hlen, hget⟩ := run_putAll (cfg := cfg) (o := yo) (t := t) doc ps s0 hnd hin
    subst hp
    have h1 : NSteps cfg { sh := s0, calls := calls0 }
      { sh := s0, calls := calls0.set t
          { op := yop, oracle := yo, prog := (Repo.putAll cfg doc ps).bind fun _ => k.flat cfg } } :=
      .tail (.refl _) (.sched hy (List.Perm.refl ps))
    refine ⟨_, _, h1.trans (run_nsteps hlt0 hrun), sim.set h (g := .seq) rfl rfl (.run k hk) ?_ ?_ ?_ ?_⟩
    · intro u hut
      refine ⟨spares_refl _ _, ?_⟩
      intro q hq
      show Hp[q]? = _
      rw [hget]
      split
      · next hm =>
        exact (excl_shared i.link hut (fork_put i w hy rfl hm).1 (sim_using sim i w hq).1).elim
      · rfl
    · have := sim.rest
      simp only at this
      rw [this]
    · show s.heap.length = Hp.length
      rw [hlen]; exact sim.heapLen
    · intro q _ hq
      show s.heap[q]? = Hp[q]?
      rw [hget]
      split
      · next hm =>
        obtain ⟨j, hj, rfl⟩ := List.mem_iff_getElem.1 hm
        have hjg : j < gs.length := by have := hinv.len; simp only at this; omega
        have hjn : j < ns.length := by rw [hinv.nlen]; exact hj
        obtain ⟨mi, mi', e1, e2, hga⟩ := hinv.at_ j _ _ _ (List.getElem?_eq_getElem hj) (List.getElem?_eq_getElem hjg)
          (List.getElem?_eq_getElem hjn)
        rcases hga.act (o := yo) (t := t) s e2 with ⟨_, _, e3⟩ | ⟨_, _, _, _, _, _, e, _⟩
        · rw [e1, Option.map_some, ← e3]; exact e2
        · have := hd _ (List.getElem_mem hjg)
          rw [this] at e; cases e
      · next hm =>
        refine sim.heap q fun u => ?_
        by_cases hut : u = t
        · subst hut; rw [hg]; exact hm
        · exact hq u hut

theorem sim_search (sim : Sim cfg { sh := s, calls := calls } { sh := s0, calls := calls0 } G)
    {result result' : List SearchResult} {rl rl' : Option Nat}
    {gs gs' : List Searcher} {terms : Str} {engine : Engine} {k : List SearchResult → FProg Ret}
    (h : calls[t]? = some { op := op, oracle := o, st := .searching result rl gs terms engine k })
    (hs : SearchPoolStep cfg terms engine (fun _ _ => False) { sh := s, result := result, rl := rl, gs := gs }
        { sh := s, result := result', rl := rl', gs := gs' }) :
    ∃ G', Sim cfg
      { sh := s, calls := calls.set t
          { op := op, oracle := o, st := .searching result' rl' gs' terms engine k } }
      { sh := s0, calls := calls0 } G' := by
  obtain ⟨y, hy, hop, hor, hst⟩ := sim.call t _ h
  simp only at hop hor hst hy
  generalize hg : G t = g at hst
  generalize hp : y.prog = p at hst
  cases hst with
  | searching ps result rl gs terms engine order k hk hinv =>
    obtain ⟨order', hinv'⟩ := search_step (fun _ _ hf => hf.elim) hinv hs
    rw [← set_same' hy]
    refine ⟨_, sim.set_still h (g := .search ps) hop hor ?_ (by rw [hg]; simp [Ghost.writing])⟩
    rw [hp]
    exact .searching ps result' rl' gs' terms engine order' k hk hinv'

theorem sim_searchPanic (sim : Sim cfg { sh := s, calls := calls } { sh := s0, calls := calls0 } G)
    {result : List SearchResult} {rl : Option Nat}
    {gs : List Searcher} {terms : Str} {engine : Engine} {k : List SearchResult → FProg Ret}
    (h : calls[t]? = some { op := op, oracle := o, st := .searching result rl gs terms engine k })
    (he : Searcher.panicked ∈ gs) :
    ∃ d' G', NSteps cfg { sh := s0, calls := calls0 } d' ∧
      Sim cfg { sh := s, calls := calls.set t { op := op, oracle := o, st := .run (.crash .engine) } } d' G' := by
  obtain ⟨y, hy, hop, hor, hst⟩ := sim.call t _ h
  obtain ⟨yop, yo, yp⟩ := y
  simp only at hop hor hst hy
  subst hop hor
  generalize hg : G t = g at hst
  generalize hp : yp = p at hst
  cases hst with
  | searching ps result rl gs terms engine order k hk hinv =>
    subst hp
    have hlt0 := (List.getElem?_eq_some_iff.1 hy).1
    obtain ⟨j, hj, hje⟩ := List.mem_iff_getElem.1 he
    obtain ⟨p, h1, h2, h3⟩ := hinv.panicked j (by simp only; rw [List.getElem?_eq_getElem hj, hje])
    have hpm := List.mem_of_getElem? h1
    have s1 : NSteps cfg { sh := s0, calls := calls0 }
      { sh := s0, calls := calls0.set t
          { op := yop, oracle := yo, prog := (Repo.searchAll terms engine (p :: ps.erase p)).bind fun r => (k r).flat cfg } } :=
      .tail (.refl _) (.sched hy (perm_front hpm))
    have s2 : exec cfg yo t (.evalEngine p terms engine) s0 = .ok none s0 := by
      cases hm : s0.heap[p]? with
      | none => rw [hm] at h2; cases h2
      | some mi =>
        simp only [partOf, hm, Option.bind_some] at h3
        simp only [exec, hm, h3]
    have s3 := TStep.act (cfg := cfg) (t := t) (s := s0) (op := yop) (o := yo) (a := .evalEngine p terms engine)
      (calls := calls0.set t { op := yop, oracle := yo, prog :=
        (Repo.searchAll terms engine (p :: ps.erase p)).bind fun r => (k r).flat cfg })
      (List.getElem?_set_self hlt0) s2
    rw [List.set_set] at s3
    refine ⟨_, _, s1.tail (.step (.move t s3)), sim.set_still h (g := .seq) rfl rfl ?_ (by rw [hg]; simp [Ghost.writing])⟩
    exact .run (.crash .engine) trivial

theorem sim_searchJoin (sim : Sim cfg { sh := s, calls := calls } { sh := s0, calls := calls0 } G)
    (i : LockInv { sh := s0, calls := calls0 } H) (w : WholeInv (fun _ => True) cfg.tok { sh := s0, calls := calls0 } H)
    {result : List SearchResult} {rl : Option Nat}
    {gs : List Searcher} {terms : Str} {engine : Engine} {k : List SearchResult → FProg Ret}
    (h : calls[t]? = some { op := op, oracle := o, st := .searching result rl gs terms engine k })
    (hd : SearchPool.finished { sh := s, result := result, rl := rl, gs := gs }) :
    ∃ d' G', NSteps cfg { sh := s0, calls := calls0 } d' ∧
      Sim cfg { sh := s, calls := calls.set t { op := op, oracle := o, st := .run (k result) } } d' G' := by
  obtain ⟨y, hy, hop, hor, hst⟩ := sim.call t _ h
  obtain ⟨yop, yo, yp⟩ := y
  simp only at hop hor hst hy
  subst hop hor
  generalize hg : G t = g at hst
  generalize hp : yp = p at hst
  cases hst with
  | searching ps result rl gs terms engine order k hk hinv =>
    subst hp
    have hlt0 := (List.getElem?_eq_some_iff.1 hy).1
    obtain ⟨ps', parts, h1, h2, h3⟩ := search_result hinv hd
    simp only at h3
    have s1 : NSteps cfg { sh := s0, calls := calls0 }
      { sh := s0, calls := calls0.set t
          { op := yop, oracle := yo, prog := (Repo.searchAll terms engine ps').bind fun r => (k r).flat cfg } } :=
      .tail (.refl _) (.sched hy h1)
    have hrun : run cfg yo t (Repo.searchAll terms engine ps') s0 = .ok result s0 := by
      rw [run_searchAll terms engine ps' s0 fun q hq => (fork_search i w hy rfl (h1.mem_iff.1 hq)).2]
      have : sequence (ps'.map fun p => (s0.heap[p]?).bind fun mi => mi.search cfg.cp cfg.tok terms engine)
          = some parts := (sequence_eq_some _ _).2 h2
      rw [this, h3]
    refine ⟨_, _, s1.trans (run_nsteps hlt0 hrun), sim.set_still h (g := .seq) rfl rfl ?_ (by rw [hg]; simp [Ghost.writing])⟩
    exact .run (k result) (hk result)

end

/-- Every step with interleaved goroutines is matched. -/
theorem sim_step {cfg : Cfg} {c c' : FConfig} {d : Config} {G : Tid → Ghost} (sim : Sim cfg c d G)
    (hd : NSteps cfg Config.init d) (hs : FStep cfg c c') :
    ∃ d' G', NSteps cfg d d' ∧ Sim cfg c' d' G' := by
  obtain ⟨H, i, w⟩ := nsteps_inv hd
  obtain ⟨s0, calls0⟩ := d
  cases hs with
  | invoke op o =>
    obtain ⟨s, calls⟩ := c
    refine ⟨_, G, (NSteps.refl _).tail (.step (.invoke _ op o)), by simpa using sim.len, ?_, ?_, sim.rest, sim.heapLen, sim.heap⟩
    · intro t x hx
      simp only at hx ⊢
      have hlen : calls.length = calls0.length := sim.len
      rcases Nat.lt_or_ge t calls.length with hl | hl
      · rw [List.getElem?_append_left hl] at hx
        rw [List.getElem?_append_left (by omega)]
        exact sim.call t x hx
      · rw [List.getElem?_append_right hl] at hx
        rw [List.getElem?_append_right (by omega), ← hlen]
        cases hi : t - calls.length with
        | zero =>
          rw [hi] at hx; cases hx
          refine ⟨_, rfl, rfl, rfl, ?_⟩
          rw [sim.fresh t hl]
          have := SimState.run (cfg := cfg) (s := s) (s0 := s0) (op.fine cfg) (distinct_op cfg op)
          rw [flat_op] at this
          exact this
        | succ n => rw [hi] at hx; cases hx
    · intro t ht
      simp only [List.length_append, List.length_singleton] at ht
      exact sim.fresh t (Nat.le_of_succ_le ht)
  | move t h =>
    cases h with
    | act h he => obtain ⟨d', G', h1, h2⟩ := sim_act sim i w h he; exact ⟨d', G', (NSteps.refl _).tail h1, h2⟩
    | crash h he => obtain ⟨d', G', h1, h2⟩ := sim_crash sim i w h he; exact ⟨d', G', (NSteps.refl _).tail h1, h2⟩
    | forkPut h => obtain ⟨G', h2⟩ := sim_forkPut sim i w h; exact ⟨_, G', .refl _, h2⟩
    | put h hs => obtain ⟨G', h2⟩ := sim_put sim i w h hs; exact ⟨_, G', .refl _, h2⟩
    | putPanic h he => exact (sim_putPanic sim h he).elim
    | putJoin h hj => obtain ⟨d', G', h1, h2⟩ := sim_putJoin sim i w h hj; exact ⟨d', G', h1, h2⟩
    | forkSearch h => obtain ⟨G', h2⟩ := sim_forkSearch sim i w h; exact ⟨_, G', .refl _, h2⟩
    | search h hs => obtain ⟨G', h2⟩ := sim_search sim h hs; exact ⟨_, G', .refl _, h2⟩
    | searchPanic h he => obtain ⟨d', G', h1, h2⟩ := sim_searchPanic sim h he; exact ⟨d', G', h1, h2⟩
    | searchJoin h hj => obtain ⟨d', G', h1, h2⟩ := sim_searchJoin sim i w h hj; exact ⟨d', G', h1, h2⟩

theorem sim_steps {cfg : Cfg} {c c' : FConfig} {d : Config} {G : Tid → Ghost} (sim : Sim cfg c d G)
    (hd : NSteps cfg Config.init d) (hs : FSteps cfg c c') : ∃ d' G', NSteps cfg d d' ∧ Sim cfg c' d' G' := by
  induction hs with
  | refl => exact ⟨d, G, .refl _, sim⟩
  | tail _ hs ih =>
    obtain ⟨d1, G1, h1, sim1⟩ := ih
    obtain ⟨d2, G2, h2, sim2⟩ := sim_step sim1 (hd.trans h1) hs
    exact ⟨d2, G2, h1.trans h2, sim2⟩

theorem sim_init {cfg : Cfg} : Sim cfg FConfig.init Config.init fun _ => .seq := by
  refine ⟨rfl, ?_, fun _ _ => rfl, rfl, rfl, fun _ _ => rfl⟩
  intro t x hx; simp [FConfig.init] at hx

theorem sim_reachable {cfg : Cfg} {c : FConfig} (h : FineReachable cfg c) :
    ∃ d G, NSteps cfg Config.init d ∧ Sim cfg c d G := sim_steps sim_init (.refl _) h

end Visigoth
