import Verif.Spec.Fair
import Verif.Proofs.Progress
import Verif.Proofs.FineProps
/-!
# Nobody waits forever

The argument is made for any endless history of calls that take the two mutexes in order
(`LockHistory`), and then applied to both granularities.
-/
namespace Visigoth

/-- What a call is about to do, as far as waiting is concerned. -/
inductive Want where
  | absent
  | over
  | lock (m : Mu)
  | acquire (m : Mu)
  | free

/-- An endless fair history of calls that take the index mutex before the alias mutex. -/
structure LockHistory (L : Nat → Mu → RW) (want : Nat → Tid → Want) (mv : Nat → Tid → Prop)
    (can : Nat → Tid → Prop) : Prop where
  settle : ∀ t, ∃ n, ∀ i, n ≤ i → ¬ mv i t
  same : ∀ i t, ¬ mv i t → want i t ≠ .absent → want (i + 1) t = want i t
  rd : ∀ i t m, ¬ mv i t → (t ∈ (L (i + 1) m).readers ↔ t ∈ (L i m).readers)
  wr : ∀ i t m, ¬ mv i t → ((L (i + 1) m).writer = some t ↔ (L i m).writer = some t)
  change : ∀ i m v, (L i m).writer = some v → (L (i + 1) m).writer = none ∨ (L (i + 1) m).writer = some v
  shut : ∀ i m u, (L i m).writer ≠ none → u ∈ (L (i + 1) m).readers → u ∈ (L i m).readers
  free : ∀ i t, want i t = .free → can i t
  lock : ∀ i t m, want i t = .lock m → (L i m).writer = none → can i t
  acquire : ∀ i t m, want i t = .acquire m → (L i m).readers = [] → can i t
  runs : ∀ i t m, t ∈ (L i m).readers ∨ (L i m).writer = some t → (want i t ≠ .absent ∧ want i t ≠ .over) ∨
    (m = .indices ∧ ∀ j, (L j .indices).writer = none)
  order : ∀ i t m, want i t = .lock m →
    (∀ m', m' = m ∨ m' = .aliases → t ∉ (L i m').readers ∧ (L i m').writer ≠ some t)
  pend : ∀ i t m, want i t = .acquire m → (L i m).writer = some t ∧ t ∉ (L i m).readers ∧
    (m = .indices → t ∉ (L i .aliases).readers ∧ (L i .aliases).writer ≠ some t)
  scheduler : ∀ t n, (∀ i, n ≤ i → can i t) → ∃ i, n ≤ i ∧ mv i t
  mutex : ∀ t n, (∀ i, n ≤ i → ∃ m, want i t = .lock m) → (∀ k, ∃ i, k ≤ i ∧ can i t) → ∃ i, n ≤ i ∧ mv i t

section
variable {L : Nat → Mu → RW} {want : Nat → Tid → Want} {mv : Nat → Tid → Prop} {can : Nat → Tid → Prop}

/-- `t` does not move from `n` on. -/
def Still (mv : Nat → Tid → Prop) (t : Tid) (n : Nat) : Prop := ∀ i, n ≤ i → ¬ mv i t

theorem Still.later {t : Tid} {n k : Nat} (h : Still mv t n) (hk : n ≤ k) : Still mv t k :=
  fun i hi => h i (Nat.le_trans hk hi)

theorem still_list (lh : LockHistory L want mv can) (l : List Tid) : ∃ n, ∀ t ∈ l, Still mv t n := by
  induction l with
  | nil => exact ⟨0, fun t h => nomatch h⟩
  | cons u us ih =>
    obtain ⟨n, hn⟩ := ih
    obtain ⟨k, hk⟩ := lh.settle u
    refine ⟨max n k, fun t ht => ?_⟩
    rcases List.mem_cons.1 ht with h | h
    · subst h; exact Still.later hk (Nat.le_max_right ..)
    · exact (hn t h).later (Nat.le_max_left ..)

theorem still_want (lh : LockHistory L want mv can) {t : Tid} {n : Nat} (h : Still mv t n) (hw : want n t ≠ .absent) :
    ∀ i, n ≤ i → want i t = want n t := by
  intro i hi
  induction hi with
  | refl => rfl
  | @step i hi ih => rw [lh.same i t (h i hi) (by rw [ih]; exact hw), ih]

theorem still_rd (lh : LockHistory L want mv can) {t : Tid} {n : Nat} (h : Still mv t n) (m : Mu) :
    ∀ i, n ≤ i → (t ∈ (L i m).readers ↔ t ∈ (L n m).readers) := by
  intro i hi
  induction hi with
  | refl => rfl
  | @step i hi ih => rw [lh.rd i t m (h i hi), ih]

theorem still_wr (lh : LockHistory L want mv can) {t : Tid} {n : Nat} (h : Still mv t n) (m : Mu) :
    ∀ i, n ≤ i → ((L i m).writer = some t ↔ (L n m).writer = some t) := by
  intro i hi
  induction hi with
  | refl => rfl
  | @step i hi ih => rw [lh.wr i t m (h i hi), ih]

/-- A call at rest cannot be one that can always move. -/
theorem still_not_can (lh : LockHistory L want mv can) {t : Tid} {n : Nat} (h : Still mv t n) :
    ¬ ∀ i, n ≤ i → can i t := fun hc => by
  obtain ⟨i, hi, hm⟩ := lh.scheduler t n hc
  exact h i hi hm

/-- A call at rest that is not over waits for a mutex. -/
theorem still_waits (lh : LockHistory L want mv can) {t : Tid} {n : Nat} (h : Still mv t n) (ha : want n t ≠ .absent)
    (ho : want n t ≠ .over) : (∃ m, want n t = .lock m) ∨ ∃ m, want n t = .acquire m := by
  cases hw : want n t with
  | absent => exact absurd hw ha
  | over => exact absurd hw ho
  | lock m => exact Or.inl ⟨m, rfl⟩
  | acquire m => exact Or.inr ⟨m, rfl⟩
  | free => exact absurd (fun i hi => lh.free i t (by rw [still_want lh h ha i hi, hw])) (still_not_can lh h)

/-- If no call at rest reads `m`, no call at rest waits for the readers of `m`. -/
theorem no_acquire (lh : LockHistory L want mv can) {m : Mu} (hr : ∀ u n, Still mv u n → u ∉ (L n m).readers)
    {t : Tid} {n : Nat} (h : Still mv t n) : want n t ≠ .acquire m := by
  intro hw
  have ha : want n t ≠ .absent := by rw [hw]; simp
  have hall := still_want lh h ha
  have hwr := ((lh.pend n t m hw)).1
  have hsub : ∀ i, n ≤ i → ∀ u, u ∈ (L i m).readers → u ∈ (L n m).readers := by
    intro i hi
    induction hi with
    | refl => exact fun u hu => hu
    | @step i hi ih =>
      intro u hu
      exact ih u (lh.shut i m u (by rw [(still_wr lh h m i hi).2 hwr]; simp) hu)
  obtain ⟨k, hk⟩ := still_list lh (L n m).readers
  have hempty : ∀ i, max n k ≤ i → (L i m).readers = [] := by
    intro i hi
    cases hl : (L i m).readers with
    | nil => rfl
    | cons u us =>
      have hu : u ∈ (L i m).readers := by rw [hl]; simp
      have := hsub i (by omega) u hu
      exact absurd hu (hr u i ((hk u this).later (by omega)))
  refine still_not_can lh (h.later (Nat.le_max_left n k)) fun i hi => ?_
  exact lh.acquire i t m (by rw [hall i (by omega), hw]) (hempty i hi)

/-- If no call at rest is the writer of `m`, no call at rest waits to take `m`. -/
theorem no_lock (lh : LockHistory L want mv can) {m : Mu} (hr : ∀ u n, Still mv u n → (L n m).writer ≠ some u)
    {t : Tid} {n : Nat} (h : Still mv t n) : want n t ≠ .lock m := by
  intro hw
  have ha : want n t ≠ .absent := by rw [hw]; simp
  have hall := still_want lh h ha
  have hno : ¬ ∀ k, ∃ i, k ≤ i ∧ can i t := fun hc => by
    obtain ⟨i, hi, hm⟩ := lh.mutex t n (fun i hi => ⟨m, by rw [hall i hi, hw]⟩) hc
    exact h i hi hm
  obtain ⟨k, hk⟩ := Classical.not_forall.1 hno
  have hbusy : ∀ i, max n k ≤ i → (L i m).writer ≠ none := by
    intro i hi hn
    exact hk ⟨i, by omega, lh.lock i t m (by rw [hall i (by omega), hw]) hn⟩
  obtain ⟨v, hv⟩ := Option.ne_none_iff_exists'.1 (hbusy (max n k) (Nat.le_refl _))
  have hconst : ∀ i, max n k ≤ i → (L i m).writer = some v := by
    intro i hi
    induction hi with
    | refl => exact hv
    | @step i hi ih => exact (lh.change i m v ih).resolve_left (hbusy (i + 1) (Nat.le_succ_of_le hi))
  obtain ⟨j, hj⟩ := lh.settle v
  exact hr v (max (max n k) j) (Still.later hj (Nat.le_max_right ..)) (hconst _ (Nat.le_max_left ..))

theorem still_reads_aliases (lh : LockHistory L want mv can) (u : Tid) (n : Nat) (h : Still mv u n) :
    u ∉ (L n .aliases).readers := by
  intro hu
  obtain ⟨ha, ho⟩ := (lh.runs n u .aliases (Or.inl hu)).resolve_right fun h => nomatch h.1
  rcases still_waits lh h ha ho with ⟨m, hm⟩ | ⟨m, hm⟩
  · exact (lh.order n u m hm .aliases (Or.inr rfl)).1 hu
  · have := lh.pend n u m hm
    cases m with
    | indices => exact (this.2.2 rfl).1 hu
    | aliases => exact this.2.1 hu

theorem still_writes_aliases (lh : LockHistory L want mv can) (u : Tid) (n : Nat) (h : Still mv u n) :
    (L n .aliases).writer ≠ some u := by
  intro hu
  obtain ⟨ha, ho⟩ := (lh.runs n u .aliases (Or.inr hu)).resolve_right fun h => nomatch h.1
  rcases still_waits lh h ha ho with ⟨m, hm⟩ | ⟨m, hm⟩
  · exact (lh.order n u m hm .aliases (Or.inr rfl)).2 hu
  · cases m with
    | indices => exact ((lh.pend n u _ hm).2.2 rfl).2 hu
    | aliases => exact no_acquire lh (still_reads_aliases lh) h hm

theorem still_reads_indices (lh : LockHistory L want mv can) (u : Tid) (n : Nat) (h : Still mv u n) :
    u ∉ (L n .indices).readers ∨ ∀ j, (L j .indices).writer = none := by
  refine Classical.or_iff_not_imp_right.2 fun hno hu => ?_
  obtain ⟨ha, ho⟩ := (lh.runs n u .indices (Or.inl hu)).resolve_right fun h => hno h.2
  rcases still_waits lh h ha ho with ⟨m, hm⟩ | ⟨m, hm⟩
  · cases m with
    | indices => exact (lh.order n u _ hm .indices (Or.inl rfl)).1 hu
    | aliases => exact no_lock lh (still_writes_aliases lh) h hm
  · cases m with
    | indices => exact (lh.pend n u _ hm).2.1 hu
    | aliases => exact no_acquire lh (still_reads_aliases lh) h hm

theorem no_acquire_indices (lh : LockHistory L want mv can) {t : Tid} {n : Nat} (h : Still mv t n) :
    want n t ≠ .acquire .indices := by
  by_cases hno : ∀ j, (L j .indices).writer = none
  · intro hw
    have := (lh.pend n t _ hw).1
    rw [hno n] at this
    cases this
  · exact no_acquire lh (fun u n h => (still_reads_indices lh u n h).resolve_right hno) h

theorem still_writes_indices (lh : LockHistory L want mv can) (u : Tid) (n : Nat) (h : Still mv u n) :
    (L n .indices).writer ≠ some u := by
  intro hu
  obtain ⟨ha, ho⟩ := (lh.runs n u .indices (Or.inr hu)).resolve_right fun h => by rw [h.2 n] at hu; cases hu
  rcases still_waits lh h ha ho with ⟨m, hm⟩ | ⟨m, hm⟩
  · cases m with
    | indices => exact (lh.order n u _ hm .indices (Or.inl rfl)).2 hu
    | aliases => exact no_lock lh (still_writes_aliases lh) h hm
  · cases m with
    | indices => exact no_acquire_indices lh h hm
    | aliases => exact no_acquire lh (still_reads_aliases lh) h hm

theorem want_made (lh : LockHistory L want mv can) (abs : ∀ i t, want i t ≠ .absent → want (i + 1) t ≠ .absent)
    {t : Tid} {i : Nat} (h : want i t ≠ .absent) : ∃ j, i ≤ j ∧ want j t = .over := by
  obtain ⟨n, hn⟩ := lh.settle t
  refine ⟨max i n, Nat.le_max_left .., ?_⟩
  have hs : Still mv t (max i n) := Still.later hn (Nat.le_max_right ..)
  have ha : ∀ j, i ≤ j → want j t ≠ .absent := by
    intro j hj
    induction hj with
    | refl => exact h
    | @step j hj ih => exact abs j t ih
  refine Classical.byContradiction fun ho => ?_
  rcases still_waits lh hs (ha _ (Nat.le_max_left ..)) ho with ⟨m, hm⟩ | ⟨m, hm⟩
  · cases m with
    | indices => exact no_lock lh (still_writes_indices lh) hs hm
    | aliases => exact no_lock lh (still_writes_aliases lh) hs hm
  · cases m with
    | indices => exact no_acquire_indices lh hs hm
    | aliases => exact no_acquire lh (still_reads_aliases lh) hs hm

end

/-! ## Calls come to rest -/

/-- A thing that takes finitely many steps comes to rest. -/
theorem comes_to_rest {S : Type _} {R : S → S → Prop} (hR : ∀ x, Acc (fun b a => R a b) x) (g : Nat → Option S)
    (mv : Nat → Prop) (hm : ∀ i, mv i → ∃ x y, g i = some x ∧ g (i + 1) = some y ∧ R x y)
    (hs : ∀ i x, ¬ mv i → g i = some x → g (i + 1) = some x) : ∃ n, ∀ i, n ≤ i → ¬ mv i := by
  have key : ∀ x, ∀ i, g i = some x → ∃ n, ∀ j, n ≤ j → ¬ mv j := by
    intro x
    induction hR x with
    | intro x _ ih =>
      intro i hi
      refine Classical.byContradiction fun hn => ?_
      have stay : ∀ j, i ≤ j → g j = some x := by
        intro j hj
        induction hj with
        | refl => exact hi
        | @step j hj ihj =>
          by_cases h : mv j
          · obtain ⟨x', y, h1, h2, h3⟩ := hm j h
            rw [ihj] at h1; cases h1
            exact absurd (ih y h3 _ h2) hn
          · exact hs j x h ihj
      refine hn ⟨i, fun j hj hmv => ?_⟩
      obtain ⟨x', y, h1, h2, h3⟩ := hm j hmv
      rw [stay j hj] at h1; cases h1
      exact hn (ih y h3 _ h2)
  by_cases h : ∃ i, mv i
  · obtain ⟨i, hi⟩ := h
    obtain ⟨x, _, h1, _, _⟩ := hm i hi
    exact key x i h1
  · exact ⟨0, fun i _ hi => h ⟨i, hi⟩⟩

/-! ## What an action does to the mutexes -/

theorem mu_rd {cfg : Cfg} {o : Oracle} {t u : Tid} {β : Type} {a : Act β} {s s' : Shared} {b : β}
    (he : exec cfg o u a s = .ok b s') (htu : t ≠ u) (m : Mu) :
    t ∈ (s'.mu m).readers ↔ t ∈ (s.mu m).readers := by
  by_cases hl : a.isLock = false
  · have := exec_data_mu hl he
    cases m <;> simp [Shared.mu, this]
  · cases a <;> simp [Act.isLock] at hl <;> simp only [exec] at he <;> repeat' split at he
    all_goals first
      | contradiction
      | (injection he with _ he; subst he
         try rw [mu_setMu]
         try split
         all_goals try subst_vars
         all_goals simp [htu, List.mem_erase_of_ne htu])

theorem mu_wr {cfg : Cfg} {o : Oracle} {t u : Tid} {β : Type} {a : Act β} {s s' : Shared} {b : β}
    (he : exec cfg o u a s = .ok b s') (htu : t ≠ u) (m : Mu) :
    (s'.mu m).writer = some t ↔ (s.mu m).writer = some t := by
  by_cases hl : a.isLock = false
  · have := exec_data_mu hl he
    cases m <;> simp [Shared.mu, this]
  · cases a <;> simp [Act.isLock] at hl <;> simp only [exec] at he <;> repeat' split at he
    all_goals first
      | contradiction
      | (injection he with _ he; subst he
         try rw [mu_setMu]
         try split
         all_goals try subst_vars
         all_goals simp_all [Ne.symm htu])

theorem mu_change {cfg : Cfg} {o : Oracle} {u v : Tid} {β : Type} {a : Act β} {s s' : Shared} {b : β}
    (he : exec cfg o u a s = .ok b s') (m : Mu) (hv : (s.mu m).writer = some v) :
    (s'.mu m).writer = none ∨ (s'.mu m).writer = some v := by
  by_cases hl : a.isLock = false
  · have := exec_data_mu hl he
    cases m <;> simp_all [Shared.mu]
  · cases a <;> simp [Act.isLock] at hl <;> simp only [exec] at he <;> repeat' split at he
    all_goals first
      | contradiction
      | (injection he with _ he; subst he
         try rw [mu_setMu]
         try split
         all_goals try subst_vars
         all_goals simp_all)

theorem mu_shut {cfg : Cfg} {o : Oracle} {t u : Tid} {β : Type} {a : Act β} {s s' : Shared} {b : β}
    (he : exec cfg o u a s = .ok b s') (m : Mu) (hv : (s.mu m).writer ≠ none) (ht : t ∈ (s'.mu m).readers) :
    t ∈ (s.mu m).readers := by
  by_cases hl : a.isLock = false
  · have := exec_data_mu hl he
    cases m <;> simp_all [Shared.mu]
  · cases a <;> simp [Act.isLock] at hl <;> simp only [exec] at he <;> repeat' split at he
    all_goals first
      | contradiction
      | (injection he with _ he; subst he
         try rw [mu_setMu] at ht
         try split at ht
         all_goals try subst_vars
         all_goals first | exact ht | exact List.mem_of_mem_erase ht | simp_all)

/-! ## Calls whose goroutines run one after the other -/

/-- What an action waits for. -/
def Act.want {β : Type} : Act β → Want
  | .rlock m | .announce m => .lock m
  | .acquire m => .acquire m
  | _ => .free

theorem want_lock {β : Type} {a : Act β} {m : Mu} (h : a.want = .lock m) : a.locks = some m := by
  cases a <;> simp [Act.want] at h <;> simp [Act.locks, h]

theorem want_acquire {β : Type} {a : Act β} {m : Mu} (h : a.want = .acquire m) : a.acquires = some m := by
  cases a <;> simp [Act.want] at h <;> simp [Act.acquires, h]

theorem want_not_blocked {cfg : Cfg} {o : Oracle} {t : Tid} {β : Type} {a : Act β} {s : Shared}
    (h : a.want = .free ∨ (∃ m, a.want = .lock m ∧ (s.mu m).writer = none) ∨ ∃ m, a.want = .acquire m ∧ (s.mu m).readers = []) :
    exec cfg o t a s ≠ .blocked := by
  refine not_blocked (fun m hm => ?_) (fun m hm => ?_)
  · have e : a.want = .lock m := by cases a <;> simp [Act.locks] at hm <;> simp [Act.want, hm]
    rw [e] at h
    rcases h with h | ⟨m', h, hw⟩ | ⟨m', h, _⟩
    · cases h
    · cases h; exact hw
    · cases h
  · have e : a.want = .acquire m := by cases a <;> simp [Act.acquires] at hm <;> simp [Act.want, hm]
    rw [e] at h
    rcases h with h | ⟨m', h, _⟩ | ⟨m', h, hr⟩
    · cases h
    · cases h
    · cases h; exact hr

def Prog.want : Prog Ret → Want
  | .act a _ => a.want
  | _ => .over

def Config.want (c : Config) (t : Tid) : Want :=
  match c.calls[t]? with
  | some x => x.prog.want
  | none => .absent

theorem act_want_ne {β : Type} (a : Act β) : a.want ≠ .absent ∧ a.want ≠ .over := by
  cases a <;> simp [Act.want]

theorem tstep_sh {cfg : Cfg} {u : Tid} {c c' : Config} (h : TStep cfg u c c') :
    c'.sh = c.sh ∨ ∃ o, ∃ β, ∃ a : Act β, ∃ b, exec cfg o u a c.sh = .ok b c'.sh := by
  cases h with
  | act h he => exact Or.inr ⟨_, _, _, _, he⟩
  | crash h he => exact Or.inl rfl

theorem tstep_other {cfg : Cfg} {t u : Tid} {c c' : Config} (h : TStep cfg u c c') (htu : t ≠ u) :
    c'.calls[t]? = c.calls[t]? := by
  cases h with
  | act h he => exact List.getElem?_set_ne (Ne.symm htu)
  | crash h he => exact List.getElem?_set_ne (Ne.symm htu)

theorem tstep_prog {cfg : Cfg} {t : Tid} {c c' : Config} (h : TStep cfg t c c') :
    ∃ x y, c.calls[t]? = some x ∧ c'.calls[t]? = some y ∧ ProgStep x.prog y.prog := by
  cases h with
  | act h he => exact ⟨_, _, h, List.getElem?_set_self (List.getElem?_eq_some_iff.1 h).1, .act ..⟩
  | crash h he => exact ⟨_, _, h, List.getElem?_set_self (List.getElem?_eq_some_iff.1 h).1, .crash ..⟩

/-- What a step that `t` does not take leaves alone. -/
theorem step_apart {cfg : Cfg} {t : Tid} {c c' : Config} (h : c' = c ∨ Step cfg c c') (hm : ¬ TStep cfg t c c') :
    (∀ x, c.calls[t]? = some x → c'.calls[t]? = some x) ∧
    (∀ m, (t ∈ (c'.sh.mu m).readers ↔ t ∈ (c.sh.mu m).readers) ∧ ((c'.sh.mu m).writer = some t ↔ (c.sh.mu m).writer = some t)) := by
  rcases h with rfl | h
  · exact ⟨fun x h => h, fun m => ⟨Iff.rfl, Iff.rfl⟩⟩
  · cases h with
    | invoke op o =>
      refine ⟨fun x h => ?_, fun m => ⟨Iff.rfl, Iff.rfl⟩⟩
      simp only
      rw [List.getElem?_append_left (List.getElem?_eq_some_iff.1 h).1]; exact h
    | move u hu =>
      have htu : t ≠ u := by rintro rfl; exact hm hu
      refine ⟨fun x h => by rw [tstep_other hu htu]; exact h, fun m => ?_⟩
      rcases tstep_sh hu with e | ⟨o, β, a, b, he⟩
      · rw [e]; exact ⟨Iff.rfl, Iff.rfl⟩
      · exact ⟨mu_rd he htu m, mu_wr he htu m⟩

theorem step_mutex {cfg : Cfg} {c c' : Config} (h : c' = c ∨ Step cfg c c') (m : Mu) :
    (∀ v, (c.sh.mu m).writer = some v → (c'.sh.mu m).writer = none ∨ (c'.sh.mu m).writer = some v) ∧
    (∀ u, (c.sh.mu m).writer ≠ none → u ∈ (c'.sh.mu m).readers → u ∈ (c.sh.mu m).readers) := by
  rcases h with rfl | h
  · exact ⟨fun v h => Or.inr h, fun u _ h => h⟩
  · cases h with
    | invoke op o => exact ⟨fun v h => Or.inr h, fun u _ h => h⟩
    | move u hu =>
      rcases tstep_sh hu with e | ⟨o, β, a, b, he⟩
      · rw [e]; exact ⟨fun v h => Or.inr h, fun u _ h => h⟩
      · exact ⟨fun v h => mu_change he m h, fun u h1 h2 => mu_shut he m h1 h2⟩

theorem want_some {c : Config} {t : Tid} {w : Want} (h : c.want t = w) (ha : w ≠ .absent) :
    ∃ x, c.calls[t]? = some x ∧ x.prog.want = w := by
  unfold Config.want at h
  cases hx : c.calls[t]? with
  | none => rw [hx] at h; exact absurd h.symm ha
  | some x => rw [hx] at h; exact ⟨x, rfl, h⟩

theorem want_act {c : Config} {t : Tid} {w : Want} (h : c.want t = w) (ha : w ≠ .absent) (ho : w ≠ .over) :
    ∃ op o, ∃ β, ∃ a : Act β, ∃ k, c.calls[t]? = some { op := op, oracle := o, prog := .act a k } ∧ a.want = w := by
  obtain ⟨⟨op, o, p⟩, hx, hw⟩ := want_some h ha
  cases p with
  | ret r => exact absurd hw.symm ho
  | crash e => exact absurd hw.symm ho
  | act a k => exact ⟨op, o, _, a, k, hx, hw⟩

theorem want_can {cfg : Cfg} {c : Config} {t : Tid}
    (h : c.want t = .free ∨ (∃ m, c.want t = .lock m ∧ (c.sh.mu m).writer = none) ∨
      ∃ m, c.want t = .acquire m ∧ (c.sh.mu m).readers = []) : c.canMove cfg t := by
  have hw : c.want t ≠ .absent ∧ c.want t ≠ .over := by
    rcases h with h | ⟨m, h, _⟩ | ⟨m, h, _⟩ <;> rw [h] <;> simp
  obtain ⟨op, o, β, a, k, hx, ha⟩ := want_act rfl hw.1 hw.2
  refine canMove_of hx (want_not_blocked ?_)
  rw [ha]; exact h

/-- What a waiting call holds. -/
theorem want_holds {c : Config} {H : Tid → Held} (i : LockInv c H) {t : Tid} {m : Mu} :
    (c.want t = .lock m → ∀ m', m' = m ∨ m' = .aliases → t ∉ (c.sh.mu m').readers ∧ (c.sh.mu m').writer ≠ some t) ∧
    (c.want t = .acquire m → (c.sh.mu m).writer = some t ∧ t ∉ (c.sh.mu m).readers ∧
      (m = .indices → t ∉ (c.sh.mu .aliases).readers ∧ (c.sh.mu .aliases).writer ≠ some t)) := by
  have free : ∀ m', (H t).get m' = .none → t ∉ (c.sh.mu m').readers ∧ (c.sh.mu m').writer ≠ some t := by
    intro m' h
    refine ⟨fun h1 => ?_, fun h1 => ?_⟩
    · rw [(i.link m').mem, h] at h1; cases h1
    · rw [(i.link m').wr, h] at h1; rcases h1 with h1 | h1 <;> cases h1
  refine ⟨fun h => ?_, fun h => ?_⟩
  · obtain ⟨op, o, β, a, k, hx, ha⟩ := want_act h (by simp) (by simp)
    obtain ⟨d, hd⟩ := (i.good t _ hx).allowed
    have := allowed_locks hd (want_lock ha)
    intro m' hm'
    refine free m' ?_
    cases m with
    | indices => rcases hm' with rfl | rfl; exact this.1; exact this.2
    | aliases => rcases hm' with rfl | rfl <;> exact this
  · obtain ⟨op, o, β, a, k, hx, ha⟩ := want_act h (by simp) (by simp)
    obtain ⟨d, hd⟩ := (i.good t _ hx).allowed
    have hp := allowed_acquires hd (want_acquire ha)
    refine ⟨(i.link m).wr t |>.2 (Or.inl hp), fun h1 => ?_, ?_⟩
    · rw [(i.link m).mem, hp] at h1; cases h1
    · rintro rfl; exact free .aliases (i.order t hp)

theorem history_reachable {cfg : Cfg} {f : Nat → Config} (hf : History cfg f) (i : Nat) : ConcReachable cfg (f i) := by
  induction i with
  | zero => rw [hf.start]; exact .refl _
  | succ i ih =>
    rcases hf.next i with h | h
    · rw [h]; exact ih
    · exact .tail ih h

/-- No finished call keeps the alias mutex, nor the index mutex unless nobody ever wants to write under it. -/
def Kindly (f : Nat → Config) : Prop :=
  (∀ i, ¬ (f i).leaks .aliases) ∧ ((∀ i, ¬ (f i).leaks .indices) ∨ ∀ i, ((f i).sh.mu .indices).writer = none)

theorem kindly_unleaked {f : Nat → Config} (hl : ∀ i, ¬ (f i).leaked) : Kindly f :=
  ⟨fun i => not_leaks (hl i) .aliases, Or.inl fun i => not_leaks (hl i) .indices⟩

theorem history_locks {cfg : Cfg} {f : Nat → Config} (hf : History cfg f) (fair : Fair cfg f) (hl : Kindly f) :
    LockHistory (fun i m => (f i).sh.mu m) (fun i t => (f i).want t) (fun i t => TStep cfg t (f i) (f (i + 1)))
      (fun i t => (f i).canMove cfg t) where
  settle := fun t => by
    refine comes_to_rest (R := ProgStep) (fun p => prog_acc (α := Ret) p) (fun i => ((f i).calls[t]?).map (·.prog)) _ ?_ ?_
    · intro i h
      obtain ⟨x, y, h1, h2, h3⟩ := tstep_prog h
      exact ⟨_, _, by rw [h1]; rfl, by rw [h2]; rfl, h3⟩
    · intro i p h hp
      cases hx : (f i).calls[t]? with
      | none => simp only [hx] at hp; cases hp
      | some x => simp only [hx] at hp; simp only [(step_apart (hf.next i) h).1 x hx]; exact hp
  same := fun i t h ha => by
    obtain ⟨x, hx, hw⟩ := want_some rfl ha
    have := (step_apart (hf.next i) h).1 x hx
    simp only [Config.want, hx, this]
  rd := fun i t m h => ((step_apart (hf.next i) h).2 m).1
  wr := fun i t m h => ((step_apart (hf.next i) h).2 m).2
  change := fun i m => (step_mutex (hf.next i) m).1
  shut := fun i m => (step_mutex (hf.next i) m).2
  free := fun i t h => want_can (Or.inl h)
  lock := fun i t m h hw => want_can (Or.inr (Or.inl ⟨m, h, hw⟩))
  acquire := fun i t m h hw => want_can (Or.inr (Or.inr ⟨m, h, hw⟩))
  runs := fun i t m h => by
    obtain ⟨H, inv⟩ := lockInv_reachable (history_reachable hf i)
    have key : ¬ (f i).leaks m → (f i).want t ≠ .absent ∧ (f i).want t ≠ .over := fun hl => by
      obtain ⟨op, o, β, a, k, d, hx, _⟩ := holder_runs (u := t) (m := m) inv hl (by
        rcases h with h | h
        · rw [((inv.link m).mem t).1 h]; simp
        · rcases ((inv.link m).wr t).1 h with h | h <;> rw [h] <;> simp)
      simp only [Config.want, hx, Prog.want]
      exact act_want_ne a
    cases m with
    | aliases => exact Or.inl (key (hl.1 i))
    | indices => exact hl.2.imp (fun h => key (h i)) fun h => ⟨rfl, h⟩
  order := fun i t m h => by
    obtain ⟨H, inv⟩ := lockInv_reachable (history_reachable hf i)
    exact (want_holds inv).1 h
  pend := fun i t m h => by
    obtain ⟨H, inv⟩ := lockInv_reachable (history_reachable hf i)
    exact (want_holds inv).2 h
  scheduler := fair.scheduler
  mutex := fun t n h => by
    refine fair.mutex t n fun i hi => ?_
    obtain ⟨m, hm⟩ := h i hi
    obtain ⟨op, o, β, a, k, hx, ha⟩ := want_act hm (by simp) (by simp)
    refine ⟨_, hx, ?_⟩
    cases a <;> simp [Act.want] at ha
    · exact ⟨_, _, Or.inl rfl⟩
    · exact ⟨_, _, Or.inr rfl⟩

theorem all_over {cfg : Cfg} {f : Nat → Config} (hf : History cfg f) (fair : Fair cfg f) (hl : Kindly f)
    {i : Nat} {t : Tid} (ht : t < (f i).calls.length) : ∃ j, i ≤ j ∧ (f j).over t := by
  have hne : ∀ i, t < (f i).calls.length ↔ (f i).want t ≠ .absent := by
    intro i
    unfold Config.want
    cases hx : (f i).calls[t]? with
    | none => simp only [ne_eq, not_true]; rw [List.getElem?_eq_none_iff] at hx; simp; exact hx
    | some x =>
      have := (List.getElem?_eq_some_iff.1 hx).1
      simp only [this, true_iff]
      cases hp : x.prog <;> simp [Prog.want, act_want_ne]
  have made : ∀ i t, (f i).want t ≠ .absent → (f (i + 1)).want t ≠ .absent := by
    intro i t h
    obtain ⟨x, hx, _⟩ := want_some rfl h
    by_cases hm : TStep cfg t (f i) (f (i + 1))
    · obtain ⟨_, y, _, h2, _⟩ := tstep_prog hm
      unfold Config.want
      rw [h2]
      cases hp : y.prog <;> simp [Prog.want, hp, act_want_ne]
    · unfold Config.want
      rw [(step_apart (hf.next i) hm).1 x hx]
      cases hp : x.prog <;> simp [Prog.want, hp, act_want_ne]
  obtain ⟨j, hj, hw⟩ := want_made (history_locks hf fair hl) made ((hne i).1 ht)
  obtain ⟨x, hx, ho⟩ := want_some hw (by simp)
  refine ⟨j, hj, x, hx, fun hr => ?_⟩
  obtain ⟨op, o, p⟩ := x
  cases p with
  | ret r => exact hr
  | crash e => exact hr
  | act a k => exact (act_want_ne a).2 ho

/-! ## Calls whose goroutines are interleaved -/

def FState.want : FState → Want
  | .run (.act a _) => a.want
  | .run (.ret _) | .run (.crash _) => .over
  | _ => .free

def FConfig.want (c : FConfig) (t : Tid) : Want :=
  match c.calls[t]? with
  | some x => x.st.want
  | none => .absent

theorem fwant_ne (x : FState) : x.want ≠ .absent := by
  cases x with
  | run p => cases p <;> simp [FState.want, act_want_ne]
  | putting => simp [FState.want]
  | searching => simp [FState.want]

theorem fwant_over {x : FThread} : x.st.want = .over ↔ x.status ≠ .running := by
  obtain ⟨op, o, st⟩ := x
  cases st with
  | run p => cases p <;> simp [FState.want, FThread.status, act_want_ne]
  | putting => simp [FState.want, FThread.status]
  | searching => simp [FState.want, FThread.status]

theorem fwant_act {x : FState} {w : Want} (h : x.want = w) (ho : w ≠ .over) (hf : w ≠ .free) :
    ∃ β, ∃ a : Act β, ∃ k, x = .run (.act a k) ∧ a.want = w := by
  cases x with
  | run p =>
    cases p with
    | ret r => exact absurd h.symm ho
    | crash e => exact absurd h.symm ho
    | act a k => exact ⟨_, a, k, rfl, h⟩
    | forkPut => exact absurd h.symm hf
    | forkSearch => exact absurd h.symm hf
  | putting => exact absurd h.symm hf
  | searching => exact absurd h.symm hf

theorem ftstep_sh {cfg : Cfg} {u : Tid} {c c' : FConfig} (h : FTStep cfg u c c') :
    c'.sh = c.sh ∨ ∃ o, ∃ β, ∃ a : Act β, ∃ b, exec cfg o u a c.sh = .ok b c'.sh := by
  cases h with
  | act h he => exact Or.inr ⟨_, _, _, _, he⟩
  | put h hs =>
    cases hs with
    | move i h he => exact Or.inr ⟨_, _, _, _, he⟩
    | panic i h he => exact Or.inl rfl
    | env h => exact h.elim
  | _ => exact Or.inl rfl

theorem ftstep_other {cfg : Cfg} {t u : Tid} {c c' : FConfig} (h : FTStep cfg u c c') (htu : t ≠ u) :
    c'.calls[t]? = c.calls[t]? := by
  cases h <;> exact List.getElem?_set_ne (Ne.symm htu)

theorem ftstep_state {cfg : Cfg} {t : Tid} {c c' : FConfig} (h : FTStep cfg t c c') :
    ∃ x y, c.calls[t]? = some x ∧ c'.calls[t]? = some y ∧ FStateStep x.st y.st := by
  have self : ∀ {calls : List FThread} {x y : FThread}, calls[t]? = some x → (calls.set t y)[t]? = some y := fun h =>
    List.getElem?_set_self (List.getElem?_eq_some_iff.1 h).1
  cases h with
  | act h he => exact ⟨_, _, h, self h, .act ..⟩
  | crash h he => exact ⟨_, _, h, self h, .crash ..⟩
  | forkPut h => exact ⟨_, _, h, self h, .forkPut ..⟩
  | put h hs =>
    refine ⟨_, _, h, self h, .put _ ?_⟩
    cases hs with
    | move i h he => exact ⟨i, _, _, h, .act .., rfl⟩
    | panic i h he => exact ⟨i, _, _, h, .crash .., rfl⟩
    | env h => exact h.elim
  | putPanic h he => exact ⟨_, _, h, self h, .putPanic ..⟩
  | putJoin h hd => exact ⟨_, _, h, self h, .putJoin ..⟩
  | forkSearch h => exact ⟨_, _, h, self h, .forkSearch ..⟩
  | search h hs =>
    refine ⟨_, _, h, self h, .search _ _ _ _ _ _ _ ?_⟩
    cases hs with
    | eval i h hp he => exact ⟨i, _, _, h, .eval .., rfl⟩
    | panic i h hp he => exact ⟨i, _, _, h, .panic .., rfl⟩
    | lock i h hl => exact ⟨i, _, _, h, .lock .., rfl⟩
    | append i h => exact ⟨i, _, _, h, .append .., rfl⟩
    | unlock i h => exact ⟨i, _, _, h, .unlock, rfl⟩
    | env h => exact h.elim
  | searchPanic h he => exact ⟨_, _, h, self h, .searchPanic ..⟩
  | searchJoin h hd => exact ⟨_, _, h, self h, .searchJoin ..⟩

theorem fstep_apart {cfg : Cfg} {t : Tid} {c c' : FConfig} (h : c' = c ∨ FStep cfg c c') (hm : ¬ FTStep cfg t c c') :
    (∀ x, c.calls[t]? = some x → c'.calls[t]? = some x) ∧
    (∀ m, (t ∈ (c'.sh.mu m).readers ↔ t ∈ (c.sh.mu m).readers) ∧ ((c'.sh.mu m).writer = some t ↔ (c.sh.mu m).writer = some t)) := by
  rcases h with rfl | h
  · exact ⟨fun x h => h, fun m => ⟨Iff.rfl, Iff.rfl⟩⟩
  · cases h with
    | invoke op o =>
      refine ⟨fun x h => ?_, fun m => ⟨Iff.rfl, Iff.rfl⟩⟩
      simp only
      rw [List.getElem?_append_left (List.getElem?_eq_some_iff.1 h).1]; exact h
    | move u hu =>
      have htu : t ≠ u := by rintro rfl; exact hm hu
      refine ⟨fun x h => by rw [ftstep_other hu htu]; exact h, fun m => ?_⟩
      rcases ftstep_sh hu with e | ⟨o, β, a, b, he⟩
      · rw [e]; exact ⟨Iff.rfl, Iff.rfl⟩
      · exact ⟨mu_rd he htu m, mu_wr he htu m⟩

theorem fstep_mutex {cfg : Cfg} {c c' : FConfig} (h : c' = c ∨ FStep cfg c c') (m : Mu) :
    (∀ v, (c.sh.mu m).writer = some v → (c'.sh.mu m).writer = none ∨ (c'.sh.mu m).writer = some v) ∧
    (∀ u, (c.sh.mu m).writer ≠ none → u ∈ (c'.sh.mu m).readers → u ∈ (c.sh.mu m).readers) := by
  rcases h with rfl | h
  · exact ⟨fun v h => Or.inr h, fun u _ h => h⟩
  · cases h with
    | invoke op o => exact ⟨fun v h => Or.inr h, fun u _ h => h⟩
    | move u hu =>
      rcases ftstep_sh hu with e | ⟨o, β, a, b, he⟩
      · rw [e]; exact ⟨fun v h => Or.inr h, fun u _ h => h⟩
      · exact ⟨fun v h => mu_change he m h, fun u h1 h2 => mu_shut he m h1 h2⟩

theorem fwant_some {c : FConfig} {t : Tid} {w : Want} (h : c.want t = w) (ha : w ≠ .absent) :
    ∃ x, c.calls[t]? = some x ∧ x.st.want = w := by
  unfold FConfig.want at h
  cases hx : c.calls[t]? with
  | none => rw [hx] at h; exact absurd h.symm ha
  | some x => rw [hx] at h; exact ⟨x, rfl, h⟩

/-- The matching call waits for the same mutex. -/
theorem sim_want {cfg : Cfg} {c : FConfig} {d : Config} {G : Tid → Ghost} (sim : Sim cfg c d G) {t : Tid} {w : Want}
    (h : c.want t = w) (ha : w ≠ .absent) (ho : w ≠ .over) (hf : w ≠ .free) : d.want t = w := by
  obtain ⟨⟨op, o, st⟩, hx, hw⟩ := fwant_some h ha
  obtain ⟨β, a, k, e, hwa⟩ := fwant_act hw ho hf
  simp only at e; subst e
  obtain ⟨⟨yop, yo, yp⟩, hy, _, _, hst⟩ := sim.call t _ hx
  simp only at hst
  generalize G t = g at hst
  cases hst with
  | run p hp =>
    unfold Config.want
    rw [hy]
    exact hwa

theorem sim_mu {cfg : Cfg} {c : FConfig} {d : Config} {G : Tid → Ghost} (sim : Sim cfg c d G) (m : Mu) :
    c.sh.mu m = d.sh.mu m := by
  rw [sim.rest]; cases m <;> rfl

theorem fwant_can {cfg : Cfg} {c : FConfig} (hr : FineReachable cfg c) {t : Tid}
    (h : c.want t = .free ∨ (∃ m, c.want t = .lock m ∧ (c.sh.mu m).writer = none) ∨
      ∃ m, c.want t = .acquire m ∧ (c.sh.mu m).readers = []) : c.canMove cfg t := by
  obtain ⟨d, G, hd, sim⟩ := sim_reachable hr
  rcases h with h | ⟨m, h, hw⟩ | ⟨m, h, hw⟩
  · obtain ⟨⟨op, o, st⟩, hx, hw⟩ := fwant_some h (by simp)
    obtain ⟨⟨yop, yo, yp⟩, hy, _, _, hst⟩ := sim.call t _ hx
    simp only at hst hw
    generalize G t = g at hst
    cases hst with
    | run p hp =>
      cases p with
      | ret r => cases hw
      | crash e => cases hw
      | act a k => exact sim_canMove hd sim (canMove_of hy (want_not_blocked (Or.inl hw)))
      | forkPut ps doc k =>
        obtain ⟨s, calls⟩ := c
        exact ⟨_, .forkPut hx⟩
      | forkSearch ps terms engine k =>
        obtain ⟨s, calls⟩ := c
        exact ⟨_, .forkSearch hx⟩
    | putting => exact sim_canMove hd sim (canMove_of hy (by simp [exec]))
    | searching => exact sim_canMove hd sim (canMove_of hy (by simp [exec]))
  · refine sim_canMove hd sim (want_can (Or.inr (Or.inl ⟨m, sim_want sim h (by simp) (by simp) (by simp), ?_⟩)))
    rw [← sim_mu sim]; exact hw
  · refine sim_canMove hd sim (want_can (Or.inr (Or.inr ⟨m, sim_want sim h (by simp) (by simp) (by simp), ?_⟩)))
    rw [← sim_mu sim]; exact hw

theorem fhistory_reachable {cfg : Cfg} {f : Nat → FConfig} (hf : FHistory cfg f) (i : Nat) : FineReachable cfg (f i) := by
  induction i with
  | zero => rw [hf.start]; exact .refl _
  | succ i ih =>
    rcases hf.next i with h | h
    · rw [h]; exact ih
    · exact .tail ih h

def FConfig.leaks (c : FConfig) (m : Mu) : Prop := ∃ t x, c.calls[t]? = some x ∧ x.status ≠ .running ∧ c.sh.holds m t

def FKindly (f : Nat → FConfig) : Prop :=
  (∀ i, ¬ (f i).leaks .aliases) ∧ ((∀ i, ¬ (f i).leaks .indices) ∨ ∀ i, ((f i).sh.mu .indices).writer = none)

theorem fkindly_unleaked {f : Nat → FConfig} (hl : ∀ i, ¬ (f i).leaked) : FKindly f := by
  have : ∀ i m, ¬ (f i).leaks m := fun i m ⟨t, x, h1, h2, h3⟩ => hl i ⟨t, x, m, h1, h2, h3⟩
  exact ⟨fun i => this i _, Or.inl fun i => this i _⟩

theorem fhistory_locks {cfg : Cfg} {f : Nat → FConfig} (hf : FHistory cfg f) (fair : FFair cfg f)
    (hl : FKindly f) :
    LockHistory (fun i m => (f i).sh.mu m) (fun i t => (f i).want t) (fun i t => FTStep cfg t (f i) (f (i + 1)))
      (fun i t => (f i).canMove cfg t) where
  settle := fun t => by
    refine comes_to_rest (R := FStateStep) fstate_acc (fun i => ((f i).calls[t]?).map (·.st)) _ ?_ ?_
    · intro i h
      obtain ⟨x, y, h1, h2, h3⟩ := ftstep_state h
      exact ⟨_, _, by rw [h1]; rfl, by rw [h2]; rfl, h3⟩
    · intro i p h hp
      cases hx : (f i).calls[t]? with
      | none => simp only [hx] at hp; cases hp
      | some x => simp only [hx] at hp; simp only [(fstep_apart (hf.next i) h).1 x hx]; exact hp
  same := fun i t h ha => by
    obtain ⟨x, hx, hw⟩ := fwant_some rfl ha
    have := (fstep_apart (hf.next i) h).1 x hx
    simp only [FConfig.want, hx, this]
  rd := fun i t m h => ((fstep_apart (hf.next i) h).2 m).1
  wr := fun i t m h => ((fstep_apart (hf.next i) h).2 m).2
  change := fun i m => (fstep_mutex (hf.next i) m).1
  shut := fun i m => (fstep_mutex (hf.next i) m).2
  free := fun i t h => fwant_can (fhistory_reachable hf i) (Or.inl h)
  lock := fun i t m h hw => fwant_can (fhistory_reachable hf i) (Or.inr (Or.inl ⟨m, h, hw⟩))
  acquire := fun i t m h hw => fwant_can (fhistory_reachable hf i) (Or.inr (Or.inr ⟨m, h, hw⟩))
  runs := fun i t m h => by
    obtain ⟨d, G, hd, sim⟩ := sim_reachable (fhistory_reachable hf i)
    obtain ⟨H, inv, _⟩ := nsteps_inv hd
    have hlt : t < (f i).calls.length := by
      refine Nat.lt_of_not_le fun hle => ?_
      have := inv.fresh t (by rw [← sim.len]; exact hle)
      simp only [sim_mu sim] at h
      rw [(inv.link m).mem, (inv.link m).wr, this] at h
      cases m <;> simp [Held.get] at h
    have hx := List.getElem?_eq_getElem hlt
    simp only [FConfig.want, hx]
    have key : ¬ (f i).leaks m → (f i).calls[t].st.want ≠ .absent ∧ (f i).calls[t].st.want ≠ .over := fun hl =>
      ⟨fwant_ne _, fun ho => hl ⟨t, _, hx, fwant_over.1 ho, h⟩⟩
    cases m with
    | aliases => exact Or.inl (key (hl.1 i))
    | indices => exact hl.2.imp (fun h => key (h i)) fun h => ⟨rfl, h⟩
  order := fun i t m h => by
    obtain ⟨d, G, hd, sim⟩ := sim_reachable (fhistory_reachable hf i)
    obtain ⟨H, inv, _⟩ := nsteps_inv hd
    have := (want_holds inv).1 (sim_want sim h (by simp) (by simp) (by simp))
    simpa only [sim_mu sim] using this
  pend := fun i t m h => by
    obtain ⟨d, G, hd, sim⟩ := sim_reachable (fhistory_reachable hf i)
    obtain ⟨H, inv, _⟩ := nsteps_inv hd
    have := (want_holds inv).2 (sim_want sim h (by simp) (by simp) (by simp))
    simpa only [sim_mu sim] using this
  scheduler := fair.scheduler
  mutex := fun t n h => by
    refine fair.mutex t n fun i hi => ?_
    obtain ⟨m, hm⟩ := h i hi
    obtain ⟨⟨op, o, st⟩, hx, hw⟩ := fwant_some hm (by simp)
    obtain ⟨β, a, k, e, ha⟩ := fwant_act hw (by simp) (by simp)
    simp only at e; subst e
    refine ⟨_, hx, ?_⟩
    cases a <;> simp [Act.want] at ha
    · exact ⟨_, _, Or.inl rfl⟩
    · exact ⟨_, _, Or.inr rfl⟩

theorem fine_all_over {cfg : Cfg} {f : Nat → FConfig} (hf : FHistory cfg f) (fair : FFair cfg f)
    (hl : FKindly f) {i : Nat} {t : Tid} (ht : t < (f i).calls.length) : ∃ j, i ≤ j ∧ (f j).over t := by
  have made : ∀ i t, (f i).want t ≠ .absent → (f (i + 1)).want t ≠ .absent := by
    intro i t h
    obtain ⟨x, hx, _⟩ := fwant_some rfl h
    by_cases hm : FTStep cfg t (f i) (f (i + 1))
    · obtain ⟨_, y, _, h2, _⟩ := ftstep_state hm
      unfold FConfig.want
      rw [h2]
      exact fwant_ne _
    · unfold FConfig.want
      rw [(fstep_apart (hf.next i) hm).1 x hx]
      exact fwant_ne _
  obtain ⟨j, hj, hw⟩ := want_made (fhistory_locks hf fair hl) made (t := t) (i := i) (by
    unfold FConfig.want
    rw [List.getElem?_eq_getElem ht]
    exact fwant_ne _)
  obtain ⟨x, hx, ho⟩ := fwant_some hw (by simp)
  exact ⟨j, hj, x, hx, fwant_over.1 ho⟩

end Visigoth
