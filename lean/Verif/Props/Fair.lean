import Verif.Proofs.Fair
import Verif.Props.Fine
import Verif.Props.Methods
/-!
# C87: no call waits forever

C49 and C62 say that the calls in progress end when no new call is made.  Here new calls may be made for
ever: a call still gets its turn, because a waiting writer keeps new readers out, and the two mutexes are
taken in order.
-/
namespace Visigoth

variable {cfg : Cfg}

/-- In a fair endless history in which no finished call keeps a lock, every call ends, however many
other calls are made meanwhile. -/
theorem C87_every_call_ends {f : Nat → Config} (hf : History cfg f) (fair : Fair cfg f) (hl : ∀ i, ¬ (f i).leaked)
    {i : Nat} {t : Tid} (ht : t < (f i).calls.length) : ∃ j, i ≤ j ∧ (f j).over t :=
  all_over hf fair (kindly_unleaked hl) ht

/-- Also when the goroutines of the calls are interleaved with everything else. -/
theorem C87_goroutines {f : Nat → FConfig} (hf : FHistory cfg f) (fair : FFair cfg f) (hl : ∀ i, ¬ (f i).leaked)
    {i : Nat} {t : Tid} (ht : t < (f i).calls.length) : ∃ j, i ≤ j ∧ (f j).over t :=
  fine_all_over hf fair (fkindly_unleaked hl) ht

/-- In particular: if no call panics and `UnAlias` given an index never returns false, then every call
returns. -/
theorem C87_every_call_returns {f : Nat → Config} (hf : History cfg f) (fair : Fair cfg f)
    (hp : ∀ i, ∀ x ∈ (f i).calls, ∀ e, x.prog ≠ .crash e)
    (hu : ∀ i, ∀ x ∈ (f i).calls, ∀ al n, x.op = .unAlias al n → n ≠ [] → x.prog ≠ .ret (.bool false))
    {i : Nat} {t : Tid} (ht : t < (f i).calls.length) : ∃ j, i ≤ j ∧ ∃ r, (f j).returned t r := by
  have hl : ∀ i, ¬ (f i).leaked := by
    rintro i ⟨u, x, m, hx, hrun, hh⟩
    rcases C49_who_leaks (history_reachable hf i) hx hrun hh with ⟨al, n, h1, h2, h3⟩ | ⟨e, he⟩
    · exact hu i x (List.mem_of_getElem? hx) al n h1 h2 h3
    · exact hp i x (List.mem_of_getElem? hx) e he
  obtain ⟨j, hj, ⟨op, o, p⟩, hx, hrun⟩ := all_over hf fair (kindly_unleaked hl) ht
  refine ⟨j, hj, ?_⟩
  cases p with
  | ret r => exact ⟨r, _, hx, rfl⟩
  | crash e => exact absurd rfl (hp j _ (List.mem_of_getElem? hx) e)
  | act a k => exact absurd trivial hrun

/-- As long as a call waits for a write lock, the calls that hold read locks are among those that held
them when it came. -/
theorem C87_no_new_readers {f : Nat → Config} (hf : History cfg f) {i j : Nat} (hij : i ≤ j) {t : Tid} {m : Mu}
    (hw : ((f i).sh.mu m).writer = some t) (hs : ∀ k, i ≤ k → k < j → ¬ TStep cfg t (f k) (f (k + 1))) :
    ((f j).sh.mu m).writer = some t ∧ ∀ u ∈ ((f j).sh.mu m).readers, u ∈ ((f i).sh.mu m).readers := by
  induction hij with
  | refl => exact ⟨hw, fun u h => h⟩
  | @step j hj ih =>
    obtain ⟨h1, h2⟩ := ih fun k h1 h2 => hs k h1 (Nat.lt_succ_of_lt h2)
    refine ⟨((step_apart (hf.next j) (hs j hj (Nat.lt_succ_self j))).2 m).2.2 h1, fun u hu => ?_⟩
    exact h2 u ((step_mutex (hf.next j) m).2 u (by rw [h1]; simp) hu)

/-- A finite execution, followed by nothing. -/
theorem steps_then_rest {c c' : Config} (h : Steps cfg c c') :
    ∃ (f : Nat → Config) (n : Nat), f 0 = c ∧ (∀ i, f (i + 1) = f i ∨ Step cfg (f i) (f (i + 1))) ∧ ∀ i, n ≤ i → f i = c' := by
  induction h with
  | refl => exact ⟨fun _ => c, 0, rfl, fun _ => Or.inl rfl, fun _ _ => rfl⟩
  | @tail c1 c2 _ hs ih =>
    obtain ⟨f, n, h0, h1, h2⟩ := ih
    refine ⟨fun i => if i ≤ n then f i else c2, n + 1, by simp [h0], fun i => ?_, fun i hi => if_neg (by omega)⟩
    rcases Nat.lt_trichotomy i n with h | h | h
    · simp only [show i ≤ n by omega, show i + 1 ≤ n by omega, if_true]; exact h1 i
    · subst h
      have : ¬ i + 1 ≤ i := by omega
      simp only [Nat.le_refl, if_true, this, if_false]
      rw [h2 i (Nat.le_refl _)]; exact Or.inr hs
    · simp only [show ¬ i ≤ n by omega, show ¬ i + 1 ≤ n by omega, if_false]; exact Or.inl trivial

/-- The hypothesis on leaked locks is needed: after `UnAlias` has returned false a `Put` can wait forever,
although the history is fair. -/
theorem C87_leak_starves : ∃ f, History sampleCfg f ∧ Fair sampleCfg f ∧ ∃ t i, t < (f i).calls.length ∧ ∀ j, ¬ (f j).over t := by
  obtain ⟨c, hc, hf⟩ := play_fact (cfg := sampleCfg) (c0 := .init)
    (xs := [callNow (.unAlias (str "al") (str "x"))] ++ goes 0 2 ++ [callNow (.put (str "x") docD)] ++ goes 1 7)
    (f := fun c => (c.calls.length, (c.endings[1]?, (c.next sampleCfg (.go 0)).isSome, (c.next sampleCfg (.go 1)).isSome)))
    (v := (2, (some none, false, false))) (by decide +kernel)
  simp only [Prod.mk.injEq] at hf
  obtain ⟨hlen, hend, h0, h1⟩ := hf
  have stuck := stuck_of hlen ⟨h0, h1⟩
  obtain ⟨f, n, e0, e1, e2⟩ := steps_then_rest (play_steps hc)
  have hist : History sampleCfg f := ⟨e0, e1⟩
  refine ⟨f, hist, ⟨fun t k h => ?_, fun t k _ h => ?_⟩, 1, n, by rw [e2 n (Nat.le_refl _), hlen]; decide, ?_⟩
  · exact absurd (h (max n k) (Nat.le_max_right ..)) (by rw [e2 _ (Nat.le_max_left ..)]; exact stuck t)
  · obtain ⟨i, hi, hm⟩ := h n
    exact absurd hm (by rw [e2 _ hi]; exact stuck t)
  · rintro j ⟨x, hx, hrun⟩
    have stays : ∀ k, j ≤ k → (f k).calls[1]? = some x := by
      intro k hk
      induction hk with
      | refl => exact hx
      | @step k hk ih =>
        by_cases hm : TStep sampleCfg 1 (f k) (f (k + 1))
        · obtain ⟨x', y, h1, h2, h3⟩ := tstep_prog hm
          rw [ih] at h1; cases h1
          obtain ⟨op, o, p⟩ := x
          cases p with
          | act a k => exact absurd trivial hrun
          | ret r => exact nomatch h3
          | crash e => exact nomatch h3
        · exact (step_apart (e1 k) hm).1 x ih
    have h2 := stays (max n j) (Nat.le_max_right ..)
    rw [e2 _ (Nat.le_max_left ..)] at h2
    obtain ⟨op, o, p⟩ := x
    cases p with
    | act a k => exact hrun trivial
    | ret r => simp [Config.endings, h2, Thread.ending] at hend
    | crash e => simp [Config.endings, h2, Thread.ending] at hend

/-- The step after which nothing can move is followed by a fair rest. -/
theorem rest_fair {f : Nat → Config} {c : Config} {n : Nat} (hn : ∀ i, n ≤ i → f i = c) (stuck : ∀ u, ¬ c.canMove cfg u) :
    Fair cfg f := by
  refine ⟨fun t k h => ?_, fun t k _ h => ?_⟩
  · exact absurd (h (max n k) (Nat.le_max_right ..)) (by rw [hn _ (Nat.le_max_left ..)]; exact stuck t)
  · obtain ⟨i, hi, hm⟩ := h n
    exact absurd hm (by rw [hn _ hi]; exact stuck t)

theorem over_still {t : Tid} {c c' : Config} {x : Thread} (hx : c.calls[t]? = some x) (ho : ¬ x.running) : ¬ TStep cfg t c c' := by
  intro h
  obtain ⟨x', y, h1, _, h3⟩ := tstep_prog h
  rw [hx] at h1; cases h1
  obtain ⟨op, o, p⟩ := x
  cases p with
  | act a k => exact ho trivial
  | ret r => exact nomatch h3
  | crash e => exact nomatch h3

/-- A call that is over stays as it is. -/
theorem over_stays {f : Nat → Config} (hf : ∀ i, f (i + 1) = f i ∨ Step cfg (f i) (f (i + 1))) {t : Tid} {x : Thread} {i j : Nat}
    (hij : i ≤ j) (hx : (f i).calls[t]? = some x) (ho : ¬ x.running) : (f j).calls[t]? = some x := by
  induction hij with
  | refl => exact hx
  | @step j _ ih => exact (step_apart (hf j) (over_still ih ho)).1 x ih

/-- In every fair history of calls of these methods every call ends (or one of them panics). -/
def EndsWith (cfg : Cfg) (M : Method → Prop) : Prop :=
  ∀ f, History cfg f → Fair cfg f → (∀ i, ∀ x ∈ (f i).calls, M x.op.method) →
    (∀ i t, t < (f i).calls.length → ∃ j, i ≤ j ∧ (f j).over t) ∨ ∃ i, ∃ x ∈ (f i).calls, ∃ e, x.prog = .crash e

/-- Exactly which methods may be used together for ever without a call that waits for ever. -/
theorem C87_methods_exact (M : Method → Prop) : (∀ cfg, EndsWith cfg M) ↔ ¬ (M .unAlias ∧ (M .put ∨ M .rename)) := by
  constructor
  · intro h
    refine (C79_completion_exact M).1 fun cfg c ⟨hr, hM⟩ stuck => ?_
    obtain ⟨f, n, e0, e1, e2⟩ := steps_then_rest hr
    have hM' : ∀ i, ∀ x ∈ (f i).calls, M x.op.method := by
      intro i
      have hs : ∀ j, i ≤ j → Steps cfg (f i) (f j) := by
        intro j hj
        induction hj with
        | refl => exact .refl _
        | @step j hj ih =>
          rcases e1 j with e | e
          · rw [e]; exact ih
          · exact .tail ih e
      have := hs (max n i) (Nat.le_max_right ..)
      rw [e2 _ (Nat.le_max_left ..)] at this
      exact ops_of_steps (P := fun op => M op.method) this hM
    rcases h cfg f ⟨e0, e1⟩ (rest_fair e2 stuck) hM' with h | ⟨i, x, hx, e, he⟩
    · refine .inl fun x hx hrun => ?_
      obtain ⟨t, ht⟩ := List.getElem?_of_mem hx
      obtain ⟨j, hj, y, hy, ho⟩ := h n t (by rw [e2 n (Nat.le_refl _)]; exact (List.getElem?_eq_some_iff.1 ht).1)
      rw [e2 j hj, ht] at hy
      cases hy
      exact ho hrun
    · obtain ⟨t, ht⟩ := List.getElem?_of_mem hx
      have := over_stays e1 (Nat.le_max_right n i) ht (by simp [Thread.running, he])
      rw [e2 _ (Nat.le_max_left ..)] at this
      exact .inr ⟨x, List.mem_of_getElem? this, e, he⟩
  · intro h cfg f hf fair hM
    by_cases hc : ∃ i, ∃ x ∈ (f i).calls, ∃ e, x.prog = .crash e
    · exact .inr hc
    · refine .inl fun i t ht => all_over hf fair ?_ ht
      have hc' : ∀ i, ¬ ∃ x ∈ (f i).calls, ∃ e, x.prog = .crash e := fun i h => hc ⟨i, h⟩
      by_cases hu : M .unAlias
      · have hp : ∀ i, ∀ x ∈ (f i).calls, x.op.method ≠ .put := fun i x hx e => h ⟨hu, .inl (e ▸ hM i x hx)⟩
        have hn : ∀ i, ∀ x ∈ (f i).calls, x.op.method ≠ .rename := fun i x hx e => h ⟨hu, .inr (e ▸ hM i x hx)⟩
        exact ⟨fun i => mute_aliases_unleaked (history_reachable hf i) (hp i) (hc' i),
          .inr fun i => mute_no_writer (history_reachable hf i) (hp i) (hn i)⟩
      · refine kindly_unleaked ?_
        rintro i ⟨u, x, m, hx, hrun, hh⟩
        rcases C49_who_leaks (history_reachable hf i) hx hrun hh with ⟨al, n, h1, h2, h3⟩ | ⟨e, he⟩
        · have := hM i x (List.mem_of_getElem? hx)
          rw [h1] at this
          exact hu this
        · exact hc' i ⟨x, List.mem_of_getElem? hx, e, he⟩

/-! A fair endless history: `Has("x")` is called for ever. -/

private def hasX : Op := .has (str "x")
private def hasRet : Prog Ret := .ret (.bool false)
private def hasUnlock : Prog Ret := .act (.runlock .indices) fun _ => hasRet
private def hasThread (o : Oracle) (p : Prog Ret) : Thread := { op := hasX, oracle := o, prog := p }

/-- `n` calls are over and call `n` has performed `k` of its actions. -/
private def hasStage (cfg : Cfg) (o : Oracle) (n : Nat) : Nat → Config
  | 0 => { sh := {}, calls := List.replicate n (hasThread o hasRet) }
  | 1 => { sh := {}, calls := List.replicate n (hasThread o hasRet) ++ [hasThread o (hasX.prog cfg)] }
  | 2 => { sh := { imu := { readers := [n] } }, calls := List.replicate n (hasThread o hasRet) ++
      [hasThread o (.act (.idxGet (str "x")) fun r => .act (.runlock .indices) fun _ => .ret (.bool r.isSome))] }
  | _ => { sh := { imu := { readers := [n] } }, calls := List.replicate n (hasThread o hasRet) ++ [hasThread o hasUnlock] }

private def hasForever (cfg : Cfg) (o : Oracle) (i : Nat) : Config := hasStage cfg o (i / 4) (i % 4)

private theorem hasForever_last {o : Oracle} {n : Nat} {x : Thread} :
    (List.replicate n (hasThread o hasRet) ++ [x])[n]? = some x := by simp

private theorem hasForever_set {o : Oracle} {n : Nat} {x y : Thread} :
    (List.replicate n (hasThread o hasRet) ++ [x]).set n y = List.replicate n (hasThread o hasRet) ++ [y] := by
  rw [List.set_append_right _ _ (by simp)]
  simp

private theorem hasForever_history (o : Oracle) : History cfg (hasForever cfg o) where
  start := rfl
  next := fun i => by
    refine Or.inr ?_
    have hk : i % 4 < 4 := Nat.mod_lt _ (by decide)
    unfold hasForever
    generalize hn : i / 4 = n
    rcases (by omega : i % 4 = 0 ∨ i % 4 = 1 ∨ i % 4 = 2 ∨ i % 4 = 3) with h | h | h | h
    · rw [h, show (i + 1) / 4 = n by omega, show (i + 1) % 4 = 1 by omega]
      exact .invoke _ hasX o
    · rw [h, show (i + 1) / 4 = n by omega, show (i + 1) % 4 = 2 by omega]
      refine .move n ?_
      have := TStep.act (cfg := cfg) (t := n) (s := {}) (o := o) (op := hasX) (a := .rlock .indices)
        (calls := List.replicate n (hasThread o hasRet) ++ [hasThread o (hasX.prog cfg)]) hasForever_last rfl
      rw [hasForever_set] at this
      exact this
    · rw [h, show (i + 1) / 4 = n by omega, show (i + 1) % 4 = 3 by omega]
      refine .move n ?_
      have := TStep.act (cfg := cfg) (t := n) (s := { imu := { readers := [n] } }) (o := o) (op := hasX) (a := .idxGet (str "x"))
        (calls := _) (hasForever_last (o := o) (x := hasThread o (.act (.idxGet (str "x")) fun r => .act (.runlock .indices) fun _ => .ret (.bool r.isSome)))) rfl
      rw [hasForever_set] at this
      exact this
    · rw [h, show (i + 1) / 4 = n + 1 by omega, show (i + 1) % 4 = 0 by omega]
      refine .move n ?_
      have := TStep.act (cfg := cfg) (t := n) (s := { imu := { readers := [n] } }) (o := o) (op := hasX) (a := .runlock .indices)
        (s' := {}) (b := ())
        (calls := _) (hasForever_last (o := o) (x := hasThread o hasUnlock)) (by simp [exec, Shared.mu, Shared.setMu])
      rw [hasForever_set, show [({ op := hasX, oracle := o, prog := hasRet } : Thread)] = List.replicate 1 (hasThread o hasRet) from rfl,
        List.replicate_append_replicate] at this
      exact this

private theorem hasForever_idle (o : Oracle) (n t : Nat) : (hasForever cfg o (4 * n)).calls[t]? = none ∨
    (hasForever cfg o (4 * n)).calls[t]? = some (hasThread o hasRet) := by
  unfold hasForever
  rw [show 4 * n / 4 = n by omega, show 4 * n % 4 = 0 by omega]
  simp only [hasStage, List.getElem?_replicate]
  split
  · exact Or.inr rfl
  · exact Or.inl rfl

private theorem hasForever_fair (o : Oracle) : Fair cfg (hasForever cfg o) where
  scheduler := fun t n h => by
    obtain ⟨c', hc⟩ := h (4 * n) (by omega)
    obtain ⟨x, y, hx, _, hs⟩ := tstep_prog hc
    rcases hasForever_idle (cfg := cfg) o n t with h0 | h0 <;> rw [h0] at hx <;> cases hx
    cases hs
  mutex := fun t n h _ => by
    obtain ⟨x, hx, m, k, hk⟩ := h (4 * n) (by omega)
    rcases hasForever_idle (cfg := cfg) o n t with h0 | h0 <;> rw [h0] at hx <;> cases hx
    rcases hk with hk | hk <;> cases hk

private theorem hasForever_unleaked (o : Oracle) (i : Nat) : ¬ (hasForever cfg o i).leaked := by
  rintro ⟨t, x, m, hx, hrun, hh⟩
  unfold hasForever at hx hh
  generalize i / 4 = n at hx hh
  have key : ∀ p : Prog Ret, (List.replicate n (hasThread o hasRet) ++ [hasThread o p])[t]? = some x →
      t = n → x.prog = p := by
    rintro p h rfl
    rw [hasForever_last] at h
    cases h; rfl
  rcases (by omega : i % 4 = 0 ∨ i % 4 = 1 ∨ i % 4 = 2 ∨ i % 4 = 3) with h | h | h | h <;> rw [h] at hx hh
  · cases m <;> simp [hasStage, Shared.holds, Shared.mu] at hh
  · cases m <;> simp [hasStage, Shared.holds, Shared.mu] at hh
  · cases m <;> simp [hasStage, Shared.holds, Shared.mu] at hh
    have := key _ hx hh
    exact hrun (by simp [Thread.running, this])
  · cases m <;> simp [hasStage, Shared.holds, Shared.mu] at hh
    have := key _ hx hh
    exact hrun (by simp [Thread.running, this, hasUnlock])

/-- The hypotheses of `C87_every_call_ends` hold of a history in which calls are made for ever. -/
example (o : Oracle) : ∃ f, History cfg f ∧ Fair cfg f ∧ (∀ i, ¬ (f i).leaked) ∧
    ∀ t, ∃ i, t < (f i).calls.length :=
  ⟨hasForever cfg o, hasForever_history o, hasForever_fair o, hasForever_unleaked o, fun t => ⟨4 * (t + 1), by
    unfold hasForever
    rw [show 4 * (t + 1) / 4 = t + 1 by omega, show 4 * (t + 1) % 4 = 0 by omega]
    simp [hasStage]⟩⟩

private theorem hasForever_ops (o : Oracle) (i : Nat) : ∀ x ∈ (hasForever cfg o i).calls, x.op.method = .has := by
  unfold hasForever
  intro x hx
  rcases (by omega : i % 4 = 0 ∨ i % 4 = 1 ∨ i % 4 = 2 ∨ i % 4 = 3) with h | h | h | h <;> rw [h] at hx <;>
    simp only [hasStage, List.mem_append, List.mem_replicate, List.mem_singleton] at hx
  · rw [hx.2]; rfl
  all_goals rcases hx with hx | hx
  all_goals first | (rw [hx.2]; rfl) | (rw [hx]; rfl)

/-- It meets the hypotheses of `C87_methods_exact` for every set of methods that `Has` is in, such as all methods but
`UnAlias`; with `UnAlias` a call may wait for ever. -/
example (o : Oracle) : (∃ f, History sampleCfg f ∧ Fair sampleCfg f ∧ ∀ i, ∀ x ∈ (f i).calls, x.op.method ≠ .unAlias) ∧
    EndsWith sampleCfg (· ≠ .unAlias) ∧ ¬ ∀ cfg, EndsWith cfg fun _ => True := by
  refine ⟨⟨hasForever sampleCfg o, hasForever_history o, hasForever_fair o, fun i x hx => ?_⟩, (C87_methods_exact _).2 (by simp) _, ?_⟩
  · rw [hasForever_ops o i x hx]; decide
  · rw [C87_methods_exact]; simp

/-! A fair endless history with goroutines: an execution after which nothing happens. -/

theorem fsteps_then_rest {c c' : FConfig} (h : FSteps cfg c c') :
    ∃ (f : Nat → FConfig) (n : Nat), f 0 = c ∧ (∀ i, f (i + 1) = f i ∨ FStep cfg (f i) (f (i + 1))) ∧ ∀ i, n ≤ i → f i = c' := by
  induction h with
  | refl => exact ⟨fun _ => c, 0, rfl, fun _ => Or.inl rfl, fun _ _ => rfl⟩
  | @tail c1 c2 _ hs ih =>
    obtain ⟨f, n, h0, h1, h2⟩ := ih
    refine ⟨fun i => if i ≤ n then f i else c2, n + 1, by simp [h0], fun i => ?_, fun i hi => if_neg (by omega)⟩
    rcases Nat.lt_trichotomy i n with h | h | h
    · simp only [show i ≤ n by omega, show i + 1 ≤ n by omega, if_true]; exact h1 i
    · subst h
      have : ¬ i + 1 ≤ i := by omega
      simp only [Nat.le_refl, if_true, this, if_false]
      rw [h2 i (Nat.le_refl _)]; exact Or.inr hs
    · simp only [show ¬ i ≤ n by omega, show ¬ i + 1 ≤ n by omega, if_false]; exact Or.inl trivial

/-- A call that is over does not move. -/
theorem fover_still {t : Tid} {c c' : FConfig} {x : FThread} (hx : c.calls[t]? = some x) (ho : x.status ≠ .running) :
    ¬ FTStep cfg t c c' := by
  intro h
  obtain ⟨x', y, h1, _, h3⟩ := ftstep_state h
  rw [hx] at h1; cases h1
  obtain ⟨op, o, st⟩ := x
  cases st with
  | run p =>
    cases p with
    | ret r => exact nomatch h3
    | crash e => exact nomatch h3
    | act a k => exact ho rfl
    | forkPut ps doc k => exact ho rfl
    | forkSearch ps terms engine k => exact ho rfl
  | putting gs k => exact ho rfl
  | searching r rl gs terms engine k => exact ho rfl

/-- Every execution that ends with all calls over and both mutexes free is the start of a history that
meets the hypotheses of `C87_goroutines`. -/
theorem fine_then_rest {c : FConfig} (hr : FineReachable cfg c) (hq : c.quiet) (hi : c.sh.imu = {}) (ha : c.sh.amu = {}) :
    ∃ f n, FHistory cfg f ∧ FFair cfg f ∧ (∀ i, ¬ (f i).leaked) ∧ f n = c := by
  obtain ⟨f, n, h0, h1, h2⟩ := fsteps_then_rest hr
  have stuck : ∀ t, ¬ c.canMove cfg t := by
    rintro t ⟨c', h⟩
    obtain ⟨x, _, hx, _⟩ := ftstep_state h
    exact fover_still hx (hq x (List.mem_of_getElem? hx)) h
  refine ⟨f, n, ⟨h0, h1⟩, ⟨fun t k h => ?_, fun t k _ h => ?_⟩, ?_, h2 n (Nat.le_refl _)⟩
  · exact absurd (h (max n k) (Nat.le_max_right ..)) (by rw [h2 _ (Nat.le_max_left ..)]; exact stuck t)
  · obtain ⟨i, hi, hm⟩ := h n
    exact absurd hm (by rw [h2 _ hi]; exact stuck t)
  · rintro i ⟨t, x, m, hx, ho, hh⟩
    have keep : ∀ j, i ≤ j → (f j).calls[t]? = some x ∧ (f j).sh.holds m t := by
      intro j hj
      induction hj with
      | refl => exact ⟨hx, hh⟩
      | @step j hj ih =>
        have := fstep_apart (h1 j) (fover_still (c' := f (j + 1)) ih.1 ho)
        exact ⟨this.1 x ih.1, ih.2.imp (this.2 m).1.2 (this.2 m).2.2⟩
    have := (keep (max n i) (Nat.le_max_right ..)).2
    rw [h2 _ (Nat.le_max_left ..)] at this
    cases m <;> simp [Shared.holds, Shared.mu, hi, ha] at this

/-- A call that is over stays as it is. -/
theorem fover_stays {f : Nat → FConfig} (hf : ∀ i, f (i + 1) = f i ∨ FStep cfg (f i) (f (i + 1))) {t : Tid} {x : FThread} {i j : Nat}
    (hij : i ≤ j) (hx : (f i).calls[t]? = some x) (ho : x.status ≠ .running) : (f j).calls[t]? = some x := by
  induction hij with
  | refl => exact hx
  | @step j _ ih => exact (fstep_apart (hf j) (fover_still ih ho)).1 x ih

theorem fops_of_steps {P : Op → Prop} {c c' : FConfig} (hs : FSteps cfg c c') (hall : ∀ x ∈ c'.calls, P x.op) : ∀ x ∈ c.calls, P x.op := by
  have set : ∀ {calls : List FThread} {t : Tid} {op : Op} {o : Oracle} {p q : FState},
      calls[t]? = some { op := op, oracle := o, st := p } →
      (∀ x ∈ calls.set t { op := op, oracle := o, st := q }, P x.op) → ∀ x ∈ calls, P x.op := by
    intro calls t op o p q hget h x hx
    obtain ⟨u, hu⟩ := List.getElem?_of_mem hx
    by_cases hut : u = t
    · subst hut
      rw [hget] at hu; cases hu
      exact h { op := op, oracle := o, st := q } (List.mem_of_getElem? (List.getElem?_set_self (List.getElem?_eq_some_iff.1 hget).1))
    · exact h x (List.mem_of_getElem? ((List.getElem?_set_ne (Ne.symm hut)).trans hu))
  induction hs with
  | refl => exact hall
  | tail _ h ih =>
    refine ih ?_
    cases h with
    | invoke op o => exact fun x hx => hall x (List.mem_append_left _ hx)
    | move t h => cases h <;> exact set (by assumption) hall

/-- In every fair history of calls of these methods, with their goroutines interleaved, every call ends (or one of them
panics). -/
def FEndsWith (cfg : Cfg) (M : Method → Prop) : Prop :=
  ∀ f, FHistory cfg f → FFair cfg f → (∀ i, ∀ x ∈ (f i).calls, M x.op.method) →
    (∀ i t, t < (f i).calls.length → ∃ j, i ≤ j ∧ (f j).over t) ∨ ∃ i, ∃ x ∈ (f i).calls, ∃ e, x.status = .crashed e

/-- A call that keeps a mutex after it is over does so in the matching execution. -/
theorem fine_leaks {c : FConfig} {d : Config} (al : Alike c d) {m : Mu} (h : c.leaks m) : d.leaks m := by
  obtain ⟨t, x, hx, ho, hh⟩ := h
  obtain ⟨y, hy, sc⟩ := al.calls t x hx
  refine ⟨t, y, hy, fun hr => ho ?_, ?_⟩
  · rw [← sc.status]; exact status_running.1 hr
  · cases m
    · simpa only [Shared.holds, Shared.mu, al.imu] using hh
    · simpa only [Shared.holds, Shared.mu, al.amu] using hh

/-- `C87_methods_exact` with interleaved goroutines. -/
theorem C87_methods_goroutines_exact (M : Method → Prop) :
    (∀ cfg, FEndsWith cfg M) ↔ ¬ (M .unAlias ∧ (M .put ∨ M .rename)) := by
  constructor
  · intro h
    refine (C79_completion_goroutines_exact M).1 fun cfg c hr hM stuck => ?_
    obtain ⟨f, n, e0, e1, e2⟩ := fsteps_then_rest hr
    have hM' : ∀ i, ∀ x ∈ (f i).calls, M x.op.method := by
      intro i
      have hs : ∀ j, i ≤ j → FSteps cfg (f i) (f j) := by
        intro j hj
        induction hj with
        | refl => exact .refl _
        | @step j hj ih =>
          rcases e1 j with e | e
          · rw [e]; exact ih
          · exact .tail ih e
      have := hs (max n i) (Nat.le_max_right ..)
      rw [e2 _ (Nat.le_max_left ..)] at this
      exact fops_of_steps (P := fun op => M op.method) this hM
    have fair : FFair cfg f := by
      refine ⟨fun t k h => ?_, fun t k _ h => ?_⟩
      · exact absurd (h (max n k) (Nat.le_max_right ..)) (by rw [e2 _ (Nat.le_max_left ..)]; exact stuck t)
      · obtain ⟨i, hi, hm⟩ := h n
        exact absurd hm (by rw [e2 _ hi]; exact stuck t)
    rcases h cfg f ⟨e0, e1⟩ fair hM' with h | ⟨i, x, hx, e, he⟩
    · refine .inl fun x hx hrun => ?_
      obtain ⟨t, ht⟩ := List.getElem?_of_mem hx
      obtain ⟨j, hj, y, hy, ho⟩ := h n t (by rw [e2 n (Nat.le_refl _)]; exact (List.getElem?_eq_some_iff.1 ht).1)
      rw [e2 j hj, ht] at hy
      cases hy
      exact ho hrun
    · obtain ⟨t, ht⟩ := List.getElem?_of_mem hx
      have := fover_stays e1 (Nat.le_max_right n i) ht (by simp [he])
      rw [e2 _ (Nat.le_max_left ..)] at this
      exact .inr ⟨x, List.mem_of_getElem? this, e, he⟩
  · intro h cfg f hf fair hM
    by_cases hc : ∃ i, ∃ x ∈ (f i).calls, ∃ e, x.status = .crashed e
    · exact .inr hc
    · refine .inl fun i t ht => fine_all_over hf fair ?_ ht
      have crash : ∀ i {d : Config}, Alike (f i) d → ¬ ∃ x ∈ d.calls, ∃ e, x.prog = .crash e := by
        rintro i d al ⟨y, hy, e, he⟩
        obtain ⟨t, ht⟩ := List.getElem?_of_mem hy
        obtain ⟨x, hx, sc⟩ := alike_back al ht
        exact hc ⟨i, x, List.mem_of_getElem? hx, e, by rw [← sc.status]; simp [Thread.status, he]⟩
      by_cases hu : M .unAlias
      · have hp : ∀ i {d : Config}, Alike (f i) d → ∀ x ∈ d.calls, x.op.method ≠ .put := fun i d al x hx e =>
          h ⟨hu, .inl (e ▸ alike_all al (P := fun op _ => M op.method) (hM i) x hx)⟩
        have hn : ∀ i {d : Config}, Alike (f i) d → ∀ x ∈ d.calls, x.op.method ≠ .rename := fun i d al x hx e =>
          h ⟨hu, .inr (e ▸ alike_all al (P := fun op _ => M op.method) (hM i) x hx)⟩
        refine ⟨fun i hl => ?_, .inr fun i => ?_⟩
        · obtain ⟨d, hd, al⟩ := fine_alike (fhistory_reachable hf i)
          exact mute_aliases_unleaked hd (hp i al) (crash i al) (fine_leaks al hl)
        · obtain ⟨d, hd, al⟩ := fine_alike (fhistory_reachable hf i)
          have := mute_no_writer hd (hp i al) (hn i al)
          simpa only [Shared.mu, al.imu] using this
      · refine fkindly_unleaked ?_
        rintro i ⟨u, x, m, hx, hrun, hh⟩
        obtain ⟨d, hd, al⟩ := fine_alike (fhistory_reachable hf i)
        obtain ⟨u, y, hy, hyr, hh⟩ := fine_leaks al ⟨u, x, hx, hrun, hh⟩
        rcases C49_who_leaks hd hy hyr hh with ⟨a, n, h1, h2, h3⟩ | ⟨e, he⟩
        · have := alike_all al (P := fun op _ => M op.method) (hM i) y (List.mem_of_getElem? hy)
          simp only [h1] at this
          exact hu this
        · exact crash i al ⟨y, List.mem_of_getElem? hy, e, he⟩

private def fairPut : List FSched :=
  fineSetup ++ [fcallNow (.put (str "a") docE)] ++ fgoes 4 13 ++ subs 4 [1, 0, 0, 1] ++ fgoes 4 2

/-- A `Put` to two indices, whose goroutines take turns. -/
example : ∃ f, ∃ n, FHistory sampleCfg f ∧ FFair sampleCfg f ∧ (∀ i, ¬ (f i).leaked) ∧ (f n).calls.length = 5 ∧
    (f n).over 4 := by
  have key : ((FConfig.init.play sampleCfg fairPut).map fun c => (c.calls.map fun x => (match x.status with | .running => false | _ => true), c.sh.imu, c.sh.amu))
      = some ([true, true, true, true, true], {}, {}) := by decide +kernel
  cases hc : FConfig.init.play sampleCfg fairPut with
  | none => rw [hc] at key; cases key
  | some c =>
    rw [hc] at key
    simp only [Option.map_some, Option.some.injEq, Prod.mk.injEq] at key
    obtain ⟨h1, h2, h3⟩ := key
    have over : ∀ x ∈ c.calls, x.status ≠ .running := by
      intro x hx hr
      have := List.mem_map_of_mem (f := fun x : FThread => (match x.status with | .running => false | _ => true)) hx
      rw [h1, hr] at this
      simp at this
    obtain ⟨f, n, g1, g2, g3, g4⟩ := fine_then_rest (play_fsteps hc) over h2 h3
    have hl : c.calls.length = 5 := by simpa using congrArg List.length h1
    refine ⟨f, n, g1, g2, g3, by rw [g4]; exact hl, ?_⟩
    rw [g4]
    exact ⟨_, List.getElem?_eq_getElem (by rw [hl]; decide), over _ (List.getElem_mem _)⟩

end Visigoth
