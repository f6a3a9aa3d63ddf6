import Verif.Proofs.Whole
/-!
# The heap of indices in reachable configurations
-/
namespace Visigoth

/-- What call `t` knows is true of the heap. -/
def Knows (P : DocRequest → Prop) (tok : Tokenizer) (h : Held) (Hp : List MemoryIndex) (p : Prog Ret) : Prop :=
  if h.imu = .write then Whole P tok (EndOk P tok) (.own Hp) p
  else ∃ n, n ≤ Hp.length ∧ Whole P tok (EndOk P tok) (.free n) p

structure WholeInv (P : DocRequest → Prop) (tok : Tokenizer) (c : Config) (H : Tid → Held) : Prop where
  ok : (∀ t, (H t).imu ≠ .write) → HeapOk P tok c.sh.heap
  knows : ∀ t x, c.calls[t]? = some x → Knows P tok (H t) c.sh.heap x.prog
  ptrs : ∀ nm p, c.sh.indices.get nm = some p → p < c.sh.heap.length

/-- Without the exclusive lock, only the length of the heap matters. -/
theorem Knows.grow {P : DocRequest → Prop} {tok : Tokenizer} {h : Held} {Hp Hp' : List MemoryIndex} {p : Prog Ret}
    (k : Knows P tok h Hp p) (hl : Hp.length ≤ Hp'.length) (hw : h.imu = .write → Hp' = Hp) : Knows P tok h Hp' p := by
  unfold Knows at k ⊢
  split
  · next hh => rw [if_pos hh] at k; rw [hw hh]; exact k
  · next hh =>
    rw [if_neg hh] at k
    obtain ⟨n, h1, h2⟩ := k
    exact ⟨n, Nat.le_trans h1 hl, h2⟩

/-- Conclusion of `knows_exec`. -/
structure KnowsAfter (P : DocRequest → Prop) (tok : Tokenizer) (h h' : Held) (s s' : Shared) (p : Prog Ret) : Prop where
  knows : Knows P tok h' s'.heap p
  grow : s.heap.length ≤ s'.heap.length
  own : s'.heap ≠ s.heap → h.imu = .write
  done : h.imu = .write → h'.imu ≠ .write → HeapOk P tok s'.heap
  ptrs : ∀ nm p, s'.indices.get nm = some p → p < s'.heap.length

/-- Actions that leave the heap, the index map and the exclusive lock alone. -/
theorem knows_same {P : DocRequest → Prop} {tok : Tokenizer} {β : Type} {a : Act β} {s s' : Shared} (b : β)
    {h : Held} {k : β → Prog Ret} (hdef : ∀ v Φ, wpAct P tok v a Φ → Φ v b) (hh : s'.heap = s.heap)
    (hi : ∀ nm p, s'.indices.get nm = some p → s.indices.get nm = some p)
    (hw : (h.after a).imu = .write ↔ h.imu = .write)
    (hptr : ∀ nm p, s.indices.get nm = some p → p < s.heap.length)
    (hk : Knows P tok h s.heap (.act a k)) : KnowsAfter P tok h (h.after a) s s' (k b) := by
  refine ⟨?_, by rw [hh]; exact Nat.le_refl _, fun h => absurd hh h, fun h1 h2 => absurd (hw.2 h1) h2, fun nm p hp => ?_⟩
  · unfold Knows at hk ⊢
    rw [hh]
    by_cases hc : h.imu = .write
    · rw [if_pos hc] at hk
      rw [if_pos (hw.2 hc)]
      exact hdef _ _ hk
    · rw [if_neg hc] at hk
      rw [if_neg (fun h' => hc (hw.1 h'))]
      obtain ⟨n, h1, h2⟩ := hk
      exact ⟨n, h1, hdef _ _ h2⟩
  · rw [hh]; exact hptr nm p (hi nm p hp)

theorem knows_own {P : DocRequest → Prop} {tok : Tokenizer} {β : Type} {a : Act β} {Hp : List MemoryIndex} {h : Held}
    {k : β → Prog Ret} (hk : Knows P tok h Hp (.act a k)) (hf : ∀ n Φ, ¬ wpAct P tok (.free n) a Φ) :
    h.imu = .write ∧ wpAct P tok (.own Hp) a fun v' b => Whole P tok (EndOk P tok) v' (k b) := by
  unfold Knows at hk
  by_cases hc : h.imu = .write
  · rw [if_pos hc] at hk; exact ⟨hc, hk⟩
  · rw [if_neg hc] at hk
    obtain ⟨n, _, h2⟩ := hk
    exact absurd h2 (hf n _)

/-- Effect of an action on what its call knows. -/
theorem knows_exec {cfg : Cfg} {o : Oracle} {t : Tid} {β : Type} {a : Act β} {s s' : Shared} {b : β} {d : Discipline}
    {h : Held} {P : DocRequest → Prop} {k : β → Prog Ret}
    (ha : Allowed d h a) (he : exec cfg o t a s = .ok b s')
    (hok : a.acquires = some .indices → HeapOk P cfg.tok s.heap)
    (hptr : ∀ nm p, s.indices.get nm = some p → p < s.heap.length)
    (hk : Knows P cfg.tok h s.heap (.act a k)) :
    KnowsAfter P cfg.tok h (h.after a) s s' (k b) := by
  cases a
  case rlock m =>
    simp only [exec] at he
    split at he
    · injection he with hb he; subst he
      have hw : (h.after (.rlock m)).imu = .write ↔ h.imu = .write := by
        have := ha.2
        cases m <;> simp [Held.mayLock] at this <;> simp [Held.after, Held.set, this]
      exact knows_same _ (fun v Φ hΦ => hΦ _) (by cases m <;> rfl) (by cases m <;> exact fun _ _ h => h) hw hptr hk
    · exact absurd he (by simp)
  case runlock m =>
    simp only [exec] at he
    split at he
    · injection he with hb he; subst he
      have hw : (h.after (.runlock m)).imu = .write ↔ h.imu = .write := by
        have := ha.2
        cases m <;> simp [Held.get] at this <;> simp [Held.after, Held.set, this]
      exact knows_same _ (fun v Φ hΦ => hΦ _) (by cases m <;> rfl) (by cases m <;> exact fun _ _ h => h) hw hptr hk
    · exact absurd he (by simp)
  case announce m =>
    simp only [exec] at he
    split at he
    · injection he with hb he; subst he
      have hw : (h.after (.announce m)).imu = .write ↔ h.imu = .write := by
        have := ha.2
        cases m <;> simp [Held.mayLock] at this <;> simp [Held.after, Held.set, this]
      exact knows_same _ (fun v Φ hΦ => hΦ _) (by cases m <;> rfl) (by cases m <;> exact fun _ _ h => h) hw hptr hk
    · exact absurd he (by simp)
  case acquire m =>
    simp only [exec] at he
    split at he
    · split at he
      · injection he with hb he; subst he
        cases m with
        | aliases => exact knows_same (a := .acquire .aliases) _ (fun v Φ hΦ => hΦ _) rfl (fun _ _ h => h) Iff.rfl hptr hk
        | indices =>
          have hp : h.imu = .pend := ha
          unfold Knows at hk
          rw [if_neg (by rw [hp]; simp)] at hk
          obtain ⟨n, h1, h2⟩ := hk
          refine ⟨?_, Nat.le_refl _, fun h => absurd rfl h, fun h1 => ?_, hptr⟩
          · unfold Knows
            rw [if_pos (by rfl)]
            exact h2 s.heap (hok rfl) h1
          · rw [hp] at h1; cases h1
      · exact absurd he (by simp)
    · exact absurd he (by simp)
  case unlock m =>
    simp only [exec] at he
    split at he
    · injection he with hb he; subst he
      cases m with
      | aliases => exact knows_same (a := .unlock .aliases) _ (fun v Φ hΦ => hΦ _) rfl (fun _ _ h => h) Iff.rfl hptr hk
      | indices =>
        obtain ⟨hc, hk⟩ := knows_own hk (fun _ _ h => h)
        refine ⟨?_, Nat.le_refl _, fun h => absurd rfl h, fun _ _ => hk.1, hptr⟩
        unfold Knows
        rw [if_neg (by simp [Held.after, Held.set])]
        exact ⟨_, Nat.le_refl _, hk.2⟩
    · exact absurd he (by simp)
  case idxGet nm =>
    simp only [exec] at he
    injection he with hb he; subst he; subst hb
    refine ⟨?_, Nat.le_refl _, fun h => absurd rfl h, fun h1 h2 => absurd h1 h2, hptr⟩
    unfold Knows at hk ⊢
    by_cases hc : h.imu = .write
    · rw [if_pos hc] at hk
      rw [if_pos (by exact hc)]
      cases hg : s.indices.get nm with
      | none => exact hk.1
      | some p => exact hk.2 p (hptr nm p hg)
    · rw [if_neg hc] at hk
      rw [if_neg (by exact hc)]
      obtain ⟨n, h1, h2⟩ := hk
      cases hg : s.indices.get nm with
      | none => exact ⟨n, h1, h2.1⟩
      | some p => exact ⟨_, Nat.le_refl _, h2.2 _ p h1 (hptr nm p hg)⟩
  case idxSet nm p =>
    simp only [exec] at he
    injection he with hb he; subst he
    obtain ⟨hc, hk⟩ := knows_own hk (fun _ _ h => h)
    refine ⟨?_, Nat.le_refl _, fun h => absurd rfl h, fun h1 h2 => absurd h1 h2, ?_⟩
    · unfold Knows; rw [if_pos (by exact hc)]; exact hk.2
    · intro nm' q hq
      simp only [GoMap.get_set] at hq
      split at hq
      · injection hq with hq; subst hq; exact hk.1
      · exact hptr nm' q hq
  case idxDel nm =>
    simp only [exec] at he
    injection he with hb he; subst he
    refine knows_same (a := .idxDel nm) _ (fun v Φ hΦ => hΦ _) rfl ?_ Iff.rfl hptr hk
    intro nm' q hq
    simp only [GoMap.get_delete] at hq
    split at hq
    · cases hq
    · exact hq
  case newIndex nm =>
    simp only [exec] at he
    injection he with hb he; subst he; subst hb
    obtain ⟨hc, hk⟩ := knows_own hk (fun _ _ h => h)
    refine ⟨?_, by simp, fun _ => hc, fun h1 h2 => absurd h1 h2, ?_⟩
    · unfold Knows; rw [if_pos (by exact hc)]; exact hk
    · intro nm' q hq
      simp only [List.length_append, List.length_cons, List.length_nil]
      exact Nat.lt_succ_of_lt (hptr nm' q hq)
  case docAppend p dd =>
    simp only [exec] at he
    obtain ⟨hc, mi, hmi, hk⟩ := knows_own hk (fun _ _ h => h)
    rw [hmi] at he
    injection he with hb he; subst he; subst hb
    refine ⟨?_, by simp, fun _ => hc, fun h1 h2 => absurd h1 h2, ?_⟩
    · unfold Knows; rw [if_pos (by exact hc)]; exact hk
    · intro nm' q hq
      simp only [List.length_set]
      exact hptr nm' q hq
  case postAdd p tk nx =>
    simp only [exec] at he
    obtain ⟨hc, mi, hmi, hk⟩ := knows_own hk (fun _ _ h => h)
    rw [hmi] at he
    injection he with hb he; subst he
    refine ⟨?_, by simp, fun _ => hc, fun h1 h2 => absurd h1 h2, ?_⟩
    · unfold Knows; rw [if_pos (by exact hc)]; exact hk
    · intro nm' q hq
      simp only [List.length_set]
      exact hptr nm' q hq
  case evalEngine p ts e =>
    simp only [exec] at he
    split at he
    · injection he with hb he; subst he
      refine ⟨?_, Nat.le_refl _, fun h => absurd rfl h, fun h1 h2 => absurd h1 h2, hptr⟩
      unfold Knows at hk ⊢
      by_cases hc : h.imu = .write
      · rw [if_pos hc] at hk; exact absurd hk id
      · rw [if_neg hc] at hk
        rw [if_neg (by exact hc)]
        obtain ⟨n, h1, h2⟩ := hk
        exact ⟨n, h1, h2.2 _⟩
    · exact absurd he (by simp)
  case render p =>
    simp only [exec] at he
    split at he
    · injection he with hb he; subst he
      refine ⟨?_, Nat.le_refl _, fun h => absurd rfl h, fun h1 h2 => absurd h1 h2, hptr⟩
      unfold Knows at hk ⊢
      by_cases hc : h.imu = .write
      · rw [if_pos hc] at hk; exact absurd hk id
      · rw [if_neg hc] at hk
        rw [if_neg (by exact hc)]
        obtain ⟨n, h1, h2⟩ := hk
        exact ⟨n, h1, h2.2 _⟩
    · exact absurd he (by simp)
  case schedule ps =>
    simp only [exec] at he
    injection he with hb he; subst he; subst hb
    exact knows_same (a := .schedule ps) _ (fun v Φ hΦ => hΦ _ (choosePerm_perm _ _)) rfl (fun _ _ h => h) Iff.rfl hptr hk
  case idxKeys =>
    simp only [exec] at he
    injection he with hb he; subst he
    exact knows_same (a := .idxKeys) _ (fun v Φ hΦ => hΦ _) rfl (fun _ _ h => h) Iff.rfl hptr hk
  case alKeys =>
    simp only [exec] at he
    injection he with hb he; subst he
    exact knows_same (a := .alKeys) _ (fun v Φ hΦ => hΦ _) rfl (fun _ _ h => h) Iff.rfl hptr hk
  case alGet n =>
    simp only [exec] at he
    injection he with hb he; subst he
    exact knows_same (a := .alGet n) _ (fun v Φ hΦ => hΦ _) rfl (fun _ _ h => h) Iff.rfl hptr hk
  case alSet n r =>
    simp only [exec] at he
    injection he with hb he; subst he
    exact knows_same (a := .alSet n r) _ (fun v Φ hΦ => hΦ _) rfl (fun _ _ h => h) Iff.rfl hptr hk
  case alDel n =>
    simp only [exec] at he
    injection he with hb he; subst he
    exact knows_same (a := .alDel n) _ (fun v Φ hΦ => hΦ _) rfl (fun _ _ h => h) Iff.rfl hptr hk
  case slNew l =>
    simp only [exec] at he
    injection he with hb he; subst he
    exact knows_same (a := .slNew l) _ (fun v Φ hΦ => hΦ _) rfl (fun _ _ h => h) Iff.rfl hptr hk
  case slRead r i =>
    simp only [exec] at he
    split at he
    · injection he with hb he; subst he
      exact knows_same (a := .slRead r i) _ (fun v Φ hΦ => hΦ.2 _) rfl (fun _ _ h => h) Iff.rfl hptr hk
    · exact absurd he (by simp)
  case slWrite r i v =>
    simp only [exec] at he
    split at he
    · split at he
      · injection he with hb he; subst he
        exact knows_same (a := .slWrite r i v) _ (fun v Φ hΦ => hΦ.2 _) rfl (fun _ _ h => h) Iff.rfl hptr hk
      · exact absurd he (by simp)
    · exact absurd he (by simp)
  case slAppend r v =>
    simp only [exec] at he
    split at he
    · exact absurd he (by simp)
    · split at he
      · injection he with hb he; subst he
        exact knows_same (a := .slAppend r v) _ (fun v Φ hΦ => hΦ.2 _) rfl (fun _ _ h => h) Iff.rfl hptr hk
      · injection he with hb he; subst he
        exact knows_same (a := .slAppend r v) _ (fun v Φ hΦ => hΦ.2 _) rfl (fun _ _ h => h) Iff.rfl hptr hk

theorem only_writer {H : Tid → Held} {s : Shared} (k : Link H s) {t u : Tid} (ht : s.imu.writer = some t)
    (hu : (H u).imu = .write) : u = t := by
  have := ((k .indices).wr u).2 (Or.inr hu)
  rw [show (s.mu .indices).writer = s.imu.writer from rfl, ht] at this
  injection this with this
  exact this.symm

theorem knows_crash {cfg : Cfg} {o : Oracle} {t : Tid} {β : Type} {a : Act β} {s : Shared} {P : DocRequest → Prop} {h : Held}
    {k : β → Prog Ret} {e : Crash} (hl : a.isLock = false) (he : exec cfg o t a s = .crash e)
    (hk : Knows P cfg.tok h s.heap (.act a k)) : Knows P cfg.tok h s.heap (.crash e) := by
  unfold Knows at hk ⊢
  by_cases hc : h.imu = .write
  · rw [if_pos hc] at hk ⊢
    cases a
    case docAppend p d =>
      obtain ⟨mi, hmi, _⟩ := hk
      simp only [exec, hmi] at he
      cases he
    case postAdd p tk nx =>
      obtain ⟨mi, hmi, _⟩ := hk
      simp only [exec, hmi] at he
      cases he
    case evalEngine => exact absurd hk id
    case render => exact absurd hk id
    case slRead => exact hk.1
    case slWrite => exact hk.1
    case slAppend => exact hk.1
    all_goals first | exact absurd hl Bool.noConfusion | exact nomatch he
  · rw [if_neg hc]
    exact ⟨0, Nat.zero_le _, trivial⟩

theorem whole_invoke {cfg : Cfg} {P : DocRequest → Prop} {c : Config} {H : Tid → Held} (i : LockInv c H)
    (w : WholeInv P cfg.tok c H) (op : Op) (o : Oracle) (hP : ∀ d, op.puts = some d → P d) :
    WholeInv P cfg.tok { c with calls := c.calls ++ [{ op := op, oracle := o, prog := op.prog cfg }] } H := by
  refine ⟨w.ok, ?_, w.ptrs⟩
  intro t x hx
  simp only at hx
  by_cases ht : t < c.calls.length
  · rw [List.getElem?_append_left ht] at hx; exact w.knows t x hx
  · rw [List.getElem?_append_right (Nat.le_of_not_lt ht)] at hx
    have : t - c.calls.length = 0 := by
      cases hh : t - c.calls.length with
      | zero => rfl
      | succ n => rw [hh] at hx; simp at hx
    rw [this] at hx
    simp only [List.getElem?_cons_zero, Option.some.injEq] at hx
    subst hx
    rw [i.fresh t (Nat.le_of_not_lt ht)]
    unfold Knows
    rw [if_neg (by simp)]
    exact ⟨0, Nat.zero_le _, whole_op cfg op hP⟩

theorem other_writes {c : Config} {H : Tid → Held} (i : LockInv c H) {t u : Tid} (hut : u ≠ t) (hw : (H t).imu = .write) :
    (H u).imu ≠ .write := by
  intro hu
  have := link_excl i.link (Ne.symm hut) .indices (by simp [Held.get, hw, Mode.excl])
  simp [Held.get, hu, Mode.shared] at this

/-- No call holds the index mutex when another is about to take it. -/
theorem acquire_alone {c : Config} {H : Tid → Held} (i : LockInv c H) {t : Tid} {d : Discipline} {β : Type} {a : Act β}
    (hd : Allowed d (H t) a) (hacq : a.acquires = some .indices) (u : Tid) : (H u).imu ≠ .write := by
  intro hu
  have hpend := allowed_acquires hd hacq
  have hw := ((i.link .indices).wr t).2 (Or.inl hpend)
  have := only_writer i.link hw hu
  subst this
  simp only [Held.get] at hpend
  rw [hpend] at hu; cases hu

theorem whole_moved {cfg : Cfg} {P : DocRequest → Prop} {s s' : Shared} {calls : List Thread} {H : Tid → Held} {t : Tid} {op : Op}
    {o : Oracle} {β : Type} {a : Act β} {k : β → Prog Ret} {b : β} {d : Discipline} (i : LockInv ⟨s, calls⟩ H)
    (w : WholeInv P cfg.tok ⟨s, calls⟩ H) (h : calls[t]? = some { op := op, oracle := o, prog := .act a k })
    (hd : Allowed d (H t) a) (he : exec cfg o t a s = .ok b s') :
    WholeInv P cfg.tok ⟨s', calls.set t { op := op, oracle := o, prog := k b }⟩ (setH H t ((H t).after a)) := by
  have hk := knows_exec hd he (fun hacq => w.ok fun u hu => acquire_alone i hd hacq u hu) w.ptrs (w.knows t _ h)
  refine ⟨?_, ?_, hk.ptrs⟩
  · intro hall
    by_cases hw : (H t).imu = .write
    · exact hk.done hw (by have := hall t; rwa [setH_same] at this)
    · have heq : s'.heap = s.heap := Classical.byContradiction fun h => hw (hk.own h)
      show HeapOk P cfg.tok s'.heap
      rw [heq]
      refine w.ok fun u => ?_
      by_cases hut : u = t
      · subst hut; exact hw
      · have := hall u; rwa [setH_other _ _ hut] at this
  · intro u x hx
    simp only at hx
    by_cases hut : u = t
    · subst hut
      rw [List.getElem?_set_self (List.getElem?_eq_some_iff.1 h).1] at hx
      injection hx with hx; subst hx
      rw [setH_same]
      exact hk.knows
    · rw [List.getElem?_set_ne (Ne.symm hut)] at hx
      rw [setH_other _ _ hut]
      refine (w.knows u x hx).grow hk.grow fun hw => ?_
      exact Classical.byContradiction fun hne => other_writes i hut (hk.own hne) hw

theorem whole_crashed {cfg : Cfg} {P : DocRequest → Prop} {s : Shared} {calls : List Thread} {H : Tid → Held} {t : Tid} {op : Op}
    {o : Oracle} {β : Type} {a : Act β} {k : β → Prog Ret} {e : Crash} {d : Discipline} (i : LockInv ⟨s, calls⟩ H)
    (w : WholeInv P cfg.tok ⟨s, calls⟩ H) (h : calls[t]? = some { op := op, oracle := o, prog := .act a k })
    (hd : Allowed d (H t) a) (he : exec cfg o t a s = .crash e) :
    WholeInv P cfg.tok ⟨s, calls.set t { op := op, oracle := o, prog := .crash e }⟩ H := by
  refine ⟨w.ok, ?_, w.ptrs⟩
  intro u x hx
  simp only at hx
  by_cases hut : u = t
  · subst hut
    rw [List.getElem?_set_self (List.getElem?_eq_some_iff.1 h).1] at hx
    injection hx with hx; subst hx
    exact knows_crash (lock_no_crash i.link hd he) he (w.knows u _ h)
  · rw [List.getElem?_set_ne (Ne.symm hut)] at hx
    exact w.knows u x hx

theorem whole_step {cfg : Cfg} {P : DocRequest → Prop} {c c' : Config} {H : Tid → Held} (i : LockInv c H)
    (w : WholeInv P cfg.tok c H) (hP : ∀ x ∈ c'.calls, ∀ d, x.op.puts = some d → P d) (hs : Step cfg c c') :
    ∃ H', LockInv c' H' ∧ WholeInv P cfg.tok c' H' := by
  cases hs with
  | invoke op o =>
    exact ⟨H, lockInv_invoke i op o, whole_invoke i w op o (hP { op := op, oracle := o, prog := op.prog cfg } (by simp))⟩
  | move t h =>
    cases h with
    | act h he =>
      obtain ⟨d, hd⟩ := (i.good t _ h).allowed
      exact ⟨_, lockInv_act i h hd he, whole_moved i w h hd he⟩
    | crash h he =>
      obtain ⟨d, hd⟩ := (i.good t _ h).allowed
      exact ⟨H, lockInv_crash i h hd he, whole_crashed i w h hd he⟩

/-- Calls are never forgotten. -/
theorem step_calls {cfg : Cfg} {c c' : Config} (hs : Step cfg c c') {t : Tid} {x : Thread} (hx : c.calls[t]? = some x) :
    ∃ x', c'.calls[t]? = some x' ∧ x'.op = x.op ∧ x'.oracle = x.oracle := by
  have hlt := (List.getElem?_eq_some_iff.1 hx).1
  cases hs with
  | invoke op o =>
    exact ⟨x, by simp only; rw [List.getElem?_append_left hlt]; exact hx, rfl, rfl⟩
  | move u h =>
    cases h with
    | act h he =>
      simp only
      by_cases hut : u = t
      · subst hut
        rw [h] at hx; injection hx with hx; subst hx
        exact ⟨_, List.getElem?_set_self hlt, rfl, rfl⟩
      · exact ⟨x, by rw [List.getElem?_set_ne hut]; exact hx, rfl, rfl⟩
    | crash h he =>
      simp only
      by_cases hut : u = t
      · subst hut
        rw [h] at hx; injection hx with hx; subst hx
        exact ⟨_, List.getElem?_set_self hlt, rfl, rfl⟩
      · exact ⟨x, by rw [List.getElem?_set_ne hut]; exact hx, rfl, rfl⟩

theorem whole_reachable {cfg : Cfg} {P : DocRequest → Prop} {c : Config} (hr : ConcReachable cfg c)
    (hP : ∀ x ∈ c.calls, ∀ d, x.op.puts = some d → P d) : ∃ H, LockInv c H ∧ WholeInv P cfg.tok c H := by
  unfold ConcReachable at hr
  generalize hc : Config.init = c0 at hr
  induction hr with
  | refl =>
    subst hc
    refine ⟨_, lockInv_init, ?_, ?_, ?_⟩
    · intro _ mi hmi; simp [Config.init, newIndexRepo] at hmi
    · intro t x hx; simp [Config.init] at hx
    · intro nm p hp; simp [Config.init, newIndexRepo] at hp
  | tail _ hs ih =>
    obtain ⟨H, i, w⟩ := ih (fun x hx d hd => by
      obtain ⟨t, ht⟩ := List.getElem?_of_mem hx
      obtain ⟨x', hx', hop, _⟩ := step_calls hs ht
      exact hP x' (List.mem_of_getElem? hx') d (hop ▸ hd))
    exact whole_step i w hP hs

/-- When no call is running every index is whole, also if a call that holds the mutex has panicked. -/
theorem WholeInv.quiet {P : DocRequest → Prop} {tok : Tokenizer} {c : Config} {H : Tid → Held} (i : LockInv c H)
    (w : WholeInv P tok c H) (hq : c.quiet) : HeapOk P tok c.sh.heap := by
  by_cases hw : ∃ t, (H t).imu = .write
  · obtain ⟨t, ht⟩ := hw
    by_cases hlt : t < c.calls.length
    · have hx : c.calls[t]? = some c.calls[t] := List.getElem?_eq_getElem hlt
      have hk := w.knows t _ hx
      have hn := hq _ (List.getElem_mem hlt)
      unfold Knows at hk
      rw [if_pos ht] at hk
      cases hp : c.calls[t].prog with
      | ret r => rw [hp] at hk; exact hk
      | crash e => rw [hp] at hk; exact hk
      | act a k => exact absurd (by rw [Thread.running, hp]; trivial) hn
    · rw [i.fresh t (Nat.le_of_not_lt hlt)] at ht
      cases ht
  · exact w.ok fun t ht => hw ⟨t, ht⟩

theorem steps_trans {cfg : Cfg} {c c' c'' : Config} (h : Steps cfg c c') (h' : Steps cfg c' c'') : Steps cfg c c'' := by
  induction h' with
  | refl => exact h
  | tail _ hs ih => exact .tail ih hs

end Visigoth
