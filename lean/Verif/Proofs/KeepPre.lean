import Verif.Proofs.KeepInv
/-!
# No `Put` to a bound name is lost: calls that were running before

What is known of calls that do not touch a name, from the start of an execution.
-/
namespace Visigoth

variable {cfg : Cfg} {n : Name} {p : Ptr}

/-- The call neither puts into `n` nor takes the index of `n` away or gives it another one. -/
def Op.spares (n : Name) (op : Op) : Prop := op.mine n = none ∧ ¬ op.moves n

/-- The rest of a program keeps the object `p`, whatever `n` is bound to. -/
def KeepsAny (cfg : Cfg) (n : Name) (p : Ptr) (v : KView) (q : Prog Ret) : Prop :=
  Retains cfg n p (fun _ => True) none [] (KeptEnd cfg.tok none fun _ => True) v q

/-- What a call knows of the object `p`, which may not exist yet. -/
def PreKnows (cfg : Cfg) (n : Name) (p : Ptr) (h : Held) (Hp : List MemoryIndex) (q : Prog Ret) : Prop :=
  if h.imu = .write then ∃ rsA mi, (p < Hp.length → Hp[p]? = some mi) ∧ KeepsAny cfg n p (.own rsA mi) q
  else ∃ d, KeepsAny cfg n p (.free d) q

theorem pre_same {β : Type} {a : Act β} {s s' : Shared} (b : β) {h : Held} {k : β → Prog Ret}
    (hdef : ∀ v Φ, wpK cfg n p (fun _ => True) none [] v a Φ → Φ v b) (hh : s'.heap = s.heap)
    (hw : (h.after a).imu = .write ↔ h.imu = .write) (hk : PreKnows cfg n p h s.heap (.act a k)) :
    PreKnows cfg n p (h.after a) s'.heap (k b) := by
  unfold PreKnows at hk ⊢
  rw [hh]
  by_cases hc : h.imu = .write
  · rw [if_pos hc] at hk
    rw [if_pos (hw.2 hc)]
    obtain ⟨rsA, mi, h1, h3⟩ := hk
    exact ⟨rsA, mi, h1, hdef _ _ h3.2⟩
  · rw [if_neg hc] at hk
    rw [if_neg (fun h' => hc (hw.1 h'))]
    obtain ⟨d, h2⟩ := hk
    exact ⟨d, hdef _ _ h2.2⟩

theorem pre_own {β : Type} {a : Act β} {Hp : List MemoryIndex} {h : Held} {k : β → Prog Ret}
    (hk : PreKnows cfg n p h Hp (.act a k)) (hf : ∀ d Φ, ¬ wpK cfg n p (fun _ => True) none [] (.free d) a Φ) :
    h.imu = .write ∧ ∃ rsA mi, (p < Hp.length → Hp[p]? = some mi) ∧
      wpK cfg n p (fun _ => True) none [] (.own rsA mi) a fun v' b => KeepsAny cfg n p v' (k b) := by
  unfold PreKnows at hk
  by_cases hc : h.imu = .write
  · rw [if_pos hc] at hk
    obtain ⟨rsA, mi, h1, h3⟩ := hk
    exact ⟨hc, rsA, mi, h1, h3.2⟩
  · rw [if_neg hc] at hk
    obtain ⟨d, h2⟩ := hk
    exact absurd h2.2 (hf d _)

theorem pre_heap {Hp : List MemoryIndex} {h : Held} {rsA : List DocRequest} {mi : MemoryIndex} {q : Prog Ret} (hc : h.imu = .write)
    (hmi : p < Hp.length → Hp[p]? = some mi) (hk : KeepsAny cfg n p (.own rsA mi) q) : PreKnows cfg n p h Hp q := by
  unfold PreKnows
  rw [if_pos hc]
  exact ⟨rsA, mi, hmi, hk⟩

/-- Effect of an action on what its call knows. -/
theorem pre_exec {o : Oracle} {t : Tid} {β : Type} {a : Act β} {s s' : Shared} {b : β} {d : Discipline}
    {h : Held} {k : β → Prog Ret} (ha : Allowed d h a) (he : exec cfg o t a s = .ok b s')
    (hcalm : a.calm = true → HeapOk (fun _ => True) cfg.tok s.heap) (hk : PreKnows cfg n p h s.heap (.act a k)) :
    PreKnows cfg n p (h.after a) s'.heap (k b) := by
  cases a
  case rlock m =>
    simp only [exec] at he
    split at he
    · injection he with hb he; subst he
      have hw : (h.after (.rlock m)).imu = .write ↔ h.imu = .write := by
        have := ha.2
        cases m <;> simp [Held.mayLock] at this <;> simp [Held.after, Held.set, this]
      exact pre_same (s := s) _ (fun v Φ hΦ => hΦ _) (by cases m <;> rfl) hw hk
    · exact absurd he (by simp)
  case runlock m =>
    simp only [exec] at he
    split at he
    · injection he with hb he; subst he
      have hw : (h.after (.runlock m)).imu = .write ↔ h.imu = .write := by
        have := ha.2
        cases m <;> simp [Held.get] at this <;> simp [Held.after, Held.set, this]
      exact pre_same (s := s) _ (fun v Φ hΦ => hΦ _) (by cases m <;> rfl) hw hk
    · exact absurd he (by simp)
  case announce m =>
    simp only [exec] at he
    split at he
    · injection he with hb he; subst he
      have hw : (h.after (.announce m)).imu = .write ↔ h.imu = .write := by
        have := ha.2
        cases m <;> simp [Held.mayLock] at this <;> simp [Held.after, Held.set, this]
      exact pre_same (s := s) _ (fun v Φ hΦ => hΦ _) (by cases m <;> rfl) hw hk
    · exact absurd he (by simp)
  case acquire m =>
    simp only [exec] at he
    split at he
    · split at he
      · injection he with hb he; subst he
        cases m with
        | aliases => exact pre_same (s := s) (a := .acquire .aliases) _ (fun v Φ hΦ => hΦ _) rfl Iff.rfl hk
        | indices =>
          have hp : h.imu = .pend := ha
          unfold PreKnows at hk
          rw [if_neg (by rw [hp]; simp)] at hk
          obtain ⟨dd, h2⟩ := hk
          have hall : ∀ rs nm, KeepsAny cfg n p (.own rs (buildIndex cfg.tok nm rs)) (k b) := by
            intro rs nm
            cases dd with
            | false => exact h2.2 rs nm
            | true => exact absurd h2.2 id
          have hok := hcalm rfl
          by_cases hlt : p < s.heap.length
          · obtain ⟨nm, rs, h3, _⟩ := hok _ (List.getElem_mem hlt)
            exact pre_heap rfl (fun _ => by rw [← h3]; exact List.getElem?_eq_getElem hlt) (hall rs nm)
          · exact pre_heap rfl (fun h => absurd h hlt) (hall [] [])
      · exact absurd he (by simp)
    · exact absurd he (by simp)
  case unlock m =>
    simp only [exec] at he
    split at he
    · injection he with hb he; subst he
      cases m with
      | aliases => exact pre_same (s := s) (a := .unlock .aliases) _ (fun v Φ hΦ => hΦ _) rfl Iff.rfl hk
      | indices =>
        obtain ⟨hc, rsA, mi, h1, _, h5⟩ := pre_own hk (fun _ _ h => h)
        have hnw : (h.after (.unlock .indices)).imu ≠ .write := by simp [Held.after, Held.set]
        unfold PreKnows
        rw [if_neg hnw]
        exact ⟨true, h5⟩
    · exact absurd he (by simp)
  case idxGet nm =>
    simp only [exec] at he
    injection he with hb he; subst he; subst hb
    exact pre_same (s := s) (a := .idxGet nm) _ (fun v Φ hΦ => hΦ _ fun _ => trivial) rfl Iff.rfl hk
  case idxSet nm q =>
    simp only [exec] at he
    injection he with hb he; subst he
    exact pre_same (s := s) (a := .idxSet nm q) _ (fun v Φ hΦ => hΦ.2) rfl Iff.rfl hk
  case idxDel nm =>
    simp only [exec] at he
    injection he with hb he; subst he
    exact pre_same (s := s) (a := .idxDel nm) _ (fun v Φ hΦ => hΦ.2) rfl Iff.rfl hk
  case newIndex nm =>
    simp only [exec] at he
    injection he with hb he; subst he; subst hb
    obtain ⟨hc, rsA, mi, h1, hk⟩ := pre_own hk (fun _ _ h => h)
    by_cases hq : s.heap.length = p
    · refine pre_heap hc (fun _ => ?_) ((hk _).2 hq nm)
      rw [← hq]
      simp [buildIndex]
    · refine pre_heap hc (fun hlt => ?_) ((hk _).1 hq)
      simp only [List.length_append, List.length_singleton] at hlt
      have hlt' : p < s.heap.length := Nat.lt_of_le_of_ne (Nat.le_of_lt_succ hlt) (Ne.symm hq)
      show (s.heap ++ [newMemoryIndex nm])[p]? = some mi
      rw [List.getElem?_append_left hlt']; exact h1 hlt'
  case docAppend q dd =>
    simp only [exec] at he
    obtain ⟨hc, rsA, mi, h1, hk⟩ := pre_own hk (fun _ _ h => h)
    split at he
    · next mi' hmi' =>
      injection he with hb he; subst he; subst hb
      by_cases hq : q = p
      · subst hq
        have hlt := (List.getElem?_eq_some_iff.1 hmi').1
        have := h1 hlt
        rw [hmi'] at this; cases this
        exact pre_heap hc (fun _ => List.getElem?_set_self hlt) (hk.1 rfl)
      · refine pre_heap hc (fun hlt => ?_) (hk.2 hq _)
        simp only [List.length_set] at hlt
        show (s.heap.set q _)[p]? = some mi
        rw [List.getElem?_set_ne hq]; exact h1 hlt
    · exact absurd he (by simp)
  case postAdd q tk nx =>
    simp only [exec] at he
    obtain ⟨hc, rsA, mi, h1, hk⟩ := pre_own hk (fun _ _ h => h)
    split at he
    · next mi' hmi' =>
      injection he with hb he; subst he
      by_cases hq : q = p
      · subst hq
        have hlt := (List.getElem?_eq_some_iff.1 hmi').1
        have := h1 hlt
        rw [hmi'] at this; cases this
        exact pre_heap hc (fun _ => List.getElem?_set_self hlt) (hk.1 rfl)
      · refine pre_heap hc (fun hlt => ?_) (hk.2 hq)
        simp only [List.length_set] at hlt
        show (s.heap.set q _)[p]? = some mi
        rw [List.getElem?_set_ne hq]; exact h1 hlt
    · exact absurd he (by simp)
  case evalEngine q ts e =>
    simp only [exec] at he
    split at he
    · next mi hmi =>
      injection he with hb he; subst he
      refine pre_same (s := s) (a := .evalEngine q ts e) _ (fun v Φ hΦ => ?_) rfl Iff.rfl hk
      cases v with
      | own => exact absurd hΦ id
      | free dd =>
        by_cases hq : q = p
        · subst hq
          obtain ⟨nm, rs, h3, _⟩ := hcalm rfl _ (List.mem_of_getElem? hmi)
          subst h3
          subst hb
          have := hΦ.1 rfl rs (.nil _)
          rwa [specSearch, ← search_name (nm := nm)] at this
        · exact hΦ.2 hq _
    · exact absurd he (by simp)
  case render q =>
    simp only [exec] at he
    split at he
    · injection he with hb he; subst he
      exact pre_same (s := s) (a := .render q) _ (fun v Φ hΦ => hΦ _) rfl Iff.rfl hk
    · exact absurd he (by simp)
  case schedule ps =>
    simp only [exec] at he
    injection he with hb he; subst he; subst hb
    exact pre_same (s := s) (a := .schedule ps) _ (fun v Φ hΦ => hΦ _ (choosePerm_perm _ _)) rfl Iff.rfl hk
  case idxKeys =>
    simp only [exec] at he
    injection he with hb he; subst he
    exact pre_same (s := s) (a := .idxKeys) _ (fun v Φ hΦ => hΦ _) rfl Iff.rfl hk
  case alKeys =>
    simp only [exec] at he
    injection he with hb he; subst he
    exact pre_same (s := s) (a := .alKeys) _ (fun v Φ hΦ => hΦ _) rfl Iff.rfl hk
  case alGet n =>
    simp only [exec] at he
    injection he with hb he; subst he
    exact pre_same (s := s) (a := .alGet n) _ (fun v Φ hΦ => hΦ _) rfl Iff.rfl hk
  case alSet n r =>
    simp only [exec] at he
    injection he with hb he; subst he
    exact pre_same (s := s) (a := .alSet n r) _ (fun v Φ hΦ => hΦ _) rfl Iff.rfl hk
  case alDel n =>
    simp only [exec] at he
    injection he with hb he; subst he
    exact pre_same (s := s) (a := .alDel n) _ (fun v Φ hΦ => hΦ _) rfl Iff.rfl hk
  case slNew l =>
    simp only [exec] at he
    injection he with hb he; subst he
    exact pre_same (s := s) (a := .slNew l) _ (fun v Φ hΦ => hΦ _) rfl Iff.rfl hk
  case slRead r i =>
    simp only [exec] at he
    split at he
    · injection he with hb he; subst he
      exact pre_same (s := s) (a := .slRead r i) _ (fun v Φ hΦ => hΦ.2 _) rfl Iff.rfl hk
    · exact absurd he (by simp)
  case slWrite r i v =>
    simp only [exec] at he
    split at he
    · split at he
      · injection he with hb he; subst he
        exact pre_same (s := s) (a := .slWrite r i v) _ (fun v Φ hΦ => hΦ.2 _) rfl Iff.rfl hk
      · exact absurd he (by simp)
    · exact absurd he (by simp)
  case slAppend r v =>
    simp only [exec] at he
    split at he
    · exact absurd he (by simp)
    · split at he
      · injection he with hb he; subst he
        exact pre_same (s := s) (a := .slAppend r v) _ (fun v Φ hΦ => hΦ.2 _) rfl Iff.rfl hk
      · injection he with hb he; subst he
        exact pre_same (s := s) (a := .slAppend r v) _ (fun v Φ hΦ => hΦ.2 _) rfl Iff.rfl hk

theorem pre_crash {o : Oracle} {t : Tid} {β : Type} {a : Act β} {s : Shared} {h : Held} {P : DocRequest → Prop}
    {k : β → Prog Ret} {e : Crash} (hl : a.isLock = false) (he : exec cfg o t a s = .crash e)
    (hw : Knows P cfg.tok h s.heap (.act a k)) (hk : PreKnows cfg n p h s.heap (.act a k)) :
    PreKnows cfg n p h s.heap (.crash e) := by
  unfold PreKnows at hk ⊢
  unfold Knows at hw
  by_cases hc : h.imu = .write
  · rw [if_pos hc] at hk hw ⊢
    obtain ⟨rsA, mi, h1, h3, hk⟩ := hk
    refine ⟨rsA, mi, h1, ?_⟩
    cases a
    case docAppend p d =>
      obtain ⟨mi, hmi, _⟩ := hw
      simp only [exec, hmi] at he
      cases he
    case postAdd p tk nx =>
      obtain ⟨mi, hmi, _⟩ := hw
      simp only [exec, hmi] at he
      cases he
    case evalEngine => exact absurd hw id
    case render => exact absurd hw id
    case slRead => exact hk.1
    case slWrite => exact hk.1
    case slAppend => exact hk.1
    all_goals first | exact absurd hl Bool.noConfusion | exact nomatch he
  · rw [if_neg hc]
    exact ⟨false, trivial⟩

/-- What is known from the start of an execution. -/
structure PreInv (cfg : Cfg) (n : Name) (p : Ptr) (c : Config) (H : Tid → Held) : Prop where
  knows : ∀ t x, c.calls[t]? = some x → x.op.spares n → PreKnows cfg n p (H t) c.sh.heap x.prog

theorem pre_step {c c' : Config} {H : Tid → Held} (i : LockInv c H) (w : WholeInv (fun _ => True) cfg.tok c H)
    (v : PreInv cfg n p c H) (hs : Step cfg c c') :
    ∃ H', LockInv c' H' ∧ WholeInv (fun _ => True) cfg.tok c' H' ∧ PreInv cfg n p c' H' := by
  cases hs with
  | invoke op o =>
    refine ⟨H, lockInv_invoke i op o, whole_invoke i w op o (fun _ _ => trivial), ⟨?_⟩⟩
    intro t x hx hop
    simp only at hx
    by_cases hlt : t < c.calls.length
    · rw [List.getElem?_append_left hlt] at hx; exact v.knows t x hx hop
    · rw [List.getElem?_append_right (Nat.le_of_not_lt hlt)] at hx
      have : t - c.calls.length = 0 := by
        cases hh : t - c.calls.length with
        | zero => rfl
        | succ n => rw [hh] at hx; simp at hx
      rw [this] at hx
      simp only [List.getElem?_cons_zero, Option.some.injEq] at hx
      subst hx
      rw [i.fresh t (Nat.le_of_not_lt hlt)]
      unfold PreKnows
      rw [if_neg (by simp)]
      have := keep_op (cfg := cfg) (n := n) (p := p) (K := fun _ => True) (base := []) (G := fun _ => True) op hop.2
        (fun h => absurd hop.1 h) (fun _ _ => trivial)
      simp only at hop
      rw [hop.1] at this
      exact ⟨false, this⟩
  | move t h =>
    cases h with
    | @act s s' calls op o β a k b h he =>
      obtain ⟨d, hd⟩ := (i.good t _ h).allowed
      refine ⟨_, lockInv_act i h hd he, whole_moved i w h hd he, ⟨?_⟩⟩
      have hk := knows_exec hd he (fun hacq => w.ok fun u hu => acquire_alone i hd hacq u hu) w.ptrs (w.knows t _ h)
      intro u x hx hop
      simp only at hx
      by_cases hut : u = t
      · subst hut
        rw [List.getElem?_set_self (List.getElem?_eq_some_iff.1 h).1] at hx
        injection hx with hx; subst hx
        rw [setH_same]
        have hv := v.knows u _ h hop
        refine pre_exec hd he (fun hc => w.ok fun u' => ?_) hv
        cases a
        case acquire m =>
          cases m
          · exact acquire_alone i hd rfl u'
          · exact nomatch hc
        case evalEngine q ts e =>
          refine eval_alone i h rfl (fun hw => ?_) u'
          have hw' := w.knows u _ h
          unfold Knows at hw'
          rw [if_pos hw] at hw'
          exact hw'
        all_goals exact nomatch hc
      · rw [List.getElem?_set_ne (Ne.symm hut)] at hx
        rw [setH_other _ _ hut]
        have hv := v.knows u x hx hop
        by_cases hw : (H u).imu = .write
        · have heq : s'.heap = s.heap := Classical.byContradiction fun hne => other_writes i hut (hk.own hne) hw
          show PreKnows cfg n p (H u) s'.heap x.prog
          rw [heq]; exact hv
        · unfold PreKnows at hv ⊢
          rw [if_neg hw] at hv ⊢
          exact hv
    | @crash s calls op o β a k e h he =>
      obtain ⟨d, hd⟩ := (i.good t _ h).allowed
      refine ⟨H, lockInv_crash i h hd he, whole_crashed i w h hd he, ⟨?_⟩⟩
      intro u x hx hop
      simp only at hx
      by_cases hut : u = t
      · subst hut
        rw [List.getElem?_set_self (List.getElem?_eq_some_iff.1 h).1] at hx
        injection hx with hx; subst hx
        exact pre_crash (lock_no_crash i.link hd he) he (w.knows u _ h) (v.knows u _ h hop)
      · rw [List.getElem?_set_ne (Ne.symm hut)] at hx
        exact v.knows u x hx hop

theorem pre_reachable {c : Config} (hr : ConcReachable cfg c) :
    ∃ H, LockInv c H ∧ WholeInv (fun _ => True) cfg.tok c H ∧ PreInv cfg n p c H := by
  unfold ConcReachable at hr
  generalize hc : Config.init = c0 at hr
  induction hr with
  | refl =>
    subst hc
    refine ⟨_, lockInv_init, ⟨?_, ?_, ?_⟩, ⟨?_⟩⟩
    · intro _ mi hmi; simp [Config.init, newIndexRepo] at hmi
    · intro t x hx; simp [Config.init] at hx
    · intro nm p hp; simp [Config.init, newIndexRepo] at hp
    · intro t x hx; simp [Config.init] at hx
  | tail _ hs ih =>
    obtain ⟨H, i, w, v⟩ := ih
    exact pre_step i w v hs

/-- Running calls apart, every index is whole. -/
theorem WholeInv.still {P : DocRequest → Prop} {tok : Tokenizer} {c : Config} {H : Tid → Held} (i : LockInv c H)
    (w : WholeInv P tok c H) (hq : ∀ t x, c.calls[t]? = some x → x.running → (H t).imu ≠ .write) : HeapOk P tok c.sh.heap := by
  by_cases hw : ∃ t, (H t).imu = .write
  · obtain ⟨t, ht⟩ := hw
    by_cases hlt : t < c.calls.length
    · have hx : c.calls[t]? = some c.calls[t] := List.getElem?_eq_getElem hlt
      have hk := w.knows t _ hx
      unfold Knows at hk
      rw [if_pos ht] at hk
      cases hp : c.calls[t].prog with
      | ret r => rw [hp] at hk; exact hk
      | crash e => rw [hp] at hk; exact hk
      | act a k => exact absurd ht (hq t _ hx (by rw [Thread.running, hp]; trivial))
    · rw [i.fresh t (Nat.le_of_not_lt hlt)] at ht
      cases ht
  · exact w.ok fun t ht => hw ⟨t, ht⟩

/-- The invariant when no call is running that may touch `n`. -/
theorem keep_start {c : Config} (hr : ConcReachable cfg c) (hq : ∀ x ∈ c.calls, x.running → x.op.spares n)
    (hn : c.sh.indices.get n = some p) :
    ∃ H A rs0, LockInv c H ∧ WholeInv (fun _ => True) cfg.tok c H ∧ KeepInv cfg n p rs0 c.calls.length c.calls.length A (fun _ => []) c H ∧
      (c.unwritten → ∃ nm, c.sh.heap[p]? = some (buildIndex cfg.tok nm rs0)) := by
  obtain ⟨H, i, w, v⟩ := pre_reachable (n := n) (p := p) hr
  have hlt := w.ptrs n p hn
  have put0 : ∀ rs0 : List DocRequest, rs0 ++ putsReturned n (c.calls.drop c.calls.length) = rs0 := by
    intro rs0; simp [putsReturned]
  -- calls since, and running calls
  let A : Tid → Prop := fun t => c.calls.length ≤ t ∨ ∃ x, c.calls[t]? = some x ∧ x.running
  have hA : ∀ t x, A t → c.calls[t]? = some x → x.running := by
    intro t x hA hx
    rcases hA with h | ⟨y, hy, hrun⟩
    · rw [List.getElem?_eq_none_iff.2 h] at hx; cases hx
    · rw [hx] at hy; cases hy; exact hrun
  have old : ∀ t x, ¬ A t → c.calls[t]? = some x → ¬ x.running := fun t x h hx hrun => h (Or.inr ⟨x, hx, hrun⟩)
  have know : ∀ rs0 : List DocRequest, (∀ t x rsA mi, c.calls[t]? = some x → x.running → (H t).imu = .write →
        c.sh.heap[p]? = some mi → KeepsAny cfg n p (.own rsA mi) x.prog → ∃ rsA, Extends rsA rs0 ∧ KeepsAny cfg n p (.own rsA mi) x.prog) →
      ∀ t x, A t → c.calls[t]? = some x →
        KeepKnows cfg n p (mineFrom n c.calls.length t x.op) [] (foundFrom cfg n c.calls.length t [] x.op) (H t) c.sh.heap rs0 x.prog := by
    intro rs0 hex t x ht hx
    have hrun := hA t x ht hx
    have hnl : ¬ c.calls.length ≤ t := Nat.not_le.2 (List.getElem?_eq_some_iff.1 hx).1
    rw [show mineFrom n c.calls.length t x.op = none from if_neg hnl]
    have conv : ∀ {u : KView}, KeepsAny cfg n p u x.prog →
        Retains cfg n p (· = some p) none [] (KeptEnd cfg.tok none (foundFrom cfg n c.calls.length t [] x.op)) u x.prog :=
      fun h => keep_any (keep_mono (fun _ _ h => ⟨h.1, fun h' => absurd h' hnl⟩) h)
    have hv := v.knows t x hx (hq x (List.mem_of_getElem? hx) hrun)
    unfold PreKnows at hv
    unfold KeepKnows
    split
    · next hw =>
      rw [if_pos hw] at hv
      obtain ⟨rsA, mi, h1, h2⟩ := hv
      obtain ⟨rsA', h3, h4⟩ := hex t x rsA mi hx hrun hw (h1 hlt) h2
      exact ⟨rsA', mi, h1 hlt, h3, conv h4⟩
    · next hw =>
      rw [if_neg hw] at hv
      obtain ⟨d, h⟩ := hv
      exact ⟨d, conv h⟩
  by_cases hw : ∃ t x, c.calls[t]? = some x ∧ x.running ∧ (H t).imu = .write
  · obtain ⟨t, x, hx, hrun, hwr⟩ := hw
    have hv := v.knows t x hx (hq x (List.mem_of_getElem? hx) hrun)
    unfold PreKnows at hv
    rw [if_pos hwr] at hv
    obtain ⟨rsA, mi, h1, h2⟩ := hv
    refine ⟨H, A, rsA, i, w, ⟨hn, Nat.le_refl _, fun t h => Or.inl h, old, fun _ => .nil _, ?_, ?_⟩, fun h => ?_⟩
    · intro h; exact absurd hwr (h t (Or.inr ⟨x, hx, hrun⟩))
    · rw [put0]
      refine know rsA fun u y rsB mi' hy _ hyw hmi' _ => ?_
      have : u = t := Classical.byContradiction fun hut => other_writes i hut hwr hyw
      subst this
      rw [hx] at hy; cases hy
      rw [h1 hlt] at hmi'; cases hmi'
      exact ⟨rsA, .refl _, h2⟩
    · exact absurd hrun (i.unwritten h hx hwr)
  · have hok := w.still i fun t x hx hrun hwr => hw ⟨t, x, hx, hrun, hwr⟩
    obtain ⟨nm, rs0, h1, _⟩ := hok _ (List.getElem_mem hlt)
    have h1' : c.sh.heap[p]? = some (buildIndex cfg.tok nm rs0) := by rw [List.getElem?_eq_getElem hlt, h1]
    refine ⟨H, A, rs0, i, w, ⟨hn, Nat.le_refl _, fun t h => Or.inl h, old, fun _ => .nil _, ?_, ?_⟩, fun _ => ⟨nm, h1'⟩⟩
    · intro _
      rw [put0]
      exact ⟨nm, rs0, h1', .refl _⟩
    · rw [put0]
      exact know rs0 fun t x _ _ hx hrun hwr => absurd ⟨t, x, hx, hrun, hwr⟩ hw

end Visigoth
