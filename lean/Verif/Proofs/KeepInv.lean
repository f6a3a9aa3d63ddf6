import Verif.Proofs.Keep
/-!
# No `Put` to a bound name is lost: executions
-/
namespace Visigoth

variable {cfg : Cfg} {n : Name} {p : Ptr} {mine : Option DocRequest} {base : List DocRequest} {G : Ret → Prop}

/-- What a call knows is true of the object `p`; `R` are the requests it is known to be made of. -/
def KeepKnows (cfg : Cfg) (n : Name) (p : Ptr) (mine : Option DocRequest) (base : List DocRequest) (G : Ret → Prop) (h : Held)
    (Hp : List MemoryIndex) (R : List DocRequest) (q : Prog Ret) : Prop :=
  if h.imu = .write then
    ∃ rsA mi, Hp[p]? = some mi ∧ Extends rsA R ∧ Retains cfg n p (· = some p) mine base (KeptEnd cfg.tok mine G) (.own rsA mi) q
  else ∃ d, Retains cfg n p (· = some p) mine base (KeptEnd cfg.tok mine G) (.free d) q

/-- The object `p` is whole and has the requests `R`. -/
def HasAll (tok : Tokenizer) (p : Ptr) (Hp : List MemoryIndex) (R : List DocRequest) : Prop :=
  ∃ nm rs, Hp[p]? = some (buildIndex tok nm rs) ∧ Extends rs R

/-- Actions made while no call may be changing indices. -/
def Act.calm {β : Type} : Act β → Bool
  | .acquire .indices | .evalEngine .. => true
  | _ => false

/-- Conclusion of `keep_exec`. -/
structure KeepAfter (cfg : Cfg) (n : Name) (p : Ptr) (mine : Option DocRequest) (base : List DocRequest) (G : Ret → Prop)
    (h h' : Held) (s s' : Shared) (R : List DocRequest) (q : Prog Ret) : Prop where
  index : s'.indices.get n = some p
  knows : KeepKnows cfg n p mine base G h' s'.heap R q
  own : s'.heap[p]? ≠ s.heap[p]? → h.imu = .write
  done : h.imu = .write → h'.imu ≠ .write → HasAll cfg.tok p s'.heap (R ++ mine.toList)
  busy : mine.isSome = true → (h.imu = .write → h'.imu = .write) → ∀ r, q ≠ .ret r

theorem own_ne (rsA : List DocRequest) (mi : MemoryIndex) : KView.own rsA mi ≠ .free true := nofun

theorem not_ret {q : Prog Ret} {v : KView} (hv : v ≠ .free true)
    (h : Retains cfg n p (· = some p) mine base (KeptEnd cfg.tok mine G) v q) (hm : mine.isSome = true) : ∀ r, q ≠ .ret r := by
  intro r hr
  subst hr
  have h1 := h.1
  cases v with
  | free d => exact hv (by rw [h1 hm])
  | own rsA mi => rw [h1.1] at hm; cases hm

/-- Actions that leave the object, the binding and the exclusive lock alone. -/
theorem keep_same {β : Type} {a : Act β} {s s' : Shared} (b : β) {h : Held} {R : List DocRequest} {k : β → Prog Ret}
    (hdef : ∀ v Φ, wpK cfg n p (· = some p) mine base v a Φ → Φ v b) (hh : s'.heap = s.heap) (hi : s'.indices.get n = some p)
    (hw : (h.after a).imu = .write ↔ h.imu = .write) (hk : KeepKnows cfg n p mine base G h s.heap R (.act a k)) :
    KeepAfter cfg n p mine base G h (h.after a) s s' R (k b) := by
  have key : KeepKnows cfg n p mine base G (h.after a) s'.heap R (k b) ∧ (mine.isSome = true → ∀ r, k b ≠ .ret r) := by
    unfold KeepKnows at hk ⊢
    rw [hh]
    by_cases hc : h.imu = .write
    · rw [if_pos hc] at hk
      rw [if_pos (hw.2 hc)]
      obtain ⟨rsA, mi, h1, h2, h3⟩ := hk
      exact ⟨⟨rsA, mi, h1, h2, hdef _ _ h3.2⟩, fun hm => not_ret (own_ne _ _) (hdef _ _ h3.2) hm⟩
    · rw [if_neg hc] at hk
      rw [if_neg (fun h' => hc (hw.1 h'))]
      obtain ⟨d, h2⟩ := hk
      exact ⟨⟨d, hdef _ _ h2.2⟩, fun hm => not_ret (h2.1 hm) (hdef _ _ h2.2) hm⟩
  exact ⟨hi, key.1, fun h => absurd (by rw [hh]) h, fun h1 h2 => absurd (hw.2 h1) h2, fun hm _ => key.2 hm⟩

theorem keep_own {β : Type} {a : Act β} {Hp : List MemoryIndex} {h : Held} {R : List DocRequest} {k : β → Prog Ret}
    (hk : KeepKnows cfg n p mine base G h Hp R (.act a k)) (hf : ∀ d Φ, ¬ wpK cfg n p (· = some p) mine base (.free d) a Φ) :
    h.imu = .write ∧ ∃ rsA mi, Hp[p]? = some mi ∧ Extends rsA R ∧
      wpK cfg n p (· = some p) mine base (.own rsA mi) a fun v' b => Retains cfg n p (· = some p) mine base (KeptEnd cfg.tok mine G) v' (k b) := by
  unfold KeepKnows at hk
  by_cases hc : h.imu = .write
  · rw [if_pos hc] at hk
    obtain ⟨rsA, mi, h1, h2, h3⟩ := hk
    exact ⟨hc, rsA, mi, h1, h2, h3.2⟩
  · rw [if_neg hc] at hk
    obtain ⟨d, h2⟩ := hk
    exact absurd h2.2 (hf d _)

/-- Actions of a call with the exclusive lock on the heap. -/
theorem keep_heap {β : Type} {a : Act β} {s : Shared} {Hp : List MemoryIndex} (b : β) {h : Held} {R rsA : List DocRequest}
    {mi : MemoryIndex} {k : β → Prog Ret} (hc : h.imu = .write) (hw : (h.after a).imu = .write) (hi : s.indices.get n = some p)
    (hmi : Hp[p]? = some mi) (hR : Extends rsA R)
    (hk : Retains cfg n p (· = some p) mine base (KeptEnd cfg.tok mine G) (.own rsA mi) (k b)) :
    KeepAfter cfg n p mine base G h (h.after a) s { s with heap := Hp } R (k b) := by
  refine ⟨hi, ?_, fun _ => hc, fun _ h2 => absurd hw h2, fun hm _ => not_ret (own_ne _ _) hk hm⟩
  unfold KeepKnows
  rw [if_pos hw]
  exact ⟨rsA, mi, hmi, hR, hk⟩

/-- Effect of an action on what its call knows of the object. -/
theorem keep_exec {o : Oracle} {t : Tid} {β : Type} {a : Act β} {s s' : Shared} {b : β} {d : Discipline}
    {h : Held} {R : List DocRequest} {k : β → Prog Ret}
    (ha : Allowed d h a) (he : exec cfg o t a s = .ok b s') (hi : s.indices.get n = some p)
    (hcalm : a.calm = true → HasAll cfg.tok p s.heap R) (hbase : Extends R base)
    (hptr : ∀ nm p, s.indices.get nm = some p → p < s.heap.length)
    (hk : KeepKnows cfg n p mine base G h s.heap R (.act a k)) :
    KeepAfter cfg n p mine base G h (h.after a) s s' R (k b) := by
  cases a
  case rlock m =>
    simp only [exec] at he
    split at he
    · injection he with hb he; subst he
      have hw : (h.after (.rlock m)).imu = .write ↔ h.imu = .write := by
        have := ha.2
        cases m <;> simp [Held.mayLock] at this <;> simp [Held.after, Held.set, this]
      exact keep_same _ (fun v Φ hΦ => hΦ _) (by cases m <;> rfl) (by cases m <;> exact hi) hw hk
    · exact absurd he (by simp)
  case runlock m =>
    simp only [exec] at he
    split at he
    · injection he with hb he; subst he
      have hw : (h.after (.runlock m)).imu = .write ↔ h.imu = .write := by
        have := ha.2
        cases m <;> simp [Held.get] at this <;> simp [Held.after, Held.set, this]
      exact keep_same _ (fun v Φ hΦ => hΦ _) (by cases m <;> rfl) (by cases m <;> exact hi) hw hk
    · exact absurd he (by simp)
  case announce m =>
    simp only [exec] at he
    split at he
    · injection he with hb he; subst he
      have hw : (h.after (.announce m)).imu = .write ↔ h.imu = .write := by
        have := ha.2
        cases m <;> simp [Held.mayLock] at this <;> simp [Held.after, Held.set, this]
      exact keep_same _ (fun v Φ hΦ => hΦ _) (by cases m <;> rfl) (by cases m <;> exact hi) hw hk
    · exact absurd he (by simp)
  case acquire m =>
    simp only [exec] at he
    split at he
    · split at he
      · injection he with hb he; subst he
        cases m with
        | aliases => exact keep_same (a := .acquire .aliases) _ (fun v Φ hΦ => hΦ _) rfl hi Iff.rfl hk
        | indices =>
          have hp : h.imu = .pend := ha
          unfold KeepKnows at hk
          rw [if_neg (by rw [hp]; simp)] at hk
          obtain ⟨dd, h2⟩ := hk
          obtain ⟨nm, rs, h3, h4⟩ := hcalm rfl
          have h5 : Retains cfg n p (· = some p) mine base (KeptEnd cfg.tok mine G) (.own rs (buildIndex cfg.tok nm rs)) (k b) := by
            cases dd with
            | false => exact h2.2 rs nm
            | true => exact absurd h2.2 id
          refine ⟨hi, ?_, fun h => absurd rfl h, fun h1 => ?_, fun hm _ => not_ret (own_ne _ _) h5 hm⟩
          · unfold KeepKnows
            rw [if_pos (by rfl)]
            exact ⟨rs, _, h3, h4, h5⟩
          · rw [hp] at h1; cases h1
      · exact absurd he (by simp)
    · exact absurd he (by simp)
  case unlock m =>
    simp only [exec] at he
    split at he
    · injection he with hb he; subst he
      cases m with
      | aliases => exact keep_same (a := .unlock .aliases) _ (fun v Φ hΦ => hΦ _) rfl hi Iff.rfl hk
      | indices =>
        obtain ⟨hc, rsA, mi, h1, h2, ⟨nm, rs, h3, h4⟩, h5⟩ := keep_own hk (fun _ _ h => h)
        have hnw : (h.after (.unlock .indices)).imu ≠ .write := by simp [Held.after, Held.set]
        refine ⟨hi, ?_, fun h => absurd rfl h, fun _ _ => ⟨nm, rs, by rw [← h3]; exact h1, h4.trans (h2.add _)⟩,
          fun _ h => absurd (h hc) hnw⟩
        unfold KeepKnows
        rw [if_neg hnw]
        exact ⟨true, h5⟩
    · exact absurd he (by simp)
  case idxGet nm =>
    simp only [exec] at he
    injection he with hb he; subst he; subst hb
    refine keep_same (a := .idxGet nm) _ (fun v Φ hΦ => ?_) rfl hi Iff.rfl hk
    exact hΦ _ fun hn => by rw [hn]; exact hi
  case idxSet nm q =>
    simp only [exec] at he
    injection he with hb he; subst he
    have hne : nm ≠ n := by
      unfold KeepKnows at hk
      split at hk
      · obtain ⟨_, _, _, _, h3⟩ := hk; exact h3.2.1
      · obtain ⟨_, h3⟩ := hk; exact h3.2.1
    refine keep_same (a := .idxSet nm q) _ (fun v Φ hΦ => hΦ.2) rfl ?_ Iff.rfl hk
    simp only [GoMap.get_set]
    rw [if_neg hne]; exact hi
  case idxDel nm =>
    simp only [exec] at he
    injection he with hb he; subst he
    have hne : nm ≠ n := by
      unfold KeepKnows at hk
      split at hk
      · obtain ⟨_, _, _, _, h3⟩ := hk; exact h3.2.1
      · obtain ⟨_, h3⟩ := hk; exact h3.2.1
    refine keep_same (a := .idxDel nm) _ (fun v Φ hΦ => hΦ.2) rfl ?_ Iff.rfl hk
    simp only [GoMap.get_delete]
    rw [if_neg hne]; exact hi
  case newIndex nm =>
    simp only [exec] at he
    injection he with hb he; subst he; subst hb
    obtain ⟨hc, rsA, mi, h1, h2, hk⟩ := keep_own hk (fun _ _ h => h)
    have hlt := hptr n p hi
    exact keep_heap (a := .newIndex nm) _ hc hc hi (by rw [List.getElem?_append_left hlt]; exact h1) h2
      ((hk _).1 (Nat.ne_of_gt hlt))
  case docAppend q dd =>
    simp only [exec] at he
    obtain ⟨hc, rsA, mi, h1, h2, hk⟩ := keep_own hk (fun _ _ h => h)
    by_cases hq : q = p
    · subst hq
      rw [h1] at he
      injection he with hb he; subst he; subst hb
      exact keep_heap (a := .docAppend q dd) _ hc hc hi (List.getElem?_set_self (List.getElem?_eq_some_iff.1 h1).1) h2 (hk.1 rfl)
    · split at he
      · injection he with hb he; subst he
        exact keep_heap (a := .docAppend q dd) _ hc hc hi (by rw [List.getElem?_set_ne hq]; exact h1) h2 (hk.2 hq _)
      · exact absurd he (by simp)
  case postAdd q tk nx =>
    simp only [exec] at he
    obtain ⟨hc, rsA, mi, h1, h2, hk⟩ := keep_own hk (fun _ _ h => h)
    by_cases hq : q = p
    · subst hq
      rw [h1] at he
      injection he with hb he; subst he
      exact keep_heap (a := .postAdd q tk nx) _ hc hc hi (List.getElem?_set_self (List.getElem?_eq_some_iff.1 h1).1) h2 (hk.1 rfl)
    · split at he
      · injection he with hb he; subst he
        exact keep_heap (a := .postAdd q tk nx) _ hc hc hi (by rw [List.getElem?_set_ne hq]; exact h1) h2 (hk.2 hq)
      · exact absurd he (by simp)
  case evalEngine q ts e =>
    simp only [exec] at he
    split at he
    · next mi hmi =>
      injection he with hb he; subst he
      refine keep_same (a := .evalEngine q ts e) _ (fun v Φ hΦ => ?_) rfl hi Iff.rfl hk
      cases v with
      | own => exact absurd hΦ id
      | free dd =>
        by_cases hq : q = p
        · subst hq
          obtain ⟨nm, rs, h3, h4⟩ := hcalm rfl
          rw [h3] at hmi
          injection hmi with hmi
          subst hmi
          subst hb
          have := hΦ.1 rfl rs (h4.trans hbase)
          rwa [specSearch, ← search_name (nm := nm)] at this
        · exact hΦ.2 hq _
    · exact absurd he (by simp)
  case render q =>
    simp only [exec] at he
    split at he
    · injection he with hb he; subst he
      exact keep_same (a := .render q) _ (fun v Φ hΦ => hΦ _) rfl hi Iff.rfl hk
    · exact absurd he (by simp)
  case schedule ps =>
    simp only [exec] at he
    injection he with hb he; subst he; subst hb
    exact keep_same (a := .schedule ps) _ (fun v Φ hΦ => hΦ _ (choosePerm_perm _ _)) rfl hi Iff.rfl hk
  case idxKeys =>
    simp only [exec] at he
    injection he with hb he; subst he
    exact keep_same (a := .idxKeys) _ (fun v Φ hΦ => hΦ _) rfl hi Iff.rfl hk
  case alKeys =>
    simp only [exec] at he
    injection he with hb he; subst he
    exact keep_same (a := .alKeys) _ (fun v Φ hΦ => hΦ _) rfl hi Iff.rfl hk
  case alGet n =>
    simp only [exec] at he
    injection he with hb he; subst he
    exact keep_same (a := .alGet n) _ (fun v Φ hΦ => hΦ _) rfl hi Iff.rfl hk
  case alSet n r =>
    simp only [exec] at he
    injection he with hb he; subst he
    exact keep_same (a := .alSet n r) _ (fun v Φ hΦ => hΦ _) rfl hi Iff.rfl hk
  case alDel n =>
    simp only [exec] at he
    injection he with hb he; subst he
    exact keep_same (a := .alDel n) _ (fun v Φ hΦ => hΦ _) rfl hi Iff.rfl hk
  case slNew l =>
    simp only [exec] at he
    injection he with hb he; subst he
    exact keep_same (a := .slNew l) _ (fun v Φ hΦ => hΦ _) rfl hi Iff.rfl hk
  case slRead r i =>
    simp only [exec] at he
    split at he
    · injection he with hb he; subst he
      exact keep_same (a := .slRead r i) _ (fun v Φ hΦ => hΦ.2 _) rfl hi Iff.rfl hk
    · exact absurd he (by simp)
  case slWrite r i v =>
    simp only [exec] at he
    split at he
    · split at he
      · injection he with hb he; subst he
        exact keep_same (a := .slWrite r i v) _ (fun v Φ hΦ => hΦ.2 _) rfl hi Iff.rfl hk
      · exact absurd he (by simp)
    · exact absurd he (by simp)
  case slAppend r v =>
    simp only [exec] at he
    split at he
    · exact absurd he (by simp)
    · split at he
      · injection he with hb he; subst he
        exact keep_same (a := .slAppend r v) _ (fun v Φ hΦ => hΦ.2 _) rfl hi Iff.rfl hk
      · injection he with hb he; subst he
        exact keep_same (a := .slAppend r v) _ (fun v Φ hΦ => hΦ.2 _) rfl hi Iff.rfl hk

theorem keep_crash {o : Oracle} {t : Tid} {β : Type} {a : Act β} {s : Shared} {h : Held} {P : DocRequest → Prop} {R : List DocRequest}
    {k : β → Prog Ret} {e : Crash} (hl : a.isLock = false) (he : exec cfg o t a s = .crash e)
    (hw : Knows P cfg.tok h s.heap (.act a k)) (hk : KeepKnows cfg n p mine base G h s.heap R (.act a k)) :
    KeepKnows cfg n p mine base G h s.heap R (.crash e) := by
  unfold KeepKnows at hk ⊢
  unfold Knows at hw
  by_cases hc : h.imu = .write
  · rw [if_pos hc] at hk hw ⊢
    obtain ⟨rsA, mi, h1, h2, h3, hk⟩ := hk
    refine ⟨rsA, mi, h1, h2, ?_⟩
    cases a
    case docAppend p d =>
      obtain ⟨mi, hmi, _⟩ := hw
      simp only [exec, hmi] at he
      cases he
    case postAdd p tk nx =>
      obtain ⟨mi, hmi, _⟩ := hw
      simp only [exec, hmi] at he
      cases he
    case evalEngine => exact absurd hw id
    case render => exact absurd hw id
    case slRead => exact hk.1
    case slWrite => exact hk.1
    case slAppend => exact hk.1
    all_goals first | exact absurd hl Bool.noConfusion | exact nomatch he
  · rw [if_neg hc]
    exact ⟨false, trivial⟩

/-- What is expected of call `t`, if calls are followed from the `N`-th on: the document it puts under `n`. -/
def mineFrom (n : Name) (N : Nat) (t : Tid) (op : Op) : Option DocRequest := if N ≤ t then op.mine n else none

/-- What it finds. -/
def foundFrom (cfg : Cfg) (n : Name) (N : Nat) (t : Tid) (base : List DocRequest) (op : Op) (r : Ret) : Prop :=
  N ≤ t → op.found cfg n base r

/-- What holds of `n` from the `N`-th call on; `A` are the calls since and the earlier ones that have not
ended, `bs t` are requests searches by call `t` must have in view if `t` is the `M`-th call or a later one. -/
structure KeepInv (cfg : Cfg) (n : Name) (p : Ptr) (rs0 : List DocRequest) (N M : Nat) (A : Tid → Prop) (bs : Tid → List DocRequest)
    (c : Config) (H : Tid → Held) : Prop where
  index : c.sh.indices.get n = some p
  size : N ≤ c.calls.length
  new : ∀ t, N ≤ t → A t
  old : ∀ t x, ¬ A t → c.calls[t]? = some x → ¬ x.running
  base : ∀ t, Extends (rs0 ++ putsReturned n (c.calls.drop N)) (bs t)
  free : (∀ t, A t → (H t).imu ≠ .write) → HasAll cfg.tok p c.sh.heap (rs0 ++ putsReturned n (c.calls.drop N))
  knows : ∀ t x, A t → c.calls[t]? = some x →
    KeepKnows cfg n p (mineFrom n N t x.op) (bs t) (foundFrom cfg n M t (bs t) x.op) (H t) c.sh.heap
      (rs0 ++ putsReturned n (c.calls.drop N)) x.prog

/-- The document of a call to `Put` that has returned. -/
def Thread.putIn (n : Name) (x : Thread) : Option DocRequest :=
  match x.op, x.prog with
  | .put m d, .ret _ => if m = n then some d else none
  | _, _ => none

theorem putsReturned_eq (n : Name) (calls : List Thread) : putsReturned n calls = calls.filterMap (Thread.putIn n) := rfl

theorem putIn_act {β : Type} {op : Op} {o : Oracle} {a : Act β} {k : β → Prog Ret} : Thread.putIn n ⟨op, o, .act a k⟩ = none := by
  cases op <;> rfl

theorem putIn_crash {op : Op} {o : Oracle} {e : Crash} : Thread.putIn n ⟨op, o, .crash e⟩ = none := by
  cases op <;> rfl

theorem putIn_ret {op : Op} {o : Oracle} {r : Ret} : Thread.putIn n ⟨op, o, .ret r⟩ = op.mine n := by
  cases op <;> rfl

theorem filterMap_set {α : Type _} {β : Type _} {f : α → Option β} : ∀ {l : List α} {i : Nat} {x y : α} {d : List β},
    l[i]? = some x → f x = none → (f y).toList = d → ((l.set i y).filterMap f).Perm (l.filterMap f ++ d)
  | [], i, x, y, d, h, _, _ => by simp at h
  | z :: zs, 0, x, y, d, h, hx, hy => by
    simp only [List.getElem?_cons_zero, Option.some.injEq] at h
    subst h
    simp only [List.set_cons_zero]
    cases hfy : f y with
    | none =>
      rw [hfy] at hy; subst hy
      simp [hfy, hx]
    | some b =>
      rw [hfy] at hy; subst hy
      simp only [List.filterMap_cons, hfy, hx, Option.toList_some]
      exact (List.perm_append_singleton b _).symm
  | z :: zs, i + 1, x, y, d, h, hx, hy => by
    simp only [List.getElem?_cons_succ] at h
    have := filterMap_set (l := zs) h hx hy
    simp only [List.set_cons_succ, List.filterMap_cons]
    cases f z with
    | none => exact this
    | some b => exact this.cons b

/-- The document of call `t` that has returned, if it is followed. -/
def putFrom (n : Name) (N : Nat) (t : Tid) (x : Thread) : Option DocRequest := if N ≤ t then x.putIn n else none

theorem putFrom_act {N : Nat} {t : Tid} {β : Type} {op : Op} {o : Oracle} {a : Act β} {k : β → Prog Ret} :
    putFrom n N t ⟨op, o, .act a k⟩ = none := by
  unfold putFrom
  rw [putIn_act]; split <;> rfl

theorem putFrom_crash {N : Nat} {t : Tid} {op : Op} {o : Oracle} {e : Crash} : putFrom n N t ⟨op, o, .crash e⟩ = none := by
  unfold putFrom
  rw [putIn_crash]; split <;> rfl

theorem putFrom_ret {N : Nat} {t : Tid} {op : Op} {o : Oracle} {r : Ret} : putFrom n N t ⟨op, o, .ret r⟩ = mineFrom n N t op := by
  unfold putFrom mineFrom
  rw [putIn_ret]

theorem putsReturned_set {calls : List Thread} {N : Nat} {t : Tid} {x y : Thread} (h : calls[t]? = some x) (hx : x.putIn n = none) :
    (putsReturned n ((calls.set t y).drop N)).Perm (putsReturned n (calls.drop N) ++ (putFrom n N t y).toList) := by
  unfold putFrom
  rw [List.drop_set]
  by_cases hN : N ≤ t
  · rw [if_neg (Nat.not_lt.2 hN), if_pos hN, putsReturned_eq, putsReturned_eq]
    refine filterMap_set (f := Thread.putIn n) (x := x) ?_ hx rfl
    rw [List.getElem?_drop, Nat.add_sub_cancel' hN]; exact h
  · rw [if_pos (Nat.lt_of_not_le hN), if_neg hN]
    simp

theorem prog_act (cfg : Cfg) (op : Op) : ∃ (β : Type) (a : Act β) (k : β → Prog Ret), op.prog cfg = .act a k := by
  cases op
  case unAlias al i =>
    show ∃ (β : Type) (a : Act β) (k : β → Prog Ret), (Repo.unAlias al i >>= fun b => pure (Ret.bool b)) = .act a k
    unfold Repo.unAlias
    split <;> exact ⟨_, _, _, rfl⟩
  all_goals exact ⟨_, _, _, rfl⟩

theorem HasAll.mono {tok : Tokenizer} {Hp : List MemoryIndex} {R R' : List DocRequest} (h : HasAll tok p Hp R) (hR : Extends R R') :
    HasAll tok p Hp R' := by
  obtain ⟨nm, rs, h1, h2⟩ := h
  exact ⟨nm, rs, h1, h2.trans hR⟩

theorem Extends.of_perm {a b : List DocRequest} (h : a.Perm b) : Extends a b := ⟨[], by simpa using h⟩

theorem KeepKnows.other {h : Held} {Hp Hp' : List MemoryIndex} {R R' : List DocRequest} {q : Prog Ret}
    (k : KeepKnows cfg n p mine base G h Hp R q) (hw : h.imu = .write → Hp'[p]? = Hp[p]? ∧ Extends R R') :
    KeepKnows cfg n p mine base G h Hp' R' q := by
  unfold KeepKnows at k ⊢
  split
  · next hh =>
    rw [if_pos hh] at k
    obtain ⟨rsA, mi, h1, h2, h3⟩ := k
    exact ⟨rsA, mi, by rw [(hw hh).1]; exact h1, h2.trans (hw hh).2, h3⟩
  · next hh => rw [if_neg hh] at k; exact k

/-- No call changes indices while another evaluates an engine. -/
theorem eval_alone {c : Config} {H : Tid → Held} (i : LockInv c H) {t : Tid} {x : Thread} (hx : c.calls[t]? = some x) {q : Ptr} {ts : Str}
    {e : Engine} {k : Option (List SearchResult) → Prog Ret} (hp : x.prog = .act (.evalEngine q ts e) k) (hnw : (H t).imu ≠ .write)
    (u : Tid) : (H u).imu ≠ .write := by
  intro hu
  have hg := i.good t x hx
  rw [hp] at hg
  by_cases hut : u = t
  · subst hut; exact hnw hu
  · have h1 := link_excl i.link hut .indices (by simp [Held.get, hu, Mode.excl])
    have h2 : (H t).imu.shared = true := by
      cases hop : x.op.isRename with
      | false => exact ((hg.1 hop).1).2.1 .indices rfl
      | true => exact ((hg.2 (by cases h : x.op <;> rw [h] at hop <;> first | rfl | cases hop)).1).2.1 .indices rfl
    simp only [Held.get] at h1
    rw [h1] at h2
    cases h2

theorem keep_step {P : DocRequest → Prop} {rs0 : List DocRequest} {N M : Nat} {A : Tid → Prop} {bs : Tid → List DocRequest} {c c' : Config} {H : Tid → Held}
    (i : LockInv c H) (w : WholeInv P cfg.tok c H) (hP : ∀ x ∈ c'.calls, ∀ d, x.op.puts = some d → P d)
    (v : KeepInv cfg n p rs0 N M A bs c H) (hm : ∀ x ∈ c'.calls.drop N, ¬ x.op.moves n) (hs : Step cfg c c') :
    ∃ H', LockInv c' H' ∧ WholeInv P cfg.tok c' H' ∧ KeepInv cfg n p rs0 N M A bs c' H' := by
  cases hs with
  | invoke op o =>
    refine ⟨H, lockInv_invoke i op o, whole_invoke i w op o (hP (Thread.mk op o (op.prog cfg)) (by simp)), ?_⟩
    obtain ⟨β, a, k, ha⟩ := prog_act cfg op
    have hR : putsReturned n ((c.calls ++ [Thread.mk op o (op.prog cfg)]).drop N) = putsReturned n (c.calls.drop N) := by
      rw [List.drop_append_of_le_length v.size, putsReturned_eq, List.filterMap_append, ← putsReturned_eq, ha]
      simp [putIn_act]
    refine ⟨v.index, ?_, v.new, ?_, ?_, ?_, ?_⟩
    · simp only [List.length_append]; exact Nat.le_trans v.size (Nat.le_add_right _ _)
    · intro t x ht hx
      simp only at hx
      have hN : t < N := Nat.lt_of_not_le fun h => ht (v.new t h)
      rw [List.getElem?_append_left (Nat.lt_of_lt_of_le hN v.size)] at hx
      exact v.old t x ht hx
    · simp only [hR]; exact v.base
    · simp only [hR]; exact v.free
    · simp only [hR]
      intro t x ht hx
      by_cases hlt : t < c.calls.length
      · rw [List.getElem?_append_left hlt] at hx; exact v.knows t x ht hx
      · have hNt : N ≤ t := Nat.le_trans v.size (Nat.le_of_not_lt hlt)
        have hmem := List.mem_of_getElem? (l := (c.calls ++ [Thread.mk op o (op.prog cfg)]).drop N) (i := t - N)
          (a := x) (by rw [List.getElem?_drop, Nat.add_sub_cancel' hNt]; exact hx)
        rw [List.getElem?_append_right (Nat.le_of_not_lt hlt)] at hx
        have : t - c.calls.length = 0 := by
          cases hh : t - c.calls.length with
          | zero => rfl
          | succ n => rw [hh] at hx; simp at hx
        rw [this] at hx
        simp only [List.getElem?_cons_zero, Option.some.injEq] at hx
        subst hx
        rw [i.fresh t (Nat.le_of_not_lt hlt)]
        unfold KeepKnows
        rw [if_neg (by simp)]
        rw [show mineFrom n N t op = op.mine n from if_pos hNt]
        exact ⟨false, keep_op op (hm _ hmem) (fun _ _ h => h) fun r h _ => h fun _ h => h⟩
  | move t h =>
    cases h with
    | @act s s' calls op o β a k b h he =>
      obtain ⟨d, hd⟩ := (i.good t _ h).allowed
      refine ⟨_, lockInv_act i h hd he, whole_moved i w h hd he, ?_⟩
      have hA : A t := Classical.byContradiction fun hA => v.old t _ hA h trivial
      have hk0 := v.knows t _ hA h
      have hk := keep_exec hd he v.index (fun hc => v.free fun u _ => by
          cases a
          case acquire m =>
            cases m
            · exact acquire_alone i hd rfl u
            · exact nomatch hc
          case evalEngine q ts e =>
            refine eval_alone i h rfl (fun hw => ?_) u
            unfold KeepKnows at hk0
            rw [if_pos hw] at hk0
            obtain ⟨_, _, _, _, h3⟩ := hk0
            exact h3.2
          all_goals exact nomatch hc) (v.base t) w.ptrs hk0
      simp only at hk
      have hput := putsReturned_set (n := n) (N := N) (y := { op := op, oracle := o, prog := k b }) h putIn_act
      have hsub : ∀ S, Extends (S ++ putsReturned n ((calls.set t { op := op, oracle := o, prog := k b }).drop N))
          (S ++ putsReturned n (calls.drop N)) := fun S => by
        refine ⟨(putFrom n N t (Thread.mk op o (k b))).toList, ?_⟩
        rw [List.append_assoc]
        exact hput.append_left S
      have hall : Extends (rs0 ++ putsReturned n (calls.drop N) ++ (mineFrom n N t op).toList)
          (rs0 ++ putsReturned n ((calls.set t { op := op, oracle := o, prog := k b }).drop N)) := by
        refine Extends.perm (b := rs0 ++ (putsReturned n (calls.drop N) ++ (putFrom n N t (Thread.mk op o (k b))).toList)) ?_
          (hput.append_left rs0).symm
        rw [← List.append_assoc]
        cases hkb : k b with
        | ret r => rw [putFrom_ret]; exact .refl _
        | crash e => rw [putFrom_crash]; exact ⟨(mineFrom n N t op).toList, by simp⟩
        | act a' k' => rw [putFrom_act]; exact ⟨(mineFrom n N t op).toList, by simp⟩
      have hsame : ((H t).imu = .write → ((H t).after a).imu = .write) →
          Extends (rs0 ++ putsReturned n (calls.drop N))
            (rs0 ++ putsReturned n ((calls.set t { op := op, oracle := o, prog := k b }).drop N)) := by
        intro hq
        refine Extends.perm (b := rs0 ++ (putsReturned n (calls.drop N) ++ (putFrom n N t (Thread.mk op o (k b))).toList)) ?_
          (hput.append_left rs0).symm
        have : putFrom n N t (Thread.mk op o (k b)) = none := by
          cases hkb : k b with
          | crash e => exact putFrom_crash
          | act a' k' => exact putFrom_act
          | ret r =>
            rw [putFrom_ret]
            cases hmine : mineFrom n N t op with
            | none => rfl
            | some dd => exact absurd hkb (hk.busy (by rw [hmine]; rfl) hq r)
        rw [this]
        simpa using Extends.refl _
      refine ⟨hk.index, ?_, v.new, ?_, fun u => (hsub rs0).trans (v.base u), ?_, ?_⟩
      · simp only [List.length_set]; exact v.size
      · intro u x hu hx
        simp only at hx
        rw [List.getElem?_set_ne (fun e => hu (by rw [← e]; exact hA))] at hx
        exact v.old u x hu hx
      · intro hno
        by_cases hw : (H t).imu = .write
        · exact (hk.done hw (by have := hno t hA; rwa [setH_same] at this)).mono hall
        · have heq : s'.heap[p]? = s.heap[p]? := Classical.byContradiction fun h => hw (hk.own h)
          have := v.free fun u hu => by
            by_cases hut : u = t
            · subst hut; exact hw
            · have := hno u hu; rwa [setH_other _ _ hut] at this
          obtain ⟨nm, rs, h1, h2⟩ := this
          exact ⟨nm, rs, heq.trans h1, h2.trans (hsame fun h => absurd h hw)⟩
      · intro u x hu hx
        simp only at hx
        by_cases hut : u = t
        · subst hut
          rw [List.getElem?_set_self (List.getElem?_eq_some_iff.1 h).1] at hx
          injection hx with hx; subst hx
          rw [setH_same]
          exact hk.knows.other fun hw => ⟨rfl, hsame fun _ => hw⟩
        · rw [List.getElem?_set_ne (Ne.symm hut)] at hx
          rw [setH_other _ _ hut]
          refine (v.knows u x hu hx).other fun hw => ⟨?_, hsame fun h => ?_⟩
          · exact Classical.byContradiction fun hne => other_writes i hut (hk.own hne) hw
          · exact absurd hw (other_writes i hut h)
    | @crash s calls op o β a k e h he =>
      obtain ⟨d, hd⟩ := (i.good t _ h).allowed
      refine ⟨H, lockInv_crash i h hd he, whole_crashed i w h hd he, ?_⟩
      have hA : A t := Classical.byContradiction fun hA => v.old t _ hA h trivial
      have hput := putsReturned_set (n := n) (N := N) (y := { op := op, oracle := o, prog := .crash e }) h putIn_act
      rw [putFrom_crash] at hput
      have hput := hput.append_left rs0
      simp only [Option.toList_none, List.append_nil] at hput
      refine ⟨v.index, ?_, v.new, ?_, fun u => (Extends.of_perm hput).trans (v.base u), ?_, ?_⟩
      · simp only [List.length_set]; exact v.size
      · intro u x hu hx
        simp only at hx
        rw [List.getElem?_set_ne (fun e => hu (by rw [← e]; exact hA))] at hx
        exact v.old u x hu hx
      · intro hno; exact (v.free hno).mono (Extends.of_perm hput.symm)
      · intro u x hu hx
        simp only at hx
        by_cases hut : u = t
        · subst hut
          rw [List.getElem?_set_self (List.getElem?_eq_some_iff.1 h).1] at hx
          injection hx with hx; subst hx
          exact (keep_crash (lock_no_crash i.link hd he) he (w.knows u _ h) (v.knows u _ hA h)).other fun _ =>
            ⟨rfl, Extends.of_perm hput.symm⟩
        · rw [List.getElem?_set_ne (Ne.symm hut)] at hx
          exact (v.knows u x hu hx).other fun _ => ⟨rfl, Extends.of_perm hput.symm⟩

theorem keep_steps {rs0 : List DocRequest} {N M : Nat} {A : Tid → Prop} {bs : Tid → List DocRequest} {c c' : Config} {H : Tid → Held}
    (i : LockInv c H) (w : WholeInv (fun _ => True) cfg.tok c H) (v : KeepInv cfg n p rs0 N M A bs c H) (hs : Steps cfg c c')
    (hm : ∀ x ∈ c'.calls.drop N, ¬ x.op.moves n) :
    ∃ H', LockInv c' H' ∧ WholeInv (fun _ => True) cfg.tok c' H' ∧ KeepInv cfg n p rs0 N M A bs c' H' := by
  induction hs with
  | refl => exact ⟨H, i, w, v⟩
  | tail _ hs ih =>
    obtain ⟨H', i', w', v'⟩ := ih (by
      intro x hx
      obtain ⟨j, hj⟩ := List.getElem?_of_mem hx
      rw [List.getElem?_drop] at hj
      obtain ⟨x', hx', hop, _⟩ := step_calls hs hj
      rw [← hop]
      refine hm x' (List.mem_of_getElem? (i := j) ?_)
      rw [List.getElem?_drop]; exact hx')
    exact keep_step i' w' (fun _ _ _ _ => trivial) v' hm hs

theorem quiet_unwritten {c : Config} (h : c.quiet) : c.unwritten :=
  fun _ x hx hr => absurd hr (h x (List.mem_of_getElem? hx))

theorem LockInv.unwritten {c : Config} {H : Tid → Held} (i : LockInv c H) (h : c.unwritten) {t : Tid} {x : Thread}
    (hx : c.calls[t]? = some x) (ht : (H t).imu = .write) : ¬ x.running :=
  fun hr => h t x hx hr ⟨((i.link .indices).wr t).2 (Or.inr ht), (i.link .indices).excl t ht⟩

/-- The object when no running call is writing. -/
theorem KeepInv.quiet {rs0 : List DocRequest} {N M : Nat} {A : Tid → Prop} {bs : Tid → List DocRequest} {c : Config} {H : Tid → Held}
    (i : LockInv c H) (v : KeepInv cfg n p rs0 N M A bs c H) (hq : c.unwritten) :
    HasAll cfg.tok p c.sh.heap (rs0 ++ putsReturned n (c.calls.drop N)) := by
  by_cases hw : ∃ t, A t ∧ (H t).imu = .write
  · obtain ⟨t, hN, ht⟩ := hw
    by_cases hlt : t < c.calls.length
    · have hk := v.knows t _ hN (List.getElem?_eq_getElem hlt)
      have hn := i.unwritten hq (List.getElem?_eq_getElem hlt) ht
      unfold KeepKnows at hk
      rw [if_pos ht] at hk
      obtain ⟨rsA, mi, h1, h2, h3⟩ := hk
      have : (KView.own rsA mi).ok cfg.tok := by
        cases hp : c.calls[t].prog with
        | ret r => rw [hp] at h3; exact h3.1.2
        | crash e => rw [hp] at h3; exact h3
        | act a k => exact absurd (by rw [Thread.running, hp]; trivial) hn
      obtain ⟨nm, rs, h4, h5⟩ := this
      exact ⟨nm, rs, by rw [h1, h4], h5.trans h2⟩
    · rw [i.fresh t (Nat.le_of_not_lt hlt)] at ht
      cases ht
  · exact v.free fun t hN ht => hw ⟨t, hN, ht⟩

/-- Later searches have what has been put so far in view. -/
theorem KeepInv.later {rs0 : List DocRequest} {N M : Nat} {A : Tid → Prop} {bs : Tid → List DocRequest} {c : Config} {H : Tid → Held}
    (v : KeepInv cfg n p rs0 N M A bs c H) :
    KeepInv cfg n p rs0 N M A (fun t => if c.calls.length ≤ t then rs0 ++ putsReturned n (c.calls.drop N) else bs t) c H := by
  refine ⟨v.index, v.size, v.new, v.old, fun t => ?_, v.free, fun t x hN hx => ?_⟩
  · split
    · exact .refl _
    · exact v.base t
  · have := v.knows t x hN hx
    rwa [if_neg (Nat.not_le.2 (List.getElem?_eq_some_iff.1 hx).1)]

end Visigoth
