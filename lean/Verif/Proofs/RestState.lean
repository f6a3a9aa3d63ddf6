import Verif.Proofs.AtRest
import Verif.Proofs.Leak
import Verif.Proofs.Calls
import Verif.Spec.RestState
/-!
# The repository when all calls have returned
-/
namespace Visigoth

variable {cfg : Cfg}

theorem Config.done.quiet {c : Config} (h : c.done) : c.quiet := by
  intro x hx hr
  obtain ⟨r, h⟩ := h x hx
  rw [Thread.running, h] at hr
  exact hr

universe u

theorem countP_range {α : Type u} (p : α → Bool) (l : List α) :
    l.countP p = (List.range l.length).countP fun t => (l[t]?).any p := by
  have : (List.range l.length).map (fun t => l[t]?) = l.map some := by
    apply List.ext_getElem
    · simp
    · intro i h1 h2; simp at h1 ⊢
  have h2 : (List.range l.length).countP (fun t => (l[t]?).any p) = ((List.range l.length).map (fun t => l[t]?)).countP (fun o => o.any p) := by
    rw [List.countP_map]; rfl
  rw [h2, this, List.countP_map]
  rfl

theorem countP_split {α : Type} {p q r : α → Bool} : ∀ {l : List α},
    (∀ x ∈ l, (p x = false ∧ q x = false ∧ r x = false) ∨ (p x = true ∧ q x = true ∧ r x = false) ∨ (p x = true ∧ q x = false ∧ r x = true)) →
    l.countP p = l.countP q + l.countP r
  | [], _ => rfl
  | x :: l, h => by
    have ih := countP_split (l := l) fun y hy => h y (.tail _ hy)
    simp only [List.countP_cons, ih]
    rcases h x (.head _) with ⟨h1, h2, h3⟩ | ⟨h1, h2, h3⟩ | ⟨h1, h2, h3⟩ <;> rw [h1, h2, h3] <;> simp <;> omega

/-- What a returned call holds, and whether it has kept a lock. -/
theorem held_leaks {c : Config} {H : Tid → Held} (i : LockInv c H) {t : Tid} {x : Thread} {r : Ret} (hx : c.calls[t]? = some x)
    (hr : x.prog = .ret r) : (H t = {} ∧ x.leaks = false) ∨ (H t = { imu := .read } ∧ x.leaks = true) ∨ (H t = { amu := .write } ∧ x.leaks = true) := by
  have he := returned_end i hx hr
  unfold Thread.leaks
  rw [hr]
  cases hop : x.op with
  | unAlias al j =>
    rw [hop] at he
    simp only [endOf] at he
    split at he
    · next hj =>
      have : j = [] := List.length_eq_zero_iff.1 hj
      refine .inl ⟨he, ?_⟩
      cases r with
      | bool b => cases b <;> simp [this]
      | _ => rfl
    · next hj =>
      have hj' : j ≠ [] := fun h => hj (by rw [h]; rfl)
      rcases he with ⟨rfl, h⟩ | ⟨rfl, h | h⟩
      · exact .inl ⟨h, rfl⟩
      · exact .inr (.inl ⟨h, by simp [hj']⟩)
      · exact .inr (.inr ⟨h, by simp [hj']⟩)
  | _ => rw [hop] at he; exact .inl ⟨he, rfl⟩

theorem held_none {c : Config} {H : Tid → Held} (i : LockInv c H) (hd : c.done) (t : Tid) :
    H t = {} ∨ H t = { imu := .read } ∨ H t = { amu := .write } := by
  by_cases hlt : t < c.calls.length
  · obtain ⟨r, hr⟩ := hd _ (List.getElem_mem hlt)
    rcases held_leaks i (List.getElem?_eq_getElem hlt) hr with h | h | h
    · exact .inl h.1
    · exact .inr (.inl h.1)
    · exact .inr (.inr h.1)
  · exact .inl (i.fresh t (Nat.le_of_not_lt hlt))

/-- The locks when all calls have returned. -/
theorem done_locks {c : Config} {H : Tid → Held} (i : LockInv c H) (hd : c.done) : c.sh.imu.writer = none ∧ c.sh.amu.readers = [] ∧
    c.sh.imu.readers.length + c.sh.amu.writer.isSome.toNat = c.calls.countP Thread.leaks := by
  have hI := i.link .indices
  have hA := i.link .aliases
  have h3 := held_none i hd
  refine ⟨?_, ?_, ?_⟩
  · cases hw : c.sh.imu.writer with
    | none => rfl
    | some t =>
      have := (hI.wr t).1 hw
      rcases h3 t with h | h | h <;> rw [h] at this <;> simp [Held.get] at this
  · apply List.eq_nil_iff_forall_not_mem.2
    intro t ht
    have := (hA.mem t).1 ht
    rcases h3 t with h | h | h <;> rw [h] at this <;> simp [Held.get] at this
  · have lt : ∀ t, H t ≠ {} → t < c.calls.length := fun t h => Nat.lt_of_not_le fun hle => h (i.fresh t hle)
    have e1 : c.sh.imu.readers.length = (List.range c.calls.length).countP fun t => (H t).imu = .read := by
      rw [List.countP_eq_length_filter]
      refine ((List.perm_ext_iff_of_nodup hI.nodup (List.nodup_range.filter _)).2 fun t => ?_).length_eq
      simp only [List.mem_filter, List.mem_range, decide_eq_true_eq]
      refine ⟨fun h => ?_, fun h => (hI.mem t).2 h.2⟩
      have := (hI.mem t).1 h
      refine ⟨lt t fun h0 => ?_, this⟩
      rw [h0] at this; cases this
    have e2 : c.sh.amu.writer.isSome.toNat = (List.range c.calls.length).countP fun t => (H t).amu = .write := by
      have hl : c.sh.amu.writer.isSome.toNat = c.sh.amu.writer.toList.length := by cases c.sh.amu.writer <;> rfl
      rw [hl, List.countP_eq_length_filter]
      refine ((List.perm_ext_iff_of_nodup (by cases c.sh.amu.writer <;> simp) (List.nodup_range.filter _)).2 fun t => ?_).length_eq
      simp only [List.mem_filter, List.mem_range, decide_eq_true_eq, Option.mem_toList]
      refine ⟨fun h => ?_, fun h => (hA.wr t).2 (.inr h.2)⟩
      have := (hA.wr t).1 h
      rcases h3 t with h | h | h <;> rw [h] at this <;> simp [Held.get] at this
      exact ⟨lt t (by rw [h]; nofun), by rw [h]⟩
    rw [e1, e2, countP_range Thread.leaks]
    symm
    refine countP_split fun t ht => ?_
    have hlt := List.mem_range.1 ht
    obtain ⟨r, hr⟩ := hd _ (List.getElem_mem hlt)
    rw [List.getElem?_eq_getElem hlt]
    rcases held_leaks i (List.getElem?_eq_getElem hlt) hr with ⟨h1, h2⟩ | ⟨h1, h2⟩ | ⟨h1, h2⟩
    · exact .inl ⟨by simpa using h2, by rw [h1]; rfl, by rw [h1]; rfl⟩
    · exact .inr (.inl ⟨by simpa using h2, by rw [h1]; rfl, by rw [h1]; rfl⟩)
    · exact .inr (.inr ⟨by simpa using h2, by rw [h1]; rfl, by rw [h1]; rfl⟩)

/-- When all calls have returned, the repository is in a state of the specification for one caller. -/
theorem abs_done {c : Config} (hr : ConcReachable cfg c) (hd : c.done) : ∃ a, Abs cfg c.sh a ∧
    (∀ n rs, a.docs n = some rs → rs ≠ [] ∧ ∀ r ∈ rs, ∃ x ∈ c.calls, ∃ n, x.op = .put n r) ∧
    a.leakedReaders + a.leakedWriter.toNat = c.calls.countP Thread.leaks := by
  have hq := hd.quiet
  obtain ⟨H, i, w⟩ := whole_reachable (P := fun r => ∃ y ∈ c.calls, ∃ n, y.op = .put n r) hr (by
    intro x hx d hd
    refine ⟨x, hx, ?_⟩
    cases hop : x.op <;> rw [hop] at hd <;> simp only [Op.puts, reduceCtorEq, Option.some.injEq] at hd
    subst hd
    exact ⟨_, rfl⟩)
  have hok := w.quiet i hq
  obtain ⟨hinj, hN⟩ := inj_quiet hr hq
  obtain ⟨_, _, P, _, v⟩ := rowsInv_reachable hr
  obtain ⟨l1, l2, l3⟩ := done_locks i hd
  have hrs : ∀ n, ∃ o : Option (List DocRequest), match c.sh.indices.get n with
      | none => o = none
      | some p => ∃ nm rs, o = some rs ∧ c.sh.heap[p]? = some (buildIndex cfg.tok nm rs) ∧ rs ≠ [] ∧
          ∀ r ∈ rs, ∃ x ∈ c.calls, ∃ n, x.op = .put n r := by
    intro n
    cases hg : c.sh.indices.get n with
    | none => exact ⟨none, rfl⟩
    | some p =>
      have hlt := hN.bound n p hg
      obtain ⟨nm, rs, h1, h2, h3⟩ := hok _ (List.getElem_mem hlt)
      exact ⟨some rs, nm, rs, rfl, by rw [List.getElem?_eq_getElem hlt, h1], h3, h2⟩
  obtain ⟨D, hD⟩ := Classical.axiomOfChoice hrs
  refine ⟨⟨D, fun n => alView c.sh.arrays c.sh.aliases n, c.sh.imu.readers.length, c.sh.amu.writer.isSome⟩,
    ⟨⟨hN.nodup, fun n p hp => ?_, fun n hn => ?_, hinj⟩, v.table.ok, fun _ => rfl, rfl, l1, l2, rfl⟩, fun n rs h => ?_, l3⟩
  · have := hD n
    rw [hp] at this
    obtain ⟨nm, rs, h1, h2, _⟩ := this
    exact ⟨nm, rs, h1, h2⟩
  · have := hD n
    rw [hn] at this
    exact this
  · have := hD n
    simp only at h
    rw [h] at this
    split at this
    · cases this
    · obtain ⟨nm, rs', h1, _, h2⟩ := this
      cases h1
      exact h2

/-! ## A call made when no other is running -/

/-- A lone call does what it does when run. -/
theorem lone_run {c c1 : Config} (hq : c.quiet) (hs : Steps cfg c c1) : ∀ {x : Thread}, c1.calls = c.calls ++ [x] →
    run cfg x.oracle c.calls.length x.prog c1.sh = run cfg x.oracle c.calls.length (x.op.prog cfg) c.sh ∨ ∃ e, x.prog = .crash e ∧
      run cfg x.oracle c.calls.length (x.op.prog cfg) c.sh = .crash e := by
  have key : ∀ c1, Steps cfg c c1 → (c1 = c ∨ ∃ y ys, c1.calls = c.calls ++ y :: ys) ∧ ∀ x, c1.calls = c.calls ++ [x] →
      run cfg x.oracle c.calls.length x.prog c1.sh = run cfg x.oracle c.calls.length (x.op.prog cfg) c.sh ∨ ∃ e, x.prog = .crash e ∧
        run cfg x.oracle c.calls.length (x.op.prog cfg) c.sh = .crash e := by
    intro c1 hs
    induction hs with
    | refl => exact ⟨.inl rfl, fun x h => absurd (congrArg List.length h) (by simp)⟩
    | @tail c2 c3 h hs ih =>
      cases hs with
      | invoke op o =>
        refine ⟨.inr ?_, fun x hx => ?_⟩
        · rcases ih.1 with rfl | ⟨y, ys, h⟩
          · exact ⟨_, [], rfl⟩
          · exact ⟨y, _, by simp only; rw [h, List.append_assoc, List.cons_append]⟩
        · rcases ih.1 with rfl | ⟨y, ys, h⟩
          · simp only [List.append_cancel_left_eq, List.cons.injEq, and_true] at hx
            subst hx
            exact .inl rfl
          · simp only at hx
            rw [h] at hx
            exact absurd (congrArg List.length hx) (by simp)
      | move t hm =>
        have base : ∀ {calls : List Thread} {s : Shared} {x : Thread}, c2 = ⟨s, calls⟩ → calls[t]? = some x → x.running →
            ∃ y ys, calls = c.calls ++ y :: ys ∧ c.calls.length ≤ t := by
          intro calls s x hc hx hrun
          rcases ih.1 with h | ⟨y, ys, h⟩
          · rw [hc] at h; subst h
            exact absurd hrun (hq x (List.mem_of_getElem? hx))
          · rw [hc] at h
            refine ⟨y, ys, h, Nat.le_of_not_lt fun hlt => ?_⟩
            simp only at h
            rw [h, List.getElem?_append_left hlt] at hx
            exact hq x (List.mem_of_getElem? hx) hrun
        have shape : ∀ {calls : List Thread} {x' : Thread} {y : Thread} {ys : List Thread}, calls = c.calls ++ y :: ys →
            c.calls.length ≤ t → t < calls.length → ∃ y' ys', calls.set t x' = c.calls ++ y' :: ys' ∧ ys'.length = ys.length ∧
              (t = c.calls.length → y' = x') := by
          intro calls x' y ys hc hle hlt
          subst hc
          rw [List.set_append_right _ _ hle]
          cases hd : t - c.calls.length with
          | zero => exact ⟨x', ys, rfl, rfl, fun _ => rfl⟩
          | succ n => exact ⟨y, ys.set n x', rfl, by simp, fun h => by rw [h] at hd; simp at hd⟩
        have lone : ∀ {calls : List Thread} {x x' z : Thread} {y : Thread} {ys : List Thread}, calls = c.calls ++ y :: ys →
            c.calls.length ≤ t → calls[t]? = some x → calls.set t x' = c.calls ++ [z] →
            t = c.calls.length ∧ calls = c.calls ++ [x] ∧ z = x' := by
          intro calls x x' z y ys hc hle hx hz
          have hlt := (List.getElem?_eq_some_iff.1 hx).1
          have hl := congrArg List.length hz
          rw [List.length_set] at hl
          have ht : t = c.calls.length := by
            simp at hl
            have : (t : Nat) < c.calls.length + 1 := hl ▸ hlt
            exact Nat.le_antisymm (Nat.le_of_lt_succ this) hle
          have hys : ys = [] := by
            apply List.length_eq_zero_iff.1
            have := congrArg List.length hc
            simp at this hl; omega
          subst hys ht
          subst hc
          simp at hx hz
          subst hx
          exact ⟨rfl, rfl, hz.symm⟩
        cases hm with
        | @act s s' calls op o β a k b hx he =>
          obtain ⟨y, ys, h1, h2⟩ := base rfl hx trivial
          have hlt := (List.getElem?_eq_some_iff.1 hx).1
          refine ⟨.inr ?_, fun z hz => ?_⟩
          · obtain ⟨y', ys', h3, _⟩ := shape (x' := ⟨op, o, k b⟩) h1 h2 hlt
            exact ⟨y', ys', h3⟩
          · obtain ⟨ht, hc, rfl⟩ := lone h1 h2 hx hz
            rcases ih.2 _ hc with h | ⟨e, h, _⟩
            · refine .inl ?_
              rw [← h]
              simp only [run]
              rw [← ht, he]
            · cases h
        | @crash s calls op o β a k e hx he =>
          obtain ⟨y, ys, h1, h2⟩ := base rfl hx trivial
          have hlt := (List.getElem?_eq_some_iff.1 hx).1
          refine ⟨.inr ?_, fun z hz => ?_⟩
          · obtain ⟨y', ys', h3, _⟩ := shape (x' := ⟨op, o, .crash e⟩) h1 h2 hlt
            exact ⟨y', ys', h3⟩
          · obtain ⟨ht, hc, rfl⟩ := lone h1 h2 hx hz
            rcases ih.2 _ hc with h | ⟨e, h, _⟩
            · refine .inr ⟨e, rfl, ?_⟩
              rw [← h]
              simp only [run]
              rw [← ht, he]
            · cases h
  exact fun {x} hx => (key c1 hs).2 x hx

/-- Running a call is an execution. -/
theorem run_lone (cs : List Thread) (op : Op) (o : Oracle) : ∀ (p : Prog Ret) (s : Shared),
    match run cfg o cs.length p s with
    | .ok r s' => Steps cfg ⟨s, cs ++ [⟨op, o, p⟩]⟩ ⟨s', cs ++ [⟨op, o, .ret r⟩]⟩
    | .crash e => ∃ s', Steps cfg ⟨s, cs ++ [⟨op, o, p⟩]⟩ ⟨s', cs ++ [⟨op, o, .crash e⟩]⟩
    | .hang s' => ∃ (β : Type) (a : Act β) (k : β → Prog Ret), Steps cfg ⟨s, cs ++ [⟨op, o, p⟩]⟩ ⟨s', cs ++ [⟨op, o, .act a k⟩]⟩ ∧
        exec cfg o cs.length a s' = .blocked
  | .ret r, s => .refl _
  | .crash e, s => ⟨s, .refl _⟩
  | .act a k, s => by
    have front : ∀ {c c1 c2 : Config}, Step cfg c c1 → Steps cfg c1 c2 → Steps cfg c c2 := by
      intro c c1 c2 h1 h2
      induction h2 with
      | refl => exact .tail (.refl _) h1
      | tail _ hs ih => exact .tail ih hs
    have hx : (cs ++ [⟨op, o, .act a k⟩])[cs.length]? = some (⟨op, o, .act a k⟩ : Thread) := by simp
    simp only [run]
    cases he : exec cfg o cs.length a s with
    | blocked => exact ⟨_, a, k, .refl _, he⟩
    | crash e =>
      refine ⟨s, ?_⟩
      have := TStep.crash hx he
      rw [List.set_append_right _ _ (Nat.le_refl _), Nat.sub_self] at this
      exact .tail (.refl _) (.move _ this)
    | ok b s1 =>
      have h1 := TStep.act hx he
      rw [List.set_append_right _ _ (Nat.le_refl _), Nat.sub_self] at h1
      have h1 : Step cfg ⟨s, cs ++ [⟨op, o, .act a k⟩]⟩ ⟨s1, cs ++ [⟨op, o, k b⟩]⟩ := .move _ h1
      have ih := run_lone cs op o (k b) s1
      simp only
      split <;> rename_i hrun <;> rw [hrun] at ih
      · exact front h1 ih
      · obtain ⟨s', h⟩ := ih; exact ⟨s', front h1 h⟩
      · obtain ⟨β, a', k', h, hb⟩ := ih; exact ⟨β, a', k', front h1 h, hb⟩

end Visigoth
