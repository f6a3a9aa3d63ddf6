import Verif.Spec.HappensBefore
import Verif.Proofs.Progress
/-!
# Conflicting accesses are ordered by the mutexes
-/
namespace Visigoth

variable {cfg : Cfg}

/-- What a call holds after the events. -/
def heldOf (es : List Event) (t : Tid) : Held := es.foldl (fun h e => if e.tid = t then h.after e.act else h) {}

theorem heldOf_snoc (es : List Event) (e : Event) :
    heldOf (es ++ [e]) = setH (heldOf es) e.tid ((heldOf es e.tid).after e.act) := by
  funext t
  simp only [heldOf, List.foldl_append, List.foldl_cons, List.foldl_nil, setH]
  by_cases h : t = e.tid
  · subst h; simp
  · have h' : e.tid ≠ t := fun x => h x.symm
    simp [h, h']

theorem heldOf_step {es : List Event} {n : Nat} {e : Event} (h : es[n]? = some e) (t : Tid) :
    heldOf (es.take (n + 1)) t = if e.tid = t then (heldOf (es.take n) t).after e.act else heldOf (es.take n) t := by
  have hl := List.getElem?_eq_some_iff.1 h
  obtain ⟨hl, he⟩ := hl
  have : es.take (n + 1) = es.take n ++ [e] := by rw [List.take_add_one, h]; rfl
  rw [this, heldOf_snoc]
  simp only [setH]
  by_cases ht : t = e.tid
  · subst ht; simp
  · have h' : e.tid ≠ t := fun x => ht x.symm
    simp [ht, h']

/-- The mutexes are held as the events say. -/
theorem traced_inv {es : List Event} {c : Config} (h : Traced cfg Config.init es c) : LockInv c (heldOf es) := by
  induction h with
  | start => exact lockInv_init
  | call _ op o ih => exact lockInv_invoke ih op o
  | act _ hc he ih =>
    obtain ⟨d, hd⟩ := (ih.good _ _ hc).allowed
    rw [heldOf_snoc]
    exact lockInv_act ih hc hd he
  | @crash es s calls t op o β a k e _ hc he ih =>
    obtain ⟨d, hd⟩ := (ih.good _ _ hc).allowed
    have : heldOf (es ++ [{ tid := t, act := a }]) = heldOf es := by
      rw [heldOf_snoc, after_data (lock_no_crash ih.link hd he)]
      funext u
      simp only [setH]
      split
      · next h => rw [h]
      · rfl
    rw [this]
    exact lockInv_crash ih hc hd he

theorem kept_ops {calls : List Thread} {t : Tid} {op : Op} {o : Oracle} {p : Prog Ret} (q : Prog Ret)
    (h : calls[t]? = some { op := op, oracle := o, prog := p }) :
    (calls.set t { op := op, oracle := o, prog := q }).map (·.op) = calls.map (·.op) := by
  refine List.ext_getElem? fun u => ?_
  by_cases hu : t = u
  · subst hu
    rw [List.getElem?_map, List.getElem?_map, List.getElem?_set_self (List.getElem?_eq_some_iff.1 h).1, h]
    rfl
  · simp [hu]

/-- The situation in which an event happens. -/
theorem traced_at {c₀ : Config} {es : List Event} {c : Config} (h : Traced cfg c₀ es c) {n : Nat} {e : Event}
    (hn : es[n]? = some e) : ∃ c' op o k, Traced cfg c₀ (es.take n) c' ∧
      c'.calls[e.tid]? = some { op := op, oracle := o, prog := .act e.act k } ∧
      c'.calls.map (·.op) <+: c.calls.map (·.op) := by
  induction h with
  | start => simp at hn
  | call _ op o ih =>
    obtain ⟨c', op, o, k, h1, h2, h3⟩ := ih hn
    exact ⟨c', op, o, k, h1, h2, h3.trans (by simp)⟩
  | @act es s s' calls t op o β a k b h hc he ih =>
    by_cases hl : n < es.length
    · rw [List.getElem?_append_left hl] at hn
      obtain ⟨c', op', o', k', h1, h2, h3⟩ := ih hn
      refine ⟨c', op', o', k', by rw [List.take_append_of_le_length (Nat.le_of_lt hl)]; exact h1, h2, ?_⟩
      rw [kept_ops _ hc]; exact h3
    · rw [List.getElem?_append_right (Nat.le_of_not_lt hl)] at hn
      have hne : n = es.length := by
        have := (List.getElem?_eq_some_iff.1 hn).1
        simp at this; omega
      subst hne
      simp at hn
      subst hn
      exact ⟨_, op, o, k, by simpa using h, hc, by rw [kept_ops _ hc]; exact List.prefix_rfl⟩
  | @crash es s calls t op o β a k e h hc he ih =>
    by_cases hl : n < es.length
    · rw [List.getElem?_append_left hl] at hn
      obtain ⟨c', op', o', k', h1, h2, h3⟩ := ih hn
      refine ⟨c', op', o', k', by rw [List.take_append_of_le_length (Nat.le_of_lt hl)]; exact h1, h2, ?_⟩
      rw [kept_ops _ hc]; exact h3
    · rw [List.getElem?_append_right (Nat.le_of_not_lt hl)] at hn
      have hne : n = es.length := by
        have := (List.getElem?_eq_some_iff.1 hn).1
        simp at this; omega
      subst hne
      simp at hn
      subst hn
      exact ⟨_, op, o, k, by simpa using h, hc, by rw [kept_ops _ hc]; exact List.prefix_rfl⟩

/-- Every event follows the discipline of its call. -/
theorem traced_allowed {es : List Event} {c : Config} (h : Traced cfg Config.init es c) {n : Nat} {e : Event}
    (hn : es[n]? = some e) : ∃ d, Allowed d (heldOf (es.take n) e.tid) e.act := by
  obtain ⟨c', op, o, k, h1, h2, -⟩ := traced_at h hn
  exact ((traced_inv h1).good _ _ h2).allowed

/-- What different calls hold at the same time is compatible. -/
theorem traced_compat {es : List Event} {c : Config} (h : Traced cfg Config.init es c) (n : Nat) {t u : Tid} (htu : t ≠ u) :
    Compat (heldOf (es.take n) t) (heldOf (es.take n) u) := by
  cases hn : es[n]? with
  | none =>
    rw [List.take_of_length_le (List.getElem?_eq_none_iff.1 hn)]
    exact link_compat (traced_inv h).link htu
  | some e =>
    obtain ⟨c', op, o, k, h1, -, -⟩ := traced_at h hn
    exact link_compat (traced_inv h1).link htu

theorem releases_of {d : Discipline} {h : Held} {β : Type} {a : Act β} {m : Mu} (ha : Allowed d h a)
    (h1 : (h.get m).shared = true) (h2 : (h.after a).get m ≠ h.get m) : a.releases = some (m, (h.get m).excl) := by
  obtain ⟨hi, hm⟩ := h
  cases a <;> try exact absurd rfl h2
  all_goals
    rename_i m'
    cases m <;> cases m' <;> cases hi <;> cases hm <;>
      simp_all [Allowed, Held.quiet, Held.mayLock, Held.after, Held.set, Held.get, Mode.shared, Mode.excl, Act.releases]

theorem takes_of {d : Discipline} {h : Held} {β : Type} {a : Act β} {m : Mu} (ha : Allowed d h a)
    (h1 : ((h.after a).get m).shared = true) (h2 : (h.after a).get m ≠ h.get m) :
    a.takes = some (m, ((h.after a).get m).excl) := by
  obtain ⟨hi, hm⟩ := h
  cases a <;> try exact absurd rfl h2
  all_goals
    rename_i m'
    cases m <;> cases m' <;> cases hi <;> cases hm <;>
      simp_all [Allowed, Held.quiet, Held.mayLock, Held.after, Held.set, Held.get, Mode.shared, Mode.excl, Act.takes]

/-- What is no longer held has been released. -/
theorem traced_released {es : List Event} {c : Config} (h : Traced cfg Config.init es c) {t : Tid} {m : Mu} {x : Mode}
    (hx : x.shared = true) {i : Nat} (hi : (heldOf (es.take i) t).get m = x) :
    ∀ j, i ≤ j → j ≤ es.length → (heldOf (es.take j) t).get m ≠ x →
      ∃ k e, i ≤ k ∧ k < j ∧ es[k]? = some e ∧ e.tid = t ∧ e.act.releases = some (m, x.excl) := by
  intro j
  induction j with
  | zero => intro h1 _ h2; exact absurd (Nat.le_zero.1 h1 ▸ hi) h2
  | succ j ih =>
    intro h1 hl h2
    by_cases hij : i = j + 1
    · exact absurd (hij ▸ hi) h2
    · by_cases hj : (heldOf (es.take j) t).get m = x
      · have hlt : j < es.length := hl
        have hg : es[j]? = some es[j] := List.getElem?_eq_getElem hlt
        rw [heldOf_step hg] at h2
        by_cases ht : es[j].tid = t
        · rw [if_pos ht] at h2
          obtain ⟨d, hd⟩ := traced_allowed h hg
          rw [ht] at hd
          refine ⟨j, es[j], by omega, by omega, hg, ht, ?_⟩
          have := releases_of (m := m) hd (hj ▸ hx) (fun e => h2 (e.trans hj))
          rw [hj] at this
          exact this
        · rw [if_neg ht] at h2
          exact absurd hj h2
      · obtain ⟨k, e, a1, a2, a3⟩ := ih (by omega) (by omega) hj
        exact ⟨k, e, a1, by omega, a3⟩

/-- What is held has been taken, and kept. -/
theorem traced_taken {es : List Event} {c : Config} (h : Traced cfg Config.init es c) {t : Tid} {m : Mu} {y : Mode}
    (hy : y.shared = true) : ∀ j, j ≤ es.length → (heldOf (es.take j) t).get m = y →
      ∃ k e, k < j ∧ es[k]? = some e ∧ e.tid = t ∧ e.act.takes = some (m, y.excl) ∧
        ∀ n, k < n → n ≤ j → (heldOf (es.take n) t).get m = y := by
  intro j
  induction j with
  | zero =>
    intro _ h1
    have : y = .none := by rw [← h1]; cases m <;> rfl
    subst this; cases hy
  | succ j ih =>
    intro hl h2
    by_cases hj : (heldOf (es.take j) t).get m = y
    · obtain ⟨k, e, a1, a2, a3, a4, a5⟩ := ih (by omega) hj
      refine ⟨k, e, by omega, a2, a3, a4, fun n hn hnj => ?_⟩
      by_cases hnj' : n = j + 1
      · subst hnj'; exact h2
      · exact a5 n hn (by omega)
    · have hlt : j < es.length := hl
      have hg : es[j]? = some es[j] := List.getElem?_eq_getElem hlt
      have h3 := h2
      rw [heldOf_step hg] at h2
      by_cases ht : es[j].tid = t
      · rw [if_pos ht] at h2
        obtain ⟨d, hd⟩ := traced_allowed h hg
        rw [ht] at hd
        refine ⟨j, es[j], by omega, hg, ht, ?_, fun n hn hnj => ?_⟩
        · have := takes_of (m := m) hd (by rw [h2]; exact hy) (by rw [h2]; exact fun e => hj e.symm)
          rw [h2] at this
          exact this
        · have : n = j + 1 := by omega
          subst this; exact h3
      · rw [if_neg ht] at h2
        exact absurd h2 hj

/-- A mutex that both calls hold, one of them exclusively, orders what they do. -/
theorem ordered_by {es : List Event} {c : Config} (h : Traced cfg Config.init es c) {i j : Nat} {e e' : Event} (hij : i < j)
    (hi : es[i]? = some e) (hj : es[j]? = some e') (ht : e.tid ≠ e'.tid) (hr : e.act.releases = none)
    (hc : ¬ Compat (heldOf (es.take i) e.tid) (heldOf (es.take j) e'.tid)) : HB es i j := by
  have : ∃ m, ((heldOf (es.take i) e.tid).get m).shared = true ∧ ((heldOf (es.take j) e'.tid).get m).shared = true ∧
      (((heldOf (es.take i) e.tid).get m).excl = true ∨ ((heldOf (es.take j) e'.tid).get m).excl = true) := by
    have imp : ∀ x : Mode, x.excl = true → x.shared = true := by intro x; cases x <;> decide
    refine Classical.byContradiction fun hn => hc fun m => ⟨fun h1 => ?_, fun h1 => ?_⟩
    · refine Bool.eq_false_iff.2 fun h2 => hn ⟨m, imp _ h1, h2, .inl h1⟩
    · refine Bool.eq_false_iff.2 fun h2 => hn ⟨m, h2, imp _ h1, .inr h1⟩
  obtain ⟨m, hx, hy, hxy⟩ := this
  have hjl : j < es.length := (List.getElem?_eq_some_iff.1 hj).1
  obtain ⟨k', f', a1, a2, a3, a4, a5⟩ := traced_taken h hy j (Nat.le_of_lt hjl) rfl
  -- the other call does not hold the mutex any more when this one takes it
  have clash : ∀ n, k' < n → n ≤ j → (heldOf (es.take n) e.tid).get m ≠ (heldOf (es.take i) e.tid).get m := by
    intro n hn hnj he
    have cmp := traced_compat h n ht m
    rw [he, a5 n hn hnj] at cmp
    rcases hxy with h1 | h1
    · rw [cmp.1 h1] at hy; cases hy
    · rw [cmp.2 h1] at hx; cases hx
  have hik : i ≤ k' := by
    refine Nat.le_of_not_lt fun hlt => clash i hlt (by omega) rfl
  obtain ⟨k, f, b1, b2, b3, b4, b5⟩ := traced_released h hx rfl (k' + 1) (by omega) (by omega)
    (clash _ (by omega) (by omega))
  have hkk : k ≠ k' := by
    rintro rfl
    rw [a2] at b3; cases b3
    exact ht (b4.symm.trans a3)
  have hki : i ≠ k := by
    rintro rfl
    rw [hi] at b3; cases b3
    rw [hr] at b5; cases b5
  exact .trans (.po (by omega) hi b3 b4.symm) (.trans (.sync (by omega) b3 a2 ⟨m, _, _, b5, a4, hxy⟩) (.po (by omega) a2 hj a3))

theorem releases_data {β : Type} {a : Act β} {l : Loc} (h : a.reads = some l ∨ a.writes = some l) :
    a.releases = none := by
  cases a <;> simp_all [Act.reads, Act.writes, Act.releases]

theorem obeys_uses {d : Discipline} (hwr : ∀ l h, d.wr l h = true → d.rd l h = true) {h : Held} {β : Type} {a : Act β}
    (ha : Allowed d h a) (l : Loc) :
    (a.reads = some l ∨ a.writes = some l → d.rd l h = true) ∧ (a.writes = some l → d.wr l h = true) := by
  cases a <;> first
    | exact ⟨fun x => x.elim (ha.2.1 l) fun y => hwr _ _ (ha.2.2 l y), ha.2.2 l⟩
    | exact ⟨fun x => x.elim (fun y => by cases y) (fun y => by cases y), fun y => by cases y⟩

theorem not_compat_of {d : Discipline} (hwr : ∀ l h, d.wr l h = true → d.rd l h = true)
    (hcp : ∀ h h', Compat h h' → ∀ l, d.wr l h = true → d.rd l h' = false) {h h' : Held} {β γ : Type} {a : Act β} {b : Act γ}
    (ha : Allowed d h a) (hb : Allowed d h' b) {l : Loc} (hua : a.reads = some l ∨ a.writes = some l)
    (hub : b.reads = some l ∨ b.writes = some l) (hw : a.writes = some l ∨ b.writes = some l) : ¬ Compat h h' := by
  intro hc
  rcases hw with hw | hw
  · have := hcp _ _ hc l ((obeys_uses hwr ha l).2 hw)
    rw [(obeys_uses hwr hb l).1 hub] at this; cases this
  · have := hcp _ _ (fun m => ⟨(hc m).2, (hc m).1⟩) l ((obeys_uses hwr hb l).2 hw)
    rw [(obeys_uses hwr ha l).1 hua] at this; cases this

/-- Which discipline makes no difference for the index map. -/
theorem good_indices {op : Op} {h : Held} {β : Type} {a : Act β} {k : β → Prog Ret} (g : Good op h (.act a k)) :
    (a.reads = some .indices ∨ a.writes = some .indices → h.imu.shared = true) ∧
      (a.writes = some .indices → h.imu.excl = true) := by
  by_cases hR : op.isRename = false
  · exact obeys_uses wr_rd_strict (g.1 hR).1 .indices
  · have : op.isUnAlias = false := by cases op <;> simp [Op.isRename, Op.isUnAlias] at hR ⊢
    exact obeys_uses wr_rd_broad (g.2 this).1 .indices

/-- Conflicting accesses are ordered, or one is by a `Rename` and the other by an `UnAlias`. -/
theorem hb_only {es : List Event} {c : Config} (h : Traced cfg Config.init es c) {i j : Nat} {e e' : Event} {l : Loc}
    (hij : i < j) (hi : es[i]? = some e) (hj : es[j]? = some e') (hc : e.conflicts e' l) :
    HB es i j ∨ l ≠ .indices ∧ ∃ x y, c.calls[e.tid]? = some x ∧ c.calls[e'.tid]? = some y ∧
      ((x.op.isRename = true ∧ y.op.isUnAlias = true) ∨ (x.op.isUnAlias = true ∧ y.op.isRename = true)) := by
  obtain ⟨ht, hu, hu', hw⟩ := hc
  obtain ⟨c1, op, o, k, h1, h2, h3⟩ := traced_at h hi
  obtain ⟨c2, op', o', k', h1', h2', h3'⟩ := traced_at h hj
  have g := (traced_inv h1).good _ _ h2
  have g' := (traced_inv h1').good _ _ h2'
  refine Classical.or_iff_not_imp_left.2 fun hn => ?_
  have hcompat : Compat (heldOf (es.take i) e.tid) (heldOf (es.take j) e'.tid) := Classical.byContradiction fun x =>
    hn (ordered_by h hij hi hj ht (releases_data hu) x)
  have hS : ¬ (op.isRename = false ∧ op'.isRename = false) := fun ⟨r, r'⟩ =>
    not_compat_of wr_rd_strict (fun _ _ => strict_compat) (g.1 r).1 (g'.1 r').1 hu hu' hw hcompat
  have hB : ¬ (op.isUnAlias = false ∧ op'.isUnAlias = false) := fun ⟨r, r'⟩ =>
    not_compat_of wr_rd_broad (fun _ _ => broad_compat) (g.2 r).1 (g'.2 r').1 hu hu' hw hcompat
  refine ⟨?_, ?_⟩
  · rintro rfl
    rcases hw with hw | hw
    · have := (hcompat .indices).1 ((good_indices g).2 hw)
      rw [show ((heldOf (es.take j) e'.tid).get .indices).shared = true from (good_indices g').1 hu'] at this; cases this
    · have := (hcompat .indices).2 ((good_indices g').2 hw)
      rw [show ((heldOf (es.take i) e.tid).get .indices).shared = true from (good_indices g).1 hu] at this; cases this
  · have last : ∀ {c' : Config} {t : Tid} {op : Op} {o : Oracle} {p : Prog Ret}, c'.calls[t]? = some ⟨op, o, p⟩ →
        c'.calls.map (·.op) <+: c.calls.map (·.op) → ∃ x, c.calls[t]? = some x ∧ x.op = op := by
      intro c' t op o p hg hp
      obtain ⟨r, hr⟩ := hp
      have : (c.calls.map (·.op))[t]? = some op := by
        rw [← hr, List.getElem?_append_left (by simpa using (List.getElem?_eq_some_iff.1 hg).1)]
        simp [hg]
      simpa using this
    obtain ⟨x, hx, rfl⟩ := last h2 h3
    obtain ⟨y, hy, rfl⟩ := last h2' h3'
    refine ⟨x, y, hx, hy, ?_⟩
    cases hxo : x.op <;> cases hyo : y.op <;> simp [Op.isRename, Op.isUnAlias, hxo, hyo] at hS hB ⊢

/-- Earlier events happen before later ones, never the other way round. -/
theorem hb_lt {es : List Event} {i j : Nat} (h : HB es i j) : i < j := by
  induction h with
  | po h => exact h
  | sync h => exact h
  | trans _ _ h1 h2 => omega

/-- Neighbouring events are ordered only directly. -/
theorem hb_next {es : List Event} {i : Nat} {e e' : Event} (hi : es[i]? = some e) (hj : es[i + 1]? = some e')
    (h : HB es i (i + 1)) : e.tid = e'.tid ∨ e.syncs e' := by
  cases h with
  | po _ h1 h2 h3 => rw [hi] at h1; rw [hj] at h2; cases h1; cases h2; exact .inl h3
  | sync _ h1 h2 h3 => rw [hi] at h1; rw [hj] at h2; cases h1; cases h2; exact .inr h3
  | trans h1 h2 => have := hb_lt h1; have := hb_lt h2; omega

theorem traced_steps {c₀ c : Config} {es : List Event} (h : Traced cfg c₀ es c) : Steps cfg c₀ c := by
  induction h with
  | start => exact .refl _
  | call _ op o ih => exact .tail ih (.invoke _ op o)
  | act _ hc he ih => exact .tail ih (.move _ (.act hc he))
  | crash _ hc he ih => exact .tail ih (.move _ (.crash hc he))

/-- Every execution has events. -/
theorem steps_traced {c₀ c : Config} (h : Steps cfg c₀ c) : ∃ es, Traced cfg c₀ es c := by
  induction h with
  | refl => exact ⟨[], .start⟩
  | tail _ hs ih =>
    obtain ⟨es, h⟩ := ih
    cases hs with
    | invoke op o => exact ⟨es, h.call op o⟩
    | move t ht =>
      cases ht with
      | act hc he => exact ⟨_, h.act hc he⟩
      | crash hc he => exact ⟨_, h.crash hc he⟩

/-- Accesses never wait. -/
theorem access_goes {o : Oracle} {t : Tid} {β : Type} {a : Act β} {l : Loc} (h : a.reads = some l ∨ a.writes = some l)
    (s : Shared) : (∃ b s', exec cfg o t a s = .ok b s') ∨ ∃ e, exec cfg o t a s = .crash e := by
  cases he : exec cfg o t a s with
  | ok b s' => exact .inl ⟨b, s', rfl⟩
  | crash e => exact .inr ⟨e, rfl⟩
  | blocked =>
    exfalso
    cases a <;> simp [Act.reads, Act.writes] at h
    all_goals
      simp only [exec] at he
      first
      | cases he
      | (split at he <;> (first | cases he | (split at he <;> cases he)))

/-- So a call that is about to access something does so, and the other calls are as before. -/
theorem traced_access {c₀ c : Config} {es : List Event} (h : Traced cfg c₀ es c) {t : Tid} {x : Thread} {l : Loc}
    (hx : c.calls[t]? = some x) (hl : x.reads = some l ∨ x.writes = some l) :
    ∃ (e : Event) (c' : Config), Traced cfg c₀ (es ++ [e]) c' ∧ e.tid = t ∧ e.act.reads = x.reads ∧ e.act.writes = x.writes ∧
      c'.calls.map (·.op) = c.calls.map (·.op) ∧ ∀ u, u ≠ t → c'.calls[u]? = c.calls[u]? := by
  obtain ⟨s, calls⟩ := c
  obtain ⟨op, o, p⟩ := x
  cases p with
  | ret r => rcases hl with h | h <;> cases h
  | crash e => rcases hl with h | h <;> cases h
  | act a k =>
    rcases access_goes (cfg := cfg) (o := o) (t := t) (a := a) hl s with ⟨b, s', he⟩ | ⟨e, he⟩
    · exact ⟨_, _, h.act hx he, rfl, rfl, rfl, kept_ops _ hx, fun u hu => List.getElem?_set_ne (Ne.symm hu)⟩
    · exact ⟨_, _, h.crash hx he, rfl, rfl, rfl, kept_ops _ hx, fun u hu => List.getElem?_set_ne (Ne.symm hu)⟩

/-- Calls that are about to make conflicting accesses make them next to each other, unordered. -/
theorem race_unordered {c : Config} (hr : ConcReachable cfg c) {t u : Tid} {l : Loc} (h : c.race t u l) :
    ∃ es c', Traced cfg Config.init es c' ∧ c'.calls.map (·.op) = c.calls.map (·.op) ∧ ¬ Ordered es := by
  obtain ⟨htu, x, y, hx, hy, hw, ho⟩ := h
  obtain ⟨es, h⟩ := steps_traced hr
  obtain ⟨e, c1, h1, a1, a2, a3, a4, a5⟩ := traced_access h hx (.inr hw)
  obtain ⟨e', c2, h2, b1, b2, b3, b4, b5⟩ := traced_access h1 ((a5 u (Ne.symm htu)).trans hy) ho
  refine ⟨_, c2, h2, b4.trans a4, fun hord => ?_⟩
  have hi : (es ++ [e] ++ [e'])[es.length]? = some e := by simp
  have hj : (es ++ [e] ++ [e'])[es.length + 1]? = some e' := by simp
  have hu : e.uses l := .inr (a3.trans hw)
  have hc : e.conflicts e' l := ⟨by rw [a1, b1]; exact htu, hu, by unfold Event.uses; rw [b2, b3]; exact ho, .inl (a3.trans hw)⟩
  rcases hb_next hi hj (hord _ _ _ _ _ (Nat.lt_succ_self _) hi hj hc) with h | ⟨m, p, q, h, _⟩
  · exact hc.1 h
  · rw [releases_data hu] at h; cases h

end Visigoth
