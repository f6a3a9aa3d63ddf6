import Verif.Proofs.Refine3
/-!
# Sequences of calls by one caller
-/
namespace Visigoth

variable {cfg : Cfg}

/-- A call together with the choices of the runtime while it runs. -/
structure Call where
  oracle : Oracle
  tid : Tid
  op : Op

/-- Running a sequence of calls, collecting what the caller sees. -/
def runCalls (cfg : Cfg) : List Call → Shared → Outcome (List SRet)
  | [], s => .ok [] s
  | c :: cs, s =>
    (run cfg c.oracle c.tid (c.op.prog cfg) s).andThen fun r s' =>
      (runCalls cfg cs s').andThen fun rs s'' => .ok (r.view s' :: rs) s''

/-- The specification of a sequence of completed calls. -/
def SpecState.runs (cfg : Cfg) : SpecState → List Op → List SRet → SpecState → Prop
  | a, [], rets, a' => rets = [] ∧ a' = a
  | a, op :: ops, rets, a' => ∃ r rs, rets = r :: rs ∧ ¬ a.hangs op ∧ (∀ c, ¬ a.crashes cfg op c) ∧
      a.allows cfg op r ∧ SpecState.runs cfg (a.next op) ops rs a'

theorem step_ok {o t s a op r s'} (h : Abs cfg s a) (hrun : run cfg o t (op.prog cfg) s = .ok r s') :
    ¬ a.hangs op ∧ (∀ c, ¬ a.crashes cfg op c) ∧ a.allows cfg op (r.view s') ∧
      Abs cfg s' (a.next op) ∧ Frame op s s' := by
  have := refine_op (o := o) (t := t) h op
  rw [hrun] at this
  exact this

theorem step_hang {o t s a op s'} (h : Abs cfg s a) (hrun : run cfg o t (op.prog cfg) s = .hang s') :
    a.hangs op := by
  have := refine_op (o := o) (t := t) h op
  rw [hrun] at this
  exact this

theorem step_crash {o t s a op c} (h : Abs cfg s a) (hrun : run cfg o t (op.prog cfg) s = .crash c) :
    ¬ a.hangs op ∧ a.crashes cfg op c := by
  have := refine_op (o := o) (t := t) h op
  rw [hrun] at this
  exact this

theorem step_completes {s a op} (o : Oracle) (t : Tid) (h : Abs cfg s a) (hh : ¬ a.hangs op)
    (hc : ∀ c, ¬ a.crashes cfg op c) :
    ∃ r s', run cfg o t (op.prog cfg) s = .ok r s' ∧ a.allows cfg op (r.view s') ∧
      Abs cfg s' (a.next op) ∧ Frame op s s' := by
  have := refine_op (o := o) (t := t) h op
  cases hrun : run cfg o t (op.prog cfg) s with
  | ok r s' => rw [hrun] at this; exact ⟨r, s', rfl, this.2.2⟩
  | hang s' => rw [hrun] at this; exact absurd this hh
  | crash c => rw [hrun] at this; exact absurd this.2 (hc c)

theorem step_hangs {s a op} (o : Oracle) (t : Tid) (h : Abs cfg s a) (hh : a.hangs op) :
    ∃ s', run cfg o t (op.prog cfg) s = .hang s' := by
  have := refine_op (o := o) (t := t) h op
  cases hrun : run cfg o t (op.prog cfg) s with
  | ok r s' => rw [hrun] at this; exact absurd hh this.1
  | hang s' => exact ⟨s', rfl⟩
  | crash c => rw [hrun] at this; exact absurd hh this.1

theorem runCalls_refines {cs s a rets s'} (h : Abs cfg s a) (hrun : runCalls cfg cs s = .ok rets s') :
    ∃ a', SpecState.runs cfg a (cs.map Call.op) rets a' ∧ Abs cfg s' a' := by
  induction cs generalizing s a rets with
  | nil =>
    simp only [runCalls, Outcome.ok.injEq] at hrun
    obtain ⟨h1, h2⟩ := hrun
    subst h1 h2
    exact ⟨a, ⟨rfl, rfl⟩, h⟩
  | cons c cs ih =>
    simp only [runCalls] at hrun
    cases hr : run cfg c.oracle c.tid (c.op.prog cfg) s with
    | hang _ => rw [hr] at hrun; simp at hrun
    | crash _ => rw [hr] at hrun; simp at hrun
    | ok r s1 =>
      rw [hr] at hrun
      simp only [andThen_ok] at hrun
      obtain ⟨h1, h2, h3, h4, _⟩ := step_ok h hr
      cases hrs : runCalls cfg cs s1 with
      | hang _ => rw [hrs] at hrun; simp at hrun
      | crash _ => rw [hrs] at hrun; simp at hrun
      | ok rs s2 =>
        rw [hrs] at hrun
        simp only [andThen_ok, Outcome.ok.injEq] at hrun
        obtain ⟨e1, e2⟩ := hrun
        subst e1 e2
        obtain ⟨a', g1, g2⟩ := ih h4 hrs
        exact ⟨a', ⟨_, _, rfl, h1, h2, h3, g1⟩, g2⟩

/-- A state some sequence of completed calls leads to from the empty repository. -/
def Reachable (cfg : Cfg) (s : Shared) : Prop := ∃ cs rets, runCalls cfg cs newIndexRepo = .ok rets s

theorem Reachable.abs {s} (h : Reachable cfg s) : ∃ a, Abs cfg s a := by
  obtain ⟨cs, rets, hrun⟩ := h
  obtain ⟨a, _, ha⟩ := runCalls_refines (abs_empty cfg) hrun
  exact ⟨a, ha⟩

theorem reachable_empty : Reachable cfg newIndexRepo := ⟨[], [], rfl⟩

theorem runCalls_append (cs ds : List Call) (s : Shared) :
    runCalls cfg (cs ++ ds) s = (runCalls cfg cs s).andThen fun rs s' =>
      (runCalls cfg ds s').andThen fun rs' s'' => .ok (rs ++ rs') s'' := by
  induction cs generalizing s with
  | nil =>
    simp only [runCalls, List.nil_append, andThen_ok]
    cases runCalls cfg ds s <;> simp
  | cons c cs ih =>
    simp only [List.cons_append, runCalls]
    cases run cfg c.oracle c.tid (c.op.prog cfg) s with
    | hang _ => simp
    | crash _ => simp
    | ok r s1 =>
      simp only [andThen_ok, ih]
      cases runCalls cfg cs s1 with
      | hang _ => simp
      | crash _ => simp
      | ok rs s2 =>
        simp only [andThen_ok]
        cases runCalls cfg ds s2 <;> simp

theorem Reachable.step {s o t} {op : Op} {r : Ret} {s'} (h : Reachable cfg s) (hrun : run cfg o t (op.prog cfg) s = .ok r s') :
    Reachable cfg s' := by
  obtain ⟨cs, rets, h1⟩ := h
  refine ⟨cs ++ [⟨o, t, op⟩], rets ++ [r.view s'], ?_⟩
  rw [runCalls_append, h1]
  simp [runCalls, hrun]

/-! ## Calls that cannot go wrong -/

/-- No leaked lock, no dangling or repeated alias entry. -/
structure Healthy (a : SpecState) : Prop where
  readers : a.leakedReaders = 0
  writer : a.leakedWriter = false
  nodup : ∀ k l, a.aliases k = some l → l.Nodup
  live : ∀ k l, a.aliases k = some l → ∀ n ∈ l, (a.docs n).isSome

/-- An engine that does not panic on an index built by `Put`. -/
def EngineSafe (cfg : Cfg) (e : Engine) : Prop := ∀ rs ts, specSearch cfg rs ts e ≠ none

/-- The guard: `UnAlias` only with a known index and a known alias (or to remove a whole alias),
`Rename` only to a new name, engines that do not panic. -/
def SafeCall (cfg : Cfg) (a : SpecState) : Op → Prop
  | .unAlias al i => i = [] ∨ ((a.docs i).isSome ∧ (a.aliases al).isSome)
  | .rename old new => a.docs old = none ∨ a.docs new = none
  | .search _ _ e => EngineSafe cfg e
  | _ => True

theorem healthy_empty : Healthy SpecState.empty :=
  ⟨rfl, rfl, by simp [SpecState.empty], by simp [SpecState.empty]⟩

theorem Healthy.no_hang {a} (h : Healthy a) (op : Op) : ¬ a.hangs op := by
  cases op <;> simp [SpecState.hangs, h.readers, h.writer]

theorem Healthy.resolve {a} (h : Healthy a) {n l} (hr : a.resolve n = some l) :
    l.Nodup ∧ ∀ m ∈ l, (a.docs m).isSome := by
  unfold SpecState.resolve at hr
  split at hr
  · rename_i hd
    injection hr with hr; subst hr
    exact ⟨by simp, by simpa using hd⟩
  · exact ⟨h.nodup _ _ hr, h.live _ _ hr⟩

theorem Healthy.no_crash {a} (h : Healthy a) (op : Op) (hs : SafeCall cfg a op) (c : Crash) :
    ¬ a.crashes cfg op c := by
  cases op with
  | put n d =>
    rintro ⟨l, hr, h2⟩
    obtain ⟨h3, h4⟩ := h.resolve hr
    rcases h2 with ⟨_, m, hm, hd⟩ | ⟨_, _, hn⟩
    · have := h4 m hm; rw [hd] at this; simp at this
    · exact hn h3
  | search n ts e =>
    rintro ⟨l, hr, h2⟩
    obtain ⟨h3, h4⟩ := h.resolve hr
    rcases h2 with ⟨_, m, hm, hd⟩ | ⟨_, _, m, hm, rs, hrs, hn⟩
    · have := h4 m hm; rw [hd] at this; simp at this
    · exact hs rs ts hn
  | _ => exact id

theorem nodup_map_subst {l : List Name} {old new : Name} (h : l.Nodup) (hn : new ∉ l) :
    (l.map fun x => if x = old then new else x).Nodup := by
  induction l with
  | nil => simp
  | cons x l ih =>
    rw [List.nodup_cons] at h
    simp only [List.mem_cons, not_or] at hn
    rw [List.map_cons, List.nodup_cons]
    refine ⟨?_, ih h.2 hn.2⟩
    intro hm
    obtain ⟨y, hy, he⟩ := List.mem_map.1 hm
    by_cases hx : x = old
    · by_cases hy' : y = old
      · exact h.1 (by rw [hx, ← hy']; exact hy)
      · rw [if_neg hy', if_pos hx] at he
        exact hn.2 (he ▸ hy)
    · by_cases hy' : y = old
      · rw [if_pos hy', if_neg hx] at he
        exact hn.1 he
      · rw [if_neg hy', if_neg hx] at he
        exact h.1 (he ▸ hy)

theorem Healthy.next {a} (h : Healthy a) (op : Op) (hs : SafeCall cfg a op) : Healthy (a.next op) := by
  obtain ⟨h1, h2, h3, h4⟩ := h
  cases op with
  | list => exact ⟨h1, h2, h3, h4⟩
  | listAliases => exact ⟨h1, h2, h3, h4⟩
  | string => exact ⟨h1, h2, h3, h4⟩
  | has n => exact ⟨h1, h2, h3, h4⟩
  | hasAlias n => exact ⟨h1, h2, h3, h4⟩
  | search n ts e => exact ⟨h1, h2, h3, h4⟩
  | alias al i =>
    simp only [SpecState.next]
    split
    · rename_i hd
      split
      · refine ⟨h1, h2, ?_, ?_⟩ <;> intro k l hk <;> simp only [upd] at hk <;> split at hk
        · injection hk with hk; subst hk; simp
        · exact h3 k l hk
        · injection hk with hk; subst hk; simpa using hd
        · exact h4 k l hk
      · rename_i l0 hl0
        split
        · exact ⟨h1, h2, h3, h4⟩
        · rename_i hi
          refine ⟨h1, h2, ?_, ?_⟩ <;> intro k l hk <;> simp only [upd] at hk <;> split at hk
          · injection hk with hk; subst hk
            rw [List.nodup_append]
            refine ⟨h3 al l0 hl0, by simp, ?_⟩
            intro x hx y hy he
            simp only [List.mem_singleton] at hy
            subst hy he
            exact hi hx
          · exact h3 k l hk
          · injection hk with hk; subst hk
            intro n hn
            rcases List.mem_append.1 hn with hn | hn
            · exact h4 al l0 hl0 n hn
            · simp only [List.mem_singleton] at hn; subst hn; exact hd
          · exact h4 k l hk
    · exact ⟨h1, h2, h3, h4⟩
  | unAlias al i =>
    simp only [SpecState.next]
    split
    · refine ⟨h1, h2, ?_, ?_⟩ <;> intro k l hk <;> simp only [upd] at hk <;> split at hk
      · simp at hk
      · exact h3 k l hk
      · simp at hk
      · exact h4 k l hk
    · rename_i hi
      have hs' := hs.resolve_left hi
      rw [if_pos hs'.1]
      split
      · rename_i hn; rw [hn] at hs'; simp at hs'
      · rename_i l0 hl0
        refine ⟨h1, h2, ?_, ?_⟩ <;> intro k l hk <;> simp only [upd] at hk <;> split at hk
        · injection hk with hk; subst hk; exact (h3 al l0 hl0).filter _
        · exact h3 k l hk
        · injection hk with hk; subst hk
          intro n hn
          exact h4 al l0 hl0 n (List.mem_filter.1 hn).1
        · exact h4 k l hk
  | put n d =>
    simp only [SpecState.next]
    split
    · refine ⟨h1, h2, h3, ?_⟩
      intro k l hk m hm
      simp only [upd]
      split
      · rfl
      · exact h4 k l hk m hm
    · rename_i l0 _
      refine ⟨h1, h2, h3, ?_⟩
      intro k l hk m hm
      simp only
      split
      · rw [Option.isSome_map]; exact h4 k l hk m hm
      · exact h4 k l hk m hm
  | rename old new =>
    simp only [SpecState.next]
    split
    · exact ⟨h1, h2, h3, h4⟩
    · rename_i rs hrs
      have hnew : a.docs new = none := by
        rcases hs with hh | hh
        · rw [hrs] at hh; simp at hh
        · exact hh
      refine ⟨h1, h2, ?_, ?_⟩ <;> intro k l hk <;> simp only at hk <;>
        obtain ⟨l0, hl0, rfl⟩ := Option.map_eq_some_iff.1 hk
      · apply nodup_map_subst (h3 k l0 hl0)
        intro hm
        have := h4 k l0 hl0 new hm
        rw [hnew] at this; simp at this
      · intro m hm
        obtain ⟨x, hx, rfl⟩ := List.mem_map.1 hm
        have hx' := h4 k l0 hl0 x hx
        have hne : new ≠ old := by intro he; rw [he, hrs] at hnew; simp at hnew
        simp only [upd]
        by_cases hxo : x = old
        · rw [if_pos hxo, if_neg hne, if_pos rfl]; rfl
        · rw [if_neg hxo, if_neg hxo]
          split
          · rfl
          · exact hx'
  | drop n =>
    simp only [SpecState.next]
    split
    · refine ⟨h1, h2, ?_, ?_⟩ <;> intro k l hk <;> simp only at hk <;>
        obtain ⟨l0, hl0, hk⟩ := Option.bind_eq_some_iff.1 hk <;> split at hk
      · simp at hk
      · injection hk with hk; subst hk; exact (h3 k l0 hl0).filter _
      · simp at hk
      · injection hk with hk; subst hk
        intro m hm
        rw [List.mem_filter] at hm
        have hmn : m ≠ n := by simpa using hm.2
        simp only [upd, if_neg hmn]
        exact h4 k l0 hl0 m hm.1
    · exact ⟨h1, h2, h3, h4⟩

/-- Every call of the sequence satisfies the guard in the state it is made in. -/
def Guarded (cfg : Cfg) : SpecState → List Op → Prop
  | _, [] => True
  | a, op :: ops => SafeCall cfg a op ∧ Guarded cfg (a.next op) ops

theorem runCalls_guarded {cs s a} (h : Abs cfg s a) (hh : Healthy a)
    (hg : Guarded cfg a (cs.map Call.op)) :
    ∃ rets s' a', runCalls cfg cs s = .ok rets s' ∧ SpecState.runs cfg a (cs.map Call.op) rets a' ∧
      Abs cfg s' a' ∧ Healthy a' := by
  induction cs generalizing s a with
  | nil => exact ⟨[], s, a, rfl, ⟨rfl, rfl⟩, h, hh⟩
  | cons c cs ih =>
    obtain ⟨r, s1, h1, h2, h3, _⟩ := step_completes c.oracle c.tid h (hh.no_hang c.op)
      (hh.no_crash c.op hg.1)
    obtain ⟨rets, s2, a2, g1, g2, g3, g4⟩ := ih h3 (hh.next c.op hg.1) hg.2
    refine ⟨r.view s1 :: rets, s2, a2, ?_, ?_, g3, g4⟩
    · simp [runCalls, h1, g1]
    · exact ⟨_, _, rfl, hh.no_hang c.op, hh.no_crash c.op hg.1, h2, g2⟩

end Visigoth
