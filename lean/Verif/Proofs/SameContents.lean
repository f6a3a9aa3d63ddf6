import Verif.Spec.SameContents
import Verif.Props.Realised
import Verif.Proofs.AtRest
/-!
# Two repositories with the same contents

The atomic steps that can be taken do not depend on which objects the names lead to, only on what is in them.
-/
namespace Visigoth

variable {cfg : Cfg}

/-! ## Objects may be numbered otherwise -/

/-- The same contents; object `p` of `a`, if it is one of `D`, is object `f p` of `b`. -/
structure Likeness (D : Nat → Prop) (f : Nat → Nat) (a b : ObjState) : Prop where
  index : ∀ n, b.index n = (a.index n).map f
  live : ∀ n p, a.index n = some p → D p
  objs : ∀ p, D p → ∃ rs, a.objs[p]? = some rs ∧ b.objs[f p]? = some rs
  inj : ∀ p q, D p → D q → f p = f q → p = q
  aliases : b.aliases = a.aliases

/-- The same task. -/
def LikeTask (D : Nat → Prop) (f : Nat → Nat) : Task → Task → Prop
  | .putting n d ts, k => (∀ l, ts = some l → ∀ p, some p ∈ l → D p) ∧ k = .putting n d (ts.map (List.map (Option.map f)))
  | k, k' => k' = k

theorem Likeness.docs {D : Nat → Prop} {f : Nat → Nat} {a b : ObjState} (h : Likeness D f a b) : b.docs = a.docs := by
  funext n
  unfold ObjState.docs
  rw [h.index]
  cases hn : a.index n with
  | none => rfl
  | some p =>
    obtain ⟨rs, h1, h2⟩ := h.objs p (h.live n p hn)
    simp [h1, h2]

theorem Likeness.spec {D : Nat → Prop} {f : Nat → Nat} {a b : ObjState} (h : Likeness D f a b) : b.spec = a.spec := by
  unfold ObjState.spec
  rw [h.docs, h.aliases]

theorem Likeness.targets {D : Nat → Prop} {f : Nat → Nat} {a b : ObjState} (h : Likeness D f a b) (n : Name) :
    b.targets n = (a.targets n).map (List.map (Option.map f)) := by
  unfold ObjState.targets
  rw [h.index]
  cases hn : a.index n with
  | some p => rfl
  | none =>
    simp only [Option.map_none, h.aliases]
    cases a.aliases n with
    | none => rfl
    | some l => simp [h.index]

theorem LikeTask.mono {D D' : Nat → Prop} {f f' : Nat → Nat} {k k2 : Task} (h : LikeTask D f k k2) (hD : ∀ p, D p → D' p ∧ f' p = f p) :
    LikeTask D' f' k k2 := by
  cases k with
  | putting n d ts =>
    obtain ⟨h1, h2⟩ := h
    refine ⟨fun l hl p hp => (hD p (h1 l hl p hp)).1, ?_⟩
    rw [h2]
    cases ts with
    | none => rfl
    | some l =>
      simp only [Option.map_some, Task.putting.injEq, Option.some.injEq, true_and]
      refine List.map_congr_left fun x hx => ?_
      cases x with
      | none => rfl
      | some p => simp [(hD p (h1 l rfl p hx)).2]
  | _ => exact h

theorem nodup_like {D : Nat → Prop} {f : Nat → Nat} : ∀ {ps : List Nat}, (∀ p ∈ ps, D p) → (∀ p q, D p → D q → f p = f q → p = q) →
    ((ps.map f).Nodup ↔ ps.Nodup)
  | [], _, _ => by simp
  | p :: ps, hD, hi => by
    simp only [List.map_cons, List.nodup_cons, nodup_like (fun q hq => hD q (List.mem_cons_of_mem _ hq)) hi, List.mem_map, not_exists, not_and]
    refine and_congr_left fun _ => ⟨fun h hp => h p hp rfl, fun h q hq he => h ?_⟩
    rw [← hi q p (hD q (List.mem_cons_of_mem _ hq)) (hD p (List.mem_cons_self ..)) he]
    exact hq

theorem atomic_like {D : Nat → Prop} {f : Nat → Nat} {a a' b : ObjState} {k k' k2 : Task} (h : Likeness D f a b) (hk : LikeTask D f k k2)
    (hs : Atomic cfg a k a' k') : ∃ D' f' b' k2', Atomic cfg b k2 b' k2' ∧ Likeness D' f' a' b' ∧ LikeTask D' f' k' k2' ∧
      ∀ p, D p → D' p ∧ f' p = f p := by
  have hsome : ∀ n, (b.index n).isSome = (a.index n).isSome := fun n => by rw [h.index]; cases a.index n <;> rfl
  have hnone : ∀ n, a.index n = none → b.index n = none := fun n hn => by rw [h.index, hn]; rfl
  have same : ∀ p, D p → D p ∧ f p = f p := fun p hp => ⟨hp, rfl⟩
  cases hs with
  | read hr hv => cases hk; exact ⟨D, f, b, _, .read hr (h.spec ▸ hv), h, rfl, same⟩
  | searchDies hv => cases hk; exact ⟨D, f, b, _, .searchDies (h.spec ▸ hv), h, rfl, same⟩
  | aliasUnknown hi => cases hk; exact ⟨D, f, b, _, .aliasUnknown (hnone _ hi), h, rfl, same⟩
  | aliasThere hi hl hm => cases hk; exact ⟨D, f, b, _, .aliasThere (hsome _ ▸ hi) (h.aliases ▸ hl) hm, h, rfl, same⟩
  | aliasAdd hi hm =>
    cases hk
    refine ⟨D, f, _, _, .aliasAdd (hsome _ ▸ hi) (h.aliases ▸ hm), ⟨h.index, h.live, h.objs, h.inj, by simp only [h.aliases]⟩, rfl, same⟩
  | unAliasAll =>
    cases hk
    refine ⟨D, f, _, _, .unAliasAll, ⟨h.index, h.live, h.objs, h.inj, by simp only [h.aliases]⟩, ?_, same⟩
    simp only [LikeTask, h.aliases]
  | unAliasUnknown hi hn => cases hk; exact ⟨D, f, b, _, .unAliasUnknown hi (hnone _ hn), h, rfl, same⟩
  | unAliasFound hi hn => cases hk; exact ⟨D, f, b, _, .unAliasFound hi (hsome _ ▸ hn), h, rfl, same⟩
  | unAliasMissing hn => cases hk; exact ⟨D, f, b, _, .unAliasMissing (h.aliases ▸ hn), h, rfl, same⟩
  | unAliasRemove hl =>
    cases hk
    exact ⟨D, f, _, _, .unAliasRemove (h.aliases ▸ hl), ⟨h.index, h.live, h.objs, h.inj, by simp only [h.aliases]⟩, rfl, same⟩
  | @putResolve n d =>
    cases hk
    refine ⟨D, f, b, _, .putResolve, h, ⟨fun l hl p hp => ?_, by rw [h.targets]⟩, same⟩
    unfold ObjState.targets at hl
    cases hn : a.index n with
    | some q =>
      rw [hn] at hl
      simp only [Option.some.injEq] at hl
      subst hl
      simp only [List.mem_singleton, Option.some.injEq] at hp
      exact hp ▸ h.live n q hn
    | none =>
      rw [hn] at hl
      simp only [Option.map_eq_some_iff] at hl
      obtain ⟨l0, _, rfl⟩ := hl
      obtain ⟨m, _, hm⟩ := List.mem_map.1 hp
      exact h.live m p hm
  | @putNew n d =>
    obtain ⟨_, rfl⟩ := hk
    have hlt : ∀ p, D p → p < a.objs.length := fun p hp => by
      obtain ⟨rs, h1, _⟩ := h.objs p hp
      exact (List.getElem?_eq_some_iff.1 h1).1
    have hlt' : ∀ p, D p → f p < b.objs.length := fun p hp => by
      obtain ⟨rs, _, h1⟩ := h.objs p hp
      exact (List.getElem?_eq_some_iff.1 h1).1
    have hf : ∀ p, D p → (if p = a.objs.length then b.objs.length else f p) = f p := fun p hp => by
      rw [if_neg (Nat.ne_of_lt (hlt p hp))]
    refine ⟨fun p => D p ∨ p = a.objs.length, fun p => if p = a.objs.length then b.objs.length else f p, _, _, .putNew, ?_, rfl,
      fun p hp => ⟨.inl hp, hf p hp⟩⟩
    constructor
    · intro m
      simp only [upd]
      split
      · simp
      · rw [h.index]
        cases hm : a.index m with
        | none => rfl
        | some p => simp [hf p (h.live m p hm)]
    · intro m p hm
      simp only [upd] at hm
      split at hm
      · injection hm with hm; exact .inr hm.symm
      · exact .inl (h.live m p hm)
    · intro p hp
      rcases hp with hp | rfl
      · obtain ⟨rs, h1, h2⟩ := h.objs p hp
        refine ⟨rs, ?_, ?_⟩
        · simp only; rw [List.getElem?_append_left (hlt p hp)]; exact h1
        · simp only [hf p hp]; rw [List.getElem?_append_left (hlt' p hp)]; exact h2
      · exact ⟨[d], by simp, by simp⟩
    · intro p q hp hq he
      rcases hp with hp | rfl <;> rcases hq with hq | rfl
      · rw [hf p hp, hf q hq] at he; exact h.inj p q hp hq he
      · rw [hf p hp, if_pos rfl] at he; exact absurd he (Nat.ne_of_lt (hlt' p hp))
      · rw [hf q hq, if_pos rfl] at he; exact absurd he.symm (Nat.ne_of_lt (hlt' q hq))
      · rfl
    · exact h.aliases
  | @putAll n d ps hnd =>
    obtain ⟨hD, rfl⟩ := hk
    have hps : ∀ p ∈ ps, D p := fun p hp => hD _ rfl p (List.mem_map_of_mem hp)
    have e : (some (ps.map some)).map (List.map (Option.map f)) = some ((ps.map f).map some) := by simp
    rw [e]
    refine ⟨D, f, _, _, .putAll ((nodup_like hps h.inj).2 hnd), ⟨h.index, h.live, fun p hp => ?_, h.inj, h.aliases⟩, rfl, same⟩
    obtain ⟨rs, h1, h2⟩ := h.objs p hp
    have hm : f p ∈ ps.map f ↔ p ∈ ps := by
      rw [List.mem_map]
      exact ⟨fun ⟨q, hq, he⟩ => h.inj q p (hps q hq) hp he ▸ hq, fun hq => ⟨p, hq, rfl⟩⟩
    refine ⟨if p ∈ ps then rs ++ [d] else rs, by simp [putObjs, h1], ?_⟩
    simp [putObjs, h2, -List.mem_map, hm]
  | @putNil n d ts hts =>
    obtain ⟨hD, rfl⟩ := hk
    exact ⟨D, f, b, _, .putNil (List.mem_map.2 ⟨none, hts, rfl⟩), h, rfl, same⟩
  | @putTwice n d ps hnd =>
    obtain ⟨hD, rfl⟩ := hk
    have hps : ∀ p ∈ ps, D p := fun p hp => hD _ rfl p (List.mem_map_of_mem hp)
    have e : (some (ps.map some)).map (List.map (Option.map f)) = some ((ps.map f).map some) := by simp
    rw [e]
    exact ⟨D, f, b, _, .putTwice fun hc => hnd ((nodup_like hps h.inj).1 hc), h, rfl, same⟩
  | renameUnknown hn => cases hk; exact ⟨D, f, b, _, .renameUnknown (hnone _ hn), h, rfl, same⟩
  | @rename old new p hp =>
    cases hk
    refine ⟨D, f, _, _, .rename (by rw [h.index, hp]; rfl), ⟨fun m => ?_, fun m q hm => ?_, h.objs, h.inj, by simp only [h.aliases]⟩, rfl, same⟩
    · simp only [upd]
      split
      · rfl
      · split
        · rfl
        · exact h.index m
    · simp only [upd] at hm
      split at hm
      · cases hm
      · split at hm
        · injection hm with hm; exact hm ▸ h.live old p hp
        · exact h.live m q hm
  | dropUnknown hn => cases hk; exact ⟨D, f, b, _, .dropUnknown (hnone _ hn), h, rfl, same⟩
  | dropFound hn => cases hk; exact ⟨D, f, b, _, .dropFound (hsome _ ▸ hn), h, rfl, same⟩
  | dropRemove =>
    cases hk
    refine ⟨D, f, _, _, .dropRemove, ⟨fun m => ?_, fun m q hm => ?_, h.objs, h.inj, by simp only [h.aliases]⟩, rfl, same⟩
    · simp only [upd]
      split
      · rfl
      · exact h.index m
    · simp only [upd] at hm
      split at hm
      · cases hm
      · exact h.live m q hm

/-! ## Executions -/

/-- The calls of `A` after the first `n`, which are over, and those of `B` after the first `m`. -/
structure LikeConfig (n m : Nat) (A B : AConfig) (D : Nat → Prop) (f : Nat → Nat) : Prop where
  state : Likeness D f A.st B.st
  low : n ≤ A.tasks.length
  low' : m ≤ B.tasks.length
  size : B.tasks.length + n = A.tasks.length + m
  done : ∀ (t : Nat) op k, t < n → A.tasks[t]? = some (op, k) → k.ended
  task : ∀ (t : Nat) op k, A.tasks[n + t]? = some (op, k) → ∃ k2, B.tasks[m + t]? = some (op, k2) ∧ LikeTask D f k k2

theorem like_step {n m : Nat} {A A' B : AConfig} {D : Nat → Prop} {f : Nat → Nat} (h : LikeConfig n m A B D f) (hs : AStep cfg A A') :
    ∃ B' D' f', AStep cfg B B' ∧ LikeConfig n m A' B' D' f' ∧ ∀ t : Nat, t < m → B'.tasks[t]? = B.tasks[t]? := by
  obtain ⟨hst, hn, hm, hsz, hdone, htask⟩ := h
  cases hs with
  | invoke _ op =>
    refine ⟨_, D, f, .invoke B op, ⟨hst, by simp; omega, by simp; omega, by simp; omega, fun t op' k ht hk => ?_, fun t op' k hk => ?_⟩,
      fun t ht => by simp only; rw [List.getElem?_append_left (by omega)]⟩
    · simp only at hk
      rw [List.getElem?_append_left (by omega)] at hk
      exact hdone t op' k ht hk
    · simp only at hk ⊢
      by_cases ht : n + t < A.tasks.length
      · rw [List.getElem?_append_left ht] at hk
        rw [List.getElem?_append_left (by omega)]
        exact htask t op' k hk
      · rw [List.getElem?_append_right (by omega)] at hk
        rw [List.getElem?_append_right (by omega), show m + t - B.tasks.length = n + t - A.tasks.length from by omega]
        cases h0 : n + t - A.tasks.length with
        | zero => rw [h0] at hk; cases hk; exact ⟨_, rfl, rfl⟩
        | succ i => rw [h0] at hk; simp at hk
  | @run a a' ts t op k k' hk hat =>
    simp only at hst hn hsz hdone htask
    have hnt : n ≤ t := by
      refine Nat.le_of_not_lt fun htn => ?_
      have := hdone t op k htn hk
      cases hat <;> exact this
    obtain ⟨i, rfl⟩ : ∃ i : Nat, t = n + i := ⟨t - n, (Nat.add_sub_of_le hnt).symm⟩
    obtain ⟨k2, hk2, hlk⟩ := htask i op k hk
    obtain ⟨D', f', b', k2', h1, h2, h3, h4⟩ := atomic_like hst hlk hat
    have hlt := (List.getElem?_eq_some_iff.1 hk).1
    have hlt2 := (List.getElem?_eq_some_iff.1 hk2).1
    refine ⟨⟨b', B.tasks.set (m + i) (op, k2')⟩, D', f', ?_, ⟨h2, by simpa using hn, by simpa using hm, by simpa using hsz, fun u op' k0 hu hk0 => ?_, fun u op' k0 hk0 => ?_⟩, fun u hu => ?_⟩
    · have := AStep.run (a := B.st) (ts := B.tasks) (m + i) hk2 h1
      exact this
    · simp only at hk0
      rw [List.getElem?_set_ne (by omega)] at hk0
      exact hdone u op' k0 hu hk0
    · simp only at hk0 ⊢
      by_cases hui : u = i
      · subst hui
        rw [List.getElem?_set_self hlt] at hk0
        rw [List.getElem?_set_self hlt2]
        cases hk0
        exact ⟨k2', rfl, h3⟩
      · rw [List.getElem?_set_ne (by omega)] at hk0
        rw [List.getElem?_set_ne (by omega)]
        obtain ⟨k3, h5, h6⟩ := htask u op' k0 hk0
        exact ⟨k3, h5, h6.mono h4⟩
    · simp only
      rw [List.getElem?_set_ne (by omega)]

theorem like_steps {n m : Nat} {A A' B : AConfig} {D : Nat → Prop} {f : Nat → Nat} (h : LikeConfig n m A B D f) (hs : ASteps cfg A A') :
    ∃ B' D' f', ASteps cfg B B' ∧ LikeConfig n m A' B' D' f' := by
  induction hs with
  | refl => exact ⟨B, D, f, .refl _, h⟩
  | tail _ hs ih =>
    obtain ⟨B1, D1, f1, h1, h2⟩ := ih
    obtain ⟨B2, D2, f2, h3, h4, _⟩ := like_step h2 hs
    exact ⟨B2, D2, f2, .tail h1 h3, h4⟩

/-! ## From a state at rest with given contents -/

theorem holds_shows {s : Shared} {a : ObjState} (h : Shows cfg s a) {l : List (Op × Fate)} : Holds cfg s ⟨a.docs, a.aliases, l⟩ := by
  refine ⟨fun n hn => ?_, fun n rs hn => ?_, h.aliases⟩
  · rw [h.index]
    cases hi : a.index n with
    | none => rfl
    | some p =>
      simp only [ObjState.docs, hi, Option.bind_some] at hn
      exact absurd (h.bound n p hi) (Nat.not_lt.2 (List.getElem?_eq_none_iff.1 hn))
  · simp only [ObjState.docs] at hn
    obtain ⟨p, hp, ho⟩ := Option.bind_eq_some_iff.1 hn
    obtain ⟨nm, h1⟩ := h.objs p rs ho
    exact ⟨p, nm, by rw [h.index]; exact hp, h1⟩

open Classical in
/-- The objects, those that have a name as `L` says. -/
noncomputable def saidObjs (s : Shared) (L : LConfig) (objs : List (List DocRequest)) : List (List DocRequest) :=
  objs.mapIdx fun p rs => if h : ∃ rs' n, s.indices.get n = some p ∧ L.docs n = some rs' then h.choose else rs

/-- A state at rest, with the documents that `L` says it holds. -/
theorem rest_given (d : Discipline) {c : Config} (hr : ConcReachable cfg c) (hq : c.quiet) {L : LConfig} (hL : Holds cfg c.sh L) :
    ∃ A, Tidy A.st ∧ ARel cfg c A ∧ Linked d cfg c A ∧ A.tasks = c.calls.map (fun x => (x.op, x.task c.sh)) ∧
      A.st.docs = L.docs ∧ A.st.aliases = L.aliases := by
  obtain ⟨H, i, w⟩ := whole_reachable (P := fun _ => True) hr fun _ _ _ _ => trivial
  obtain ⟨objs, ho1, ho2⟩ := heapOk_objs (w.quiet i hq)
  obtain ⟨hinj, hN⟩ := inj_quiet hr hq
  obtain ⟨_, _, P, _, v⟩ := rowsInv_reachable hr
  have hst : ∀ x ∈ c.calls, (∃ r, x.prog = .ret r) ∨ ∃ e, x.prog = .crash e := by
    intro x hx
    have := hq x hx
    unfold Thread.running at this
    cases hp : x.prog with
    | ret r => exact .inl ⟨r, rfl⟩
    | crash e => exact .inr ⟨e, rfl⟩
    | act a k => rw [hp] at this; exact absurd trivial this
  have hlen : (saidObjs c.sh L objs).length = objs.length := by simp [saidObjs]
  have hsaid : ∀ (p : Nat) rs, (saidObjs c.sh L objs)[p]? = some rs → ∃ nm, c.sh.heap[p]? = some (buildIndex cfg.tok nm rs) := by
    intro p rs hp
    simp only [saidObjs, List.getElem?_mapIdx, Option.map_eq_some_iff] at hp
    obtain ⟨rs0, h0, h1⟩ := hp
    split at h1
    · rename_i h
      obtain ⟨n, hn, hd⟩ := h.choose_spec
      rw [h1] at hd
      obtain ⟨p', nm, h2, h3⟩ := hL.named n rs hd
      rw [hn] at h2
      cases h2
      exact ⟨nm, h3⟩
    · exact h1 ▸ ho2 p rs0 h0
  have hdocs : (fun n => (c.sh.indices.get n).bind fun p => (saidObjs c.sh L objs)[p]?) = L.docs := by
    funext n
    cases hn : c.sh.indices.get n with
    | none =>
      cases hd : L.docs n with
      | none => rfl
      | some rs =>
        obtain ⟨p, nm, h1, _⟩ := hL.named n rs hd
        rw [hn] at h1; cases h1
    | some p =>
      cases hd : L.docs n with
      | none => rw [hL.unnamed n hd] at hn; cases hn
      | some rs =>
        have hlt : p < objs.length := ho1 ▸ hN.bound n p hn
        have hex : ∃ rs' m, c.sh.indices.get m = some p ∧ L.docs m = some rs' := ⟨rs, n, hn, hd⟩
        obtain ⟨m, hm, hmd⟩ := hex.choose_spec
        have : m = n := hinj m n p hm hn
        rw [this, hd] at hmd
        simp only [Option.bind_some, saidObjs, List.getElem?_mapIdx, List.getElem?_eq_getElem hlt, Option.map_some]
        rw [dif_pos hex]
        exact hmd.symm
  have hb : ∀ n p, c.sh.indices.get n = some p → p < (saidObjs c.sh L objs).length := fun n p h => by
    rw [hlen]; exact ho1 ▸ hN.bound n p h
  have hrel : ARel cfg c ⟨⟨fun n => c.sh.indices.get n, saidObjs c.sh L objs, fun n => alView c.sh.arrays c.sh.aliases n⟩,
      c.calls.map fun x => (x.op, x.task c.sh)⟩ := by
    refine ⟨⟨fun _ => rfl, hN.nodup, hinj, by rw [ho1, hlen], hsaid, hb, v.table.ok, fun _ => rfl⟩, by simp, fun t x hx => ?_⟩
    refine ⟨x.task c.sh, by simp [hx], ?_⟩
    unfold Thread.task
    rcases hst x (List.mem_of_getElem? hx) with ⟨r, h⟩ | ⟨e, h⟩
    · rw [h]; exact .over _ _ (agrees_view _ _)
    · rw [h]; exact .dead _
  refine ⟨⟨⟨fun n => c.sh.indices.get n, saidObjs c.sh L objs, fun n => alView c.sh.arrays c.sh.aliases n⟩,
    c.calls.map fun x => (x.op, x.task c.sh)⟩, ⟨hb, hinj⟩, hrel, ⟨H, c, fun _ => true, i, ⟨rfl, ?_, fun l => .inl (SameAt.refl _ _)⟩, hrel⟩, rfl, hdocs, ?_⟩
  · intro t x hx
    refine ⟨x.prog, hx, ?_⟩
    rcases hst x (List.mem_of_getElem? hx) with ⟨r, h⟩ | ⟨e, h⟩
    · rw [h]; exact ⟨trivial, rfl⟩
    · rw [h]; exact ⟨trivial, rfl⟩
  · funext n; exact hL.aliases n

theorem rest_ended {c : Config} {A : AConfig} (hq : c.quiet) (hA : A.tasks = c.calls.map fun x => (x.op, x.task c.sh)) :
    ∀ x ∈ A.tasks, x.2.ended := by
  intro x hx
  rw [hA] at hx
  obtain ⟨y, hy, rfl⟩ := List.mem_map.1 hx
  have := hq y hy
  unfold Thread.running at this
  unfold Thread.task
  cases hp : y.prog with
  | ret r => trivial
  | crash e => trivial
  | act a k => rw [hp] at this; exact absurd trivial this

open Classical in
/-- The object of the other state that has the same name. -/
noncomputable def namesake (a b : ObjState) (p : Nat) : Nat :=
  if h : ∃ n, a.index n = some p then (b.index h.choose).getD 0 else 0

theorem likeness_rest {a b : ObjState} (ha : Tidy a) (hb : Tidy b) (hd : a.docs = b.docs) (hal : a.aliases = b.aliases) :
    Likeness (fun p => ∃ n, a.index n = some p) (namesake a b) a b := by
  obtain ⟨ha1, ha2⟩ := ha
  obtain ⟨hb1, hb2⟩ := hb
  have hdoc : ∀ {c : ObjState}, (∀ n p, c.index n = some p → p < c.objs.length) → ∀ n p, c.index n = some p → c.docs n = c.objs[p]? ∧ (c.docs n).isSome := by
    intro c hc n p hp
    have : c.docs n = c.objs[p]? := by simp [ObjState.docs, hp]
    exact ⟨this, by rw [this, List.getElem?_eq_getElem (hc n p hp)]; rfl⟩
  have hnone : ∀ {c : ObjState} n, c.index n = none → c.docs n = none := fun n h => by simp [ObjState.docs, h]
  have hname : ∀ n p, a.index n = some p → b.index n = some (namesake a b p) := by
    intro n p hp
    have hex : ∃ m, a.index m = some p := ⟨n, hp⟩
    have : hex.choose = n := ha2 _ _ p hex.choose_spec hp
    unfold namesake
    rw [dif_pos hex, this]
    cases hi : b.index n with
    | none =>
      have := (hdoc ha1 n p hp).2
      rw [hd, hnone n hi] at this; cases this
    | some q => rfl
  refine ⟨fun n => ?_, fun n p hp => ⟨n, hp⟩, fun p ⟨n, hp⟩ => ?_, fun p q ⟨n, hp⟩ ⟨m, hq⟩ he => ?_, hal.symm⟩
  · cases hi : a.index n with
    | some p => exact hname n p hi
    | none =>
      cases hj : b.index n with
      | none => rfl
      | some q =>
        have := (hdoc hb1 n q hj).2
        rw [← hd, hnone n hi] at this; cases this
  · have h1 := hdoc ha1 n p hp
    have h2 := hdoc hb1 n _ (hname n p hp)
    obtain ⟨rs, hrs⟩ := Option.isSome_iff_exists.1 h1.2
    exact ⟨rs, by rw [← h1.1]; exact hrs, by rw [← h2.1, ← hd]; exact hrs⟩
  · have h1 := hname n p hp
    have h2 := hname m q hq
    rw [he] at h1
    have : n = m := hb2 n m _ h1 h2
    rw [this, hq] at hp
    exact (Option.some.inj hp).symm

theorem likeConfig_rest {A B : AConfig} (hA : Tidy A.st) (hB : Tidy B.st) (hd : A.st.docs = B.st.docs) (hal : A.st.aliases = B.st.aliases)
    (he : ∀ x ∈ A.tasks, x.2.ended) :
    LikeConfig A.tasks.length B.tasks.length A B (fun p => ∃ n, A.st.index n = some p) (namesake A.st B.st) := by
  refine ⟨likeness_rest hA hB hd hal, Nat.le_refl _, Nat.le_refl _, Nat.add_comm _ _, fun t op k _ hk => he _ (List.mem_of_getElem? hk), fun t op k hk => ?_⟩
  have := (List.getElem?_eq_some_iff.1 hk).1
  omega

/-! ## Orderly, from a state at rest on -/

/-- The first `m` calls are over; the tasks of the others belong to them. -/
structure Later (m : Nat) (B : AConfig) : Prop where
  low : m ≤ B.tasks.length
  done : ∀ (t : Nat) x, t < m → B.tasks[t]? = some x → x.2.ended
  belongs : ∀ (t : Nat) x, m ≤ t → B.tasks[t]? = some x → Belongs x.1 x.2

theorem later_step {m : Nat} {B B' : AConfig} (h : Later m B) (hs : AStep cfg B B') : Later m B' := by
  obtain ⟨h1, h2, h3⟩ := h
  cases hs with
  | invoke _ op =>
    refine ⟨by simp; omega, fun t x ht hx => ?_, fun t x ht hx => ?_⟩
    · simp only at hx
      rw [List.getElem?_append_left (by omega)] at hx
      exact h2 t x ht hx
    · simp only at hx
      by_cases hlt : t < B.tasks.length
      · rw [List.getElem?_append_left hlt] at hx; exact h3 t x ht hx
      · rw [List.getElem?_append_right (by omega)] at hx
        have := List.mem_of_getElem? hx
        rw [List.mem_singleton] at this
        subst this; rfl
  | @run a a' ts t op k k' hk hat =>
    simp only at h1 h2 h3
    have hmt : m ≤ t := by
      refine Nat.le_of_not_lt fun htn => ?_
      have := h2 t _ htn hk
      cases hat <;> exact this
    refine ⟨by simpa using h1, fun u x hu hx => ?_, fun u x hu hx => ?_⟩
    · simp only at hx
      rw [List.getElem?_set_ne (by omega)] at hx
      exact h2 u x hu hx
    · simp only at hx
      by_cases hut : u = t
      · subst hut
        rw [List.getElem?_set_self (List.getElem?_eq_some_iff.1 hk).1] at hx
        cases hx
        have := h3 u _ hu hk
        cases hat <;> try trivial
        rename_i hi _
        exact ⟨this.symm, hi⟩
      · rw [List.getElem?_set_ne (Ne.symm hut)] at hx
        exact h3 u x hu hx

theorem later_steps {m : Nat} {B B' : AConfig} (h : Later m B) (hs : ASteps cfg B B') : Later m B' := by
  induction hs with
  | refl => exact h
  | tail _ hs ih => exact later_step ih hs

theorem orderly_from {m : Nat} {B0 B : AConfig} (h : Later m B0) (hs : ASteps cfg B0 B)
    (ht : ∀ (t : Nat) x, m ≤ t → B.tasks[t]? = some x → Tidily x) : OrderlyRun cfg B0 B := by
  induction hs with
  | refl => exact .refl _
  | @tail c c' hs0 hs ih =>
    have hl := later_steps h hs0
    cases hs with
    | invoke _ op =>
      refine .tail (ih fun t x hm hx => ht t x hm ?_) (.invoke _ op)
      simp only
      rw [List.getElem?_append_left (List.getElem?_eq_some_iff.1 hx).1]
      exact hx
    | @run a a' ts t op k k' hk hat =>
      have hlt := (List.getElem?_eq_some_iff.1 hk).1
      have hmt : m ≤ t := by
        refine Nat.le_of_not_lt fun htn => ?_
        have := hl.done t _ htn hk
        cases hat <;> exact this
      have hnew : Tidily (op, k') := ht t _ hmt (List.getElem?_set_self hlt)
      have hbk : Belongs op k := hl.belongs t _ hmt hk
      refine .tail (ih fun u x hm hx => ?_) (.run t hk hat ?_ ?_ hnew.2.1)
      · by_cases hut : u = t
        · subst hut
          simp only at hx
          rw [hk] at hx
          cases hx
          refine ⟨hnew.1, fun e he => ?_, fun al i _ _ he => ?_⟩ <;> simp only at he <;> subst he <;> cases hat
        · exact ht u x hm ((List.getElem?_set_ne (Ne.symm hut)).trans hx)
      · rintro rfl; exact hnew.1 hbk.symm
      · intro hw
        cases hat with
        | unAliasUnknown hi hn => exact hnew.2.2 _ _ hbk.symm hi rfl
        | unAliasMissing hn => exact hnew.2.2 _ _ hbk.1 hbk.2 rfl
        | unAliasFound hi hn => rw [hw.2] at hn; cases hn
        | unAliasRemove hl =>
          have hw : a.aliases _ = none := hw
          rw [hl] at hw; cases hw
        | unAliasAll => exact hw.1 rfl
        | read hrd => revert hw hrd; cases ‹Op› <;> intro h1 h2 <;> first | exact h2 | exact absurd h1 (by simp [Op.isRead])
        | _ => exact hw

theorem paths_rest {d : Config} {B : AConfig} (hq : d.quiet) (hu : d.sh.noLocks) (hrel : ARel cfg d B)
    (hB : B.tasks = d.calls.map fun x => (x.op, x.task d.sh)) : Paths cfg d.calls.length (· = d) B True := by
  have he := rest_ended hq hB
  refine ⟨d.sh, d.calls, Nat.le_refl _, hrel, fun _ => hu, ⟨fun t op k _ hk => he _ (List.mem_of_getElem? hk), ?_⟩, fun M hM => ⟨d, rfl, ?_⟩⟩
  · intro _ t x r v hx hp hv
    rw [hB, List.getElem?_map, hx] at hv
    simp only [Option.map_some, Option.some.injEq, Prod.mk.injEq, Thread.task, hp, Task.over.injEq] at hv
    exact hv.2
  · have : M = d.calls := by
      apply List.ext_getElem?
      intro t
      cases hx : d.calls[t]? with
      | none => rw [List.getElem?_eq_none]; rw [hM.size]; exact List.getElem?_eq_none_iff.1 hx
      | some x =>
        obtain ⟨o, h1, h2⟩ := hM.call t x hx
        have hk : B.tasks[t]? = some (x.op, x.task d.sh) := by rw [hB, List.getElem?_map, hx]; rfl
        have hend := he _ (List.mem_of_getElem? hk)
        have := h2 _ _ hk (by
          simp only at hend
          generalize x.task d.sh = k at hend
          cases k <;> first | rfl | exact absurd hend id)
        rw [h1, this]
    rw [this]
    exact .refl _

/-! ## Executions of atomic steps from there, taken by calls -/

theorem realised_from {d : Config} {B0 B : AConfig} (hr : ConcReachable cfg d) (hq : d.quiet) (hu : d.sh.noLocks) (hrel : ARel cfg d B0)
    (hB : B0.tasks = d.calls.map fun x => (x.op, x.task d.sh)) (hs : ASteps cfg B0 B)
    (ht : ∀ (t : Nat) x, d.calls.length ≤ t → B.tasks[t]? = some x → Tidily x) :
    ∃ d', Steps cfg d d' ∧ ARel cfg d' B ∧ Seen d.calls.length d'.sh d'.calls B := by
  have hlen : B0.tasks.length = d.calls.length := by rw [hB]; simp
  have he := rest_ended hq hB
  have hlater : Later d.calls.length B0 := ⟨Nat.le_of_eq hlen.symm, fun t x _ hx => he x (List.mem_of_getElem? hx), fun t x h hx => by
    have := (List.getElem?_eq_some_iff.1 hx).1; omega⟩
  obtain ⟨s, L, _, h1, _, h3, h4⟩ := paths_orderly (fun c hc => by rw [hc]; exact hr) (paths_rest hq hu hrel hB) (orderly_from hlater hs ht)
  obtain ⟨_, rfl, h5⟩ := h4 L (.refl _ _)
  exact ⟨⟨s, L⟩, h5, h1, h3⟩

theorem strict_from {c0 c : Config} {A0 : AConfig} (hr : ConcReachable cfg c0) (hq : c0.quiet) (hl : Linked strict cfg c0 A0)
    (hA : A0.tasks = c0.calls.map fun x => (x.op, x.task c0.sh)) (hs : Steps cfg c0 c)
    (hop : ∀ x ∈ c.calls.drop c0.calls.length, x.op.isRename = false) :
    ∃ A, ASteps cfg A0 A ∧ Linked strict cfg c A ∧ RowsLink cfg c A ∧ c.calls.take c0.calls.length = c0.calls := by
  induction hs with
  | refl => exact ⟨A0, .refl _, hl, rowsLink_rest hr hq hA, List.take_length⟩
  | tail _ hs ih =>
    obtain ⟨A, h1, h2, h3, h4⟩ := ih (step_new (P := fun op => op.isRename = false) hs hop)
    obtain ⟨A', g1, g2, g3⟩ := rowsLink_since hq h4 h2 h3 hop hs
    exact ⟨A', h1.trans g1, g2, g3, step_take hq h4 hs⟩

theorem broad_from {c0 c : Config} {A0 : AConfig} (hq : c0.quiet) (hl : Linked broad cfg c0 A0) (hs : Steps cfg c0 c)
    (hop : ∀ x ∈ c.calls.drop c0.calls.length, x.op.isUnAlias = false) :
    ∃ A, ASteps cfg A0 A ∧ Linked broad cfg c A ∧ c.calls.take c0.calls.length = c0.calls := by
  induction hs with
  | refl => exact ⟨A0, .refl _, hl, List.take_length⟩
  | tail _ hs ih =>
    obtain ⟨A, h1, h2, h4⟩ := ih (step_new (P := fun op => op.isUnAlias = false) hs hop)
    obtain ⟨A', g1, g2⟩ := linked_since hq h4 h2 (fun x hx => .inr ⟨rfl, hop x hx⟩) hs
    exact ⟨A', h1.trans g1, g2, step_take hq h4 hs⟩

end Visigoth
