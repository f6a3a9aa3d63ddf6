import Verif.Proofs.Realised
import Verif.Props.Fine
import Verif.Props.ConcAtomic
/-!
# C96: the specification of atomic steps is exact

C59 matches every interleaved execution with one of atomic steps.  Here is the converse.
-/
namespace Visigoth

variable {cfg : Cfg}

theorem realises_of {s : Shared} {L : List Thread} {A : AConfig} (h : ARel cfg ⟨s, L⟩ A) :
    Realises cfg (Config.outcomes ⟨s, L⟩) s A := by
  refine ⟨by simp [Config.outcomes, h.size], fun t op k hk => ?_, Shows.of h.abs⟩
  have hlt : t < L.length := by have := h.size; simp only at this; rw [← this]; exact (List.getElem?_eq_some_iff.1 hk).1
  obtain ⟨k0, hk0, hst⟩ := h.task t L[t] (List.getElem?_eq_getElem hlt)
  rw [hk] at hk0
  simp only [Option.some.injEq, Prod.mk.injEq] at hk0
  obtain ⟨rfl, rfl⟩ := hk0
  refine ⟨L[t].status, by simp [Config.outcomes, hlt], ?_⟩
  unfold Thread.status
  generalize L[t].prog = p at hst
  cases hst with
  | call op' =>
    obtain ⟨β, a, f, hp⟩ := prog_acts cfg op'
    rw [hp]; trivial
  | putting => trivial
  | dropping => trivial
  | unAliasing => trivial
  | over r v hv => exact hv
  | dead e => rfl

theorem seenAll_of {s : Shared} {L : List Thread} {A : AConfig} (h : ARel cfg ⟨s, L⟩ A) (hs : Seen 0 s L A) (hr : A.noRename) :
    SeenAll (Config.outcomes ⟨s, L⟩) s A := by
  intro t op v hk
  obtain ⟨st, h1, h2⟩ := (realises_of h).call t op _ hk
  simp only [Config.outcomes, List.getElem?_map, Option.map_eq_some_iff, Prod.mk.injEq] at h1
  obtain ⟨x, hx, rfl, rfl⟩ := h1
  unfold Thread.status at h2
  split at h2
  · rename_i r hp
    refine ⟨r, by simp [Config.outcomes, hx, Thread.status, hp], hs.2 (fun u y _ hy => hr y (List.mem_of_getElem? hy)) t x r v hx hp hk⟩
  · exact absurd h2 id
  · exact absurd h2 id

theorem paths_orderly {n : Nat} {R : Config → Prop} (hR : ∀ c, R c → ConcReachable cfg c) {A A' : AConfig} (h : Paths cfg n R A True)
    (hs : OrderlyRun cfg A A') : Paths cfg n R A' True := by
  induction hs with
  | refl => exact h
  | tail _ hs ih =>
    cases hs with
    | invoke _ op => exact paths_invoke ih op
    | run t hk hat hstr hw hd =>
      obtain ⟨s, L, h0, h1, h2, h3, h4⟩ := paths_run hR ih hk hat hstr
      exact ⟨s, L, h0, h1, fun _ => h2 ⟨hw, hd⟩, h3, h4⟩

/-- The executions from configurations that have got as far as `A`. -/
theorem paths_from {A : AConfig} (h : OrderlyRun cfg AConfig.init A) :
    Paths cfg 0 (fun c => ConcReachable cfg c ∧ Realises cfg c.outcomes c.sh A ∧ (A.noRename → SeenAll c.outcomes c.sh A)) A True := by
  obtain ⟨s, L, h0, h1, h2, h3, h4⟩ := paths_orderly (fun c hc => by rw [hc]; exact .refl _) (paths_init cfg) h
  refine ⟨s, L, h0, h1, h2, h3, fun M hM => ?_⟩
  obtain ⟨c, rfl, hs⟩ := h4 M hM
  have e : Config.outcomes ⟨s, M⟩ = Config.outcomes ⟨s, L⟩ := by
    apply List.ext_getElem?
    intro t
    simp only [Config.outcomes, List.getElem?_map]
    cases hx : L[t]? with
    | none =>
      rw [List.getElem?_eq_none (by rw [hM.size]; exact List.getElem?_eq_none_iff.1 hx)]
    | some x =>
      obtain ⟨o, ho, _⟩ := hM.call t x hx
      rw [ho]; rfl
  exact ⟨⟨s, M⟩, ⟨hs, e ▸ realises_of h1, fun hr => e ▸ seenAll_of h1 h3 hr⟩, .refl _⟩

/-- Every orderly execution of atomic steps is that of interleaved calls: the same calls have been made, the same ones
have returned, with the same results, and the repository is in the same state. -/
theorem C96_realised {A : AConfig} (h : OrderlyRun cfg AConfig.init A) :
    ∃ c, ConcReachable cfg c ∧ Realises cfg c.outcomes c.sh A ∧ (A.noRename → SeenAll c.outcomes c.sh A) := by
  obtain ⟨s, L, _, _, _, _, h4⟩ := paths_from h
  obtain ⟨c, hc, _⟩ := h4 L (.refl _ _)
  exact ⟨c, hc⟩

/-- So are any two points of it, and one step more, which may panic or keep a mutex. -/
theorem C96_real_time {A A' A'' : AConfig} (h : OrderlyRun cfg AConfig.init A) (h' : OrderlyRun cfg A A')
    (h'' : A'' = A' ∨ TextFree cfg A' A'') :
    ∃ c c', ConcReachable cfg c ∧ Steps cfg c c' ∧ Realises cfg c.outcomes c.sh A ∧ Realises cfg c'.outcomes c'.sh A'' ∧
      (A''.noRename → SeenAll c.outcomes c.sh A ∧ SeenAll c'.outcomes c'.sh A'') := by
  have hp := paths_orderly (fun c hc => hc.1) (paths_from h) h'
  have key : ∃ f, Paths cfg 0 (fun c => ConcReachable cfg c ∧ Realises cfg c.outcomes c.sh A ∧ (A.noRename → SeenAll c.outcomes c.sh A)) A'' f := by
    rcases h'' with rfl | hs
    · exact ⟨_, hp⟩
    · cases hs with
      | invoke _ op => exact ⟨_, paths_invoke hp op⟩
      | run t hk hat hstr => exact ⟨_, paths_run (fun c hc => hc.1) hp hk hat hstr⟩
  have hsub : A''.noRename → A.noRename := by
    have e1 : ∀ {B B' : AConfig}, OrderlyStep cfg B B' → B'.noRename → B.noRename := by
      intro B B' hs hn x hx
      cases hs with
      | invoke _ op => exact hn x (List.mem_append_left _ hx)
      | @run a a' ts t op k k' hk =>
        obtain ⟨i, hi, rfl⟩ := List.mem_iff_getElem.1 hx
        by_cases hit : i = t
        · subst hit
          rw [(List.getElem?_eq_some_iff.1 hk).2]
          exact hn (op, k') (List.mem_of_getElem? (List.getElem?_set_self hi))
        · exact hn _ (List.mem_of_getElem? ((List.getElem?_set_ne (Ne.symm hit)).trans (List.getElem?_eq_getElem hi)))
    have e2 : A'.noRename → A.noRename := by
      clear h'' hp key h
      induction h' with
      | refl => exact id
      | tail _ hs ih => exact fun hn => ih (e1 hs hn)
    rcases h'' with rfl | hs
    · exact e2
    · intro hn
      refine e2 fun x hx => ?_
      cases hs with
      | invoke _ op => exact hn x (List.mem_append_left _ hx)
      | @run a a' ts t op k k' hk =>
        obtain ⟨i, hi, rfl⟩ := List.mem_iff_getElem.1 hx
        by_cases hit : i = t
        · subst hit
          rw [(List.getElem?_eq_some_iff.1 hk).2]
          exact hn (op, k') (List.mem_of_getElem? (List.getElem?_set_self hi))
        · exact hn _ (List.mem_of_getElem? ((List.getElem?_set_ne (Ne.symm hit)).trans (List.getElem?_eq_getElem hi)))
  obtain ⟨_, s, L, _, h1, _, h3, h4⟩ := key
  obtain ⟨c, ⟨hc, hre, hse⟩, hs⟩ := h4 L (.refl _ _)
  exact ⟨c, ⟨s, L⟩, hc, hs, hre, realises_of h1, fun hn => ⟨hse (hsub hn), seenAll_of h1 h3 hn⟩⟩

/-- The same with interleaved goroutines. -/
theorem C96_real_time_goroutines {A A' A'' : AConfig} (h : OrderlyRun cfg AConfig.init A) (h' : OrderlyRun cfg A A')
    (h'' : A'' = A' ∨ TextFree cfg A' A'') :
    ∃ c c', FineReachable cfg c ∧ FSteps cfg c c' ∧ Realises cfg c.outcomes c.sh A ∧ Realises cfg c'.outcomes c'.sh A'' ∧
      (A''.noRename → SeenAll c.outcomes c.sh A ∧ SeenAll c'.outcomes c'.sh A'') := by
  obtain ⟨d, d', h1, h2, h3⟩ := C96_real_time h h' h''
  obtain ⟨cs, hc, hlen, hal⟩ := C60_executions_converse (ds := [d, d']) ⟨h1, h2, trivial⟩
  match cs, hlen with
  | [c, c'], _ =>
    obtain ⟨hc1, hc2, _⟩ := hc
    obtain ⟨a1, e1⟩ := hal 0 c d rfl rfl
    obtain ⟨a2, e2⟩ := hal 1 c' d' rfl rfl
    refine ⟨c, c', hc1, hc2, ?_⟩
    rw [alike_outcomes a1, alike_outcomes a2, e1, e2]
    exact h3

/-! ## The results that are possible -/

/-- A task belongs to its call. -/
def Belongs (op : Op) : Task → Prop
  | .call op' => op' = op
  | .unAliasing al i => op = .unAlias al i ∧ i ≠ []
  | _ => True

theorem belongs_reachable {A : AConfig} (h : AReachable cfg A) : ∀ x ∈ A.tasks, Belongs x.1 x.2 := by
  unfold AReachable at h
  generalize hA : AConfig.init = A0 at h
  induction h with
  | refl => subst hA; intro x hx; cases hx
  | tail _ hs ih =>
    intro x hx
    cases hs with
    | invoke _ op =>
      rcases List.mem_append.1 hx with hx | hx
      · exact ih x hx
      · rw [List.mem_singleton] at hx; subst hx; rfl
    | run t hk hat =>
      rcases List.mem_or_eq_of_mem_set hx with hx | hx
      · exact ih x hx
      · subst hx
        have := ih _ (List.mem_of_getElem? hk)
        cases hat <;> try trivial
        rename_i hi _
        exact ⟨this.symm, hi⟩

/-- Calls that kept nothing, so far. -/
def Tidily (x : Op × Task) : Prop :=
  x.1 ≠ .string ∧ (∀ e, x.2 ≠ .dead e) ∧ ∀ al i, x.1 = .unAlias al i → i ≠ [] → x.2 ≠ .over (.bool false)

theorem orderly_of {A : AConfig} (h : AReachable cfg A) (ht : ∀ x ∈ A.tasks, Tidily x) : OrderlyRun cfg AConfig.init A := by
  have hr := h
  unfold AReachable at h
  generalize hA : AConfig.init = A0 at h
  induction h with
  | refl => subst hA; exact .refl _
  | @tail c c' hs0 hs ih =>
    subst hA
    have hreach : AReachable cfg c := hs0
    have hb := belongs_reachable hreach
    cases hs with
    | invoke _ op => exact .tail (ih (fun x hx => ht x (List.mem_append_left _ hx)) hreach) (.invoke _ op)
    | @run a a' ts t op k k' hk hat =>
      have hlt := (List.getElem?_eq_some_iff.1 hk).1
      have hnew : Tidily (op, k') := ht _ (List.mem_of_getElem? (List.getElem?_set_self hlt))
      have hbk : Belongs op k := hb _ (List.mem_of_getElem? hk)
      refine .tail (ih (fun x hx => ?_) hreach) (.run t hk hat ?_ ?_ hnew.2.1)
      · obtain ⟨i, hi, rfl⟩ := List.mem_iff_getElem.1 hx
        by_cases hit : i = t
        · subst hit
          rw [(List.getElem?_eq_some_iff.1 hk).2]
          refine ⟨hnew.1, fun e he => ?_, fun al i _ _ he => ?_⟩ <;> simp only at he <;> subst he <;> cases hat
        · exact ht _ (List.mem_of_getElem? ((List.getElem?_set_ne (Ne.symm hit)).trans (List.getElem?_eq_getElem hi)))
      · rintro rfl; exact hnew.1 hbk.symm
      · intro hw
        cases hat with
        | unAliasUnknown hi hn => exact hnew.2.2 _ _ hbk.symm hi rfl
        | unAliasMissing hn => exact hnew.2.2 _ _ hbk.1 hbk.2 rfl
        | unAliasFound hi hn => rw [hw.2] at hn; cases hn
        | unAliasRemove hl =>
          have hw : a.aliases _ = none := hw
          rw [hl] at hw; cases hw
        | unAliasAll => exact hw.1 rfl
        | read hrd => revert hw hrd; cases ‹Op› <;> intro h1 h2 <;> first | exact h2 | exact absurd h1 (by simp [Op.isRead])
        | _ => exact hw

theorem tidily_of {vs : List (Op × SRet)} (h : KeptNothing vs) : ∀ x ∈ vs.map (fun y => (y.1, Task.over y.2)), Tidily x := by
  intro x hx
  obtain ⟨y, hy, rfl⟩ := List.mem_map.1 hx
  exact ⟨(h y hy).1, by simp, fun al i h1 h2 h3 => (h y hy).2 al i h1 h2 (by injection h3)⟩

/-- The results that interleaved calls can have are exactly those of atomic steps, the slices in the rows of
`ListAliases` included, if there is no `Rename`. -/
theorem C96_results_exact (vs : List (Op × SRet)) (hk : KeptNothing vs) (hr : ∀ x ∈ vs, x.1.isRename = false) :
    (∃ c, ConcReachable cfg c ∧ Results c.outcomes c.sh vs) ↔
      ∃ A, AReachable cfg A ∧ A.tasks = vs.map fun x => (x.1, .over x.2) := by
  constructor
  · rintro ⟨c, hc, hlen, hres⟩
    have hren : ∀ x ∈ c.calls, x.op.isRename = false := by
      intro x hx
      obtain ⟨t, ht, rfl⟩ := List.mem_iff_getElem.1 hx
      have hlt : t < vs.length := by rw [← hlen]; simpa [Config.outcomes] using ht
      obtain ⟨r, h1, _⟩ := hres t vs[t].1 vs[t].2 (List.getElem?_eq_getElem hlt)
      simp only [Config.outcomes, List.getElem?_map, List.getElem?_eq_getElem ht, Option.map_some, Option.some.injEq, Prod.mk.injEq] at h1
      rw [h1.1]
      exact hr _ (List.getElem_mem _)
    obtain ⟨A, _, hA, _, ho, hs, _⟩ := C59_real_time_rows hc (.refl c) hren
    refine ⟨A, hA, ?_⟩
    have hl : A.tasks.length = vs.length := by
      have := congrArg List.length ho.calls
      simp only [List.length_map] at this
      rw [this, ← hlen]; simp [Config.outcomes]
    apply List.ext_getElem?
    intro t
    rw [List.getElem?_map]
    cases hv : vs[t]? with
    | none => rw [List.getElem?_eq_none (by rw [hl]; exact List.getElem?_eq_none_iff.1 hv)]; rfl
    | some y =>
      obtain ⟨r, h1, h2⟩ := hres t y.1 y.2 hv
      simp only [Config.outcomes, List.getElem?_map, Option.map_eq_some_iff, Prod.mk.injEq] at h1
      obtain ⟨x, hx, hop, hst⟩ := h1
      unfold Thread.status at hst
      split at hst <;> cases hst
      rename_i hp
      rw [hs t x r hx hp, h2, hop]; rfl
  · rintro ⟨A, hA, he⟩
    obtain ⟨c, hc, hre, hse⟩ := C96_realised (orderly_of hA (by rw [he]; exact tidily_of hk))
    refine ⟨c, hc, by rw [hre.size, he]; simp, fun t op v hv => ?_⟩
    exact hse (fun x hx => by rw [he] at hx; obtain ⟨y, hy, rfl⟩ := List.mem_map.1 hx; exact hr y hy) t op v
      (by rw [he, List.getElem?_map, hv]; rfl)

theorem roughly_agrees {r : Ret} {v w : SRet} (h : v.roughly w) (hw : r.agrees w) : r.agrees v := by
  cases r <;> cases v <;> cases w <;> simp_all [Ret.agrees, SRet.roughly]

theorem agrees_roughly {r : Ret} {v w : SRet} (hv : r.agrees v) (hw : r.agrees w) : v.roughly w := by
  cases r <;> cases v <;> cases w <;> simp_all [Ret.agrees, SRet.roughly]

/-- If there is a `Rename`, but no `UnAlias`, the same holds except for the slices in the rows of `ListAliases`. -/
theorem C96_results_exact_rename (vs : List (Op × SRet)) (hk : ∀ x ∈ vs, x.1 ≠ .string ∧ x.1.isUnAlias = false) :
    (∃ c, ConcReachable cfg c ∧ ResultsOnly c.outcomes vs) ↔
      ∃ (A : AConfig) (ws : List (Op × SRet)), AReachable cfg A ∧ A.tasks = ws.map (fun x => (x.1, .over x.2)) ∧ ws.length = vs.length ∧
        ∀ (t : Nat) op v, vs[t]? = some (op, v) → ∃ w, ws[t]? = some (op, w) ∧ v.roughly w := by
  constructor
  · rintro ⟨c, hc, hlen, hres⟩
    have hren : ∀ x ∈ c.calls, x.op.isUnAlias = false := by
      intro x hx
      obtain ⟨t, ht, rfl⟩ := List.mem_iff_getElem.1 hx
      have hlt : t < vs.length := by rw [← hlen]; simpa [Config.outcomes] using ht
      obtain ⟨r, h1, _⟩ := hres t vs[t].1 vs[t].2 (List.getElem?_eq_getElem hlt)
      simp only [Config.outcomes, List.getElem?_map, List.getElem?_eq_getElem ht, Option.map_some, Option.some.injEq, Prod.mk.injEq] at h1
      rw [h1.1]
      exact (hk _ (List.getElem_mem _)).2
    obtain ⟨A, _, hA, _, ho, _⟩ := C59_real_time hc (.refl c) (Or.inr hren)
    have hl : A.tasks.length = vs.length := by
      have := congrArg List.length ho.calls
      simp only [List.length_map] at this
      rw [this, ← hlen]; simp [Config.outcomes]
    have hover : ∀ (t : Nat) op v, vs[t]? = some (op, v) → ∃ w, A.tasks[t]? = some (op, .over w) ∧ v.roughly w := by
      intro t op v hv
      obtain ⟨r, h1, h2⟩ := hres t op v hv
      simp only [Config.outcomes, List.getElem?_map, Option.map_eq_some_iff, Prod.mk.injEq] at h1
      obtain ⟨x, hx, rfl, hst⟩ := h1
      unfold Thread.status at hst
      split at hst <;> cases hst
      rename_i hp
      obtain ⟨w, hw, hag⟩ := ho.returned t x r hx hp
      exact ⟨w, hw, agrees_roughly h2 hag⟩
    have hws : ∃ ws : List (Op × SRet), A.tasks = ws.map fun x => (x.1, .over x.2) := by
      have : ∀ x ∈ A.tasks, ∃ y : Op × SRet, x = (y.1, .over y.2) := by
        intro x hx
        obtain ⟨t, ht, rfl⟩ := List.mem_iff_getElem.1 hx
        have hlt : t < vs.length := by rw [← hl]; exact ht
        obtain ⟨w, hw, _⟩ := hover t vs[t].1 vs[t].2 (List.getElem?_eq_getElem hlt)
        rw [List.getElem?_eq_getElem ht] at hw
        injection hw with hw
        exact ⟨(vs[t].1, w), hw⟩
      clear hover hl ho hA
      generalize A.tasks = l at this
      induction l with
      | nil => exact ⟨[], rfl⟩
      | cons x l ih =>
        obtain ⟨y, hy⟩ := this x (List.mem_cons_self ..)
        obtain ⟨ws, hws⟩ := ih fun z hz => this z (List.mem_cons_of_mem _ hz)
        exact ⟨y :: ws, by rw [hy, hws]; rfl⟩
    obtain ⟨ws, hws⟩ := hws
    refine ⟨A, ws, hA, hws, by rw [← hl, hws]; simp, fun t op v hv => ?_⟩
    obtain ⟨w, hw, hro⟩ := hover t op v hv
    rw [hws, List.getElem?_map] at hw
    obtain ⟨y, hy, he⟩ := Option.map_eq_some_iff.1 hw
    cases he
    exact ⟨y.2, hy, hro⟩
  · rintro ⟨A, ws, hA, he, hl, hall⟩
    have hops : ∀ x ∈ ws, x.1 ≠ .string ∧ x.1.isUnAlias = false := by
      intro x hx
      obtain ⟨t, ht, rfl⟩ := List.mem_iff_getElem.1 hx
      have hlt : t < vs.length := by rw [← hl]; exact ht
      obtain ⟨w, hw, _⟩ := hall t vs[t].1 vs[t].2 (List.getElem?_eq_getElem hlt)
      rw [List.getElem?_eq_getElem ht] at hw
      injection hw with hw
      have := hk vs[t] (List.getElem_mem _)
      rw [hw]
      exact this
    have hkept : KeptNothing ws := fun x hx => ⟨(hops x hx).1, fun al i h1 => by have := (hops x hx).2; rw [h1] at this; cases this⟩
    obtain ⟨c, hc, hre, _⟩ := C96_realised (orderly_of hA (by rw [he]; exact tidily_of hkept))
    refine ⟨c, hc, by rw [hre.size, he]; simp [hl], fun t op v hv => ?_⟩
    obtain ⟨w, hw, hro⟩ := hall t op v hv
    obtain ⟨st, h1, h2⟩ := hre.call t op (.over w) (by rw [he, List.getElem?_map, hw]; rfl)
    cases st with
    | returned r => exact ⟨r, h1, roughly_agrees hro h2⟩
    | running => exact absurd h2 id
    | crashed e => exact absurd h2 id

/-! ## What the hypotheses are for -/

/-- A call of `UnAlias` with an unknown index, over. -/
def keptConfig : AConfig := ⟨.empty, [(.unAlias (str "a") (str "x"), .over (.bool false))]⟩

/-- A `Put` and a `HasAlias` after it, over. -/
def keptConfig' : AConfig :=
  ⟨{ ObjState.empty with index := upd (fun _ => none) (str "n") (some 0), objs := [[docD]] },
    [(.unAlias (str "a") (str "x"), .over (.bool false)), (.put (str "n") docD, .over .unit),
      (.hasAlias (str "a"), .over (.bool false))]⟩

theorem keptConfig_reachable : AReachable cfg keptConfig :=
  .tail (.tail (.refl _) (.invoke _ (.unAlias (str "a") (str "x")))) (.run 0 rfl (.unAliasUnknown (by decide +kernel) rfl))

theorem keptConfig_steps : ASteps cfg keptConfig keptConfig' :=
  .tail (.tail (.tail (.tail (.tail (.refl _) (.invoke _ (.put (str "n") docD))) (.run 1 rfl .putResolve)) (.run 1 rfl .putNew))
    (.invoke _ (.hasAlias (str "a")))) (.run 2 rfl (.read rfl rfl))

/-- Without the hypothesis that no `UnAlias` keeps a mutex there are executions of atomic steps that calls do not
have: after the `UnAlias` the other two calls do not both return. -/
theorem C96_kept_mutex : AReachable cfg keptConfig ∧ ASteps cfg keptConfig keptConfig' ∧
    ¬ ∃ c c', ConcReachable cfg c ∧ Steps cfg c c' ∧ Realises cfg c.outcomes c.sh keptConfig ∧
      Realises cfg c'.outcomes c'.sh keptConfig' := by
  refine ⟨keptConfig_reachable, keptConfig_steps, ?_⟩
  rintro ⟨c, c', hc, hs, h, h'⟩
  have hret : ∀ {d : Config} {A : AConfig} {t : Nat} {op : Op} {v : SRet}, Realises cfg d.outcomes d.sh A →
      A.tasks[t]? = some (op, .over v) → ∃ x r, d.calls[t]? = some x ∧ x.op = op ∧ x.prog = .ret r ∧ r.agrees v := by
    intro d A t op v hre ht
    obtain ⟨st, h1, h2⟩ := hre.call t op _ ht
    cases st with
    | running => exact absurd h2 id
    | crashed e => exact absurd h2 id
    | returned r =>
      simp only [Config.outcomes, List.getElem?_map, Option.map_eq_some_iff, Prod.mk.injEq] at h1
      obtain ⟨x, hx, hop, hst⟩ := h1
      unfold Thread.status at hst
      split at hst <;> cases hst
      exact ⟨x, r, hx, hop, by assumption, h2⟩
  obtain ⟨x, r, hx, hop, hp, hag⟩ := hret (t := 0) h rfl
  obtain ⟨y, r', hy, hop', hp', hag'⟩ := hret (t := 1) h' rfl
  have hr : r = .bool false := by cases r <;> simp_all [Ret.agrees]
  subst hr
  have hlen : c.calls.length ≤ 1 := by
    have := h.size
    simp only [Config.outcomes, List.length_map] at this
    rw [this]; exact Nat.le_refl 1
  have hrun : ¬ x.running := fun h => by unfold Thread.running at h; rw [hp] at h; exact h
  rcases C50_false_leaks hc hx hop (by decide +kernel) hp with hl | hl
  · exact C50_reader_leak_blocks hx hrun hl hs hlen hy hp' (by rw [hop']; trivial)
  · obtain ⟨z, r'', hz, hop'', hp'', _⟩ := hret (t := 2) h' rfl
    exact C50_writer_leak_blocks hx hrun hl hs (by omega) hz hp'' (by rw [hop'']; trivial)

/-- Two `Put`s of a new name that both look before either stores: an orderly execution, and the first document is
lost. -/
example : ∃ A, OrderlyRun cfg AConfig.init A ∧ A.st.docs (str "n") = some [docE] ∧ A.st.objs = [[docD], [docE]] ∧
    A.tasks = [(.put (str "n") docD, .over .unit), (.put (str "n") docE, .over .unit)] := by
  refine ⟨_, .tail (.tail (.tail (.tail (.tail (.tail (.refl _) (.invoke _ (.put (str "n") docD))) (.invoke _ (.put (str "n") docE)))
    (.run 0 rfl .putResolve ?_ ?_ ?_)) (.run 1 rfl .putResolve ?_ ?_ ?_)) (.run 0 rfl .putNew ?_ ?_ ?_)) (.run 1 rfl .putNew ?_ ?_ ?_),
    ?_, rfl, rfl⟩
  rotate_right
  · simp [ObjState.docs, upd, AConfig.init, ObjState.empty]
  all_goals first | exact id | simp

/-- Results that interleaved calls can give: `Has` looks while the index is there, and `Alias` acts between the two steps of `Drop`. -/
example : ∃ c, ConcReachable cfg c ∧ Results c.outcomes c.sh [(.put (str "n") docD, .unit), (.alias (str "a") (str "n"), .bool true),
    (.drop (str "n"), .bool true), (.has (str "n"), .bool true)] := by
  refine (C96_results_exact _ (by simp [KeptNothing]) (by simp [Op.isRename])).2 ⟨_, .tail (.tail (.tail (.tail (.tail (.tail (.tail (.tail (.tail
    (.tail (.refl _) (.invoke _ (.put (str "n") docD))) (.run 0 rfl .putResolve)) (.run 0 rfl .putNew))
    (.invoke _ (.alias (str "a") (str "n")))) (.invoke _ (.drop (str "n")))) (.invoke _ (.has (str "n")))) (.run 3 rfl (.read rfl ?_)))
    (.run 2 rfl (.dropFound ?_))) (.run 1 rfl (.aliasAdd ?_ ?_))) (.run 2 rfl .dropRemove), rfl⟩ <;>
    simp [upd, AConfig.init, ObjState.empty, ObjState.spec, ObjState.docs, SpecState.allows]

end Visigoth
