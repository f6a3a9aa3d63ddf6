import Verif.Proofs.AnyIndex
import Verif.Props.Conc
/-! # The stand-in moves in step -/
namespace Visigoth

variable {σ α β : Type}

theorem filled_move {cfg : Cfg} {c c' : Config} {t : Tid} (hr : ConcReachable cfg c) (hf : Filled c)
    (h : TStep cfg t c c') : Filled c' := by
  cases h with
  | @act s s' calls op o β a k b h he =>
    have hfp : Fills (.act a k) := hf.progs _ (List.mem_of_getElem? h)
    have hlt : t < calls.length := (List.getElem?_eq_some_iff.1 h).1
    refine ⟨?_, ?_⟩
    · intro x hx
      rcases List.mem_or_eq_of_mem_set hx with hx | rfl
      · exact hf.progs x hx
      · cases hn : a.isNew with
        | false => exact hfp.step hn b
        | true =>
          cases a <;> first | cases hn | skip
          exact (hfp.new b).1
    · intro p mi' hp
      rcases heap_after he p mi' hp with ⟨mi, hmi, hn, hd⟩ | ⟨hpl, hm, hd⟩
      · rcases hf.objs p mi hmi with ⟨d, ds, h1, h2⟩ | ⟨h0, u, x, hu, hfil⟩
        · left
          rcases hd with ⟨hd, _⟩ | ⟨d', hd, _⟩
          · exact ⟨d, ds, by rw [← hd, h1], by rw [h2, hn]⟩
          · exact ⟨d, ds ++ [d'], by rw [hd, h1]; rfl, by rw [h2, hn]⟩
        · by_cases hut : u = t
          · subst hut
            replace hu : calls[u]? = some x := hu
            rw [h, Option.some.injEq] at hu
            subst hu
            rcases hfil with ⟨cc, k', hq⟩ | ⟨cc, k', hq⟩
            · cases hq
              rcases hd with ⟨hd, _⟩ | ⟨_, _, hd⟩
              · right
                refine ⟨by rw [← hd, h0], u, _, List.getElem?_set_self hlt, .inr ⟨cc, k', ?_⟩⟩
                rw [hn]
              · cases hd
            · cases hq
              rcases hd with ⟨_, hd⟩ | ⟨d', hd, he'⟩
              · exact absurd rfl (hd _)
              · left
                simp only [Act.appends, Option.some.injEq, Prod.mk.injEq, true_and] at he'
                subst he'
                exact ⟨_, [], by rw [hd, h0]; rfl, hn⟩
          · rcases hd with ⟨hd, _⟩ | ⟨d', hd, he'⟩
            · right
              refine ⟨by rw [← hd, h0], u, x, ?_, by rw [← hn]; exact hfil⟩
              rw [List.getElem?_set_ne (Ne.symm hut)]
              exact hu
            · exfalso
              have hw : (Thread.mk op o (.act a k)).writes = some .indices := by
                cases a <;> first | rfl | cases he'
              have hw' : x.writes = some .indices := by
                rcases hfil with ⟨_, _, hq⟩ | ⟨_, _, hq⟩ <;> simp only [Thread.writes, hq] <;> rfl
              exact (race_only hr hut hu h hw' (.inr hw)).2 rfl
      · right
        cases a with
        | newIndex m =>
          simp only [exec, Exec.ok.injEq] at he
          obtain ⟨rfl, _⟩ := he
          subst hpl
          simp only [Act.makes, Option.some.injEq] at hm
          subst hm
          exact ⟨hd, t, _, List.getElem?_set_self hlt, (hfp.new _).2⟩
        | _ => cases hm
  | @crash s calls op o β a k e h he =>
    refine ⟨?_, ?_⟩
    · intro x hx
      rcases List.mem_or_eq_of_mem_set hx with hx | rfl
      · exact hf.progs x hx
      · exact .crash e
    · intro p mi hp
      rcases hf.objs p mi hp with h1 | ⟨h0, u, x, hu, hfil⟩
      · exact .inl h1
      · right
        refine ⟨h0, u, x, ?_, hfil⟩
        by_cases hut : u = t
        · exfalso
          subst hut
          replace hu : calls[u]? = some x := hu
          rw [h, Option.some.injEq] at hu
          subst hu
          rcases hfil with ⟨cc, k', hq⟩ | ⟨cc, k', hq⟩
          · cases hq; simp only [exec] at he; cases he
          · cases hq
            replace hp : s.heap[p]? = some mi := hp
            simp only [exec, hp] at he
            cases he
        · rw [List.getElem?_set_ne (Ne.symm hut)]
          exact hu

theorem filled_invoke {c : Config} (hf : Filled c) (op : Op) (o : Oracle) (q : Prog Ret) (hq : Fills q) :
    Filled { c with calls := c.calls ++ [{ op := op, oracle := o, prog := q }] } := by
  refine ⟨?_, ?_⟩
  · intro x hx
    rcases List.mem_append.1 hx with hx | hx
    · exact hf.progs x hx
    · rw [List.mem_singleton] at hx; subst hx; exact hq
  · intro p mi hp
    rcases hf.objs p mi hp with h1 | ⟨h0, u, x, hu, hfil⟩
    · exact .inl h1
    · refine .inr ⟨h0, u, x, ?_, hfil⟩
      show (c.calls ++ _)[u]? = _
      rw [List.getElem?_append_left (List.getElem?_eq_some_iff.1 hu).1]
      exact hu

/-- A call and its stand-in. -/
def IThread.mirror (I : IndexImpl σ) (x : IThread) : Thread :=
  { op := x.op.disguise I, oracle := x.oracle, prog := x.prog.mirror I x.op.putName }

/-- The index an object of the stand-in stands for. -/
def IndexImpl.of (I : IndexImpl σ) (mi : MemoryIndex) : σ :=
  I.after mi.name (mi.docs.map fun d => unpackRequest d.content)

structure Mirror (I : IndexImpl σ) (c : IConfig σ) (c' : Config) : Prop where
  sh : c'.sh = { c.sh.sh with heap := c'.sh.heap }
  objs : c.sh.objs = c'.sh.heap.map I.of
  calls : c'.calls = c.calls.map (IThread.mirror I)
  tidy : ∀ x ∈ c.calls, x.prog.tidy

theorem asEngine_of (I : IndexImpl σ) (mi : MemoryIndex) (terms : Str) (e : Engine) {d : Doc} {ds : List Doc}
    (h1 : mi.docs = d :: ds) (h2 : d.name = mi.name) (cfg : Cfg) :
    mi.search cfg.cp cfg.tok terms (I.asEngine terms e) = I.search (I.of mi) terms e := by
  have hd : (List.range (mi.indexer cfg.cp).len).filterMap (mi.indexer cfg.cp).document = mi.docs := by
    have := filterMap_range mi.docs some
    rw [List.filterMap_some] at this
    refine Eq.trans ?_ this
    apply filterMap_congr_left
    intro i _
    show mi.docs[i]? = _
    cases mi.docs[i]? <;> rfl
  unfold MemoryIndex.search IndexImpl.asEngine
  rw [hd, h1]
  show I.search (I.after d.name _) terms e = _
  rw [IndexImpl.of, h1, h2]

theorem set_map_mirror (I : IndexImpl σ) (calls : List IThread) (t : Nat) (x : IThread) :
    (calls.map (IThread.mirror I)).set t (x.mirror I) = (calls.set t x).map (IThread.mirror I) := by
  rw [List.map_set]

theorem mirror_next (I : IndexImpl σ) {c : IConfig σ} {c' : Config} (hr : ConcReachable noCfg c') (hf : Filled c')
    (m : Mirror I c c') (x : Sched) (hx : ∀ op o, x = .call op o → op.isString = false) :
    OptRel (Mirror I) (c.next I x) (c'.next noCfg (x.disguise I)) := by
  cases x with
  | call op o =>
    refine ⟨m.sh, m.objs, ?_, ?_⟩
    · show c'.calls ++ _ = (c.calls ++ _).map _
      rw [m.calls, List.map_append, ← mirror_iprog]
      rfl
    · intro x hx'
      rcases List.mem_append.1 hx' with hx' | hx'
      · exact m.tidy x hx'
      · rw [List.mem_singleton] at hx'; subst hx'; exact tidy_iprog op (hx op o rfl)
  | go t =>
    have hget : c'.calls[t]? = (c.calls[t]?).map (IThread.mirror I) := by rw [m.calls, List.getElem?_map]
    simp only [IConfig.next, Config.next, Sched.disguise, hget]
    cases hc : c.calls[t]? with
    | none => trivial
    | some x =>
      obtain ⟨op, o, prog⟩ := x
      have htidy := m.tidy _ (List.mem_of_getElem? hc)
      have setTidy : ∀ q : IProg Ret, q.tidy → ∀ x ∈ c.calls.set t ⟨op, o, q⟩, x.prog.tidy := by
        intro q hq x hx'
        rcases List.mem_or_eq_of_mem_set hx' with hx' | rfl
        · exact m.tidy x hx'
        · exact hq
      have setCalls : ∀ q : IProg Ret, c'.calls.set t ⟨op.disguise I, o, q.mirror I op.putName⟩
          = (c.calls.set t ⟨op, o, q⟩).map (IThread.mirror I) := by
        intro q
        rw [m.calls]
        exact set_map_mirror I c.calls t ⟨op, o, q⟩
      cases prog with
      | ret r => trivial
      | crash e => trivial
      | act a k =>
        cases a with
        | plain a =>
          have ha : a.onNames = true := htidy.1
          have hex := exec_onNames ha noCfg o t c.sh.sh c'.sh.heap
          rw [← m.sh] at hex
          simp only [IThread.mirror, Option.map_some, IProg.mirror, iexec, ha, if_true, hex]
          cases exec noCfg o t a c.sh.sh with
          | ok b s' => exact ⟨rfl, m.objs, setCalls _, setTidy _ (htidy.2 b)⟩
          | blocked => trivial
          | crash e => exact ⟨m.sh, m.objs, setCalls (.crash e), setTidy _ trivial⟩
        | make nm =>
          simp only [IThread.mirror, Option.map_some, IProg.mirror, iexec, exec]
          have hl : c.sh.objs.length = c'.sh.heap.length := by rw [m.objs, List.length_map]
          refine ⟨?_, ?_, ?_, setTidy _ (htidy _)⟩
          · rw [m.sh]
          · simp only [List.map_append, m.objs]; rfl
          · rw [hl]; exact setCalls _
        | put p d =>
          simp only [IThread.mirror, Option.map_some, IProg.mirror, iexec, exec]
          have hp : c.sh.objs[p]? = (c'.sh.heap[p]?).map I.of := by rw [m.objs, List.getElem?_map]
          rw [hp]
          cases hh : c'.sh.heap[p]? with
          | none => exact ⟨m.sh, m.objs, setCalls (.crash .invalid), setTidy _ trivial⟩
          | some mi =>
            refine ⟨?_, ?_, setCalls _, setTidy _ (htidy ())⟩
            · rw [m.sh]
            · simp only [m.objs, List.map_set]
              congr 1
              simp [IndexImpl.of, IndexImpl.after, newDoc, unpack_pack]
        | search p terms e =>
          simp only [IThread.mirror, Option.map_some, IProg.mirror, iexec, exec]
          have hp : c.sh.objs[p]? = (c'.sh.heap[p]?).map I.of := by rw [m.objs, List.getElem?_map]
          rw [hp]
          cases hh : c'.sh.heap[p]? with
          | none => exact ⟨m.sh, m.objs, setCalls (.crash .invalid), setTidy _ trivial⟩
          | some mi =>
            have hs : mi.search noCfg.cp noCfg.tok terms (I.asEngine terms e) = I.search (I.of mi) terms e := by
              rcases hf.objs p mi hh with ⟨d, ds, h1, h2⟩ | ⟨_, u, x, hu, hfil⟩
              · exact asEngine_of I mi terms e h1 h2 noCfg
              · exfalso
                have ht : c'.calls[t]? = some (IThread.mirror I ⟨op, o, .act (.search p terms e) k⟩) := by
                  rw [hget, hc]; rfl
                have hw' : x.writes = some .indices := by
                  rcases hfil with ⟨_, _, hq⟩ | ⟨_, _, hq⟩ <;> simp only [Thread.writes, hq] <;> rfl
                have hut : u ≠ t := by
                  rintro rfl
                  rw [hu, Option.some.injEq] at ht
                  rw [ht] at hw'
                  cases hw'
                exact (race_only hr hut hu ht hw' (.inl rfl)).2 rfl
            simp only [Option.map_some, hs]
            exact ⟨m.sh, m.objs, setCalls _, setTidy _ (htidy _)⟩

theorem mirror_init (I : IndexImpl σ) : Mirror I (IConfig.init σ) Config.init :=
  ⟨rfl, rfl, rfl, fun _ hx => nomatch hx⟩

theorem filled_init : Filled Config.init := ⟨fun _ hx => (nomatch hx), fun p mi h => by simp [Config.init, newIndexRepo] at h⟩

/-- Everything that is kept along a schedule. -/
structure InStep (I : IndexImpl σ) (c : IConfig σ) (c' : Config) : Prop where
  mirror : Mirror I c c'
  reach : ConcReachable noCfg c'
  filled : Filled c'

theorem inStep_play (I : IndexImpl σ) : ∀ (xs : List Sched) (c : IConfig σ) (c' : Config), NoString xs →
    InStep I c c' → OptRel (InStep I) (c.play I xs) (c'.play noCfg (xs.map (Sched.disguise I))) := by
  intro xs
  induction xs with
  | nil => intro c c' _ h; exact h
  | cons x xs ih =>
    intro c c' hs h
    have hx : ∀ op o, x = .call op o → op.isString = false := fun op o e => hs op o (by simp [e])
    have hn := mirror_next I h.reach h.filled h.mirror x hx
    simp only [IConfig.play, List.map_cons, Config.play]
    cases h1 : c.next I x with
    | none =>
      rw [h1] at hn
      cases h2 : c'.next noCfg (x.disguise I) with
      | none => trivial
      | some d => rw [h2] at hn; exact nomatch hn
    | some d =>
      rw [h1] at hn
      cases h2 : c'.next noCfg (x.disguise I) with
      | none => rw [h2] at hn; exact nomatch hn
      | some d' =>
        rw [h2] at hn
        have hstep := next_step h2
        refine ih d d' (fun op o ho => hs op o (by simp [ho])) ⟨hn, .tail h.reach hstep, ?_⟩
        cases x with
        | call op o =>
          simp only [Config.next, Sched.disguise, Option.some.injEq] at h2
          subst h2
          exact filled_invoke h.filled _ _ _ (fills_op I op (hx op o rfl))
        | go t =>
          cases hstep with
          | move u hu => exact filled_move h.reach h.filled hu
          | invoke op o =>
            exfalso
            simp only [Config.next, Sched.disguise] at h2
            split at h2
            · split at h2
              · simp only [Option.some.injEq] at h2
                have := congrArg (fun c : Config => c.calls.length) h2
                simp at this
              · cases h2
              · simp only [Option.some.injEq] at h2
                have := congrArg (fun c : Config => c.calls.length) h2
                simp at this
            · cases h2

theorem inStep_init (I : IndexImpl σ) : InStep I (IConfig.init σ) Config.init :=
  ⟨mirror_init I, .refl _, filled_init⟩

theorem mirror_status (I : IndexImpl σ) (x : IThread) : (x.mirror I).status = x.status := by
  obtain ⟨op, o, p⟩ := x
  cases p with
  | ret r => rfl
  | crash e => rfl
  | act a k => cases a <;> rfl

theorem Mirror.looks {I : IndexImpl σ} {c : IConfig σ} {c' : Config} (m : Mirror I c c') : LooksLike c c' := by
  have hs := m.sh
  refine ⟨?_, ?_, ?_, ?_, ?_, ?_, ?_⟩
  · rw [hs]
  · rw [hs]
  · rw [hs]
  · rw [hs]
  · rw [hs]
  · rw [m.objs, List.length_map]
  · rw [m.calls, List.map_map]
    exact List.map_congr_left fun x _ => (mirror_status I x).symm

end Visigoth
