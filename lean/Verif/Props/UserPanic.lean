import Verif.Proofs.UserPanic
import Verif.Props.Conc
/-!
# Tokenizers and builders that panic (C104)

The claim: a panic of the user's tokenizer or builder that the caller recovers from leaves the repository as it was.
It is false (`C104_refuted`): `Put` keeps the mutex of the index map, and may leave an index without documents.
-/
namespace Visigoth

variable {cfg : Cfg} {o : Oracle} {t : Tid} {P : UserPanics}

/-- The claim: after a call that panicked and was recovered, the repository is as before. -/
def RecoveryClaim (cfg : Cfg) (P : UserPanics) : Prop :=
  ∀ cs rets s s', runCalls cfg cs newIndexRepo = .ok rets s → s.imu = {} → s.amu = {} →
    (∀ o t n d, run cfg o t (Repo.putU cfg P n d) s = .ok .panicked s' → s' = s) ∧
    (∀ o t n ts e, run cfg o t (Repo.searchU P n ts e) s = .ok .panicked s' → s' = s)

/-- `Put`.  If the name is unknown and the builder panics, nothing has changed but that the mutex of the index map
is kept for writing.  If the tokenizer does, the new index has been registered, without a document, as well.  If the
name is known, the tokenizer panics in another goroutine, and the process ends.  Otherwise nothing panics, and `Put`
is as ever (C30). -/
theorem C104_put_exact {s a} (h : Abs cfg s a) (hr : a.leakedReaders = 0) (hw : a.leakedWriter = false) (n : Name)
    (d : DocRequest) :
    run cfg o t (Repo.putU cfg P n d) s =
      match a.resolve n with
      | none => if P.builder n then .ok .panicked { s with imu := { readers := [], writer := some t } }
        else if P.tokenizer d.statement then .ok .panicked
          { s with imu := { readers := [], writer := some t }, heap := s.heap ++ [newMemoryIndex n],
                   indices := s.indices.set n s.heap.length }
        else (run cfg o t (Repo.put cfg n d) s).returns
      | some l => if l ≠ [] ∧ P.tokenizer d.statement then .ok .died { s with imu := { readers := [], writer := some t } }
        else (run cfg o t (Repo.put cfg n d) s).returns :=
  run_putU h hr hw n d

/-- `Search`.  If the tokenizer panics, then with one index the call panics and the repository is exactly as before;
with several, all of them there, the process ends.  Otherwise the tokenizer is not called or does not panic, and
`Search` is as ever. -/
theorem C104_search_exact {s a} (h : Abs cfg s a) (hw : a.leakedWriter = false) (n : Name) (ts : Str) (e : Engine) :
    run cfg o t (Repo.searchU P n ts e) s =
      match a.resolve n with
      | none => (run cfg o t (Repo.search n ts e) s).returns
      | some l => if P.tokenizer ts ∧ l ≠ [] ∧ ∀ m ∈ l, (a.docs m).isSome then
          if l.length = 1 then .ok .panicked s
          else .ok .died { s with imu := { s.imu with readers := t :: s.imu.readers } }
        else (run cfg o t (Repo.search n ts e) s).returns :=
  run_searchU h hw n ts e

theorem returns_ne_panicked {α : Type} (x : Outcome α) (s : Shared) : x.returns ≠ .ok .panicked s := by
  cases x <;> simp [Outcome.returns]

/-- The part of the claim that is true: a `Search` that panicked has changed nothing. -/
theorem C104_search_partial {s s' a} (h : Abs cfg s a) (hw : a.leakedWriter = false) (n : Name) (ts : Str) (e : Engine)
    (hp : run cfg o t (Repo.searchU P n ts e) s = .ok .panicked s') : s' = s := by
  rw [C104_search_exact h hw] at hp
  split at hp
  · exact absurd hp (returns_ne_panicked _ _)
  · split at hp
    · split at hp
      · injection hp with _ hp; exact hp.symm
      · injection hp with hp; cases hp
    · exact absurd hp (returns_ne_panicked _ _)

/-- A `Put` that panicked always keeps the mutex of the index map, whether it was the builder or the tokenizer; and
there is no such `Put` of a name that exists. -/
theorem C104_put_keeps {s s' a} (h : Abs cfg s a) (hr : a.leakedReaders = 0) (hw : a.leakedWriter = false) (n : Name)
    (d : DocRequest) (hp : run cfg o t (Repo.putU cfg P n d) s = .ok .panicked s') :
    s'.imu.writer = some t ∧ a.resolve n = none := by
  rw [C104_put_exact h hr hw] at hp
  split at hp
  · next hres =>
    split at hp
    · injection hp with _ hp; subst hp; exact ⟨rfl, hres⟩
    · split at hp
      · injection hp with _ hp; subst hp; exact ⟨rfl, hres⟩
      · exact absurd hp (returns_ne_panicked _ _)
  · split at hp
    · injection hp with hp; cases hp
    · exact absurd hp (returns_ne_panicked _ _)

/-- The claim is true only of a builder and a tokenizer that never panic. -/
theorem C104_refuted (cfg : Cfg) (P : UserPanics) :
    RecoveryClaim cfg P ↔ (∀ n, P.builder n = false) ∧ ∀ x, P.tokenizer x = false := by
  constructor
  · intro h
    have key : ∀ n x, P.builder n = false ∧ P.tokenizer x = false := by
      intro n x
      have hh := fun s' => (h [] [] newIndexRepo s' rfl rfl rfl).1 ⟨id, fun _ => id, id, id⟩ 0 n (newDocRequest n x)
      rw [C104_put_exact (abs_empty cfg) rfl rfl] at hh
      have hres : SpecState.empty.resolve n = none := rfl
      rw [hres] at hh
      simp only at hh
      by_cases hb : P.builder n = true
      · rw [if_pos hb] at hh
        have := congrArg (fun s => s.imu.writer) (hh _ rfl)
        cases this
      · rw [if_neg hb] at hh
        by_cases ht : P.tokenizer x = true
        · have ht' : P.tokenizer (newDocRequest n x).statement = true := ht
          rw [if_pos ht'] at hh
          have := congrArg (fun s => s.imu.writer) (hh _ rfl)
          cases this
        · exact ⟨by simpa using hb, by simpa using ht⟩
    exact ⟨fun n => (key n []).1, fun x => (key [] x).2⟩
  · rintro ⟨hb, ht⟩ cs rets s s' hrun hi ha
    obtain ⟨a, _, habs⟩ := runCalls_refines (abs_empty cfg) hrun
    have hr : a.leakedReaders = 0 := by rw [← habs.imuR, hi]; rfl
    have hw : a.leakedWriter = false := by rw [← habs.amuW, ha]; rfl
    refine ⟨fun o t n d hp => ?_, fun o t n ts e hp => C104_search_partial habs hw n ts e hp⟩
    rw [C104_put_exact habs hr hw] at hp
    simp only [hb, ht, Bool.false_eq_true, and_false, if_false] at hp
    split at hp <;> exact absurd hp (returns_ne_panicked _ _)

/-- With the mutex of the index map kept, every call hangs but `HasAlias`, `ListAliases` and `UnAlias` without an
index, and these do what they would do otherwise. -/
theorem C104_afterwards {s : Shared} (h : s.imu.writer ≠ none) (op : Op) :
    (¬ op.aliasesOnly → run cfg o t (op.prog cfg) s = .hang s) ∧
    (op.aliasesOnly → run cfg o t (op.prog cfg) s =
      match run cfg o t (op.prog cfg) s.freed with
      | .ok r s' => .ok r { s' with imu := s.imu }
      | .hang s' => .hang { s' with imu := s.imu }
      | .crash c => .crash c) := by
  refine ⟨fun hop => run_hangs h op hop, fun hop => ?_⟩
  have := run_withI (cfg := cfg) (o := o) (t := t) (op.prog cfg) (freeI_aliasesOnly op hop) s.freed s.imu
  have e : ({ s.freed with imu := s.imu } : Shared) = s := rfl
  rw [e] at this
  rw [this]
  cases run cfg o t (op.prog cfg) s.freed <;> rfl

/-- A `Put` among concurrent calls does what `Put` does: it crashes exactly if it panics or the process ends. -/
theorem C104_thread (n : Name) (d : DocRequest) (s : Shared) :
    run cfg o t (putThreadU cfg P o n d).prog s =
      match run cfg o t (Repo.putU cfg P n d) s with
      | .ok (.returned _) s' => .ok .unit s'
      | .ok .panicked _ => .crash .engine
      | .ok .died _ => .crash .nilIndex
      | .hang s' => .hang s'
      | .crash c => .crash c := by
  unfold putThreadU
  simp only [run_bind]
  cases run cfg o t (Repo.putU cfg P n d) s with
  | ok e s' => cases e <;> rfl
  | hang s' => rfl
  | crash c => rfl

/-- Among concurrent calls, too: a `Put` that has panicked, in any schedule, has kept the mutex. -/
theorem C104_put_keeps_concurrent {c c' : Config} {n : Name} {d : DocRequest} {x : Thread}
    (h : c.calls[t]? = some (putThreadU cfg P o n d)) (hs : Steps cfg c c') (hx : c'.calls[t]? = some x)
    (hp : x.prog = .crash .engine) : c'.sh.imu.writer = some t :=
  midPut_panicked (midPut_steps ⟨_, h, Or.inl (takes_putThreadU o n d)⟩ hs) hx hp

/-- And from then on, in any schedule, no later call returns but `HasAlias`, `ListAliases` and `UnAlias` without an
index. -/
theorem C104_afterwards_concurrent {c c' c'' : Config} {n : Name} {d : DocRequest} {x y : Thread} {u : Tid} {r : Ret}
    (h : c.calls[t]? = some (putThreadU cfg P o n d)) (hs : Steps cfg c c') (hx : c'.calls[t]? = some x)
    (hp : x.prog = .crash .engine) (hs' : Steps cfg c' c'') (hu : c'.calls.length ≤ u) (hy : c''.calls[u]? = some y)
    (hret : y.prog = .ret r) : y.op.aliasesOnly := by
  have hh := C104_put_keeps_concurrent h hs hx hp
  have h0 : Over c' t (fun _ => false) (fun m => decide (m = .indices)) :=
    ⟨⟨x, hx, fun hr => by unfold Thread.running at hr; rw [hp] at hr; exact hr⟩, fun _ h => (nomatch h),
      fun m h => by simp at h; subst h; exact hh⟩
  have := (barred_later (bar := barW) h0
    (fun a o u b s s' hb _ _ hw => barW_blocked a o u b s s' hb (hw .indices rfl))
    (fun op _ => ¬ op.aliasesOnly) (barred_needsW cfg) hs').2 u y hu hy
  rw [hret] at this
  exact Classical.not_not.1 this

/-! ## Examples -/

/-- The builder panics on the name `bad`, the tokenizer on the text `boom`. -/
def badUser : UserPanics := { builder := fun n => n == str "bad", tokenizer := fun x => x == str "boom" }
def boomDoc : DocRequest := newDocRequest (str "b") (str "boom")

/-- `Put("x", boom)` in an empty repository: it panics, an empty index `x` is there, and the mutex is kept. -/
def afterBoom : Shared :=
  { heap := [newMemoryIndex (str "x")], arrays := [], indices := newIndexRepo.indices.set (str "x") 0,
    aliases := newIndexRepo.aliases, imu := { readers := [], writer := some 0 }, amu := {} }
example : run sampleCfg sampleOracle 0 (Repo.putU sampleCfg badUser (str "x") boomDoc) newIndexRepo
    = .ok .panicked afterBoom := by
  rw [C104_put_exact (abs_empty _) rfl rfl]
  have hb : badUser.builder (str "x") = false := by decide +kernel
  have ht : badUser.tokenizer boomDoc.statement = true := by decide +kernel
  have hres : SpecState.empty.resolve (str "x") = none := rfl
  simp only [hres, hb, ht, Bool.false_eq_true, if_false, if_true]
  rfl
/-- `Put("bad", java)`: the builder panics, there is no index, and the mutex is kept. -/
example : run sampleCfg sampleOracle 0 (Repo.putU sampleCfg badUser (str "bad") docD) newIndexRepo
    = .ok .panicked { newIndexRepo with imu := { readers := [], writer := some 0 } } := by
  rw [C104_put_exact (abs_empty _) rfl rfl]
  have hb : badUser.builder (str "bad") = true := by decide +kernel
  have hres : SpecState.empty.resolve (str "bad") = none := rfl
  simp only [hres, hb, if_true]
/-- `Put("x", java)`: nothing panics. -/
example : (match run sampleCfg sampleOracle 0 (Repo.putU sampleCfg badUser (str "x") docD) newIndexRepo with
    | .ok (.returned _) s => s.imu.writer | _ => some 7) = none := by decide +kernel
/-- Afterwards `Has("x")` hangs, and `HasAlias("x")` does not. -/
example : run sampleCfg sampleOracle 1 ((Op.has (str "x")).prog sampleCfg) afterBoom = .hang afterBoom :=
  (C104_afterwards (by simp [afterBoom]) _).1 id
example : ∃ s, run sampleCfg sampleOracle 1 ((Op.hasAlias (str "x")).prog sampleCfg) afterBoom = .ok (.bool false) s :=
  ⟨_, rfl⟩

/-- A repository with the index `x`: searching it for `boom` panics and leaves it as it was; another `Put` of `boom`
ends the process. -/
def withX : Shared := stateAfter [.put (str "x") docD]
example : (match run sampleCfg sampleOracle 1 (Repo.searchU badUser (str "x") (str "boom") linearSearch) withX with
    | .ok .panicked s => (s.heap.map (·.docs.length), s.imu.readers) | _ => ([], [7])) = ([1], []) := by decide +kernel
example : (match run sampleCfg sampleOracle 1 (Repo.putU sampleCfg badUser (str "x") boomDoc) withX with
    | .ok .died _ => true | _ => false) = true := by decide +kernel

/-- The same `Put` among concurrent calls: after nine steps it has panicked, and a `Has` cannot begin. -/
def boomConfig : Config := { sh := newIndexRepo, calls := [putThreadU sampleCfg badUser sampleOracle (str "x") boomDoc] }
example : (boomConfig.play sampleCfg (goes 0 10)).map
    (fun c => (c.calls.map fun x => match x.prog with | .crash c => some c | _ => none, c.sh.imu.writer))
    = some ([some .engine], some 0) := by decide +kernel
example : (boomConfig.play sampleCfg (goes 0 10 ++ [callNow (.has (str "x")), .go 1])).isNone = true := by decide +kernel
example : ((boomConfig.play sampleCfg (goes 0 10 ++ [callNow (.hasAlias (str "x"))] ++ goes 1 3)).map
    (fun c => c.calls.map fun x => match x.prog with | .ret r => some r | _ => none))
    = some [none, some (.bool false)] := by decide +kernel

end Visigoth
