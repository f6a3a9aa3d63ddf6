import Verif.Props.Conc
import Verif.Proofs.Reach
/-!
# Which methods may be used together without a data race (C51)
-/
namespace Visigoth

variable {cfg : Cfg}

/-- The methods of `IndexRepo` (repos_repo.go:44-316). -/
inductive Method where
  | list | listAliases | has | hasAlias | alias | unAlias | put | search | rename | drop | string
deriving DecidableEq, Repr

def Op.method : Op → Method
  | .list => .list
  | .listAliases => .listAliases
  | .has _ => .has
  | .hasAlias _ => .hasAlias
  | .alias _ _ => .alias
  | .unAlias _ _ => .unAlias
  | .put _ _ => .put
  | .search _ _ _ => .search
  | .rename _ _ => .rename
  | .drop _ => .drop
  | .string => .string

/-- Programs that call only these methods, in any number and order, are free of data races. -/
def RaceFreeWith (cfg : Cfg) (M : Method → Prop) : Prop :=
  ∀ c, ConcReachable cfg c → (∀ x ∈ c.calls, M x.op.method) → ∀ t u l, ¬ c.race t u l

/-- What is left of a call, while there is no index: it binds no name, and a `Rename` uses nothing but the index map. -/
def NoIndexYet (ren : Bool) : Prog Ret → Prop
  | .ret _ => True
  | .crash _ => True
  | .act a k =>
    (ren = true → ∀ l, a.reads = some l ∨ a.writes = some l → l = .indices) ∧
    match a, k with
    | .idxGet _, k => NoIndexYet ren (k none)
    | .idxSet _ _, _ => False
    | _, k => ∀ b, NoIndexYet ren (k b)

/-- The same for parts of programs, other than of `Rename`. -/
def NoBinding {α : Type} : Prog α → Prop
  | .ret _ => True
  | .crash _ => True
  | .act a k =>
    match a, k with
    | .idxGet _, k => NoBinding (k none)
    | .idxSet _ _, _ => False
    | _, k => ∀ b, NoBinding (k b)

theorem noBinding_bind {α β : Type} {f : α → Prog β} {p : Prog α} (h : NoBinding p) (hf : ∀ a, NoBinding (f a)) :
    NoBinding (p >>= f) := by
  induction p with
  | ret a => exact hf a
  | crash c => trivial
  | act a k ih =>
    cases a
    case idxGet n => exact ih _ h
    case idxSet n p => exact h.elim
    all_goals exact fun b => ih _ (h b)

theorem noIndexYet_of {p : Prog Ret} (h : NoBinding p) : NoIndexYet false p := by
  induction p with
  | ret a => trivial
  | crash c => trivial
  | act a k ih =>
    cases a
    case idxGet n => exact ⟨nofun, ih _ h⟩
    case idxSet n p => exact h.elim
    all_goals exact ⟨nofun, fun b => ih _ (h b)⟩

theorem noBinding_readFrom (r : SliceRef) : ∀ (k i : Nat), NoBinding (Repo.readFrom r i k)
  | 0, _ => trivial
  | k + 1, i => fun _ => noBinding_bind (p := Repo.readFrom r (i + 1) k) (noBinding_readFrom r k (i + 1)) fun _ => trivial

theorem noBinding_resolveFrom (r : SliceRef) : ∀ (k i : Nat), NoBinding (Repo.resolveFrom r i k)
  | 0, _ => trivial
  | k + 1, i => fun _ => noBinding_bind (p := Repo.resolveFrom r (i + 1) k) (noBinding_resolveFrom r k (i + 1)) fun _ => trivial

theorem noBinding_searchIndex (p : Ptr) (ts : Str) (e : Engine) : NoBinding (Repo.searchIndex p ts e) := fun b => by
  cases b <;> trivial

theorem noBinding_searchAll (ts : Str) (e : Engine) : ∀ ps, NoBinding (Repo.searchAll ts e ps)
  | [] => trivial
  | p :: ps => noBinding_bind (p := Repo.searchIndex p ts e) (noBinding_searchIndex p ts e) fun _ =>
    noBinding_bind (p := Repo.searchAll ts e ps) (noBinding_searchAll ts e ps) fun _ => trivial

theorem noBinding_searchTargets (l : List (Option Ptr)) (ts : Str) (e : Engine) : NoBinding (Repo.searchTargets l ts e) := by
  unfold Repo.searchTargets
  split
  · trivial
  · exact noBinding_searchIndex _ _ _
  · exact fun _ => noBinding_searchAll _ _ _

theorem noBinding_search (n : Name) (ts : Str) (e : Engine) : NoBinding (Repo.search n ts e) := fun _ _ w => by
  cases w with
  | none => exact fun _ _ => trivial
  | some r =>
    exact noBinding_bind (p := Repo.resolveFrom r 0 r.len) (noBinding_resolveFrom r _ _) fun l _ =>
      noBinding_bind (p := Repo.searchTargets l ts e) (noBinding_searchTargets _ _ _) fun _ _ => trivial

theorem noBinding_listRows : ∀ ks, NoBinding (Repo.listRows ks)
  | [] => trivial
  | k :: ks => fun v => by
    cases v with
    | none => exact noBinding_listRows ks
    | some r => exact noBinding_bind (p := Repo.listRows ks) (noBinding_listRows ks) fun _ => trivial

theorem noBinding_renderAll : ∀ ks, NoBinding (Repo.renderAll ks)
  | [] => trivial
  | _ :: ks => noBinding_renderAll ks

theorem noIndexYet_prog {op : Op} (h : op.method ≠ .put) : NoIndexYet op.isRename (op.prog cfg) := by
  cases op with
  | list => exact noIndexYet_of (p := Op.prog cfg .list) fun _ _ _ => trivial
  | listAliases =>
    refine noIndexYet_of (noBinding_bind (p := Repo.listAliases) (fun _ ks => ?_) fun _ => trivial)
    exact noBinding_bind (p := Repo.listRows ks) (noBinding_listRows _) fun _ _ => trivial
  | has n => exact noIndexYet_of (p := Op.prog cfg (.has n)) fun _ _ => trivial
  | hasAlias n => exact noIndexYet_of (p := Op.prog cfg (.hasAlias n)) fun _ _ _ => trivial
  | «alias» al i => exact noIndexYet_of (p := Op.prog cfg (.alias al i)) fun _ _ => trivial
  | unAlias al i =>
    refine noIndexYet_of (noBinding_bind (p := Repo.unAlias al i) ?_ fun _ => trivial)
    unfold Repo.unAlias
    split
    · exact fun _ _ _ _ _ => trivial
    · exact fun _ => trivial
  | put n d => exact absurd rfl h
  | search n ts e =>
    exact noIndexYet_of (noBinding_bind (p := Repo.search n ts e) (noBinding_search n ts e) fun v => by cases v <;> trivial)
  | rename old new =>
    refine ⟨fun _ l h => ?_, fun _ => ⟨fun _ l h => ?_, fun _ => ⟨fun _ l h => ?_, ⟨fun _ l h => ?_, fun _ => trivial⟩⟩⟩⟩ <;>
      simp [Act.reads, Act.writes] at h <;> exact h.symm
  | drop n => exact noIndexYet_of (p := Op.prog cfg (.drop n)) fun _ _ => trivial
  | string =>
    refine noIndexYet_of (noBinding_bind (p := Repo.string) (fun _ ks => ?_) fun _ => trivial)
    exact noBinding_bind (p := Repo.renderAll ks) (noBinding_renderAll _) fun _ _ => trivial

/-- Without `Put` there is never an index, and no `Rename` gets to the aliases. -/
structure NoIndexInv (c : Config) : Prop where
  none : ∀ n, c.sh.indices.get n = none
  prog : ∀ x ∈ c.calls, NoIndexYet x.op.isRename x.prog

theorem noIndex_step {o : Oracle} {t : Tid} {β : Type} {a : Act β} {k : β → Prog Ret} {b : β} {s s' : Shared} {ren : Bool}
    (hs : ∀ n, s.indices.get n = none) (hp : NoIndexYet ren (.act a k)) (he : exec cfg o t a s = .ok b s') :
    (∀ n, s'.indices.get n = none) ∧ NoIndexYet ren (k b) := by
  cases a
  case idxGet n =>
    simp only [exec] at he
    cases he
    exact ⟨hs, by rw [hs n]; exact hp.2⟩
  case idxSet n p => exact hp.2.elim
  case idxDel n =>
    simp only [exec] at he
    cases he
    refine ⟨fun m => ?_, hp.2 _⟩
    rw [GoMap.get_delete, hs]
    split <;> rfl
  case newIndex n => simp only [exec] at he; cases he; exact ⟨hs, hp.2 _⟩
  case docAppend p d =>
    simp only [exec] at he
    split at he <;> cases he
    exact ⟨hs, hp.2 _⟩
  case postAdd p tok next =>
    simp only [exec] at he
    split at he <;> cases he
    exact ⟨hs, hp.2 _⟩
  all_goals
    refine ⟨?_, hp.2 _⟩
    rw [(exec_frame he).1 (by simp [Act.writes])]
    exact hs

theorem noIndex_reachable {c : Config} (hr : ConcReachable cfg c) (hM : ∀ x ∈ c.calls, x.op.method ≠ .put) : NoIndexInv c := by
  unfold ConcReachable at hr
  induction hr with
  | refl => exact ⟨fun _ => rfl, by simp [Config.init]⟩
  | tail h hs ih =>
    cases hs with
    | invoke op o =>
      have i := ih fun x hx => hM x (by simp [hx])
      refine ⟨i.none, fun x hx => ?_⟩
      rcases List.mem_append.1 hx with hx | hx
      · exact i.prog x hx
      · rw [List.mem_singleton] at hx
        subst hx
        exact noIndexYet_prog (hM _ (by simp))
    | move t h =>
      have key : ∀ {calls : List Thread} {op : Op} {o : Oracle} {p q : Prog Ret}, calls[t]? = some ⟨op, o, p⟩ →
          (∀ x ∈ calls.set t ⟨op, o, q⟩, x.op.method ≠ .put) → ∀ x ∈ calls, x.op.method ≠ .put := by
        intro calls op o p q hget hall x hx
        obtain ⟨u, hu⟩ := List.getElem?_of_mem hx
        by_cases hut : t = u
        · subst hut
          rw [hget] at hu; cases hu
          exact hall ⟨op, o, q⟩ (List.mem_set (List.getElem?_eq_some_iff.1 hget).1 _)
        · exact hall x (List.mem_of_getElem? (i := u) (by rw [List.getElem?_set_ne hut]; exact hu))
      cases h with
      | act hget he =>
        have i := ih (key hget hM)
        obtain ⟨h1, h2⟩ := noIndex_step i.none (i.prog _ (List.mem_of_getElem? hget)) he
        refine ⟨h1, fun x hx => ?_⟩
        rcases List.mem_or_eq_of_mem_set hx with hx | rfl
        · exact i.prog x hx
        · exact h2
      | crash hget he =>
        have i := ih (key hget hM)
        refine ⟨i.none, fun x hx => ?_⟩
        rcases List.mem_or_eq_of_mem_set hx with hx | rfl
        · exact i.prog x hx
        · trivial

/-- `Put x`; then a `Rename` is about to iterate over the alias map while an `UnAlias` is about to delete from it. -/
def methodSchedule : List Sched :=
  [callNow (.put (str "x") docD)] ++ goes 0 13 ++
  [callNow (.unAlias (str "a") []), callNow (.rename (str "x") (str "y"))] ++ goes 1 3 ++ goes 2 5

theorem methodSchedule_race : ∃ c, ConcReachable sampleCfg c ∧ (c.calls.map (·.op.method) = [.put, .unAlias, .rename]) ∧
    c.race 1 2 .aliases := by
  have this : ((Config.init.play sampleCfg methodSchedule).map fun c =>
      (c.calls.map (·.op.method), (c.calls[1]?).bind Thread.writes, (c.calls[2]?).bind Thread.reads))
      = some ([.put, .unAlias, .rename], some .aliases, some .aliases) := by decide +kernel
  cases hc : Config.init.play sampleCfg methodSchedule with
  | none => rw [hc] at this; cases this
  | some c =>
    rw [hc] at this
    simp only [Option.map_some, Option.some.injEq, Prod.mk.injEq] at this
    obtain ⟨h1, h2, h3⟩ := this
    obtain ⟨x, hx, h2⟩ := Option.bind_eq_some_iff.1 h2
    obtain ⟨y, hy, h3⟩ := Option.bind_eq_some_iff.1 h3
    exact ⟨c, play_steps hc, h1, by decide, x, y, hx, hy, h2, .inl h3⟩

/-- Exactly which methods can be used together without a data race: all sets of methods that leave out one of `Put`,
`Rename` and `UnAlias`. -/
theorem C51_methods_exact (M : Method → Prop) :
    (∀ cfg, RaceFreeWith cfg M) ↔ ¬ (M .put ∧ M .rename ∧ M .unAlias) := by
  constructor
  · rintro h ⟨hp, hn, hu⟩
    obtain ⟨c, hc, hops, hrace⟩ := methodSchedule_race
    refine h sampleCfg c hc (fun x hx => ?_) 1 2 .aliases hrace
    have : x.op.method ∈ c.calls.map (·.op.method) := List.mem_map_of_mem hx
    rw [hops] at this
    simp only [List.mem_cons, List.not_mem_nil, or_false] at this
    rcases this with e | e | e <;> rw [e] <;> assumption
  · intro h cfg c hr hM t u l hrace
    obtain ⟨hl, x, y, hx, hy, hxy⟩ := C51_only_rename_unalias hr hrace
    have mx := List.mem_of_getElem? hx
    have my := List.mem_of_getElem? hy
    have ren : ∀ op : Op, op.isRename = true → op.method = .rename := by intro op; cases op <;> simp [Op.isRename, Op.method]
    have una : ∀ op : Op, op.isUnAlias = true → op.method = .unAlias := by intro op; cases op <;> simp [Op.isUnAlias, Op.method]
    by_cases hp : ∃ z ∈ c.calls, z.op.method = .put
    · obtain ⟨z, hz, hzm⟩ := hp
      refine h ⟨hzm ▸ hM z hz, ?_⟩
      rcases hxy with ⟨h1, h2⟩ | ⟨h1, h2⟩
      · exact ⟨ren _ h1 ▸ hM x mx, una _ h2 ▸ hM y my⟩
      · exact ⟨ren _ h2 ▸ hM y my, una _ h1 ▸ hM x mx⟩
    · have i := noIndex_reachable hr fun z hz hzm => hp ⟨z, hz, hzm⟩
      obtain ⟨-, x', y', hx', hy', hw, ho⟩ := hrace
      rw [hx] at hx'; cases hx'
      rw [hy] at hy'; cases hy'
      have key : ∀ z ∈ c.calls, z.op.isRename = true → z.reads = some l ∨ z.writes = some l → False := by
        intro z hz hzr hzl
        have := i.prog z hz
        obtain ⟨op, o, p⟩ := z
        cases p with
        | ret r => rcases hzl with h | h <;> cases h
        | crash e => rcases hzl with h | h <;> cases h
        | act a k =>
          rw [hzr] at this
          refine hl ?_
          cases a <;> exact this.1 rfl l hzl
      rcases hxy with ⟨h1, -⟩ | ⟨-, h2⟩
      · exact key x mx h1 (.inr hw)
      · exact key y my h2 ho

/-- Concrete cases: everything but `Put`, and everything but `UnAlias`, is race free together; the three are not. -/
example : RaceFreeWith sampleCfg (· ≠ .put) ∧ RaceFreeWith sampleCfg (· ≠ .unAlias) ∧
    ¬ ∀ cfg, RaceFreeWith cfg fun m => m = .put ∨ m = .rename ∨ m = .unAlias := by
  refine ⟨(C51_methods_exact (· ≠ .put)).2 (by simp) _, (C51_methods_exact (· ≠ .unAlias)).2 (by simp) _, ?_⟩
  rw [C51_methods_exact]
  simp

end Visigoth
