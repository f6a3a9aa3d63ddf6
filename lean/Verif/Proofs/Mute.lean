import Verif.Props.RaceGuard
import Verif.Proofs.NoInvalid
/-!
# Executions in which the alias table, or both tables, stay empty

`Mute noI ann Q p`: with an empty alias table, and no index if `noI`, program `p` puts nothing into these tables,
starts to take only the mutexes `ann` for writing, does not panic (unless an engine does) and returns a `Q`.
-/
namespace Visigoth

variable {cfg : Cfg}

def Mute (noI : Bool) (ann : Mu → Prop) {α : Type} (Q : α → Prop) : Prog α → Prop
  | .ret a => Q a
  | .crash c => c = .engine
  | .act a k =>
    match a, k with
    | .idxGet _, k => ∀ b, (noI = true → b = none) → Mute noI ann Q (k b)
    | .idxSet _ _, k => noI = false ∧ ∀ b, Mute noI ann Q (k b)
    | .alGet _, k => Mute noI ann Q (k none)
    | .alKeys, k => Mute noI ann Q (k [])
    | .alSet _ _, _ => False
    | .announce m, k => ann m ∧ ∀ b, Mute noI ann Q (k b)
    | _, k => ∀ b, Mute noI ann Q (k b)

section
variable {noI : Bool} {ann : Mu → Prop}

theorem mute_bind {α β : Type} {P : α → Prop} {Q : β → Prop} {f : α → Prog β} {p : Prog α} (h : Mute noI ann P p)
    (hf : ∀ a, P a → Mute noI ann Q (f a)) : Mute noI ann Q (p >>= f) := by
  induction p with
  | ret a => exact hf a h
  | crash c => exact h
  | act a k ih =>
    cases a
    case idxGet n => exact fun b hb => ih b (h b hb)
    case idxSet n p => exact ⟨h.1, fun b => ih b (h.2 b)⟩
    case alGet n => exact ih _ h
    case alKeys => exact ih _ h
    case alSet n p => exact h.elim
    case announce m => exact ⟨h.1, fun b => ih b (h.2 b)⟩
    all_goals exact fun b => ih _ (h b)

theorem mute_searchIndex (p : Ptr) (ts : Str) (e : Engine) : Mute noI ann (fun _ => True) (Repo.searchIndex p ts e) :=
  fun b => by
    cases b with
    | none => exact rfl
    | some sr => trivial

theorem mute_putPostings (p : Ptr) (next : Nat) : ∀ ts, Mute noI ann (fun _ => True) (Repo.putPostings p next ts)
  | [] => trivial
  | _ :: ts => fun _ => mute_putPostings p next ts

theorem mute_putIndex (p : Ptr) (d : DocRequest) : Mute noI ann (fun _ => True) (Repo.putIndex cfg p d) :=
  fun _ => mute_putPostings p _ _

theorem mute_putAll (d : DocRequest) : ∀ ps, Mute noI ann (fun _ => True) (Repo.putAll cfg d ps)
  | [] => trivial
  | p :: ps => mute_bind (p := Repo.putIndex cfg p d) (mute_putIndex p d) fun _ _ => mute_putAll d ps

theorem mute_renderAll : ∀ ks, Mute noI ann (fun _ => True) (Repo.renderAll ks)
  | [] => trivial
  | k :: ks => fun v _ => by
    cases v with
    | none => exact mute_renderAll ks
    | some r => exact fun _ => mute_bind (p := Repo.renderAll ks) (mute_renderAll ks) fun _ _ => trivial

end

/-- The mutexes a call starts to take for writing when there is no index. -/
def Op.announces : Op → Mu → Prop
  | .rename _ _, m => m = .indices
  | .unAlias _ i, m => i = [] ∧ m = .aliases
  | _, _ => False

/-- Calls that put nothing into the tables while they are empty. -/
def Op.mute (noI : Bool) (op : Op) : Prop := if noI then op.method ≠ .put else op.method ≠ .alias

theorem mute_prog {noI : Bool} {op : Op} (h : op.mute noI) :
    Mute noI (fun m => noI = true → op.announces m) (fun _ => True) (op.prog cfg) := by
  cases op with
  | list => exact fun _ _ _ => trivial
  | listAliases => exact fun _ _ => trivial
  | has n => exact fun _ _ _ _ => trivial
  | hasAlias n => exact fun _ _ => trivial
  | «alias» al i =>
    refine fun _ v hv => ?_
    cases noI with
    | false => exact absurd rfl h
    | true =>
      rw [hv rfl]
      exact fun _ => trivial
  | unAlias al i =>
    refine mute_bind (P := fun _ => True) (p := Repo.unAlias al i) ?_ fun _ _ => trivial
    unfold Repo.unAlias
    split
    · next hi => exact ⟨fun _ => ⟨List.length_eq_zero_iff.1 hi, rfl⟩, fun _ _ _ _ => trivial⟩
    · refine fun _ v hv => ?_
      cases v with
      | none => trivial
      | some p =>
        have hn : noI = false := by cases noI with
          | false => rfl
          | true => exact absurd (hv rfl) (by simp)
        subst hn
        exact fun _ => ⟨nofun, fun _ _ => trivial⟩
  | put n d =>
    have hn : noI = false := by cases noI with
      | false => rfl
      | true => exact absurd rfl h
    subst hn
    refine mute_bind (P := fun _ => True) (p := Repo.put cfg n d) ?_ fun _ _ => trivial
    refine mute_bind (p := Repo.getIndices n) (P := fun r => r = none ∨ ∃ p, r = some [some p]) (fun _ v _ => ?_) fun r hr => ?_
    · cases v with
      | some i => exact fun _ => .inr ⟨i, rfl⟩
      | none => exact fun _ _ _ => .inl rfl
    · refine ⟨nofun, fun _ _ => ?_⟩
      rcases hr with rfl | ⟨p, rfl⟩
      · exact fun p => ⟨rfl, fun _ => mute_bind (p := Repo.putIndex cfg p d) (mute_putIndex p d) fun _ _ _ => trivial⟩
      · refine mute_bind (P := fun _ => True) (p := Repo.putTargets cfg [some p] d) ?_ fun _ _ _ => trivial
        unfold Repo.putTargets
        simp only [Repo.nonNil, Option.map_some, List.nodup_cons, List.not_mem_nil, not_false_eq_true, List.nodup_nil, and_self,
          if_true]
        exact fun _ => mute_putAll _ _
  | search n ts e =>
    refine mute_bind (P := fun _ => True) (p := Repo.search n ts e) (fun _ v _ => ?_) fun v _ => by cases v <;> trivial
    cases v with
    | none => exact fun _ _ _ => trivial
    | some i =>
      exact mute_bind (P := fun _ => True) (p := Repo.searchTargets [some i] ts e) (mute_searchIndex i ts e) fun _ _ _ => trivial
  | rename old new =>
    refine ⟨fun _ => rfl, fun _ _ v hv => ?_⟩
    cases v with
    | none => exact fun _ => trivial
    | some p =>
      refine ⟨?_, fun _ _ _ => trivial⟩
      cases noI with
      | false => rfl
      | true => exact absurd (hv rfl) (by simp)
  | drop n =>
    refine fun _ v hv => ?_
    cases v with
    | none => exact fun _ => trivial
    | some p =>
      have hn : noI = false := by cases noI with
        | false => rfl
        | true => exact absurd (hv rfl) (by simp)
      subst hn
      exact fun _ => ⟨nofun, fun _ _ => ⟨nofun, fun _ _ _ _ _ => trivial⟩⟩
  | string =>
    refine mute_bind (P := fun _ => True) (p := Repo.string) (fun _ ks => ?_) fun _ _ => trivial
    exact mute_bind (p := Repo.renderAll ks) (mute_renderAll _) fun _ _ _ => trivial

/-- The tables stay empty. -/
structure MuteInv (noI : Bool) (c : Config) : Prop where
  indices : noI = true → ∀ n, c.sh.indices.get n = none
  aliases : c.sh.aliases = []
  prog : ∀ x ∈ c.calls, Mute noI (fun m => noI = true → x.op.announces m) (fun _ => True) x.prog
  writer : noI = true → ∀ (m : Mu) (t : Tid), (c.sh.mu m).writer = some t → ∃ x, c.calls[t]? = some x ∧ x.op.announces m

/-- The mutex the action starts to take for writing. -/
def Act.announced {β : Type} : Act β → Option Mu
  | .announce m => some m
  | _ => none

/-- Only `announce` makes a call the writer of a mutex. -/
theorem exec_writer {o : Oracle} {t : Tid} {β : Type} {a : Act β} {b : β} {s s' : Shared} (he : exec cfg o t a s = .ok b s')
    {m : Mu} {u : Tid} (h : (s'.mu m).writer = some u) :
    (s.mu m).writer = some u ∨ u = t ∧ a.announced = some m := by
  by_cases hl : a.isLock = false
  · have := exec_data_mu hl he
    have : s'.mu m = s.mu m := by cases m; exact this.1; exact this.2
    exact .inl (this ▸ h)
  · cases a <;> simp [Act.isLock] at hl
    case rlock m' =>
      simp only [exec] at he
      split at he <;> cases he
      rw [mu_setMu] at h
      split at h
      · next e => subst e; exact .inl h
      · exact .inl h
    case runlock m' =>
      simp only [exec] at he
      split at he <;> cases he
      rw [mu_setMu] at h
      split at h
      · next e => subst e; exact .inl h
      · exact .inl h
    case announce m' =>
      simp only [exec] at he
      split at he <;> cases he
      rw [mu_setMu] at h
      split at h
      · next e =>
        subst e
        cases h
        exact .inr ⟨rfl, rfl⟩
      · exact .inl h
    case acquire m' =>
      simp only [exec] at he
      split at he
      · split at he <;> cases he
        exact .inl h
      · cases he
    case unlock m' =>
      simp only [exec] at he
      split at he <;> cases he
      rw [mu_setMu] at h
      split at h
      · cases h
      · exact .inl h

/-- What is true of all calls after a step was true of all calls before. -/
theorem ops_of_set {P : Op → Prop} {calls : List Thread} {t : Tid} {op : Op} {o : Oracle} {p q : Prog Ret}
    (hget : calls[t]? = some ⟨op, o, p⟩) (hall : ∀ x ∈ calls.set t ⟨op, o, q⟩, P x.op) : ∀ x ∈ calls, P x.op := by
  intro x hx
  obtain ⟨u, hu⟩ := List.getElem?_of_mem hx
  by_cases hut : t = u
  · subst hut
    rw [hget] at hu; cases hu
    exact hall ⟨op, o, q⟩ (List.mem_set (List.getElem?_eq_some_iff.1 hget).1 _)
  · exact hall x (List.mem_of_getElem? (i := u) (by rw [List.getElem?_set_ne hut]; exact hu))

/-- The ops of earlier calls are ops of later ones. -/
theorem ops_of_steps {P : Op → Prop} {c c' : Config} (hs : Steps cfg c c') (hall : ∀ x ∈ c'.calls, P x.op) : ∀ x ∈ c.calls, P x.op := by
  induction hs with
  | refl => exact hall
  | tail h hs ih =>
    cases hs with
    | invoke op o => exact ih fun x hx => hall x (by simp [hx])
    | move t h =>
      cases h with
      | act hget he => exact ih (ops_of_set hget hall)
      | crash hget he => exact ih (ops_of_set hget hall)

theorem mute_step {noI : Bool} {o : Oracle} {t : Tid} {β : Type} {a : Act β} {k : β → Prog Ret} {b : β} {s s' : Shared}
    {ann : Mu → Prop} (hI : noI = true → ∀ n, s.indices.get n = none) (hA : s.aliases = [])
    (hp : Mute noI ann (fun _ => True) (.act a k)) (he : exec cfg o t a s = .ok b s') :
    (noI = true → ∀ n, s'.indices.get n = none) ∧ s'.aliases = [] ∧ Mute noI ann (fun _ => True) (k b) := by
  cases a
  case idxGet n =>
    simp only [exec] at he
    cases he
    exact ⟨hI, hA, hp _ fun h => hI h n⟩
  case idxSet n p =>
    simp only [exec] at he
    cases he
    exact ⟨fun h => (by rw [hp.1] at h; cases h), hA, hp.2 _⟩
  case idxDel n =>
    simp only [exec] at he
    cases he
    refine ⟨fun h m => ?_, hA, hp _⟩
    rw [GoMap.get_delete, hI h]
    split <;> rfl
  case newIndex n => simp only [exec] at he; cases he; exact ⟨hI, hA, hp _⟩
  case docAppend p d =>
    simp only [exec] at he
    split at he <;> cases he
    exact ⟨hI, hA, hp _⟩
  case postAdd p tok next =>
    simp only [exec] at he
    split at he <;> cases he
    exact ⟨hI, hA, hp _⟩
  case alGet n =>
    simp only [exec] at he
    cases he
    refine ⟨hI, hA, ?_⟩
    rw [hA]
    exact hp
  case alKeys =>
    simp only [exec] at he
    cases he
    refine ⟨hI, hA, ?_⟩
    rw [hA]
    have := choosePerm_perm o.keyOrder (GoMap.keys ([] : GoMap Name SliceRef))
    rw [List.Perm.eq_nil this]
    exact hp
  case alSet n r => exact hp.elim
  case alDel n =>
    simp only [exec] at he
    cases he
    refine ⟨hI, ?_, hp _⟩
    show GoMap.delete s.aliases n = []
    rw [hA]
    rfl
  case announce m =>
    refine ⟨?_, ?_, hp.2 _⟩
    · rw [(exec_frame he).1 (by simp [Act.writes])]
      exact hI
    · rw [(exec_frame he).2.1 (by simp [Act.writes])]
      exact hA
  all_goals
    refine ⟨?_, ?_, hp _⟩
    · rw [(exec_frame he).1 (by simp [Act.writes])]
      exact hI
    · rw [(exec_frame he).2.1 (by simp [Act.writes])]
      exact hA

theorem mute_announces {noI : Bool} {ann : Mu → Prop} {β : Type} {a : Act β} {k : β → Prog Ret} {m : Mu}
    (hp : Mute noI ann (fun _ => True) (.act a k)) (ha : a.announced = some m) : ann m := by
  cases a <;> simp only [Act.announced, Option.some.injEq, reduceCtorEq] at ha
  subst ha
  exact hp.1

theorem mute_reachable {noI : Bool} {c : Config} (hr : ConcReachable cfg c) (hM : ∀ x ∈ c.calls, x.op.mute noI) : MuteInv noI c := by
  unfold ConcReachable at hr
  induction hr with
  | refl =>
    refine ⟨fun _ _ => rfl, rfl, by simp [Config.init], fun _ m t h => ?_⟩
    cases m <;> cases h
  | tail h hs ih =>
    cases hs with
    | invoke op o =>
      have i := ih fun x hx => hM x (by simp [hx])
      refine ⟨i.indices, i.aliases, fun x hx => ?_, fun hn m t ht => ?_⟩
      · rcases List.mem_append.1 hx with hx | hx
        · exact i.prog x hx
        · rw [List.mem_singleton] at hx
          subst hx
          exact mute_prog (hM _ (by simp))
      · obtain ⟨x, hx, hm⟩ := i.writer hn m t ht
        exact ⟨x, by rw [List.getElem?_append_left (List.getElem?_eq_some_iff.1 hx).1]; exact hx, hm⟩
    | move t hm =>
      cases hm with
      | @act s s' calls op o β a k b hget he =>
        have i := ih (ops_of_set hget hM)
        have hp := i.prog _ (List.mem_of_getElem? hget)
        obtain ⟨h1, h2, h3⟩ := mute_step i.indices i.aliases hp he
        refine ⟨h1, h2, fun x hx => ?_, fun hn m u hu => ?_⟩
        · rcases List.mem_or_eq_of_mem_set hx with hx | rfl
          · exact i.prog x hx
          · exact h3
        · have key : ∀ x, calls[u]? = some x → x.op.announces m → ∃ y, (calls.set t ⟨op, o, k b⟩)[u]? = some y ∧ y.op.announces m := by
            intro x hx hm
            by_cases htu : t = u
            · subst htu
              rw [hget] at hx; cases hx
              exact ⟨⟨op, o, k b⟩, List.getElem?_set_self (List.getElem?_eq_some_iff.1 hget).1, hm⟩
            · exact ⟨x, by rw [List.getElem?_set_ne htu]; exact hx, hm⟩
          rcases exec_writer he hu with hu | ⟨rfl, ha⟩
          · obtain ⟨x, hx, hm⟩ := i.writer hn m u hu
            exact key x hx hm
          · exact key _ hget (mute_announces hp ha hn)
      | crash hget he => exact absurd he (action_safe h hget _)

/-- With the tables empty no call panics, unless an engine does. -/
theorem mute_crash {noI : Bool} {c : Config} (i : MuteInv noI c) {x : Thread} (hx : x ∈ c.calls) {e : Crash}
    (he : x.prog = .crash e) : e = .engine := by
  have := i.prog x hx
  rw [he] at this
  exact this

end Visigoth
