import Verif.Proofs.AtomicInv
/-!
# The atomic steps of a call taken in succession are the call of the sequential specification
-/
namespace Visigoth

variable {cfg : Cfg}

/-- Every object has one name at most. -/
structure Tidy (a : ObjState) : Prop where
  bound : ∀ n p, a.index n = some p → p < a.objs.length
  inj : ∀ n m p, a.index n = some p → a.index m = some p → n = m

theorem alone_over {a a' : ObjState} {v : SRet} {k' : Task} (h : Alone cfg a (.over v) a' k') : a' = a ∧ k' = .over v := by
  cases h with
  | done => exact ⟨rfl, rfl⟩
  | step h _ => cases h

theorem alone_dead {a a' : ObjState} {e : Crash} {k' : Task} (h : Alone cfg a (.dead e) a' k') : a' = a ∧ k' = .dead e := by
  cases h with
  | done => exact ⟨rfl, rfl⟩
  | step h _ => cases h

theorem Tidy.docs_some {a : ObjState} (h : Tidy a) (n : Name) : (a.docs n).isSome = (a.index n).isSome := by
  unfold ObjState.docs
  cases hn : a.index n with
  | none => rfl
  | some p => simp [h.bound n p hn]

theorem docs_none {a : ObjState} {n : Name} (h : a.index n = none) : a.docs n = none := by simp [ObjState.docs, h]


theorem spec_docs (a : ObjState) : a.spec.docs = a.docs := rfl
theorem spec_aliases (a : ObjState) : a.spec.aliases = a.aliases := rfl

theorem putObjs_get (objs : List (List DocRequest)) (ps : List Nat) (d : DocRequest) (p : Nat) :
    (putObjs objs ps d)[p]? = (objs[p]?).map fun rs => if p ∈ ps then rs ++ [d] else rs := by
  simp [putObjs, List.getElem?_mapIdx]

/-- What the resolution of a name means for the specification. -/
theorem targets_resolve {a : ObjState} (h : Tidy a) (n : Name) : a.targets n = (a.spec.resolve n).map (List.map a.index) := by
  unfold ObjState.targets SpecState.resolve
  simp only [spec_docs, spec_aliases, h.docs_some n]
  cases hn : a.index n with
  | none => simp
  | some p => simp [hn]

theorem map_index_mem {a : ObjState} {l : List Name} {ps : List Nat} (h : l.map a.index = ps.map some) :
    (∀ m ∈ l, ∃ p ∈ ps, a.index m = some p) ∧ ∀ p ∈ ps, ∃ m ∈ l, a.index m = some p := by
  constructor
  · intro m hm
    have : a.index m ∈ ps.map some := h ▸ List.mem_map_of_mem hm
    obtain ⟨p, hp, he⟩ := List.mem_map.1 this
    exact ⟨p, hp, he.symm⟩
  · intro p hp
    have : some p ∈ l.map a.index := h ▸ List.mem_map_of_mem hp
    obtain ⟨m, hm, he⟩ := List.mem_map.1 this
    exact ⟨m, hm, he⟩

theorem nodup_of_map {α β : Type} {f : α → β} {l : List α} (h : (l.map f).Nodup) : l.Nodup := by
  rw [List.Nodup, List.pairwise_map] at h
  exact h.imp fun {x y} h (e : x = y) => h (by rw [e])

theorem nodup_some {ps : List Nat} : (ps.map some).Nodup ↔ ps.Nodup :=
  ⟨nodup_of_map, fun h => nodup_map_on h fun x _ y _ e => by injection e⟩

/-- A call taken alone gives what the sequential specification says. -/
theorem alone_spec {a a' : ObjState} (h : Tidy a) {op : Op} {v : SRet} (hs : Alone cfg a (.call op) a' (.over v)) :
    a.spec.allows cfg op v ∧ a'.docs = (a.spec.next op).docs ∧ a'.aliases = (a.spec.next op).aliases := by
  have hds := h.docs_some
  cases hs with
  | step h1 h2 =>
    cases h1 with
    | @read op r hr hal =>
      obtain ⟨rfl, hv⟩ := alone_over h2
      cases hv
      refine ⟨hal, ?_⟩
      cases op <;> simp [Op.isRead] at hr <;> exact ⟨rfl, rfl⟩
    | searchDies hc => obtain ⟨_, hv⟩ := alone_dead h2; cases hv
    | @aliasUnknown al i hn =>
      obtain ⟨rfl, hv⟩ := alone_over h2
      cases hv
      simp [SpecState.allows, SpecState.next, spec_docs, spec_aliases, docs_none hn]
    | @aliasThere al i hn l hl hi =>
      obtain ⟨rfl, hv⟩ := alone_over h2
      cases hv
      simp [SpecState.allows, SpecState.next, spec_docs, spec_aliases, hds, hn, hl, hi]
    | @aliasAdd al i hn hi =>
      obtain ⟨rfl, hv⟩ := alone_over h2
      cases hv
      cases hl : a.aliases al with
      | none =>
        rw [hl] at hi
        simp [SpecState.allows, SpecState.next, spec_docs, spec_aliases, hds, hn, hl]
        rfl
      | some l =>
        rw [hl] at hi
        simp only [Option.getD_some] at hi
        simp [SpecState.allows, SpecState.next, spec_docs, spec_aliases, hds, hn, hl, hi]
        rfl
    | @unAliasAll al =>
      obtain ⟨rfl, hv⟩ := alone_over h2
      cases hv
      simp [SpecState.allows, SpecState.next, spec_aliases]
      rfl
    | @unAliasUnknown al i hi hn =>
      obtain ⟨rfl, hv⟩ := alone_over h2
      cases hv
      simp [SpecState.allows, SpecState.next, spec_docs, spec_aliases, docs_none hn, hi]
    | @unAliasFound al i hi hn =>
      cases h2 with
      | step h1 h2 =>
        cases h1 with
        | unAliasMissing hl =>
          obtain ⟨rfl, hv⟩ := alone_over h2
          cases hv
          simp [SpecState.allows, SpecState.next, spec_docs, spec_aliases, hds, hn, hi, hl]
        | @unAliasRemove _ _ l hl =>
          obtain ⟨rfl, hv⟩ := alone_over h2
          cases hv
          simp [SpecState.allows, SpecState.next, spec_docs, spec_aliases, hds, hn, hi, hl]
          rfl
    | @putResolve n d =>
      cases h2 with
      | step h1 h2 =>
        rw [targets_resolve h n] at h1
        generalize ht : Option.map (List.map a.index) (a.spec.resolve n) = ts at h1
        cases h1 with
        | putNew =>
          obtain ⟨rfl, hv⟩ := alone_over h2
          cases hv
          have hres : a.spec.resolve n = none := by cases hr : a.spec.resolve n <;> simp_all
          refine ⟨rfl, ?_, ?_⟩
          · simp only [SpecState.next, hres, spec_docs]
            funext m
            simp only [ObjState.docs, upd]
            split
            · simp
            · cases hm : a.index m with
              | none => rfl
              | some p => simp [List.getElem?_append_left (h.bound m p hm)]
          · simp only [SpecState.next, hres]; rfl
        | @putAll _ _ ps hnd =>
          obtain ⟨rfl, hv⟩ := alone_over h2
          cases hv
          cases hres : a.spec.resolve n with
          | none => rw [hres] at ht; cases ht
          | some l =>
            rw [hres] at ht
            simp only [Option.map_some, Option.some.injEq] at ht
            obtain ⟨m1, m2⟩ := map_index_mem ht
            refine ⟨rfl, ?_, ?_⟩
            · simp only [SpecState.next, hres, spec_docs]
              funext m
              simp only [ObjState.docs]
              cases hm : a.index m with
              | none => simp
              | some p =>
                simp only [Option.bind_some, putObjs_get]
                by_cases hml : m ∈ l
                · obtain ⟨q, hq, he⟩ := m1 m hml
                  rw [hm] at he; cases he
                  simp [hml, hq]
                · have : p ∉ ps := fun hp => by
                    obtain ⟨m', hm', he⟩ := m2 p hp
                    exact hml (h.inj m' m p he hm ▸ hm')
                  simp [hml, this]
            · simp only [SpecState.next, hres]; rfl
        | putNil _ => obtain ⟨_, hv⟩ := alone_dead h2; cases hv
        | putTwice _ => obtain ⟨_, hv⟩ := alone_dead h2; cases hv
    | @renameUnknown old new hn =>
      obtain ⟨rfl, hv⟩ := alone_over h2
      cases hv
      simp [SpecState.allows, SpecState.next, spec_docs, spec_aliases, docs_none hn]
    | @rename old new p hp =>
      obtain ⟨rfl, hv⟩ := alone_over h2
      cases hv
      have hd : (a.docs old).isSome = true := by rw [hds, hp]; rfl
      obtain ⟨rs, hrs⟩ := Option.isSome_iff_exists.1 hd
      refine ⟨by simp [SpecState.allows, spec_docs, hd], ?_, ?_⟩
      · simp only [SpecState.next, spec_docs, hrs]
        funext m
        simp only [ObjState.docs, upd]
        split
        · rfl
        · split
          · simp only [ObjState.docs, hp, Option.bind_some] at hrs ⊢; exact hrs
          · rfl
      · simp only [SpecState.next, spec_docs, hrs, spec_aliases]
    | @dropUnknown n hn =>
      obtain ⟨rfl, hv⟩ := alone_over h2
      cases hv
      simp [SpecState.allows, SpecState.next, spec_docs, spec_aliases, docs_none hn]
    | @dropFound n hn =>
      cases h2 with
      | step h1 h2 =>
        cases h1 with
        | dropRemove =>
          obtain ⟨rfl, hv⟩ := alone_over h2
          cases hv
          refine ⟨by simp [SpecState.allows, spec_docs, hds, hn], ?_, ?_⟩
          · simp only [SpecState.next, spec_docs, hds, hn, if_true]
            funext m
            simp only [ObjState.docs, upd]
            split <;> rfl
          · simp only [SpecState.next, spec_docs, hds, hn, if_true, spec_aliases]

/-- A call taken alone dies only as the sequential specification says. -/
theorem alone_crash {a a' : ObjState} (h : Tidy a) {op : Op} {e : Crash} (hs : Alone cfg a (.call op) a' (.dead e)) :
    a.spec.crashes cfg op e ∧ a' = a := by
  have hds := h.docs_some
  cases hs with
  | step h1 h2 =>
    cases h1 with
    | searchDies hc => obtain ⟨rfl, hv⟩ := alone_dead h2; cases hv; exact ⟨hc, rfl⟩
    | @putResolve n d =>
      cases h2 with
      | step h1 h2 =>
        rw [targets_resolve h n] at h1
        generalize ht : Option.map (List.map a.index) (a.spec.resolve n) = ts at h1
        cases hres : a.spec.resolve n with
        | none =>
          rw [hres] at ht; subst ht
          cases h1 with
          | putNew => obtain ⟨_, hv⟩ := alone_over h2; cases hv
        | some l =>
          rw [hres] at ht
          simp only [Option.map_some] at ht
          cases h1 with
          | putNew => cases ht
          | putAll _ => obtain ⟨_, hv⟩ := alone_over h2; cases hv
          | putNil hn =>
            obtain ⟨rfl, hv⟩ := alone_dead h2; cases hv
            cases ht
            obtain ⟨m, hm, he⟩ := List.mem_map.1 hn
            exact ⟨⟨l, hres, .inl ⟨rfl, m, hm, docs_none he⟩⟩, rfl⟩
          | @putTwice _ _ ps hn =>
            obtain ⟨rfl, hv⟩ := alone_dead h2; cases hv
            injection ht with ht
            obtain ⟨m1, _⟩ := map_index_mem ht
            refine ⟨⟨l, hres, .inr ⟨rfl, ?_, ?_⟩⟩, rfl⟩
            · intro m hm
              obtain ⟨p, _, hp⟩ := m1 m hm
              rw [spec_docs, hds, hp]; rfl
            · intro hnd
              apply hn
              rw [← nodup_some, ← ht]
              refine nodup_map_on hnd fun x hx y hy he => ?_
              obtain ⟨p, _, hp⟩ := m1 x hx
              exact h.inj x y p hp (he ▸ hp)
    | _ =>
      first
        | (obtain ⟨_, hv⟩ := alone_over h2; cases hv; done)
        | (cases h2 with | step h1 h2 => cases h1 <;> (obtain ⟨_, hv⟩ := alone_over h2; cases hv))

theorem tidy_atomic {a a' : ObjState} {k k' : Task} (h : Tidy a) (hs : Atomic cfg a k a' k') : Tidy a' := by
  cases hs <;> try exact h
  case aliasAdd => exact ⟨h.bound, h.inj⟩
  case unAliasAll => exact ⟨h.bound, h.inj⟩
  case unAliasRemove => exact ⟨h.bound, h.inj⟩
  case putNew n d =>
    constructor
    · intro m p hm
      simp only [List.length_append, List.length_singleton]
      simp only [upd] at hm
      split at hm
      · cases hm; exact Nat.lt_succ_self _
      · exact Nat.lt_succ_of_lt (h.bound m p hm)
    · intro m m' p hm hm'
      simp only [upd] at hm hm'
      split at hm
      · next he =>
        split at hm'
        · next he' => rw [he, he']
        · cases hm; exact absurd (h.bound _ _ hm') (Nat.lt_irrefl _)
      · split at hm'
        · cases hm'; exact absurd (h.bound _ _ hm) (Nat.lt_irrefl _)
        · exact h.inj m m' p hm hm'
  case putAll => exact ⟨fun n p hp => by simp only [putObjs_length]; exact h.bound n p hp, h.inj⟩
  case rename old new p hp =>
    constructor
    · intro m q hm
      simp only [upd] at hm
      split at hm
      · cases hm
      · split at hm
        · cases hm; exact h.bound _ _ hp
        · exact h.bound m q hm
    · intro m m' q hm hm'
      simp only [upd] at hm hm'
      split at hm
      · cases hm
      · next h1 =>
        split at hm'
        · cases hm'
        · next h2 =>
          split at hm
          · next h3 =>
            split at hm'
            · next h4 => rw [h3, h4]
            · cases hm; exact absurd (h.inj _ _ _ hm' hp) h2
          · split at hm'
            · cases hm'; exact absurd (h.inj _ _ _ hm hp) h1
            · exact h.inj m m' q hm hm'
  case dropRemove n =>
    constructor
    · intro m p hm
      simp only [upd] at hm
      split at hm
      · cases hm
      · exact h.bound m p hm
    · intro m m' p hm hm'
      simp only [upd] at hm hm'
      split at hm
      · cases hm
      · split at hm'
        · cases hm'
        · exact h.inj m m' p hm hm'

theorem tidy_reachable {A : AConfig} (h : AReachable cfg A) : Tidy A.st := by
  unfold AReachable at h
  generalize hc : AConfig.init = c0 at h
  induction h with
  | refl => subst hc; exact ⟨fun _ _ h => (nomatch h), fun _ _ _ h => (nomatch h)⟩
  | tail _ hs ih =>
    cases hs with
    | invoke => exact ih
    | run t h hs => exact tidy_atomic ih hs

end Visigoth
