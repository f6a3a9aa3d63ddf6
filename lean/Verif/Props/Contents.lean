import Verif.Spec.Contents
import Verif.Props.RepoExact
import Verif.Props.Sort
/-!
# Statements are matched, contents are returned: whole repositories (C14)

The theorems about C14 in `Props/Index.lean` are about one index.  Here are whole histories of calls of a repository,
with aliases, renames and drops, of which some `Put` calls differ in contents and statements.
-/
namespace Visigoth

variable {cfg : Cfg} {C : Str → Str → Prop}

theorem Forall2.imp {α β : Type} {R S : α → β → Prop} (h : ∀ a b, R a b → S a b) {l : List α} {l' : List β} (hl : Forall2 R l l') :
    Forall2 S l l' := by
  induction hl with
  | nil => exact .nil
  | cons h1 _ ih => exact .cons (h _ _ h1) ih

theorem Forall2.append {α β : Type} {R : α → β → Prop} {l : List α} {l' : List β} {m : List α} {m' : List β} (h : Forall2 R l l')
    (hm : Forall2 R m m') : Forall2 R (l ++ m) (l' ++ m') := by
  induction h with
  | nil => exact hm
  | cons h _ ih => exact .cons h ih

theorem Forall2.flatten {α β : Type} {R : α → β → Prop} {l : List (List α)} {l' : List (List β)} (h : Forall2 (Forall2 R) l l') :
    Forall2 R l.flatten l'.flatten := by
  induction h with
  | nil => exact .nil
  | cons h _ ih => exact h.append ih

theorem forall2_mem {α β : Type} {R : α → β → Prop} {l : List α} {l' : List β} (h : Forall2 R l l') : ∀ a ∈ l, ∃ b ∈ l', R a b := by
  induction h with
  | nil => exact fun _ h => nomatch h
  | @cons a b as bs h _ ih =>
    intro x hx
    rcases List.mem_cons.1 hx with rfl | hx
    · exact ⟨b, List.mem_cons_self, h⟩
    · obtain ⟨y, h1, h2⟩ := ih x hx
      exact ⟨y, List.mem_cons_of_mem _ h1, h2⟩

theorem forall2_mem' {α β : Type} {R : α → β → Prop} {l : List α} {l' : List β} (h : Forall2 R l l') : ∀ b ∈ l', ∃ a ∈ l, R a b := by
  induction h with
  | nil => exact fun _ h => nomatch h
  | @cons a b as bs h _ ih =>
    intro x hx
    rcases List.mem_cons.1 hx with rfl | hx
    · exact ⟨a, List.mem_cons_self, h⟩
    · obtain ⟨y, h1, h2⟩ := ih x hx
      exact ⟨y, List.mem_cons_of_mem _ h1, h2⟩

theorem OptRel.isSome {α β : Type} {R : α → β → Prop} {a : Option α} {b : Option β} (h : OptRel R a b) : a.isSome = b.isSome := by
  cases a <;> cases b <;> simp_all [OptRel]

theorem OptRel.none_iff {α β : Type} {R : α → β → Prop} {a : Option α} {b : Option β} (h : OptRel R a b) : a = none ↔ b = none := by
  cases a <;> cases b <;> simp_all [OptRel]

/-! ## Repositories -/

/-- Repositories that differ in the requests only. -/
structure StateRel (C : Str → Str → Prop) (cfg : Cfg) (a a' : SpecState) : Prop where
  docs : ∀ n, OptRel (Forall2 (RequestRel C cfg)) (a.docs n) (a'.docs n)
  aliases : a'.aliases = a.aliases
  leakedReaders : a'.leakedReaders = a.leakedReaders
  leakedWriter : a'.leakedWriter = a.leakedWriter

theorem StateRel.has {a a' : SpecState} (h : StateRel C cfg a a') (n : Name) : (a'.docs n).isSome = (a.docs n).isSome :=
  (h.docs n).isSome.symm

theorem StateRel.lacks {a a' : SpecState} (h : StateRel C cfg a a') (n : Name) : a'.docs n = none ↔ a.docs n = none :=
  (h.docs n).none_iff.symm

theorem StateRel.resolve {a a' : SpecState} (h : StateRel C cfg a a') (n : Name) : a'.resolve n = a.resolve n := by
  unfold SpecState.resolve
  rw [h.has n, h.aliases]

theorem searchRel {e : Engine} (he : BlindTo C e) {rs rs' : List DocRequest} (h : Forall2 (RequestRel C cfg) rs rs') (terms : Str) :
    OptRel (Forall2 (ResultRel C)) (specSearch cfg rs terms e) (specSearch cfg rs' terms e) := by
  refine he _ _ _ ?_ ?_ fun i => ?_
  · show (buildIndex cfg.tok [] rs).len = (buildIndex cfg.tok [] rs').len
    rw [(C10_one_document_per_put _ _ _).1, (C10_one_document_per_put _ _ _).1, h.length_eq]
  · funext t
    exact C14_matching_depends_on_statements cfg.cp cfg.tok [] [] rs rs' (h.imp fun _ _ h => h.2.1) t
  · show OptRel (DocRel C) ((buildIndex cfg.tok [] rs).document i) ((buildIndex cfg.tok [] rs').document i)
    rw [(C10_one_document_per_put _ _ _).2, (C10_one_document_per_put _ _ _).2]
    rcases h.get i with ⟨h1, h2⟩ | ⟨r, r', h1, h2, h3⟩
    · rw [h1, h2]; trivial
    · rw [h1, h2]; exact ⟨h3.1, h3.2.2⟩

theorem StateRel.search {a a' : SpecState} (h : StateRel C cfg a a') {e : Engine} (he : BlindTo C e) (terms : Str) (m : Name) :
    OptRel (Forall2 (ResultRel C)) ((a.docs m).bind fun rs => specSearch cfg rs terms e)
      ((a'.docs m).bind fun rs => specSearch cfg rs terms e) := by
  have := h.docs m
  cases h1 : a.docs m <;> cases h2 : a'.docs m <;> rw [h1, h2] at this
  · trivial
  · exact this.elim
  · exact this.elim
  · exact searchRel he this terms

theorem StateRel.next {a a' : SpecState} (h : StateRel C cfg a a') {op op' : Op} (ho : OpRel C cfg op op') :
    StateRel C cfg (a.next op) (a'.next op') := by
  have hu : ∀ (f f' : Name → Option (List DocRequest)), (∀ m, OptRel (Forall2 (RequestRel C cfg)) (f m) (f' m)) → ∀ n v v',
      OptRel (Forall2 (RequestRel C cfg)) v v' → ∀ m, OptRel (Forall2 (RequestRel C cfg)) (upd f n v m) (upd f' n v' m) := by
    intro f f' hf n v v' hv m
    unfold upd
    split
    · exact hv
    · exact hf m
  cases ho with
  | @put n d d' hd =>
    simp only [SpecState.next]
    rw [h.resolve n]
    split
    · exact ⟨hu _ _ h.docs _ _ _ (.cons hd .nil), h.aliases, h.leakedReaders, h.leakedWriter⟩
    · refine ⟨fun m => ?_, h.aliases, h.leakedReaders, h.leakedWriter⟩
      simp only
      split
      · have := h.docs m
        cases h1 : a.docs m <;> cases h2 : a'.docs m <;> rw [h1, h2] at this
        · trivial
        · exact this.elim
        · exact this.elim
        · exact Forall2.append this (.cons hd .nil)
      · exact h.docs m
  | search => exact h
  | same hp hs =>
    cases op with
    | put n d => exact absurd rfl (hp n d)
    | search n ts e => exact absurd rfl (hs n ts e)
    | list => exact h
    | listAliases => exact h
    | has => exact h
    | hasAlias => exact h
    | string => exact h
    | «alias» al i =>
      simp only [SpecState.next, h.has i, h.aliases]
      split
      · split
        · exact ⟨h.docs, by simp, h.leakedReaders, h.leakedWriter⟩
        · split
          · exact h
          · exact ⟨h.docs, by simp, h.leakedReaders, h.leakedWriter⟩
      · exact h
    | unAlias al i =>
      simp only [SpecState.next, h.has i, h.aliases]
      split
      · exact ⟨h.docs, by simp, h.leakedReaders, h.leakedWriter⟩
      · split
        · split
          · exact ⟨h.docs, by simp, h.leakedReaders, by simp⟩
          · exact ⟨h.docs, by simp, h.leakedReaders, h.leakedWriter⟩
        · exact ⟨h.docs, by simp, by simp [h.leakedReaders], h.leakedWriter⟩
    | rename o n =>
      simp only [SpecState.next]
      have := h.docs o
      cases h1 : a.docs o <;> cases h2 : a'.docs o <;> rw [h1, h2] at this
      · exact h
      · exact this.elim
      · exact this.elim
      · exact ⟨hu _ _ (hu _ _ h.docs _ _ _ this) _ _ _ trivial, by simp [h.aliases], h.leakedReaders, h.leakedWriter⟩
    | drop n =>
      simp only [SpecState.next, h.has n, h.aliases]
      split
      · exact ⟨hu _ _ h.docs _ _ _ trivial, by simp, h.leakedReaders, h.leakedWriter⟩
      · exact h

theorem StateRel.hangs {a a' : SpecState} (h : StateRel C cfg a a') {op op' : Op} (ho : OpRel C cfg op op') (hh : a'.hangs op') : a.hangs op := by
  cases ho with
  | put => simpa only [SpecState.hangs, h.lacks, h.leakedReaders, h.leakedWriter] using hh
  | search => simpa only [SpecState.hangs, h.lacks, h.leakedReaders, h.leakedWriter] using hh
  | same => cases op <;> simp only [SpecState.hangs, h.lacks, h.has, h.leakedReaders, h.leakedWriter] at hh ⊢ <;> exact hh

theorem StateRel.crashes {a a' : SpecState} (h : StateRel C cfg a a') {op op' : Op} (ho : OpRel C cfg op op') {c : Crash}
    (hh : a'.crashes cfg op' c) : a.crashes cfg op c := by
  cases ho with
  | put => simpa only [SpecState.crashes, h.lacks, h.has, h.resolve] using hh
  | same hp hs =>
    cases op with
    | put n d => exact absurd rfl (hp n d)
    | search n ts e => exact absurd rfl (hs n ts e)
    | _ => exact hh
  | @search n ts e he =>
    simp only [SpecState.crashes, h.lacks, h.has, h.resolve] at hh ⊢
    obtain ⟨l, h1, h2 | ⟨h2, h3, m, hm, rs', h4, h5⟩⟩ := hh
    · exact ⟨l, h1, .inl h2⟩
    · refine ⟨l, h1, .inr ⟨h2, h3, m, hm, ?_⟩⟩
      have := h.docs m
      rw [h4] at this
      cases h6 : a.docs m with
      | none => rw [h6] at this; exact this.elim
      | some rs =>
        rw [h6] at this
        exact ⟨rs, rfl, (searchRel he this ts).none_iff.2 h5⟩

theorem rendersRel {rs rs' : List DocRequest} (h : Forall2 (RequestRel C cfg) rs rs') {label text : Str}
    (hr : RendersLine cfg.tok label rs text) : RendersLine cfg.tok label rs' text := by
  obtain ⟨t, ⟨tokens, lines, h1, h2, h3, h4, h5⟩, h6⟩ := hr
  refine ⟨t, ⟨tokens, lines, h1, fun t => (h2 t).trans ⟨?_, ?_⟩, h3, fun i l t hl ht => ?_, h5⟩, h6⟩
  · rintro ⟨r, hr, hrt⟩
    obtain ⟨r', g1, g2⟩ := forall2_mem h r hr
    exact ⟨r', g1, (g2.2.1 t).1 hrt⟩
  · rintro ⟨r, hr, hrt⟩
    obtain ⟨r', g1, g2⟩ := forall2_mem' h r hr
    exact ⟨r', g1, (g2.2.1 t).2 hrt⟩
  · rw [← positions_congr cfg.tok rs rs' (h.imp fun _ _ h => h.2.1)]
    exact h4 i l t hl ht

theorem StateRel.allows {a a' : SpecState} (h : StateRel C cfg a a') {op op' : Op} (ho : OpRel C cfg op op') {r : SRet}
    (hr : a.allows cfg op r) : ∃ r', a'.allows cfg op' r' ∧ AnswerRel C r r' := by
  cases ho with
  | put => exact ⟨r, hr, .same fun l e => by cases hr; cases e⟩
  | @search n ts e he =>
    simp only [SpecState.allows] at hr ⊢
    rw [h.resolve n]
    cases hres : a.resolve n with
    | none =>
      rw [hres] at hr
      exact ⟨r, hr, .same fun l e => by cases hr; cases e⟩
    | some l =>
      rw [hres] at hr
      obtain ⟨order, h1, parts, h2, rfl⟩ := hr
      have : ∃ parts' : List (List SearchResult),
          order.map (fun m => (a'.docs m).bind fun rs => specSearch cfg rs ts e) = parts'.map some ∧ Forall2 (Forall2 (ResultRel C)) parts parts' := by
        clear h1
        induction order generalizing parts with
        | nil =>
          cases parts with
          | nil => exact ⟨[], rfl, .nil⟩
          | cons p ps => cases h2
        | cons m ms ih =>
          cases parts with
          | nil => cases h2
          | cons p ps =>
            rw [List.map_cons, List.map_cons] at h2
            injection h2 with g1 g2
            obtain ⟨ps', g3, g4⟩ := ih ps g2
            have := h.search he ts m
            rw [g1] at this
            cases hb : (a'.docs m).bind fun rs => specSearch cfg rs ts e with
            | none => rw [hb] at this; exact this.elim
            | some p' =>
              rw [hb] at this
              exact ⟨p' :: ps', by rw [List.map_cons, List.map_cons, hb, g3], .cons this g4⟩
      obtain ⟨parts', g1, g2⟩ := this
      exact ⟨.results parts'.flatten, ⟨order, h1, parts', g1, rfl⟩, .results g2.flatten⟩
  | same hp hs =>
    refine ⟨r, ?_, .same fun l e => ?_⟩
    · cases op with
      | put n d => exact absurd rfl (hp n d)
      | search n ts e => exact absurd rfl (hs n ts e)
      | string =>
        obtain ⟨order, h1, h2, parts, h3, h4, h5⟩ := hr
        refine ⟨order, h1, fun n => by rw [h.has n]; exact h2 n, parts, h3, h4, fun i n part g1 g2 => ?_⟩
        obtain ⟨rs, label, g3, g4⟩ := h5 i n part g1 g2
        have := h.docs n
        rw [g3] at this
        cases h6 : a'.docs n with
        | none => rw [h6] at this; exact this.elim
        | some rs' => rw [h6] at this; exact ⟨rs', label, rfl, rendersRel this g4⟩
      | _ => simpa only [SpecState.allows, h.has, h.aliases] using hr
    · subst e
      cases op with
      | put n d => exact absurd rfl (hp n d)
      | search n ts e => exact absurd rfl (hs n ts e)
      | list => obtain ⟨_, h1, _⟩ := hr; cases h1
      | listAliases => obtain ⟨_, h1, _⟩ := hr; cases h1
      | string => obtain ⟨_, _, _, _, h1, _⟩ := hr; cases h1
      | _ => simp only [SpecState.allows] at hr; cases hr

theorem runsRel {ops ops' : List Op} (ho : Forall2 (OpRel C cfg) ops ops') {a a' b : SpecState} (h : StateRel C cfg a a') {rets : List SRet}
    (hr : SpecState.runs cfg a ops rets b) :
    ∃ rets' b', SpecState.runs cfg a' ops' rets' b' ∧ StateRel C cfg b b' ∧ Forall2 (AnswerRel C) rets rets' := by
  induction ho generalizing a a' rets with
  | nil =>
    obtain ⟨rfl, rfl⟩ := hr
    exact ⟨[], a', ⟨rfl, rfl⟩, h, .nil⟩
  | cons ho _ ih =>
    obtain ⟨r, rs, rfl, h1, h2, h3, h4⟩ := hr
    obtain ⟨r', g1, g2⟩ := h.allows ho h3
    obtain ⟨rs', b', g3, g4, g5⟩ := ih (h.next ho) h4
    exact ⟨r' :: rs', b', ⟨r', rs', rfl, fun hh => h1 (h.hangs ho hh), fun c hc => h2 c (h.crashes ho hc), g1, g3⟩, g4, .cons g2 g5⟩

/-! ## Engines -/

theorem docRel_eq {d d' : Doc} (h : DocRel Eq d d') : d = d' := by
  cases d; cases d'; obtain ⟨h1, h2⟩ := h; simp_all

/-- If contents are the same on both sides, so are the answers of every engine. -/
theorem blindTo_eq (e : Engine) : BlindTo Eq e := by
  intro tokens ix ix' h1 h2 h3
  have : ix = ix' := by
    obtain ⟨len, ind, doc⟩ := ix
    obtain ⟨len', ind', doc'⟩ := ix'
    simp only [Indexer.mk.injEq] at *
    refine ⟨h1, h2, funext fun i => ?_⟩
    have := h3 i
    revert this
    cases doc i <;> cases doc' i <;> intro this
    · rfl
    · exact this.elim
    · exact this.elim
    · exact congrArg some (docRel_eq this)
  subst this
  cases e tokens ix with
  | none => trivial
  | some l =>
    show Forall2 _ l l
    induction l with
    | nil => exact .nil
    | cons r l ih => exact .cons ⟨rfl, rfl, rfl⟩ ih

theorem toResults_rel {ix ix' : Indexer} (h : ∀ i, OptRel (DocRel C) (ix.document i) (ix'.document i)) (hits : Nat) : ∀ l,
    OptRel (Forall2 (ResultRel C)) (toResults ix hits l) (toResults ix' hits l)
  | [] => .nil
  | i :: l => by
    have h1 := h i
    have ih := toResults_rel h hits l
    simp only [toResults]
    cases ha : ix.document i <;> cases hb : ix'.document i <;> rw [ha, hb] at h1
    · trivial
    · exact h1.elim
    · exact h1.elim
    · cases hc : toResults ix hits l <;> cases hd : toResults ix' hits l <;> rw [hc, hd] at ih
      · trivial
      · exact ih.elim
      · exact ih.elim
      · exact .cons ⟨rfl, h1⟩ ih

theorem linearLoop_rel {ix ix' : Indexer} (h : ix.indexed = ix'.indexed) : ∀ ts docs, linearLoop ix ts docs = linearLoop ix' ts docs
  | [], _ => rfl
  | t :: ts, docs => by
    simp only [linearLoop, h]
    cases ix'.indexed t with
    | none => rfl
    | some next =>
      simp only
      cases intersection docs next with
      | nil => rfl
      | cons d ds => exact linearLoop_rel h ts _

theorem linearSearch_blind : BlindTo C linearSearch := by
  intro tokens ix ix' h1 h2 h3
  unfold linearSearch
  cases tokens with
  | nil => exact Forall2.nil
  | cons t ts =>
    simp only [h2]
    cases ix'.indexed t with
    | none => exact Forall2.nil
    | some docs =>
      simp only [linearLoop_rel h2]
      cases linearLoop ix' ts docs with
      | none => exact Forall2.nil
      | some docs => exact toResults_rel h3 _ _

theorem noopZeroSearch_blind : BlindTo C noopZeroSearch := fun _ _ _ _ _ _ => Forall2.nil

theorem noopAllSearch_blind : BlindTo C noopAllSearch := by
  intro tokens ix ix' h1 h2 h3
  unfold noopAllSearch
  rw [h1]
  exact toResults_rel h3 _ _

/-! ### `HitsSearch` -/

def MapRel (C : Str → Str → Prop) (m m' : GoMap HashKey SearchResult) : Prop := ∀ k, OptRel (ResultRel C) (m.get k) (m'.get k)

theorem MapRel.set {m m' : GoMap HashKey SearchResult} (h : MapRel C m m') (k : HashKey) {r r' : SearchResult} (hr : ResultRel C r r') :
    MapRel C (m.set k r) (m'.set k r') := by
  intro k'
  by_cases hk : k = k'
  · subst hk
    rw [GoMap.get_set_same, GoMap.get_set_same]
    exact hr
  · rw [GoMap.get_set_ne _ _ hk, GoMap.get_set_ne _ _ hk]
    exact h k'

theorem docRel_hash {d d' : Doc} (h : DocRel C d d') : d'.hash = d.hash := by
  unfold Doc.hash Doc.id
  rw [h.1]

theorem hitsInner_rel {ix ix' : Indexer} (h : ∀ i, OptRel (DocRel C) (ix.document i) (ix'.document i)) : ∀ l m m', MapRel C m m' →
    OptRel (MapRel C) (hitsInner ix l m) (hitsInner ix' l m')
  | [], m, m', hm => hm
  | i :: l, m, m', hm => by
    have h1 := h i
    simp only [hitsInner]
    cases ha : ix.document i <;> cases hb : ix'.document i <;> rw [ha, hb] at h1
    · trivial
    · exact h1.elim
    · exact h1.elim
    · rename_i d d'
      simp only
      rw [docRel_hash h1]
      have h2 := hm d.hash
      cases hc : m.get d.hash <;> cases hd : m'.get d.hash <;> rw [hc, hd] at h2
      · exact hitsInner_rel h l _ _ (hm.set _ ⟨rfl, h1⟩)
      · exact h2.elim
      · exact h2.elim
      · exact hitsInner_rel h l _ _ (hm.set _ ⟨congrArg (· + 1) h2.1, h2.2⟩)

theorem hitsPhase1_rel {ix ix' : Indexer} (hi : ix.indexed = ix'.indexed) (h : ∀ i, OptRel (DocRel C) (ix.document i) (ix'.document i)) :
    ∀ ts m m', MapRel C m m' → OptRel (MapRel C) (hitsPhase1 ix ts m) (hitsPhase1 ix' ts m')
  | [], m, m', hm => hm
  | t :: ts, m, m', hm => by
    simp only [hitsPhase1, hi]
    cases ix'.indexed t with
    | none => exact hitsPhase1_rel hi h ts _ _ hm
    | some l =>
      simp only
      have h1 := hitsInner_rel h l m m' hm
      cases ha : hitsInner ix l m <;> cases hb : hitsInner ix' l m' <;> rw [ha, hb] at h1
      · trivial
      · exact h1.elim
      · exact h1.elim
      · exact hitsPhase1_rel hi h ts _ _ h1

theorem hitsPhase2_rel {ix ix' : Indexer} (h : ∀ i, OptRel (DocRel C) (ix.document i) (ix'.document i)) (n : Nat)
    {m m' : GoMap HashKey SearchResult} (hm : MapRel C m m') : ∀ l,
    OptRel (Forall2 (ResultRel C)) (hitsPhase2 ix n m l) (hitsPhase2 ix' n m' l)
  | [] => .nil
  | i :: l => by
    have h1 := h i
    have ih := hitsPhase2_rel h n hm l
    simp only [hitsPhase2]
    cases ha : ix.document i <;> cases hb : ix'.document i <;> rw [ha, hb] at h1
    · trivial
    · exact h1.elim
    · exact h1.elim
    · rename_i d d'
      cases hc : hitsPhase2 ix n m l <;> cases hd : hitsPhase2 ix' n m' l <;> rw [hc, hd] at ih
      · trivial
      · exact ih.elim
      · exact ih.elim
      · simp only
        rw [docRel_hash h1]
        have h2 := hm d.hash
        cases he : m.get d.hash <;> cases hf : m'.get d.hash <;> rw [he, hf] at h2
        · exact ih
        · exact h2.elim
        · exact h2.elim
        · simp only
          rw [h2.1]
          split
          · exact Forall2.cons h2 ih
          · exact ih

theorem Forall2.set {α β : Type} {R : α → β → Prop} {l : List α} {l' : List β} (h : Forall2 R l l') {a : α} {b : β} (hab : R a b) :
    ∀ i : Nat, Forall2 R (l.set i a) (l'.set i b) := by
  induction h with
  | nil => exact fun _ => .nil
  | cons h hl ih =>
    intro i
    cases i with
    | zero => exact .cons hab hl
    | succ i => exact .cons h (ih i)

/-- An algorithm that sees the results only through `Len`, `Less` and `Swap` does not see contents. -/
theorem sortProg_rel : ∀ (p : SortProg) {r r' : SearchResults}, Forall2 (ResultRel C) r r' → OptRel (Forall2 (ResultRel C)) (p.run r) (p.run r')
  | .done, _, _, h => h
  | .less i j k, r, r', h => by
    have : SearchResults.less r i j = SearchResults.less r' i j := by
      unfold SearchResults.less
      rcases h.get i with ⟨h1, h2⟩ | ⟨a, b, h1, h2, h3⟩
      · rw [h1, h2]
      · rcases h.get j with ⟨g1, g2⟩ | ⟨a', b', g1, g2, g3⟩
        · rw [h1, h2, g1, g2]
        · rw [h1, h2, g1, g2]
          obtain ⟨⟨an, ac⟩, ah⟩ := a
          obtain ⟨⟨bn, bc⟩, bh⟩ := b
          obtain ⟨⟨an', ac'⟩, ah'⟩ := a'
          obtain ⟨⟨bn', bc'⟩, bh'⟩ := b'
          obtain ⟨rfl, rfl, _⟩ := h3
          obtain ⟨rfl, rfl, _⟩ := g3
          rfl
    simp only [SortProg.run, this]
    cases SearchResults.less r' i j with
    | none => trivial
    | some b => exact sortProg_rel (k b) h
  | .swap i j k, r, r', h => by
    have : OptRel (Forall2 (ResultRel C)) (SearchResults.swap r i j) (SearchResults.swap r' i j) := by
      unfold SearchResults.swap
      rcases h.get i with ⟨h1, h2⟩ | ⟨a, b, h1, h2, h3⟩
      · rw [h1, h2]; trivial
      · rcases h.get j with ⟨g1, g2⟩ | ⟨a', b', g1, g2, g3⟩
        · rw [h1, h2, g1, g2]; trivial
        · rw [h1, h2, g1, g2]
          exact (h.set g3 i).set h3 j
    simp only [SortProg.run]
    cases ha : SearchResults.swap r i j <;> cases hb : SearchResults.swap r' i j <;> rw [ha, hb] at this
    · trivial
    · exact this.elim
    · exact this.elim
    · exact sortProg_rel k this

theorem sortWith_rel (alg : Nat → SortProg) {r r' : SearchResults} (h : Forall2 (ResultRel C) r r') :
    Forall2 (ResultRel C) (sortWith alg r) (sortWith alg r') := by
  unfold sortWith
  have h1 := sortProg_rel (alg (SearchResults.len r)) h
  have : SearchResults.len r' = SearchResults.len r := h.length_eq.symm
  rw [this]
  cases ha : (alg (SearchResults.len r)).run r <;> cases hb : (alg (SearchResults.len r)).run r' <;> rw [ha, hb] at h1
  · exact h
  · exact h1.elim
  · exact h1.elim
  · exact h1

theorem hitsSearch_blind (alg : Nat → SortProg) : BlindTo C (hitsSearch (sortWith alg)) := by
  intro tokens ix ix' h1 h2 h3
  unfold hitsSearch
  have g1 := hitsPhase1_rel h2 h3 tokens [] [] (fun _ => trivial)
  cases ha : hitsPhase1 ix tokens [] <;> cases hb : hitsPhase1 ix' tokens [] <;> rw [ha, hb] at g1
  · trivial
  · exact g1.elim
  · exact g1.elim
  · simp only
    rw [h1]
    have g2 := hitsPhase2_rel h3 tokens.length g1 (List.range ix'.len)
    rename_i m m'
    cases hc : hitsPhase2 ix tokens.length m (List.range ix'.len) <;> cases hd : hitsPhase2 ix' tokens.length m' (List.range ix'.len) <;>
      rw [hc, hd] at g2
    · trivial
    · exact g2.elim
    · exact g2.elim
    · exact sortWith_rel alg g2

/-! ## C14 -/

/-- A history the specification can run, runs. -/
theorem runs_complete {s : Shared} {a b : SpecState} (h : Abs cfg s a) (cs : List Call) {rets : List SRet}
    (hr : SpecState.runs cfg a (cs.map Call.op) rets b) : ∃ rets' s', runCalls cfg cs s = .ok rets' s' := by
  induction cs generalizing s a rets with
  | nil => exact ⟨[], s, rfl⟩
  | cons c cs ih =>
    obtain ⟨r, rs, rfl, h1, h2, h3, h4⟩ := hr
    obtain ⟨r', s', g1, _, g3, _⟩ := step_completes c.oracle c.tid h h1 h2
    obtain ⟨rets', s'', g4⟩ := ih g3 h4
    exact ⟨r'.view s' :: rets', s'', by simp only [runCalls, g1, Outcome.andThen, g4]⟩

/-- Histories of a repository that differ only in the contents of documents and in statements with the same tokens:
if the calls of the one complete, so do those of the other, and every sequence of answers to the one is, up to the
contents of the documents in search results, among the answers the specification allows for the other. -/
theorem C14_repository {cs cs' : List Call} (ho : Forall2 (OpRel C cfg) (cs.map Call.op) (cs'.map Call.op)) {rets : List SRet} {s : Shared}
    (hrun : runCalls cfg cs newIndexRepo = .ok rets s) :
    (∃ rets' s', runCalls cfg cs' newIndexRepo = .ok rets' s') ∧
    ∃ rets' a', SpecState.runs cfg SpecState.empty (cs'.map Call.op) rets' a' ∧ Forall2 (AnswerRel C) rets rets' := by
  obtain ⟨a, h1, _⟩ := C30_calls_refine_specification cs rets hrun
  obtain ⟨rets', a', h2, _, h3⟩ := runsRel ho (a := SpecState.empty) (a' := SpecState.empty) ⟨fun _ => trivial, rfl, rfl, rfl⟩ h1
  exact ⟨runs_complete (abs_empty cfg) cs' h2, rets', a', h2, h3⟩

/-- The engines of the package find the same documents whatever the contents. -/
theorem C14_engines_blind (alg : Nat → SortProg) :
    ∀ e ∈ [linearSearch, hitsSearch (sortWith alg), noopZeroSearch, noopAllSearch], BlindTo C e := by
  intro e he
  simp only [List.mem_cons, List.not_mem_nil, or_false] at he
  rcases he with rfl | rfl | rfl | rfl
  · exact linearSearch_blind
  · exact hitsSearch_blind alg
  · exact noopZeroSearch_blind
  · exact noopAllSearch_blind

/-- If only statements are replaced, by ones with the same tokens, the answers are the same, whatever the engines. -/
theorem C14_repository_equivalent_statements {cs cs' : List Call} (ho : Forall2 (OpRel Eq cfg) (cs.map Call.op) (cs'.map Call.op))
    {rets : List SRet} {s : Shared} (hrun : runCalls cfg cs newIndexRepo = .ok rets s) :
    ∃ a', SpecState.runs cfg SpecState.empty (cs'.map Call.op) rets a' := by
  obtain ⟨_, rets', a', h1, h2⟩ := C14_repository ho hrun
  have : rets' = rets := by
    clear h1 hrun ho
    induction h2 with
    | nil => rfl
    | cons h _ ih =>
      rw [ih]
      congr 1
      cases h with
      | same => rfl
      | results h =>
        congr 1
        induction h with
        | nil => rfl
        | @cons r r' _ _ h _ ih =>
          rw [ih]
          congr 1
          obtain ⟨d, n⟩ := r
          obtain ⟨d', n'⟩ := r'
          obtain ⟨h1, h2⟩ := h
          simp only at h1 h2
          rw [h1, docRel_eq h2]
  exact ⟨a', this ▸ h1⟩

/-! ## A case -/

def asCalls (ops : List Op) : List Call := ops.map fun op => ⟨sampleOracle, 0, op⟩

def someHistory (st st' c c' : Str) : List Op :=
  [.put (str "x") (newDocRequestWith (str "d") c st), .put (str "x") (newDocRequestWith (str "e") c' st'), .alias (str "a") (str "x"),
    .rename (str "x") (str "y"), .search (str "a") (str "go") linearSearch]

/-- Contents, order and repetition of the tokens of the statements differ. -/
example : Forall2 (OpRel (fun _ _ => True) sampleCfg) ((asCalls (someHistory (str "go java") (str "c") (str "1") (str "go"))).map Call.op)
    ((asCalls (someHistory (str "java go java") (str "c") (str "go go") (str "2"))).map Call.op) := by
  have h : ∀ t, t ∈ sampleCfg.tok (str "go java") ↔ t ∈ sampleCfg.tok (str "java go java") := by
    have h1 : sampleCfg.tok (str "go java") = [str "go", str "java"] := by decide +kernel
    have h2 : sampleCfg.tok (str "java go java") = [str "java", str "go", str "java"] := by decide +kernel
    intro t
    rw [h1, h2]
    simp only [List.mem_cons, List.not_mem_nil, or_false]
    constructor
    · rintro (h | h) <;> simp [h]
    · rintro (h | h | h) <;> simp [h]
  exact .cons (.put ⟨rfl, h, trivial⟩) (.cons (.put ⟨rfl, fun _ => .rfl, trivial⟩) (.cons (.same (fun _ _ h => nomatch h) (fun _ _ _ h => nomatch h))
    (.cons (.same (fun _ _ h => nomatch h) (fun _ _ _ h => nomatch h)) (.cons (.search linearSearch_blind) .nil))))

/-- The answers. -/
def answersOf (ops : List Op) : Option (List SRet) :=
  match runCalls sampleCfg (asCalls ops) newIndexRepo with
  | .ok rets _ => some rets
  | _ => none

example : answersOf (someHistory (str "go java") (str "c") (str "1") (str "go"))
    = some [.unit, .unit, .bool true, .bool true, .results [⟨⟨str "d", str "1"⟩, 1⟩]] := by decide +kernel

example : answersOf (someHistory (str "java go java") (str "c") (str "go go") (str "2"))
    = some [.unit, .unit, .bool true, .bool true, .results [⟨⟨str "d", str "go go"⟩, 1⟩]] := by decide +kernel

end Visigoth
