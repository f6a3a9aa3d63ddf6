import Verif.Spec.Bare
import Verif.Proofs.Index
/-!
# Calls on one index that do not overlap a `Put`
-/
namespace Visigoth

variable {cp : CopyFn} {tok : Tokenizer}

/-! ## The engines as programs -/

theorem hitsInnerP_value (ix : Indexer) (k : GoMap HashKey SearchResult → EngProg) : ∀ l m,
    (hitsInnerP k l m).value ix = match hitsInner ix l m with
      | none => none
      | some m' => (k m').value ix
  | [], m => rfl
  | i :: l, m => by
    simp only [hitsInnerP, hitsInner, EngProg.value]
    cases ix.document i with
    | none => rfl
    | some d =>
      simp only
      cases m.get d.hash with
      | none => exact hitsInnerP_value ix k l _
      | some r => exact hitsInnerP_value ix k l _

theorem hitsPhase1P_value (ix : Indexer) (k : GoMap HashKey SearchResult → EngProg) : ∀ ts m,
    (hitsPhase1P k ts m).value ix = match hitsPhase1 ix ts m with
      | none => none
      | some m' => (k m').value ix
  | [], m => rfl
  | t :: ts, m => by
    simp only [hitsPhase1P, hitsPhase1, EngProg.value]
    cases ix.indexed t with
    | none => exact hitsPhase1P_value ix k ts m
    | some l =>
      simp only
      rw [hitsInnerP_value]
      cases hitsInner ix l m with
      | none => rfl
      | some m' => exact hitsPhase1P_value ix k ts m'

theorem eachDoc_acc (ix : Indexer) (body : Doc → List SearchResult) : ∀ f i acc,
    eachDoc ix body f i acc = (eachDoc ix body f i []).map (acc ++ ·)
  | 0, i, acc => by simp [eachDoc]
  | f + 1, i, acc => by
    simp only [eachDoc]
    cases ix.document i with
    | none => rfl
    | some d =>
      simp only
      rw [eachDoc_acc ix body f (i + 1) (acc ++ body d), eachDoc_acc ix body f (i + 1) ([] ++ body d)]
      cases eachDoc ix body f (i + 1) [] <;> simp

theorem hitsPhase2_each (ix : Indexer) (n : Nat) (m : GoMap HashKey SearchResult) : ∀ f i,
    eachDoc ix (hitsBody n m) f i [] = hitsPhase2 ix n m (List.range' i f)
  | 0, i => rfl
  | f + 1, i => by
    simp only [eachDoc, List.range'_succ, hitsPhase2]
    cases ix.document i with
    | none => rfl
    | some d =>
      simp only
      rw [eachDoc_acc, hitsPhase2_each ix n m f (i + 1)]
      cases hitsPhase2 ix n m (List.range' (i + 1) f) with
      | none => rfl
      | some l =>
        simp only [hitsBody, List.nil_append, Option.map_some]
        cases m.get d.hash with
        | none => rfl
        | some r => simp only; split <;> rfl

theorem hitsSearchP_value (sort : List SearchResult → List SearchResult) (tokens : List Str) (ix : Indexer) :
    (hitsSearchP sort tokens).value ix = hitsSearch sort tokens ix := by
  unfold hitsSearchP hitsSearch
  rw [hitsPhase1P_value]
  cases hitsPhase1 ix tokens [] with
  | none => rfl
  | some m =>
    simp only [EngProg.value, Nat.sub_zero]
    rw [hitsPhase2_each, List.range_eq_range']
    cases hitsPhase2 ix tokens.length m (List.range' 0 ix.len) <;> rfl

theorem toResultsP_value (ix : Indexer) (n : Nat) : ∀ l acc,
    (toResultsP n l acc).value ix = (toResults ix n l).map (acc ++ ·)
  | [], acc => by simp [toResultsP, toResults, EngProg.value]
  | i :: l, acc => by
    simp only [toResultsP, toResults, EngProg.value]
    cases ix.document i with
    | none => rfl
    | some d =>
      simp only
      rw [toResultsP_value ix n l]
      cases toResults ix n l <;> simp

theorem linearLoopP_value (ix : Indexer) (k : List Nat → EngProg) : ∀ ts docs,
    (linearLoopP k ts docs).value ix = match linearLoop ix ts docs with
      | none => some []
      | some docs => (k docs).value ix
  | [], docs => rfl
  | t :: ts, docs => by
    simp only [linearLoopP, linearLoop, EngProg.value]
    cases ix.indexed t with
    | none => rfl
    | some l =>
      simp only
      cases intersection docs l with
      | nil => rfl
      | cons d ds => exact linearLoopP_value ix k ts (d :: ds)

theorem linearSearchP_value (tokens : List Str) (ix : Indexer) :
    (linearSearchP tokens).value ix = linearSearch tokens ix := by
  cases tokens with
  | nil => rfl
  | cons t ts =>
    simp only [linearSearchP, linearSearch, EngProg.value]
    cases ix.indexed t with
    | none => rfl
    | some docs =>
      simp only
      rw [linearLoopP_value]
      cases linearLoop ix ts docs with
      | none => rfl
      | some docs =>
        simp only [toResultsP_value, List.length_cons]
        cases toResults ix (ts.length + 1) docs <;> simp

theorem toResults_each (ix : Indexer) : ∀ f i,
    eachDoc ix (fun doc => [{ document := doc, hits := 0 }]) f i [] = toResults ix 0 (List.range' i f)
  | 0, i => rfl
  | f + 1, i => by
    simp only [eachDoc, List.range'_succ, toResults]
    cases ix.document i with
    | none => rfl
    | some d =>
      simp only
      rw [eachDoc_acc, toResults_each ix f (i + 1)]
      cases toResults ix 0 (List.range' (i + 1) f) <;> rfl

theorem noopAllSearchP_value (tokens : List Str) (ix : Indexer) :
    (noopAllSearchP tokens).value ix = noopAllSearch tokens ix := by
  simp only [noopAllSearchP, noopAllSearch, EngProg.value, Nat.sub_zero]
  rw [toResults_each, List.range_eq_range']
  cases toResults ix 0 (List.range' 0 ix.len) <;> rfl

/-! ## The way of a `Put` on its own -/

/-- The index after the posting loop has gone through some tokens. -/
def withPostings (next : Nat) (mi : MemoryIndex) (toks : List Str) : MemoryIndex :=
  { mi with inverted := toks.foldl (addPosting next) mi.inverted }

/-- What holds at each stage of a `Put` that began with the index `base`. -/
def PutStage (tok : Tokenizer) (d : DocRequest) (base mi : MemoryIndex) : BareStage → Prop
  | .putLen d' => d' = d ∧ mi = base
  | .putRead d' n => d' = d ∧ mi = base ∧ n = base.docs.length
  | .putWrite d' n docs => d' = d ∧ mi = base ∧ n = base.docs.length ∧ docs = base.docs
  | .putLoop n toks => n = base.docs.length ∧ base.put tok d = withPostings n mi toks
  | .putPost n t l toks => n = base.docs.length ∧ l = (mi.inverted.get t).getD [] ∧ n ∉ l ∧ base.put tok d = withPostings n mi (t :: toks)
  | .done l => l = []
  | _ => False

theorem afterToken_running {next : Nat} : ∀ {toks : List Str}, (afterToken next toks).running = false → toks = []
  | [], _ => rfl
  | _ :: _, h => by cases h

theorem putStage_after {d : DocRequest} {base mi : MemoryIndex} {toks : List Str}
    (h : base.put tok d = withPostings base.docs.length mi toks) :
    PutStage tok d base mi (afterToken base.docs.length toks) ∧
      ((afterToken base.docs.length toks).running = false → mi = base.put tok d) := by
  cases toks with
  | nil => exact ⟨rfl, fun _ => h.symm⟩
  | cons t ts => exact ⟨⟨rfl, h⟩, nofun⟩

theorem putStage_step {d : DocRequest} {base mi mi' : MemoryIndex} {s s' : BareStage} (h : PutStage tok d base mi s)
    (hs : s.step cp tok mi = some (mi', s')) :
    PutStage tok d base mi' s' ∧ (s'.running = false → mi' = base.put tok d) := by
  cases s with
  | putLen d' => cases hs; exact ⟨⟨h.1, h.2, by rw [h.2]; rfl⟩, nofun⟩
  | putRead d' n => cases hs; exact ⟨⟨h.1, h.2.1, h.2.2, by rw [h.2.1]⟩, nofun⟩
  | putWrite d' n docs =>
    cases hs
    obtain ⟨rfl, rfl, rfl, rfl⟩ := h
    exact putStage_after rfl
  | putLoop n toks =>
    obtain ⟨rfl, h⟩ := h
    cases toks with
    | nil => cases hs; exact ⟨rfl, fun _ => h.symm⟩
    | cons t toks =>
      simp only [BareStage.step] at hs
      split at hs
      · next hin =>
        cases hs
        refine putStage_after (h.trans ?_)
        simp only [withPostings, List.foldl_cons, addPosting, if_pos hin]
      · next hin =>
        cases hs
        exact ⟨⟨rfl, rfl, hin, h⟩, nofun⟩
  | putPost n t l toks =>
    obtain ⟨rfl, rfl, hin, h⟩ := h
    cases hs
    refine putStage_after (h.trans ?_)
    simp only [withPostings, List.foldl_cons, addPosting, if_neg hin]
  | engine p => exact h.elim
  | done l => cases hs
  | panicked => cases hs

/-! ## The way of a search whose index does not change -/

/-- What holds at each stage of a search on the index `base`, if its engine has the value `v` there. -/
def SearchStage (cp : CopyFn) (base : MemoryIndex) (v : Option (List SearchResult)) : BareStage → Prop
  | .engine p => p.value (base.indexer cp) = v
  | .done l => v = some l
  | .panicked => v = none
  | _ => False

theorem each_value (ix : Indexer) (i : Nat) (acc : List SearchResult) (body : Doc → List SearchResult) (k : List SearchResult → EngProg) :
    (EngProg.each i acc body k).value ix = (if i < ix.len then EngProg.eachAt i acc body k else k acc).value ix := by
  by_cases h : i < ix.len
  · rw [if_pos h]
    obtain ⟨f, hf⟩ : ∃ f, ix.len - i = f + 1 := ⟨ix.len - i - 1, by omega⟩
    have : ix.len - (i + 1) = f := by omega
    simp only [EngProg.value, hf, this, eachDoc]
    cases ix.document i <;> rfl
  · rw [if_neg h]
    have : ix.len - i = 0 := by omega
    simp only [EngProg.value, this, eachDoc]

theorem searchStage_step {mi mi' : MemoryIndex} {v : Option (List SearchResult)} {s s' : BareStage} (h : SearchStage cp mi v s)
    (hs : s.step cp tok mi = some (mi', s')) : mi' = mi ∧ SearchStage cp mi v s' := by
  cases s with
  | engine p =>
    cases p with
    | ret l => cases hs; exact ⟨rfl, h.symm⟩
    | len k => cases hs; exact ⟨rfl, h⟩
    | indexed t k => cases hs; exact ⟨rfl, h⟩
    | document i k =>
      simp only [BareStage.step] at hs
      simp only [SearchStage, EngProg.value, MemoryIndex.indexer] at h
      split at hs
      · next d hd => cases hs; rw [hd] at h; exact ⟨rfl, h⟩
      · next hd => cases hs; rw [hd] at h; exact ⟨rfl, h.symm⟩
    | each i acc body k =>
      cases hs
      exact ⟨rfl, (each_value (mi.indexer cp) i acc body k).symm.trans h⟩
    | eachAt i acc body k =>
      simp only [BareStage.step] at hs
      simp only [SearchStage, EngProg.value, MemoryIndex.indexer] at h
      split at hs
      · next d hd =>
        cases hs
        rw [hd] at h
        simp only [SearchStage, EngProg.value, MemoryIndex.indexer]
        exact ⟨trivial, h⟩
      · next hd => cases hs; rw [hd] at h; exact ⟨rfl, h.symm⟩
  | done l => cases hs
  | panicked => cases hs
  | _ => exact h.elim

/-! ## The invariant -/

/-- The index as it was when call `t` was made. -/
def baseAt (tok : Tokenizer) (name : Str) (calls : List BareCall) (t : Nat) : MemoryIndex :=
  buildIndex tok name (putRequests (calls.take t))

/-- What holds of call `t`. -/
def CallOk (cp : CopyFn) (tok : Tokenizer) (name : Str) (mi : MemoryIndex) (calls : List BareCall) (t : Nat) (x : BareCall) : Prop :=
  match x.op with
  | .put d => (x.stage.running = true → calls.length = t + 1 ∧ PutStage tok d (baseAt tok name calls t) mi x.stage) ∧
      (x.stage.running = false → x.stage = .done [])
  | .search payload e => SearchStage cp (baseAt tok name calls t) ((e (tok payload)).value ((baseAt tok name calls t).indexer cp)) x.stage ∧
      (x.stage.running = true → mi = baseAt tok name calls t)

structure BareInv (cp : CopyFn) (tok : Tokenizer) (name : Str) (c : BareConfig) : Prop where
  call : ∀ t x, c.calls[t]? = some x → CallOk cp tok name c.mi c.calls t x
  quiet : (∀ x ∈ c.calls, x.op.isPut = true → x.stage.running = false) → c.mi = buildIndex tok name (putRequests c.calls)

theorem putRequests_take_set (calls : List BareCall) {t : Nat} {op : BareOp} {s s' : BareStage} (h : calls[t]? = some ⟨op, s⟩) (u : Nat) :
    putRequests ((calls.set t ⟨op, s'⟩).take u) = putRequests (calls.take u) := by
  unfold putRequests
  rw [List.take_set]
  by_cases hlt : t < (calls.take u).length
  · have hg : (calls.take u)[t]? = some ⟨op, s⟩ := by
      rw [List.getElem?_take]
      rw [List.length_take] at hlt
      rw [if_pos (by omega)]; exact h
    generalize calls.take u = l at hg hlt
    clear h hlt
    induction l generalizing t with
    | nil => cases hg
    | cons y l ih =>
      cases t with
      | zero => cases hg; rfl
      | succ t =>
        simp only [List.set_cons_succ, List.filterMap_cons]
        rw [ih hg]
  · rw [List.set_eq_of_length_le (Nat.le_of_not_lt hlt)]

theorem callOk_base {mi : MemoryIndex} {calls calls' : List BareCall} {name : Str} {t : Nat} {x : BareCall}
    (hb : baseAt tok name calls' t = baseAt tok name calls t) (hl : x.op.isPut = true → x.stage.running = true → calls'.length = calls.length)
    (h : CallOk cp tok name mi calls t x) : CallOk cp tok name mi calls' t x := by
  unfold CallOk at h ⊢
  rw [hb]
  cases hop : x.op with
  | put d =>
    rw [hop] at h hl
    exact ⟨fun hr => ⟨(hl rfl hr).trans (h.1 hr).1, (h.1 hr).2⟩, h.2⟩
  | search p e => rw [hop] at h; exact h

theorem start_running (op : BareOp) : (op.start tok).running = true := by cases op <;> rfl

theorem bareInv_step {name : Str} {c c' : BareConfig} (ha : c.apart) (i : BareInv cp tok name c) (hs : BareStep cp tok c c') (ha' : c'.apart) :
    BareInv cp tok name c' := by
  cases hs with
  | @invoke mi calls op =>
    have hlast : (calls ++ [⟨op, op.start tok⟩])[calls.length]? = some ⟨op, op.start tok⟩ := by simp
    have hnone : ∀ x ∈ calls, x.op.isPut = true → x.stage.running = false := by
      intro x hx hp
      obtain ⟨t, ht⟩ := List.getElem?_of_mem hx
      have hlt := (List.getElem?_eq_some_iff.1 ht).1
      cases hr : x.stage.running with
      | false => rfl
      | true =>
        have := ha' t calls.length x _ (Nat.ne_of_lt hlt) (by simp only; rw [List.getElem?_append_left hlt]; exact ht) hlast hp hr
        rw [start_running] at this; cases this
    have hmi := i.quiet hnone
    simp only at hmi
    refine ⟨fun t x hx => ?_, fun h => ?_⟩
    · simp only at hx ⊢
      by_cases hlt : t < calls.length
      · rw [List.getElem?_append_left hlt] at hx
        refine callOk_base (calls := calls) ?_ (fun hp hr => ?_) (i.call t x hx)
        · unfold baseAt; rw [List.take_append_of_le_length (Nat.le_of_lt hlt)]
        · rw [hnone x (List.mem_of_getElem? hx) hp] at hr; cases hr
      · have hle := Nat.le_of_not_lt hlt
        rw [List.getElem?_append_right hle] at hx
        cases hj : t - calls.length with
        | succ j => rw [hj] at hx; cases hx
        | zero =>
          rw [hj] at hx
          cases hx
          have ht : t = calls.length := by omega
          subst ht
          have hb : baseAt tok name (calls ++ [⟨op, op.start tok⟩]) calls.length = mi := by
            unfold baseAt
            rw [List.take_append_of_le_length (Nat.le_refl _), List.take_length]
            exact hmi.symm
          unfold CallOk
          rw [hb]
          cases op with
          | put d => exact ⟨fun _ => ⟨by simp, rfl, rfl⟩, nofun⟩
          | search p e => exact ⟨rfl, fun _ => rfl⟩
    · simp only at h ⊢
      have h1 := h ⟨op, op.start tok⟩ (by simp)
      rw [hmi]
      cases op with
      | put d => exact absurd (h1 rfl) nofun
      | search p e => unfold putRequests; rw [List.filterMap_append]; simp
  | @move mi mi' calls t op s s' hx hs =>
    have hlt := (List.getElem?_eq_some_iff.1 hx).1
    have hrun : s.running = true := by cases s <;> first | rfl | cases hs
    have hbase : ∀ u, baseAt tok name (calls.set t ⟨op, s'⟩) u = baseAt tok name calls u := fun u => by
      unfold baseAt; rw [putRequests_take_set calls hx]
    have hall : putRequests (calls.set t ⟨op, s'⟩) = putRequests calls := by
      have := putRequests_take_set (s' := s') calls hx calls.length
      rw [List.take_of_length_le (by simp), List.take_length] at this
      exact this
    have hself : (calls.set t ⟨op, s'⟩)[t]? = some ⟨op, s'⟩ := List.getElem?_set_self hlt
    have hok := i.call t _ hx
    cases op with
    | put d =>
      obtain ⟨hlen, hst⟩ := hok.1 hrun
      have hstep := putStage_step hst hs
      have hbt : buildIndex tok name (putRequests calls) = (baseAt tok name calls t).put tok d := by
        have : calls = calls.take t ++ [⟨.put d, s⟩] := by
          have h1 := List.take_append_drop t calls
          rw [List.drop_eq_getElem_cons hlt, List.drop_of_length_le (by simp only at hlen; omega)] at h1
          have : calls[t] = ⟨.put d, s⟩ := (List.getElem?_eq_some_iff.1 hx).2
          rw [this] at h1
          exact h1.symm
        conv => lhs; rw [this]
        unfold putRequests baseAt buildIndex
        rw [List.filterMap_append, List.foldl_append]
        rfl
      refine ⟨fun u x hu => ?_, fun h => ?_⟩
      · simp only at hu ⊢
        by_cases hut : t = u
        · subst hut
          rw [hself] at hu
          cases hu
          unfold CallOk
          simp only
          rw [hbase]
          refine ⟨fun _ => ⟨by simpa using hlen, hstep.1⟩, fun hr => ?_⟩
          have := hstep.1
          cases s' <;> first | (cases hr; done) | exact this.elim | (rw [this])
        · rw [List.getElem?_set_ne hut] at hu
          have hyr := ha t u _ x hut hx hu rfl hrun
          have := i.call u x hu
          unfold CallOk at this ⊢
          rw [hbase]
          cases hop : x.op with
          | put d' => rw [hop] at this; exact ⟨fun hr => by rw [hyr] at hr; (cases hr), this.2⟩
          | search p e => rw [hop] at this; exact ⟨this.1, fun hr => by rw [hyr] at hr; (cases hr)⟩
      · simp only at h ⊢
        have h1 := h _ (List.mem_of_getElem? hself) rfl
        rw [hall, hbt]
        exact hstep.2 h1
    | search p e =>
      obtain ⟨hst, hmi⟩ := hok
      have hmi := hmi hrun
      simp only at hmi hst
      rw [← hmi] at hst
      obtain ⟨rfl, hst'⟩ := searchStage_step hst hs
      refine ⟨fun u x hu => ?_, fun h => ?_⟩
      · simp only at hu ⊢
        by_cases hut : t = u
        · subst hut
          rw [hself] at hu
          cases hu
          unfold CallOk
          simp only
          rw [hbase, ← hmi]
          exact ⟨hst', fun _ => rfl⟩
        · rw [List.getElem?_set_ne hut] at hu
          exact callOk_base (hbase u) (fun _ _ => by simp) (i.call u x hu)
      · simp only at h ⊢
        rw [hall]
        refine i.quiet fun x hxm hp => ?_
        obtain ⟨u, hu⟩ := List.getElem?_of_mem hxm
        by_cases hut : t = u
        · subst hut; simp only at hu; rw [hx] at hu; cases hu; cases hp
        · exact h x (List.mem_of_getElem? ((List.getElem?_set_ne hut).trans hu)) hp

theorem bareInv_init (name : Str) : BareInv cp tok name (.init name) :=
  ⟨fun t x hx => by simp [BareConfig.init] at hx, fun _ => rfl⟩

theorem apart_init (name : Str) : (BareConfig.init name).apart := fun t u x y _ hx => by simp [BareConfig.init] at hx

theorem bareInv_apart {name : Str} {c0 c : BareConfig} (h : ApartSteps cp tok c0 c) (h0 : c0 = .init name) : c.apart ∧ BareInv cp tok name c := by
  induction h with
  | refl => subst h0; exact ⟨apart_init name, bareInv_init name⟩
  | tail _ hs ha' ih => exact ⟨ha', bareInv_step ih.1 ih.2 hs ha'⟩

end Visigoth
