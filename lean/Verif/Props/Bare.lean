import Verif.Proofs.Bare
import Verif.Props.Search
/-!
# C82: calling an index directly from several goroutines
-/
namespace Visigoth

variable {cp : CopyFn} {tok : Tokenizer}

/-! ## What goes wrong -/

theorem barePlay_steps {c0 : BareConfig} : ∀ (ms : List BareMove) {c c' : BareConfig}, BareSteps cp tok c0 c →
    c.play cp tok ms = some c' → BareSteps cp tok c0 c'
  | [], c, c', h, hp => by cases hp; exact h
  | .call op :: ms, c, c', h, hp => barePlay_steps ms (.tail h (.invoke op)) hp
  | .go t :: ms, c, c', h, hp => by
    simp only [BareConfig.play] at hp
    split at hp
    · cases hp
    · next x hx =>
      split at hp
      · cases hp
      · next mi' s' hs => exact barePlay_steps ms (.tail h (.move (op := x.op) (s := x.stage) hx hs)) hp

/-- A call makes a number of accesses. -/
def bareGoes (t n : Nat) : List BareMove := List.replicate n (.go t)

def bareD : DocRequest := newDocRequest (str "d") (str "go")
def bareE : DocRequest := newDocRequest (str "e") (str "go")
def bareF : DocRequest := newDocRequest (str "f") (str "go")

/-- Two `Put`s read `Docs` before either assigns it. -/
def bareLost : List BareMove :=
  [.call (.put bareD), .call (.put bareE)] ++ bareGoes 0 2 ++ bareGoes 1 2 ++ bareGoes 0 3 ++ bareGoes 1 2

/-- False of the code: both `Put`s have returned, one document is missing. -/
theorem C82_refuted : ¬ BareSafe plainCopy spaceTok := by
  intro h
  have hp : ((BareConfig.init []).play plainCopy spaceTok bareLost).map
      (fun c => (c.mi.docs.length, c.calls.all fun x => !x.stage.running, (putRequests c.calls).length)) = some (1, true, 2) := by
    decide +kernel
  cases hc : (BareConfig.init []).play plainCopy spaceTok bareLost with
  | none => rw [hc] at hp; cases hp
  | some c =>
    rw [hc] at hp
    simp only [Option.map_some, Option.some.injEq, Prod.mk.injEq] at hp
    obtain ⟨h1, h2, h3⟩ := hp
    obtain ⟨rs, hrs, hdocs, _⟩ := h [] c (barePlay_steps _ (.refl _) hc) (fun x hx => by simpa using List.all_eq_true.1 h2 x hx)
    have := hrs.length_eq
    rw [hdocs, List.length_map, this, h3] at h1
    cases h1

/-- The first `Put` reads `Docs`, two others run, then the first assigns what it has read: later, with nothing
else going on, a search panics: it asks for a document that is no longer there. -/
def bareBroken : List BareMove :=
  [.call (.put bareD)] ++ bareGoes 0 2 ++ [.call (.put bareE)] ++ bareGoes 1 5 ++ [.call (.put bareF)] ++ bareGoes 2 5 ++ bareGoes 0 2

theorem C82_search_panics_later :
    ((BareConfig.init []).play plainCopy spaceTok bareBroken).map
        (fun c => (c.calls.all fun x => !x.stage.running, c.mi.search plainCopy spaceTok (str "go") linearSearch))
      = some (true, none) := by decide +kernel

/-- A search can see a `Put` half done: `NoopAllSearch` reports a document, and a `LinearSearch` made after it
has returned does not find it. -/
theorem C82_half_put_seen :
    ((BareConfig.init []).play plainCopy spaceTok ([.call (.put bareD)] ++ bareGoes 0 3 ++
        [.call (.search [] noopAllSearchP)] ++ bareGoes 1 4 ++ [.call (.search (str "go") linearSearchP)] ++ bareGoes 2 2)).map
        (fun c => c.calls.map fun x => match x.stage with
          | .done l => some (l.map fun r => r.document.name)
          | _ => none)
      = some [none, some [str "d"], some []] := by decide +kernel

/-! ## Whenever they overlap -/

theorem bareSteps_trans {c c' c'' : BareConfig} (h : BareSteps cp tok c c') (h' : BareSteps cp tok c' c'') : BareSteps cp tok c c'' := by
  induction h' with
  | refl => exact h
  | tail _ hs ih => exact .tail ih hs

/-- A `Put` that has not assigned `Docs` yet. -/
def BareStage.early : BareStage → Bool
  | .putLen _ | .putRead .. | .putWrite .. => true
  | _ => false

theorem bare_one {mi mi' : MemoryIndex} {calls : List BareCall} {t : Nat} {x : BareCall} {s' : BareStage} (h : calls[t]? = some x)
    (hs : x.stage.step cp tok mi = some (mi', s')) : BareStep cp tok ⟨mi, calls⟩ ⟨mi', calls.set t ⟨x.op, s'⟩⟩ :=
  .move (op := x.op) (s := x.stage) h hs

/-- Whenever a `Put` has not assigned `Docs` yet while another call is about to access `Docs`, a data race can
follow. -/
theorem C82_overlap_races {c : BareConfig} {t u : Nat} {x y : BareCall} (htu : t ≠ u) (hx : c.calls[t]? = some x)
    (hy : c.calls[u]? = some y) (he : x.stage.early = true) (ha : y.stage.reads = some .docs ∨ y.stage.writes = some .docs) :
    ∃ c', BareSteps cp tok c c' ∧ c'.races := by
  obtain ⟨mi, calls⟩ := c
  simp only at hx hy
  have hlt := (List.getElem?_eq_some_iff.1 hx).1
  have fin : ∀ (calls' : List BareCall) (x' : BareCall), calls'[t]? = some x' → calls'[u]? = some y → x'.stage.writes = some .docs →
      (⟨mi, calls'⟩ : BareConfig).races := fun calls' x' h1 h2 h3 => ⟨t, u, x', y, .docs, htu, h1, h2, h3, ha.symm⟩
  have put2 : ∀ (calls' : List BareCall) (x' : BareCall) (d : DocRequest) (n : Nat), calls'[t]? = some x' → calls'[u]? = some y →
      x'.stage = .putRead d n → ∃ c', BareSteps cp tok ⟨mi, calls'⟩ c' ∧ c'.races := by
    intro calls' x' d n h1 h2 h3
    have hl := (List.getElem?_eq_some_iff.1 h1).1
    refine ⟨_, .tail (.refl _) (bare_one (s' := .putWrite d n mi.docs) h1 (by rw [h3]; rfl)), fin _ _ (List.getElem?_set_self hl) ?_ rfl⟩
    rw [List.getElem?_set_ne htu]; exact h2
  cases hst : x.stage with
  | putLen d =>
    obtain ⟨c', h1, h2⟩ := put2 (calls.set t ⟨x.op, .putRead d mi.len⟩) ⟨x.op, .putRead d mi.len⟩ d mi.len
      (List.getElem?_set_self hlt) (by rw [List.getElem?_set_ne htu]; exact hy) rfl
    exact ⟨c', bareSteps_trans (.tail (.refl _) (bare_one hx (by rw [hst]; rfl))) h1, h2⟩
  | putRead d n => exact put2 calls x d n hx hy hst
  | putWrite d n docs => exact ⟨_, .refl _, fin calls x hx hy (by rw [hst]; rfl)⟩
  | _ => rw [hst] at he; cases he

/-- A `Put` in its token loop can go on to its end. -/
theorem putLoop_ends {t : Nat} {op : BareOp} {n : Nat} : ∀ (toks : List Str) (mi : MemoryIndex) (calls : List BareCall),
    calls[t]? = some ⟨op, afterToken n toks⟩ →
    ∃ mi', mi'.docs = mi.docs ∧ BareSteps cp tok ⟨mi, calls⟩ ⟨mi', calls.set t ⟨op, .done []⟩⟩
  | [], mi, calls, h => by
    refine ⟨mi, rfl, ?_⟩
    obtain ⟨hlt, heq⟩ := List.getElem?_eq_some_iff.1 h
    have : calls.set t ⟨op, .done []⟩ = calls := by
      rw [show (⟨op, .done []⟩ : BareCall) = calls[t] from heq.symm, List.set_getElem_self]
    rw [this]; exact .refl _
  | tk :: toks, mi, calls, h => by
    have hlt := (List.getElem?_eq_some_iff.1 h).1
    by_cases hin : n ∈ (mi.inverted.get tk).getD []
    · obtain ⟨mi', h1, h2⟩ := putLoop_ends toks mi (calls.set t ⟨op, afterToken n toks⟩) (List.getElem?_set_self hlt)
      rw [List.set_set] at h2
      refine ⟨mi', h1, bareSteps_trans (.tail (.refl _) (.move h ?_)) h2⟩
      simp only [afterToken, BareStage.step, if_pos hin]
    · obtain ⟨mi', h1, h2⟩ := putLoop_ends toks { mi with inverted := mi.inverted.set tk ((mi.inverted.get tk).getD [] ++ [n]) }
        ((calls.set t ⟨op, .putPost n tk ((mi.inverted.get tk).getD []) toks⟩).set t ⟨op, afterToken n toks⟩)
        (List.getElem?_set_self (by simpa using hlt))
      rw [List.set_set, List.set_set] at h2
      refine ⟨mi', h1, bareSteps_trans (.tail (.tail (.refl _) (.move h (mi' := mi) ?_)) (.move (s := .putPost n tk ((mi.inverted.get tk).getD []) toks) (List.getElem?_set_self hlt) rfl)) ?_⟩
      · simp only [afterToken, BareStage.step, if_neg hin]
      · rw [List.set_set]; exact h2

/-- Whenever two `Put`s have been called and neither has begun, one of the documents can get lost: both
return, and the index has one document more than before. -/
theorem C82_overlap_loses {c : BareConfig} {t u : Nat} {d e : DocRequest} (htu : t ≠ u) (hx : c.calls[t]? = some ⟨.put d, .putLen d⟩)
    (hy : c.calls[u]? = some ⟨.put e, .putLen e⟩) :
    ∃ c', BareSteps cp tok c c' ∧ c'.calls[t]? = some ⟨.put d, .done []⟩ ∧ c'.calls[u]? = some ⟨.put e, .done []⟩ ∧
      c'.mi.docs = c.mi.docs ++ [docOf e] := by
  obtain ⟨mi, calls⟩ := c
  simp only at hx hy
  have hlt := (List.getElem?_eq_some_iff.1 hx).1
  have hlu := (List.getElem?_eq_some_iff.1 hy).1
  have other : ∀ (cs : List BareCall) (z : BareCall), (cs.set t z)[u]? = cs[u]? := fun cs z => List.getElem?_set_ne htu
  have other' : ∀ (cs : List BareCall) (z : BareCall), (cs.set u z)[t]? = cs[t]? := fun cs z => List.getElem?_set_ne (Ne.symm htu)
  have t1 : BareStep cp tok ⟨mi, calls⟩ ⟨mi, calls.set t ⟨.put d, .putRead d mi.len⟩⟩ := .move hx rfl
  have t2 : BareStep cp tok ⟨mi, calls.set t ⟨.put d, .putRead d mi.len⟩⟩ ⟨mi, calls.set t ⟨.put d, .putWrite d mi.len mi.docs⟩⟩ := by
    have := BareStep.move (cp := cp) (tok := tok) (mi := mi) (calls := calls.set t ⟨.put d, .putRead d mi.len⟩) (t := t) (op := .put d)
      (s := .putRead d mi.len) (List.getElem?_set_self hlt) rfl
    rw [List.set_set] at this; exact this
  generalize hc1 : calls.set t ⟨.put d, .putWrite d mi.len mi.docs⟩ = calls1 at t2
  have hl1 : calls1.length = calls.length := by rw [← hc1]; simp
  have g1 : calls1[t]? = some ⟨.put d, .putWrite d mi.len mi.docs⟩ := by rw [← hc1]; exact List.getElem?_set_self hlt
  have g2 : calls1[u]? = some ⟨.put e, .putLen e⟩ := by rw [← hc1, other]; exact hy
  have u1 : BareStep cp tok ⟨mi, calls1⟩ ⟨mi, calls1.set u ⟨.put e, .putRead e mi.len⟩⟩ := .move g2 rfl
  have u2 : BareStep cp tok ⟨mi, calls1.set u ⟨.put e, .putRead e mi.len⟩⟩ ⟨mi, calls1.set u ⟨.put e, .putWrite e mi.len mi.docs⟩⟩ := by
    have := BareStep.move (cp := cp) (tok := tok) (mi := mi) (calls := calls1.set u ⟨.put e, .putRead e mi.len⟩) (t := u) (op := .put e)
      (s := .putRead e mi.len) (List.getElem?_set_self (by rw [hl1]; exact hlu)) rfl
    rw [List.set_set] at this; exact this
  generalize hc2 : calls1.set u ⟨.put e, .putWrite e mi.len mi.docs⟩ = calls2 at u2
  have hl2 : calls2.length = calls.length := by rw [← hc2]; simp [hl1]
  have k1 : calls2[t]? = some ⟨.put d, .putWrite d mi.len mi.docs⟩ := by rw [← hc2, other']; exact g1
  have k2 : calls2[u]? = some ⟨.put e, .putWrite e mi.len mi.docs⟩ := by rw [← hc2]; exact List.getElem?_set_self (by rw [hl1]; exact hlu)
  have t3 := BareStep.move (cp := cp) (tok := tok) (mi := mi) (calls := calls2) (t := t) (op := .put d) (s := .putWrite d mi.len mi.docs) k1 rfl
  obtain ⟨mi3, _, t4⟩ := putLoop_ends (cp := cp) (tok := tok) (op := .put d) (n := mi.len) (tok d.statement)
    { mi with docs := mi.docs ++ [newDoc d.id d.raw] }
    (calls2.set t ⟨.put d, afterToken mi.len (tok d.statement)⟩) (t := t) (List.getElem?_set_self (by rw [hl2]; exact hlt))
  rw [List.set_set] at t4
  generalize hc3 : calls2.set t ⟨.put d, .done []⟩ = calls3 at t4
  have hl3 : calls3.length = calls.length := by rw [← hc3]; simp [hl2]
  have m1 : calls3[t]? = some ⟨.put d, .done []⟩ := by rw [← hc3]; exact List.getElem?_set_self (by rw [hl2]; exact hlt)
  have m2 : calls3[u]? = some ⟨.put e, .putWrite e mi.len mi.docs⟩ := by rw [← hc3, other]; exact k2
  have u3 := BareStep.move (cp := cp) (tok := tok) (mi := mi3) (calls := calls3) (t := u) (op := .put e) (s := .putWrite e mi.len mi.docs) m2 rfl
  obtain ⟨mi4, hd4, u4⟩ := putLoop_ends (cp := cp) (tok := tok) (op := .put e) (n := mi.len) (tok e.statement)
    { mi3 with docs := mi.docs ++ [newDoc e.id e.raw] }
    (calls3.set u ⟨.put e, afterToken mi.len (tok e.statement)⟩) (t := u) (List.getElem?_set_self (by rw [hl3]; exact hlu))
  rw [List.set_set] at u4
  refine ⟨_, bareSteps_trans (bareSteps_trans (.tail (.tail (.tail (.tail (.tail (.refl _) t1) t2) u1) u2) t3) t4)
    (bareSteps_trans (.tail (.refl _) u3) u4), ?_, List.getElem?_set_self (by rw [hl3]; exact hlu), hd4⟩
  simp only
  rw [other']; exact m1

/-! ## What holds -/

/-- What holds instead: in executions in which no `Put` is ever under way together with another call (searches
may overlap each other) the index has, when no `Put` is under way, the documents of all the `Put`s in the
order of the calls, filed under exactly their tokens; every search returns what its engine gives on the index
of the `Put`s called before it; and nothing races.
Not covered: overlapping `Put`s (refuted above). -/
theorem C82_apart_partial {name : Str} {c : BareConfig} (h : ApartSteps cp tok (.init name) c) :
    ((∀ x ∈ c.calls, x.op.isPut = true → x.stage.running = false) → c.mi.holds tok (putRequests c.calls)) ∧
    (∀ (t : Nat) (x : BareCall) (payload : Str) (e : List Str → EngProg), c.calls[t]? = some x → x.op = .search payload e →
      let v := (e (tok payload)).value ((buildIndex tok name (putRequests (c.calls.take t))).indexer cp)
      (∀ l, x.stage = .done l → v = some l) ∧ (x.stage = .panicked → v = none)) ∧
    (∀ (t : Nat) (x : BareCall) (d : DocRequest), c.calls[t]? = some x → x.op = .put d → x.stage ≠ .panicked) ∧
    ¬ c.races := by
  obtain ⟨ha, i⟩ := bareInv_apart h rfl
  refine ⟨fun hq => ?_, fun t x payload e hx hop => ?_, fun t x d hx hop hp => ?_, ?_⟩
  · rw [i.quiet hq]
    refine ⟨buildIndex_docs tok name _, fun t j => ?_⟩
    have := (C11_inverted_index_exact plainCopy tok name (putRequests c.calls) t).2 j
    exact this
  · have := i.call t x hx
    unfold CallOk at this
    rw [hop] at this
    refine ⟨fun l hl => ?_, fun hp => ?_⟩
    · have := this.1; rw [hl] at this; exact this
    · have := this.1; rw [hp] at this; exact this
  · have := i.call t x hx
    unfold CallOk at this
    rw [hop, hp] at this
    cases this.2 rfl
  · rintro ⟨t, u, x, y, f, htu, hx, hy, hw, hry⟩
    have hput : x.op.isPut = true := by
      have := i.call t x hx
      unfold CallOk at this
      cases hop : x.op with
      | put d => rfl
      | search p e =>
        rw [hop] at this
        have := this.1
        cases hst : x.stage <;> rw [hst] at this hw <;> first | exact this.elim | cases hw
    have hrx : x.stage.running = true := by cases hst : x.stage <;> rw [hst] at hw <;> first | rfl | cases hw
    have hyr := ha t u x y htu hx hy hput hrx
    rcases hry with hry | hry <;> cases hst : y.stage <;> rw [hst] at hry hyr <;> first | (cases hry; done) | (cases hyr; done)

/-- The built-in engines as programs give what the engines give. -/
theorem C82_engines (sort : List SearchResult → List SearchResult) (tokens : List Str) (ix : Indexer) :
    (linearSearchP tokens).value ix = linearSearch tokens ix ∧ (hitsSearchP sort tokens).value ix = hitsSearch sort tokens ix ∧
    (noopZeroSearchP tokens).value ix = noopZeroSearch tokens ix ∧ (noopAllSearchP tokens).value ix = noopAllSearch tokens ix :=
  ⟨linearSearchP_value tokens ix, hitsSearchP_value sort tokens ix, rfl, noopAllSearchP_value tokens ix⟩

/-- So `LinearSearch` returns exactly the documents put before that contain all the words.  Same
restriction. -/
theorem C82_linear_search_partial {name : Str} {c : BareConfig} (h : ApartSteps cp tok (.init name) c) {t : Nat} {x : BareCall}
    {payload : Str} (hx : c.calls[t]? = some x) (hop : x.op = .search payload linearSearchP) (hf : x.stage.running = false) :
    x.stage = .done (andResults tok (putRequests (c.calls.take t)) (tok payload)) := by
  obtain ⟨_, i⟩ := bareInv_apart h rfl
  have hv := (C82_apart_partial h).2.1 t x payload linearSearchP hx hop
  simp only [linearSearchP_value] at hv
  have hval : linearSearch (tok payload) ((buildIndex tok name (putRequests (c.calls.take t))).indexer cp)
      = some (andResults tok (putRequests (c.calls.take t)) (tok payload)) := C15_linear_search_exact cp tok name _ _
  rw [hval] at hv
  have hok := i.call t x hx
  unfold CallOk at hok
  rw [hop] at hok
  cases hst : x.stage with
  | done l => rw [Option.some.inj (hv.1 l hst)]
  | panicked => cases hv.2 hst
  | engine p => rw [hst] at hf; cases hf
  | _ => have := hok.1; rw [hst] at this; exact this.elim

/-! ## An execution in which searches overlap, but no `Put` overlaps anything -/

/-- `BareConfig.apart`, computed. -/
def BareConfig.apartB (c : BareConfig) : Bool :=
  !(c.calls.any fun x => x.op.isPut && x.stage.running) || (c.calls.filter fun x => x.stage.running).length ≤ 1

theorem filter_two {α : Type} (p : α → Bool) : ∀ {l : List α} {t u : Nat} {x y : α}, t < u → l[t]? = some x → l[u]? = some y →
    p x = true → p y = true → 2 ≤ (l.filter p).length
  | [], t, u, x, y, _, hx, _, _, _ => by cases hx
  | a :: l, 0, u + 1, x, y, _, hx, hy, px, py => by
    cases hx
    rw [List.filter_cons_of_pos px, List.length_cons]
    have := List.length_pos_of_mem (List.mem_filter.2 ⟨List.mem_of_getElem? (l := l) hy, py⟩)
    omega
  | a :: l, t + 1, u + 1, x, y, h, hx, hy, px, py => by
    have := filter_two p (l := l) (Nat.lt_of_succ_lt_succ h) hx hy px py
    rw [List.filter_cons]
    split
    · rw [List.length_cons]; omega
    · exact this

theorem apartB_apart {c : BareConfig} (h : c.apartB = true) : c.apart := by
  intro t u x y htu hx hy hp hr
  cases hyr : y.stage.running with
  | false => rfl
  | true =>
    exfalso
    unfold BareConfig.apartB at h
    rw [Bool.or_eq_true] at h
    rcases h with h | h
    · rw [Bool.not_eq_true', ← Bool.not_eq_true, List.any_eq_true] at h
      exact h ⟨x, List.mem_of_getElem? hx, by rw [hp, hr]; rfl⟩
    · have h := of_decide_eq_true h
      rcases Nat.lt_or_gt_of_ne htu with hlt | hlt
      · have := filter_two (fun x : BareCall => x.stage.running) hlt hx hy hr hyr; omega
      · have := filter_two (fun x : BareCall => x.stage.running) hlt hy hx hyr hr; omega

/-- The schedule keeps `Put`s apart. -/
def BareConfig.playApart (cp : CopyFn) (tok : Tokenizer) (c : BareConfig) : List BareMove → Option BareConfig
  | [] => some c
  | m :: ms =>
    match c.play cp tok [m] with
    | none => none
    | some c' => if c'.apartB then playApart cp tok c' ms else none

theorem playApart_steps {c0 : BareConfig} : ∀ (ms : List BareMove) {c c' : BareConfig}, ApartSteps cp tok c0 c →
    c.playApart cp tok ms = some c' → ApartSteps cp tok c0 c'
  | [], c, c', h, hp => by cases hp; exact h
  | m :: ms, c, c', h, hp => by
    simp only [BareConfig.playApart] at hp
    split at hp
    · cases hp
    · next c1 hc1 =>
      split at hp
      · next ha =>
        refine playApart_steps ms (.tail h ?_ (apartB_apart ha)) hp
        cases m with
        | call op => cases hc1; exact .invoke op
        | go t =>
          simp only [BareConfig.play] at hc1
          split at hc1
          · cases hc1
          · next x hx =>
            split at hc1
            · cases hc1
            · next mi' s' hs => cases hc1; exact .move (op := x.op) (s := x.stage) hx hs
      · cases hp

/-- Two searches overlap between two `Put`s. -/
def bareApart : List BareMove :=
  [.call (.put bareD)] ++ bareGoes 0 5 ++ [.call (.search (str "go") linearSearchP), .call (.search (str "go") noopAllSearchP)] ++
    bareGoes 1 1 ++ bareGoes 2 2 ++ bareGoes 1 2 ++ bareGoes 2 2 ++ [.call (.put bareE)] ++ bareGoes 3 5

example : ∃ c, ApartSteps plainCopy spaceTok (.init []) c ∧ c.mi.docs = [docOf bareD, docOf bareE] ∧
    c.calls.map (fun x => match x.stage with
      | .done l => some (l.map fun r => r.document.name)
      | _ => none) = [some [], some [str "d"], some [str "d"], some []] := by
  have hp : ((BareConfig.init []).playApart plainCopy spaceTok bareApart).map (fun c => (c.mi.docs, c.calls.map (fun x => match x.stage with
      | .done l => some (l.map fun r => r.document.name)
      | _ => none))) = some ([docOf bareD, docOf bareE], [some [], some [str "d"], some [str "d"], some []]) := by decide +kernel
  cases hc : (BareConfig.init []).playApart plainCopy spaceTok bareApart with
  | none => rw [hc] at hp; cases hp
  | some c =>
    rw [hc] at hp
    simp only [Option.map_some, Option.some.injEq, Prod.mk.injEq] at hp
    exact ⟨c, playApart_steps _ (.refl _) hc, hp⟩

end Visigoth
