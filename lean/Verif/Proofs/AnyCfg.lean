import Verif.Props.ConcAtomic
import Verif.Proofs.WholeInv
import Verif.Proofs.Whole
/-!
# A first `Put`, whatever the tokenizer does

From the empty repository a lone `Put` reaches a state in which one index is bound; nothing but the contents of the
index depends on the tokenizer.  Schedules can be played from there without fixing the configuration.
-/
namespace Visigoth

variable {cfg : Cfg}

/-- The state after a first `Put`. -/
def boundConfig (n : Name) (d : DocRequest) (mi : MemoryIndex) : Config :=
  { sh := { heap := [mi], indices := [(n, 0)] }, calls := [{ op := .put n d, oracle := sampleOracle, prog := .ret .unit }] }

/-- The same while the call still runs. -/
def bindingConfig (n : Name) (d : DocRequest) (mi : MemoryIndex) (p : Prog Ret) : Config :=
  { sh := { heap := [mi], indices := [(n, 0)], imu := { writer := some 0 } },
    calls := [{ op := .put n d, oracle := sampleOracle, prog := p }] }

theorem postings_steps (n : Name) (d : DocRequest) (next : Nat) (k : Unit → Prog Ret) :
    ∀ (toks : List Str) (mi : MemoryIndex), ∃ mi', mi'.name = mi.name ∧ mi'.docs = mi.docs ∧
      Steps cfg (bindingConfig n d mi ((Repo.putPostings 0 next toks).bind k)) (bindingConfig n d mi' (k ()))
  | [], mi => ⟨mi, rfl, rfl, .refl _⟩
  | tok :: toks, mi => by
    obtain ⟨mi', h1, h2, h3⟩ := postings_steps n d next k toks { mi with inverted := addPosting next mi.inverted tok }
    refine ⟨mi', h1, h2, steps_trans (.tail (.refl _) (.move 0 (TStep.act rfl rfl))) h3⟩

/-- The token loop of one call among others. -/
theorem postings_among {t : Tid} {op : Op} {o : Oracle} {p : Ptr} {next : Nat} {k : Unit → Prog Ret} :
    ∀ (toks : List Str) (s : Shared) (calls : List Thread) (mi : MemoryIndex), s.heap[p]? = some mi →
      calls[t]? = some ⟨op, o, (Repo.putPostings p next toks).bind k⟩ → ∃ mi', mi'.name = mi.name ∧ mi'.docs = mi.docs ∧
      Steps cfg ⟨s, calls⟩ ⟨{ s with heap := s.heap.set p mi' }, calls.set t ⟨op, o, k ()⟩⟩
  | [], s, calls, mi, hp, hc => ⟨mi, rfl, rfl, by
      have h1 : s.heap.set p mi = s.heap := by
        obtain ⟨hlt, rfl⟩ := List.getElem?_eq_some_iff.1 hp
        exact List.set_getElem_self hlt
      have h2 : calls.set t ⟨op, o, k ()⟩ = calls := by
        obtain ⟨hlt, he⟩ := List.getElem?_eq_some_iff.1 hc
        have he' : calls[t] = ⟨op, o, k ()⟩ := he
        rw [← he']
        exact List.set_getElem_self hlt
      rw [h1, h2]
      exact .refl _⟩
  | tok :: toks, s, calls, mi, hp, hc => by
    have hlt := (List.getElem?_eq_some_iff.1 hp).1
    have hlt' := (List.getElem?_eq_some_iff.1 hc).1
    have he : exec cfg o t (.postAdd p tok next) s
        = .ok () { s with heap := s.heap.set p { mi with inverted := addPosting next mi.inverted tok } } := by
      simp [exec, hp]
    obtain ⟨mi', h1, h2, h3⟩ := postings_among (t := t) (op := op) (o := o) (p := p) (next := next) (k := k) toks
      { s with heap := s.heap.set p { mi with inverted := addPosting next mi.inverted tok } }
      (calls.set t ⟨op, o, (Repo.putPostings p next toks).bind k⟩) { mi with inverted := addPosting next mi.inverted tok }
      (by simp [hlt]) (by simp [hlt'])
    refine ⟨mi', h1, h2, steps_trans (.tail (.refl _) (.move t (TStep.act (a := .postAdd p tok next) hc he))) ?_⟩
    simp only [List.set_set] at h3
    exact h3

/-- A first `Put` returns. -/
theorem bound_reachable (cfg : Cfg) (n : Name) (d : DocRequest) :
    ∃ mi, mi.name = n ∧ mi.docs = [newDoc d.id d.raw] ∧ ConcReachable cfg (boundConfig n d mi) := by
  have h1 : Config.init.play cfg ([callNow (.put n d)] ++ goes 0 11) = some (bindingConfig n d
      { name := n, docs := [newDoc d.id d.raw], inverted := [] }
      (((Repo.putPostings 0 0 (cfg.tok d.statement)).bind fun _ => perform (.unlock .indices)).bind fun _ => .ret .unit)) := by
    with_unfolding_all rfl
  have e : (((Repo.putPostings 0 0 (cfg.tok d.statement)).bind fun _ => perform (.unlock .indices)).bind fun _ => Prog.ret Ret.unit)
      = (Repo.putPostings 0 0 (cfg.tok d.statement)).bind fun _ => (perform (.unlock .indices)).bind fun _ => Prog.ret Ret.unit :=
    bind_assoc' _ _ _
  rw [e] at h1
  obtain ⟨mi, h2, h3, h4⟩ := postings_steps (cfg := cfg) n d 0 (fun _ => (perform (.unlock .indices)).bind fun _ => Prog.ret Ret.unit)
    (cfg.tok d.statement) { name := n, docs := [newDoc d.id d.raw], inverted := [] }
  exact ⟨mi, h2, h3, steps_trans (steps_trans (play_steps h1) h4)
    (play_steps (xs := [.go 0]) (c' := boundConfig n d mi) (by with_unfolding_all rfl))⟩

/-- Playing on from a reachable state. -/
theorem reach_play {c c' : Config} {xs : List Sched} (hr : ConcReachable cfg c) (h : c.play cfg xs = some c') : ConcReachable cfg c' :=
  steps_trans hr (play_steps h)

theorem reach_fact {α : Type} {c0 : Config} {xs : List Sched} {f : Config → α} {v : α}
    (hr : ConcReachable cfg c0) (h : (c0.play cfg xs).map f = some v) : ∃ c, ConcReachable cfg c ∧ f c = v := by
  obtain ⟨c, hc, hf⟩ := play_fact h
  exact ⟨c, steps_trans hr (play_steps hc), hf⟩

/-- `Put x` and `Alias al x`. -/
def aliasedConfig (al : Name) (mi : MemoryIndex) : Config :=
  { sh := { heap := [mi], indices := [(str "x", 0)], arrays := [[str "x"]], aliases := [(al, ⟨0, 1⟩)] },
    calls := (boundConfig (str "x") docD mi).calls ++
      [{ op := .alias al (str "x"), oracle := sampleOracle, prog := .ret (.bool true) }] }

/-- Then `Rename x x`. -/
def selfRenamedConfig (mi : MemoryIndex) : Config :=
  { sh := { heap := [mi], indices := [], arrays := [[str "x"]], aliases := [(str "al", ⟨0, 1⟩)] },
    calls := (aliasedConfig (str "al") mi).calls ++
      [{ op := .rename (str "x") (str "x"), oracle := sampleOracle, prog := .ret (.bool true) }] }

/-- Or `ListAliases`. -/
def listedConfig (mi : MemoryIndex) : Config :=
  { (aliasedConfig (str "al") mi) with calls := (aliasedConfig (str "al") mi).calls ++
      [{ op := .listAliases, oracle := sampleOracle, prog := .ret (.rows [(str "al", ⟨0, 1⟩)]) }] }

/-- `Put x`, `Alias a x`, `Alias b x`. -/
def twoAliasesConfig (mi : MemoryIndex) : Config :=
  { sh := { heap := [mi], indices := [(str "x", 0)], arrays := [[str "x"], [str "x"]],
            aliases := [(str "a", ⟨0, 1⟩), (str "b", ⟨1, 1⟩)] },
    calls := (aliasedConfig (str "a") mi).calls ++
      [{ op := .alias (str "b") (str "x"), oracle := sampleOracle, prog := .ret (.bool true) }] }

/-- Then `ListAliases`. -/
def twoListedConfig (mi : MemoryIndex) : Config :=
  { (twoAliasesConfig mi) with calls := (twoAliasesConfig mi).calls ++
      [{ op := .listAliases, oracle := sampleOracle, prog := .ret (.rows [(str "a", ⟨0, 1⟩), (str "b", ⟨1, 1⟩)]) }] }

theorem aliased_play (cfg : Cfg) (mi : MemoryIndex) :
    (boundConfig (str "x") docD mi).play cfg ([callNow (.alias (str "al") (str "x"))] ++ goes 1 9) = some (aliasedConfig (str "al") mi) := by
  with_unfolding_all rfl

theorem aliasedA_play (cfg : Cfg) (mi : MemoryIndex) :
    (boundConfig (str "x") docD mi).play cfg ([callNow (.alias (str "a") (str "x"))] ++ goes 1 9) = some (aliasedConfig (str "a") mi) := by
  with_unfolding_all rfl

theorem selfRenamed_play (cfg : Cfg) (mi : MemoryIndex) :
    (aliasedConfig (str "al") mi).play cfg ([callNow (.rename (str "x") (str "x"))] ++ goes 2 10) = some (selfRenamedConfig mi) := by
  with_unfolding_all rfl

theorem listed_play (cfg : Cfg) (mi : MemoryIndex) :
    (aliasedConfig (str "al") mi).play cfg ([callNow .listAliases] ++ goes 2 4) = some (listedConfig mi) := by
  with_unfolding_all rfl

theorem twoAliases_play (cfg : Cfg) (mi : MemoryIndex) :
    (aliasedConfig (str "a") mi).play cfg ([callNow (.alias (str "b") (str "x"))] ++ goes 2 9) = some (twoAliasesConfig mi) := by
  with_unfolding_all rfl

theorem twoListed_play (cfg : Cfg) (mi : MemoryIndex) :
    (twoAliasesConfig mi).play cfg ([callNow .listAliases] ++ goes 3 5) = some (twoListedConfig mi) := by
  with_unfolding_all rfl

/-- The rest of a `Put` that has found no index. -/
def creating (cfg : Cfg) (n : Name) (d : DocRequest) : Prog Ret :=
  (do
    Repo.lock .indices
    let p ← perform (.newIndex n)
    perform (.idxSet n p)
    Repo.putIndex cfg p d
    perform (.unlock .indices)).bind fun _ => .ret .unit

/-- The rest of a `Put` in the token loop. -/
def filing (p : Ptr) (toks : List Str) : Prog Ret :=
  (Repo.putPostings p 0 toks).bind fun _ => (perform (.unlock .indices)).bind fun _ => Prog.ret Ret.unit

/-- The state after two `Put`s of a new name that have both found no index. -/
def twiceConfig (n : Name) (d e : DocRequest) (mi mi' : MemoryIndex) : Config :=
  { sh := { heap := [mi, mi'], indices := [(n, 1)] },
    calls := [⟨.put n d, sampleOracle, .ret .unit⟩, ⟨.put n e, sampleOracle, .ret .unit⟩] }

/-- The second `Put` runs when the first has found no index. -/
theorem twice_reachable (cfg : Cfg) (d e : DocRequest) : ∃ mi mi', mi.docs = [newDoc e.id e.raw] ∧ mi'.docs = [newDoc d.id d.raw] ∧
    ConcReachable cfg (twiceConfig (str "x") d e mi mi') := by
  have assoc : ∀ (p : Ptr) toks, ((Repo.putPostings p 0 toks).bind fun _ => perform (.unlock .indices)).bind
      (fun _ => Prog.ret Ret.unit) = filing p toks := fun p toks => bind_assoc' _ _ _
  have h0 : Config.init.play cfg ([callNow (.put (str "x") d)] ++ goes 0 6) = some
      { sh := {}, calls := [⟨.put (str "x") d, sampleOracle, creating cfg (str "x") d⟩] } := by
    with_unfolding_all rfl
  have h0' : Config.play cfg { sh := {}, calls := [⟨.put (str "x") d, sampleOracle, creating cfg (str "x") d⟩] }
      ([callNow (.put (str "x") e)] ++ goes 1 6) = some
      { sh := {}, calls := [⟨.put (str "x") d, sampleOracle, creating cfg (str "x") d⟩, ⟨.put (str "x") e, sampleOracle, creating cfg (str "x") e⟩] } := by
    with_unfolding_all rfl
  have h1 : Config.play cfg
      { sh := {}, calls := [⟨.put (str "x") d, sampleOracle, creating cfg (str "x") d⟩, ⟨.put (str "x") e, sampleOracle, creating cfg (str "x") e⟩] }
      (goes 1 5) = some
      { sh := { heap := [⟨str "x", [newDoc e.id e.raw], []⟩], indices := [(str "x", 0)], imu := { writer := some 1 } },
        calls := [⟨.put (str "x") d, sampleOracle, creating cfg (str "x") d⟩, ⟨.put (str "x") e, sampleOracle,
          ((Repo.putPostings 0 0 (cfg.tok e.statement)).bind fun _ => perform (.unlock .indices)).bind fun _ => Prog.ret Ret.unit⟩] } := by
    with_unfolding_all rfl
  rw [assoc] at h1
  obtain ⟨mi, -, d1, s1⟩ := postings_among (cfg := cfg) (t := 1) (op := .put (str "x") e) (o := sampleOracle) (p := 0) (next := 0)
    (k := fun _ => (perform (.unlock .indices)).bind fun _ => Prog.ret Ret.unit) (cfg.tok e.statement)
    { heap := [⟨str "x", [newDoc e.id e.raw], []⟩], indices := [(str "x", 0)], imu := { writer := some 1 } }
    [⟨.put (str "x") d, sampleOracle, creating cfg (str "x") d⟩, ⟨.put (str "x") e, sampleOracle, filing 0 (cfg.tok e.statement)⟩] _ rfl rfl
  have h2 : Config.play cfg
      { sh := { heap := [mi], indices := [(str "x", 0)], imu := { writer := some 1 } },
        calls := [⟨.put (str "x") d, sampleOracle, creating cfg (str "x") d⟩, ⟨.put (str "x") e, sampleOracle,
          (perform (.unlock .indices)).bind fun _ => Prog.ret Ret.unit⟩] } (goes 1 1 ++ goes 0 5) = some
      { sh := { heap := [mi, ⟨str "x", [newDoc d.id d.raw], []⟩], indices := [(str "x", 1)], imu := { writer := some 0 } },
        calls := [⟨.put (str "x") d, sampleOracle,
          ((Repo.putPostings 1 0 (cfg.tok d.statement)).bind fun _ => perform (.unlock .indices)).bind fun _ => Prog.ret Ret.unit⟩,
          ⟨.put (str "x") e, sampleOracle, .ret .unit⟩] } := by
    with_unfolding_all rfl
  rw [assoc] at h2
  obtain ⟨mi', -, d2, s2⟩ := postings_among (cfg := cfg) (t := 0) (op := .put (str "x") d) (o := sampleOracle) (p := 1) (next := 0)
    (k := fun _ => (perform (.unlock .indices)).bind fun _ => Prog.ret Ret.unit) (cfg.tok d.statement)
    { heap := [mi, ⟨str "x", [newDoc d.id d.raw], []⟩], indices := [(str "x", 1)], imu := { writer := some 0 } }
    [⟨.put (str "x") d, sampleOracle, filing 1 (cfg.tok d.statement)⟩, ⟨.put (str "x") e, sampleOracle, .ret .unit⟩] _ rfl rfl
  have h3 : Config.play cfg
      { sh := { heap := [mi, mi'], indices := [(str "x", 1)], imu := { writer := some 0 } },
        calls := [⟨.put (str "x") d, sampleOracle, (perform (.unlock .indices)).bind fun _ => Prog.ret Ret.unit⟩,
          ⟨.put (str "x") e, sampleOracle, .ret .unit⟩] } (goes 0 1) = some (twiceConfig (str "x") d e mi mi') := by
    with_unfolding_all rfl
  exact ⟨mi, mi', d1, d2, steps_trans (steps_trans (steps_trans (steps_trans (steps_trans (play_steps h0)
    (steps_trans (play_steps h0') (play_steps h1))) s1) (play_steps h2)) s2) (play_steps h3)⟩

/-- The rest of a `Drop` that has found its index. -/
def dropping (n : Name) : Prog Ret :=
  (do
    Repo.lock .indices
    Repo.lock .aliases
    let ks ← perform .alKeys
    Repo.dropAliases n ks
    perform (.idxDel n)
    perform (.unlock .indices)
    perform (.unlock .aliases)
    return true).bind fun b => .ret (.bool b)

/-- `Put x`, then two calls. -/
def thenTwo (mi : MemoryIndex) (indices : GoMap Name Ptr) (op op' : Op) (p p' : Prog Ret) : Config :=
  { sh := { heap := [mi], indices := indices },
    calls := (boundConfig (str "x") docD mi).calls ++ [⟨op, sampleOracle, p⟩, ⟨op', sampleOracle, p'⟩] }

/-- Two `Drop`s that both find the index. -/
theorem drops_steps (cfg : Cfg) (mi : MemoryIndex) : Steps cfg (boundConfig (str "x") docD mi)
    (thenTwo mi [] (.drop (str "x")) (.drop (str "x")) (.ret (.bool true)) (.ret (.bool true))) := by
  have h1 : (boundConfig (str "x") docD mi).play cfg ([callNow (.drop (str "x"))] ++ goes 1 3 ++ [callNow (.drop (str "x"))] ++ goes 2 3)
      = some (thenTwo mi [(str "x", 0)] (.drop (str "x")) (.drop (str "x")) (dropping (str "x")) (dropping (str "x"))) := by
    with_unfolding_all rfl
  have h2 : (thenTwo mi [(str "x", 0)] (.drop (str "x")) (.drop (str "x")) (dropping (str "x")) (dropping (str "x"))).play cfg (goes 1 8)
      = some (thenTwo mi [] (.drop (str "x")) (.drop (str "x")) (.ret (.bool true)) (dropping (str "x"))) := by
    with_unfolding_all rfl
  have h3 : (thenTwo mi [] (.drop (str "x")) (.drop (str "x")) (.ret (.bool true)) (dropping (str "x"))).play cfg (goes 2 8)
      = some (thenTwo mi [] (.drop (str "x")) (.drop (str "x")) (.ret (.bool true)) (.ret (.bool true))) := by
    with_unfolding_all rfl
  exact steps_trans (play_steps h1) (steps_trans (play_steps h2) (play_steps h3))

/-- A `Drop` that has found its index, and a `Rename` of it. -/
theorem dropRename_steps (cfg : Cfg) (mi : MemoryIndex) : Steps cfg (boundConfig (str "x") docD mi)
    (thenTwo mi [(str "y", 0)] (.drop (str "x")) (.rename (str "x") (str "y")) (.ret (.bool true)) (.ret (.bool true))) := by
  have h1 : (boundConfig (str "x") docD mi).play cfg ([callNow (.drop (str "x"))] ++ goes 1 3 ++
        [callNow (.rename (str "x") (str "y"))] ++ goes 2 7)
      = some (thenTwo mi [(str "y", 0)] (.drop (str "x")) (.rename (str "x") (str "y")) (dropping (str "x")) (.ret (.bool true))) := by
    with_unfolding_all rfl
  have h2 : (thenTwo mi [(str "y", 0)] (.drop (str "x")) (.rename (str "x") (str "y")) (dropping (str "x")) (.ret (.bool true))).play cfg (goes 1 8)
      = some (thenTwo mi [(str "y", 0)] (.drop (str "x")) (.rename (str "x") (str "y")) (.ret (.bool true)) (.ret (.bool true))) := by
    with_unfolding_all rfl
  exact steps_trans (play_steps h1) (play_steps h2)

/-- The rest of an `UnAlias` that has found its index. -/
def unaliasing (al index : Name) : Prog Ret :=
  (do
    Repo.lock .aliases
    match ← perform (.alGet al) with
    | none => return false
    | some indices =>
      let xs ← Repo.readSlice indices
      let newIndices := xs.filter (fun x => x ≠ index)
      if newIndices.length ≠ indices.len then
        let r ← perform (.slNew newIndices)
        perform (.alSet al r)
      perform (.unlock .aliases)
      return true).bind fun b => .ret (.bool b)

/-- `Put x`, `Alias al x`, then an `UnAlias` and a `Rename`. -/
def thenMoved (mi : MemoryIndex) (n : Name) (p : Prog Ret) (rest : List Thread) : Config :=
  { sh := { heap := [mi], indices := [(n, 0)], arrays := [[n]], aliases := [(str "al", ⟨0, 1⟩)] },
    calls := (aliasedConfig (str "al") mi).calls ++ [⟨.unAlias (str "al") (str "x"), sampleOracle, p⟩] ++ rest }

/-- An `UnAlias` that has found its index, and a `Rename` of it. -/
theorem moved_steps (cfg : Cfg) (mi : MemoryIndex) : Steps cfg (aliasedConfig (str "al") mi)
    (thenMoved mi (str "y") (.ret (.bool true)) [⟨.rename (str "x") (str "y"), sampleOracle, .ret (.bool true)⟩]) := by
  have h1 : (aliasedConfig (str "al") mi).play cfg ([callNow (.unAlias (str "al") (str "x"))] ++ goes 2 3)
      = some (thenMoved mi (str "x") (unaliasing (str "al") (str "x")) []) := by
    with_unfolding_all rfl
  have h2 : (thenMoved mi (str "x") (unaliasing (str "al") (str "x")) []).play cfg ([callNow (.rename (str "x") (str "y"))] ++ goes 3 10)
      = some (thenMoved mi (str "y") (unaliasing (str "al") (str "x")) [⟨.rename (str "x") (str "y"), sampleOracle, .ret (.bool true)⟩]) := by
    with_unfolding_all rfl
  have h3 : (thenMoved mi (str "y") (unaliasing (str "al") (str "x")) [⟨.rename (str "x") (str "y"), sampleOracle, .ret (.bool true)⟩]).play cfg (goes 2 5)
      = some (thenMoved mi (str "y") (.ret (.bool true)) [⟨.rename (str "x") (str "y"), sampleOracle, .ret (.bool true)⟩]) := by
    with_unfolding_all rfl
  exact steps_trans (play_steps h1) (steps_trans (play_steps h2) (play_steps h3))

/-- `Put x`, `Put y`, and more calls. -/
def twoBound (mi mi' : MemoryIndex) (indices : GoMap Name Ptr) (arrays : List (List Name)) (aliases : GoMap Name SliceRef)
    (imu : RW) (p : Prog Ret) (rest : List Thread) : Config :=
  { sh := { heap := [mi, mi'], indices := indices, arrays := arrays, aliases := aliases, imu := imu },
    calls := (boundConfig (str "x") docD mi).calls ++ [⟨.put (str "y") docE, sampleOracle, p⟩] ++ rest }

/-- The second `Put` returns. -/
theorem twoBound_reachable (cfg : Cfg) : ∃ mi mi', ConcReachable cfg
    (twoBound mi mi' [(str "x", 0), (str "y", 1)] [] [] {} (.ret .unit) []) := by
  obtain ⟨mi, -, -, hr⟩ := bound_reachable cfg (str "x") docD
  have h0 : (boundConfig (str "x") docD mi).play cfg ([callNow (.put (str "y") docE)] ++ goes 1 6) = some
      { (boundConfig (str "x") docD mi) with calls := (boundConfig (str "x") docD mi).calls ++
        [⟨.put (str "y") docE, sampleOracle, creating cfg (str "y") docE⟩] } := by
    with_unfolding_all rfl
  have h1 : Config.play cfg { (boundConfig (str "x") docD mi) with calls := (boundConfig (str "x") docD mi).calls ++
        [⟨.put (str "y") docE, sampleOracle, creating cfg (str "y") docE⟩] } (goes 1 5) = some
      (twoBound mi ⟨str "y", [newDoc docE.id docE.raw], []⟩ [(str "x", 0), (str "y", 1)] [] [] { writer := some 1 }
        (((Repo.putPostings 1 0 (cfg.tok docE.statement)).bind fun _ => perform (.unlock .indices)).bind fun _ => Prog.ret Ret.unit) []) := by
    with_unfolding_all rfl
  rw [show ((Repo.putPostings 1 0 (cfg.tok docE.statement)).bind fun _ => perform (.unlock .indices)).bind
      (fun _ => Prog.ret Ret.unit) = filing 1 (cfg.tok docE.statement) from bind_assoc' _ _ _] at h1
  obtain ⟨mi', -, -, s1⟩ := postings_among (cfg := cfg) (t := 1) (op := .put (str "y") docE) (o := sampleOracle) (p := 1) (next := 0)
    (k := fun _ => (perform (.unlock .indices)).bind fun _ => Prog.ret Ret.unit) (cfg.tok docE.statement)
    (twoBound mi ⟨str "y", [newDoc docE.id docE.raw], []⟩ [(str "x", 0), (str "y", 1)] [] [] { writer := some 1 }
      (filing 1 (cfg.tok docE.statement)) []).sh
    (twoBound mi ⟨str "y", [newDoc docE.id docE.raw], []⟩ [(str "x", 0), (str "y", 1)] [] [] { writer := some 1 }
      (filing 1 (cfg.tok docE.statement)) []).calls _ rfl rfl
  have h2 : (twoBound mi mi' [(str "x", 0), (str "y", 1)] [] [] { writer := some 1 }
      ((perform (.unlock .indices)).bind fun _ => Prog.ret Ret.unit) []).play cfg (goes 1 1)
      = some (twoBound mi mi' [(str "x", 0), (str "y", 1)] [] [] {} (.ret .unit) []) := by
    with_unfolding_all rfl
  exact ⟨mi, mi', steps_trans (reach_play (reach_play hr h0) h1) (steps_trans s1 (play_steps h2))⟩

/-- Two indices, an alias of both, and a `Rename` of one to the other: a `Put` through the alias would write one index
from two goroutines. -/
theorem race_reachable (cfg : Cfg) : ∃ c, ConcReachable cfg c ∧ c.calls.map (·.op) = [.put (str "x") docD,
    .put (str "y") docE, .alias (str "a") (str "x"), .alias (str "a") (str "y"), .rename (str "x") (str "y"), .put (str "a") docD] ∧
    ∃ x, c.calls[5]? = some x ∧ x.prog = .crash .race := by
  obtain ⟨mi, mi', hr⟩ := twoBound_reachable cfg
  let r1 : List Thread := [⟨.alias (str "a") (str "x"), sampleOracle, .ret (.bool true)⟩]
  let r2 : List Thread := r1 ++ [⟨.alias (str "a") (str "y"), sampleOracle, .ret (.bool true)⟩]
  let r3 : List Thread := r2 ++ [⟨.rename (str "x") (str "y"), sampleOracle, .ret (.bool true)⟩]
  let r4 : List Thread := r3 ++ [⟨.put (str "a") docD, sampleOracle, .crash .race⟩]
  have h1 : (twoBound mi mi' [(str "x", 0), (str "y", 1)] [] [] {} (.ret .unit) []).play cfg
      ([callNow (.alias (str "a") (str "x"))] ++ goes 2 9)
      = some (twoBound mi mi' [(str "x", 0), (str "y", 1)] [[str "x"]] [(str "a", ⟨0, 1⟩)] {} (.ret .unit) r1) := by
    with_unfolding_all rfl
  have h2 : (twoBound mi mi' [(str "x", 0), (str "y", 1)] [[str "x"]] [(str "a", ⟨0, 1⟩)] {} (.ret .unit) r1).play cfg
      ([callNow (.alias (str "a") (str "y"))] ++ goes 3 10)
      = some (twoBound mi mi' [(str "x", 0), (str "y", 1)] [[str "x"], [str "x", str "y"]] [(str "a", ⟨1, 2⟩)] {} (.ret .unit) r2) := by
    with_unfolding_all rfl
  have h3 : (twoBound mi mi' [(str "x", 0), (str "y", 1)] [[str "x"], [str "x", str "y"]] [(str "a", ⟨1, 2⟩)] {} (.ret .unit) r2).play cfg
      ([callNow (.rename (str "x") (str "y"))] ++ goes 4 11)
      = some (twoBound mi mi' [(str "y", 0)] [[str "x"], [str "y", str "y"]] [(str "a", ⟨1, 2⟩)] {} (.ret .unit) r3) := by
    with_unfolding_all rfl
  let p : Prog Ret := (do
    Repo.lock .indices
    Repo.putTargets cfg [some 0, some 0] docD
    perform (.unlock .indices)).bind fun _ => .ret .unit
  have h4 : (twoBound mi mi' [(str "y", 0)] [[str "x"], [str "y", str "y"]] [(str "a", ⟨1, 2⟩)] {} (.ret .unit) r3).play cfg
      ([callNow (.put (str "a") docD)] ++ goes 5 10)
      = some (twoBound mi mi' [(str "y", 0)] [[str "x"], [str "y", str "y"]] [(str "a", ⟨1, 2⟩)] {} (.ret .unit)
        (r3 ++ [⟨.put (str "a") docD, sampleOracle, p⟩])) := by
    with_unfolding_all rfl
  have h5 : (twoBound mi mi' [(str "y", 0)] [[str "x"], [str "y", str "y"]] [(str "a", ⟨1, 2⟩)] {} (.ret .unit)
        (r3 ++ [⟨.put (str "a") docD, sampleOracle, p⟩])).play cfg (goes 5 2)
      = some (twoBound mi mi' [(str "y", 0)] [[str "x"], [str "y", str "y"]] [(str "a", ⟨1, 2⟩)] { writer := some 5 } (.ret .unit) r4) := by
    with_unfolding_all rfl
  exact ⟨_, reach_play (reach_play (reach_play (reach_play (reach_play hr h1) h2) h3) h4) h5, rfl, _, rfl, rfl⟩

end Visigoth
