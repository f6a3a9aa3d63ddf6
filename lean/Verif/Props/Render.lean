import Verif.Proofs.Labels
import Verif.Props.ConcData
/-!
# The textual form of indices and repositories (C63–C65)
-/
namespace Visigoth

variable {cfg : Cfg} {s : Shared} {a : SpecState}

/-! ## C63 -/

/-- The text of an index shows its name and every token once with exactly the positions of the
documents that contain it, whatever the order of map iteration. -/
theorem C63_string_shows_index (tok : Tokenizer) (name : Str) (rs : List DocRequest) (order : List Str → List Str)
    (ho : ∀ l, (order l).Perm l) : Renders tok name rs ((buildIndex tok name rs).string order) :=
  string_renders tok name rs order ho

/-- Two renderings of an index differ only in the order of the lines, one per token. -/
theorem C63_only_order_varies (mi : MemoryIndex) (order order' : List Str → List Str)
    (ho : ∀ l, (order l).Perm l) (ho' : ∀ l, (order' l).Perm l) :
    ∃ lines lines' : List Str, lines.Perm lines' ∧ lines.length = mi.inverted.keys.length ∧
      mi.string order = str "{\n\tname=" ++ mi.name ++ lines.flatten ++ str "\n}" ∧
      mi.string order' = str "{\n\tname=" ++ mi.name ++ lines'.flatten ++ str "\n}" := by
  refine ⟨_, _, (((ho mi.inverted.keys).trans (ho' mi.inverted.keys).symm).map
    fun token => fmtEntry token ((mi.inverted.get token).getD [])), ?_, ?_, ?_⟩
  · rw [List.length_map, (ho _).length_eq]
  all_goals
    unfold MemoryIndex.string
    rw [show str "{\n\tname=" = lit "{\n" ++ lit "\tname=" by decide +kernel, show str "\n}" = lit "\n}" by decide +kernel,
      List.flatMap_def]
    simp only [List.append_assoc]

/-- An index without documents. -/
theorem C63_empty_index (name : Str) (order : List Str → List Str) (ho : ∀ l, (order l).Perm l) :
    (newMemoryIndex name).string order = str "{\n\tname=" ++ name ++ str "\n}" := by
  have : order (newMemoryIndex name).inverted.keys = [] := (ho _).eq_nil
  unfold MemoryIndex.string
  rw [this, show str "{\n\tname=" = lit "{\n" ++ lit "\tname=" by decide +kernel, show str "\n}" = lit "\n}" by decide +kernel]
  simp [newMemoryIndex]

/-- Three documents, two tokens. -/
def renderDocs : List DocRequest :=
  [newDocRequest (str "a") (str "go java"), newDocRequest (str "b") (str "java"), newDocRequest (str "c") (str "go")]

example : (buildIndex spaceTok (str "books") renderDocs).string id
    = str "{\n\tname=books\n\t[token=go,length=(2)]=[0 2]\n\t[token=java,length=(2)]=[0 1]\n}" := by decide +kernel

example : (buildIndex spaceTok (str "books") renderDocs).string List.reverse
    = str "{\n\tname=books\n\t[token=java,length=(2)]=[0 1]\n\t[token=go,length=(2)]=[0 2]\n}" := by decide +kernel

/-- A number of two digits. -/
example : IsDecimal (str "40") 40 ∧ ¬ IsDecimal (str "040") 40 ∧ ¬ IsDecimal (str "4") 40 := by
  unfold IsDecimal; decide +kernel

/-! ## C64 -/

/-- The text of the repository: under the read lock, every index once, each followed by a newline,
with the name its object carries. -/
theorem run_string (h : Abs cfg s a) (o : Oracle) (t : Tid) :
    ∃ (order : List Name) (parts : List Str), order.Nodup ∧ (∀ n, n ∈ order ↔ (a.docs n).isSome) ∧
      parts.length = order.length ∧ run cfg o t (Op.prog cfg .string) s = .ok (.text parts.flatten) s ∧
      ∀ (i : Nat) n part, order[i]? = some n → parts[i]? = some part →
        ∃ rs label p, a.docs n = some rs ∧ s.indices.get n = some p ∧ Carries s.heap p label ∧
          RendersLine cfg.tok label rs part := by
  obtain ⟨idx, al, view, imuR, imuW, amuR, amuW⟩ := h
  have hp := choosePerm_perm o.keyOrder s.indices.keys
  have hf : ∀ k ∈ choosePerm o.keyOrder s.indices.keys, ∃ rs nm, s.indices.get k = some (s.ptrAt k) ∧
      s.heap[s.ptrAt k]? = some (s.objAt k) ∧ a.docs k = some rs ∧ s.objAt k = buildIndex cfg.tok nm rs := by
    intro k hk
    obtain ⟨p, hg⟩ := (GoMap.mem_keys_iff _ _).1 (hp.mem_iff.1 hk)
    obtain ⟨nm, rs, h1, h2⟩ := idx.rep k p hg
    have hpt := s.ptrAt_eq hg
    have hob := s.objAt_eq hg h2
    exact ⟨rs, nm, hpt ▸ hg, by rw [hob, hpt]; exact h2, h1, hob⟩
  refine ⟨choosePerm o.keyOrder s.indices.keys,
    (choosePerm o.keyOrder s.indices.keys).map fun k =>
      (s.objAt k).string (choosePerm (o.tokenOrder (s.ptrAt k))) ++ lit "\n",
    hp.nodup_iff.2 idx.nodup, fun n => ?_, by simp, ?_, ?_⟩
  · rw [hp.mem_iff, GoMap.mem_keys_iff, ← idx.isSome, Option.isSome_iff_exists]
  · simp only [Op.prog, Repo.string, run_bind, run_rlock .indices s imuW, andThen_ok]
    rw [run_perform]
    simp only [exec, Exec.outcome, andThen_ok, Shared.setMu, Shared.mu]
    rw [run_renderAll _ s.ptrAt s.objAt _ (fun k hk => by
      obtain ⟨rs, nm, h1, h2, -⟩ := hf k hk
      exact ⟨h1, h2⟩)]
    simp only [andThen_ok]
    rw [run_runlock .indices _ s.imu.readers rfl]
    simp only [andThen_ok, run_pure, Shared.setMu, Shared.mu]
  · intro i n part hn hpart
    rw [List.getElem?_map, hn] at hpart
    cases hpart
    obtain ⟨rs, nm, h1, h2, h3, h4⟩ := hf n (List.mem_of_getElem? hn)
    refine ⟨rs, nm, s.ptrAt n, h3, h1, ⟨_, h2, by rw [h4, buildIndex_name]⟩, _, ?_, by rw [show str "\n" = lit "\n" by decide +kernel]⟩
    rw [h4]
    exact string_renders _ _ _ _ (choosePerm_perm _)

/-- `String` always returns, changes nothing, and shows every existing index exactly once and with
exactly its documents. -/
theorem C64_string_shows_every_index (h : Abs cfg s a) (o : Oracle) (t : Tid) :
    ∃ (order : List Name) (parts : List Str), order.Nodup ∧ (∀ n, n ∈ order ↔ (a.docs n).isSome) ∧
      parts.length = order.length ∧ run cfg o t (Op.prog cfg .string) s = .ok (.text parts.flatten) s ∧
      ∀ (i : Nat) n part, order[i]? = some n → parts[i]? = some part →
        ∃ rs label, a.docs n = some rs ∧ RendersLine cfg.tok label rs part := by
  obtain ⟨order, parts, h1, h2, h3, h4, h5⟩ := run_string h o t
  refine ⟨order, parts, h1, h2, h3, h4, fun i n part hn hp => ?_⟩
  obtain ⟨rs, label, _, g1, _, _, g4⟩ := h5 i n part hn hp
  exact ⟨rs, label, g1, g4⟩

/-- The same in terms of calls only: after any completed calls `String` returns and leaves the
repository as it is, even if earlier calls leaked locks. -/
theorem C64_string_always_returns (hr : Reachable cfg s) (o : Oracle) (t : Tid) :
    ∃ text, run cfg o t (Op.prog cfg .string) s = .ok (.text text) s := by
  obtain ⟨a, h⟩ := hr.abs
  obtain ⟨_, _, _, _, _, h4, _⟩ := run_string h o t
  exact ⟨_, h4⟩

/-- Whenever a `String` call is about to render an index, in any execution of any number of concurrent
calls, that index is the result of a whole number of complete `Put`s, at least one. -/
theorem C64_string_sees_whole_puts {c : Config} (hr : ConcReachable cfg c) {t : Tid} {x : Thread}
    (hx : c.calls[t]? = some x) {p : Ptr} {k : Str → Prog Ret} (hp : x.prog = .act (.render p) k) :
    ∃ nm rs, c.sh.heap[p]? = some (buildIndex cfg.tok nm rs) ∧
      (∀ r ∈ rs, ∃ y ∈ c.calls, ∃ n, y.op = .put n r) ∧ rs ≠ [] := by
  obtain ⟨H, i, w⟩ := whole_reachable (P := fun r => ∃ y ∈ c.calls, ∃ n, y.op = .put n r) hr (by
    intro x hx d hd
    refine ⟨x, hx, ?_⟩
    cases hop : x.op <;> rw [hop] at hd <;> simp only [Op.puts, reduceCtorEq, Option.some.injEq] at hd
    subst hd
    exact ⟨_, rfl⟩)
  have hk := w.knows t x hx
  have hg := i.good t x hx
  rw [hp] at hk hg
  unfold Knows at hk
  split at hk
  · exact absurd hk id
  · next hnw =>
    obtain ⟨n, hn, h2⟩ := hk
    have hlt : p < c.sh.heap.length := Nat.lt_of_lt_of_le h2.1 hn
    have hok := w.ok fun u hu => by
      by_cases hut : u = t
      · subst hut; exact hnw hu
      · have h1 := link_excl i.link hut .indices (by simp [Held.get, hu, Mode.excl])
        have h2 : (H t).imu.shared = true := by
          cases hop : x.op.isRename with
          | false => exact ((hg.1 hop).1).2.1 .indices rfl
          | true => exact ((hg.2 (by cases h : x.op <;> rw [h] at hop <;> first | rfl | cases hop)).1).2.1 .indices rfl
        simp only [Held.get] at h1
        rw [h1] at h2
        cases h2
    obtain ⟨nm, rs, h3, h4⟩ := hok _ (List.getElem_mem hlt)
    exact ⟨nm, rs, by rw [List.getElem?_eq_getElem hlt, h3], h4⟩

example : returned [.put (str "x") docD, .put (str "y") docE, .string] =
    some [.unit, .unit, .text (str "{\n\tname=x\n\t[token=java,length=(1)]=[0]\n}\n{\n\tname=y\n\t[token=go,length=(1)]=[0]\n}\n")] := by
  decide +kernel

/-- An `UnAlias` that leaked both locks does not stop `String`. -/
example : returned [.put (str "x") docD, .unAlias (str "nope") (str "x"), .string] =
    some [.unit, .bool false, .text (str "{\n\tname=x\n\t[token=java,length=(1)]=[0]\n}\n")] := by decide +kernel

/-- The index a call is about to render. -/
def Thread.renders (x : Thread) : Option Ptr :=
  match x.prog with
  | .act (.render p) _ => some p
  | _ => none

/-- One completed `Put`, a second that waits, and a `String` about to render. -/
example : ((Config.init.play sampleCfg
    ([callNow (.put (str "x") docD)] ++ goes 0 13 ++ [callNow (.put (str "x") docD)] ++ goes 1 3 ++ [callNow .string] ++ goes 2 3
      ++ goes 1 1)).bind fun c => (c.calls[2]?).bind Thread.renders) = some 0 := by decide +kernel

/-! ## C65 -/

theorem run_carries {α : Type} {o : Oracle} {t : Tid} {q : Prog α} : ∀ {s s' : Shared} {r : α}, run cfg o t q s = .ok r s' →
    ∀ {p : Ptr} {n : Name}, Carries s.heap p n → Carries s'.heap p n := by
  induction q with
  | ret a => intro s s' r h p n hc; cases h; exact hc
  | crash e => intro s s' r h; cases h
  | act a k ih =>
    intro s s' r h p n hc
    simp only [run] at h
    split at h
    · next b s1 he => exact ih b h (exec_carries he hc)
    · cases h
    · cases h

theorem has_iff (h : Abs cfg s a) (n : Name) :
    (a.docs n).isSome = true ↔ ∃ o' t', run cfg o' t' (Op.prog cfg (.has n)) s = .ok (.bool true) s := by
  constructor
  · intro hd
    obtain ⟨r, s', h1, h2, _, h6⟩ := step_completes (op := .has n) sampleOracle 0 h id (fun _ => id)
    have := h6.2 rfl; subst this
    have h2' : r.view s' = .bool (a.docs n).isSome := h2
    cases r <;> simp only [Ret.view, SRet.bool.injEq, reduceCtorEq] at h2'
    subst h2'
    rw [hd] at h1
    exact ⟨_, _, h1⟩
  · rintro ⟨o', t', hr⟩
    have h2 : SRet.bool true = .bool (a.docs n).isSome := (step_ok h hr).2.2.1
    injection h2 with h2
    exact h2.symm

/-!
Full statement: every index is shown under the name it is found by.  It is false: `Rename` binds the
new name to the object, whose own name it does not change. -/

/-- The text shows an index under the name its object was made with, whatever it is called now. -/
theorem C65_shown_under_name_of_object (h : Abs cfg s a) (o : Oracle) (t : Tid) :
    ∃ (order : List Name) (parts : List Str), order.Nodup ∧ (∀ n, n ∈ order ↔ (a.docs n).isSome) ∧
      parts.length = order.length ∧ run cfg o t (Op.prog cfg .string) s = .ok (.text parts.flatten) s ∧
      ∀ (i : Nat) n part, order[i]? = some n → parts[i]? = some part →
        ∃ rs label p, a.docs n = some rs ∧ s.indices.get n = some p ∧ Carries s.heap p label ∧
          RendersLine cfg.tok label rs part :=
  run_string h o t

/-- Every index is shown under the name `Has` finds it by. -/
def ShownUnderOwnName (cfg : Cfg) : Prop :=
  ∀ (cs : List Call) (rets : List SRet) (s : Shared), runCalls cfg cs newIndexRepo = .ok rets s → ∀ (o : Oracle) (t : Tid),
    ∃ (order : List Name) (parts : List Str), order.Nodup ∧
      (∀ n, n ∈ order ↔ ∃ o' t', run cfg o' t' (Op.prog cfg (.has n)) s = .ok (.bool true) s) ∧
      parts.length = order.length ∧ run cfg o t (Op.prog cfg .string) s = .ok (.text parts.flatten) s ∧
      ∀ (i : Nat) n part, order[i]? = some n → parts[i]? = some part → ∃ rs, RendersLine cfg.tok n rs part

/-- After `Put(x, d); Rename(x, y)` the only index is `y`, and the text says `name=x`. -/
theorem C65_refuted : ¬ ShownUnderOwnName sampleCfg := by
  intro hall
  let ops : List Op := [.put (str "x") docD, .rename (str "x") (str "y")]
  obtain ⟨rets, s, hrun⟩ : ∃ rets s, runCalls sampleCfg (calls ops) newIndexRepo = .ok rets s := by
    cases h : runCalls sampleCfg (calls ops) newIndexRepo with
    | ok rets s => exact ⟨rets, s, rfl⟩
    | hang s => have : getsStuck ops = false := by decide +kernel
                unfold getsStuck at this; rw [h] at this; cases this
    | crash c => have : crashesWith ops = none := by decide +kernel
                 unfold crashesWith at this; rw [h] at this; cases this
  have hs : stateAfter ops = s := by unfold stateAfter; rw [hrun]
  obtain ⟨order, parts, h1, h2, h3, h4, h5⟩ := hall _ _ s hrun sampleOracle 0
  subst hs
  have hy : str "y" ∈ order := (h2 _).2 ⟨sampleOracle, 0, by decide +kernel⟩
  obtain ⟨i, hi⟩ := List.getElem?_of_mem hy
  have hlt : i < parts.length := by rw [h3]; exact (List.getElem?_eq_some_iff.1 hi).1
  obtain ⟨rs, t, ⟨_, lines, _, _, _, _, ht⟩, hp⟩ := h5 i _ _ hi (List.getElem?_eq_getElem hlt)
  have hmem : (0x79 : UInt8) ∈ parts.flatten := by
    refine List.mem_flatten.2 ⟨parts[i], List.getElem_mem hlt, ?_⟩
    rw [hp, ht]
    have : (0x79 : UInt8) ∈ str "y" := by decide +kernel
    simp only [List.mem_append]
    exact .inl (.inl (.inl (.inr this)))
  have htext : run sampleCfg sampleOracle 0 (Op.prog sampleCfg .string) (stateAfter ops) =
      .ok (.text (str "{\n\tname=x\n\t[token=java,length=(1)]=[0]\n}\n")) (stateAfter ops) := by decide +kernel
  rw [htext] at h4
  injection h4 with h4
  injection h4 with h4
  rw [← h4] at hmem
  exact absurd hmem (by decide +kernel)

/-- `Rename` does not change the name of any object. -/
theorem C65_rename_keeps_label {r : Ret} {s' : Shared} {o : Oracle} {t : Tid} {old new : Name}
    (hrun : run cfg o t (Op.prog cfg (.rename old new)) s = .ok r s') {p : Ptr} {label : Name} (h : Carries s.heap p label) :
    Carries s'.heap p label :=
  run_carries hrun h

/-- An index that no call has renamed to its present name is shown under that name: in every execution
of any number of concurrent calls. -/
theorem C65_label_is_name_partial {c : Config} (hr : ConcReachable cfg c) {n : Name} {p : Ptr}
    (hp : c.sh.indices.get n = some p) (hn : ∀ x ∈ c.calls, ∀ old, x.op ≠ .rename old n) :
    ∃ mi, c.sh.heap[p]? = some mi ∧ mi.name = n := by
  have := labelled_reachable (R := fun m => ∃ x ∈ c.calls, x.op.renamesTo m) hr (fun x hx m hm => ⟨x, hx, hm⟩) n p hp
  rcases this with ⟨x, hx, h⟩ | h
  · cases hop : x.op <;> rw [hop] at h
    case rename old new => cases h; exact absurd hop (hn x hx old)
    all_goals exact absurd h id
  · exact h

/-- One caller: an index that was not renamed to its present name is shown under that name. -/
theorem C65_shown_under_its_name_partial (cs : List Call) (rets : List SRet) (hrun : runCalls cfg cs newIndexRepo = .ok rets s)
    (o : Oracle) (t : Tid) :
    ∃ (order : List Name) (parts : List Str), order.Nodup ∧
      (∀ n, n ∈ order ↔ ∃ o' t', run cfg o' t' (Op.prog cfg (.has n)) s = .ok (.bool true) s) ∧
      parts.length = order.length ∧ run cfg o t (Op.prog cfg .string) s = .ok (.text parts.flatten) s ∧
      ∀ (i : Nat) n part, order[i]? = some n → parts[i]? = some part → (∀ c ∈ cs, ∀ old, c.op ≠ .rename old n) →
        ∃ rs, RendersLine cfg.tok n rs part := by
  have hl := lab_calls (R := fun m => ∃ c ∈ cs, c.op.renamesTo m) (fun c hc m hm => ⟨c, hc, hm⟩)
    (fun n p h => (by cases h)) hrun
  obtain ⟨a, _, h⟩ := C30_calls_refine_specification cs rets hrun
  obtain ⟨order, parts, h1, h2, h3, h4, h5⟩ := run_string h o t
  refine ⟨order, parts, h1, fun n => ?_, h3, h4, fun i n part hi hpart hn => ?_⟩
  · rw [h2, has_iff h]
  · obtain ⟨rs, label, p, g1, g2, ⟨mi, g3, g4⟩, g5⟩ := h5 i n part hi hpart
    rcases hl n p g2 with ⟨x, hx, h⟩ | ⟨mi', h, h'⟩
    · cases hop : x.op <;> rw [hop] at h
      case rename old new => cases h; exact absurd hop (hn x hx old)
      all_goals exact absurd h id
    · rw [g3] at h
      cases h
      exact ⟨rs, by rw [← h', g4]; exact g5⟩

example : returned [.put (str "x") docD, .rename (str "x") (str "y"), .list, .string] =
    some [.unit, .bool true, .names [str "y"], .text (str "{\n\tname=x\n\t[token=java,length=(1)]=[0]\n}\n")] := by
  decide +kernel

end Visigoth
