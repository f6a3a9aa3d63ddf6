import Verif.Props.Complete
import Verif.Proofs.Origin
/-!
# The name an index is shown under, exactly (C65, C66)
-/
namespace Visigoth

variable {cfg : Cfg} {s : Shared} {a : SpecState}

/-- The text of an index determines the name it shows. -/
theorem renders_label {tok : Tokenizer} {l l' : Str} {rs : List DocRequest} {text : Str} (h : Renders tok l rs text)
    (h' : Renders tok l' rs text) : l = l' := by
  have key : ∀ {l}, Renders tok l rs text → ∃ tokens : List Str, tokens.Nodup ∧ (∀ t, t ∈ tokens ↔ ∃ r ∈ rs, t ∈ tok r.statement) ∧
      text = str "{\n\tname=" ++ (l ++ ((tokens.flatMap fun t => fmtEntry t (positions tok rs t)) ++ str "\n}")) := by
    rintro l ⟨tokens, lines, h1, h2, h3, h4, h5⟩
    refine ⟨tokens, h1, h2, ?_⟩
    have hl : lines = tokens.map fun t => fmtEntry t (positions tok rs t) := by
      apply List.ext_getElem (by rw [h3, List.length_map])
      intro i hi hi'
      have hit : i < tokens.length := h3 ▸ hi
      rw [List.getElem_map]
      exact isEntry_eq (h4 i _ _ (List.getElem?_eq_getElem hi) (List.getElem?_eq_getElem hit)) (fmtEntry_isEntry _ _)
    rw [h5, hl, List.flatMap_def]
    simp only [List.append_assoc]
  obtain ⟨ts, h1, h2, h3⟩ := key h
  obtain ⟨ts', h1', h2', h3'⟩ := key h'
  have hp : ts.Perm ts' := (List.perm_ext_iff_of_nodup h1 h1').2 fun t => by rw [h2, h2']
  rw [h3] at h3'
  have h4 := List.append_cancel_left h3'
  have hlen : (ts.flatMap fun t => fmtEntry t (positions tok rs t)).length
      = (ts'.flatMap fun t => fmtEntry t (positions tok rs t)).length := (hp.flatMap_right _).length_eq
  exact (List.append_inj' h4 (by simp only [List.length_append, hlen])).1

theorem rendersLine_label {tok : Tokenizer} {l l' : Str} {rs : List DocRequest} {text : Str} (h : RendersLine tok l rs text)
    (h' : RendersLine tok l' rs text) : l = l' := by
  obtain ⟨t, h1, h2⟩ := h
  obtain ⟨t', h1', h2'⟩ := h'
  rw [h2] at h2'
  have := List.append_cancel_right h2'
  subst this
  exact renders_label h1 h1'

/-- The text shows every index, with exactly its documents, under the name it was first put under,
which the calls determine. -/
theorem C65_shown_under_first_name (cs : List Call) (rets : List SRet) (hrun : runCalls cfg cs newIndexRepo = .ok rets s) :
    ∃ a, SpecState.runs cfg SpecState.empty (cs.map Call.op) rets a ∧ ∀ (o : Oracle) (t : Tid),
    ∃ (order : List Name) (parts : List Str), order.Nodup ∧ (∀ n, n ∈ order ↔ (a.docs n).isSome) ∧
      parts.length = order.length ∧ run cfg o t (Op.prog cfg .string) s = .ok (.text parts.flatten) s ∧
      ∀ (i : Nat) n part, order[i]? = some n → parts[i]? = some part →
        ∃ rs, a.docs n = some rs ∧ RendersLine cfg.tok (SpecState.empty.originsAfter id (cs.map Call.op) n) rs part := by
  obtain ⟨a, h1, h⟩ := C30_calls_refine_specification cs rets hrun
  have ho : OriginOk s (SpecState.empty.originsAfter id (cs.map Call.op)) :=
    origin_calls (abs_empty cfg) (fun n p hp => by cases hp) hrun
  refine ⟨a, h1, fun o t => ?_⟩
  obtain ⟨order, parts, g1, g2, g3, g4, g5⟩ := run_string h o t
  refine ⟨order, parts, g1, g2, g3, g4, fun i n part hi hpart => ?_⟩
  obtain ⟨rs, label, p, e1, e2, ⟨mi, e3, e4⟩, e5⟩ := g5 i n part hi hpart
  obtain ⟨mi', f1, f2⟩ := ho n p e2
  rw [e3] at f1
  cases f1
  exact ⟨rs, e1, by rw [← f2, e4]; exact e5⟩

/-- A text of an index and its documents shows the name it is found by exactly when that is the name it
was first put under. -/
theorem C65_guard_exact (cs : List Call) (rets : List SRet) (hrun : runCalls cfg cs newIndexRepo = .ok rets s) :
    ∃ a, SpecState.runs cfg SpecState.empty (cs.map Call.op) rets a ∧ ∀ (o : Oracle) (t : Tid),
    ∃ (order : List Name) (parts : List Str), order.Nodup ∧ (∀ n, n ∈ order ↔ (a.docs n).isSome) ∧
      parts.length = order.length ∧ run cfg o t (Op.prog cfg .string) s = .ok (.text parts.flatten) s ∧
      ∀ (i : Nat) n part rs, order[i]? = some n → parts[i]? = some part → a.docs n = some rs →
        (RendersLine cfg.tok n rs part ↔ SpecState.empty.originsAfter id (cs.map Call.op) n = n) := by
  obtain ⟨a, h1, h2⟩ := C65_shown_under_first_name cs rets hrun
  refine ⟨a, h1, fun o t => ?_⟩
  obtain ⟨order, parts, g1, g2, g3, g4, g5⟩ := h2 o t
  refine ⟨order, parts, g1, g2, g3, g4, fun i n part rs hi hpart hrs => ?_⟩
  obtain ⟨rs', e1, e2⟩ := g5 i n part hi hpart
  rw [hrs] at e1
  cases e1
  exact ⟨fun h => rendersLine_label e2 h, fun h => h ▸ e2⟩

/-- What `String` may return after completed calls, exactly, in terms of the calls alone. -/
theorem C66_text_exact_calls (cs : List Call) (rets : List SRet) (hrun : runCalls cfg cs newIndexRepo = .ok rets s) :
    ∃ a, SpecState.runs cfg SpecState.empty (cs.map Call.op) rets a ∧ ∀ (t : Tid) (text : Str),
    ((∃ o, run cfg o t (Op.prog cfg .string) s = .ok (.text text) s) ↔
      ∃ (order : List Name) (parts : List Str), order.Nodup ∧ (∀ n, n ∈ order ↔ (a.docs n).isSome) ∧
        parts.length = order.length ∧ text = parts.flatten ∧
        ∀ (i : Nat) n part, order[i]? = some n → parts[i]? = some part →
          ∃ rs, a.docs n = some rs ∧ RendersLine cfg.tok (SpecState.empty.originsAfter id (cs.map Call.op) n) rs part) := by
  obtain ⟨a, h1, h⟩ := C30_calls_refine_specification cs rets hrun
  have ho : OriginOk s (SpecState.empty.originsAfter id (cs.map Call.op)) :=
    origin_calls (abs_empty cfg) (fun n p hp => by cases hp) hrun
  refine ⟨a, h1, fun t text => ?_⟩
  rw [C66_text_exact h t text]
  constructor
  · rintro ⟨order, parts, g1, g2, g3, g4, g5⟩
    refine ⟨order, parts, g1, g2, g3, g4, fun i n part hi hpart => ?_⟩
    obtain ⟨rs, label, p, e1, e2, ⟨mi, e3, e4⟩, e5⟩ := g5 i n part hi hpart
    obtain ⟨mi', f1, f2⟩ := ho n p e2
    rw [e3] at f1
    cases f1
    exact ⟨rs, e1, by rw [← f2, e4]; exact e5⟩
  · rintro ⟨order, parts, g1, g2, g3, g4, g5⟩
    refine ⟨order, parts, g1, g2, g3, g4, fun i n part hi hpart => ?_⟩
    obtain ⟨rs, e1, e2⟩ := g5 i n part hi hpart
    have hs : (s.indices.get n).isSome = true := by rw [h.idx.isSome, e1]; rfl
    obtain ⟨p, hp⟩ := Option.isSome_iff_exists.1 hs
    exact ⟨rs, _, p, e1, hp, ho n p hp, e2⟩

/-- Renamed away and back, an index is shown under its own name again; so is one put where a renamed
index used to be. -/
example : (SpecState.empty.originsAfter id [.put (str "x") docD, .rename (str "x") (str "y"), .rename (str "y") (str "x")] (str "x"),
    SpecState.empty.originsAfter id [.put (str "x") docD, .rename (str "x") (str "y"), .put (str "x") docE] (str "x"),
    SpecState.empty.originsAfter id [.put (str "x") docD, .rename (str "x") (str "y"), .put (str "x") docE] (str "y"))
    = (str "x", str "x", str "x") := by decide +kernel

example : returned [.put (str "x") docD, .rename (str "x") (str "y"), .put (str "x") docE, .string] =
    some [.unit, .bool true, .unit,
      .text (str "{\n\tname=x\n\t[token=java,length=(1)]=[0]\n}\n{\n\tname=x\n\t[token=go,length=(1)]=[0]\n}\n")] := by
  decide +kernel

end Visigoth
