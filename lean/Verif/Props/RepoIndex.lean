import Verif.Props.Reach
import Verif.Props.FineMore
/-!
# The indexes of a repository (C10, C11)

The theorems about C10 and C11 in `Props/Index.lean` are about one index and `Put`s of it.  Here they are
about all the indexes of a repository, after any calls at once.
-/
namespace Visigoth

variable {cfg : Cfg}

/-- What the index holds is the result of putting these requests one after the other: one document for
each, in order, with its name and content, and for every token the positions of the documents that contain
it, in strictly increasing order. -/
def HoldsExactly (cfg : Cfg) (mi : MemoryIndex) (rs : List DocRequest) : Prop :=
  mi.len = rs.length ∧
    (∀ i, mi.document i = (rs[i]?).map fun r => { name := r.name, content := r.content }) ∧
    ∀ t, ((mi.indexed cfg.cp t).getD []).Pairwise (· < ·) ∧
      ∀ i, i ∈ (mi.indexed cfg.cp t).getD [] ↔ ∃ r, rs[i]? = some r ∧ t ∈ cfg.tok r.statement

theorem holdsExactly_build (nm : Str) (rs : List DocRequest) : HoldsExactly cfg (buildIndex cfg.tok nm rs) rs :=
  ⟨(C10_one_document_per_put cfg.tok nm rs).1, (C10_one_document_per_put cfg.tok nm rs).2,
    fun t => C11_inverted_index_exact cfg.cp cfg.tok nm rs t⟩

/-- After any calls at once, whenever no call is writing, every index of the repository holds exactly
requests that were put, at least one. -/
theorem C11_in_repository {c : Config} (hr : ConcReachable cfg c) (hq : c.unwritten) {p : Ptr} {mi : MemoryIndex}
    (h : c.sh.heap[p]? = some mi) :
    ∃ rs, HoldsExactly cfg mi rs ∧ (∀ r ∈ rs, ∃ y ∈ c.calls, ∃ n, y.op = .put n r) ∧ rs ≠ [] := by
  obtain ⟨H, i, w⟩ := whole_reachable (P := fun r => ∃ y ∈ c.calls, ∃ n, y.op = .put n r) hr (by
    intro x hx d hd
    refine ⟨x, hx, ?_⟩
    cases hop : x.op <;> rw [hop] at hd <;> simp only [Op.puts, reduceCtorEq, Option.some.injEq] at hd
    subst hd
    exact ⟨_, rfl⟩)
  obtain ⟨nm, rs, rfl, hrs⟩ := w.still i (fun t x hx hrun hw => i.unwritten hq hx hw hrun) mi (List.mem_of_getElem? h)
  exact ⟨rs, holdsExactly_build nm rs, hrs⟩

/-- With interleaved goroutines. -/
theorem C11_in_repository_goroutines {c : FConfig} (hr : FineReachable cfg c) (hq : c.unwritten) {p : Ptr} {mi : MemoryIndex}
    (h : c.sh.heap[p]? = some mi) :
    ∃ rs, HoldsExactly cfg mi rs ∧ (∀ r ∈ rs, ∃ y ∈ c.calls, ∃ n, y.op = .put n r) ∧ rs ≠ [] := by
  obtain ⟨d, hd, al⟩ := C60_nothing_new hr
  obtain ⟨rs, h1, h2, hne⟩ := C11_in_repository hd ((alike_unwritten al).1 hq) (by rw [← al.heap hq]; exact h)
  refine ⟨rs, h1, fun r hr => ?_, hne⟩
  obtain ⟨y, hy, n, hop⟩ := h2 r hr
  obtain ⟨t, ht⟩ := List.getElem?_of_mem hy
  have hl : t < c.calls.length := Nat.lt_of_lt_of_eq (List.getElem?_eq_some_iff.1 ht).1 al.len.symm
  obtain ⟨y', hy', sc⟩ := al.calls t _ (List.getElem?_eq_getElem hl)
  rw [ht] at hy'; cases hy'
  exact ⟨_, List.getElem_mem hl, n, sc.op.symm.trans hop⟩

/-- One caller: after any completed calls the index of a name holds exactly the requests the sequential
specification says. -/
theorem C10_in_repository (cs : List Call) (rets : List SRet) {s : Shared} (hrun : runCalls cfg cs newIndexRepo = .ok rets s) :
    ∃ a, SpecState.runs cfg SpecState.empty (cs.map Call.op) rets a ∧ ∀ n,
      match a.docs n with
      | none => s.indices.get n = none
      | some rs => ∃ p mi, s.indices.get n = some p ∧ s.heap[p]? = some mi ∧ HoldsExactly cfg mi rs := by
  obtain ⟨a, h1, h2⟩ := C30_calls_refine_specification cs rets hrun
  refine ⟨a, h1, fun n => ?_⟩
  cases hg : s.indices.get n with
  | none => rw [h2.idx.absent n hg]
  | some p =>
    obtain ⟨nm, rs, h3, h4⟩ := h2.idx.rep n p hg
    rw [h3]
    exact ⟨p, _, rfl, h4, holdsExactly_build nm rs⟩

/-- Three `Put`s to two names and a `Rename`. -/
example : (stateAfter [.put (str "x") docD, .put (str "y") docE, .put (str "x") docE, .rename (str "x") (str "z")]).heap.map
      (fun mi => (mi.docs.map (·.name), mi.indexed plainCopy (str "java"), mi.indexed plainCopy (str "go")))
    = [([str "d", str "e"], some [0], some [1]), ([str "e"], none, some [0])] := by decide +kernel

end Visigoth
