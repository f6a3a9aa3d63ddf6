import Verif.Spec.RowReads
import Verif.Proofs.FineProps
import Verif.Props.Snapshot
/-!
# Which actions write into rows that `ListAliases` has returned
-/
namespace Visigoth

variable {cfg : Cfg}

theorem Act.cell_arrays {β : Type} {a : Act β} {s s' : Shared} (h : s.arrays = s'.arrays) : a.cell s = a.cell s' := by
  cases a <;> simp only [Act.cell, h]

/-- An action changes no other cell of the arrays that there are. -/
theorem exec_cell {o : Oracle} {t : Tid} {β : Type} {a : Act β} {s s' : Shared} {b : β} (he : exec cfg o t a s = .ok b s')
    {j i : Nat} {x : List Name} (hx : s.arrays[j]? = some x) (hc : a.cell s ≠ some (j, i)) :
    ∃ x', s'.arrays[j]? = some x' ∧ x'[i]? = x[i]? := by
  obtain ⟨-, -, f3⟩ := exec_frame he
  have same : s'.arrays = s.arrays → ∃ x', s'.arrays[j]? = some x' ∧ x'[i]? = x[i]? := fun h => ⟨x, by rw [h]; exact hx, rfl⟩
  have set : ∀ (r n : Nat) (v : Name) (y : List Name), s.arrays[r]? = some y → (r, n) ≠ (j, i) →
      s'.arrays = s.arrays.set r (y.set n v) → ∃ x', s'.arrays[j]? = some x' ∧ x'[i]? = x[i]? := by
    intro r n v y hy hne h
    by_cases hr : r = j
    · subst hr
      rw [hx] at hy; cases hy
      refine ⟨x.set n v, ?_, ?_⟩
      · rw [h]; exact List.getElem?_set_self (List.getElem?_eq_some_iff.1 hx).1
      · exact List.getElem?_set_ne fun e => hne (by rw [e])
    · exact ⟨x, by rw [h, List.getElem?_set_ne hr]; exact hx, rfl⟩
  have more : ∀ y, s'.arrays = s.arrays ++ [y] → ∃ x', s'.arrays[j]? = some x' ∧ x'[i]? = x[i]? := fun y h =>
    ⟨x, by rw [h, List.getElem?_append_left (List.getElem?_eq_some_iff.1 hx).1]; exact hx, rfl⟩
  cases a
  case slWrite r n v =>
    simp only [exec] at he
    split at he
    · next y hy =>
      split at he
      · cases he; exact set _ _ v y hy (fun e => hc (by simp only [Act.cell]; rw [e])) rfl
      · cases he
    · cases he
  case slAppend r v =>
    simp only [exec] at he
    split at he
    · cases he
    · next y hy =>
      simp only [Act.cell, hy] at hc
      split at he
      · next hlt =>
        cases he
        rw [if_pos hlt] at hc
        exact set _ _ v y hy (fun e => hc (by rw [e])) rfl
      · cases he; exact more _ rfl
  case slNew l => simp only [exec] at he; cases he; exact more _ rfl
  all_goals exact same (f3 nofun)

/-- A slice that is or was in the table is written into by no action but those of `Rename`. -/
theorem rowsInv_cell {c : Config} {H : Tid → Held} {G : Tid → SMode} {P : SliceRef → Prop} (v : RowsInv c H G P) {q : SliceRef}
    (hq : P q) {u : Tid} {y : Thread} (hy : c.calls[u]? = some y) {i : Nat} (hi : i < q.len) (hw : y.cell c.sh = some (q.arr, i)) :
    ∃ old new, y.op = .rename old new ∧ (c.sh.elems q)[i]? = some old := by
  have hp := v.prog u y hy
  have hm := v.mode u
  obtain ⟨op, o, prog⟩ := y
  cases prog with
  | ret r => cases hw
  | crash e => cases hw
  | act a k =>
    cases a
    case slWrite r n w =>
      obtain ⟨old, hg, hop, -⟩ := hp
      rw [hg] at hm
      obtain ⟨-, -, hm⟩ := hm
      simp only [Thread.cell, Act.cell, Option.some.injEq, Prod.mk.injEq] at hw
      obtain ⟨hr, rfl⟩ := hw
      refine ⟨old, w, hop, ?_⟩
      obtain ⟨x, hx, -⟩ := (v.table.snap q hq).1
      have e1 : c.sh.elems q = x.take q.len := by unfold Shared.elems; rw [hx]; rfl
      have e2 : c.sh.elems r = x.take r.len := by unfold Shared.elems; rw [hr, hx]; rfl
      have hn := (List.getElem?_eq_some_iff.1 hm).1
      rw [e2, List.length_take] at hn
      rw [e2, List.getElem?_take_of_lt (Nat.lt_of_lt_of_le hn (Nat.min_le_left _ _))] at hm
      rw [e1, List.getElem?_take_of_lt hi]
      exact hm
    case slAppend r w =>
      obtain ⟨n, hg, -⟩ := hp
      rw [hg] at hm
      have hle := (v.table.snap q hq).2 n r hm.2
      simp only [Thread.cell, Act.cell] at hw
      split at hw
      · split at hw
        · simp only [Option.some.injEq, Prod.mk.injEq] at hw
          have := hle hw.1
          omega
        · cases hw
      · cases hw
    all_goals cases hw

/-- The same for the rows that a call has returned. -/
theorem rows_cell {c : Config} (hr : ConcReachable cfg c) {t u : Tid} {x y : Thread} {rows : List (Name × SliceRef)}
    (hx : c.calls[t]? = some x) (hop : x.op = .listAliases) (hret : x.prog = .ret (.rows rows)) (hy : c.calls[u]? = some y)
    {e : Name × SliceRef} (he : e ∈ rows) {i : Nat} (hi : i < e.2.len) (hw : y.cell c.sh = some (e.2.arr, i)) :
    ∃ old new, y.op = .rename old new ∧ (c.sh.elems e.2)[i]? = some old := by
  obtain ⟨s, ⟨c0, z, h0, h1, -, -, rfl⟩, hrows⟩ := C47_moment hr hx hop hret
  obtain ⟨H, G, P, i0, v⟩ := rowsInv_reachable h0
  obtain ⟨-, H1, G1, P1, i1, v1, hq1⟩ := rowsInv_entries i0 v h1 (v.table.vals _ _ (hrows.2 e he))
  exact rowsInv_cell v1 hq1 hy hi hw

/-! ## Interleaved goroutines -/

theorem sim_cell {c : FConfig} {d : Config} {G : Tid → Ghost} (sim : Sim cfg c d G) {u : Tid} {x : FThread}
    (hx : c.calls[u]? = some x) {g : Agent} {cell : Nat × Nat} (hw : x.cell c.sh g = some cell) :
    g = none ∧ ∃ y, d.calls[u]? = some y ∧ y.op = x.op ∧ y.cell d.sh = some cell := by
  obtain ⟨y, hy, hop, hor, hst⟩ := sim.call u x hx
  obtain ⟨xop, xo, st⟩ := x
  simp only at hop hor hst
  have hA : c.sh.arrays = d.sh.arrays := by rw [sim.rest]
  generalize hg : G u = gh at hst
  generalize hp : y.prog = p at hst
  cases hst with
  | run p hdis =>
    cases g with
    | some j => cases hw
    | none =>
      cases p with
      | act a k =>
        refine ⟨rfl, y, hy, hop, ?_⟩
        have : y.cell d.sh = a.cell d.sh := by unfold Thread.cell; rw [hp]; rfl
        rw [this, ← Act.cell_arrays hA]
        exact hw
      | _ => cases hw
  | putting ps doc gs ns k hnd hk hinv =>
    cases g with
    | none => cases hw
    | some j =>
      simp only [FThread.cell] at hw
      split at hw
      · next a k' hj =>
        obtain ⟨p, _, _, _, hpj, hga⟩ := pool_at hinv hj
        have := (gAt_var hga).2
        cases a
        case docAppend p d => cases hw
        case postAdd p w n => cases hw
        all_goals cases this
      · cases hw
  | searching ps result rl gs terms engine order k hk hinv =>
    cases g with
    | none => cases hw
    | some j => cases hw

/-- With interleaved goroutines as without. -/
theorem fine_cell {c : FConfig} (hr : FineReachable cfg c) {t u : Tid} {x y : FThread} {rows : List (Name × SliceRef)}
    (hx : c.calls[t]? = some x) (hop : x.op = .listAliases) (hret : x.status = .returned (.rows rows)) (hy : c.calls[u]? = some y)
    {g : Agent} {e : Name × SliceRef} (he : e ∈ rows) {i : Nat} (hi : i < e.2.len) (hw : y.cell c.sh g = some (e.2.arr, i)) :
    g = none ∧ ∃ old new, y.op = .rename old new ∧ (c.sh.elems e.2)[i]? = some old := by
  obtain ⟨d, G, hd, sim⟩ := sim_reachable hr
  obtain ⟨_, _, ⟨F, hF⟩, hR⟩ := nsteps_reachable hd
  have al := sim_alike hd sim F
  obtain ⟨rfl, z, hz, hzop, hzw⟩ := sim_cell sim hy hw
  obtain ⟨x', hx', sc⟩ := al.calls _ x hx
  obtain ⟨old, new, h1, h2⟩ := rows_cell (hR F hF) hx' (sc.op.trans hop) (returned_of (sc.status.trans hret)) (withSchedules_get hz) he hi hzw
  refine ⟨rfl, old, new, hzop.symm.trans h1, ?_⟩
  rw [alike_elems al]
  exact h2

end Visigoth
