import Verif.Proofs.NoInvalid
import Verif.Props.Recover
import Verif.Props.ConcAtomic
import Verif.Props.FineMore
import Verif.Proofs.WholeInv
/-!
# Which calls can panic, and how (C54, C68)
-/
namespace Visigoth

variable {cfg : Cfg}

/-- All panics in the text of a program. -/
def PanicsOnly (P : Crash → Prop) {α : Type} : Prog α → Prop
  | .ret _ => True
  | .crash c => P c
  | .act _ k => ∀ b, PanicsOnly P (k b)

theorem panicsOnly_bind {P : Crash → Prop} {α β : Type} {f : α → Prog β} {p : Prog α} (h : PanicsOnly P p) (hf : ∀ a, PanicsOnly P (f a)) :
    PanicsOnly P (p >>= f) := by
  induction p with
  | ret a => exact hf a
  | crash c => exact h
  | act a k ih => exact fun b => ih b (h b)

theorem panicsOnly_mono {P Q : Crash → Prop} (hPQ : ∀ c, P c → Q c) {α : Type} {p : Prog α} (h : PanicsOnly P p) : PanicsOnly Q p := by
  induction p with
  | ret a => trivial
  | crash c => exact hPQ c h
  | act a k ih => exact fun b => ih b (h b)

/-- How a call may panic: a `Put` with a nil index, or with an index it reaches twice; a `Search` with a nil index, or
in its engine. -/
def Op.mayPanic : Op → Crash → Prop
  | .put _ _, c => c = .nilIndex ∨ c = .race
  | .search _ _ _, c => c = .nilIndex ∨ c = .engine
  | _, _ => False

section
variable {P : Crash → Prop}

theorem panicsOnly_readFrom (r : SliceRef) : ∀ (k i : Nat), PanicsOnly P (Repo.readFrom r i k)
  | 0, _ => trivial
  | k + 1, i => fun _ => panicsOnly_bind (p := Repo.readFrom r (i + 1) k) (panicsOnly_readFrom r k (i + 1)) fun _ => trivial

theorem panicsOnly_sliceHas (r : SliceRef) (n : Name) : ∀ (k i : Nat), PanicsOnly P (Repo.sliceHas r n i k)
  | 0, _ => trivial
  | k + 1, i => fun b => by
    show PanicsOnly P (if b = n then pure true else Repo.sliceHas r n (i + 1) k)
    split
    · trivial
    · exact panicsOnly_sliceHas r n k (i + 1)

theorem panicsOnly_renameSlice (r : SliceRef) (old new : Name) : ∀ (k i : Nat), PanicsOnly P (Repo.renameSlice r old new i k)
  | 0, _ => trivial
  | k + 1, i => fun v => by
    show PanicsOnly P (if v = old then perform (.slWrite r i new) >>= fun _ => Repo.renameSlice r old new (i + 1) k
      else Repo.renameSlice r old new (i + 1) k)
    split
    · exact fun _ => panicsOnly_renameSlice r old new k (i + 1)
    · exact panicsOnly_renameSlice r old new k (i + 1)

theorem panicsOnly_renameAliases (old new : Name) : ∀ ks, PanicsOnly P (Repo.renameAliases old new ks)
  | [] => trivial
  | k :: ks => fun v => by
    cases v with
    | none => exact panicsOnly_renameAliases old new ks
    | some r =>
      exact panicsOnly_bind (p := Repo.renameSlice r old new 0 r.len) (panicsOnly_renameSlice r old new _ _)
        fun _ => panicsOnly_renameAliases old new ks

theorem panicsOnly_resolveFrom (r : SliceRef) : ∀ (k i : Nat), PanicsOnly P (Repo.resolveFrom r i k)
  | 0, _ => trivial
  | k + 1, i => fun _ _ => panicsOnly_bind (p := Repo.resolveFrom r (i + 1) k) (panicsOnly_resolveFrom r k (i + 1)) fun _ => trivial

theorem panicsOnly_dropAliases (n : Name) : ∀ ks, PanicsOnly P (Repo.dropAliases n ks)
  | [] => trivial
  | k :: ks => fun v => by
    cases v with
    | none => exact panicsOnly_dropAliases n ks
    | some r =>
      refine panicsOnly_bind (p := Repo.readFrom r 0 r.len) (panicsOnly_readFrom r _ _) fun xs => ?_
      dsimp only
      split
      · exact fun _ => panicsOnly_dropAliases n ks
      · split
        · exact fun _ _ => panicsOnly_dropAliases n ks
        · exact panicsOnly_dropAliases n ks

theorem panicsOnly_listRows : ∀ ks, PanicsOnly P (Repo.listRows ks)
  | [] => trivial
  | k :: ks => fun v => by
    cases v with
    | none => exact panicsOnly_listRows ks
    | some r => exact panicsOnly_bind (p := Repo.listRows ks) (panicsOnly_listRows ks) fun _ => trivial

theorem panicsOnly_renderAll : ∀ ks, PanicsOnly P (Repo.renderAll ks)
  | [] => trivial
  | k :: ks => fun v => by
    cases v with
    | none => exact panicsOnly_renderAll ks
    | some r => exact fun _ => panicsOnly_bind (p := Repo.renderAll ks) (panicsOnly_renderAll ks) fun _ => trivial

theorem panicsOnly_putPostings (p : Ptr) (next : Nat) : ∀ ts, PanicsOnly P (Repo.putPostings p next ts)
  | [] => trivial
  | _ :: ts => fun _ => panicsOnly_putPostings p next ts

theorem panicsOnly_putAll (d : DocRequest) : ∀ ps, PanicsOnly P (Repo.putAll cfg d ps)
  | [] => trivial
  | p :: ps => panicsOnly_bind (p := Repo.putIndex cfg p d) (fun _ => panicsOnly_putPostings p _ _) fun _ => panicsOnly_putAll d ps

end

theorem panicsOnly_searchIndex (p : Ptr) (ts : Str) (e : Engine) : PanicsOnly (fun c => c = .nilIndex ∨ c = .engine) (Repo.searchIndex p ts e) :=
  fun b => by
    cases b with
    | none => exact .inr rfl
    | some sr => trivial

theorem panicsOnly_searchAll (ts : Str) (e : Engine) : ∀ ps, PanicsOnly (fun c => c = .nilIndex ∨ c = .engine) (Repo.searchAll ts e ps)
  | [] => trivial
  | p :: ps => panicsOnly_bind (p := Repo.searchIndex p ts e) (panicsOnly_searchIndex p ts e) fun _ =>
    panicsOnly_bind (p := Repo.searchAll ts e ps) (panicsOnly_searchAll ts e ps) fun _ => trivial

theorem panicsOnly_searchTargets (l : List (Option Ptr)) (ts : Str) (e : Engine) :
    PanicsOnly (fun c => c = .nilIndex ∨ c = .engine) (Repo.searchTargets l ts e) := by
  unfold Repo.searchTargets
  split
  · exact .inl rfl
  · exact panicsOnly_searchIndex _ _ _
  · exact fun _ => panicsOnly_searchAll _ _ _

theorem panicsOnly_prog (op : Op) : PanicsOnly op.mayPanic (op.prog cfg) := by
  cases op with
  | list => exact fun _ _ _ => trivial
  | listAliases =>
    refine panicsOnly_bind (p := Repo.listAliases) (fun _ ks => ?_) fun _ => trivial
    exact panicsOnly_bind (p := Repo.listRows ks) (panicsOnly_listRows _) fun _ _ => trivial
  | has n => exact fun _ _ _ => trivial
  | hasAlias n => exact fun _ _ _ => trivial
  | «alias» al i =>
    refine panicsOnly_bind (p := Repo.alias al i) (fun _ v => ?_) fun _ => trivial
    cases v with
    | none => exact fun _ => trivial
    | some p =>
      refine fun _ _ w => ?_
      cases w with
      | none => exact fun _ _ _ _ => trivial
      | some r =>
        refine panicsOnly_bind (p := Repo.sliceHas r i 0 r.len) (panicsOnly_sliceHas _ _ _ _) fun b => ?_
        cases b with
        | true => exact fun _ _ => trivial
        | false => exact fun _ _ _ _ => trivial
  | unAlias al i =>
    refine panicsOnly_bind (p := Repo.unAlias al i) ?_ fun _ => trivial
    unfold Repo.unAlias
    split
    · exact fun _ _ _ _ _ => trivial
    · refine fun _ v => ?_
      cases v with
      | none => trivial
      | some p =>
        refine fun _ _ _ w => ?_
        cases w with
        | none => trivial
        | some r =>
          refine panicsOnly_bind (p := Repo.readFrom r 0 r.len) (panicsOnly_readFrom r _ _) fun xs => ?_
          dsimp only
          split
          · exact fun _ _ _ => trivial
          · exact fun _ => trivial
  | put n d =>
    refine panicsOnly_bind (p := Repo.put cfg n d) (panicsOnly_bind (p := Repo.getIndices n) (fun _ v => ?_) fun v _ _ => ?_) fun _ => trivial
    · cases v with
      | some i => exact fun _ => trivial
      | none =>
        refine fun _ w => ?_
        cases w with
        | none => exact fun _ _ => trivial
        | some r => exact panicsOnly_bind (p := Repo.resolveFrom r 0 r.len) (panicsOnly_resolveFrom r _ _) fun _ _ _ => trivial
    · cases v with
      | none => exact fun p _ => panicsOnly_bind (p := Repo.putIndex cfg p d) (fun _ => panicsOnly_putPostings _ _ _) fun _ _ => trivial
      | some l =>
        refine panicsOnly_bind (p := Repo.putTargets cfg l d) ?_ fun _ _ => trivial
        unfold Repo.putTargets
        split
        · exact .inl rfl
        · split
          · exact fun _ => panicsOnly_putAll _ _
          · exact .inr rfl
  | search n ts e =>
    refine panicsOnly_bind (p := Repo.search n ts e) (fun _ v => ?_) fun v => by cases v <;> trivial
    cases v with
    | some i => exact panicsOnly_bind (p := Repo.searchTargets [some i] ts e) (panicsOnly_searchTargets _ _ _) fun _ _ => trivial
    | none =>
      refine fun _ w => ?_
      cases w with
      | none => exact fun _ _ => trivial
      | some r =>
        exact panicsOnly_bind (p := Repo.resolveFrom r 0 r.len) (panicsOnly_resolveFrom r _ _) fun l _ =>
          panicsOnly_bind (p := Repo.searchTargets l ts e) (panicsOnly_searchTargets _ _ _) fun _ _ => trivial
  | rename old new =>
    refine panicsOnly_bind (p := Repo.rename old new) (fun _ _ v => ?_) fun _ => trivial
    cases v with
    | none => exact fun _ => trivial
    | some p =>
      exact fun _ _ ks => panicsOnly_bind (p := Repo.renameAliases old new ks) (panicsOnly_renameAliases old new _) fun _ _ => trivial
  | drop n =>
    refine panicsOnly_bind (p := Repo.drop n) (fun _ v => ?_) fun _ => trivial
    cases v with
    | none => exact fun _ => trivial
    | some p =>
      exact fun _ _ _ _ _ ks => panicsOnly_bind (p := Repo.dropAliases n ks) (panicsOnly_dropAliases n _) fun _ _ _ _ => trivial
  | string =>
    refine panicsOnly_bind (p := Repo.string) (fun _ ks => ?_) fun _ => trivial
    exact panicsOnly_bind (p := Repo.renderAll ks) (panicsOnly_renderAll _) fun _ _ => trivial

theorem panicsOnly_reachable {c : Config} (hr : ConcReachable cfg c) : ∀ x ∈ c.calls, PanicsOnly x.op.mayPanic x.prog := by
  unfold ConcReachable at hr
  induction hr with
  | refl => simp [Config.init]
  | tail h hs ih =>
    cases hs with
    | invoke op o =>
      intro x hx
      rcases List.mem_append.1 hx with hx | hx
      · exact ih x hx
      · rw [List.mem_singleton] at hx
        subst hx
        exact panicsOnly_prog op
    | move t hm =>
      cases hm with
      | act hget he =>
        intro x hx
        rcases List.mem_or_eq_of_mem_set hx with hx | rfl
        · exact ih x hx
        · exact ih _ (List.mem_of_getElem? hget) _
      | crash hget he => exact absurd he (action_safe h hget _)

/-- In every interleaving of all calls, with `Rename`: only `Put` and `Search` ever panic, `Put` with a nil index or
because it reaches one index twice, `Search` with a nil index or in its engine.  No call ever releases a mutex it
does not hold, and none goes beyond a slice. -/
theorem C54_who_panics {c : Config} (hr : ConcReachable cfg c) {t : Tid} {x : Thread} {e : Crash}
    (hx : c.calls[t]? = some x) (he : x.prog = .crash e) : x.op.mayPanic e := by
  have := panicsOnly_reachable hr x (List.mem_of_getElem? hx)
  rw [he] at this
  exact this

/-- The same with interleaved goroutines. -/
theorem C54_who_panics_goroutines {c : FConfig} (hr : FineReachable cfg c) {t : Tid} {x : FThread} {e : Crash}
    (hx : c.calls[t]? = some x) (he : x.status = .crashed e) : x.op.mayPanic e := by
  obtain ⟨d, hd, al⟩ := fine_alike hr
  obtain ⟨y, hy, sc⟩ := al.calls t x hx
  rw [← sc.op]
  exact C54_who_panics hd hy (crashed_of (sc.status.trans he))

/-- There are such panics: the search of a dangling alias of `C54_rename_unAlias_dangles`. -/
example : ∃ c, ConcReachable sampleCfg c ∧ ∃ (t : Tid) (x : Thread), c.calls[t]? = some x ∧ x.prog = .crash .nilIndex ∧
    x.op.mayPanic .nilIndex := by
  obtain ⟨c, hc, _, _, c', hs, t, x, hx, he⟩ := C54_rename_unAlias_dangles
  exact ⟨c', steps_trans hc hs, t, x, hx, he, C54_who_panics (steps_trans hc hs) hx he⟩

/-- Whatever a call is about to do, it does it or waits for a mutex: no action fails. -/
theorem C54_actions_succeed {c : Config} (hr : ConcReachable cfg c) {t : Tid} {op : Op} {o : Oracle} {β : Type} {a : Act β}
    {k : β → Prog Ret} (hx : c.calls[t]? = some ⟨op, o, .act a k⟩) :
    (∃ b s', exec cfg o t a c.sh = .ok b s') ∨ exec cfg o t a c.sh = .blocked := by
  cases he : exec cfg o t a c.sh with
  | ok b s' => exact .inl ⟨b, s', rfl⟩
  | blocked => exact .inr rfl
  | crash e => exact absurd he (action_safe hr hx e)

/-- Every panic of `Search` can be unwound. -/
theorem C68_always_unwinds {r : RConfig} (h : RReachable cfg r) {t : Tid} {n : Name} {ts : Str} {e : Engine} {o : Oracle}
    {x : Crash} (hc : r.conf.calls[t]? = some { op := .search n ts e, oracle := o, prog := .crash x }) (ht : t ∉ r.unwound) :
    ∃ s', RStep cfg r { conf := { sh := s', calls := r.conf.calls }, unwound := t :: r.unwound } := by
  refine C68_unwinds h hc (fun hx => ?_) ht
  subst hx
  have hr := C68_no_trace h
  have hget : (unstartAll cfg r.unwound r.conf.calls)[t]? = some { op := .search n ts e, oracle := o, prog := .crash .invalid } := by
    rw [getElem?_unstartAll, hc]
    simp [ht]
  exact never_invalid hr (List.mem_of_getElem? hget) rfl

end Visigoth
