import Verif.Proofs.Naming
import Verif.Proofs.Calls
/-!
# The name an index object carries

`MemoryIndex.name` is set when the object is made and never again.
-/
namespace Visigoth

variable {cfg : Cfg} {o : Oracle} {t : Tid}

/-- The call may bind `n` to an index that was made under another name. -/
def Op.renamesTo (n : Name) : Op → Prop
  | .rename _ m => m = n
  | _ => False

/-- An object that carries the name. -/
def Carries (H : List MemoryIndex) (p : Ptr) (n : Name) : Prop := ∃ mi, H[p]? = some mi ∧ mi.name = n

/-- What an action needs, knowing that the objects in `K` carry the names given there. -/
def labAct (op : Op) (K : List (Ptr × Name)) {β : Type} : Act β → (List (Ptr × Name) → β → Prop) → Prop
  | .idxSet n p, Φ => ((p, n) ∈ K ∨ op.renamesTo n) ∧ Φ K ()
  | .newIndex n, Φ => ∀ p, Φ ((p, n) :: K) p
  | _, Φ => ∀ b, Φ K b

/-- The program binds names only to objects that carry them, or renames. -/
def Lab {α : Type} (op : Op) (K : List (Ptr × Name)) : Prog α → Prop
  | .ret _ => True
  | .crash _ => True
  | .act a k => labAct op K a fun K' b => Lab op K' (k b)

theorem lab_of_names {α : Type} {op op' : Op} {p : Prog α} (h : Names op' p) (hb : ∀ n, op'.binds n → op.renamesTo n) :
    ∀ K, Lab op K p := by
  induction p with
  | ret a => intro K; trivial
  | crash e => intro K; trivial
  | act a k ih =>
    intro K
    have hk := fun b => ih b (h.2.2 b)
    cases a
    case idxSet n p => exact ⟨.inr (hb n (h.1 n rfl)), hk () K⟩
    case newIndex n => exact fun p => hk p _
    all_goals exact fun b => hk b K

theorem lab_bind {α β : Type} {op : Op} {f : α → Prog β} : ∀ {p : Prog α} {K : List (Ptr × Name)}, Lab op K p →
    (∀ K' a, (∀ e ∈ K, e ∈ K') → Lab op K' (f a)) → Lab op K (p >>= f) := by
  intro p
  show ∀ {K : List (Ptr × Name)}, _ → _ → Lab op K (p.bind f)
  induction p with
  | ret a => intro K _ hf; exact hf K a fun _ h => h
  | crash e => intro K _ _; trivial
  | act a k ih =>
    intro K h hf
    cases a
    case idxSet n p => exact ⟨h.1, ih () h.2 hf⟩
    case newIndex n => exact fun p => ih p (h p) fun K' a hK => hf K' a fun e he => hK e (List.mem_cons_of_mem _ he)
    all_goals exact fun b => ih b (h b) hf

theorem lab_put (n : Name) (d : DocRequest) : Lab (.put n d) [] ((Op.put n d).prog cfg) := by
  have hn : ∀ m, Op.list.binds m → (Op.put n d).renamesTo m := fun m h => h
  refine lab_bind (p := Repo.put cfg n d) ?_ fun _ _ _ => trivial
  refine lab_bind (lab_of_names (names_getIndices n) hn _) fun K r _ =>
    lab_bind (lab_of_names (names_lock .indices) hn _) fun K _ _ => ?_
  cases r with
  | none =>
    refine fun p => ⟨.inl (List.mem_cons_self ..), ?_⟩
    exact lab_of_names (names_bind (names_putIndex _ _) fun _ => names_last _ rfl rfl) hn _
  | some l => exact lab_of_names (names_bind (names_putTargets _ _) fun _ => names_last _ rfl rfl) hn _

theorem lab_op (op : Op) : Lab op [] (op.prog cfg) := by
  cases op with
  | put n d => exact lab_put n d
  | _ => exact lab_of_names (names_op _) (by intro n h; exact h) []

/-! ## Names of objects never change -/

theorem setMu_heap (s : Shared) (m : Mu) (l : RW) : (s.setMu m l).heap = s.heap := by cases m <;> rfl

theorem exec_carries {β : Type} {a : Act β} {s s' : Shared} {b : β} (he : exec cfg o t a s = .ok b s') {p : Ptr} {n : Name}
    (h : Carries s.heap p n) : Carries s'.heap p n := by
  obtain ⟨mi, h1, h2⟩ := h
  have same : ∀ {H : List MemoryIndex}, H = s.heap → Carries H p n := fun e => ⟨mi, by rw [e, h1], h2⟩
  have upd : ∀ {q : Ptr} {mq mi' : MemoryIndex}, s.heap[q]? = some mq → mi'.name = mq.name → Carries (s.heap.set q mi') p n := by
    intro q mq mi' hq hnm
    by_cases e : q = p
    · subst e
      rw [h1] at hq
      cases hq
      exact ⟨mi', List.getElem?_set_self (List.getElem?_eq_some_iff.1 h1).1, by rw [hnm, h2]⟩
    · exact ⟨mi, by rw [List.getElem?_set_ne e, h1], h2⟩
  cases a
  case newIndex m =>
    cases he
    exact ⟨mi, by rw [List.getElem?_append_left (List.getElem?_eq_some_iff.1 h1).1, h1], h2⟩
  case docAppend q d =>
    simp only [exec] at he
    split at he
    · next hq => cases he; exact upd hq rfl
    · cases he
  case postAdd q tk nx =>
    simp only [exec] at he
    split at he
    · next hq => cases he; exact upd hq rfl
    · cases he
  all_goals
    simp only [exec] at he
    repeat' split at he
    all_goals first | (cases he; exact same rfl) | (cases he; exact same (setMu_heap _ _ _)) | cases he

/-- Every name of the table is bound to an object that carries it, except names of `R`. -/
def Labelled (R : Name → Prop) (s : Shared) : Prop := ∀ n p, s.indices.get n = some p → R n ∨ Carries s.heap p n

theorem labelled_keep {R : Name → Prop} {β : Type} {a : Act β} {s s' : Shared} {b : β} (he : exec cfg o t a s = .ok b s')
    (ha : a.binds = none) (h : Labelled R s) : Labelled R s' := by
  intro n p hp
  have hx := exec_index he n
  by_cases hu : a.unbinds = some n
  · rw [hx.2.1 hu] at hp; cases hp
  · rw [hx.1 (by rw [ha]; simp) hu] at hp
    exact (h n p hp).imp id (exec_carries he)

theorem lab_exec {R : Name → Prop} {op : Op} (hop : ∀ n, op.renamesTo n → R n) {K : List (Ptr × Name)} {β : Type} {a : Act β}
    {s s' : Shared} {b : β} {Φ : List (Ptr × Name) → β → Prop} (he : exec cfg o t a s = .ok b s') (ha : labAct op K a Φ)
    (hK : ∀ e ∈ K, Carries s.heap e.1 e.2) (hR : Labelled R s) :
    Labelled R s' ∧ ∃ K', Φ K' b ∧ ∀ e ∈ K', Carries s'.heap e.1 e.2 := by
  have hK' : ∀ e ∈ K, Carries s'.heap e.1 e.2 := fun e h => exec_carries he (hK e h)
  cases a
  case idxSet n p =>
    cases he
    refine ⟨fun m q hq => ?_, K, ha.2, hK'⟩
    by_cases e : m = n
    · subst e
      rw [GoMap.get_set_same] at hq
      cases hq
      rcases ha.1 with h | h
      · exact .inr (hK _ h)
      · exact .inl (hop _ h)
    · rw [GoMap.get_set_ne _ _ (Ne.symm e)] at hq
      exact hR m q hq
  case newIndex n =>
    refine ⟨labelled_keep he rfl hR, _, ha b, fun e h => ?_⟩
    rcases List.mem_cons.1 h with h | h
    · subst h
      cases he
      exact ⟨_, List.getElem?_concat_length, rfl⟩
    · exact hK' e h
  all_goals exact ⟨labelled_keep he rfl hR, K, ha _, hK'⟩

/-! ## Executions -/

theorem lab_run {R : Name → Prop} {op : Op} (hop : ∀ n, op.renamesTo n → R n) {α : Type} {p : Prog α} :
    ∀ {K : List (Ptr × Name)} {s s' : Shared} {r : α}, Lab op K p → (∀ e ∈ K, Carries s.heap e.1 e.2) → Labelled R s →
      run cfg o t p s = .ok r s' → Labelled R s' := by
  induction p with
  | ret a => intro K s s' r _ _ hR h; cases h; exact hR
  | crash e => intro K s s' r _ _ _ h; cases h
  | act a k ih =>
    intro K s s' r hl hK hR h
    simp only [run] at h
    split at h
    · next b s1 he =>
      obtain ⟨h1, K', h2, h3⟩ := lab_exec hop he hl hK hR
      exact ih b h2 h3 h1 h
    · cases h
    · cases h

theorem lab_calls {R : Name → Prop} : ∀ {cs : List Call} {s s' : Shared} {rets : List SRet},
    (∀ c ∈ cs, ∀ n, c.op.renamesTo n → R n) → Labelled R s → runCalls cfg cs s = .ok rets s' → Labelled R s' := by
  intro cs
  induction cs with
  | nil => intro s s' rets _ hR h; cases h; exact hR
  | cons c cs ih =>
    intro s s' rets hop hR h
    rw [runCalls] at h
    cases h1 : run cfg c.oracle c.tid (c.op.prog cfg) s with
    | hang s1 => rw [h1] at h; cases h
    | crash e => rw [h1] at h; cases h
    | ok r s1 =>
      rw [h1, andThen_ok] at h
      have hR1 := lab_run (hop c (List.mem_cons_self ..)) (lab_op c.op) (by simp) hR h1
      cases h2 : runCalls cfg cs s1 with
      | hang s2 => rw [h2] at h; cases h
      | crash e => rw [h2] at h; cases h
      | ok rs s2 =>
        rw [h2, andThen_ok] at h
        cases h
        exact ih (fun c hc => hop c (List.mem_cons_of_mem _ hc)) hR1 h2

theorem labelled_reachable {R : Name → Prop} {c : Config} (hr : ConcReachable cfg c)
    (hop : ∀ x ∈ c.calls, ∀ n, x.op.renamesTo n → R n) : Labelled R c.sh := by
  suffices h : Labelled R c.sh ∧ ∀ x ∈ c.calls, ∃ K, Lab x.op K x.prog ∧ ∀ e ∈ K, Carries c.sh.heap e.1 e.2 from h.1
  unfold ConcReachable at hr
  generalize hc : Config.init = c0 at hr
  induction hr with
  | refl =>
    subst hc
    exact ⟨fun n p h => (by cases h), fun x hx => (by simp [Config.init] at hx)⟩
  | tail _ hs ih =>
    cases hs with
    | invoke op o =>
      obtain ⟨h1, h2⟩ := ih fun x hx => hop x (List.mem_append_left _ hx)
      refine ⟨h1, fun x hx => ?_⟩
      rcases List.mem_append.1 hx with hx | hx
      · exact h2 x hx
      · rw [List.mem_singleton] at hx; subst hx; exact ⟨[], lab_op op, by simp⟩
    | move t h =>
      cases h with
      | @act s s' calls op o β a k b h he =>
        obtain ⟨h1, h2⟩ := ih fun x hx n hn => by
          obtain ⟨i, hi⟩ := List.getElem?_of_mem hx
          by_cases e : t = i
          · subst e
            rw [h] at hi
            cases hi
            exact hop _ (List.mem_of_getElem? (List.getElem?_set_self (List.getElem?_eq_some_iff.1 h).1)) n hn
          · exact hop x (List.mem_of_getElem? (by rw [List.getElem?_set_ne e, hi])) n hn
        obtain ⟨K, hl, hK⟩ := h2 _ (List.mem_of_getElem? h)
        have hop' := hop _ (List.mem_of_getElem? (List.getElem?_set_self (List.getElem?_eq_some_iff.1 h).1))
        obtain ⟨g1, K', g2, g3⟩ := lab_exec hop' he hl hK h1
        refine ⟨g1, fun x hx => ?_⟩
        rcases List.mem_or_eq_of_mem_set hx with hx | hx
        · obtain ⟨K, hl, hK⟩ := h2 x hx
          exact ⟨K, hl, fun e h => exec_carries he (hK e h)⟩
        · subst hx; exact ⟨K', g2, g3⟩
      | crash h he =>
        obtain ⟨h1, h2⟩ := ih fun x hx n hn => by
          obtain ⟨i, hi⟩ := List.getElem?_of_mem hx
          by_cases e : t = i
          · subst e
            rw [h] at hi
            cases hi
            exact hop _ (List.mem_of_getElem? (List.getElem?_set_self (List.getElem?_eq_some_iff.1 h).1)) n hn
          · exact hop x (List.mem_of_getElem? (by rw [List.getElem?_set_ne e, hi])) n hn
        refine ⟨h1, fun x hx => ?_⟩
        rcases List.mem_or_eq_of_mem_set hx with hx | hx
        · exact h2 x hx
        · subst hx; exact ⟨[], trivial, by simp⟩

end Visigoth
