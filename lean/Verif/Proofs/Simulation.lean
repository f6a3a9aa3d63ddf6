import Verif.Proofs.Blocks
import Verif.Proofs.WholeInv
/-!
# Interleaved executions are matched by executions of whole blocks
-/
namespace Visigoth

variable {cfg : Cfg}

/-- A step of the coarse semantics: a call runs a whole block, or a new call is made. -/
inductive BStep (cfg : Cfg) : Config → Config → Prop where
  | run {C : Config} (t : Tid) {x : Thread} (h : C.calls[t]? = some x) :
      BStep cfg C { sh := (block cfg x.oracle t x.prog C.sh).2,
                    calls := C.calls.set t { x with prog := (block cfg x.oracle t x.prog C.sh).1 } }
  | invoke (C : Config) (op : Op) (o : Oracle) :
      BStep cfg C { C with calls := C.calls ++ [{ op := op, oracle := o, prog := op.prog cfg }] }

inductive BSteps (cfg : Cfg) : Config → Config → Prop where
  | refl (C : Config) : BSteps cfg C C
  | tail {C C' C'' : Config} (h : BSteps cfg C C') (hs : BStep cfg C' C'') : BSteps cfg C C''

theorem BSteps.trans {C C' C'' : Config} (h : BSteps cfg C C') (g : BSteps cfg C' C'') : BSteps cfg C C'' := by
  induction g with
  | refl => exact h
  | tail _ hs ih => exact .tail ih hs

/-- At most one step. -/
def BMove (cfg : Cfg) (C C' : Config) : Prop := C' = C ∨ BStep cfg C C'

theorem BMove.steps {C C' : Config} (h : BMove cfg C C') : BSteps cfg C C' := by
  rcases h with rfl | h
  · exact .refl _
  · exact .tail (.refl _) h

/-- About to release a mutex, or over. -/
def stopped : Prog Ret → Bool
  | .ret _ => true
  | .crash _ => true
  | .act a _ => a.frees.isSome

/-- How the program `q` of a call in the coarse execution relates to its program `p` in the
interleaved execution: in the first phase of a block, `q` is the start of the block; in the second,
the end. -/
def RelThread (d : Discipline) (cfg : Cfg) (o : Oracle) (t : Tid) (A D : Shared) (h : Held) (ph : Bool)
    (q p : Prog Ret) : Prop :=
  Blocky (fun _ _ => True) ph p ∧
  if ph then q = post cfg o t p D
  else stopped p = false ∧ ∃ s, Path d cfg o t q A h p s ∧ ∀ l, d.rd l h = true → SameAt l s D

structure Rel (d : Discipline) (cfg : Cfg) (c C : Config) (H : Tid → Held) (ph : Tid → Bool) : Prop where
  size : C.calls.length = c.calls.length
  thread : ∀ t x, c.calls[t]? = some x → ∃ q, C.calls[t]? = some { x with prog := q } ∧
    RelThread d cfg x.oracle t C.sh c.sh (H t) (ph t) q x.prog
  data : ∀ l, SameAt l c.sh C.sh ∨ ∃ t, ph t = false ∧ d.wr l (H t) = true

/-- The calls that follow a discipline. -/
def Suits (d : Discipline) (op : Op) : Prop :=
  (d = strict ∧ op.isRename = false) ∨ (d = broad ∧ op.isUnAlias = false)

theorem Suits.laws {d : Discipline} {op : Op} (h : Suits d op) : Laws d := by
  rcases h with ⟨h, _⟩ | ⟨h, _⟩
  · exact h ▸ laws_strict
  · exact h ▸ laws_broad

theorem Suits.obeys {d : Discipline} {op : Op} (h : Suits d op) {hd : Held} {p : Prog Ret} (g : Good op hd p) :
    Obeys d (endOf op) hd p := by
  rcases h with ⟨h, h'⟩ | ⟨h, h'⟩
  · exact h ▸ g.1 h'
  · exact h ▸ g.2 h'

/-- The calls that follow a discipline or are over. -/
def Copes (d : Discipline) (x : Thread) : Prop := Suits d x.op ∨ ¬ x.running

theorem Copes.suits {d : Discipline} {x : Thread} (h : Copes d x) (hr : x.running) : Suits d x.op := h.resolve_right fun hn => hn hr

theorem Copes.obeys {d : Discipline} {x : Thread} (h : Copes d x) {hd : Held} (g : Good x.op hd x.prog) : ∃ Q, Obeys d Q hd x.prog := by
  rcases h with h | h
  · exact ⟨_, h.obeys g⟩
  · obtain ⟨d', g'⟩ := g.some
    unfold Thread.running at h
    cases hp : x.prog with
    | ret r => rw [hp] at g'; exact ⟨fun _ _ => True, g'.1, trivial⟩
    | crash e => rw [hp] at g'; exact ⟨fun _ _ => True, g'⟩
    | act a k => rw [hp] at h; exact absurd trivial h

/-- A call other than the one that moved: what it may read has not changed. -/
theorem relThread_other {d : Discipline} (ld : Laws d) {o : Oracle} {u : Tid} {A A' D D' : Shared} {h : Held} {ph : Bool}
    {q p : Prog Ret} {Q : Held → Ret → Prop} (ho : Obeys d Q h p) (r : RelThread d cfg o u A D h ph q p)
    (hD : ∀ l, d.rd l h = true → SameAt l D' D) (hA : ∀ l, d.rd l h = true → SameAt l A' A) :
    RelThread d cfg o u A' D' h ph q p := by
  refine ⟨r.1, ?_⟩
  have r2 := r.2
  cases ph with
  | true =>
    simp only [if_true] at r2 ⊢
    rw [r2]
    exact post_frame ld ho r.1 fun l hl => (hD l hl).symm
  | false =>
    simp only [Bool.false_eq_true, if_false] at r2 ⊢
    obtain ⟨h1, s, h2, h3⟩ := r2
    obtain ⟨s', h4, h5⟩ := path_frame ld h2 A' hA
    exact ⟨h1, s', h4, fun l hl => (((h5 l).1 hl).trans (h3 l hl)).trans (hD l hl).symm⟩

theorem pre_stopped {o : Oracle} {t : Tid} {p : Prog Ret} {s : Shared} (h : stopped p = true) : pre cfg o t p s = (p, s) := by
  cases p with
  | ret r => rfl
  | crash e => rfl
  | act a k =>
    simp only [stopped] at h
    unfold pre
    cases hf : a.frees with
    | none => rw [hf] at h; cases h
    | some b => rw [(frees_lock hf).2]

def setPh (ph : Tid → Bool) (t : Tid) (b : Bool) : Tid → Bool := fun u => if u = t then b else ph u

@[simp] theorem setPh_same (ph : Tid → Bool) (t : Tid) (b : Bool) : setPh ph t b t = b := by simp [setPh]
theorem setPh_other (ph : Tid → Bool) {t u : Tid} (b : Bool) (h : u ≠ t) : setPh ph t b u = ph u := by simp [setPh, h]

theorem wr_false_of_rd {d : Discipline} (ld : Laws d) {c : Config} {H : Tid → Held} (i : LockInv c H) {t u : Tid} (htu : t ≠ u)
    {l : Loc} (h : d.rd l (H u) = true) : d.wr l (H t) = false := by
  cases hw : d.wr l (H t) with
  | false => rfl
  | true => rw [ld.compat _ _ l (link_compat i.link htu) hw] at h; cases h

/-- After its step, call `t` stays in the first phase of its block. -/
theorem rel_stay {d : Discipline} (ld : Laws d) {D D' : Shared} {calls : List Thread} {C : Config} {H : Tid → Held}
    {ph : Tid → Bool} (r : Rel d cfg { sh := D, calls := calls } C H ph) {t : Tid} {x : Thread} {q p' : Prog Ret}
    {h' : Held} {s' : Shared} (hx : calls[t]? = some x) (hq : C.calls[t]? = some { x with prog := q })
    (hp : Path d cfg x.oracle t q C.sh h' p' s') (hs : stopped p' = false) (hb : Blocky (fun _ _ => True) false p')
    (hrd : ∀ l, d.rd l h' = true → SameAt l s' D')
    (hob : ∀ u y, u ≠ t → calls[u]? = some y → ∃ Q, Obeys d Q (H u) y.prog)
    (hD : ∀ u, u ≠ t → ∀ l, d.rd l (H u) = true → SameAt l D' D)
    (hdata : ∀ l, SameAt l D' C.sh ∨ d.wr l h' = true ∨ ∃ u, u ≠ t ∧ ph u = false ∧ d.wr l (H u) = true) :
    Rel d cfg { sh := D', calls := calls.set t { x with prog := p' } } C (setH H t h') (setPh ph t false) := by
  have hlt := (List.getElem?_eq_some_iff.1 hx).1
  refine ⟨by rw [r.size]; simp, ?_, ?_⟩
  · intro u y hy
    simp only at hy
    by_cases hut : u = t
    · subst hut
      rw [List.getElem?_set_self hlt] at hy
      injection hy with hy; subst hy
      refine ⟨q, hq, ?_⟩
      rw [setPh_same, setH_same]
      exact ⟨hb, hs, s', hp, hrd⟩
    · rw [List.getElem?_set_ne (Ne.symm hut)] at hy
      rw [setPh_other _ _ hut, setH_other _ _ hut]
      obtain ⟨q', h1, h2⟩ := r.thread u y hy
      obtain ⟨Q, ho⟩ := hob u y hut hy
      exact ⟨q', h1, relThread_other ld ho h2 (hD u hut) fun l _ => SameAt.refl _ _⟩
  · intro l
    rcases hdata l with h | h | ⟨u, h1, h2, h3⟩
    · exact Or.inl h
    · exact Or.inr ⟨t, by simp, by rwa [setH_same]⟩
    · exact Or.inr ⟨u, by rwa [setPh_other _ _ h1], by rwa [setH_other _ _ h1]⟩

/-- After its step, call `t` is at the end of the first phase of its block: the coarse execution runs
the block. -/
theorem rel_commit {d : Discipline} (ld : Laws d) {D D' : Shared} {calls : List Thread} {C : Config} {H : Tid → Held}
    {ph : Tid → Bool} (r : Rel d cfg { sh := D, calls := calls } C H ph) {t : Tid} {x : Thread} {q p' : Prog Ret}
    {h' : Held} {s' : Shared} (hx : calls[t]? = some x) (hq : C.calls[t]? = some { x with prog := q })
    (hpre : pre cfg x.oracle t q C.sh = (p', s')) (hwr : ∀ l, d.wr l h' = false → SameAt l s' C.sh)
    (hb : Blocky (fun _ _ => True) true p') {Q : Held → Ret → Prop} (ho : Obeys d Q h' p')
    (hrd : ∀ l, d.rd l h' = true → SameAt l s' D')
    (hob : ∀ u y, u ≠ t → calls[u]? = some y → ∃ Q, Obeys d Q (H u) y.prog)
    (hD : ∀ u, u ≠ t → ∀ l, d.rd l (H u) = true → SameAt l D' D)
    (hex : ∀ u, u ≠ t → ∀ l, d.rd l (H u) = true → d.wr l h' = false)
    (hdata : ∀ l, SameAt l D' C.sh ∨ d.wr l h' = true ∨ ∃ u, u ≠ t ∧ ph u = false ∧ d.wr l (H u) = true) :
    ∃ C', BStep cfg C C' ∧
      Rel d cfg { sh := D', calls := calls.set t { x with prog := p' } } C' (setH H t h') (setPh ph t true) := by
  have hlt := (List.getElem?_eq_some_iff.1 hx).1
  have hblk : block cfg x.oracle t q C.sh = (post cfg x.oracle t p' s', s') := by simp only [block, hpre]
  refine ⟨_, .run t hq, ?_⟩
  simp only [hblk]
  refine ⟨by simp only [List.length_set]; exact r.size, ?_, ?_⟩
  · intro u y hy
    simp only at hy
    by_cases hut : u = t
    · subst hut
      rw [List.getElem?_set_self hlt] at hy
      injection hy with hy; subst hy
      refine ⟨post cfg x.oracle u p' s', ?_, ?_, ?_⟩
      · simp only
        rw [List.getElem?_set_self (by rw [r.size]; exact hlt)]
      · rw [setPh_same]; exact hb
      · rw [setPh_same]
        exact post_frame ld ho hb hrd
    · rw [List.getElem?_set_ne (Ne.symm hut)] at hy
      rw [setPh_other _ _ hut, setH_other _ _ hut]
      obtain ⟨q', h1, h2⟩ := r.thread u y hy
      obtain ⟨Q, ho⟩ := hob u y hut hy
      refine ⟨q', ?_, relThread_other ld ho h2 (hD u hut) fun l hl => hwr l (hex u hut l hl)⟩
      simp only
      rw [List.getElem?_set_ne (Ne.symm hut)]
      exact h1
  · intro l
    cases hw : d.wr l h' with
    | true => exact Or.inl (hrd l (ld.wr_rd l h' hw)).symm
    | false =>
      rcases hdata l with h | h | ⟨u, h1, h2, h3⟩
      · exact Or.inl (h.trans (hwr l hw).symm)
      · rw [hw] at h; cases h
      · exact Or.inr ⟨u, by rwa [setPh_other _ _ h1], by rwa [setH_other _ _ h1]⟩

theorem blocky_stopped {p : Prog Ret} (h : stopped p = true) (hb : Blocky (fun _ _ => True) false p) :
    Blocky (fun _ _ => True) true p := by
  cases p with
  | ret a => trivial
  | crash e => trivial
  | act a k =>
    cases hf : a.frees with
    | none => simp [stopped, hf] at h
    | some b =>
      refine ⟨fun _ => ?_, fun b => ?_⟩
      · cases a <;> simp_all [Act.frees, Act.writes, Act.acquires]
      · have := hb.2 b
        simpa [phase, hf, (frees_lock hf).2] using this

/-- One of the two. -/
theorem rel_advance {d : Discipline} (ld : Laws d) {D D' : Shared} {calls : List Thread} {C : Config} {H : Tid → Held}
    {ph : Tid → Bool} (r : Rel d cfg { sh := D, calls := calls } C H ph) {t : Tid} {x : Thread} {q p' : Prog Ret}
    {h' : Held} {s' : Shared} (hx : calls[t]? = some x) (hq : C.calls[t]? = some { x with prog := q })
    (hp : Path d cfg x.oracle t q C.sh h' p' s') (hb : Blocky (fun _ _ => True) false p')
    {Q : Held → Ret → Prop} (ho : Obeys d Q h' p')
    (hrd : ∀ l, d.rd l h' = true → SameAt l s' D')
    (hob : ∀ u y, u ≠ t → calls[u]? = some y → ∃ Q, Obeys d Q (H u) y.prog)
    (hD : ∀ u, u ≠ t → ∀ l, d.rd l (H u) = true → SameAt l D' D)
    (hex : ∀ u, u ≠ t → ∀ l, d.rd l (H u) = true → d.wr l h' = false)
    (hdata : ∀ l, SameAt l D' C.sh ∨ d.wr l h' = true ∨ ∃ u, u ≠ t ∧ ph u = false ∧ d.wr l (H u) = true) :
    ∃ C' ph', BMove cfg C C' ∧
      Rel d cfg { sh := D', calls := calls.set t { x with prog := p' } } C' (setH H t h') ph' := by
  cases hs : stopped p' with
  | false => exact ⟨C, _, .inl rfl, rel_stay ld r hx hq hp hs hb hrd hob hD hdata⟩
  | true =>
    obtain ⟨C', h1, h2⟩ := rel_commit ld r hx hq ((path_pre hp).trans (pre_stopped hs)) (path_wr ld hp)
      (blocky_stopped hs hb) ho hrd hob hD hex hdata
    exact ⟨C', _, .inr h1, h2⟩

/-- Every step of the interleaved execution is matched. -/
theorem rel_move {d : Discipline} {c c' C : Config} {H : Tid → Held} {ph : Tid → Bool} {t : Tid}
    (i : LockInv c H) (r : Rel d cfg c C H ph) (hsuit : ∀ x ∈ c.calls, Copes d x) (hs : TStep cfg t c c') :
    ∃ H' C' ph', LockInv c' H' ∧ BMove cfg C C' ∧ Rel d cfg c' C' H' ph' := by
  have hob : ∀ (c : Config), LockInv c H → (∀ x ∈ c.calls, Copes d x) →
      ∀ u y, u ≠ t → c.calls[u]? = some y → ∃ Q, Obeys d Q (H u) y.prog := by
    intro c i hsuit u y _ hy
    exact (hsuit y (List.mem_of_getElem? hy)).obeys (i.good u y hy)
  cases hs with
  | @act D D' calls op o β a k b h he =>
    have hob := hob _ i hsuit
    have su : Suits d op := (hsuit _ (List.mem_of_getElem? h)).suits trivial
    have ld := su.laws
    have hg := su.obeys (i.good t _ h)
    have ha := hg.1
    have hi' := lockInv_act i h ha he
    obtain ⟨q, hq, hbl, hrel⟩ := r.thread t _ h
    refine (?_ : ∃ C' ph', BMove cfg C C' ∧ Rel d cfg { sh := D', calls := calls.set t { op := op, oracle := o, prog := k b } } C'
      (setH H t ((H t).after a)) ph').elim fun C' h => h.elim fun ph' h => ⟨_, C', ph', hi', h⟩
    have hex : ∀ u, u ≠ t → ∀ l, d.rd l (H u) = true → d.wr l ((H t).after a) = false := by
      intro u hut l hl
      have := wr_false_of_rd ld hi' (Ne.symm hut) (l := l) (by rw [setH_other _ _ hut]; exact hl)
      rwa [setH_same] at this
    -- what `t` may read is what the coarse execution has, unless `t` is writing it
    have hown : ∀ l, d.rd l ((H t).after a) = true → SameAt l D C.sh ∨ (ph t = false ∧ d.wr l (H t) = true) := by
      intro l hl
      rcases r.data l with h' | ⟨u, h1, h2⟩
      · exact Or.inl h'
      · by_cases hut : u = t
        · subst hut; exact Or.inr ⟨h1, h2⟩
        · have := wr_false_of_rd ld hi' hut (l := l) (by rw [setH_same]; exact hl)
          rw [setH_other _ _ hut, h2] at this
          cases this
    have hdata : ∀ l, SameAt l D C.sh ∨ (ph t = false ∧ d.wr l (H t) = true) ∨
        ∃ u, u ≠ t ∧ ph u = false ∧ d.wr l (H u) = true := by
      intro l
      rcases r.data l with h' | ⟨u, h1, h2⟩
      · exact Or.inl h'
      · by_cases hut : u = t
        · subst hut; exact Or.inr (Or.inl ⟨h1, h2⟩)
        · exact Or.inr (Or.inr ⟨u, hut, h1, h2⟩)
    rcases lock_cases a with ⟨b', hb⟩ | ⟨b', hb⟩ | hl
    · -- taking a mutex
      have hbb : b' = b := by
        cases a <;> simp [Act.skips] at hb <;> rfl
      subst hbb
      have hsame := exec_lock_same (skips_lock hb).1 he
      have hbl' : Blocky (fun _ _ => True) false (k b') := by
        have := hbl.2 b'
        rwa [phase, hb] at this
      have hD : ∀ u, u ≠ t → ∀ l, d.rd l (H u) = true → SameAt l D' D := fun _ _ l _ => hsame l
      have hdata' : ∀ l, SameAt l D' C.sh ∨ d.wr l ((H t).after a) = true ∨ ∃ u, u ≠ t ∧ ph u = false ∧ d.wr l (H u) = true := by
        intro l
        rcases hdata l with h' | ⟨_, h'⟩ | h'
        · exact Or.inl ((hsame l).trans h')
        · exact Or.inr (Or.inl (ld.grow_wr a _ l (by rw [hb]; rfl) ha h'))
        · exact Or.inr (Or.inr h')
      cases hph : ph t with
      | true =>
        rw [hph] at hrel
        simp only [if_true] at hrel
        have hq' : q = .act a k := by rw [hrel]; simp only [post, hb]
        subst hq'
        refine rel_advance ld r h hq (.lock (.nil (H t)) ha hb) hbl' (hg.2 b') ?_ hob hD hex hdata'
        intro l hl
        rcases hown l hl with h' | ⟨h', _⟩
        · exact ((hsame l).trans h').symm
        · rw [hph] at h'; cases h'
      | false =>
        rw [hph] at hrel
        simp only [Bool.false_eq_true, if_false] at hrel
        obtain ⟨_, s, hp, hrd⟩ := hrel
        refine rel_advance ld r h hq (.lock hp ha hb) hbl' (hg.2 b') ?_ hob hD hex hdata'
        intro l hl
        cases hc : d.rd l (H t) with
        | true => exact (hrd l hc).trans (hsame l).symm
        | false =>
          have hw : d.wr l (H t) = false := by
            cases hw : d.wr l (H t) with
            | false => rfl
            | true => rw [ld.wr_rd l _ hw] at hc; cases hc
          rcases hown l hl with h' | ⟨_, h'⟩
          · exact (path_wr ld hp l hw).trans ((hsame l).trans h').symm
          · rw [hw] at h'; cases h'
    · -- releasing a mutex
      have hbb : b' = b := by
        cases a <;> simp [Act.frees] at hb <;> rfl
      subst hbb
      have hsame := exec_lock_same (frees_lock hb).1 he
      cases hph : ph t with
      | false =>
        rw [hph] at hrel
        simp only [Bool.false_eq_true, if_false] at hrel
        have := hrel.1
        simp [stopped, hb] at this
      | true =>
        rw [hph] at hrel
        simp only [if_true] at hrel
        have hbl' : Blocky (fun _ _ => True) true (k b') := by
          have := hbl.2 b'
          rwa [phase, (frees_lock hb).2, hb] at this
        refine ⟨C, ph, .inl rfl, by rw [r.size]; simp, ?_, ?_⟩
        · intro u y hy
          simp only at hy
          by_cases hut : u = t
          · subst hut
            rw [List.getElem?_set_self (List.getElem?_eq_some_iff.1 h).1] at hy
            injection hy with hy; subst hy
            refine ⟨q, hq, ?_⟩
            rw [hph]
            refine ⟨hbl', ?_⟩
            simp only [if_true]
            rw [hrel]
            simp only [post, (frees_lock hb).2, hb]
            exact post_frame ld (hg.2 b') hbl' fun l _ => (hsame l).symm
          · rw [List.getElem?_set_ne (Ne.symm hut)] at hy
            rw [setH_other _ _ hut]
            obtain ⟨q', h1, h2⟩ := r.thread u y hy
            obtain ⟨Q, ho⟩ := hob u y hut hy
            exact ⟨q', h1, relThread_other ld ho h2 (fun l _ => hsame l) fun l _ => SameAt.refl _ _⟩
        · intro l
          rcases hdata l with h' | ⟨h', _⟩ | ⟨u, h1, h2, h3⟩
          · exact Or.inl ((hsame l).trans h')
          · rw [hph] at h'; cases h'
          · exact Or.inr ⟨u, h2, by rwa [setH_other _ _ h1]⟩
    · -- data
      obtain ⟨hrds, hwrs⟩ := allowed_data ha hl
      have hacc : ∀ l, a.reads = some l ∨ a.writes = some l → d.rd l (H t) = true := by
        intro l hl'
        rcases hl' with hl' | hl'
        · exact hrds l hl'
        · exact ld.wr_rd l _ (hwrs l hl')
      have haf : (H t).after a = H t := after_data hl
      rw [haf] at hex hown ⊢
      have hk := hg.2 b
      rw [haf] at hk
      have hbl' : Blocky (fun _ _ => True) (ph t) (k b) := by
        have := hbl.2 b
        rwa [phase, (data_none hl).1, (data_none hl).2] at this
      have hD : ∀ u, u ≠ t → ∀ l, d.rd l (H u) = true → SameAt l D' D := by
        intro u hut l hrd
        refine exec_data_same hl he l fun hw => ?_
        exact absurd (hwrs l hw) (by rw [hex u hut l hrd]; simp)
      cases hph : ph t with
      | true =>
        rw [hph] at hrel hbl hbl'
        simp only [if_true] at hrel
        have hnw : a.writes = none := (hbl.1 rfl).1
        have hsame : ∀ l, SameAt l D' D := fun l => exec_data_same hl he l (by rw [hnw]; simp)
        refine ⟨C, ph, .inl rfl, by rw [r.size]; simp, ?_, ?_⟩
        · intro u y hy
          simp only at hy
          by_cases hut : u = t
          · subst hut
            rw [List.getElem?_set_self (List.getElem?_eq_some_iff.1 h).1] at hy
            injection hy with hy; subst hy
            refine ⟨q, hq, ?_⟩
            rw [hph, setH_same]
            refine ⟨hbl', ?_⟩
            simp only [if_true]
            rw [hrel]
            simp only [post, (data_none hl).1, (data_none hl).2, he]
            exact post_frame ld hk hbl' fun l _ => (hsame l).symm
          · rw [List.getElem?_set_ne (Ne.symm hut)] at hy
            rw [setH_other _ _ hut]
            obtain ⟨q', h1, h2⟩ := r.thread u y hy
            obtain ⟨Q, ho⟩ := hob u y hut hy
            exact ⟨q', h1, relThread_other ld ho h2 (fun l _ => hsame l) fun l _ => SameAt.refl _ _⟩
        · intro l
          rcases hdata l with h' | ⟨h', _⟩ | ⟨u, h1, h2, h3⟩
          · exact Or.inl ((hsame l).trans h')
          · rw [hph] at h'; cases h'
          · exact Or.inr ⟨u, h2, by rwa [setH_other _ _ h1]⟩
      | false =>
        rw [hph] at hrel hbl'
        simp only [Bool.false_eq_true, if_false] at hrel
        obtain ⟨_, s, hp, hrd⟩ := hrel
        obtain ⟨s1, h1, h2⟩ := (exec_data_frame (cfg := cfg) (o := o) (t := t) hl fun l hl => hrd l (hacc l hl)).1 b D' he
        refine rel_advance ld r h hq (.data hp hl hacc hwrs h1) hbl' hk ?_ hob hD hex ?_
        · intro l hl'
          by_cases hw : a.writes = some l
          · exact h2 l hw
          · exact ((exec_data_same hl h1 l hw).trans (hrd l hl')).trans (exec_data_same hl he l hw).symm
        · intro l
          by_cases hw : a.writes = some l
          · exact Or.inr (Or.inl (hwrs l hw))
          · rcases hdata l with h' | ⟨_, h'⟩ | h'
            · exact Or.inl ((exec_data_same hl he l hw).trans h')
            · exact Or.inr (Or.inl h')
            · exact Or.inr (Or.inr h')
  | @crash D calls op o β a k e h he =>
    have hob := hob _ i hsuit
    have su : Suits d op := (hsuit _ (List.mem_of_getElem? h)).suits trivial
    have ld := su.laws
    have hg := su.obeys (i.good t _ h)
    have ha := hg.1
    have hl := lock_no_crash i.link ha he
    have hi' := lockInv_crash i h ha he
    have hset : setH H t (H t) = H := by
      funext u
      by_cases hut : u = t
      · subst hut; simp
      · rw [setH_other _ _ hut]
    have hset' : setPh ph t (ph t) = ph := by
      funext u
      by_cases hut : u = t
      · subst hut; simp
      · rw [setPh_other _ _ hut]
    obtain ⟨q, hq, hbl, hrel⟩ := r.thread t _ h
    cases hph : ph t with
    | true =>
      rw [hph] at hrel
      simp only [if_true] at hrel
      refine ⟨H, C, ph, hi', .inl rfl, by rw [r.size]; simp, ?_, r.data⟩
      intro u y hy
      simp only at hy
      by_cases hut : u = t
      · subst hut
        rw [List.getElem?_set_self (List.getElem?_eq_some_iff.1 h).1] at hy
        injection hy with hy; subst hy
        refine ⟨q, hq, trivial, ?_⟩
        rw [hph]
        simp only [if_true]
        rw [hrel]
        simp only [post, (data_none hl).1, (data_none hl).2, he]
      · rw [List.getElem?_set_ne (Ne.symm hut)] at hy
        exact r.thread u y hy
    | false =>
      rw [hph] at hrel
      simp only [Bool.false_eq_true, if_false] at hrel
      obtain ⟨_, s, hp, hrd⟩ := hrel
      obtain ⟨hrds, hwrs⟩ := allowed_data ha hl
      have hacc : ∀ l, a.reads = some l ∨ a.writes = some l → d.rd l (H t) = true := by
        intro l hl'
        rcases hl' with hl' | hl'
        · exact hrds l hl'
        · exact ld.wr_rd l _ (hwrs l hl')
      have h1 := (exec_data_frame (cfg := cfg) (o := o) (t := t) hl fun l hl => hrd l (hacc l hl)).2 e he
      have hpre : pre cfg o t q C.sh = (.crash e, s) := by
        rw [path_pre hp]
        simp only [pre, (data_none hl).1, (data_none hl).2, h1]
      obtain ⟨C', h2, h3⟩ := rel_commit (D' := D) (p' := .crash e) (h' := H t) ld r h hq hpre (path_wr ld hp) trivial
        (Q := fun _ _ => True) (ha.quiet hl) hrd hob (fun _ _ l _ => SameAt.refl _ _)
        (fun u hut l hl => wr_false_of_rd ld i (Ne.symm hut) hl) (by
          intro l
          rcases r.data l with h' | ⟨u, h1, h2⟩
          · exact Or.inl h'
          · by_cases hut : u = t
            · subst hut; exact Or.inr (Or.inl h2)
            · exact Or.inr (Or.inr ⟨u, hut, h1, h2⟩))
      rw [hset] at h3
      exact ⟨H, C', _, hi', .inr h2, h3⟩

end Visigoth
