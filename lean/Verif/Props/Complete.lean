import Verif.Props.Render
/-!
# The specification of the repository is exact (C66)

The earlier refinement theorems say that whatever a call does is allowed by `Spec/Repo.lean`.  Here the
converse: whatever is allowed does happen for some choice of map order and goroutine schedule, and
whether a call hangs or crashes does not depend on those choices.
-/
namespace Visigoth

variable {cfg : Cfg} {s : Shared} {a : SpecState}

/-- The runtime may choose any permutation. -/
theorem choosePerm_const {α : Type} [DecidableEq α] {l l' : List α} (h : l'.Perm l) :
    choosePerm (fun _ => l') l = l' := by
  unfold choosePerm
  rw [if_pos (List.isPerm_iff.2 h)]

/-- Two tables with the same keys in the same order and values given by the same function. -/
theorem table_ext {α β : Type} {f : α → Option β} : ∀ (l l' : List (α × β)), l.map (·.1) = l'.map (·.1) →
    (∀ e ∈ l, f e.1 = some e.2) → (∀ e ∈ l', f e.1 = some e.2) → l = l' := by
  intro l
  induction l with
  | nil => intro l' h _ _; cases l' with
    | nil => rfl
    | cons _ _ => cases h
  | cons x l ih =>
    intro l' h h1 h2
    cases l' with
    | nil => cases h
    | cons y l' =>
      injection h with ha hb
      have hx := h1 x (by simp)
      have hy := h2 y (by simp)
      rw [ih l' hb (fun e he => h1 e (by simp [he])) (fun e he => h2 e (by simp [he]))]
      congr 1
      have ha' : x.1 = y.1 := ha
      rw [ha', hy] at hx
      injection hx with hx
      exact Prod.ext ha' hx.symm

/-- Choices of the runtime: the given orders. -/
def chooses (keys : List Name) (ps : List Ptr) : Oracle :=
  { keyOrder := fun _ => keys, tokenOrder := fun _ => id, schedule := fun _ => ps, capacity := id }

theorem list_complete (h : Abs cfg s a) (t : Tid) {l : List Name} (hn : l.Nodup)
    (hm : ∀ n, n ∈ l ↔ (a.docs n).isSome) :
    run cfg (chooses l []) t (Op.prog cfg .list) s = .ok (.names l) s := by
  obtain ⟨idx, al, view, imuR, imuW, amuR, amuW⟩ := h
  have hp : l.Perm s.indices.keys := by
    rw [List.perm_ext_iff_of_nodup hn idx.nodup]
    intro n
    rw [hm, GoMap.mem_keys_iff, ← idx.isSome, Option.isSome_iff_exists]
  simp only [Op.prog, Repo.list, run_bind, run_rlock .indices s imuW, andThen_ok]
  rw [run_perform]
  simp only [exec, Exec.outcome, andThen_ok, Shared.setMu, Shared.mu, chooses, choosePerm_const hp]
  rw [run_runlock .indices _ s.imu.readers rfl]
  simp only [andThen_ok, run_pure, Shared.setMu, Shared.mu]

theorem listAliases_complete (h : Abs cfg s a) (hw : a.leakedWriter = false) (t : Tid)
    {l : List (Name × List Name)} (hn : (l.map (·.1)).Nodup) (hm : ∀ k v, (k, v) ∈ l ↔ a.aliases k = some v) :
    ∃ rows, run cfg (chooses (l.map (·.1)) []) t (Op.prog cfg .listAliases) s = .ok (.rows rows) s ∧
      (rows.map fun e => (e.1, s.elems e.2)) = l := by
  have hW := h.amuW_true
  obtain ⟨idx, al, view, imuR, imuW, amuR, amuW⟩ := h
  have hw' : s.amu.writer = none := by
    cases hx : s.amu.writer with
    | none => rfl
    | some _ => have := hW.2 (by rw [hx]; simp); rw [hw] at this; cases this
  have hp : (l.map (·.1)).Perm s.aliases.keys := by
    rw [List.perm_ext_iff_of_nodup hn al.nodup]
    intro n
    rw [GoMap.mem_keys_iff]
    constructor
    · intro hn
      obtain ⟨⟨k, v⟩, he, rfl⟩ := List.mem_map.1 hn
      have := (hm k v).1 he
      rw [view] at this
      obtain ⟨r, hr, _⟩ := Option.map_eq_some_iff.1 this
      exact ⟨r, hr⟩
    · rintro ⟨r, hr⟩
      have : a.aliases n = some (elemsIn s.arrays r) := by rw [view]; simp [alView, hr]
      exact List.mem_map.2 ⟨_, (hm _ _).2 this, rfl⟩
  obtain ⟨rows, h1, h2, h3⟩ := run_listRows (cfg := cfg) (o := chooses (l.map (·.1)) []) (t := t)
    (l.map (·.1)) { s with amu := { readers := t :: s.amu.readers, writer := s.amu.writer } }
    (fun k hk => by
      obtain ⟨v, hv⟩ := (GoMap.mem_keys_iff _ _).1 (hp.mem_iff.1 hk)
      simp [hv])
  refine ⟨rows, ?_, ?_⟩
  · simp only [Op.prog, Repo.listAliases, run_bind, run_rlock .aliases s hw', andThen_ok]
    rw [run_perform]
    simp only [exec, Exec.outcome, andThen_ok, Shared.setMu, Shared.mu]
    rw [show (chooses (l.map (·.1)) []).keyOrder = fun _ => l.map (·.1) from rfl, choosePerm_const hp, h1]
    simp only [andThen_ok]
    rw [run_runlock .aliases _ s.amu.readers rfl]
    simp only [andThen_ok, run_pure, Shared.setMu, Shared.mu]
  · apply table_ext (f := a.aliases)
    · rw [List.map_map]; exact h2
    · intro e he
      obtain ⟨x, hx, rfl⟩ := List.mem_map.1 he
      have := h3 x hx
      simp only at this
      rw [view]
      simp only [alView, this, Option.map_some]
      rfl
    · intro e he
      exact (hm e.1 e.2).1 he

theorem searchTargets_complete {s : Shared} {docs} (h : IdxOk cfg s.heap s.indices docs) (keys : List Name) (t : Tid)
    {l order : List Name} (ts : Str) (e : Engine) (hp : order.Perm l) {parts : List (List SearchResult)}
    (hs : order.map (fun m => (docs m).bind fun rs => specSearch cfg rs ts e) = parts.map some) :
    run cfg (chooses keys (order.map fun m => (s.indices.get m).getD 0)) t
      (Repo.searchTargets (l.map s.indices.get) ts e) s = .ok parts.flatten s := by
  have hall' : ∀ m ∈ order, (docs m).isSome := by
    intro m hm
    have : (docs m).bind (fun rs => specSearch cfg rs ts e) ∈ parts.map some := by
      rw [← hs]; exact List.mem_map_of_mem hm
    obtain ⟨p, _, hp⟩ := List.mem_map.1 this
    cases hd : docs m with
    | some _ => rfl
    | none => rw [hd] at hp; cases hp
  have hall : ∀ m ∈ l, (docs m).isSome := fun m hm => hall' m (hp.mem_iff.2 hm)
  generalize hor : chooses keys (order.map fun m => (s.indices.get m).getD 0) = o
  have key : run cfg o t (Repo.searchAll ts e (order.map fun m => (s.indices.get m).getD 0)) s
      = .ok parts.flatten s := by
    rw [run_searchAll ts e _ s (by
      intro p hp
      obtain ⟨m, hm, rfl⟩ := List.mem_map.1 hp
      obtain ⟨p, nm, rs, h1, h2, h3⟩ := h.ptr (hall' m hm)
      rw [h1]
      exact (List.getElem?_eq_some_iff.1 h3).1)]
    have hmap : (order.map fun m => (s.indices.get m).getD 0).map
          (fun p => (s.heap[p]?).bind fun mi => mi.search cfg.cp cfg.tok ts e)
        = order.map (fun m => (docs m).bind fun rs => specSearch cfg rs ts e) := by
      rw [List.map_map]
      apply List.map_congr_left
      intro m hm
      exact h.eval (hall' m hm) ts e
    rw [hmap, (sequence_eq_some _ _).2 hs]
  unfold Repo.searchTargets
  rw [nonNil_eq, ptrs_of_names h l hall]
  have hch : choosePerm o.schedule (l.map fun m => (s.indices.get m).getD 0)
      = order.map fun m => (s.indices.get m).getD 0 := by
    rw [← hor]
    exact choosePerm_const (hp.map _)
  have hgen : run cfg o t (do let ps ← perform (.schedule (l.map fun m => (s.indices.get m).getD 0))
                              Repo.searchAll ts e ps) s = .ok parts.flatten s := by
    rw [run_bind, run_perform]
    simp only [exec, Exec.outcome, andThen_ok, hch, key]
  match l, hp, hgen, key with
  | [], _, hgen, _ => exact hgen
  | _ :: _ :: _, _, hgen, _ => exact hgen
  | [m], hp, _, key =>
    rw [List.perm_singleton.1 hp] at key
    simp only [List.map_cons, List.map_nil, Repo.searchAll, run_bind] at key ⊢
    generalize run cfg o t (Repo.searchIndex ((s.indices.get m).getD 0) ts e) s = out at key
    cases out with
    | ok r s' => simpa [run_pure] using key
    | hang _ => simp at key
    | crash _ => simp at key

theorem search_complete (h : Abs cfg s a) (n : Name) (ts : Str) (e : Engine) (hnh : ¬ a.hangs (.search n ts e))
    (t : Tid) {l : List Name} (hres : a.resolve n = some l) {order : List Name} (hp : order.Perm l)
    {parts : List (List SearchResult)}
    (hs : order.map (fun m => (a.docs m).bind fun rs => specSearch cfg rs ts e) = parts.map some) :
    ∃ o, run cfg o t (Op.prog cfg (.search n ts e)) s = .ok (.results parts.flatten) s := by
  have hW := h.amuW_true
  obtain ⟨idx, hal, view, imuR, imuW, amuR, amuW⟩ := h
  have hi := idx.isSome n
  refine ⟨chooses [] (order.map fun m => (s.indices.get m).getD 0), ?_⟩
  simp only [Op.prog, Repo.search, run_bind, run_rlock .indices s imuW, andThen_ok]
  rw [run_perform]
  simp only [exec, Exec.outcome, andThen_ok, Shared.setMu, Shared.mu]
  cases hg : s.indices.get n with
  | some p =>
    have hd : (a.docs n).isSome = true := by rw [← hi, hg]; rfl
    have : l = [n] := by simpa [SpecState.resolve, hd] using hres.symm
    subst this
    have hst := searchTargets_complete
      (s := { s with imu := { readers := t :: s.imu.readers, writer := s.imu.writer } }) idx [] t ts e hp hs
    simp only [List.map_cons, List.map_nil, hg] at hst
    simp only [run_bind]
    rw [hst]
    simp only [andThen_ok]
    rw [run_runlock .indices _ s.imu.readers rfl]
    simp only [andThen_ok, run_pure, Shared.setMu, Shared.mu]
  | none =>
    have hd : a.docs n = none := idx.absent n hg
    have hw : s.amu.writer = none := Classical.byContradiction fun hw => hnh ⟨hd, hW.2 hw⟩
    simp only [run_bind]
    rw [run_rlock .aliases]
    case h => exact hw
    simp only [andThen_ok, Shared.setMu, Shared.mu]
    rw [run_perform]
    simp only [exec, Exec.outcome, andThen_ok]
    have hv : a.aliases n = some l := by simpa [SpecState.resolve, hd] using hres
    rw [view] at hv
    obtain ⟨r, hga, rfl⟩ := Option.map_eq_some_iff.1 hv
    have hvr := hal.valid n r hga
    rw [hga]
    simp only [run_bind]
    rw [run_resolve r]
    case h => exact hvr
    simp only [andThen_ok]
    rw [run_runlock .aliases _ s.amu.readers rfl]
    simp only [andThen_ok, Shared.setMu, Shared.mu]
    have hst := searchTargets_complete
      (s := { s with imu := { readers := t :: s.imu.readers, writer := s.imu.writer },
                     amu := { readers := s.amu.readers, writer := s.amu.writer } }) idx [] t ts e hp hs
    erw [hst]
    simp only [andThen_ok]
    rw [run_runlock .indices _ s.imu.readers rfl]
    simp only [andThen_ok, run_pure, Shared.setMu, Shared.mu]

/-! ## The text determines the choices -/

theorem decimalValue_pos {ds : Str} (hne : ds ≠ []) (hd : ∀ d ∈ ds, 0x30 ≤ d ∧ d ≤ 0x39)
    (h0 : ds.head? ≠ some 0x30) : 0 < decimalValue ds := by
  cases ds with
  | nil => exact absurd rfl hne
  | cons d ds =>
    have h1 := (hd d (by simp)).1
    rw [UInt8.le_iff_toNat_le] at h1
    have h48 : (0x30 : UInt8).toNat = 48 := rfl
    rw [h48] at h1
    have h2 : d.toNat ≠ 48 := by
      intro he
      apply h0
      rw [List.head?_cons]
      congr 1
      exact UInt8.toNat_inj.1 (by rw [he]; rfl)
    have : decimalValue (d :: ds) = decimalValue [d] * 10 ^ ds.length + decimalValue ds :=
      decimalValue_append [d] ds
    rw [this]
    have hv : decimalValue [d] = d.toNat - 48 := by simp [decimalValue]
    rw [hv]
    exact Nat.add_pos_left (Nat.mul_pos (by omega) (Nat.pow_pos (by decide))) _

/-- A number has one decimal representation. -/
theorem isDecimal_eq {n : Nat} : ∀ {ds ds' : Str}, IsDecimal ds n → IsDecimal ds' n → ds = ds' := by
  have split : ∀ ds : Str, ds ≠ [] → ∃ xs d, ds = xs ++ [d] := by
    intro ds h
    exact ⟨ds.dropLast, ds.getLast h, (List.dropLast_concat_getLast h).symm⟩
  have digit : ∀ d : UInt8, 0x30 ≤ d ∧ d ≤ 0x39 → 48 ≤ d.toNat ∧ d.toNat ≤ 57 := by
    intro d ⟨h1, h2⟩
    rw [UInt8.le_iff_toNat_le] at h1 h2
    exact ⟨h1, h2⟩
  have value : ∀ xs d, decimalValue (xs ++ [d]) = decimalValue xs * 10 + (d.toNat - 48) := by
    intro xs d
    rw [decimalValue_append]
    simp [decimalValue]
  have front : ∀ xs d m, xs ≠ [] → IsDecimal (xs ++ [d]) m → IsDecimal xs (decimalValue xs) ∧ 0 < decimalValue xs := by
    intro xs d m hx h
    have h0 : xs.head? ≠ some 0x30 := by
      intro he
      have hh : (xs ++ [d]).head? = some 0x30 := by rw [List.head?_append, he]; rfl
      have := congrArg List.length (h.2.2.1 hh)
      simp only [List.length_append, List.length_singleton] at this
      exact hx (List.length_eq_zero_iff.1 (by omega))
    have hd : ∀ d ∈ xs, 0x30 ≤ d ∧ d ≤ 0x39 := fun d hd => h.2.1 d (by simp [hd])
    exact ⟨⟨hx, hd, fun h => absurd h h0, rfl⟩, decimalValue_pos hx hd h0⟩
  have key : ∀ (k : Nat) (ds ds' : Str) (n : Nat), ds.length = k → IsDecimal ds n → IsDecimal ds' n → ds = ds' := by
    intro k
    induction k with
    | zero => intro ds ds' n hl h _; exact absurd (List.length_eq_zero_iff.1 hl) h.1
    | succ k ih =>
      intro ds ds' n hl h h'
      obtain ⟨xs, d, rfl⟩ := split ds h.1
      obtain ⟨xs', d', rfl⟩ := split ds' h'.1
      have e := h.2.2.2.trans h'.2.2.2.symm
      rw [value, value] at e
      have hd := digit d (h.2.1 d (by simp))
      have hd' := digit d' (h'.2.1 d' (by simp))
      have hv : decimalValue xs = decimalValue xs' := by omega
      have hdd : d = d' := UInt8.toNat_inj.1 (by omega)
      subst hdd
      congr 1
      by_cases hx : xs = []
      · by_cases hx' : xs' = []
        · rw [hx, hx']
        · have := (front xs' d n hx' h').2
          rw [← hv, hx] at this
          simp [decimalValue] at this
      · by_cases hx' : xs' = []
        · have := (front xs d n hx h).2
          rw [hv, hx'] at this
          simp [decimalValue] at this
        · exact ih xs xs' (decimalValue xs) (by simpa using hl) (front xs d n hx h).1
            (hv ▸ (front xs' d n hx' h').1)
  intro ds ds' h h'
  exact key _ ds ds' n rfl h h'

theorem isNumbers_eq {ns : List Nat} {t t' : Str} (h : IsNumbers t ns) (h' : IsNumbers t' ns) : t = t' := by
  obtain ⟨ps, h1, h2, h3⟩ := h
  obtain ⟨ps', h1', h2', h3'⟩ := h'
  have : ps = ps' := by
    apply List.ext_getElem (h1.trans h1'.symm)
    intro i hi hi'
    have hin : i < ns.length := h1 ▸ hi
    exact isDecimal_eq (h2 i _ _ (List.getElem?_eq_getElem hi) (List.getElem?_eq_getElem hin))
      (h2' i _ _ (List.getElem?_eq_getElem hi') (List.getElem?_eq_getElem hin))
  rw [h3, h3', this]

theorem isEntry_eq {token : Str} {ps : List Nat} {l l' : Str} (h : IsEntry l token ps) (h' : IsEntry l' token ps) :
    l = l' := by
  obtain ⟨c, ns, h1, h2, h3⟩ := h
  obtain ⟨c', ns', h1', h2', h3'⟩ := h'
  rw [h3, h3', isDecimal_eq h1 h1', isNumbers_eq h2 h2']

/-- A text of an index is the one `String` gives when the runtime iterates in the order of the lines. -/
theorem renders_string {tok : Tokenizer} {name : Str} {rs : List DocRequest} {text : Str}
    (h : Renders tok name rs text) : ∃ tokens : List Str, tokens.Perm (buildIndex tok name rs).inverted.keys ∧
      text = (buildIndex tok name rs).string (choosePerm fun _ => tokens) := by
  obtain ⟨tokens, lines, h1, h2, h3, h4, h5⟩ := h
  have hp : tokens.Perm (buildIndex tok name rs).inverted.keys := by
    rw [List.perm_ext_iff_of_nodup h1 (buildIndex_keys_nodup tok name rs)]
    intro t
    rw [h2, mem_inverted_keys]
  refine ⟨tokens, hp, ?_⟩
  have hl : lines = tokens.map fun t => fmtEntry t (positions tok rs t) := by
    apply List.ext_getElem (by rw [h3, List.length_map])
    intro i hi hi'
    have hit : i < tokens.length := h3 ▸ hi
    rw [List.getElem_map]
    exact isEntry_eq (h4 i _ _ (List.getElem?_eq_getElem hi) (List.getElem?_eq_getElem hit)) (fmtEntry_isEntry _ _)
  unfold MemoryIndex.string
  rw [buildIndex_name, choosePerm_const hp, h5, hl]
  have e1 : lit "{\n" ++ (lit "\tname=" ++ name) = str "{\n\tname=" ++ name := by
    rw [← List.append_assoc]
    congr 1
    decide +kernel
  have e2 : lit "\n}" = str "\n}" := by decide +kernel
  rw [e1, e2, ← List.flatMap_def]
  congr 3
  funext t
  rw [buildIndex_inverted]

/-! ## C66 -/

/-- A call hangs exactly when the specification says so, whatever the runtime chooses. -/
theorem C66_hang_exact (h : Abs cfg s a) (op : Op) (o : Oracle) (t : Tid) :
    (∃ s', run cfg o t (op.prog cfg) s = .hang s') ↔ a.hangs op :=
  ⟨fun ⟨_, hs⟩ => step_hang h hs, step_hangs o t h⟩

/-- The specification names at most one way to crash. -/
theorem crashes_unique {op : Op} {c c' : Crash} (h : a.crashes cfg op c) (h' : a.crashes cfg op c') : c = c' := by
  cases op with
  | put n d =>
    obtain ⟨l, h1, h2⟩ := h
    obtain ⟨l', h1', h2'⟩ := h'
    rw [h1] at h1'; injection h1' with h1'; subst h1'
    rcases h2 with ⟨rfl, m, hm, hd⟩ | ⟨rfl, hl, _⟩ <;> rcases h2' with ⟨rfl, m', hm', hd'⟩ | ⟨rfl, hl', _⟩
    · rfl
    · have := hl' m hm; rw [hd] at this; cases this
    · have := hl m' hm'; rw [hd'] at this; cases this
    · rfl
  | search n ts e =>
    obtain ⟨l, h1, h2⟩ := h
    obtain ⟨l', h1', h2'⟩ := h'
    rw [h1] at h1'; injection h1' with h1'; subst h1'
    rcases h2 with ⟨rfl, m, hm, hd⟩ | ⟨rfl, hl, _⟩ <;> rcases h2' with ⟨rfl, m', hm', hd'⟩ | ⟨rfl, hl', _⟩
    · rfl
    · have := hl' m hm; rw [hd] at this; cases this
    · have := hl m' hm'; rw [hd'] at this; cases this
    · rfl
  | _ => exact absurd h id

/-- A call crashes exactly when and how the specification says, whatever the runtime chooses. -/
theorem C66_crash_exact (h : Abs cfg s a) (op : Op) (o : Oracle) (t : Tid) (c : Crash) :
    run cfg o t (op.prog cfg) s = .crash c ↔ ¬ a.hangs op ∧ a.crashes cfg op c := by
  refine ⟨step_crash h, fun ⟨hh, hc⟩ => ?_⟩
  have := refine_op (o := o) (t := t) h op
  cases hrun : run cfg o t (op.prog cfg) s with
  | ok r s' => rw [hrun] at this; exact absurd hc (this.2.1 c)
  | hang s' => rw [hrun] at this; exact absurd this hh
  | crash c' => rw [hrun] at this; rw [crashes_unique hc this.2]

/-- What the calls other than `String` may return is exactly what the specification allows: every
allowed return value is returned for some choice of the runtime. -/
theorem C66_returns_exact (h : Abs cfg s a) (op : Op) (hop : op ≠ .string) (t : Tid) (R : SRet) :
    (∃ o r s', run cfg o t (op.prog cfg) s = .ok r s' ∧ r.view s' = R) ↔
      ¬ a.hangs op ∧ (∀ c, ¬ a.crashes cfg op c) ∧ a.allows cfg op R := by
  constructor
  · rintro ⟨o, r, s', hrun, rfl⟩
    obtain ⟨h1, h2, h3, _, _⟩ := step_ok h hrun
    exact ⟨h1, h2, h3⟩
  · rintro ⟨hnh, hnc, hR⟩
    -- calls with one possible return value
    have det : ∀ R0 : SRet, R = R0 → (∀ R', a.allows cfg op R' → R' = R0) →
        ∃ o r s', run cfg o t (op.prog cfg) s = .ok r s' ∧ r.view s' = R := by
      intro R0 he hall
      obtain ⟨r, s', h1, h2, _, _⟩ := step_completes (chooses [] []) t h hnh hnc
      exact ⟨_, r, s', h1, by rw [he]; exact hall _ h2⟩
    cases op with
    | string => exact absurd rfl hop
    | list =>
      obtain ⟨l, rfl, hn, hm⟩ := hR
      exact ⟨_, _, _, list_complete h t hn hm, rfl⟩
    | listAliases =>
      obtain ⟨l, rfl, hn, hm⟩ := hR
      have hw : a.leakedWriter = false := by
        simp only [SpecState.hangs] at hnh
        exact Bool.eq_false_iff.2 hnh
      obtain ⟨rows, h1, h2⟩ := listAliases_complete h hw t hn hm
      exact ⟨_, _, _, h1, by rw [← h2]; rfl⟩
    | search n ts e =>
      simp only [SpecState.allows] at hR
      cases hres : a.resolve n with
      | none =>
        rw [hres] at hR
        refine det _ hR (fun R' h' => ?_)
        simp only [SpecState.allows, hres] at h'
        exact h'
      | some l =>
        rw [hres] at hR
        obtain ⟨order, hp, parts, hs, rfl⟩ := hR
        obtain ⟨o, ho⟩ := search_complete h n ts e hnh t hres hp hs
        exact ⟨o, _, _, ho, rfl⟩
    | has n => exact det _ hR (fun R' h' => h')
    | hasAlias n => exact det _ hR (fun R' h' => h')
    | «alias» al i => exact det _ hR (fun R' h' => h')
    | unAlias al i => exact det _ hR (fun R' h' => h')
    | put n d => exact det _ hR (fun R' h' => h')
    | rename x y => exact det _ hR (fun R' h' => h')
    | drop n => exact det _ hR (fun R' h' => h')

/-- What `String` may return, exactly: any order of the indices and, for each of them independently, any
order of its tokens. -/
theorem C66_text_exact (h : Abs cfg s a) (t : Tid) (text : Str) :
    (∃ o, run cfg o t (Op.prog cfg .string) s = .ok (.text text) s) ↔
      ∃ (order : List Name) (parts : List Str), order.Nodup ∧ (∀ n, n ∈ order ↔ (a.docs n).isSome) ∧
        parts.length = order.length ∧ text = parts.flatten ∧
        ∀ (i : Nat) n part, order[i]? = some n → parts[i]? = some part →
          ∃ rs label p, a.docs n = some rs ∧ s.indices.get n = some p ∧ Carries s.heap p label ∧
            RendersLine cfg.tok label rs part := by
  constructor
  · rintro ⟨o, ho⟩
    obtain ⟨order, parts, h1, h2, h3, h4, h5⟩ := run_string h o t
    rw [ho] at h4
    injection h4 with h4
    injection h4 with h4
    exact ⟨order, parts, h1, h2, h3, h4, h5⟩
  · rintro ⟨order, parts, h1, h2, h3, rfl, h5⟩
    have idx := h.idx
    have hp : order.Perm s.indices.keys := by
      rw [List.perm_ext_iff_of_nodup h1 idx.nodup]
      intro n
      rw [h2, GoMap.mem_keys_iff, ← idx.isSome, Option.isSome_iff_exists]
    -- the order of the tokens of each index
    have hex : ∀ p : Ptr, ∃ tokens : List Str, ∀ (i : Nat) n part, order[i]? = some n → parts[i]? = some part →
        s.indices.get n = some p → s.heap[p]? = some (s.objAt n) ∧
        part = (s.objAt n).string (choosePerm fun _ => tokens) ++ lit "\n" := by
      intro p
      by_cases hx : ∃ (i : Nat) (n : Name) (part : Str), order[i]? = some n ∧ parts[i]? = some part ∧
          s.indices.get n = some p
      · obtain ⟨i, n, part, g1, g2, g3⟩ := hx
        obtain ⟨rs, label, p', e1, e2, ⟨mi, e3, e4⟩, txt, e5, e6⟩ := h5 i n part g1 g2
        rw [g3] at e2; injection e2 with e2; subst e2
        obtain ⟨nm, rs', f1, f2⟩ := idx.rep n p g3
        rw [e1] at f1; injection f1 with f1; subst f1
        have hob := s.objAt_eq g3 f2
        have hnm : nm = label := by
          rw [f2] at e3; injection e3 with e3; rw [← e4, ← e3, buildIndex_name]
        subst hnm
        obtain ⟨tokens, _, k2⟩ := renders_string e5
        refine ⟨tokens, fun j m part' q1 q2 q3 => ?_⟩
        have hmn : m = n := idx.inj m n p q3 g3
        subst hmn
        have hij : i = j := (List.getElem?_inj (List.getElem?_eq_some_iff.1 g1).1 h1).1 (g1.trans q1.symm)
        subst hij
        rw [g2] at q2; injection q2 with q2; subst q2
        refine ⟨by rw [hob]; exact f2, ?_⟩
        rw [hob, e6, k2, show str "\n" = lit "\n" by decide +kernel]
      · exact ⟨[], fun j m part' q1 q2 q3 => absurd ⟨j, m, part', q1, q2, q3⟩ hx⟩
    obtain ⟨F, hF⟩ := Classical.axiomOfChoice hex
    refine ⟨{ keyOrder := fun _ => order, tokenOrder := fun p _ => F p, schedule := id, capacity := id }, ?_⟩
    have hget : ∀ k ∈ order, s.indices.get k = some (s.ptrAt k) ∧ s.heap[s.ptrAt k]? = some (s.objAt k) := by
      intro k hk
      obtain ⟨p, hg⟩ := (GoMap.mem_keys_iff _ _).1 (hp.mem_iff.1 hk)
      obtain ⟨nm, rs, k1, k2⟩ := idx.rep k p hg
      have hpt := s.ptrAt_eq hg
      have hob := s.objAt_eq hg k2
      exact ⟨hpt ▸ hg, by rw [hob, hpt]; exact k2⟩
    have himw := h.imuW
    simp only [Op.prog, Repo.string, run_bind, run_rlock .indices s himw, andThen_ok]
    rw [run_perform]
    simp only [exec, Exec.outcome, andThen_ok, Shared.setMu, Shared.mu, choosePerm_const hp]
    rw [run_renderAll _ s.ptrAt s.objAt _ (fun k hk => by exact hget k hk)]
    simp only [andThen_ok]
    rw [run_runlock .indices _ s.imu.readers rfl]
    simp only [andThen_ok, run_pure, Shared.setMu, Shared.mu]
    congr 3
    apply List.ext_getElem (by rw [List.length_map, h3])
    intro i hi hi'
    have hio : i < order.length := by simpa using hi
    rw [List.getElem_map]
    exact ((hF _ i _ _ (List.getElem?_eq_getElem hio) (List.getElem?_eq_getElem hi')
      (hget _ (List.getElem_mem hio)).1).2).symm

/-- Two indices with the same tokens, shown in different orders of the tokens in one call. -/
example : ∃ o : Oracle, ∃ text, run sampleCfg o 0 (Op.prog sampleCfg .string)
      (stateAfter [.put (str "x") (newDocRequest (str "d") (str "go java")),
        .put (str "y") (newDocRequest (str "e") (str "go java"))]) = .ok (.text text)
      (stateAfter [.put (str "x") (newDocRequest (str "d") (str "go java")),
        .put (str "y") (newDocRequest (str "e") (str "go java"))]) ∧
    text = str "{\n\tname=x\n\t[token=go,length=(1)]=[0]\n\t[token=java,length=(1)]=[0]\n}\n{\n\tname=y\n\t[token=java,length=(1)]=[0]\n\t[token=go,length=(1)]=[0]\n}\n" :=
  ⟨{ keyOrder := id, tokenOrder := fun p => if p = 0 then id else List.reverse, schedule := id, capacity := id },
    _, by decide +kernel, rfl⟩

end Visigoth
