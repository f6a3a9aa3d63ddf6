import Verif.Proofs.Linear
import Verif.Proofs.Hits
import Verif.Spec.Ask
/-!
# The steps of the engines
-/
namespace Visigoth

theorem asking_bind {α β : Type} (p : Asking α) (f : α → Asking β) (ix : Indexer) :
    (p >>= f) ix = match p ix with
      | (l, none) => (l, none)
      | (l, some a) => (l ++ (f a ix).1, (f a ix).2) := rfl

theorem asking_pure {α : Type} (a : α) (ix : Indexer) : (pure a : Asking α) ix = ([], some a) := rfl

theorem asking_some {α β : Type} {p : Asking α} {f : α → Asking β} {ix : Indexer} {l : List Ask} {a : α}
    (h : p ix = (l, some a)) : (p >>= f) ix = (l ++ (f a ix).1, (f a ix).2) := by
  rw [asking_bind, h]

theorem asking_val {α β : Type} (p : Asking α) (f : α → Asking β) (ix : Indexer) :
    ((p >>= f) ix).2 = match (p ix).2 with
      | none => none
      | some a => (f a ix).2 := by
  rw [asking_bind]
  rcases p ix with ⟨l, _ | a⟩ <;> rfl

/-! ## The recorded engines compute what the others do -/

theorem hitsInnerA_val (ix : Indexer) : ∀ (l : List Nat) (m : GoMap HashKey SearchResult),
    (hitsInnerA l m ix).2 = hitsInner ix l m := by
  intro l
  induction l with
  | nil => intro m; rfl
  | cons i l ih =>
    intro m
    simp only [hitsInnerA, hitsInner]
    rw [asking_val]
    simp only [askDocument]
    cases ix.document i with
    | none => rfl
    | some d =>
      simp only
      cases m.get d.hash with
      | none => exact ih _
      | some r => exact ih _

theorem hitsPhase1A_val (ix : Indexer) : ∀ (ts : List Str) (m : GoMap HashKey SearchResult),
    (hitsPhase1A ts m ix).2 = hitsPhase1 ix ts m := by
  intro ts
  induction ts with
  | nil => intro m; rfl
  | cons t ts ih =>
    intro m
    simp only [hitsPhase1A, hitsPhase1]
    rw [asking_val]
    simp only [askIndexed]
    cases ix.indexed t with
    | none => exact ih _
    | some l =>
      simp only
      rw [asking_val, hitsInnerA_val]
      cases hitsInner ix l m with
      | none => rfl
      | some m' => exact ih _

theorem hitsPhase2A_val (ix : Indexer) (n : Nat) (m : GoMap HashKey SearchResult) : ∀ l : List Nat,
    (hitsPhase2A n m l ix).2 = hitsPhase2 ix n m l := by
  intro l
  induction l with
  | nil => rfl
  | cons i l ih =>
    simp only [hitsPhase2A, hitsPhase2]
    rw [asking_val]
    simp only [askLen]
    rw [asking_val]
    simp only [askDocument]
    cases ix.document i with
    | none => rfl
    | some d =>
      simp only
      rw [asking_val, ih]
      cases hitsPhase2 ix n m l with
      | none => rfl
      | some rs =>
        simp only
        cases m.get d.hash with
        | none => rfl
        | some r => simp only; split <;> rfl

theorem hitsSearchA_val (sort : List SearchResult → List SearchResult) (tokens : List Str) (ix : Indexer) :
    (hitsSearchA sort tokens ix).2 = hitsSearch sort tokens ix := by
  unfold hitsSearchA hitsSearch
  rw [asking_val, hitsPhase1A_val]
  cases hitsPhase1 ix tokens [] with
  | none => rfl
  | some m =>
    simp only
    rw [asking_val]
    unfold overPositions
    rw [hitsPhase2A_val]
    cases hitsPhase2 ix tokens.length m (List.range ix.len) <;> rfl

/-- The loop of `intersection` makes at most `len(a) + len(b)` iterations. -/
theorem interLoopA_eq (ix : Indexer) : ∀ (n : Nat) (a b : List Nat),
    ∃ k, k ≤ a.length + b.length ∧ interLoopA n a b ix = (List.replicate k .compare, some (interLoop n a b)) := by
  intro n
  induction n with
  | zero => intro a b; exact ⟨0, Nat.zero_le _, rfl⟩
  | succ n ih =>
    intro a b
    cases a with
    | nil => exact ⟨0, Nat.zero_le _, rfl⟩
    | cons x a =>
      cases b with
      | nil => exact ⟨0, Nat.zero_le _, rfl⟩
      | cons y b =>
        simp only [interLoopA, interLoop]
        rw [asking_some (l := [.compare]) (a := ()) rfl]
        by_cases h1 : x < y
        · simp only [h1, if_true]
          obtain ⟨k, hk, h⟩ := ih a (y :: b)
          exact ⟨k + 1, by simp at *; omega, by rw [h]; rfl⟩
        · by_cases h2 : x > y
          · simp only [h1, h2, if_true, if_false]
            obtain ⟨k, hk, h⟩ := ih (x :: a) b
            exact ⟨k + 1, by simp at *; omega, by rw [h]; rfl⟩
          · simp only [h1, h2, if_false]
            obtain ⟨k, hk, h⟩ := ih a b
            exact ⟨k + 1, by simp at *; omega, by rw [asking_some h, asking_pure]; simp [List.replicate_succ]⟩

/-- More iterations than that change nothing. -/
theorem interLoop_fuel : ∀ (n : Nat) (a b : List Nat), a.length + b.length ≤ n → interLoop n a b = intersection a b := by
  have key : ∀ (n m : Nat) (a b : List Nat), a.length + b.length ≤ n → a.length + b.length ≤ m →
      interLoop n a b = interLoop m a b := by
    intro n
    induction n with
    | zero =>
      intro m a b h _
      have : a = [] := List.eq_nil_of_length_eq_zero (by omega)
      subst this
      cases m <;> rfl
    | succ n ih =>
      intro m a b h1 h2
      cases a with
      | nil => cases m <;> rfl
      | cons x a =>
        cases b with
        | nil => cases m <;> rfl
        | cons y b =>
          cases m with
          | zero => simp at h2
          | succ m =>
            simp only [List.length_cons] at h1 h2
            simp only [interLoop]
            rw [ih m a (y :: b) (by simp; omega) (by simp; omega), ih m (x :: a) b (by simp; omega) (by simp; omega),
              ih m a b (by omega) (by omega)]
  intro n a b h
  exact key _ _ a b h (Nat.le_refl _)

theorem linearLoopA_val (ix : Indexer) : ∀ (ts : List Str) (docs : List Nat),
    (linearLoopA ts docs ix).2 = some (linearLoop ix ts docs) := by
  intro ts
  induction ts with
  | nil => intro docs; rfl
  | cons t ts ih =>
    intro docs
    simp only [linearLoopA, linearLoop]
    rw [asking_val]
    simp only [askIndexed]
    cases ix.indexed t with
    | none => rfl
    | some l =>
      simp only
      obtain ⟨k, _, h⟩ := interLoopA_eq ix (docs.length + l.length) docs l
      rw [asking_some h]
      simp only
      unfold intersection
      cases interLoop (docs.length + l.length) docs l with
      | nil => rfl
      | cons d ds => exact ih _

theorem toResultsA_val (ix : Indexer) (n : Nat) : ∀ l : List Nat, (toResultsA n l ix).2 = toResults ix n l := by
  intro l
  induction l with
  | nil => rfl
  | cons i l ih =>
    simp only [toResultsA, toResults]
    rw [asking_val]
    simp only [askDocument]
    cases ix.document i with
    | none => rfl
    | some d =>
      simp only
      rw [asking_val, ih]
      cases toResults ix n l <;> rfl

theorem linearSearchA_val (tokens : List Str) (ix : Indexer) : (linearSearchA tokens ix).2 = linearSearch tokens ix := by
  cases tokens with
  | nil => rfl
  | cons t ts =>
    simp only [linearSearchA, linearSearch]
    rw [asking_val]
    simp only [askIndexed]
    cases ix.indexed t with
    | none => rfl
    | some docs =>
      simp only
      rw [asking_val, linearLoopA_val]
      simp only
      cases linearLoop ix ts docs with
      | none => rfl
      | some docs => exact toResultsA_val ix _ _

theorem noopAllLoopA_val (ix : Indexer) : ∀ l : List Nat, (noopAllLoopA l ix).2 = toResults ix 0 l := by
  intro l
  induction l with
  | nil => rfl
  | cons i l ih =>
    simp only [noopAllLoopA, toResults]
    rw [asking_val]
    simp only [askLen]
    rw [asking_val]
    simp only [askDocument]
    cases ix.document i with
    | none => rfl
    | some d =>
      simp only
      rw [asking_val, ih]
      cases toResults ix 0 l <;> rfl

/-! ## The steps on an index built by `Put`s -/

section
variable {tok : Tokenizer} {rs : List DocRequest} {ix : Indexer}

theorem hitsInnerA_steps (hdoc : ∀ i, ix.document i = (rs[i]?).map docOf) :
    ∀ (l : List Nat) (m : GoMap HashKey SearchResult), (∀ i ∈ l, i < rs.length) →
      ∃ m', hitsInnerA l m ix = (l.map .document, some m') := by
  intro l
  induction l with
  | nil => intro m _; exact ⟨m, rfl⟩
  | cons i l ih =>
    intro m hl
    have hi : askDocument i ix = ([.document i], some (docOf (rs[i]'(hl i (by simp))))) := by
      simp [askDocument, hdoc, List.getElem?_eq_getElem (hl i (by simp))]
    simp only [hitsInnerA]
    rw [asking_some hi]
    have tl : ∀ j ∈ l, j < rs.length := fun j hj => hl j (by simp [hj])
    cases hm : m.get (docOf (rs[i]'(hl i (by simp)))).hash with
    | none =>
      obtain ⟨m', h⟩ := ih (m.set (docOf (rs[i]'(hl i (by simp)))).hash { document := docOf (rs[i]'(hl i (by simp))), hits := 1 }) tl
      exact ⟨m', by simp only [h]; rfl⟩
    | some r =>
      obtain ⟨m', h⟩ := ih (m.set (docOf (rs[i]'(hl i (by simp)))).hash { r with hits := r.hits + 1 }) tl
      exact ⟨m', by simp only [h]; rfl⟩

theorem hitsPhase1A_steps (hix : ∀ t, (ix.indexed t).getD [] = positions tok rs t)
    (hdoc : ∀ i, ix.document i = (rs[i]?).map docOf) :
    ∀ (ts : List Str) (m : GoMap HashKey SearchResult), ∃ m',
      hitsPhase1A ts m ix = (ts.flatMap (fun t => .indexed t :: (positions tok rs t).map .document), some m') := by
  intro ts
  induction ts with
  | nil => intro m; exact ⟨m, rfl⟩
  | cons t ts ih =>
    intro m
    simp only [hitsPhase1A]
    rw [asking_some (l := [.indexed t]) (a := ix.indexed t) rfl]
    have hx := hix t
    cases hi : ix.indexed t with
    | none =>
      rw [hi] at hx
      have hx' : positions tok rs t = [] := by simpa using hx.symm
      obtain ⟨m', h⟩ := ih m
      exact ⟨m', by simp [h, hx']⟩
    | some l =>
      rw [hi] at hx
      simp only [Option.getD_some] at hx
      subst hx
      obtain ⟨m1, h1⟩ := hitsInnerA_steps hdoc (positions tok rs t) m (positions_lt tok rs t)
      obtain ⟨m', h⟩ := ih m1
      refine ⟨m', ?_⟩
      simp only
      rw [asking_some h1]
      simp [h]

theorem hitsPhase2A_steps (hdoc : ∀ i, ix.document i = (rs[i]?).map docOf) (n : Nat)
    (m : GoMap HashKey SearchResult) : ∀ (l : List Nat), (∀ i ∈ l, i < rs.length) →
      ∃ r, hitsPhase2A n m l ix = (l.flatMap (fun i => [.len, .document i]) ++ [.len], some r) := by
  intro l
  induction l with
  | nil => intro _; exact ⟨[], rfl⟩
  | cons i l ih =>
    intro hl
    have hi : askDocument i ix = ([.document i], some (docOf (rs[i]'(hl i (by simp))))) := by
      simp [askDocument, hdoc, List.getElem?_eq_getElem (hl i (by simp))]
    obtain ⟨r, h⟩ := ih fun j hj => hl j (by simp [hj])
    simp only [hitsPhase2A]
    rw [asking_some (l := [.len]) (a := ix.len) rfl, asking_some hi, asking_some h]
    cases m.get (docOf (rs[i]'(hl i (by simp)))).hash with
    | none => exact ⟨r, by simp [asking_pure]⟩
    | some x =>
      simp only
      split
      · exact ⟨x :: r, by simp [asking_pure]⟩
      · exact ⟨r, by simp [asking_pure]⟩

theorem hitsSearchA_steps (sort : List SearchResult → List SearchResult)
    (hix : ∀ t, (ix.indexed t).getD [] = positions tok rs t) (hlen : ix.len = rs.length)
    (hdoc : ∀ i, ix.document i = (rs[i]?).map docOf) (tokens : List Str) :
    (hitsSearchA sort tokens ix).1 = hitsSteps tok rs tokens := by
  unfold hitsSearchA hitsSteps
  obtain ⟨m, h1⟩ := hitsPhase1A_steps hix hdoc tokens []
  obtain ⟨r, h2⟩ := hitsPhase2A_steps hdoc tokens.length m (List.range rs.length) (fun i hi => List.mem_range.1 hi)
  rw [asking_some h1, asking_some (p := overPositions _) (by unfold overPositions; rw [hlen]; exact h2), asking_pure]
  simp

theorem toResultsA_steps (hdoc : ∀ i, ix.document i = (rs[i]?).map docOf) (n : Nat) :
    ∀ (l : List Nat), (∀ i ∈ l, i < rs.length) → (toResultsA n l ix).1 = l.map .document := by
  intro l
  induction l with
  | nil => intro _; rfl
  | cons i l ih =>
    intro hl
    have hi : askDocument i ix = ([.document i], some (docOf (rs[i]'(hl i (by simp))))) := by
      simp [askDocument, hdoc, List.getElem?_eq_getElem (hl i (by simp))]
    have h := ih fun j hj => hl j (by simp [hj])
    simp only [toResultsA]
    rw [asking_some hi, asking_bind]
    rcases hr : toResultsA n l ix with ⟨a, _ | b⟩ <;> rw [hr] at h <;> simp only at h <;> subst h
    · rfl
    · simp [asking_pure]

theorem matchPositions_eq (tokens : List Str) : matchPositions tok rs tokens = positionsWhere (hasAll tok tokens) rs := rfl

theorem any_iff_positions (p : DocRequest → Bool) : rs.any p = false ↔ positionsWhere p rs = [] := by
  rw [positionsWhere_eq_nil, List.filter_eq_nil_iff, List.any_eq_false]

theorem positions_length (t : Str) : (positions tok rs t).length = (rs.filter fun r => hasToken tok r t).length := by
  have h := filterMap_positionsWhere rs (fun r => hasToken tok r t) id
  rw [List.map_id] at h
  rw [← h, positions_eq_where]
  have hv : ∀ i ∈ positionsWhere (fun r => hasToken tok r t) rs, i < rs.length := by
    intro i hi
    unfold positionsWhere at hi
    exact List.mem_range.1 (List.mem_filter.1 hi).1
  revert hv
  generalize positionsWhere (fun r => hasToken tok r t) rs = l
  intro hv
  induction l with
  | nil => rfl
  | cons i l ih =>
    rw [List.filterMap_cons, List.getElem?_eq_getElem (hv i (by simp))]
    simp only [Option.map_some, List.length_cons]
    rw [ih fun j hj => hv j (by simp [hj])]

theorem postings_cons (t : Str) (ts : List Str) :
    postings tok rs (t :: ts) = (positions tok rs t).length + postings tok rs ts := by
  unfold postings
  rw [List.map_cons, List.sum_cons, positions_length]

theorem hasAll_snoc (seen : List Str) (u : Str) :
    hasAll tok (seen ++ [u]) = fun r => hasAll tok seen r && hasToken tok r u := by
  funext r; simp [hasAll]

theorem hasAll_append (a b : List Str) : hasAll tok (a ++ b) = fun r => hasAll tok a r && hasAll tok b r := by
  funext r; simp [hasAll]

/-- Work that consists of `Indexed` calls for the given tokens and of at most `n` iterations. -/
structure Work (w : List Ask) (ts : List Str) (n : Nat) : Prop where
  asks : w.filterMap Ask.token? = ts
  only : ∀ a ∈ w, (∃ t, a = .indexed t) ∨ a = .compare
  iters : w.count .compare ≤ n

theorem Work.nil (n : Nat) : Work [] [] n := ⟨rfl, fun a ha => by simp at ha, Nat.zero_le _⟩

theorem Work.step {w : List Ask} {ts : List Str} {n : Nat} (h : Work w ts n) (u : Str) (k : Nat) :
    Work ([.indexed u] ++ (List.replicate k .compare ++ w)) (u :: ts) (k + n) := by
  have reps : ∀ n, (List.replicate n Ask.compare).filterMap Ask.token? = [] := by
    intro n; induction n with
    | zero => rfl
    | succ n ih => rw [List.replicate_succ, List.filterMap_cons]; exact ih
  refine ⟨?_, ?_, ?_⟩
  · simp [List.filterMap_append, reps, Ask.token?, h.asks]
  · intro a ha
    simp only [List.cons_append, List.nil_append, List.mem_cons, List.mem_append, List.mem_replicate] at ha
    rcases ha with rfl | ⟨_, rfl⟩ | ha
    · exact Or.inl ⟨u, rfl⟩
    · exact Or.inr rfl
    · exact h.only a ha
  · have := h.iters
    simp [List.count_append]
    exact this

theorem Work.mono {w : List Ask} {ts : List Str} {n m : Nat} (h : Work w ts n) (hn : n ≤ m) : Work w ts m :=
  ⟨h.asks, h.only, Nat.le_trans h.iters hn⟩

theorem linearLoopA_steps (hix : ∀ t, (ix.indexed t).getD [] = positions tok rs t) :
    ∀ (ts seen : List Str), Work (linearLoopA ts (matchPositions tok rs seen) ix).1 (askedFrom tok rs seen ts)
      ((matchPositions tok rs seen).length + 2 * postings tok rs (askedFrom tok rs seen ts)) := by
  intro ts
  induction ts with
  | nil => intro seen; exact Work.nil _
  | cons u us ih =>
    intro seen
    have hx := hix u
    have hnext : intersection (matchPositions tok rs seen) (positions tok rs u)
        = matchPositions tok rs (seen ++ [u]) := by
      rw [matchPositions_eq, matchPositions_eq, positions_eq_where, intersection_where, hasAll_snoc]
    simp only [linearLoopA, askedFrom]
    rw [asking_some (l := [.indexed u]) (a := ix.indexed u) rfl]
    cases hi : ix.indexed u with
    | none =>
      rw [hi] at hx
      have hx' : positions tok rs u = [] := by simpa using hx.symm
      have hno : rs.any (hasAll tok (seen ++ [u])) = false := by
        rw [any_iff_positions, ← matchPositions_eq, ← hnext, hx']
        unfold intersection
        cases matchPositions tok rs seen with
        | nil => rfl
        | cons a l => simp [interLoop]
      rw [hno]
      exact ((Work.nil 0).step u 0).mono (Nat.zero_le _)
    | some l =>
      rw [hi] at hx
      simp only [Option.getD_some] at hx
      subst hx
      simp only
      obtain ⟨k, hk, h⟩ := interLoopA_eq ix ((matchPositions tok rs seen).length + (positions tok rs u).length)
        (matchPositions tok rs seen) (positions tok rs u)
      rw [asking_some h]
      have hint : interLoop ((matchPositions tok rs seen).length + (positions tok rs u).length)
        (matchPositions tok rs seen) (positions tok rs u) = matchPositions tok rs (seen ++ [u]) := hnext
      rw [hint]
      cases hc : matchPositions tok rs (seen ++ [u]) with
      | nil =>
        have hno : rs.any (hasAll tok (seen ++ [u])) = false := by
          rw [any_iff_positions, ← matchPositions_eq]; exact hc
        rw [hno]
        refine ((Work.nil 0).step u k).mono ?_
        simp only [Bool.false_eq_true, if_false, postings_cons]
        omega
      | cons d ds =>
        have hyes : rs.any (hasAll tok (seen ++ [u])) = true := by
          rw [← Bool.not_eq_false, any_iff_positions, ← matchPositions_eq, hc]; simp
        rw [hyes]
        simp only
        rw [← hc]
        refine ((ih (seen ++ [u])).step u k).mono ?_
        have hle : (matchPositions tok rs (seen ++ [u])).length ≤ (positions tok rs u).length := by
          rw [matchPositions_eq, hasAll_snoc, positions_eq_where]
          unfold positionsWhere
          rw [← List.countP_eq_length_filter, ← List.countP_eq_length_filter]
          apply List.countP_mono_left
          intro i _ hp
          cases hr : rs[i]? with
          | none => rw [hr] at hp; simp at hp
          | some r => rw [hr] at hp; simp at hp ⊢; exact hp.2
        simp only [if_true, postings_cons]
        omega

theorem matchPositions_lt (tokens : List Str) : ∀ i ∈ matchPositions tok rs tokens, i < rs.length := by
  intro i hi
  unfold matchPositions at hi
  exact List.mem_range.1 (List.mem_filter.1 hi).1

theorem linearSearchA_steps (hix : ∀ t, (ix.indexed t).getD [] = positions tok rs t)
    (hdoc : ∀ i, ix.document i = (rs[i]?).map docOf) (nilEmpty : Bool)
    (hnil : ∀ t, positions tok rs t = [] → (ix.indexed t = none ↔ nilEmpty = true)) (t : Str) (ts : List Str) :
    ∃ w, (linearSearchA (t :: ts) ix).1 = w ++ (matchPositions tok rs (t :: ts)).map .document ∧
      Work w (linearAsked nilEmpty tok rs (t :: ts)) (2 * postings tok rs (linearAsked nilEmpty tok rs (t :: ts))) := by
  have hx := hix t
  have one : matchPositions tok rs [t] = positions tok rs t := by
    rw [matchPositions_eq, positions_eq_where]
    congr 1
    funext r
    simp [hasAll]
  have none_all : positions tok rs t = [] → matchPositions tok rs (t :: ts) = [] := by
    intro h
    rw [matchPositions_eq, ← any_iff_positions, List.any_eq_false]
    rw [positions_eq_where, ← any_iff_positions, List.any_eq_false] at h
    intro r hr ha
    exact h r hr (by simp [hasAll] at ha; exact ha.1)
  simp only [linearSearchA]
  rw [asking_some (l := [.indexed t]) (a := ix.indexed t) rfl]
  simp only [linearAsked]
  cases hi : ix.indexed t with
  | none =>
    rw [hi] at hx
    have hx' : positions tok rs t = [] := by simpa using hx.symm
    have h1 : nilEmpty = true := (hnil t hx').1 hi
    have h2 : rs.any (hasAll tok [t]) = false := by rw [any_iff_positions, ← matchPositions_eq, one, hx']
    rw [h1, h2, none_all hx']
    refine ⟨[.indexed t], by simp [asking_pure], ?_⟩
    exact ((Work.nil 0).step t 0).mono (Nat.zero_le _)
  | some docs =>
    rw [hi] at hx
    simp only [Option.getD_some] at hx
    subst hx
    have hcond : (nilEmpty && !rs.any (hasAll tok [t])) = false := by
      cases hn : nilEmpty with
      | false => rfl
      | true =>
        cases ha : rs.any (hasAll tok [t]) with
        | true => rfl
        | false =>
          rw [any_iff_positions, ← matchPositions_eq, one] at ha
          have := (hnil t ha).2 hn
          rw [hi] at this
          cases this
    rw [hcond]
    simp only [Bool.false_eq_true, if_false]
    have hw := linearLoopA_steps hix ts [t]
    have hv := linearLoopA_val ix ts (positions tok rs t)
    have hl := linearLoop_eq tok rs ix hix ts (fun r => hasToken tok r t)
    rw [← positions_eq_where] at hl
    have hall : (fun r => hasToken tok r t && hasAll tok ts r) = hasAll tok (t :: ts) := by
      funext r; simp [hasAll]
    rw [hall, ← matchPositions_eq] at hl
    rw [one] at hw
    have hpair : linearLoopA ts (positions tok rs t) ix = ((linearLoopA ts (positions tok rs t) ix).1,
        some (linearLoop ix ts (positions tok rs t))) := by rw [← hv]
    rw [asking_some hpair]
    have fin : Work ([.indexed t] ++ (linearLoopA ts (positions tok rs t) ix).1) (t :: askedFrom tok rs [t] ts)
        (2 * postings tok rs (t :: askedFrom tok rs [t] ts)) := by
      refine (hw.step t 0).mono ?_
      rw [postings_cons]
      omega
    refine ⟨_, ?_, fin⟩
    cases hll : linearLoop ix ts (positions tok rs t) with
    | none =>
      rw [hll] at hl
      simp only [Option.getD_none] at hl
      rw [← hl]
      simp [asking_pure]
    | some docs =>
      rw [hll] at hl
      simp only [Option.getD_some] at hl
      subst hl
      simp only
      rw [toResultsA_steps hdoc _ _ (matchPositions_lt _)]
      simp

theorem noopAllLoopA_steps (hdoc : ∀ i, ix.document i = (rs[i]?).map docOf) :
    ∀ (l : List Nat), (∀ i ∈ l, i < rs.length) →
      (noopAllLoopA l ix).1 = l.flatMap (fun i => [.len, .document i]) ++ [.len] := by
  intro l
  induction l with
  | nil => intro _; rfl
  | cons i l ih =>
    intro hl
    have hi : askDocument i ix = ([.document i], some (docOf (rs[i]'(hl i (by simp))))) := by
      simp [askDocument, hdoc, List.getElem?_eq_getElem (hl i (by simp))]
    have h := ih fun j hj => hl j (by simp [hj])
    simp only [noopAllLoopA]
    rw [asking_some (l := [.len]) (a := ix.len) rfl, asking_some hi, asking_bind]
    rcases hr : noopAllLoopA l ix with ⟨a, _ | b⟩ <;> rw [hr] at h <;> simp only at h <;> subst h
    · rfl
    · simp [asking_pure]

theorem positionsWhere_length (p : DocRequest → Bool) : (positionsWhere p rs).length = (rs.filter p).length := by
  have h := congrArg List.length (filterMap_positionsWhere rs p id)
  rw [List.length_map] at h
  rw [← h, List.length_filterMap_eq_countP, List.countP_eq_length.2]
  intro i hi
  unfold positionsWhere at hi
  have := List.mem_range.1 (List.mem_filter.1 hi).1
  simp [List.getElem?_eq_getElem this]

theorem postings_doc (r : DocRequest) (tokens : List Str) :
    postings tok (r :: rs) tokens = tokens.countP (fun t => hasToken tok r t) + postings tok rs tokens := by
  unfold postings
  induction tokens with
  | nil => rfl
  | cons t ts ih =>
    rw [List.map_cons, List.sum_cons, ih, List.map_cons, List.sum_cons, List.countP_cons, List.filter_cons]
    cases hasToken tok r t <;> simp <;> omega

theorem length_le_postings (tokens : List Str) (h : ∀ r ∈ rs, ∃ t ∈ tokens, hasToken tok r t = true) :
    rs.length ≤ postings tok rs tokens := by
  induction rs with
  | nil => exact Nat.zero_le _
  | cons r rs ih =>
    rw [postings_doc, List.length_cons]
    have := ih fun q hq => h q (by simp [hq])
    have : 0 < tokens.countP (fun t => hasToken tok r t) := by
      rw [List.countP_pos_iff]
      exact h r (by simp)
    omega

theorem hitsSteps_length (tokens : List Str) :
    (hitsSteps tok rs tokens).length = tokens.length + postings tok rs tokens + 2 * rs.length + 1 := by
  have h1 : (tokens.flatMap (fun t => Ask.indexed t :: (positions tok rs t).map .document)).length
      = tokens.length + postings tok rs tokens := by
    induction tokens with
    | nil => rfl
    | cons t ts ih =>
      rw [List.flatMap_cons, List.length_append, ih, postings_cons]
      simp only [List.length_cons, List.length_map]
      omega
  have h2 : ∀ l : List Nat, (l.flatMap (fun i => [Ask.len, .document i])).length = 2 * l.length := by
    intro l
    induction l with
    | nil => rfl
    | cons i l ih => rw [List.flatMap_cons, List.length_append, ih]; simp; omega
  unfold hitsSteps
  rw [List.length_append, List.length_append, h1, h2, List.length_range, List.length_singleton]

theorem hitsInner_nodup : ∀ (l : List Nat) (m m' : GoMap HashKey SearchResult), m.keys.Nodup →
    hitsInner ix l m = some m' → m'.keys.Nodup := by
  intro l
  induction l with
  | nil => intro m m' h he; cases he; exact h
  | cons i l ih =>
    intro m m' h he
    simp only [hitsInner] at he
    split at he
    · cases he
    · split at he
      · exact ih _ _ (GoMap.nodup_set _ _ _ h) he
      · exact ih _ _ (GoMap.nodup_set _ _ _ h) he

theorem hitsPhase1_nodup : ∀ (ts : List Str) (m m' : GoMap HashKey SearchResult), m.keys.Nodup →
    hitsPhase1 ix ts m = some m' → m'.keys.Nodup := by
  intro ts
  induction ts with
  | nil => intro m m' h he; cases he; exact h
  | cons t ts ih =>
    intro m m' h he
    simp only [hitsPhase1] at he
    split at he
    · exact ih _ _ h he
    · split at he
      · cases he
      · next hin => exact ih _ _ (hitsInner_nodup _ _ _ h hin) he

/-- The table of `HitsSearch` after phase 1. -/
theorem hitsPhase1_table (hix : ∀ t, (ix.indexed t).getD [] = positions tok rs t)
    (hdoc : ∀ i, ix.document i = (rs[i]?).map docOf) (tokens : List Str) :
    ∃ m, hitsPhase1 ix tokens [] = some m ∧ m.keys.Nodup ∧
      ∀ h, h ∈ m.keys ↔ ∃ r ∈ rs, (docOf r).hash = h ∧ ∃ t ∈ tokens, hasToken tok r t = true := by
  obtain ⟨m, h1, h2⟩ := hitsPhase1_ok ix tok rs hdoc hix tokens [] [] (fun h => rfl)
  refine ⟨m, h1, hitsPhase1_nodup tokens [] m List.nodup_nil h1, fun h => ?_⟩
  rw [GoMap.mem_keys_iff]
  have hm := h2 h
  rw [List.nil_append] at hm
  rw [hm]
  unfold entryOf
  rw [visited_filter]
  have hocc : (∃ r ∈ rs, (docOf r).hash = h ∧ ∃ t ∈ tokens, hasToken tok r t = true) ↔
      occurrences tok rs tokens h ≠ [] := by
    unfold occurrences
    rw [ne_eq, List.flatMap_eq_nil_iff]
    constructor
    · rintro ⟨r, hr, he, t, ht, hh⟩ hall
      have := hall t ht
      rw [List.filter_eq_nil_iff] at this
      exact this r hr (by simp [he, hh])
    · intro hne
      apply Classical.byContradiction
      intro hno
      apply hne
      intro t ht
      rw [List.filter_eq_nil_iff]
      intro r hr hp
      simp only [Bool.and_eq_true, decide_eq_true_eq] at hp
      exact hno ⟨r, hr, hp.1, t, ht, hp.2⟩
  rw [hocc]
  cases occurrences tok rs tokens h with
  | nil => simp
  | cons q qs => simp

end

theorem askedFrom_prefix (tok : Tokenizer) (rs : List DocRequest) :
    ∀ (ts seen : List Str), askedFrom tok rs seen ts <+: ts := by
  intro ts
  induction ts with
  | nil => intro seen; exact List.prefix_rfl
  | cons u us ih =>
    intro seen
    simp only [askedFrom]
    split
    · exact (List.prefix_cons_inj u).2 (ih _)
    · exact (List.prefix_cons_inj u).2 (List.nil_prefix)

theorem askedFrom_goes (tok : Tokenizer) (rs : List DocRequest) :
    ∀ (a seen b : List Str) (v : Str), a ≠ [] →
      (a ++ [v] <+: askedFrom tok rs seen (a ++ v :: b) ↔ rs.any (hasAll tok (seen ++ a)) = true) := by
  intro a
  induction a with
  | nil => intro seen b v h; exact absurd rfl h
  | cons u a ih =>
    intro seen b v _
    simp only [List.cons_append, askedFrom]
    rw [List.prefix_cons_inj]
    split
    · next h =>
      cases a with
      | nil => simp [askedFrom, h]
      | cons w a =>
        rw [ih (seen ++ [u]) b v (by simp)]
        simp
    · next h =>
      simp only [List.prefix_nil, List.append_eq_nil_iff, List.cons_ne_self, and_false, false_iff,
        List.any_eq_true, not_exists, not_and]
      intro r hr hh
      refine h (List.any_eq_true.2 ⟨r, hr, ?_⟩)
      simp only [hasAll, List.all_append, List.all_cons, Bool.and_eq_true, List.all_nil] at hh ⊢
      exact ⟨hh.1, hh.2.1, trivial⟩

end Visigoth
