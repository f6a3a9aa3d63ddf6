import Verif.Proofs.Index
import Verif.Model.PutCost
import Verif.Spec.PutCost
/-! # The size of an index and the cost of `Put` -/
namespace Visigoth

theorem scanPostings_mem (next : Nat) (l : List Nat) : (scanPostings next l).2 = decide (next ∈ l) := by
  induction l with
  | nil => rfl
  | cons d l ih =>
    unfold scanPostings
    by_cases h : d = next
    · simp [h]
    · simp [h, ih, Ne.symm h]

theorem scanPostings_miss (next : Nat) (l : List Nat) (h : next ∉ l) : scanPostings next l = (l.length, false) := by
  induction l with
  | nil => rfl
  | cons d l ih =>
    simp only [List.mem_cons, not_or] at h
    unfold scanPostings
    rw [if_neg (Ne.symm h.1), ih h.2]; rfl

/-- The position just added is at the end. -/
theorem scanPostings_last (next : Nat) (l : List Nat) (h : next ∉ l) :
    scanPostings next (l ++ [next]) = (l.length + 1, true) := by
  induction l with
  | nil => simp [scanPostings]
  | cons d l ih =>
    simp only [List.mem_cons, not_or] at h
    rw [List.cons_append]
    unfold scanPostings
    rw [if_neg (Ne.symm h.1), ih h.2]; rfl

theorem addPostingC_fst (next : Nat) (s : GoMap Str (List Nat) × Nat) (tok : Str) :
    (addPostingC next s tok).1 = addPosting next s.1 tok := by
  unfold addPostingC addPosting
  have h := scanPostings_mem next ((s.1.get tok).getD [])
  dsimp only
  split
  · rename_i n hs
    rw [hs] at h
    rw [if_pos (by simpa using h)]
  · rename_i n hs
    rw [hs] at h
    rw [if_neg (by simpa using h)]

theorem addPostingsC_fst (next : Nat) (toks : List Str) : ∀ s : GoMap Str (List Nat) × Nat,
    (toks.foldl (addPostingC next) s).1 = toks.foldl (addPosting next) s.1 := by
  induction toks with
  | nil => intro s; rfl
  | cons t toks ih => intro s; rw [List.foldl_cons, List.foldl_cons, ih, addPostingC_fst]

theorem putC_fst (tok : Tokenizer) (s : MemoryIndex × Nat) (r : DocRequest) :
    (MemoryIndex.putC tok s r).1 = s.1.put tok r := by
  simp [MemoryIndex.putC, MemoryIndex.put, addPostingsC_fst]

theorem buildIndexC_append (tok : Tokenizer) (name : Str) (rs : List DocRequest) (r : DocRequest) :
    buildIndexC tok name (rs ++ [r]) = MemoryIndex.putC tok (buildIndexC tok name rs) r := by
  simp [buildIndexC]

theorem buildIndexC_fst (tok : Tokenizer) (name : Str) (rs : List DocRequest) :
    (buildIndexC tok name rs).1 = buildIndex tok name rs := by
  induction rs using rev_ind with
  | h0 => rfl
  | h1 rs r ih => rw [buildIndexC_append, buildIndex_append, putC_fst, ih]

/-! ## Sums over a map -/

/-- The sum of a function over the values of a map of positions. -/
def total (f : List Nat → Nat) (m : GoMap Str (List Nat)) : Nat := (m.map fun e => f e.2).sum

theorem total_set (f : List Nat → Nat) (h0 : f [] = 0) (m : GoMap Str (List Nat)) (k : Str) (v : List Nat) :
    total f (m.set k v) + f ((m.get k).getD []) = total f m + f v := by
  unfold total
  induction m with
  | nil => simp [GoMap.set, GoMap.get, h0]
  | cons e m ih =>
    obtain ⟨a, b⟩ := e
    unfold GoMap.set GoMap.get
    by_cases h : a = k
    · simp [h]; omega
    · simp only [if_neg h, List.map_cons, List.sum_cons]; omega

/-! ## Counting -/

/-- The tokens that do not have the new position yet. -/
def fresh (next : Nat) (inv : GoMap Str (List Nat)) (toks : List Str) : List Str :=
  toks.filter fun t => !decide (next ∈ (inv.get t).getD [])

theorem addPosting_old {next : Nat} {inv : GoMap Str (List Nat)} {t : Str} (h : next ∈ (inv.get t).getD []) :
    addPosting next inv t = inv := by
  unfold addPosting; dsimp only; rw [if_pos h]

theorem addPosting_new {next : Nat} {inv : GoMap Str (List Nat)} {t : Str} (h : next ∉ (inv.get t).getD []) :
    addPosting next inv t = inv.set t ((inv.get t).getD [] ++ [next]) := by
  unfold addPosting; dsimp only; rw [if_neg h]

theorem fresh_new {next : Nat} {inv : GoMap Str (List Nat)} {t : Str} (h : next ∉ (inv.get t).getD [])
    (toks : List Str) :
    fresh next (addPosting next inv t) toks = (fresh next inv toks).filter fun u => !(u == t) := by
  unfold fresh
  rw [List.filter_filter]
  apply List.filter_congr
  intro u _
  rw [addPosting_get]
  by_cases hu : u = t
  · subst hu; simp [h]
  · simp [hu]

theorem length_total (next : Nat) (toks : List Str) : ∀ inv : GoMap Str (List Nat),
    total List.length (toks.foldl (addPosting next) inv)
      = total List.length inv + different (fresh next inv toks) := by
  induction toks with
  | nil => intro inv; rfl
  | cons t toks ih =>
    intro inv
    rw [List.foldl_cons, ih]
    by_cases h : next ∈ (inv.get t).getD []
    · rw [addPosting_old h]
      simp [fresh, h]
    · rw [fresh_new h, addPosting_new h]
      have e := total_set List.length rfl inv t ((inv.get t).getD [] ++ [next])
      have e2 : fresh next inv (t :: toks) = t :: fresh next inv toks := by simp [fresh, h]
      rw [e2]
      unfold different
      rw [List.eraseDups_cons]
      simp only [List.length_append, List.length_cons, List.length_nil] at e ⊢
      omega

theorem fresh_all {next : Nat} {inv : GoMap Str (List Nat)} (h : ∀ t, next ∉ (inv.get t).getD []) (toks : List Str) :
    fresh next inv toks = toks := by
  unfold fresh
  rw [List.filter_eq_self]
  intro t _
  simp [h t]

theorem positions_docsWith (tok : Tokenizer) (rs : List DocRequest) (t : Str) :
    (positions tok rs t).length = docsWith tok rs t := by
  induction rs using rev_ind with
  | h0 => rfl
  | h1 rs r ih =>
    rw [positions_append, List.length_append, ih]
    unfold docsWith
    rw [List.countP_append]
    by_cases h : t ∈ tok r.statement <;> simp [h]

theorem next_new (tok : Tokenizer) (name : Str) (rs : List DocRequest) (t : Str) :
    (buildIndex tok name rs).docs.length ∉ ((buildIndex tok name rs).inverted.get t).getD [] := by
  rw [buildIndex_inverted, buildIndex_docs, List.length_map]
  exact fun h => absurd (positions_lt tok rs t _ h) (Nat.lt_irrefl _)

theorem build_total (tok : Tokenizer) (name : Str) (rs : List DocRequest) :
    total List.length (buildIndex tok name rs).inverted = pairs tok rs := by
  induction rs using rev_ind with
  | h0 => rfl
  | h1 rs r ih =>
    rw [buildIndex_append]
    show total List.length ((tok r.statement).foldl _ _) = _
    rw [length_total, ih, fresh_all (next_new tok name rs)]
    simp [pairs]

/-! ## Cost -/

theorem addPostingC_snd (next : Nat) (s : GoMap Str (List Nat) × Nat) (t : Str) :
    (addPostingC next s t).2 = s.2 + (scanPostings next ((s.1.get t).getD [])).1 := by
  unfold addPostingC
  dsimp only
  split <;> (rename_i n hs; rw [hs])

/-- The position under construction, if present, is the last one. -/
def Ended (next : Nat) (inv : GoMap Str (List Nat)) : Prop :=
  ∀ t, next ∉ ((inv.get t).getD []).dropLast

theorem ended_add {next : Nat} {inv : GoMap Str (List Nat)} (h : Ended next inv) (t : Str) :
    Ended next (addPosting next inv t) := by
  intro u
  rw [addPosting_get]
  split
  · rename_i hu; rw [List.dropLast_concat]; exact hu.2
  · exact h u

theorem scan_ended {next : Nat} {l : List Nat} (h : next ∉ l.dropLast) : (scanPostings next l).1 = l.length := by
  by_cases hm : next ∈ l
  · have hne : l ≠ [] := List.ne_nil_of_mem hm
    have e := List.dropLast_concat_getLast hne
    have hl : l.getLast hne = next := by
      rw [← e, List.mem_append, List.mem_singleton] at hm
      exact (hm.resolve_left h).symm
    rw [← e, hl, scanPostings_last _ _ h]
    simp
  · rw [scanPostings_miss _ _ hm]

/-- The number of positions of a token after the others have been processed. -/
theorem addPostingsC_snd (next : Nat) (toks : List Str) : ∀ s : GoMap Str (List Nat) × Nat, Ended next s.1 →
    (toks.foldl (addPostingC next) s).2 + different (fresh next s.1 toks)
      = s.2 + (toks.map fun t => (((s.1.get t).getD []).filter fun i => !decide (i = next)).length).sum
        + toks.length := by
  induction toks with
  | nil => intro s h; rfl
  | cons t toks ih =>
    intro s h
    rw [List.foldl_cons]
    have hi := ih (addPostingC next s t) (by rw [addPostingC_fst]; exact ended_add h t)
    rw [addPostingC_fst, addPostingC_snd, scan_ended (h t)] at hi
    have hsum : (toks.map fun u => ((((addPosting next s.1 t).get u).getD []).filter fun i => !decide (i = next)).length)
        = toks.map fun u => (((s.1.get u).getD []).filter fun i => !decide (i = next)).length := by
      apply List.map_congr_left
      intro u _
      rw [addPosting_get]
      split
      · simp
      · rfl
    rw [hsum] at hi
    simp only [List.map_cons, List.sum_cons, List.length_cons]
    by_cases hm : next ∈ (s.1.get t).getD []
    · rw [addPosting_old hm] at hi
      have e2 : fresh next s.1 (t :: toks) = fresh next s.1 toks := by simp [fresh, hm]
      rw [e2]
      have hlen : ((s.1.get t).getD []).length
          = (((s.1.get t).getD []).filter fun i => !decide (i = next)).length + 1 := by
        have hne : (s.1.get t).getD [] ≠ [] := List.ne_nil_of_mem hm
        have e := List.dropLast_concat_getLast hne
        have hl : ((s.1.get t).getD []).getLast hne = next := by
          rw [← e, List.mem_append, List.mem_singleton] at hm
          exact (hm.resolve_left (h t)).symm
        have hd : (((s.1.get t).getD []).dropLast.filter fun i => !decide (i = next))
            = ((s.1.get t).getD []).dropLast := by
          rw [List.filter_eq_self]
          intro i hi
          have : i ≠ next := fun e => h t (e ▸ hi)
          simp [this]
        rw [hl] at e
        rw [← e, List.filter_append, List.length_append, List.length_append, hd]
        simp
      omega
    · rw [fresh_new hm] at hi
      have e2 : fresh next s.1 (t :: toks) = t :: fresh next s.1 toks := by simp [fresh, hm]
      rw [e2]
      have hlen : (((s.1.get t).getD []).filter fun i => !decide (i = next)) = (s.1.get t).getD [] := by
        rw [List.filter_eq_self]
        intro i hi
        have : i ≠ next := fun e => hm (e ▸ hi)
        simp [this]
      rw [hlen]
      unfold different at hi ⊢
      rw [List.eraseDups_cons, List.length_cons]
      omega

theorem different_le (l : List Str) : different l ≤ l.length := by
  induction h : l.length using Nat.strongRecOn generalizing l with
  | _ n ih =>
    cases l with
    | nil => simp [different]
    | cons a l =>
      unfold different
      rw [List.eraseDups_cons]
      have hf := List.length_filter_le (fun b => !b == a) l
      have := ih _ (by simp only [List.length_cons] at h; omega) (l.filter fun b => !b == a) rfl
      unfold different at this
      simp only [List.length_cons] at h ⊢
      omega

theorem putC_snd (tok : Tokenizer) (name : Str) (rs : List DocRequest) (r : DocRequest) (k : Nat) :
    (MemoryIndex.putC tok (buildIndex tok name rs, k) r).2 = k + putCost tok rs r := by
  have hn := next_new tok name rs
  have h := addPostingsC_snd (buildIndex tok name rs).docs.length (tok r.statement)
    ((buildIndex tok name rs).inverted, k) (fun t hm => hn t (List.dropLast_subset _ hm))
  rw [fresh_all hn] at h
  have hsum : ((tok r.statement).map fun t => ((((buildIndex tok name rs).inverted.get t).getD []).filter
      fun i => !decide (i = (buildIndex tok name rs).docs.length)).length)
      = (tok r.statement).map (docsWith tok rs) := by
    apply List.map_congr_left
    intro t _
    rw [← positions_docsWith, ← buildIndex_inverted tok name rs t]
    congr 1
    rw [List.filter_eq_self]
    intro i hi
    have : i ≠ (buildIndex tok name rs).docs.length := fun e => hn t (e ▸ hi)
    simp [this]
  simp only at h
  rw [hsum] at h
  have hd := different_le (tok r.statement)
  show ((tok r.statement).foldl (addPostingC (buildIndex tok name rs).docs.length)
    ((buildIndex tok name rs).inverted, k)).2 = _
  unfold putCost
  omega

theorem buildCost_append (tok : Tokenizer) (rs : List DocRequest) : ∀ (done : List DocRequest) (r : DocRequest),
    buildCost tok done (rs ++ [r]) = buildCost tok done rs + putCost tok (done ++ rs) r := by
  induction rs with
  | nil => intro done r; simp [buildCost]
  | cons a rs ih => intro done r; simp [buildCost, ih]; omega

theorem buildIndexC_snd (tok : Tokenizer) (name : Str) (rs : List DocRequest) :
    (buildIndexC tok name rs).2 = buildCost tok [] rs := by
  induction rs using rev_ind with
  | h0 => rfl
  | h1 rs r ih =>
    rw [buildIndexC_append, buildCost_append, ← ih]
    have e : buildIndexC tok name rs = (buildIndex tok name rs, (buildIndexC tok name rs).2) := by
      rw [← buildIndexC_fst]
    rw [e, putC_snd]
    simp

/-! ## Sums over the tokens -/

theorem nodup_eraseDups (l : List Str) : l.eraseDups.Nodup := by
  induction h : l.length using Nat.strongRecOn generalizing l with
  | _ n ih =>
    cases l with
    | nil => simp
    | cons a l =>
      rw [List.eraseDups_cons, List.nodup_cons]
      have hf := List.length_filter_le (fun b => !b == a) l
      refine ⟨?_, ih _ (by simp only [List.length_cons] at h; omega) (l.filter fun b => !b == a) rfl⟩
      rw [List.mem_eraseDups, List.mem_filter]
      simp

theorem eraseDups_of_nodup (l : List Str) (h : l.Nodup) : l.eraseDups = l := by
  induction l with
  | nil => rfl
  | cons a l ih =>
    rw [List.nodup_cons] at h
    rw [List.eraseDups_cons]
    have : (l.filter fun b => !b == a) = l := by
      rw [List.filter_eq_self]
      intro b hb
      have : b ≠ a := fun e => h.1 (e ▸ hb)
      simp [this]
    rw [this, ih h.2]

theorem different_eq_iff (l : List Str) : different l = l.length ↔ l.Nodup := by
  constructor
  · intro h
    induction l with
    | nil => simp
    | cons a l ih =>
      unfold different at h
      rw [List.eraseDups_cons, List.length_cons, List.length_cons] at h
      have h1 := different_le (l.filter fun b => !b == a)
      have h2 := List.length_filter_le (fun b => !b == a) l
      unfold different at h1
      have h3 : (l.filter fun b => !b == a).length = l.length := by omega
      have h4 := List.length_filter_eq_length_iff.1 h3
      have h5 : (l.filter fun b => !b == a) = l := List.filter_eq_self.2 h4
      rw [h5] at h
      rw [List.nodup_cons]
      refine ⟨fun ha => ?_, ih (by unfold different; omega)⟩
      have := h4 a ha
      simp at this
  · intro h
    unfold different
    rw [eraseDups_of_nodup l h]

theorem keys_perm (tok : Tokenizer) (name : Str) (rs : List DocRequest) :
    (buildIndex tok name rs).inverted.keys.Perm (allTokens tok rs).eraseDups := by
  rw [List.perm_ext_iff_of_nodup (buildIndex_keys_nodup tok name rs) (nodup_eraseDups _)]
  intro t
  rw [GoMap.mem_keys_iff, buildIndex_inverted_get, List.mem_eraseDups]
  unfold allTokens
  rw [List.mem_flatMap]
  constructor
  · rintro ⟨v, hv⟩
    split at hv
    · exact absurd hv (by simp)
    · rename_i hne
      obtain ⟨i, hi⟩ := List.exists_mem_of_ne_nil _ hne
      rw [mem_positions] at hi
      obtain ⟨r, hr, ht⟩ := hi
      exact ⟨r, List.mem_of_getElem? hr, ht⟩
  · rintro ⟨r, hr, ht⟩
    obtain ⟨i, hi⟩ := List.getElem?_of_mem hr
    have : i ∈ positions tok rs t := (mem_positions tok rs t i).2 ⟨r, hi, ht⟩
    exact ⟨_, if_neg (List.ne_nil_of_mem this)⟩

theorem total_keys (f : List Nat → Nat) (m : GoMap Str (List Nat)) (h : m.keys.Nodup) :
    total f m = (m.keys.map fun k => f ((m.get k).getD [])).sum := by
  unfold total
  induction m with
  | nil => rfl
  | cons e m ih =>
    obtain ⟨a, b⟩ := e
    have hk : GoMap.keys ((a, b) :: m) = a :: GoMap.keys m := rfl
    rw [hk, List.nodup_cons] at h
    rw [hk, List.map_cons, List.map_cons, List.sum_cons, List.sum_cons, ih h.2]
    have h1 : GoMap.get ((a, b) :: m) a = some b := by simp [GoMap.get]
    have h2 : (GoMap.keys m).map (fun k => f ((GoMap.get ((a, b) :: m) k).getD []))
        = (GoMap.keys m).map (fun k => f ((GoMap.get m k).getD [])) := by
      apply List.map_congr_left
      intro k hk
      have : a ≠ k := fun e => h.1 (e ▸ hk)
      simp [GoMap.get, this]
    rw [h1, h2]
    rfl

theorem total_tokens (f : Nat → Nat) (tok : Tokenizer) (name : Str) (rs : List DocRequest) :
    total (fun l => f l.length) (buildIndex tok name rs).inverted
      = ((allTokens tok rs).eraseDups.map fun t => f (docsWith tok rs t)).sum := by
  rw [total_keys _ _ (buildIndex_keys_nodup tok name rs)]
  have : ((buildIndex tok name rs).inverted.keys.map fun k => f (((buildIndex tok name rs).inverted.get k).getD []).length)
      = (buildIndex tok name rs).inverted.keys.map fun t => f (docsWith tok rs t) := by
    apply List.map_congr_left
    intro t _
    rw [buildIndex_inverted, positions_docsWith]
  rw [this]
  exact ((keys_perm tok name rs).map _).sum_nat

/-! ## Squares -/

theorem square_total (next : Nat) (toks : List Str) (hd : toks.Nodup) : ∀ inv : GoMap Str (List Nat),
    (∀ t ∈ toks, next ∉ (inv.get t).getD []) →
    total (fun l => l.length * l.length) (toks.foldl (addPosting next) inv)
      = total (fun l => l.length * l.length) inv
        + 2 * (toks.map fun t => ((inv.get t).getD []).length).sum + toks.length := by
  induction toks with
  | nil => intro inv _; rfl
  | cons t toks ih =>
    intro inv hn
    rw [List.nodup_cons] at hd
    have ht := hn t List.mem_cons_self
    have hg : ∀ u ∈ toks, ((addPosting next inv t).get u).getD [] = (inv.get u).getD [] := by
      intro u hu
      rw [addPosting_get, if_neg (fun h : u = t ∧ _ => hd.1 (h.1 ▸ hu))]
    rw [List.foldl_cons, ih hd.2 _ (fun u hu => by rw [hg u hu]; exact hn u (List.mem_cons_of_mem _ hu))]
    have hsum : (toks.map fun u => (((addPosting next inv t).get u).getD []).length)
        = toks.map fun u => ((inv.get u).getD []).length :=
      List.map_congr_left fun u hu => by rw [hg u hu]
    rw [hsum, addPosting_new ht]
    have e := total_set (fun l => l.length * l.length) rfl inv t ((inv.get t).getD [] ++ [next])
    simp only [List.length_append, List.length_cons, List.length_nil, List.map_cons, List.sum_cons] at e ⊢
    have e2 : (((inv.get t).getD []).length + (0 + 1)) * (((inv.get t).getD []).length + (0 + 1))
        = ((inv.get t).getD []).length * ((inv.get t).getD []).length + 2 * ((inv.get t).getD []).length + 1 := by
      simp only [Nat.zero_add, Nat.add_mul, Nat.mul_add, Nat.one_mul, Nat.mul_one]; omega
    rw [e2] at e
    omega

theorem build_square (tok : Tokenizer) (name : Str) (rs : List DocRequest)
    (hd : ∀ r ∈ rs, (tok r.statement).Nodup) :
    total (fun l => l.length * l.length) (buildIndex tok name rs).inverted
      = 2 * buildCost tok [] rs + pairs tok rs := by
  induction rs using rev_ind with
  | h0 => rfl
  | h1 rs r ih =>
    have hr := hd r (by simp)
    rw [buildIndex_append, buildCost_append]
    show total _ ((tok r.statement).foldl _ _) = _
    rw [square_total _ _ hr _ (fun t _ => next_new tok name rs t), ih (fun q hq => hd q (by simp [hq]))]
    have hsum : ((tok r.statement).map fun t => (((buildIndex tok name rs).inverted.get t).getD []).length)
        = (tok r.statement).map (docsWith tok rs) :=
      List.map_congr_left fun t _ => by rw [buildIndex_inverted, positions_docsWith]
    rw [hsum]
    have h2 := (different_eq_iff (tok r.statement)).2 hr
    simp only [pairs, putCost, List.map_append, List.map_cons, List.map_nil, List.sum_append, List.sum_cons,
      List.sum_nil, List.nil_append]
    omega

theorem le_sum_of_mem {l : List Nat} {n : Nat} (h : n ∈ l) : n ≤ l.sum := by
  induction l with
  | nil => simp at h
  | cons a l ih =>
    rw [List.sum_cons]
    rcases List.mem_cons.1 h with rfl | h
    · omega
    · have := ih h; omega

theorem docsWith_le_putCost (tok : Tokenizer) (rs : List DocRequest) (r : DocRequest) (t : Str)
    (h : t ∈ tok r.statement) : docsWith tok rs t ≤ putCost tok rs r := by
  have := le_sum_of_mem (List.mem_map_of_mem (f := docsWith tok rs) h)
  unfold putCost
  omega

theorem sum_le {l : List Nat} {b : Nat} (h : ∀ n ∈ l, n ≤ b) : l.sum ≤ b * l.length := by
  induction l with
  | nil => simp
  | cons a l ih =>
    rw [List.sum_cons, List.length_cons, Nat.mul_add, Nat.mul_one]
    have := h a List.mem_cons_self
    have := ih fun n hn => h n (List.mem_cons_of_mem _ hn)
    omega

theorem buildCost_quadratic (tok : Tokenizer) (rs : List DocRequest) (t : Str) :
    docsWith tok rs t * docsWith tok rs t ≤ 2 * buildCost tok [] rs + docsWith tok rs t := by
  induction rs using rev_ind with
  | h0 => simp [docsWith]
  | h1 rs r ih =>
    rw [buildCost_append]
    by_cases h : t ∈ tok r.statement
    · have e : docsWith tok (rs ++ [r]) t = docsWith tok rs t + 1 := by simp [docsWith, h]
      have := docsWith_le_putCost tok rs r t h
      rw [e]
      simp only [Nat.add_mul, Nat.mul_add, Nat.one_mul, Nat.mul_one, List.nil_append]
      omega
    · have e : docsWith tok (rs ++ [r]) t = docsWith tok rs t := by simp [docsWith, h]
      rw [e]
      simp only [Nat.mul_add]
      omega

end Visigoth
