import Verif.Spec.AnalyzeMem
import Verif.Props.Analyze
import Verif.Props.Search
/-! # Lemmas about analyzers that change -/
namespace Visigoth

/-! ## Changing tokenizers, encoded in the statements -/

/-- The request with a statement that tells which one it is. -/
def numbered (i : Nat) (r : DocRequest) : DocRequest := { r with statement := List.replicate i 0 }

theorem foldl_numbered {tok : Tokenizer} : ∀ (h : List (Tokenizer × DocRequest)) (n : Nat) (mi : MemoryIndex),
    (∀ (i : Nat) e, h[i]? = some e → tok (List.replicate (n + i) 0) = e.1 e.2.statement) →
    h.foldl (fun mi e => mi.put e.1 e.2) mi = (h.mapIdx fun i e => numbered (n + i) e.2).foldl (MemoryIndex.put tok) mi := by
  intro h
  induction h with
  | nil => intro n mi _; rfl
  | cons e h ih =>
    intro n mi hh
    have h0 : tok (List.replicate n 0) = e.1 e.2.statement := hh 0 e rfl
    simp only [List.mapIdx_cons, List.foldl_cons, Nat.add_zero]
    have hp : mi.put tok (numbered n e.2) = mi.put e.1 e.2 := by
      unfold MemoryIndex.put
      simp only [numbered, h0]
      rfl
    rw [hp, ih (n + 1) _ (fun i e' hi => ?_)]
    · congr 2
      funext i e'
      rw [Nat.add_assoc, Nat.add_comm 1]
    · rw [Nat.add_assoc, Nat.add_comm 1]
      exact hh (i + 1) e' (by simpa using hi)

/-- The tokenizer that gives every numbered request its own tokens. -/
def numberedTok (h : List (Tokenizer × DocRequest)) : Tokenizer := fun s =>
  match h[s.length]? with
  | some e => e.1 e.2.statement
  | none => []

theorem buildMixed_eq (name : Str) (h : List (Tokenizer × DocRequest)) :
    buildMixed name h = buildIndex (numberedTok h) name (h.mapIdx fun i e => numbered i e.2) := by
  have := foldl_numbered (tok := numberedTok h) h 0 (newMemoryIndex name) (fun i e hi => by simp [numberedTok, hi])
  simpa [buildMixed, buildIndex] using this

theorem filter_mapIdx {α β : Type} (f : Nat → α → β) (p : β → Bool) (q : α → Bool) (g : β → γ) (g' : α → γ) :
    ∀ (l : List α) (n : Nat), (∀ (i : Nat) a, l[i]? = some a → p (f (n + i) a) = q a ∧ g (f (n + i) a) = g' a) →
      ((l.mapIdx fun i a => f (n + i) a).filter p).map g = (l.filter q).map g' := by
  intro l
  induction l with
  | nil => intros; rfl
  | cons a l ih =>
    intro n h
    obtain ⟨h1, h2⟩ := h 0 a rfl
    have := ih (n + 1) (fun i b hb => by
      rw [Nat.add_assoc, Nat.add_comm 1]; exact h (i + 1) b (by simpa using hb))
    have e : (fun i a => f (n + 1 + i) a) = fun i a => f (n + (i + 1)) a := by
      funext i a; rw [Nat.add_assoc, Nat.add_comm 1]
    rw [e] at this
    simp only [List.mapIdx_cons, List.filter_cons, Nat.add_zero] at h1 h2 ⊢
    rw [h1]
    split
    · simp [h2, this]
    · exact this

theorem andResults_mixed (h : List (Tokenizer × DocRequest)) (tokens : List Str) :
    andResults (numberedTok h) (h.mapIdx fun i e => numbered i e.2) tokens = mixedResults h tokens := by
  unfold andResults mixedResults
  split
  · rfl
  · have := filter_mapIdx (fun i (e : Tokenizer × DocRequest) => numbered i e.2)
      (hasAll (numberedTok h) tokens) (fun e => tokens.all fun t => decide (t ∈ e.1 e.2.statement))
      (fun r => ({ document := docOf r, hits := tokens.length } : SearchResult))
      (fun e => { document := { name := e.2.name, content := e.2.content }, hits := tokens.length }) h 0
      (fun i e hi => by
        refine ⟨?_, rfl⟩
        simp [hasAll, hasToken, numbered, numberedTok, hi])
    simpa using this

theorem linearSearch_mixed (cp : CopyFn) (name : Str) (h : List (Tokenizer × DocRequest)) (tokens : List Str) :
    linearSearch tokens ((buildMixed name h).indexer cp) = some (mixedResults h tokens) := by
  rw [buildMixed_eq, C15_linear_search_exact, andResults_mixed]

theorem distinct_mixed {h : List (Tokenizer × DocRequest)} (hd : DistinctHashes (h.map (·.2))) :
    DistinctHashes (h.mapIdx fun i e => numbered i e.2) := by
  unfold DistinctHashes at *
  rw [List.pairwise_iff_getElem] at *
  intro i j hi hj hij
  have := hd i j (by simpa using hi) (by simpa using hj) hij
  simpa [docOf, numbered] using this

/-! ## What a tokenizer reads -/

variable {env : AnalyzeEnv}

theorem modify_getD_ne {α : Type} (l : List α) (f : α → α) {i j : Nat} (h : i ≠ j) (d : α) :
    ((l.modify i f)[j]?).getD d = (l[j]?).getD d := by
  simp [h]

theorem filters_setFilter_in {m : AnalyzeMem} {arr k off len : Nat} {f : FilterRef} (h : off ≤ k) :
    ((AnalyzeWrite.setFilter arr k f).apply m).filters arr off len = (m.filters arr off len).set (k - off) f := by
  simp only [AnalyzeMem.filters, AnalyzeWrite.apply, List.getElem?_modify, if_true]
  cases m.arrays[arr]? with
  | none => simp
  | some a =>
    simp only [Option.map_eq_map, Option.map_some, Option.getD_some]
    rw [List.drop_set, if_neg (by omega), List.take_set]

theorem filters_setFilter {m : AnalyzeMem} {a arr k off len : Nat} {f : FilterRef} (h : ¬ (a = arr ∧ off ≤ k ∧ k < off + len)) :
    ((AnalyzeWrite.setFilter a k f).apply m).filters arr off len = m.filters arr off len := by
  by_cases ha : a = arr
  · subst ha
    by_cases hk : off ≤ k
    · rw [filters_setFilter_in hk, List.set_eq_of_length_le]
      unfold AnalyzeMem.filters
      rw [List.length_take]
      omega
    · simp only [AnalyzeMem.filters, AnalyzeWrite.apply, List.getElem?_modify, if_true]
      cases m.arrays[a]? with
      | none => rfl
      | some l =>
        simp only [Option.map_eq_map, Option.map_some, Option.getD_some]
        rw [List.drop_set, if_pos (by omega)]
  · simp only [AnalyzeMem.filters, AnalyzeWrite.apply, modify_getD_ne _ _ ha]

theorem readsArray_of_cell {t : TokenizerRef} {a k : Nat} (h : t.readsCell a k) : t.readsArray a := by
  induction t with
  | fixed t => exact h
  | pipeline t arr off len ih =>
    rcases h with ⟨rfl, _⟩ | h
    · exact .inl rfl
    · exact .inr (ih h)

theorem filters_kept {m : AnalyzeMem} {w : AnalyzeWrite} {t : TokenizerRef} {arr off len : Nat}
    (h : ¬ w.touches m (.pipeline t arr off len)) : (w.apply m).filters arr off len = m.filters arr off len := by
  cases w with
  | addWord p x => rfl
  | delWord p x => rfl
  | setFilter a k f => exact filters_setFilter fun e => h (.inl e)

theorem touches_inner {m : AnalyzeMem} {w : AnalyzeWrite} {t : TokenizerRef} {arr off len : Nat}
    (h : ¬ w.touches m (.pipeline t arr off len)) : ¬ w.touches m t := by
  cases w <;> exact fun e => h (.inr e)

theorem filter_kept {m : AnalyzeMem} {w : AnalyzeWrite} {t : TokenizerRef} {arr off len : Nat} {x : FilterRef}
    (h : ¬ w.touches m (.pipeline t arr off len)) (hx : x ∈ m.filters arr off len) : x.filter env (w.apply m) = x.filter env m := by
  cases x with
  | stopWords p =>
    cases w with
    | addWord q y =>
      have : q ≠ p := fun e => h (.inl ⟨_, hx, by rw [e]⟩)
      simp only [FilterRef.filter, AnalyzeMem.wordsAt, AnalyzeWrite.apply, modify_getD_ne _ _ this]
    | delWord q y =>
      have : q ≠ p := fun e => h (.inl ⟨_, hx, by rw [e]⟩)
      simp only [FilterRef.filter, AnalyzeMem.wordsAt, AnalyzeWrite.apply, modify_getD_ne _ _ this]
    | setFilter a k f => rfl
  | _ => rfl

theorem tokenize_kept {m : AnalyzeMem} {w : AnalyzeWrite} : ∀ {t : TokenizerRef}, ¬ w.touches m t →
    t.tokenize env (w.apply m) = t.tokenize env m ∧ (∀ p, t.readsWords (w.apply m) p ↔ t.readsWords m p) := by
  intro t
  induction t with
  | fixed t => exact fun _ => ⟨rfl, fun _ => .rfl⟩
  | pipeline t arr off len ih =>
    intro h
    obtain ⟨h1, h2⟩ := ih (touches_inner h)
    constructor
    · simp only [TokenizerRef.tokenize, h1, filters_kept h]
      congr 2
      exact List.map_congr_left fun x hx => filter_kept h hx
    · intro p
      simp only [TokenizerRef.readsWords, filters_kept h, h2]

theorem touches_kept {m : AnalyzeMem} {w v : AnalyzeWrite} {t : TokenizerRef} (h : ¬ w.touches m t) :
    v.touches (w.apply m) t ↔ v.touches m t := by
  cases v with
  | addWord p x => exact (tokenize_kept (env := ⟨id, fun s _ => s⟩) h).2 p
  | delWord p x => exact (tokenize_kept (env := ⟨id, fun s _ => s⟩) h).2 p
  | setFilter a k f => exact .rfl

theorem tokenize_after {t : TokenizerRef} : ∀ {ws : List AnalyzeWrite} {m : AnalyzeMem}, (∀ w ∈ ws, ¬ w.touches m t) →
    t.tokenize env (m.after ws) = t.tokenize env m := by
  intro ws
  induction ws with
  | nil => intros; rfl
  | cons w ws ih =>
    intro m h
    have hw := h w (by simp)
    show t.tokenize env ((w.apply m).after ws) = _
    rw [ih fun v hv hv' => h v (by simp [hv]) ((touches_kept hw).1 hv'), (tokenize_kept hw).1]

/-! ## Adding words -/

/-- Some maps have more words. -/
def AnalyzeMem.moreWords (m m' : AnalyzeMem) : Prop :=
  m'.arrays = m.arrays ∧ ∀ p w, w ∈ (m.wordsAt p).keys → w ∈ (m'.wordsAt p).keys

theorem foldl_more {m m' : AnalyzeMem} (h : m.moreWords m') : ∀ (fs : List FilterRef), (∀ x ∈ fs, ∀ f, x ≠ .other f) →
    ∀ (l l' : List Str), l'.Sublist l →
      ((fs.map (FilterRef.filter env m')).foldl (fun r f => f r) l').Sublist ((fs.map (FilterRef.filter env m)).foldl (fun r f => f r) l) := by
  intro fs
  induction fs with
  | nil => exact fun _ l l' hl => hl
  | cons x fs ih =>
    intro ho l l' hl
    refine ih (fun y hy => ho y (by simp [hy])) _ _ ?_
    cases x with
    | lowerCase => exact hl.map _
    | stemmer flag => simp only [FilterRef.filter, C07_one_output_per_token]; exact hl.map _
    | other f => exact absurd rfl (ho _ (by simp) f)
    | stopWords p =>
      simp only [FilterRef.filter, C06_removes_exactly_the_stop_words]
      refine List.Sublist.trans ?_ (hl.filter _)
      have : l'.filter (fun t => decide (t ∉ (m'.wordsAt p).keys))
          = (l'.filter (fun t => decide (t ∉ (m.wordsAt p).keys))).filter (fun t => decide (t ∉ (m'.wordsAt p).keys)) := by
        rw [List.filter_filter]
        refine List.filter_congr fun t _ => ?_
        by_cases h1 : t ∈ (m.wordsAt p).keys
        · simp [h1, h.2 p t h1]
        · simp [h1]
      rw [this]
      exact List.filter_sublist

theorem tokenize_more {m m' : AnalyzeMem} (h : m.moreWords m') : ∀ {t : TokenizerRef}, t.ownFilters m → ∀ text,
    (t.tokenize env m' text).Sublist (t.tokenize env m text) := by
  intro t
  induction t with
  | fixed t => exact fun _ _ => List.Sublist.refl _
  | pipeline t arr off len ih =>
    intro ho text
    have e : m'.filters arr off len = m.filters arr off len := by simp only [AnalyzeMem.filters, h.1]
    simp only [TokenizerRef.tokenize, newTokenizationPipeline, TokenizationPipeline.tokenize, e]
    exact foldl_more h _ ho.1 _ _ (ih ho.2 text)

theorem addWord_more (m : AnalyzeMem) (p : Nat) (w : Str) : m.moreWords ((AnalyzeWrite.addWord p w).apply m) := by
  refine ⟨rfl, fun q x hx => ?_⟩
  simp only [AnalyzeWrite.apply, AnalyzeMem.wordsAt] at hx ⊢
  by_cases hq : p = q
  · subst hq
    cases hm : m.words[p]? with
    | none => rw [hm] at hx; cases hx
    | some sw =>
      rw [hm] at hx
      simp only [List.getElem?_modify_eq, hm, Option.map_eq_map, Option.map_some, Option.getD_some] at hx ⊢
      exact (GoMap.mem_keys_set _ _ _ _).2 (.inr hx)
  · rw [modify_getD_ne _ _ hq]; exact hx

theorem addWords_more : ∀ {ws : List AnalyzeWrite} {m : AnalyzeMem}, (∀ w ∈ ws, ∃ p x, w = .addWord p x) → m.moreWords (m.after ws) := by
  intro ws
  induction ws with
  | nil => exact fun _ => ⟨rfl, fun _ _ h => h⟩
  | cons w ws ih =>
    intro m h
    obtain ⟨p, x, rfl⟩ := h w (by simp)
    have h1 := addWord_more m p x
    have h2 := ih (m := (AnalyzeWrite.addWord p x).apply m) fun v hv => h v (by simp [hv])
    exact ⟨h2.1.trans h1.1, fun q y hy => h2.2 q y (h1.2 q y hy)⟩

end Visigoth
