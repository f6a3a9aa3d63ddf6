import Verif.Proofs.Rows
/-!
# No call misuses a mutex or refers to anything that does not exist

`Fits p s`: everything `p` refers to exists in `s`, and will in whatever `s` grows to.
-/
namespace Visigoth

variable {cfg : Cfg} {s s' : Shared} {o : Oracle} {t : Tid}

/-- Index objects and backing arrays are only added. -/
def Grows (s s' : Shared) : Prop := SameLengths s s' ∧ s.heap.length ≤ s'.heap.length

theorem Grows.refl (s : Shared) : Grows s s := ⟨.refl s, Nat.le_refl _⟩
theorem Grows.trans {s s1 s2 : Shared} (h : Grows s s1) (g : Grows s1 s2) : Grows s s2 := ⟨h.1.trans g.1, Nat.le_trans h.2 g.2⟩

/-- What the action refers to exists. -/
def Legal {β : Type} (a : Act β) (s : Shared) : Prop :=
  match a with
  | .slRead r i => i < r.len ∧ ValidIn s.arrays r
  | .slWrite r i _ => i < r.len ∧ ValidIn s.arrays r
  | .slAppend r _ => ValidIn s.arrays r
  | .alSet _ r => ValidIn s.arrays r
  | .idxSet _ p => p < s.heap.length
  | .docAppend p _ => p < s.heap.length
  | .postAdd p _ _ => p < s.heap.length
  | .evalEngine p _ _ => p < s.heap.length
  | .render p => p < s.heap.length
  | _ => True

/-- What the action may return. -/
def Gives {β : Type} (a : Act β) (b : β) (s : Shared) : Prop :=
  match a, b with
  | .idxGet _, b => ∀ p, b = some p → p < s.heap.length
  | .alGet _, b => ∀ r, b = some r → ValidIn s.arrays r
  | .slNew _, b => ValidIn s.arrays b
  | .slAppend _ _, b => ValidIn s.arrays b
  | .newIndex _, b => b < s.heap.length
  | .schedule ps, b => ∀ p ∈ b, p ∈ ps
  | _, _ => True

def Fits {α : Type} (Q : α → Shared → Prop) : Prog α → Shared → Prop
  | .ret a, s => Q a s
  | .crash c, _ => c ≠ .invalid
  | .act a k, s => Legal a s ∧ ∀ s' b, Grows s s' → Gives a b s' → Fits Q (k b) s'

theorem legal_mono {β : Type} {a : Act β} (g : Grows s s') (h : Legal a s) : Legal a s' := by
  cases a
  case slRead r i => exact ⟨h.1, g.1.valid h.2⟩
  case slWrite r i v => exact ⟨h.1, g.1.valid h.2⟩
  case slAppend r v => exact g.1.valid h
  case alSet n r => exact g.1.valid h
  case idxSet n p => exact Nat.lt_of_lt_of_le h g.2
  case docAppend p d => exact Nat.lt_of_lt_of_le h g.2
  case postAdd p d n => exact Nat.lt_of_lt_of_le h g.2
  case evalEngine p d n => exact Nat.lt_of_lt_of_le h g.2
  case render p => exact Nat.lt_of_lt_of_le h g.2
  all_goals trivial

theorem fits_mono {α : Type} {Q : α → Shared → Prop} (hQ : ∀ a s s', Grows s s' → Q a s → Q a s') {p : Prog α}
    (g : Grows s s') (h : Fits Q p s) : Fits Q p s' := by
  cases p with
  | ret a => exact hQ a _ _ g h
  | crash c => exact h
  | act a k => exact ⟨legal_mono g h.1, fun s1 b g1 hb => h.2 s1 b (g.trans g1) hb⟩

theorem fits_bind {α β : Type} {Q : α → Shared → Prop} {R : β → Shared → Prop} {f : α → Prog β} {p : Prog α} : ∀ {s : Shared},
    Fits Q p s → (∀ s' a, Grows s s' → Q a s' → Fits R (f a) s') → Fits R (p >>= f) s := by
  induction p with
  | ret a => intro s h hf; exact hf s a (.refl s) h
  | crash c => intro s h hf; exact h
  | act a k ih =>
    intro s h hf
    exact ⟨h.1, fun s1 b g1 hb => ih b (h.2 s1 b g1 hb) fun s2 x g2 hx => hf s2 x (g1.trans g2) hx⟩

/-- No condition on the result. -/
abbrev Any (α : Type) : α → Shared → Prop := fun _ _ => True

section

theorem fits_readFrom {r : SliceRef} : ∀ {k i : Nat} {s : Shared}, i + k ≤ r.len → ValidIn s.arrays r →
    Fits (Any _) (Repo.readFrom r i k) s
  | 0, _, _, _, _ => trivial
  | k + 1, i, _, hi, hr => ⟨⟨by omega, hr⟩, fun _ _ g _ =>
    fits_bind (p := Repo.readFrom r (i + 1) k) (fits_readFrom (by omega) (g.1.valid hr)) fun _ _ _ _ => trivial⟩

theorem fits_sliceHas {r : SliceRef} {n : Name} : ∀ {k i : Nat} {s : Shared}, i + k ≤ r.len → ValidIn s.arrays r →
    Fits (Any _) (Repo.sliceHas r n i k) s
  | 0, _, _, _, _ => trivial
  | k + 1, i, _, hi, hr => ⟨⟨by omega, hr⟩, fun s1 b g _ => by
    show Fits _ (if b = n then pure true else Repo.sliceHas r n (i + 1) k) _
    split
    · trivial
    · exact fits_sliceHas (by omega) (g.1.valid hr)⟩

theorem fits_renameSlice {r : SliceRef} {old new : Name} : ∀ {k i : Nat} {s : Shared}, i + k ≤ r.len → ValidIn s.arrays r →
    Fits (Any _) (Repo.renameSlice r old new i k) s
  | 0, _, _, _, _ => trivial
  | k + 1, i, _, hi, hr => ⟨⟨by omega, hr⟩, fun s1 b g _ => by
    show Fits _ (if b = old then perform (.slWrite r i new) >>= fun _ => Repo.renameSlice r old new (i + 1) k
      else Repo.renameSlice r old new (i + 1) k) _
    have hr1 := g.1.valid hr
    split
    · exact ⟨⟨by omega, hr1⟩, fun s2 _ g2 _ => fits_renameSlice (by omega) (g2.1.valid hr1)⟩
    · exact fits_renameSlice (by omega) hr1⟩

theorem fits_renameAliases {old new : Name} : ∀ {ks : List Name} {s : Shared}, Fits (Any _) (Repo.renameAliases old new ks) s
  | [], _ => trivial
  | k :: ks, _ => ⟨trivial, fun s1 v g hv => by
    cases v with
    | none => exact fits_renameAliases
    | some r =>
      exact fits_bind (p := Repo.renameSlice r old new 0 r.len) (fits_renameSlice (by omega) (hv r rfl))
        fun _ _ _ _ => fits_renameAliases⟩

/-- Pointers that are not nil are to existing objects. -/
def PtrsOk (l : List (Option Ptr)) (s : Shared) : Prop := ∀ p, some p ∈ l → p < s.heap.length

theorem fits_resolveFrom {r : SliceRef} : ∀ {k i : Nat} {s : Shared}, i + k ≤ r.len → ValidIn s.arrays r →
    Fits PtrsOk (Repo.resolveFrom r i k) s
  | 0, _, _, _, _ => by intro p hp; cases hp
  | k + 1, i, _, hi, hr => ⟨⟨by omega, hr⟩, fun s1 _ g _ => ⟨trivial, fun s2 v g2 hv =>
    fits_bind (p := Repo.resolveFrom r (i + 1) k) (fits_resolveFrom (by omega) (g2.1.valid (g.1.valid hr))) fun s3 l g3 hl => by
      intro p hp
      rcases List.mem_cons.1 hp with hp | hp
      · exact Nat.lt_of_lt_of_le (hv p hp.symm) g3.2
      · exact hl p hp⟩⟩

theorem fits_searchIndex {p : Ptr} {ts : Str} {e : Engine} (hp : p < s.heap.length) : Fits (Any _) (Repo.searchIndex p ts e) s :=
  ⟨hp, fun _ b _ _ => by cases b; exact (fun h => nomatch h); trivial⟩

theorem fits_searchAll {ts : Str} {e : Engine} : ∀ {ps : List Ptr} {s : Shared}, (∀ p ∈ ps, p < s.heap.length) →
    Fits (Any _) (Repo.searchAll ts e ps) s
  | [], _, _ => trivial
  | p :: ps, _, h => fits_bind (p := Repo.searchIndex p ts e) (fits_searchIndex (h p (by simp))) fun _ _ g _ =>
    fits_bind (p := Repo.searchAll ts e ps) (fits_searchAll fun q hq => Nat.lt_of_lt_of_le (h q (by simp [hq])) g.2)
      fun _ _ _ _ => trivial

theorem fits_searchTargets {l : List (Option Ptr)} {ts : Str} {e : Engine} (h : PtrsOk l s) :
    Fits (Any _) (Repo.searchTargets l ts e) s := by
  unfold Repo.searchTargets
  split
  · exact (fun h => nomatch h)
  · next p hp => exact fits_searchIndex (h p (nonNil_mem hp p (by simp)))
  · next ps _ hps =>
    exact ⟨trivial, fun s1 qs g hqs => fits_searchAll fun p hp =>
      Nat.lt_of_lt_of_le (h p (nonNil_mem hps p (hqs p hp))) g.2⟩

theorem PtrsOk.grow {l : List (Option Ptr)} (h : PtrsOk l s) (g : Grows s s') : PtrsOk l s' := fun p hp =>
  Nat.lt_of_lt_of_le (h p hp) g.2

theorem fits_search {n : Name} {ts : Str} {e : Engine} : Fits (Any _) (Repo.search n ts e) s :=
  ⟨trivial, fun _ _ _ _ => ⟨trivial, fun s2 v g2 hv => by
    cases v with
    | some i =>
      refine fits_bind (p := Repo.searchTargets [some i] ts e) (fits_searchTargets ?_) fun _ _ _ _ => ⟨trivial, fun _ _ _ _ => trivial⟩
      intro p hp
      simp only [List.mem_singleton] at hp
      exact hv p hp.symm
    | none =>
      refine ⟨trivial, fun _ _ _ _ => ⟨trivial, fun s4 w g4 hw => ?_⟩⟩
      cases w with
      | none => exact ⟨trivial, fun _ _ _ _ => ⟨trivial, fun _ _ _ _ => trivial⟩⟩
      | some r =>
        refine fits_bind (p := Repo.resolveFrom r 0 r.len) (fits_resolveFrom (by omega) (hw r rfl)) fun s5 l g5 hl => ?_
        refine ⟨trivial, fun s6 _ g6 _ => ?_⟩
        exact fits_bind (p := Repo.searchTargets l ts e) (fits_searchTargets (hl.grow g6))
          fun _ _ _ _ => ⟨trivial, fun _ _ _ _ => trivial⟩⟩⟩

/-- What `getIndices` returns. -/
def ResOk (v : Option (List (Option Ptr))) (s : Shared) : Prop := ∀ l, v = some l → PtrsOk l s

theorem fits_getIndices {n : Name} : Fits ResOk (Repo.getIndices n) s :=
  ⟨trivial, fun _ _ _ _ => ⟨trivial, fun s2 v g2 hv => by
    cases v with
    | some i =>
      refine ⟨trivial, fun s3 _ g3 _ l hl p hp => ?_⟩
      cases hl
      simp only [List.mem_singleton] at hp
      exact Nat.lt_of_lt_of_le (hv p hp.symm) g3.2
    | none =>
      refine ⟨trivial, fun _ _ _ _ => ⟨trivial, fun s4 w g4 hw => ?_⟩⟩
      cases w with
      | none => exact ⟨trivial, fun _ _ _ _ => ⟨trivial, fun _ _ _ _ l hl => nomatch hl⟩⟩
      | some r =>
        refine fits_bind (p := Repo.resolveFrom r 0 r.len) (fits_resolveFrom (by omega) (hw r rfl)) fun s5 l g5 hl => ?_
        refine ⟨trivial, fun s6 _ g6 _ => ⟨trivial, fun s7 _ g7 _ l' hl' => ?_⟩⟩
        cases hl'
        exact (hl.grow g6).grow g7⟩⟩

theorem fits_putPostings {p : Ptr} {next : Nat} : ∀ {ts : List Str} {s : Shared}, p < s.heap.length →
    Fits (Any _) (Repo.putPostings p next ts) s
  | [], _, _ => trivial
  | _ :: _, _, h => ⟨h, fun _ _ g _ => fits_putPostings (Nat.lt_of_lt_of_le h g.2)⟩

theorem fits_putIndex {d : DocRequest} {p : Ptr} (h : p < s.heap.length) : Fits (Any _) (Repo.putIndex cfg p d) s :=
  ⟨h, fun _ _ g _ => fits_putPostings (Nat.lt_of_lt_of_le h g.2)⟩

theorem fits_putAll {d : DocRequest} : ∀ {ps : List Ptr} {s : Shared}, (∀ p ∈ ps, p < s.heap.length) →
    Fits (Any _) (Repo.putAll cfg d ps) s
  | [], _, _ => trivial
  | p :: ps, _, h => fits_bind (p := Repo.putIndex cfg p d) (fits_putIndex (h p (by simp))) fun _ _ g _ =>
    fits_putAll fun q hq => Nat.lt_of_lt_of_le (h q (by simp [hq])) g.2

theorem fits_put {n : Name} {d : DocRequest} : Fits (Any _) (Repo.put cfg n d) s :=
  fits_bind (p := Repo.getIndices n) fits_getIndices fun s1 v g1 hv => ⟨trivial, fun s2 _ g2 _ => ⟨trivial, fun s3 _ g3 _ => by
    cases v with
    | none =>
      refine ⟨trivial, fun s4 p g4 hp => ⟨hp, fun s5 _ g5 _ => ?_⟩⟩
      exact fits_bind (p := Repo.putIndex cfg p d) (fits_putIndex (Nat.lt_of_lt_of_le hp g5.2))
        fun _ _ _ _ => ⟨trivial, fun _ _ _ _ => trivial⟩
    | some l =>
      have hl := ((hv l rfl).grow g2).grow g3
      refine fits_bind (p := Repo.putTargets cfg l d) (Q := Any _) ?_ fun _ _ _ _ => ⟨trivial, fun _ _ _ _ => trivial⟩
      unfold Repo.putTargets
      split
      · exact (fun h => nomatch h)
      · next ps hps =>
        split
        · exact ⟨trivial, fun s4 qs g4 hqs => fits_putAll fun p hp =>
            Nat.lt_of_lt_of_le (hl p (nonNil_mem hps p (hqs p hp))) g4.2⟩
        · exact (fun h => nomatch h)⟩⟩

theorem fits_alias {al i : Name} : Fits (Any _) (Repo.alias al i) s :=
  ⟨trivial, fun _ _ _ _ => ⟨trivial, fun s2 v g2 hv => by
    cases v with
    | none => exact ⟨trivial, fun _ _ _ _ => trivial⟩
    | some p =>
      refine ⟨trivial, fun _ _ _ _ => ⟨trivial, fun _ _ _ _ => ⟨trivial, fun s5 w g5 hw => ?_⟩⟩⟩
      cases w with
      | none =>
        exact ⟨trivial, fun _ r _ hr => ⟨hr, fun _ _ _ _ => ⟨trivial, fun _ _ _ _ => ⟨trivial, fun _ _ _ _ => trivial⟩⟩⟩⟩
      | some r =>
        have hr := hw r rfl
        refine fits_bind (p := Repo.sliceHas r i 0 r.len) (fits_sliceHas (by omega) hr) fun s6 b g6 _ => ?_
        cases b with
        | true => exact ⟨trivial, fun _ _ _ _ => ⟨trivial, fun _ _ _ _ => trivial⟩⟩
        | false =>
          exact ⟨g6.1.valid hr, fun _ r' _ hr' => ⟨hr', fun _ _ _ _ => ⟨trivial, fun _ _ _ _ => ⟨trivial, fun _ _ _ _ => trivial⟩⟩⟩⟩⟩⟩

theorem fits_unAlias {al i : Name} : Fits (Any _) (Repo.unAlias al i) s := by
  unfold Repo.unAlias
  split
  · exact ⟨trivial, fun _ _ _ _ => ⟨trivial, fun _ _ _ _ => ⟨trivial, fun _ _ _ _ => ⟨trivial, fun _ _ _ _ =>
      ⟨trivial, fun _ _ _ _ => trivial⟩⟩⟩⟩⟩
  · refine ⟨trivial, fun _ _ _ _ => ⟨trivial, fun s2 v g2 hv => ?_⟩⟩
    cases v with
    | none => trivial
    | some p =>
      refine ⟨trivial, fun _ _ _ _ => ⟨trivial, fun _ _ _ _ => ⟨trivial, fun _ _ _ _ => ⟨trivial, fun s5 w g5 hw => ?_⟩⟩⟩⟩
      cases w with
      | none => trivial
      | some r =>
        refine fits_bind (p := Repo.readFrom r 0 r.len) (fits_readFrom (by omega) (hw r rfl)) fun s6 xs g6 _ => ?_
        dsimp only
        split
        · exact ⟨trivial, fun _ r' _ hr' => ⟨hr', fun _ _ _ _ => ⟨trivial, fun _ _ _ _ => trivial⟩⟩⟩
        · exact ⟨trivial, fun _ _ _ _ => trivial⟩

theorem fits_dropAliases {n : Name} : ∀ {ks : List Name} {s : Shared}, Fits (Any _) (Repo.dropAliases n ks) s
  | [], _ => trivial
  | k :: ks, _ => ⟨trivial, fun s1 v g hv => by
    cases v with
    | none => exact fits_dropAliases
    | some r =>
      refine fits_bind (p := Repo.readFrom r 0 r.len) (fits_readFrom (by omega) (hv r rfl)) fun s2 xs g2 _ => ?_
      dsimp only
      split
      · exact ⟨trivial, fun _ _ _ _ => fits_dropAliases⟩
      · split
        · exact ⟨trivial, fun _ r' _ hr' => ⟨hr', fun _ _ _ _ => fits_dropAliases⟩⟩
        · exact fits_dropAliases⟩

theorem fits_listRows : ∀ {ks : List Name} {s : Shared}, Fits (Any _) (Repo.listRows ks) s
  | [], _ => trivial
  | k :: ks, _ => ⟨trivial, fun s1 v g hv => by
    cases v with
    | none => exact fits_listRows
    | some r => exact fits_bind (p := Repo.listRows ks) fits_listRows fun _ _ _ _ => trivial⟩

theorem fits_renderAll : ∀ {ks : List Name} {s : Shared}, Fits (Any _) (Repo.renderAll ks) s
  | [], _ => trivial
  | k :: ks, _ => ⟨trivial, fun s1 v g hv => by
    cases v with
    | none => exact fits_renderAll
    | some r => exact ⟨hv r rfl, fun _ _ _ _ => fits_bind (p := Repo.renderAll ks) fits_renderAll fun _ _ _ _ => trivial⟩⟩

theorem fits_prog (op : Op) : Fits (Any _) (op.prog cfg) s := by
  cases op with
  | list => exact ⟨trivial, fun _ _ _ _ => ⟨trivial, fun _ _ _ _ => ⟨trivial, fun _ _ _ _ => trivial⟩⟩⟩
  | listAliases =>
    refine fits_bind (p := Repo.listAliases) (Q := Any _) ⟨trivial, fun _ _ _ _ => ⟨trivial, fun _ ks _ _ => ?_⟩⟩ fun _ _ _ _ => trivial
    exact fits_bind (p := Repo.listRows ks) fits_listRows fun _ _ _ _ => ⟨trivial, fun _ _ _ _ => trivial⟩
  | has n => exact ⟨trivial, fun _ _ _ _ => ⟨trivial, fun _ _ _ _ => ⟨trivial, fun _ _ _ _ => trivial⟩⟩⟩
  | hasAlias n => exact ⟨trivial, fun _ _ _ _ => ⟨trivial, fun _ _ _ _ => ⟨trivial, fun _ _ _ _ => trivial⟩⟩⟩
  | «alias» al i => exact fits_bind (p := Repo.alias al i) fits_alias fun _ _ _ _ => trivial
  | unAlias al i => exact fits_bind (p := Repo.unAlias al i) fits_unAlias fun _ _ _ _ => trivial
  | put n d => exact fits_bind (p := Repo.put cfg n d) fits_put fun _ _ _ _ => trivial
  | search n ts e => exact fits_bind (p := Repo.search n ts e) fits_search fun _ v _ _ => by cases v <;> trivial
  | rename old new =>
    refine fits_bind (p := Repo.rename old new) (Q := Any _)
      ⟨trivial, fun _ _ _ _ => ⟨trivial, fun _ _ _ _ => ⟨trivial, fun s3 v g3 hv => ?_⟩⟩⟩ fun _ _ _ _ => trivial
    cases v with
    | none => exact ⟨trivial, fun _ _ _ _ => trivial⟩
    | some p =>
      refine ⟨hv p rfl, fun _ _ _ _ => ⟨trivial, fun _ _ _ _ => ⟨trivial, fun _ ks _ _ => ?_⟩⟩⟩
      exact fits_bind (p := Repo.renameAliases old new ks) fits_renameAliases fun _ _ _ _ => ⟨trivial, fun _ _ _ _ => trivial⟩
  | drop n =>
    refine fits_bind (p := Repo.drop n) (Q := Any _) ⟨trivial, fun _ _ _ _ => ⟨trivial, fun s2 v g2 hv => ?_⟩⟩ fun _ _ _ _ => trivial
    cases v with
    | none => exact ⟨trivial, fun _ _ _ _ => trivial⟩
    | some p =>
      refine ⟨trivial, fun _ _ _ _ => ⟨trivial, fun _ _ _ _ => ⟨trivial, fun _ _ _ _ => ⟨trivial, fun _ _ _ _ => ⟨trivial, fun _ _ _ _ =>
        ⟨trivial, fun _ ks _ _ => ?_⟩⟩⟩⟩⟩⟩
      exact fits_bind (p := Repo.dropAliases n ks) fits_dropAliases fun _ _ _ _ => ⟨trivial, fun _ _ _ _ => ⟨trivial, fun _ _ _ _ =>
        ⟨trivial, fun _ _ _ _ => trivial⟩⟩⟩
  | string =>
    refine fits_bind (p := Repo.string) (Q := Any _) ⟨trivial, fun _ _ _ _ => ⟨trivial, fun _ ks _ _ => ?_⟩⟩ fun _ _ _ _ => trivial
    exact fits_bind (p := Repo.renderAll ks) fits_renderAll fun _ _ _ _ => ⟨trivial, fun _ _ _ _ => trivial⟩

end

/-- What the maps refer to exists. -/
structure MapsOk (s : Shared) : Prop where
  idx : ∀ n p, s.indices.get n = some p → p < s.heap.length
  al : ∀ n r, s.aliases.get n = some r → ValidIn s.arrays r

theorem exec_heap {β : Type} {a : Act β} {b : β} (he : exec cfg o t a s = .ok b s') : s.heap.length ≤ s'.heap.length := by
  cases a
  case newIndex n => simp only [exec] at he; cases he; simp only [List.length_append]; omega
  case docAppend p d =>
    simp only [exec] at he
    split at he <;> cases he
    simp only [List.length_set]; omega
  case postAdd p tok next =>
    simp only [exec] at he
    split at he <;> cases he
    simp only [List.length_set]; omega
  all_goals
    simp only [exec] at he
    (repeat' split at he) <;>
      first
        | (cases he; exact Nat.le_refl _)
        | (cases he; rename_i m _; cases m <;> exact Nat.le_refl _)
        | (cases he; rename_i m _ _; cases m <;> exact Nat.le_refl _)
        | cases he

theorem exec_grows {β : Type} {a : Act β} {b : β} (he : exec cfg o t a s = .ok b s') : Grows s s' :=
  ⟨exec_lengths he, exec_heap he⟩

theorem exec_gives {β : Type} {a : Act β} {b : β} (m : MapsOk s) (hl : Legal a s) (he : exec cfg o t a s = .ok b s') :
    Gives a b s' := by
  cases a <;> try trivial
  case idxGet n => simp only [exec] at he; cases he; exact m.idx n
  case alGet n => simp only [exec] at he; cases he; exact m.al n
  case slNew l => simp only [exec] at he; cases he; exact ⟨l ++ List.replicate (o.capacity l.length - l.length) [], by simp, by simp⟩
  case newIndex n => simp only [exec] at he; cases he; simp [Gives]
  case schedule ps =>
    simp only [exec] at he
    cases he
    intro p hp
    exact (choosePerm_perm o.schedule ps).mem_iff.1 hp
  case slAppend r v =>
    obtain ⟨x, hx, hlen⟩ := hl
    simp only [exec, hx] at he
    split at he
    · next hlt => cases he; exact (validIn_set hx _).2 ⟨x, hx, hlt⟩
    · next hlt =>
      cases he
      refine ⟨_, by simp; rfl, ?_⟩
      simp only [List.length_append, List.length_take, List.length_cons, List.length_replicate]
      omega

theorem exec_maps {β : Type} {a : Act β} {b : β} (m : MapsOk s) (hl : Legal a s) (he : exec cfg o t a s = .ok b s') : MapsOk s' := by
  have g := exec_grows he
  have keep : s'.indices = s.indices → s'.aliases = s.aliases → MapsOk s' := fun e1 e2 =>
    ⟨fun n p h => Nat.lt_of_lt_of_le (m.idx n p (e1 ▸ h)) g.2, fun n r h => g.1.valid (m.al n r (e2 ▸ h))⟩
  cases a
  case idxSet n p =>
    simp only [exec] at he; cases he
    refine ⟨fun k q h => ?_, m.al⟩
    rw [GoMap.get_set] at h
    split at h
    · cases h; exact hl
    · exact m.idx k q h
  case idxDel n =>
    simp only [exec] at he; cases he
    refine ⟨fun k q h => ?_, m.al⟩
    rw [GoMap.get_delete] at h
    split at h
    · cases h
    · exact m.idx k q h
  case alSet n r =>
    simp only [exec] at he; cases he
    refine ⟨m.idx, fun k q h => ?_⟩
    rw [GoMap.get_set] at h
    split at h
    · cases h; exact hl
    · exact m.al k q h
  case alDel n =>
    simp only [exec] at he; cases he
    refine ⟨m.idx, fun k q h => ?_⟩
    rw [GoMap.get_delete] at h
    split at h
    · cases h
    · exact m.al k q h
  case newIndex n => simp only [exec] at he; cases he; exact keep rfl rfl
  case docAppend p d =>
    simp only [exec] at he
    split at he <;> cases he
    exact keep rfl rfl
  case postAdd p tok next =>
    simp only [exec] at he
    split at he <;> cases he
    exact keep rfl rfl
  all_goals
    obtain ⟨f1, f2, -⟩ := exec_frame he
    exact keep (f1 (by simp [Act.writes])) (f2 (by simp [Act.writes]))

theorem exec_legal {β : Type} {a : Act β} {e : Crash} (hl : Legal a s) (hlock : a.isLock = false) : exec cfg o t a s ≠ .crash e := by
  intro he
  cases a <;> simp only [Act.isLock, Bool.true_eq_false] at hlock <;> simp only [exec] at he <;> try cases he
  case slRead r i =>
    obtain ⟨hi, x, hx, hlen⟩ := hl
    split at he
    · cases he
    · next hnone =>
      rw [List.getElem?_eq_none_iff] at hnone
      simp only [Shared.elems, hx, Option.getD_some, List.length_take] at hnone
      omega
  case slWrite r i v =>
    obtain ⟨hi, x, hx, hlen⟩ := hl
    simp only [hx, hi, if_true] at he
    cases he
  case slAppend r v =>
    obtain ⟨x, hx, hlen⟩ := hl
    simp only [hx] at he
    split at he <;> cases he
  case docAppend p d => rw [List.getElem?_eq_getElem hl] at he; cases he
  case postAdd p tok next => rw [List.getElem?_eq_getElem hl] at he; cases he
  case evalEngine p ts eng => rw [List.getElem?_eq_getElem hl] at he; cases he
  case render p => rw [List.getElem?_eq_getElem hl] at he; cases he

structure FitInv (c : Config) : Prop where
  maps : MapsOk c.sh
  fits : ∀ x ∈ c.calls, Fits (Any _) x.prog c.sh

theorem fits_grow {p : Prog Ret} (g : Grows s s') (h : Fits (Any _) p s) : Fits (Any _) p s' := fits_mono (fun _ _ _ _ _ => trivial) g h

theorem fitInv_reachable {c : Config} (hr : ConcReachable cfg c) : FitInv c := by
  unfold ConcReachable at hr
  induction hr with
  | refl => exact ⟨⟨fun _ _ h => (nomatch h), fun _ _ h => (nomatch h)⟩, by simp [Config.init]⟩
  | tail h hs ih =>
    cases hs with
    | invoke op o =>
      refine ⟨ih.maps, fun x hx => ?_⟩
      rcases List.mem_append.1 hx with hx | hx
      · exact ih.fits x hx
      · rw [List.mem_singleton] at hx
        subst hx
        exact fits_prog op
    | move t hm =>
      obtain ⟨H, i⟩ := lockInv_reachable (cfg := cfg) h
      cases hm with
      | act hget he =>
        have f := ih.fits _ (List.mem_of_getElem? hget)
        have g := exec_grows he
        refine ⟨exec_maps ih.maps f.1 he, fun x hx => ?_⟩
        rcases List.mem_or_eq_of_mem_set hx with hx | rfl
        · exact fits_grow g (ih.fits x hx)
        · exact f.2 _ _ g (exec_gives ih.maps f.1 he)
      | crash hget he =>
        have f := ih.fits _ (List.mem_of_getElem? hget)
        obtain ⟨d, hd⟩ := (i.good t _ hget).allowed
        exact absurd he (exec_legal f.1 (lock_no_crash i.link hd he))

/-- In no interleaving does a call misuse a mutex or refer to something that does not exist. -/
theorem never_invalid {c : Config} (hr : ConcReachable cfg c) {x : Thread} (hx : x ∈ c.calls) : x.prog ≠ .crash .invalid := by
  intro hp
  have := (fitInv_reachable hr).fits x hx
  rw [hp] at this
  exact this rfl

/-- The next action of a call is performed or waits for a mutex. -/
theorem action_safe {c : Config} (hr : ConcReachable cfg c) {t : Tid} {op : Op} {β : Type} {a : Act β} {k : β → Prog Ret}
    (hx : c.calls[t]? = some ⟨op, o, .act a k⟩) (e : Crash) : exec cfg o t a c.sh ≠ .crash e := by
  intro he
  obtain ⟨H, i⟩ := lockInv_reachable (cfg := cfg) hr
  obtain ⟨d, hd⟩ := (i.good t _ hx).allowed
  exact exec_legal ((fitInv_reachable hr).fits _ (List.mem_of_getElem? hx)).1 (lock_no_crash i.link hd he) he

end Visigoth
