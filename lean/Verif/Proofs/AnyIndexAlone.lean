import Verif.Proofs.AnyIndexSim
/-! # Calls one after another on one index -/
namespace Visigoth

variable {σ : Type} (I : IndexImpl σ)

theorem play_hop {s s' : IShared σ} {cs : List IThread} {op : Op} {o : Oracle} {β : Type} {a : IAct β} {k : β → IProg Ret}
    {b : β} (h : iexec I o cs.length a s = .ok b s') (xs : List Sched) :
    IConfig.play I ⟨s, cs ++ [⟨op, o, .act a k⟩]⟩ (.go cs.length :: xs) = IConfig.play I ⟨s', cs ++ [⟨op, o, k b⟩]⟩ xs := by
  rw [IConfig.play]
  simp [IConfig.next, h]

theorem play_call (s : IShared σ) (cs : List IThread) (op : Op) (o : Oracle) (xs : List Sched) :
    IConfig.play I ⟨s, cs⟩ (.call op o :: xs) = IConfig.play I ⟨s, cs ++ [⟨op, o, op.iprog⟩]⟩ xs := rfl

/-- A repository without aliases. -/
def noAlias (ix : GoMap Name Ptr) (ir : List Tid) (iw : Option Tid) (ar : List Tid) (objs : List σ) : IShared σ :=
  ⟨{ indices := ix, imu := ⟨ir, iw⟩, amu := ⟨ar, none⟩ }, objs⟩

variable {I} {ix : GoMap Name Ptr} {ir ar : List Tid} {iw : Option Tid} {objs : List σ} {o : Oracle} {t : Tid} {n : Name}

theorem na_rlockI : iexec I o t (.plain (.rlock .indices)) (noAlias ix ir none ar objs)
    = .ok () (noAlias ix (t :: ir) none ar objs) := rfl
theorem na_rlockA : iexec I o t (.plain (.rlock .aliases)) (noAlias ix ir iw ar objs)
    = .ok () (noAlias ix ir iw (t :: ar) objs) := rfl
theorem na_runlockI : iexec I o t (.plain (.runlock .indices)) (noAlias ix (t :: ir) iw ar objs)
    = .ok () (noAlias ix ir iw ar objs) := by
  simp [iexec, exec, Act.onNames, noAlias, Shared.mu, Shared.setMu]
theorem na_runlockA : iexec I o t (.plain (.runlock .aliases)) (noAlias ix ir iw (t :: ar) objs)
    = .ok () (noAlias ix ir iw ar objs) := by
  simp [iexec, exec, Act.onNames, noAlias, Shared.mu, Shared.setMu]
theorem na_announce : iexec I o t (.plain (.announce .indices)) (noAlias ix ir none ar objs)
    = .ok () (noAlias ix ir (some t) ar objs) := rfl
theorem na_acquire : iexec I o t (.plain (.acquire .indices)) (noAlias ix [] (some t) ar objs)
    = .ok () (noAlias ix [] (some t) ar objs) := by
  simp [iexec, exec, Act.onNames, noAlias, Shared.mu]
theorem na_unlock : iexec I o t (.plain (.unlock .indices)) (noAlias ix ir (some t) ar objs)
    = .ok () (noAlias ix ir none ar objs) := by
  simp [iexec, exec, Act.onNames, noAlias, Shared.mu, Shared.setMu]
theorem na_idxGet : iexec I o t (.plain (.idxGet n)) (noAlias ix ir iw ar objs)
    = .ok (ix.get n) (noAlias ix ir iw ar objs) := rfl
theorem na_alGet : iexec I o t (.plain (.alGet n)) (noAlias ix ir iw ar objs)
    = .ok none (noAlias ix ir iw ar objs) := rfl
theorem na_idxSet {p : Ptr} : iexec I o t (.plain (.idxSet n p)) (noAlias ix ir iw ar objs)
    = .ok () (noAlias (ix.set n p) ir iw ar objs) := rfl
theorem na_make : iexec I o t (.make n) (noAlias ix ir iw ar objs)
    = .ok objs.length (noAlias ix ir iw ar (objs ++ [I.make n])) := rfl
theorem na_put {x : σ} {d : DocRequest} : iexec I o t (.put 0 d) (noAlias ix ir iw ar [x])
    = .ok () (noAlias ix ir iw ar [I.put x d]) := rfl
theorem na_search {x : σ} {terms : Str} {e : Engine} : iexec I o t (.search 0 terms e) (noAlias ix ir iw ar [x])
    = .ok (I.search x terms e) (noAlias ix ir iw ar [x]) := rfl
theorem na_schedule : iexec I sampleOracle t (.plain (.schedule [0])) (noAlias ix ir iw ar objs)
    = .ok [0] (noAlias ix ir iw ar objs) := rfl

theorem play_first (cs : List IThread) (d : DocRequest) (xs : List Sched) :
    IConfig.play I ⟨noAlias [] [] none [] [], cs⟩ ([callNow (.put n d)] ++ goes cs.length 12 ++ xs)
      = IConfig.play I ⟨noAlias [(n, 0)] [] none [] [I.put (I.make n) d], cs ++ [⟨.put n d, sampleOracle, .ret .unit⟩]⟩ xs := by
  show IConfig.play I _ (.call _ _ :: .go _ :: .go _ :: .go _ :: .go _ :: .go _ :: .go _ :: .go _ :: .go _ :: .go _ :: .go _ ::
    .go _ :: .go _ :: xs) = _
  rw [play_call]
  rw [show (Op.put n d).iprog = .act (.plain (.rlock .indices)) _ from rfl, play_hop I na_rlockI]
  show IConfig.play I ⟨_, cs ++ [⟨_, _, .act (.plain (.idxGet n)) _⟩]⟩ _ = _
  rw [play_hop I na_idxGet]
  show IConfig.play I ⟨_, cs ++ [⟨_, _, .act (.plain (.rlock .aliases)) _⟩]⟩ _ = _
  rw [play_hop I na_rlockA]
  show IConfig.play I ⟨_, cs ++ [⟨_, _, .act (.plain (.alGet n)) _⟩]⟩ _ = _
  rw [play_hop I na_alGet]
  show IConfig.play I ⟨_, cs ++ [⟨_, _, .act (.plain (.runlock .aliases)) _⟩]⟩ _ = _
  rw [play_hop I na_runlockA]
  show IConfig.play I ⟨_, cs ++ [⟨_, _, .act (.plain (.runlock .indices)) _⟩]⟩ _ = _
  rw [play_hop I na_runlockI]
  show IConfig.play I ⟨_, cs ++ [⟨_, _, .act (.plain (.announce .indices)) _⟩]⟩ _ = _
  rw [play_hop I na_announce]
  show IConfig.play I ⟨_, cs ++ [⟨_, _, .act (.plain (.acquire .indices)) _⟩]⟩ _ = _
  rw [play_hop I na_acquire]
  show IConfig.play I ⟨_, cs ++ [⟨_, _, .act (.make n) _⟩]⟩ _ = _
  rw [play_hop I na_make]
  show IConfig.play I ⟨_, cs ++ [⟨_, _, .act (.plain (.idxSet n 0)) _⟩]⟩ _ = _
  rw [play_hop I na_idxSet]
  show IConfig.play I ⟨_, cs ++ [⟨_, _, .act (.put 0 d) _⟩]⟩ _ = _
  rw [List.nil_append, play_hop I na_put]
  show IConfig.play I ⟨_, cs ++ [⟨_, _, .act (.plain (.unlock .indices)) _⟩]⟩ _ = _
  rw [play_hop I na_unlock]
  rfl

theorem get_one : GoMap.get [(n, (0 : Ptr))] n = some 0 := by simp [GoMap.get]

theorem play_more (cs : List IThread) (x : σ) (d : DocRequest) (xs : List Sched) :
    IConfig.play I ⟨noAlias [(n, 0)] [] none [] [x], cs⟩ ([callNow (.put n d)] ++ goes cs.length 8 ++ xs)
      = IConfig.play I ⟨noAlias [(n, 0)] [] none [] [I.put x d], cs ++ [⟨.put n d, sampleOracle, .ret .unit⟩]⟩ xs := by
  show IConfig.play I _ (.call _ _ :: .go _ :: .go _ :: .go _ :: .go _ :: .go _ :: .go _ :: .go _ :: .go _ :: xs) = _
  rw [play_call]
  rw [show (Op.put n d).iprog = .act (.plain (.rlock .indices)) _ from rfl, play_hop I na_rlockI]
  show IConfig.play I ⟨_, cs ++ [⟨_, _, .act (.plain (.idxGet n)) _⟩]⟩ _ = _
  rw [play_hop I na_idxGet, get_one]
  show IConfig.play I ⟨_, cs ++ [⟨_, _, .act (.plain (.runlock .indices)) _⟩]⟩ _ = _
  rw [play_hop I na_runlockI]
  show IConfig.play I ⟨_, cs ++ [⟨_, _, .act (.plain (.announce .indices)) _⟩]⟩ _ = _
  rw [play_hop I na_announce]
  show IConfig.play I ⟨_, cs ++ [⟨_, _, .act (.plain (.acquire .indices)) _⟩]⟩ _ = _
  rw [play_hop I na_acquire]
  show IConfig.play I ⟨_, cs ++ [⟨_, _, .act (.plain (.schedule [0])) _⟩]⟩ _ = _
  rw [play_hop I na_schedule]
  show IConfig.play I ⟨_, cs ++ [⟨_, _, .act (.put 0 d) _⟩]⟩ _ = _
  rw [play_hop I na_put]
  show IConfig.play I ⟨_, cs ++ [⟨_, _, .act (.plain (.unlock .indices)) _⟩]⟩ _ = _
  rw [play_hop I na_unlock]
  rfl

/-- The status of a search that has been answered by the index. -/
def hasAnswered : Option (List SearchResult) → Status
  | none => .crashed .engine
  | some _ => .running

theorem play_search (cs : List IThread) (x : σ) (terms : Str) (e : Engine) :
    (IConfig.play I ⟨noAlias [(n, 0)] [] none [] [x], cs⟩ ([callNow (.search n terms e)] ++ goes cs.length 3)).map
        (fun c => c.calls.map IThread.status) = some (cs.map IThread.status ++ [hasAnswered (I.search x terms e)]) ∧
    ∀ r, I.search x terms e = some r →
      IConfig.play I ⟨noAlias [(n, 0)] [] none [] [x], cs⟩ ([callNow (.search n terms e)] ++ goes cs.length 4)
        = some ⟨noAlias [(n, 0)] [] none [] [x], cs ++ [⟨.search n terms e, sampleOracle, .ret (.results r)⟩]⟩ := by
  constructor
  · show Option.map _ (IConfig.play I _ [.call _ _, .go _, .go _, .go _]) = _
    rw [play_call]
    rw [show (Op.search n terms e).iprog = .act (.plain (.rlock .indices)) _ from rfl, play_hop I na_rlockI]
    show Option.map _ (IConfig.play I ⟨_, cs ++ [⟨_, _, .act (.plain (.idxGet n)) _⟩]⟩ _) = _
    rw [play_hop I na_idxGet, get_one]
    show Option.map _ (IConfig.play I ⟨_, cs ++ [⟨_, _, .act (.search 0 terms e) _⟩]⟩ _) = _
    rw [play_hop I na_search]
    simp only [IConfig.play, Option.map_some, Option.some.injEq, List.map_append, List.map_cons, List.map_nil,
      List.append_cancel_left_eq]
    cases I.search x terms e <;> rfl
  · intro r hr
    show IConfig.play I _ [.call _ _, .go _, .go _, .go _, .go _] = _
    rw [play_call]
    rw [show (Op.search n terms e).iprog = .act (.plain (.rlock .indices)) _ from rfl, play_hop I na_rlockI]
    show IConfig.play I ⟨_, cs ++ [⟨_, _, .act (.plain (.idxGet n)) _⟩]⟩ _ = _
    rw [play_hop I na_idxGet, get_one]
    show IConfig.play I ⟨_, cs ++ [⟨_, _, .act (.search 0 terms e) _⟩]⟩ _ = _
    rw [play_hop I na_search, hr]
    show IConfig.play I ⟨_, cs ++ [⟨_, _, .act (.plain (.runlock .indices)) _⟩]⟩ _ = _
    rw [play_hop I na_runlockI]
    rfl

/-- Puts to one name, one after the other. -/
def putsOn (n : Name) : Nat → List DocRequest → List Sched
  | _, [] => []
  | t, d :: ds => [callNow (.put n d)] ++ goes t 8 ++ putsOn n (t + 1) ds

/-- The calls of `putsOn`, all of them returned. -/
def putsDone (n : Name) (ds : List DocRequest) : List IThread :=
  ds.map fun d => ⟨.put n d, sampleOracle, .ret .unit⟩

theorem play_putsOn (ds : List DocRequest) (cs : List IThread) (x : σ) (xs : List Sched) :
    IConfig.play I ⟨noAlias [(n, 0)] [] none [] [x], cs⟩ (putsOn n cs.length ds ++ xs)
      = IConfig.play I ⟨noAlias [(n, 0)] [] none [] [ds.foldl I.put x], cs ++ putsDone n ds⟩ xs := by
  induction ds generalizing cs x with
  | nil => simp [putsOn, putsDone]
  | cons d ds ih =>
    rw [putsOn, List.append_assoc, play_more]
    have := ih (cs ++ [⟨.put n d, sampleOracle, .ret .unit⟩]) (I.put x d)
    rw [List.length_append, List.length_singleton] at this
    rw [this]
    simp [putsDone]

/-- Puts to one name from the beginning. -/
def history (n : Name) (d : DocRequest) (ds : List DocRequest) : List Sched :=
  [callNow (.put n d)] ++ goes 0 12 ++ putsOn n 1 ds

theorem play_history (d : DocRequest) (ds : List DocRequest) (xs : List Sched) :
    (IConfig.init σ).play I (history n d ds ++ xs)
      = IConfig.play I ⟨noAlias [(n, 0)] [] none [] [I.after n (d :: ds)], putsDone n (d :: ds)⟩ xs := by
  rw [history, List.append_assoc]
  have h := play_first (I := I) (n := n) [] d (putsOn n 1 ds ++ xs)
  refine Eq.trans h ?_
  exact play_putsOn ds [⟨.put n d, sampleOracle, .ret .unit⟩] (I.put (I.make n) d) xs

theorem noString_append {xs ys : List Sched} (hx : NoString xs) (hy : NoString ys) : NoString (xs ++ ys) := by
  intro op o h
  rcases List.mem_append.1 h with h | h
  · exact hx op o h
  · exact hy op o h

theorem noString_goes (t k : Nat) : NoString (goes t k) := by
  intro op o h
  cases (List.mem_replicate.1 h).2

theorem noString_call {op : Op} (h : op.isString = false) : NoString [callNow op] := by
  intro op' o h'
  simp only [callNow, List.mem_singleton, Sched.call.injEq] at h'
  rw [h'.1, h]

theorem noString_putsOn (t : Nat) (ds : List DocRequest) : NoString (putsOn n t ds) := by
  induction ds generalizing t with
  | nil => intro _ _ h; cases h
  | cons d ds ih => exact noString_append (noString_append (noString_call rfl) (noString_goes _ _)) (ih _)

theorem noString_history (d : DocRequest) (ds : List DocRequest) : NoString (history n d ds) :=
  noString_append (noString_append (noString_call rfl) (noString_goes _ _)) (noString_putsOn _ _)

end Visigoth
