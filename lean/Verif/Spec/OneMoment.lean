import Verif.Spec.Atomic
/-!
# Specification: every call takes effect at one moment

The repository of one caller (`Spec/Repo.lean`), used by many: a call is made, at some later moment it takes
effect, all of it at once, and has its result.  Locks that are never given back are not part of it: a call
that waits for one is a call that has not taken effect.
-/
namespace Visigoth

/-- How far a call has got. -/
inductive Fate
  | waiting
  | over (v : SRet)
  | dead (e : Crash)

/-- A repository and the calls made so far. -/
structure LConfig where
  docs : Name → Option (List DocRequest)
  aliases : Name → Option (List Name)
  calls : List (Op × Fate)

def LConfig.init : LConfig := ⟨fun _ => none, fun _ => none, []⟩

/-- The repository as one caller sees it. -/
def LConfig.seq (L : LConfig) : SpecState := ⟨L.docs, L.aliases, 0, false⟩

/-- A call takes effect, or a new call is made. -/
inductive LStep (cfg : Cfg) : LConfig → LConfig → Prop where
  | take {L : LConfig} (t : Tid) {op : Op} {v : SRet} (h : L.calls[t]? = some (op, .waiting)) (hv : L.seq.allows cfg op v) :
      LStep cfg L ⟨(L.seq.next op).docs, (L.seq.next op).aliases, L.calls.set t (op, .over v)⟩
  | die {L : LConfig} (t : Tid) {op : Op} {e : Crash} (h : L.calls[t]? = some (op, .waiting)) (he : L.seq.crashes cfg op e) :
      LStep cfg L ⟨L.docs, L.aliases, L.calls.set t (op, .dead e)⟩
  | invoke (L : LConfig) (op : Op) : LStep cfg L ⟨L.docs, L.aliases, L.calls ++ [(op, .waiting)]⟩

inductive LSteps (cfg : Cfg) : LConfig → LConfig → Prop where
  | refl (L : LConfig) : LSteps cfg L L
  | tail {L L' L'' : LConfig} (h : LSteps cfg L L') (hs : LStep cfg L' L'') : LSteps cfg L L''

/-- The repository `s` holds these documents and aliases. -/
structure Holds (cfg : Cfg) (s : Shared) (L : LConfig) : Prop where
  unnamed : ∀ n, L.docs n = none → s.indices.get n = none
  named : ∀ n rs, L.docs n = some rs → ∃ p nm, s.indices.get n = some p ∧ s.heap[p]? = some (buildIndex cfg.tok nm rs)
  aliases : ∀ n, (s.aliases.get n).map s.elems = L.aliases n

/-- What can be seen of an interleaved execution: the calls made, their results, and the state when no call is
running. -/
structure SeenAs (cfg : Cfg) (c : Config) (L : LConfig) : Prop where
  calls : L.calls.map (·.1) = c.calls.map (·.op)
  returned : ∀ (t : Nat) x r, c.calls[t]? = some x → x.prog = .ret r →
    ∃ v, L.calls[t]? = some (x.op, .over v) ∧ r.agrees v
  crashed : ∀ (t : Nat) x e, c.calls[t]? = some x → x.prog = .crash e → L.calls[t]? = some (x.op, .dead e)
  state : c.quiet → Holds cfg c.sh L

/-- The calls `ts` one after the other, as a single caller would make them, with the results they have in `calls`. -/
inductive Replay (cfg : Cfg) (calls : List (Op × Fate)) : SpecState → List Tid → SpecState → Prop where
  | nil (a : SpecState) : Replay cfg calls a [] a
  | cons {a b : SpecState} {ts : List Tid} {t : Tid} {op : Op} {v : SRet} (ht : calls[t]? = some (op, .over v))
      (hv : a.allows cfg op v) (h : Replay cfg calls ⟨(a.next op).docs, (a.next op).aliases, 0, false⟩ ts b) :
      Replay cfg calls a (t :: ts) b

/-- A call is over. -/
def LConfig.returned (L : LConfig) (t : Tid) : Prop := ∃ op v, L.calls[t]? = some (op, .over v)

/-- From `c0` on, as long as the calls satisfy `ok`, every step of the execution is matched by calls that take
effect at one moment: a call takes effect after it is made and before it returns. -/
def Linearizable (cfg : Cfg) (c0 : Config) (ok : Op → Prop) : Prop :=
  ∃ (R : Config → LConfig → Prop) (L0 : LConfig), R c0 L0 ∧ (∀ c L, R c L → SeenAs cfg c L) ∧
    ∀ c L c', R c L → (∀ x ∈ c'.calls.drop c0.calls.length, ok x.op) → Step cfg c c' → ∃ L', LSteps cfg L L' ∧ R c' L'

/-- Any three points of an execution from `c0` on are matched; weaker than `Linearizable`. -/
def Matched (cfg : Cfg) (c0 : Config) (ok : Op → Prop) : Prop :=
  ∀ c1 c2, Steps cfg c0 c1 → Steps cfg c1 c2 → (∀ x ∈ c2.calls.drop c0.calls.length, ok x.op) →
    ∃ L0 L1 L2, SeenAs cfg c0 L0 ∧ SeenAs cfg c1 L1 ∧ SeenAs cfg c2 L2 ∧ LSteps cfg L0 L1 ∧ LSteps cfg L1 L2

/-- Every call that has returned has returned what it had when it took effect, and that is what the caller still
sees in it: the slices in the rows of `ListAliases` are compared as well. -/
def RowsSeen (c : Config) (L : LConfig) : Prop :=
  ∀ (t : Nat) x r, c.calls[t]? = some x → x.prog = .ret r → L.calls[t]? = some (x.op, .over (r.view c.sh))

/-- `Linearizable`, the slices in the rows of `ListAliases` compared as well. -/
def FullyLinearizable (cfg : Cfg) (c0 : Config) (ok : Op → Prop) : Prop :=
  ∃ (R : Config → LConfig → Prop) (L0 : LConfig), R c0 L0 ∧ (∀ c L, R c L → SeenAs cfg c L ∧ RowsSeen c L) ∧
    ∀ c L c', R c L → (∀ x ∈ c'.calls.drop c0.calls.length, ok x.op) → Step cfg c c' → ∃ L', LSteps cfg L L' ∧ R c' L'

/-- The calls that leave alone what a `Put` looks up: no `Rename`, no `Drop`; a `Put` names an index of `s`, or an
alias of `s` that no call changes; `Alias` and `UnAlias` change the aliases in `free` only. -/
def Op.settled (s : Shared) (free : Name → Prop) : Op → Prop
  | .put n _ => (s.indices.get n).isSome = true ∨ ((s.aliases.get n).isSome = true ∧ ¬ free n)
  | .alias al _ | .unAlias al _ => free al
  | .rename _ _ | .drop _ => False
  | _ => True

/-- The calls that are one atomic step: they do not look twice. -/
def Op.looksOnce : Op → Bool
  | .put _ _ | .drop _ => false
  | .unAlias _ i => i = []
  | _ => true

end Visigoth
