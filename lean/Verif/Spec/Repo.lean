import Verif.Model.Repo
import Verif.Spec.Render
/-!
# Specification of a repository used by one caller

A repository is a map from names to lists of requests and a map from aliases to lists of names, plus
what has been leaked: how many read locks of the index mutex and whether the write lock of the alias
mutex will never be released.  Nothing here mentions Go maps, slices, pointers or goroutines.
-/
namespace Visigoth

structure SpecState where
  docs : Name → Option (List DocRequest)
  aliases : Name → Option (List Name)
  leakedReaders : Nat
  leakedWriter : Bool

/-- The empty repository. -/
def SpecState.empty : SpecState := ⟨fun _ => none, fun _ => none, 0, false⟩

/-- What a caller sees of a return value: rows of `ListAliases` with their contents. -/
inductive SRet where
  | bool (b : Bool)
  | names (l : List Name)
  | rows (l : List (Name × List Name))
  | unit
  | results (l : List SearchResult)
  | noIndex
  | text (t : Str)
deriving DecidableEq

/-- The caller's view of a return value in a state. -/
def Ret.view (s : Shared) : Ret → SRet
  | .bool b => .bool b
  | .names l => .names l
  | .rows l => .rows (l.map fun e => (e.1, s.elems e.2))
  | .unit => .unit
  | .results l => .results l
  | .noIndex => .noIndex
  | .text t => .text t

/-- Function update. -/
def upd {β : Type} (f : Name → β) (n : Name) (v : β) : Name → β := fun m => if m = n then v else f m

/-- The indices a name stands for: the index of that name, else those the alias lists. -/
def SpecState.resolve (a : SpecState) (n : Name) : Option (List Name) :=
  if (a.docs n).isSome then some [n] else a.aliases n

/-- Direct search of a list of requests. -/
def specSearch (cfg : Cfg) (rs : List DocRequest) (terms : Str) (e : Engine) :
    Option (List SearchResult) :=
  (buildIndex cfg.tok [] rs).search cfg.cp cfg.tok terms e

/-- State after a completed call. -/
def SpecState.next (a : SpecState) : Op → SpecState
  | .list | .listAliases | .has _ | .hasAlias _ | .search _ _ _ | .string => a
  | .alias al i =>
    if (a.docs i).isSome then
      match a.aliases al with
      | none => { a with aliases := upd a.aliases al (some [i]) }
      | some l => if i ∈ l then a else { a with aliases := upd a.aliases al (some (l ++ [i])) }
    else a
  | .unAlias al i =>
    if i = [] then { a with aliases := upd a.aliases al none }
    else if (a.docs i).isSome then
      match a.aliases al with
      | none => { a with leakedWriter := true }
      | some l => { a with aliases := upd a.aliases al (some (l.filter (fun x => x ≠ i))) }
    else { a with leakedReaders := a.leakedReaders + 1 }
  | .put n d =>
    match a.resolve n with
    | none => { a with docs := upd a.docs n (some [d]) }
    | some l => { a with docs := fun m => if m ∈ l then (a.docs m).map (· ++ [d]) else a.docs m }
  | .rename o n =>
    match a.docs o with
    | none => a
    | some rs =>
      { a with
        docs := upd (upd a.docs n (some rs)) o none
        aliases := fun k => (a.aliases k).map (List.map fun x => if x = o then n else x) }
  | .drop n =>
    if (a.docs n).isSome then
      { a with
        docs := upd a.docs n none
        aliases := fun k => (a.aliases k).bind fun l =>
          if l.filter (fun x => x ≠ n) = [] then none else some (l.filter (fun x => x ≠ n)) }
    else a

/-- The call never returns (it waits for a leaked lock). -/
def SpecState.hangs (a : SpecState) : Op → Prop
  | .list | .has _ | .string => False
  | .listAliases | .hasAlias _ => a.leakedWriter = true
  | .alias _ i => (a.docs i).isSome ∧ a.leakedWriter = true
  | .unAlias _ i => (i = [] ∨ (a.docs i).isSome) ∧ a.leakedWriter = true
  | .put n _ => ((a.docs n) = none ∧ a.leakedWriter = true) ∨ 0 < a.leakedReaders
  | .search n _ _ => a.docs n = none ∧ a.leakedWriter = true
  | .rename _ _ => 0 < a.leakedReaders
  | .drop n => (a.docs n).isSome ∧ (0 < a.leakedReaders ∨ a.leakedWriter = true)

/-- The call crashes the process (if it does not hang). -/
def SpecState.crashes (cfg : Cfg) (a : SpecState) : Op → Crash → Prop
  | .put n _, c =>
    ∃ l, a.resolve n = some l ∧
      ((c = .nilIndex ∧ ∃ m ∈ l, a.docs m = none) ∨
       (c = .race ∧ (∀ m ∈ l, (a.docs m).isSome) ∧ ¬ l.Nodup))
  | .search n ts e, c =>
    ∃ l, a.resolve n = some l ∧
      ((c = .nilIndex ∧ ∃ m ∈ l, a.docs m = none) ∨
       (c = .engine ∧ (∀ m ∈ l, (a.docs m).isSome) ∧
          ∃ m ∈ l, ∃ rs, a.docs m = some rs ∧ specSearch cfg rs ts e = none))
  | _, _ => False

/-- What a completed call may return. -/
def SpecState.allows (cfg : Cfg) (a : SpecState) : Op → SRet → Prop
  | .list, r => ∃ l, r = .names l ∧ l.Nodup ∧ ∀ n, n ∈ l ↔ (a.docs n).isSome
  | .listAliases, r =>
    ∃ l, r = .rows l ∧ (l.map (·.1)).Nodup ∧ ∀ k v, (k, v) ∈ l ↔ a.aliases k = some v
  | .has n, r => r = .bool (a.docs n).isSome
  | .hasAlias n, r => r = .bool (a.aliases n).isSome
  | .alias al i, r =>
    r = .bool ((a.docs i).isSome && decide (i ∉ (a.aliases al).getD []))
  | .unAlias al i, r =>
    r = .bool (if i = [] then (a.aliases al).isSome
               else (a.docs i).isSome && (a.aliases al).isSome)
  | .put _ _, r => r = .unit
  | .search n ts e, r =>
    match a.resolve n with
    | none => r = .noIndex
    | some l =>
      ∃ order : List Name, order.Perm l ∧ ∃ parts : List (List SearchResult),
        order.map (fun m => (a.docs m).bind fun rs => specSearch cfg rs ts e) = parts.map some ∧
        r = .results parts.flatten
  | .rename o _, r => r = .bool (a.docs o).isSome
  | .drop n, r => r = .bool (a.docs n).isSome
  | .string, r =>
    ∃ order : List Name, order.Nodup ∧ (∀ n, n ∈ order ↔ (a.docs n).isSome) ∧
      ∃ parts : List Str, r = .text parts.flatten ∧ parts.length = order.length ∧
        ∀ (i : Nat) n part, order[i]? = some n → parts[i]? = some part →
          ∃ rs label, a.docs n = some rs ∧ RendersLine cfg.tok label rs part

/-- The calls that only read. -/
def Op.isRead : Op → Bool
  | .list | .listAliases | .has _ | .hasAlias _ | .search _ _ _ | .string => true
  | _ => false

/-- `Rename` is the only call that writes into slices already handed out. -/
def Op.isRename : Op → Bool
  | .rename _ _ => true
  | _ => false

end Visigoth
