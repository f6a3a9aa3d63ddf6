import Verif.Spec.Repo
/-!
# Histories that differ in statements and contents

`C` says which contents may take each other's place: `Eq` if contents are the same on both sides, `fun _ _ => True`
if they are arbitrary.
-/
namespace Visigoth

universe u v

variable (C : Str → Str → Prop)

/-- Both absent, or both present and related. -/
def OptRel {α : Type u} {β : Type v} (R : α → β → Prop) : Option α → Option β → Prop
  | none, none => True
  | some a, some b => R a b
  | _, _ => False

/-- Documents with the same name. -/
def DocRel (d d' : Doc) : Prop := d.name = d'.name ∧ C d.content d'.content

/-- Results with the same name and the same number of hits. -/
def ResultRel (r r' : SearchResult) : Prop := r.hits = r'.hits ∧ DocRel C r.document r'.document

/-- Requests with the same name and with statements that contain the same tokens. -/
def RequestRel (cfg : Cfg) (d d' : DocRequest) : Prop :=
  d.name = d'.name ∧ (∀ t, t ∈ cfg.tok d.statement ↔ t ∈ cfg.tok d'.statement) ∧ C d.content d'.content

/-- An engine that finds the same documents if contents are exchanged. -/
def BlindTo (e : Engine) : Prop :=
  ∀ tokens ix ix', ix.len = ix'.len → ix.indexed = ix'.indexed → (∀ i, OptRel (DocRel C) (ix.document i) (ix'.document i)) →
    OptRel (Forall2 (ResultRel C)) (e tokens ix) (e tokens ix')

/-- The same call, except that a `Put` may have a request with another content and with another statement that
contains the same tokens. -/
inductive OpRel (cfg : Cfg) : Op → Op → Prop
  | put {n : Name} {d d' : DocRequest} (h : RequestRel C cfg d d') : OpRel cfg (.put n d) (.put n d')
  | search {n : Name} {terms : Str} {e : Engine} (h : BlindTo C e) : OpRel cfg (.search n terms e) (.search n terms e)
  | same {op : Op} (hp : ∀ n d, op ≠ .put n d) (hs : ∀ n terms e, op ≠ .search n terms e) : OpRel cfg op op

/-- The same answer, up to the contents of the documents found. -/
inductive AnswerRel : SRet → SRet → Prop
  | results {l l' : List SearchResult} (h : Forall2 (ResultRel C) l l') : AnswerRel (.results l) (.results l')
  | same {r : SRet} (h : ∀ l, r ≠ .results l) : AnswerRel r r

end Visigoth
