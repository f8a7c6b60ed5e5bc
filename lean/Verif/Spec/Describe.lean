import Verif.Model.SmartlogText

/-!
What bug reports must not show, and how the texts of the smartlog are to be read; specification for C79, C80.
-/

namespace Verif.Spec

open Verif

/-! ### what is secret in a bug report -/

/-- ASCII white space. -/
def White (c : Char) : Prop := c ∈ [' ', '\t', '\n', Char.ofNat 12, '\r']

/-- Two texts which have white space at the same places, and otherwise the same number of characters. -/
def SameShape (a b : Text) : Prop := List.Forall₂ (fun c d => c = d ∨ (¬ White c ∧ ¬ White d)) a b

/-- A reference whose name may be secret: all but the main branch and `HEAD` and the like. -/
def Secret (main name : Text) : Prop := name ≠ main ∧ '/' ∈ name

/-- The three kinds of references, by the beginnings of their names. -/
def refKind (name : Text) : Text :=
  if t!"refs/heads/" <+: name then t!"refs/heads/" else if t!"refs/remotes/" <+: name then t!"refs/remotes/" else []

/-- A name which looks like the ones which are shown instead of secret ones. -/
def LooksRedacted (name : Text) : Prop :=
  ∃ p ∈ [t!"refs/heads/", t!"refs/remotes/", []], ∃ number : Nat, name = p ++ t!"redacted-ref-" ++ natToText number

/-- `ρ` gives other names to secret references, of the same kind. (The names in `refs/branchless/` are ignored by
everything, and remain so.) -/
structure Renaming (main : Text) (ρ : Text → Text) : Prop where
  injective : Function.Injective ρ
  known : ∀ name, ¬ Secret main name → ρ name = name
  secret : ∀ name, Secret main name → Secret main (ρ name)
  kind : ∀ name, refKind (ρ name) = refKind name
  internal : ∀ name, t!"refs/branchless/" <+: ρ name ↔ t!"refs/branchless/" <+: name

/-- The event with another name. -/
def renameEvent (ρ : Text → Text) : Event → Event
  | .refUpdate ts tx name old new message => .refUpdate ts tx (ρ name) old new message
  | .snapshot ts tx head oid name => .snapshot ts tx head oid (name.map ρ)
  | e => e

/-- Commits which differ only in the characters of the messages. -/
structure SameCommitText (a b : CommitText) : Prop where
  shortOid : a.shortOid = b.shortOid
  seconds : a.seconds = b.seconds
  summary : SameShape a.summary b.summary

/-- Two repositories which differ only in the secret names of references (according to `ρ`) and in the messages
of commits. Their references are iterated in the same order. -/
structure SameButSecrets (ρ : Text → Text) (env env' : ReportEnv) : Prop where
  events : env'.events = env.events.map (renameEvent ρ)
  mainName : env'.mainName = env.mainName
  txMessage : env'.txMessage = env.txMessage
  dag : env'.dag = env.dag
  smartlog : env'.smartlog = env.smartlog
  commits : env'.commits = env.commits
  headOid : env'.headOid = env.headOid
  debug : env'.debug = env.debug
  commit : ∀ oid, Option.Rel SameCommitText (env.describe.commit oid) (env'.describe.commit oid)
  showTime : env'.describe.showTime = env.describe.showTime
  showBranches : env'.describe.showBranches = env.describe.showBranches
  now : env'.describe.now = env.describe.now
  headName : env'.describe.headName = env.describe.headName.map ρ
  branchNames : env'.describe.branchNames = env.describe.branchNames.map fun e => (e.1, e.2.map ρ)

/-- A table of names for secret references: each has its own number. -/
structure NameTable (main : Text) (table : AMap Text Text) : Prop where
  form : ∀ name shown, table.get? name = some shown → Secret main name ∧
    ∃ number : Nat, shown = refKind name ++ t!"redacted-ref-" ++ natToText number
  distinct : ∀ a b shown, table.get? a = some shown → table.get? b = some shown → a = b

/-! ### reading the smartlog -/

/-- The lines say the same: the same symbols and numbers, the same commits. (Whether a commit is mentioned as a
parent or as a child is not said. Two pairs of symbols are the same: with `text` glyphs, a commit which is checked
out looks the same on the main branch and elsewhere; with `pretty` ones, an obsolete one does which is not checked
out.) -/
inductive SameItem (pretty : Bool) : LineItem → LineItem → Prop
  | omitted (n) : SameItem pretty (.omitted n) (.omitted n)
  | ellipsis : SameItem pretty .ellipsis .ellipsis
  | merge {i j} (o) : i ∈ [LineItem.mergeParent o, .mergeChild o] → j ∈ [LineItem.mergeParent o, .mergeChild o] →
      SameItem pretty i j
  | mergeJoin : SameItem pretty .mergeJoin .mergeJoin
  | commit (o) (isMain isMain' isObsolete isHead : Bool) :
      (isMain = isMain' ∨ (if pretty then isObsolete = true ∧ isHead = false else isHead = true)) →
      SameItem pretty (.commit o isMain isObsolete isHead) (.commit o isMain' isObsolete isHead)
  | omittedDescendants (n) : SameItem pretty (.omittedDescendants n) (.omittedDescendants n)
  | split : SameItem pretty .split .split
  | line : SameItem pretty .line .line
  | empty : SameItem pretty .empty .empty

/-- The commits a line mentions. -/
def itemOid : LineItem → Option Oid
  | .mergeParent o => some o
  | .mergeChild o => some o
  | .commit o _ _ _ => some o
  | _ => none

/-- The units of time, the letter and the seconds of each, and the number at which the next one is used. -/
def timeUnits : List (Char × Nat × Option Nat) :=
  [('s', 1, some 60), ('m', 60, some 60), ('h', 3600, some 24), ('d', 86400, some 365), ('y', 31536000, none)]

/-- The number of a revision: `D` and digits. -/
def IsRevision (d : Text) : Prop := ∃ ds, ds ≠ [] ∧ (∀ c ∈ ds, c ∈ "0123456789".toList) ∧ d = 'D' :: ds

/-- A line which gives the number of the revision, alone or at the end of a URL. -/
def RevisionLine (line d : Text) : Prop :=
  IsRevision d ∧ (line = t!"Differential Revision: " ++ d ∨
    ∃ url, url ≠ [] ∧ line = t!"Differential Revision: " ++ url ++ t!"/" ++ d)

end Verif.Spec
