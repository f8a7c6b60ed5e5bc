import Verif.Spec.Plan
import Verif.Model.Lines

/-!
What `git rebase` understands when it reads a todo list (git's documentation of `git rebase
--rebase-merges`; sequencer.c), restricted to the instructions which are written here.
-/

namespace Verif.Spec

open Verif

/-- An instruction of `git rebase`. -/
inductive TodoItem where
  | label (name : Text)
  | reset (target : OidOrLabel)
  | pick (commit : Oid)
  | merge (message : Oid) (others : List OidOrLabel)
  | exec (words : List Text)
  | break
deriving DecidableEq

/-- A name means a label, if one was registered with that name, otherwise a commit. -/
def readName (labels : List Text) (name : Text) : Option OidOrLabel :=
  if name ∈ labels then some (.label name)
  else if name.length = 40 then (Oid.parse name).map .oid
  else none

/-- One line, split at the blanks. -/
def readItem (labels : List Text) : List Text → Option TodoItem
  | [] => none
  | cmd :: args =>
    if cmd = t!"label" then
      match args with
      | [name] => some (.label name)
      | _ => none
    else if cmd = t!"reset" then
      match args with
      | [name] => (readName labels name).map .reset
      | _ => none
    else if cmd = t!"pick" then
      match args with
      | [name] => (Oid.parse name).map .pick
      | _ => none
    else if cmd = t!"merge" then
      match args with
      | flag :: message :: others =>
        if flag = t!"-C" ∧ others ≠ [] then
          match Oid.parse message, others.mapM (readName labels) with
          | some m, some os => some (.merge m os)
          | _, _ => none
        else none
      | _ => none
    else if cmd = t!"exec" then some (.exec args)
    else if cmd = t!"break" then
      match args with
      | [] => some .break
      | _ => none
    else none

/-- The label which an instruction registers. -/
def TodoItem.registers : TodoItem → List Text
  | .label l => [l]
  | _ => []

/-- The instructions in the lines; empty lines mean nothing. -/
def readLines (labels : List Text) : List Text → Option (List TodoItem)
  | [] => some []
  | line :: lines =>
    if line = [] then readLines labels lines
    else
      match readItem labels (splitChar ' ' line) with
      | none => none
      | some item => (readLines (labels ++ item.registers) lines).map (item :: ·)

/-- The instructions in a todo list. -/
def readTodo (text : Text) : Option (List TodoItem) := readLines [] (splitTerminated text)

/-- What a command of a plan amounts to for git. (`replace` has no counterpart.) -/
def todoMeaning : RebaseCommand → Option TodoItem
  | .createLabel l => some (.label l)
  | .reset t => some (.reset t)
  | .pick _ [c] => some (.pick c)
  | .pick _ _ => none
  | .merge c ps => some (.merge c ps)
  | .replace _ _ _ => none
  | .break => some .break
  | .registerExtraPostRewriteHook =>
    some (.exec [t!"git", t!"branchless", t!"hook-register-extra-post-rewrite-hook"])
  | .detectEmptyCommit c =>
    some (.exec [t!"git", t!"branchless", t!"hook-detect-empty-commit", c.toText])
  | .skipUpstreamAppliedCommit c =>
    some (.exec [t!"git", t!"branchless", t!"hook-skip-upstream-applied-commit", c.toText])

end Verif.Spec
