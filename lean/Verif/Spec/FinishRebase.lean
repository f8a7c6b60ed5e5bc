import Verif.Model.FinishRebase

/-! What should hold at the end of a rebase. -/

namespace Verif.Spec

open Verif

/-- A local branch. -/
def IsBranch (name : Text) : Prop := t!"refs/heads/" <+: name

/-- Where a branch at the commit `old` should be after a rewrite; `none` if it should be deleted. If
its commit was dropped it is deleted; but the main branch goes to its upstream. -/
def BranchAfter (main : Text) (upstream : Option Oid) (rewritten : Oid → Option MaybeZero)
    (name : Text) (old : Oid) : Option Oid :=
  match rewritten old with
  | none => some old
  | some (.nonZero new) => some new
  | some .zero => if name = main then upstream else none

/-- A list of reported moves is what happened between two states of the references. -/
structure TruthfulMoves (before after : Text → Option Oid) (moves : List (Oid × MaybeZero × Text)) :
    Prop where
  /-- Every reported move happened. -/
  happened : ∀ old new name, (old, new, name) ∈ moves →
    before name = some old ∧ after name = new.toOption
  /-- No reference is reported twice. -/
  once : (moves.map fun m => m.2.2).Nodup
  /-- What is not reported did not change. -/
  others : ∀ name, name ∉ (moves.map fun m => m.2.2) → after name = before name

/-- The references of a repository: each name has one value, and no name is a directory of another. -/
structure ValidRefs (refs : Refs) : Prop where
  wf : AMap.WF refs
  paths : ∀ a b, (refs.get? a).isSome → (refs.get? b).isSome → pathConflict a b = false

/-- The upstream of the main branch, if there is one and it can be found. -/
def upstreamOf (env : MoveEnv) : Option Oid :=
  match env.upstreamTarget with
  | .ok u => u
  | .error _ => none

/-- Nothing but the lookup of the upstream can go wrong. -/
structure MoveWorks (env : MoveEnv) (refs : Refs) (rewritten : AMap Oid MaybeZero) : Prop where
  valid : ValidRefs refs
  accepts : ∀ name, IsBranch name → env.refuses name = false
  exist : ∀ o n, rewritten.get? o = some (.nonZero n) → env.isCommit n = true

/-- Where the commit `c` is after a rewrite. -/
def NewVersion (rewritten : Oid → Option MaybeZero) (skipped : Option Oid) (c : Oid) : Option Oid :=
  match rewritten c with
  | none => some c
  | some (.nonZero new) => some new
  | some .zero => skipped

end Verif.Spec
