import Verif.Model.Navigate
import Verif.Model.Revset

/-!
Switching to a commit, and checking out with all kinds of targets. Model of
git-branchless-navigation/src/lib.rs (`switch`) and git-branchless-lib/src/core/check_out.rs.
-/

namespace Verif

/-- git-branchless-opts/src/lib.rs:148-184 `SwitchOptions`. -/
structure SwitchOptions where
  interactive : Bool := false
  branchName : Option Text := none
  force : Bool := false
  merge : Bool := false
  detach : Bool := false
  target : Option Text := none

/-- check_out.rs:29-39 `CheckoutTarget`. -/
inductive AnyTarget where
  | oid (oid : Oid)
  | reference (name : Text)
  /-- Text for git. -/
  | unknown (target : Text)
deriving DecidableEq

/-! ### the program `git checkout` -/

/-- What `git checkout` depends on. -/
structure GitCheckoutEnv where
  /-- The commit which a revision (other than a local branch) stands for. -/
  revision : GitState → Text → Option Oid
  /-- What `-` stands for: a branch or an object id. -/
  previous : Option Text
  /-- This is allowed as the name of a branch, and its reference can be created. -/
  validName : Text → Bool
  /-- The working copy can be changed to the commit, given `--force` and `--merge`. -/
  works : Option Oid → Bool → Bool → Bool

/-- The arguments of `git checkout`. -/
structure CheckoutArgs where
  target : Option Text := none
  newBranch : Option Text := none
  force : Bool := false
  merge : Bool := false
  detach : Bool := false
  /-- The argument of `-B`. -/
  resetBranch : Option Text := none
deriving DecidableEq

/-- How `git checkout` (an external program) reads its arguments, as far as it is used here. -/
def readCheckoutArgs : List Text → CheckoutArgs → Option CheckoutArgs
  | [], a => some a
  | [x], a =>
    if x = t!"--force" then some { a with force := true }
    else if x = t!"--merge" then some { a with merge := true }
    else if x = t!"--detach" then some { a with detach := true }
    else if x ≠ t!"-" ∧ t!"-" <+: x then none
    else if a.target.isSome then none
    else some { a with target := some x }
  | x :: y :: rest, a =>
    if x = t!"-b" then
      if a.newBranch.isSome then none else readCheckoutArgs rest { a with newBranch := some y }
    else if x = t!"-B" then
      if a.resetBranch.isSome then none else readCheckoutArgs rest { a with resetBranch := some y }
    else if x = t!"--force" then readCheckoutArgs (y :: rest) { a with force := true }
    else if x = t!"--merge" then readCheckoutArgs (y :: rest) { a with merge := true }
    else if x = t!"--detach" then readCheckoutArgs (y :: rest) { a with detach := true }
    else if x ≠ t!"-" ∧ t!"-" <+: x then none
    else if a.target.isSome then none
    else readCheckoutArgs (y :: rest) { a with target := some x }

/-- What `git checkout` (an external program) makes of its target: the name of a branch if it is one, and
the commit; nothing if there is no such commit. Without a target the commit is the one of `HEAD`. -/
def checkoutResolve (env : GitCheckoutEnv) (g : GitState) : Option Text → Option (Option Text × Option Oid)
  | none => some (none, g.headInfo.oid)
  | some t =>
    match if t = t!"-" then env.previous else some t with
    | none => none
    | some t =>
      match g.refs.get? (t!"refs/heads/" ++ t) with
      | some o => some (some (t!"refs/heads/" ++ t), some o)
      | none =>
        match env.revision g t with
        | some o => some (none, some o)
        | none => none

/-- `git checkout <args>` (an external program); nothing if it fails. With `-b` the branch is created at
the commit and checked out; with `-B` it is created or moved; with `--detach` the commit is checked out; a branch is checked out; otherwise
the commit, if there is a target. Reporting to hooks is not modelled. -/
def gitCheckoutRun (env : GitCheckoutEnv) (g : GitState) (args : List Text) : Option GitState :=
  match readCheckoutArgs args {} with
  | none => none
  | some a =>
    if (a.newBranch.isSome && a.detach) || (a.force && a.merge) ||
      (a.resetBranch.isSome && (a.newBranch.isSome || a.detach)) then none
    else
      match checkoutResolve env g a.target with
      | none => none
      | some (branch, oid) =>
        if !env.works oid a.force a.merge then none
        else
          match a.resetBranch, a.newBranch, oid with
          | some b, _, some o =>
            let name := t!"refs/heads/" ++ b
            if !env.validName b then none
            else
              match createReference g.refs name o with
              | .error _ => none
              | .ok refs => some ⟨refs, .symbolic name⟩
          | some _, _, none => none
          | none, some b, some o =>
            let name := t!"refs/heads/" ++ b
            if !env.validName b || (g.refs.get? name).isSome then none
            else
              match createReference g.refs name o with
              | .error _ => none
              | .ok refs => some ⟨refs, .symbolic name⟩
          | none, some b, none =>
            let name := t!"refs/heads/" ++ b
            if !env.validName b || (g.refs.get? name).isSome then none
            else some { g with head := .symbolic name }
          | none, none, none => if a.detach then none else some g
          | none, none, some o =>
            if a.detach then some { g with head := .detached o }
            else
              match branch, a.target with
              | some name, _ => some { g with head := .symbolic name }
              | none, some _ => some { g with head := .detached o }
              | none, none => some g

/-! ### checking out -/

/-- What checking out depends on. -/
structure AnyCheckoutEnv where
  mainBranch : Text
  /-- `branchless.navigation.autoSwitchBranches` -/
  autoSwitch : Bool
  git : GitCheckoutEnv

/-- check_out.rs:65-103 `maybe_get_branch_name`; an error if there is no main branch. -/
def branchNameFor (env : AnyCheckoutEnv) (g : GitState) (target : Option Text) (oid : Option Oid) :
    Except Unit (Option Text) :=
  match g.refs.get? env.mainBranch with
  | none => .error ()
  | some _ =>
    let headOid := g.headInfo.oid
    let oid := match target with
      | some _ => oid
      | none => headOid
    if target.isSome ∧ ((headOid.isSome ∧ headOid = oid) ∨ target = headOid.map Oid.toText) then .ok target
    else
      match oid with
      | none => .ok target
      | some o =>
        match namesAt g.refs o with
        | [name] => .ok (some (categorize name).renderSuffix)
        | _ => .ok target

/-- How a check-out ends: what git was asked to do, and whether that worked. -/
structure CheckedOut where
  git : GitState
  /-- The arguments of `git`. -/
  ran : List Text
  ok : Bool

/-- check_out.rs:148-172: git is run, and a failure is reported. -/
def runCheckout (env : GitCheckoutEnv) (g : GitState) (args : List Text) : CheckedOut :=
  match gitCheckoutRun env g args with
  | some g => ⟨g, t!"checkout" :: args, true⟩
  | none => ⟨g, t!"checkout" :: args, false⟩

/-- check_out.rs:107-199 `check_out_commit`, without `reset`. Creating a snapshot before (132-134) and
restoring one afterwards (175-191) are not modelled, nor is the smartlog. -/
def checkOutAny (env : AnyCheckoutEnv) (g : GitState) (target : Option AnyTarget) (extra : List Text) :
    Except Unit CheckedOut :=
  let (text, oid) : Option Text × Option Oid := match target with
    | none => (none, none)
    | some (.reference name) => (some (categorize name).renderSuffix, none)
    | some (.oid o) => (some o.toText, some o)
    | some (.unknown t) => (some t, none)
  match if env.autoSwitch then branchNameFor env g text oid else .ok text with
  | .error e => .error e
  | .ok text => .ok (runCheckout env.git g (text.toList ++ extra))

/-! ### the command -/

/-- How `switch` ends. -/
inductive SwitchOutcome where
  /-- An `eyre` error. -/
  | error
  /-- Exit code 1: nothing was selected. -/
  | cancelled
  /-- Exit code 1: the number of heads which were found. -/
  | notOneHead (n : Nat)
  /-- The exit code of git. -/
  | checkoutFailed
  | done
deriving DecidableEq

/-- What `switch` leaves behind. -/
structure Switched where
  git : GitState
  /-- The arguments with which git was run. -/
  ran : Option (List Text)
  outcome : SwitchOutcome

/-- What `switch` depends on. -/
structure SwitchEnv where
  checkout : AnyCheckoutEnv
  revset : RevsetEnv
  /-- The size of the stack, see `evalRevset`. -/
  fuel : Nat
  nav : NavEnv
  /-- lib.rs:500-509: the commits of the smartlog. -/
  smartlog : Except Unit (List Oid)
  /-- `prompt_select_commit`: the commit which the user selects, given the initial query. -/
  select : Text → List Oid → Except Unit (Option Oid)

/-- lib.rs:571-579: the heads of a set of commits, in order. -/
def switchHeads (env : SwitchEnv) (d : Dag) (sets : List (List Oid)) : List Oid :=
  sortedCommitSet env.nav d (d.graph.heads sets.flatten)

/-- lib.rs:527-597: the target, or how the command ends without one. -/
def switchTarget (env : SwitchEnv) (d : Dag) (smartlog : List Oid) (options : SwitchOptions) :
    Except SwitchOutcome (Option AnyTarget) :=
  if options.interactive then
    match env.select (options.target.getD []) smartlog with
    | .error _ => .error .error
    | .ok none => .error .cancelled
    | .ok (some o) => .ok (some (.oid o))
  else
    match options.target with
    | none => .ok none
    | some t =>
      match env.revset.revparse t with
      | some _ => .ok (some (.unknown t))
      | none =>
        match resolveCommits env.revset env.fuel d false [t] with
        | .error _ => .error .error
        | .ok sets =>
          match switchHeads env d sets with
          | [o] => .ok (some (.unknown o.toText))
          | heads => .error (.notOneHead heads.length)

/-- lib.rs:599-616: the additional arguments. -/
def switchArgs (options : SwitchOptions) : List Text :=
  (match options.branchName with
    | some b => [t!"-b", b]
    | none => []) ++
  (if options.force then [t!"--force"] else []) ++
  (if options.merge then [t!"--merge"] else []) ++
  (if options.detach then [t!"--detach"] else [])

/-- lib.rs:470-632 `switch`. -/
def switch (env : SwitchEnv) (graph : CommitGraph Oid) (w : RepoWorld) (options : SwitchOptions) : Switched :=
  match openRepoDag graph env.checkout.mainBranch w with
  | none => ⟨w.git, none, .error⟩
  | some (_, d) =>
    match env.smartlog with
    | .error _ => ⟨w.git, none, .error⟩
    | .ok smartlog =>
      match switchTarget env d smartlog options with
      | .error outcome => ⟨w.git, none, outcome⟩
      | .ok target =>
        match checkOutAny env.checkout w.git target (switchArgs options) with
        | .error _ => ⟨w.git, none, .error⟩
        | .ok r => ⟨r.git, some r.ran, if r.ok then .done else .checkoutFailed⟩

end Verif
