import Verif.Model.Plan

/-!
core/rewrite/execute.rs, `mod in_memory`: running a rebase plan without touching the working copy.

What is done with references, `HEAD` and hooks after that is in `Verif.Model.FinishRebase`.
-/

namespace Verif

/-- What is read from a commit object (git/object.rs `Commit`). Trees and people are compared only,
so they are numbers. -/
structure CommitData where
  parents : List Oid
  tree : Nat
  /-- `none` if the message is not valid UTF-8. -/
  message : Option Text
  author : Nat
  committer : Nat
  /-- The time of the committer's signature. -/
  time : Nat
deriving DecidableEq, Repr

/-- repo.rs `CreateCommitFastError`: a conflict, or another error. -/
inductive FastError where
  | conflict (paths : List Text)
  | other
deriving DecidableEq, Repr

/-- execute.rs:333-350 `FailedMergeInfo`. -/
inductive FailedMergeInfo where
  | conflict (commitOid : Oid) (paths : List Text)
  | cannotRebaseMergeInMemory (commitOid : Oid)
deriving DecidableEq, Repr

/-- How `rebase_in_memory` ends if not with success: `RebaseInMemoryResult::MergeFailed`, an `eyre`
error, a panic. -/
inductive InMemoryStop where
  | mergeFailed (info : FailedMergeInfo)
  | error
  | panic
deriving DecidableEq, Repr

/-- The repository as `rebase_in_memory` uses it. An object id stands for the contents of the object,
so what the operations do is a function of the ids. -/
structure ExecEnv where
  /-- repo.rs `find_commit`, for the objects which exist before the rebase. -/
  commits : Oid → Option CommitData
  /-- repo.rs `create_commit`: the id of the new object, `none` if it cannot be written. -/
  createCommit : CommitData → Option Oid
  /-- repo.rs:1314-1433 `cherry_pick_fast` of the first commit onto the second: the new tree. -/
  cherryPickFast : Oid → Oid → Except FastError Nat
  /-- repo.rs:1523-1636 `amend_fast` of the first commit with `FromCommit` the second. -/
  amendFast : Oid → Oid → Except FastError Nat
  /-- `ExecuteRebasePlanOptions::now` and `preserve_timestamps` (execute.rs:1194-1216). -/
  now : Nat
  preserveTimestamps : Bool

/-- The variables of `rebase_in_memory` (execute.rs:505-520), and the objects created so far, newest
first. -/
structure ExecState where
  current : Oid
  labels : AMap Text Oid
  rewritten : AMap Oid MaybeZero
  skippedHead : Option Oid
  created : List (Oid × CommitData)
deriving DecidableEq

namespace ExecEnv

/-- repo.rs `find_commit`. -/
def find (env : ExecEnv) (created : List (Oid × CommitData)) (o : Oid) : Option CommitData :=
  match AMap.get? created o with
  | some d => some d
  | none => env.commits o

/-- execute.rs:597-601 and 779-783: the time of the committer's signature. -/
def newTime (env : ExecEnv) (old : Nat) : Nat := if env.preserveTimestamps then old else env.now

/-- execute.rs:602-603: `rebased_commit_oid` and `rebased_commit`; and the objects. -/
structure PickState where
  rebased : Option (Oid × CommitData)
  created : List (Oid × CommitData)

/-- execute.rs:605-684: one round of the loop over the commits to apply. `mk` is the new commit
with a given tree. -/
def pickOne (env : ExecEnv) (current : Oid) (mk : Nat → CommitData) (s : PickState) (c : Oid) :
    Except InMemoryStop PickState :=
  match env.find s.created c with
  | none => .error .error
  | some d =>
    if d.parents.length > 1 then .error (.mergeFailed (.cannotRebaseMergeInMemory c))
    else
      let maybeTree := match s.rebased with
        | none => env.cherryPickFast c current
        | some r => env.amendFast r.1 c
      match maybeTree with
      | .error (.conflict paths) => .error (.mergeFailed (.conflict c paths))
      | .error .other => .error .error
      | .ok tree =>
        match env.createCommit (mk tree) with
        | none => .error .error
        | some o => .ok ⟨some (o, mk tree), (o, mk tree) :: s.created⟩

/-- execute.rs:514-520: `maybe_set_skipped_head_new_oid`. -/
def setSkippedHead (head : Option Oid) (skipped : Option Oid) (c current : Oid) : Option Oid :=
  if some c = head then some (skipped.getD current) else skipped

/-- execute.rs:784-803: a parent of a replaced commit. -/
def replaceParent (env : ExecEnv) (s : ExecState) (p : OidOrLabel) : Except InMemoryStop Oid :=
  let oid := match p with
    | .oid o => some o
    | .label l => AMap.get? s.labels l
  match oid with
  | none => .error .error
  | some o =>
    match env.find s.created o with
    | none => .error .error
    | some _ => .ok o

/-- execute.rs:572-724: `RebaseCommand::Pick`. -/
def runPick (env : ExecEnv) (head : Option Oid) (s : ExecState) (c : Oid) (commits : List Oid) :
    Except InMemoryStop ExecState :=
  match env.find s.created s.current, env.find s.created c with
  | some cur, some orig =>
    match orig.message with
    | none => .error .error
    | some msg =>
      let mk := fun tree => ⟨[s.current], tree, some msg, orig.author, orig.committer,
        env.newTime orig.time⟩
      match commits.foldlM (env.pickOne s.current mk) ⟨none, s.created⟩ with
      | .error e => .error e
      | .ok ⟨none, _⟩ => .error .panic
      | .ok ⟨some (o, d), created⟩ =>
        if d.tree = cur.tree then
          .ok { s with
            rewritten := AMap.insert s.rewritten c .zero
            skippedHead := setSkippedHead head s.skippedHead c s.current
            created := created }
        else
          .ok { s with
            current := o
            rewritten := commits.foldl (fun m x => AMap.insert m x (.nonZero o))
              (AMap.insert s.rewritten c (.nonZero o))
            created := created }
  | _, _ => .error .error

/-- execute.rs:741-828: `RebaseCommand::Replace`. -/
def runReplace (env : ExecEnv) (s : ExecState) (c r : Oid) (parents : List OidOrLabel) :
    Except InMemoryStop ExecState :=
  match env.find s.created c, env.find s.created r with
  | some _, some rep =>
    match rep.message with
    | none => .error .error
    | some msg =>
      match parents.mapM (env.replaceParent s) with
      | .error e => .error e
      | .ok ps =>
        let d : CommitData := ⟨ps, rep.tree, some msg, rep.author, rep.committer, env.newTime rep.time⟩
        match env.createCommit d with
        | none => .error .error
        | some o =>
          .ok { s with
            current := o
            rewritten := AMap.insert s.rewritten c (.nonZero o)
            created := (o, d) :: s.created }
  | _, _ => .error .error

/-- execute.rs:540-856: one round of the loop over the commands. `head` is the commit which is
checked out (514). Messages to the user are left out. -/
def runCommand (env : ExecEnv) (head : Option Oid) (s : ExecState) :
    RebaseCommand → Except InMemoryStop ExecState
  | .createLabel l => .ok { s with labels := AMap.insert s.labels l s.current }
  | .reset (.label l) =>
    match AMap.get? s.labels l with
    | some o => .ok { s with current := o }
    | none => .error .error
  | .reset (.oid c) =>
    match AMap.get? s.rewritten c with
    | some (.nonZero o) => .ok { s with current := o }
    | some .zero => .ok { s with current := c }
    | none => .ok { s with current := c }
  | .pick c commits => env.runPick head s c commits
  | .merge c _ => .error (.mergeFailed (.cannotRebaseMergeInMemory c))
  | .replace c r parents => env.runReplace s c r parents
  | .break => .error .error
  | .skipUpstreamAppliedCommit c =>
    match env.find s.created c with
    | none => .error .error
    | some _ =>
      .ok { s with
        rewritten := AMap.insert s.rewritten c .zero
        skippedHead := setSkippedHead head s.skippedHead c s.current }
  | .registerExtraPostRewriteHook => .ok s
  | .detectEmptyCommit _ => .ok s

/-- execute.rs:467-491: a merge commit in the plan. -/
def findMerge (cmds : List RebaseCommand) : Option Oid :=
  cmds.findSome? fun
    | .merge c _ => some c
    | _ => none

/-- execute.rs:858-890: the commit on which `HEAD` should be. -/
def newHeadOid (head : Option Oid) (s : ExecState) : Option Oid :=
  match head with
  | none => none
  | some h =>
    match AMap.get? s.rewritten h with
    | some (.nonZero o) => some o
    | some .zero => some (s.skippedHead.getD h)
    | none => some h

/-- execute.rs:505-507: the variables at the beginning. -/
def initialState (plan : RebasePlan) : ExecState := ⟨plan.firstDestOid, [], [], none, []⟩

/-- execute.rs:461-895 `rebase_in_memory`: the final state of the variables, and `new_head_oid`.
Objects which were created before a failure stay behind without being referred to; they are not part
of the result then. -/
def rebaseInMemory (env : ExecEnv) (head : Option Oid) (plan : RebasePlan) :
    Except InMemoryStop (ExecState × Option Oid) :=
  match findMerge plan.commands with
  | some c => .error (.mergeFailed (.cannotRebaseMergeInMemory c))
  | none =>
    match plan.commands.foldlM (env.runCommand head) (initialState plan) with
    | .error e => .error e
    | .ok s => .ok (s, newHeadOid head s)

end ExecEnv
end Verif
