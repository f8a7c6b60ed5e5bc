import Verif.Model.Submit
import Verif.Model.Dag
import Verif.Model.Text

/-!
The command `submit` with pull requests: git-branchless-submit/src/github.rs, with lib.rs.

Of GitHub and its program `gh` are modelled: the open pull requests of the user with their branches, titles
and texts, `gh pr list`, `gh pr create` and `gh pr edit`. A pull request has the commit which its head branch
has on the remote. As the comment at github.rs:464-468 says, a pull request is closed as soon as its base
branch has all of its commits; the mock of the tests does the same (github.rs:1032-1071). There is at most one
open pull request for a head branch. Each `gh pr create` and `gh pr edit` may fail for reasons of its own;
`gh pr list` does not fail, and lists all of the open pull requests of the user (the program lists at most 30
unless told otherwise, so here there are no more). Nobody else works there
while the command runs.
-/

namespace Verif

/-- github.rs:724-744 `PullRequestInfo`, of an open pull request. The commit (`headRefOid`) is the one which
the head branch has. `isDraft` is not used. -/
structure PullRequest where
  number : Nat
  url : Text
  head : Text
  base : Text
  title : Text
  body : Text
deriving DecidableEq

/-- The commands which are run. -/
inductive ForgeCommand where
  | git (c : GitCommand)
  /-- `gh pr create`. -/
  | createPr (head title body : Text) (draft : Bool)
  /-- `gh pr edit`. -/
  | editPr (number : Nat) (base title body : Text)
deriving DecidableEq

/-- The repository, its remotes, and GitHub. -/
structure ForgeWorld where
  repo : SubmitWorld
  /-- The remote which is the repository on GitHub with which `gh` works. -/
  github : Text
  /-- The branch which `gh pr create` takes as the base. -/
  defaultBranch : Text
  prs : List PullRequest
  /-- The number of the next pull request. -/
  next : Nat
  urlOf : Nat → Text
  /-- The command does not fail for another reason. -/
  allows : ForgeCommand → Bool

/-! ### GitHub -/

/-- Where a branch is on GitHub. -/
def ForgeWorld.tip (w : ForgeWorld) (b : Text) : Option Oid := w.repo.remotes.get? (w.github, fullName b)

/-- github.rs:1057-1069: the base branch has all commits of the pull request. -/
def ForgeWorld.merged (w : ForgeWorld) (p : PullRequest) : Bool :=
  match w.tip p.head, w.tip p.base with
  | some h, some b => w.repo.isAncestor h b
  | _, _ => false

/-- Such pull requests are closed. -/
def ForgeWorld.settle (w : ForgeWorld) : ForgeWorld := { w with prs := w.prs.filter fun p => !w.merged p }

/-- `gh pr create`: github.rs:925-973, 1110-1153. It fails if there is no such branch, if there is a pull
request already, or if there is nothing to be merged. -/
def ForgeWorld.createPr (w : ForgeWorld) (head title body : Text) (draft : Bool) : Option ForgeWorld :=
  let p : PullRequest := ⟨w.next, w.urlOf w.next, head, w.defaultBranch, title, body⟩
  if w.allows (.createPr head title body draft) && (w.tip head).isSome &&
      !(w.prs.any fun q => q.head = head) && !w.merged p then
    some { w with prs := w.prs ++ [p], next := w.next + 1 }
  else none

/-- `gh pr edit`: github.rs:975-1005, 1155-1186. It fails if the pull request is not open, or if there is no
such base branch. -/
def ForgeWorld.editPr (w : ForgeWorld) (number : Nat) (base title body : Text) : Option ForgeWorld :=
  if w.allows (.editPr number base title body) && (w.prs.any fun q => q.number = number) &&
      (w.tip base).isSome then
    some (ForgeWorld.settle { w with
      prs := w.prs.map fun q =>
        if q.number = number then { q with base := base, title := title, body := body } else q })
  else none

/-! ### names -/

/-- reference.rs:309-339 `get_upstream_branch_name_without_push_remote_name`: the name of the upstream branch
is `<remote>/<branch>`, or `<branch>` if it is in the repository itself. -/
def SubmitWorld.upstreamName (w : SubmitWorld) (b : Text) : Option Text :=
  match w.pushRemoteName b with
  | none => none
  | some p =>
    match w.remote.get? b, w.merge.get? b with
    | some r, some m =>
      if (w.upstream b).isSome then
        let name :=
          if r = t!"." then (categorize m).renderSuffix else r ++ t!"/" ++ (categorize m).renderSuffix
        some ((stripPrefix? (p ++ t!"/") name).getD name)
      else none
    | _, _ => none

/-- What the code knows otherwise, and what does not change. -/
structure ForgeEnv where
  dag : Dag
  /-- The commit of the main branch (`references_snapshot.main_branch_oid`). -/
  mainOid : Oid
  /-- config.rs:72-88 `get_main_branch_name`. -/
  mainName : Text
  /-- The first line of the message of a commit. -/
  summary : Oid → Text
  /-- `get_message_pretty`. -/
  message : Oid → Text
  /-- The order in which `commit_set_to_vec` (dag.rs:369-383) has the commits of a set. -/
  iter : List Oid → List Oid
  /-- github.rs:84-104 `github_push_remote`. -/
  ghRemote : Option Text
  /-- github.rs:886-894 `query_github_username`; `none` is a failure. -/
  username : Option Text
  /-- `char::is_alphanumeric`. -/
  isAlphanumeric : Char → Bool
  /-- `char::to_lowercase`. -/
  toLowercase : Char → List Char
  /-- `create_branch` can create the branch (the name is valid, and there is no conflict of a file with a
  directory). -/
  canCreate : Text → Bool

/-! ### what a pull request should say -/

/-- `pull_request_infos.get(name)`: the pull request with a head branch. -/
def prOf (infos : List PullRequest) (name : Text) : Option PullRequest := infos.find? fun p => p.head = name

/-- github.rs:535-608 `get_pull_request_info`: the pull request of the first branch at a commit which has
one. The names are sorted there; here the references are in the order in which git has them, which is the same. -/
def prAt (repo : SubmitWorld) (infos : List PullRequest) (o : Oid) : Option PullRequest :=
  (namesAt repo.refs o).findSome? fun r => (repo.upstreamName (categorize r).renderSuffix).bind (prOf infos)

/-- github.rs:609-618: the loop over the commits of the stack; the number of the commit is counted from 1. -/
def stackLoop (repo : SubmitWorld) (infos : List PullRequest) (o : Oid) (commits : List Oid) :
    List PullRequest × Option Nat :=
  commits.foldl (fun acc c =>
    match prAt repo infos c with
    | none => acc
    | some p => (acc.1 ++ [p], if c = o then some (acc.1.length + 1) else acc.2)) ([], none)

/-- github.rs:754-760 `UpdatePullRequestArgs`. -/
structure PrArgs where
  headOid : Oid
  base : Text
  title : Text
  body : Text
deriving DecidableEq

/-- github.rs:628-638, 653: the title. -/
def prTitle (index : Option Nat) (size : Nat) (summary : Text) : Text :=
  t!"[" ++ (index.map natToText).getD t!"?" ++ t!"/" ++ natToText size ++ t!"] " ++ summary

/-- github.rs:640-648, 656-666: the text. -/
def prBody (urls : List Text) (message : Text) : Text :=
  t!"**Stack:**\n\n" ++ urls.flatMap (fun u => t!"* " ++ u ++ t!"\n") ++ t!"\n\n---\n\n" ++ message ++ t!"\n"

/-- github.rs:668-689: the branch on which the pull request is based. -/
def prBase (env : ForgeEnv) (repo : SubmitWorld) (infos : List PullRequest) (o : Oid) : Text :=
  let below := env.iter (CommitGraph.diff (env.dag.graph.only [o] [env.mainOid]) [o])
  match below.reverse.findSome? (prAt repo infos) with
  | some p => p.head
  | none => env.mainName

/-- github.rs:518-697 `make_updated_pull_request_info`. -/
def desiredPr (env : ForgeEnv) (repo : SubmitWorld) (infos : List PullRequest) (o : Oid) : PrArgs :=
  let stack := stackLoop repo infos o (env.dag.graph.sort (env.dag.stackCommits [o]))
  { headOid := o
    base := prBase env repo infos o
    title := prTitle stack.2 stack.1.length (env.summary o)
    body := prBody (stack.1.map (·.url)) (env.message o) }

/-- github.rs:763-797 `fields_to_update`. -/
def fieldsToUpdate (args : PrArgs) (tip : Option Oid) (p : PullRequest) : List Text :=
  (if tip = some args.headOid then [] else [t!"commit"]) ++ (if p.base = args.base then [] else [t!"base branch"])
    ++ (if p.title = args.title then [] else [t!"title"]) ++ (if p.body = args.body then [] else [t!"body"])

/-! ### the status of the commits -/

/-- lib.rs:76-109 `CommitStatus`. -/
structure PrStatus extends CommitStatus where
  remoteCommit : Option Text
deriving DecidableEq

/-- github.rs:140-180: the status, given a branch at the commit. -/
def branchPrStatus (env : ForgeEnv) (w : ForgeWorld) (b : Text) (o : Oid) : PrStatus :=
  { status :=
      match (w.repo.upstreamName b).bind (prOf w.prs) with
      | none => .unsubmitted
      | some p =>
        if (fieldsToUpdate (desiredPr env w.repo w.prs o) (w.tip p.head) p).isEmpty then .upToDate
        else .needsUpdate
    remoteName := w.repo.pushRemoteName b
    localName := some b
    remoteCommit := w.repo.upstreamName b }

/-- github.rs:120-193 `query_status`. If there are several branches at a commit, the last one counts. -/
def queryPrStatus (env : ForgeEnv) (w : ForgeWorld) (set : List Oid) : AMap Oid PrStatus :=
  let found := (localBranches w.repo.refs).foldl (fun (m : AMap Oid PrStatus) e =>
    if set.contains e.2 then m.insert e.2 (branchPrStatus env w (categorize e.1).renderSuffix e.2) else m) []
  set.foldl (fun (m : AMap Oid PrStatus) o =>
    match m.get? o with
    | some _ => m
    | none => m.insert o ⟨⟨.unsubmitted, none, none⟩, none⟩) found

/-! ### updating -/

/-- The entries of the map for the commits, parents first (`dag.sort`). -/
def sortedStatuses (env : ForgeEnv) (statuses : AMap Oid PrStatus) : List (Oid × PrStatus) :=
  (env.dag.graph.sort statuses.keys).filterMap fun o => (statuses.get? o).map fun s => (o, s)

/-- github.rs:393-489: the loop. `infos` are the pull requests as they were before. -/
def updatePrLoop (env : ForgeEnv) (infos : List PullRequest) :
    ForgeWorld → List (Oid × PrStatus) → ForgeWorld × List ForgeCommand × Bool
  | w, [] => (w, [], true)
  | w, (o, s) :: rest =>
    match s.remoteCommit.bind (prOf infos) with
    | none => updatePrLoop env infos w rest
    | some p =>
      let args := desiredPr env w.repo infos o
      -- `branch_forge.update`
      let x := updateAll w.repo (updateGroups [s.toCommitStatus])
      let w1 := ForgeWorld.settle { w with repo := x.1 }
      let log := x.2.1.map ForgeCommand.git
      if x.2.2 then
        match w1.editPr p.number args.base args.title args.body with
        | none => (w1, log ++ [.editPr p.number args.base args.title args.body], false)
        | some w2 =>
          let y := updatePrLoop env infos w2 rest
          (y.1, log ++ .editPr p.number args.base args.title args.body :: y.2.1, y.2.2)
      else (w1, log, false)

/-- github.rs:366-492 `update`. -/
def updatePrs (env : ForgeEnv) (w : ForgeWorld) (statuses : AMap Oid PrStatus) :
    ForgeWorld × List ForgeCommand × Bool :=
  updatePrLoop env w.prs w (sortedStatuses env statuses)

/-! ### creating -/

/-- `dedup_by`: one of adjacent hyphens is left. -/
def dedupHyphens : Text → Text
  | [] => []
  | [c] => [c]
  | c :: d :: cs => if c = '-' ∧ d = '-' then dedupHyphens (d :: cs) else c :: dedupHyphens (d :: cs)

/-- `trim_matches('-')`. -/
def trimHyphens (s : Text) : Text := ((s.dropWhile (· = '-')).reverse.dropWhile (· = '-')).reverse

/-- github.rs:43-59 `commit_summary_slug`. -/
def summarySlug (env : ForgeEnv) (summary : Text) : Text :=
  let s := trimHyphens (dedupHyphens
    ((summary.map fun c => if env.isAlphanumeric c then c else '-').flatMap env.toLowercase))
  if s.isEmpty then t!"to-review" else s

/-- github.rs:257-275: the loop with `i`, where `tries` is `7 - i`. -/
def freshName (refs : Refs) (base : Text) : (tries : Nat) → Nat → Text → Option Text
  | 0, _, _ => none
  | tries + 1, i, name =>
    match refs.get? (fullName name) with
    | some _ => freshName refs base tries (i + 1) (base ++ t!"-" ++ natToText i)
    | none => some name

/-- github.rs:248-284: the local branch for a commit, which is created if there is none. `none` is a
failure. -/
def localBranchFor (env : ForgeEnv) (username : Text) (w : ForgeWorld) (o : Oid) (s : PrStatus) :
    Option (ForgeWorld × Text) :=
  match s.localName with
  | some b => some (w, b)
  | none =>
    let base := username ++ t!"/" ++ summarySlug env (env.summary o)
    match freshName w.repo.refs base 5 2 base with
    | none => none
    | some b =>
      if env.canCreate b then some ({ w with repo.refs := w.repo.refs.insert (fullName b) o }, b) else none

/-- github.rs:246-294: the loop which makes and pushes the branches; the names, or `none` for a failure. -/
def createBranchLoop (env : ForgeEnv) (username : Text) :
    ForgeWorld → List (Oid × PrStatus) → ForgeWorld × List ForgeCommand × Option (List (Oid × Text))
  | w, [] => (w, [], some [])
  | w, (o, s) :: rest =>
    match localBranchFor env username w o s with
    | none => (w, [], none)
    | some (w1, b) =>
      -- `branch_forge.create`
      let x := createBranches w1.repo env.mainName [{ s.toCommitStatus with localName := some b }]
      let w2 := ForgeWorld.settle { w1 with repo := x.1 }
      match x.2.2 with
      | none => (w2, x.2.1.map .git, none)
      | some _ =>
        let y := createBranchLoop env username w2 rest
        (y.1, x.2.1.map .git ++ y.2.1, y.2.2.map fun names => (o, b) :: names)

/-- github.rs:318-359: the loop which makes the pull requests. -/
def createPrLoop (env : ForgeEnv) (draft : Bool) :
    ForgeWorld → List (Oid × Text) → ForgeWorld × List ForgeCommand × Bool
  | w, [] => (w, [], true)
  | w, (o, b) :: rest =>
    match w.createPr b (env.summary o) (env.message o) draft with
    | none => (w, [.createPr b (env.summary o) (env.message o) draft], false)
    | some w1 =>
      let y := createPrLoop env draft w1 rest
      (y.1, .createPr b (env.summary o) (env.message o) draft :: y.2.1, y.2.2)

/-- github.rs:296-316: the status of a commit with its new branch. -/
def createdStatus (remote b : Text) : PrStatus := ⟨⟨.needsUpdate, some remote, some b⟩, some b⟩

/-- github.rs:195-364 `create`, for commits which are not submitted (as lib.rs:363-378 calls it). The name of
the local branch of the main branch is the one which is configured. `none` is a failure. -/
def createPrs (env : ForgeEnv) (draft : Bool) (w : ForgeWorld) (statuses : AMap Oid PrStatus) :
    ForgeWorld × List ForgeCommand × Option (List Text) :=
  match env.ghRemote.or (w.repo.defaultPushRemote env.mainName), env.username with
  | some remote, some username =>
    let x := createBranchLoop env username w (sortedStatuses env statuses)
    match x.2.2 with
    | none => (x.1, x.2.1, none)
    | some names =>
      let y := createPrLoop env draft x.1 names
      if y.2.2 then
        let z := updatePrs env y.1 (names.map fun e => (e.1, createdStatus remote e.2))
        (z.1, x.2.1 ++ y.2.1 ++ z.2.1, if z.2.2 then some (names.map Prod.snd) else none)
      else (y.1, x.2.1 ++ y.2.1, none)
  | _, _ => (w, [], none)

/-! ### the command -/

/-- lib.rs:302-360: the commits with a given status. -/
def prsWith (s : SubmitStatus) (statuses : AMap Oid PrStatus) : AMap Oid PrStatus :=
  statuses.filter fun e => e.2.status = s

/-- The names which are reported. -/
def prNames (statuses : AMap Oid PrStatus) : List Text := sortedSet (statuses.filterMap (·.2.localName))

/-- lib.rs:363-390: the names of the commits which were created and of those which were not. `none` is a
failure. -/
def submitCreatePrs (env : ForgeEnv) (w : ForgeWorld) (create dryRun draft : Bool)
    (commits : AMap Oid PrStatus) : ForgeWorld × List ForgeCommand × Option (List Text × List Text) :=
  if create then
    if dryRun then (w, [], some (prNames commits, []))
    else
      let x := createPrs env draft w commits
      (x.1, x.2.1, x.2.2.map fun created => (sortedSet created, []))
  else (w, [], some ([], prNames commits))

/-- lib.rs:404-407: updating, unless it is a dry run. -/
def submitUpdatePrs (env : ForgeEnv) (w : ForgeWorld) (dryRun : Bool) (commits : AMap Oid PrStatus) :
    ForgeWorld × List ForgeCommand × Bool :=
  if dryRun then (w, [], true) else updatePrs env w commits

/-- lib.rs:214-518 `submit` with GitHub, for the commits `set` for which the revsets stand: the commands, and
what is reported, or `none` for an exit code. -/
def submitPrs (env : ForgeEnv) (w : ForgeWorld) (set : List Oid) (create dryRun draft : Bool) :
    ForgeWorld × List ForgeCommand × Option SubmitReport :=
  let statuses := queryPrStatus env w set
  let x := submitCreatePrs env w create dryRun draft (prsWith .unsubmitted statuses)
  match x.2.2 with
  | none => (x.1, x.2.1, none)
  | some names =>
    let toUpdate := prsWith .needsUpdate statuses
    let y := submitUpdatePrs env x.1 dryRun toUpdate
    (y.1, x.2.1 ++ y.2.1,
      if y.2.2 then some
        { submitted := names.1
          updated := prNames toUpdate
          skipped := prNames (prsWith .upToDate statuses)
          unsubmitted := names.2 }
      else none)

end Verif
