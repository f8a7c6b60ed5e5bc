import Verif.Model.FinishRebase

/-!
The command `submit` for branches: git-branchless-submit/src/lib.rs and branch_forge.rs. (The forge
for GitHub is in Model/Github.lean, the one for Phabricator in Model/Phabricator.lean.)

Of git are modelled: `git fetch` of given branches of a remote and `git push` of given branches to a remote,
with `--set-upstream` or with `--force-with-lease`. The fetch refspec of a remote is the usual one, there is
no push refspec in the configuration, and `push.default` is not `upstream`; no tag has the name of a branch.
Nobody else changes the remotes while the command runs.
-/

namespace Verif

/-- A set of strings, in order (`BTreeSet<String>`). -/
def sortedSet (l : List Text) : List Text := l.dedup.insertionSort (· ≤ ·)

/-- The full name of a branch. -/
def fullName (b : Text) : Text := t!"refs/heads/" ++ b

/-- What `submit` works with. -/
structure SubmitWorld where
  /-- The local references. Local branches are direct references. -/
  refs : Refs
  /-- The configuration `branch.<name>.pushRemote`. -/
  pushRemote : Text → Option Text
  /-- The configuration `remote.pushDefault`. -/
  pushDefault : Option Text
  /-- The configuration `branch.<name>.remote`. -/
  remote : AMap Text Text
  /-- The configuration `branch.<name>.merge`. -/
  merge : AMap Text Text
  /-- The remote-tracking branches, by remote and full name of the branch there. -/
  tracking : AMap (Text × Text) Oid
  /-- The references of the remotes, by remote and full name. -/
  remotes : AMap (Text × Text) Oid
  /-- The remotes which can be reached. -/
  reachable : Text → Bool
  /-- The remote accepts an update of the reference. -/
  accepts : Text → Text → Bool
  /-- The first commit is an ancestor of the second one. -/
  isAncestor : Oid → Oid → Bool

/-- The commands of git which are run. -/
inductive GitCommand where
  | fetch (remote : Text) (refs : List Text)
  /-- `git push --set-upstream`. -/
  | pushNew (remote : Text) (branches : List Text)
  /-- `git push --force-with-lease`. -/
  | pushLease (remote : Text) (branches : List Text)
deriving DecidableEq

/-! ### git -/

/-- reference.rs:279-297 `get_upstream_branch` with libgit2's `git_branch_upstream`: where the upstream
branch is, if it exists. The remote `.` is the repository itself. -/
def SubmitWorld.upstream (w : SubmitWorld) (b : Text) : Option Oid :=
  match w.remote.get? b, w.merge.get? b with
  | some r, some m => if r = t!"." then w.refs.get? m else w.tracking.get? (r, m)
  | _, _ => none

/-- `git fetch`: nothing is fetched if one of the references is not there. Fetching from the repository
itself has no effect (other than `FETCH_HEAD`). -/
def SubmitWorld.fetch (w : SubmitWorld) (r : Text) (refs : List Text) : SubmitWorld × Bool :=
  if r = t!"." then (w, refs.all fun x => (w.refs.get? x).isSome)
  else if w.reachable r && refs.all fun x => (w.remotes.get? (r, x)).isSome then
    ({ w with tracking := refs.foldl (fun t x =>
        match w.remotes.get? (r, x) with
        | some o => t.insert (r, x) o
        | none => t) w.tracking }, true)
  else (w, false)

/-- The remote has a reference updated, and so has the remote-tracking branch. -/
def SubmitWorld.putRemote (w : SubmitWorld) (r x : Text) (o : Oid) : SubmitWorld :=
  { w with remotes := w.remotes.insert (r, x) o, tracking := w.tracking.insert (r, x) o }

/-- One reference of a push: it is updated unless it is there already; else it is refused if `allowed` is
false or by the remote. -/
def SubmitWorld.pushOne (w : SubmitWorld) (r x : Text) (o : Oid) (allowed : Bool) : SubmitWorld × Bool :=
  if w.remotes.get? (r, x) = some o then (w.putRemote r x o, true)
  else if allowed && w.accepts r x then (w.putRemote r x o, true)
  else (w, false)

/-- `git push` without force: only new references and fast-forwards are allowed. -/
def SubmitWorld.fastForward (w : SubmitWorld) (r x : Text) (o : Oid) : Bool :=
  match w.remotes.get? (r, x) with
  | some old => w.isAncestor old o
  | none => true

/-- `git push --force-with-lease`: the reference has to be as the remote-tracking branch says. -/
def SubmitWorld.lease (w : SubmitWorld) (r x : Text) : Bool :=
  w.remotes.get? (r, x) = w.tracking.get? (r, x)

/-- `git push --set-upstream` for one branch. -/
def SubmitWorld.pushNewOne (r : Text) (s : SubmitWorld × Bool) (b : Text) : SubmitWorld × Bool :=
  match s.1.refs.get? (fullName b) with
  | none => (s.1, false)
  | some o =>
    let x := s.1.pushOne r (fullName b) o (s.1.fastForward r (fullName b) o)
    if x.2 then
      ({ x.1 with remote := x.1.remote.insert b r, merge := x.1.merge.insert b (fullName b) }, s.2)
    else (x.1, false)

/-- `git push --force-with-lease` for one branch. -/
def SubmitWorld.pushLeaseOne (r : Text) (s : SubmitWorld × Bool) (b : Text) : SubmitWorld × Bool :=
  match s.1.refs.get? (fullName b) with
  | none => (s.1, false)
  | some o =>
    let x := s.1.pushOne r (fullName b) o (s.1.lease r (fullName b))
    (x.1, s.2 && x.2)

/-- `git push`: all references are tried, and the command fails if one is refused. A push to the repository
itself has no effect, as each branch is there already (that `--set-upstream` changes the configuration then
is not modelled). -/
def SubmitWorld.push (w : SubmitWorld) (r : Text) (bs : List Text)
    (one : Text → SubmitWorld × Bool → Text → SubmitWorld × Bool) : SubmitWorld × Bool :=
  if r = t!"." then (w, true)
  else if w.reachable r then bs.foldl (one r) (w, true)
  else (w, false)

/-! ### the status of the commits -/

/-- lib.rs:54-74 `SubmitStatus`. -/
inductive SubmitStatus where
  | local
  | unsubmitted
  | unknown
  | upToDate
  | needsUpdate
deriving DecidableEq

/-- lib.rs:76-109 `CommitStatus`, without the name of the remote commit, which is not used here. -/
structure CommitStatus where
  status : SubmitStatus
  remoteName : Option Text
  localName : Option Text
deriving DecidableEq

/-- branch_forge.rs:37-41 `BranchInfo`. -/
structure BranchInfo where
  ref : Text
  name : Text
  remoteName : Option Text
deriving DecidableEq

/-- reference.rs:345-358 `get_push_remote_name`. -/
def SubmitWorld.pushRemoteName (w : SubmitWorld) (b : Text) : Option Text :=
  match w.pushRemote b with
  | some r => some r
  | none => w.remote.get? b

/-- branch_forge.rs:60-79: the information about a branch. (The branch is found, as the snapshot of the
references was just taken.) -/
def branchInfo (w : SubmitWorld) (main : Text) (ref : Text) : Option BranchInfo :=
  if (categorize ref).isLocalBranch = false then none
  else if (categorize ref).renderSuffix = main then none
  else some ⟨ref, (categorize ref).renderSuffix, w.pushRemoteName (categorize ref).renderSuffix⟩

/-- branch_forge.rs:42-83: the branches at the selected commits, except for the main branch. As the value in
the map depends only on the key, an entry is not lost if it is there twice. -/
def branchInfos (w : SubmitWorld) (main : Text) (set : List Oid) : List BranchInfo :=
  (set.flatMap (namesAt w.refs)).filterMap (branchInfo w main)

/-- branch_forge.rs:90-103: the branches by remote, and 109-117: their full names. -/
def fetchGroups (infos : List BranchInfo) : List (Text × List Text) :=
  (sortedSet (infos.filterMap (·.remoteName))).map fun r =>
    (r, sortedSet ((infos.filter fun i => i.remoteName = some r).map (·.ref)))

/-- branch_forge.rs:106-133: the loop, which ends at the first failure. -/
def fetchAll (w : SubmitWorld) : List (Text × List Text) → SubmitWorld × List GitCommand × Bool
  | [] => (w, [], true)
  | (r, refs) :: rest =>
    let x := w.fetch r refs
    if x.2 then
      let y := fetchAll x.1 rest
      (y.1, .fetch r refs :: y.2.1, y.2.2)
    else (x.1, [.fetch r refs], false)

/-- branch_forge.rs:145-181: the status, given the branches at a commit. -/
def commitStatus (w : SubmitWorld) : List BranchInfo → CommitStatus
  | [] => ⟨.local, none, none⟩
  | [i] =>
    match w.upstream i.name with
    | none => ⟨.unsubmitted, none, some i.name⟩
    | some u =>
      ⟨if w.refs.get? i.ref = some u then .upToDate else .needsUpdate, i.remoteName, some i.name⟩
  | _ => ⟨.unknown, none, none⟩

/-- branch_forge.rs:136-184: the status of all commits with branches. -/
def commitStatuses (w : SubmitWorld) (infos : List BranchInfo) : List (Oid × CommitStatus) :=
  (branchOids w.refs).map fun o =>
    (o, commitStatus w ((namesAt w.refs o).filterMap fun r => infos.find? fun i => i.ref = r))

/-! ### creating and updating -/

/-- repo_ext.rs:128-155 `get_default_push_remote`. (The main branch is a local one.) -/
def SubmitWorld.defaultPushRemote (w : SubmitWorld) (main : Text) : Option Text :=
  match w.pushRemoteName main with
  | some r => some r
  | none => w.pushDefault

/-- branch_forge.rs:190-264 `create`: the commands of git, and the names, or `none` if it fails. -/
def createBranches (w : SubmitWorld) (main : Text) (commits : List CommitStatus) :
    SubmitWorld × List GitCommand × Option (List Text) :=
  let names := (commits.filterMap (·.localName)).insertionSort (· ≤ ·)
  match w.defaultPushRemote main with
  | none => (w, [], none)
  | some r =>
    if names.isEmpty then (w, [], some [])
    else
      let x := w.push r names SubmitWorld.pushNewOne
      (x.1, [.pushNew r names], if x.2 then some (commits.filterMap (·.localName)) else none)

/-- branch_forge.rs:273-289: the remote and the name. -/
def updateTarget (c : CommitStatus) : Option (Text × Text) :=
  match c.remoteName, c.localName with
  | some r, some b => some (r, b)
  | _, _ => none

/-- branch_forge.rs:272-293: the branches by remote. -/
def updateGroups (commits : List CommitStatus) : List (Text × List Text) :=
  let pairs := commits.filterMap updateTarget
  (sortedSet (pairs.map Prod.fst)).map fun r => (r, sortedSet ((pairs.filter fun e => e.1 = r).map Prod.snd))

/-- branch_forge.rs:303-317: the loop, which ends at the first failure. -/
def updateAll (w : SubmitWorld) : List (Text × List Text) → SubmitWorld × List GitCommand × Bool
  | [] => (w, [], true)
  | (r, bs) :: rest =>
    let x := w.push r bs SubmitWorld.pushLeaseOne
    if x.2 then
      let y := updateAll x.1 rest
      (y.1, .pushLease r bs :: y.2.1, y.2.2)
    else (x.1, [.pushLease r bs], false)

/-! ### the command -/

/-- What is reported: lib.rs:398-492. -/
structure SubmitReport where
  submitted : List Text
  updated : List Text
  skipped : List Text
  unsubmitted : List Text
deriving DecidableEq

/-- lib.rs:302-360: the commits with a given status. -/
def commitsWith (s : SubmitStatus) (statuses : List (Oid × CommitStatus)) : List CommitStatus :=
  (statuses.map Prod.snd).filter fun c => c.status = s

/-- lib.rs:363-390: the names of the commits which were created and of those which were not. `none` is a
failure. -/
def submitCreate (w : SubmitWorld) (main : Text) (create dryRun : Bool) (commits : List CommitStatus) :
    SubmitWorld × List GitCommand × Option (List Text × List Text) :=
  let names := sortedSet (commits.filterMap (·.localName))
  if create then
    if dryRun then (w, [], some (names, []))
    else
      let x := createBranches w main commits
      (x.1, x.2.1, x.2.2.map fun created => (sortedSet created, []))
  else (w, [], some ([], names))

/-- lib.rs:404-407: updating, unless it is a dry run. -/
def submitUpdate (w : SubmitWorld) (dryRun : Bool) (commits : List CommitStatus) :
    SubmitWorld × List GitCommand × Bool :=
  if dryRun then (w, [], true) else updateAll w (updateGroups commits)

/-- lib.rs:363-408: after the statuses are known. -/
def submitStatuses (w : SubmitWorld) (main : Text) (create dryRun : Bool)
    (statuses : List (Oid × CommitStatus)) : SubmitWorld × List GitCommand × Option SubmitReport :=
  let x := submitCreate w main create dryRun (commitsWith .unsubmitted statuses)
  match x.2.2 with
  | none => (x.1, x.2.1, none)
  | some names =>
    let toUpdate := commitsWith .needsUpdate statuses
    -- lib.rs:344-351: without a name, nothing is known
    let toSkip := (commitsWith .upToDate statuses).filter fun c => c.localName.isSome
    let y := submitUpdate x.1 dryRun toUpdate
    (y.1, x.2.1 ++ y.2.1,
      if y.2.2 then some
        { submitted := names.1
          updated := sortedSet (toUpdate.filterMap (·.localName))
          skipped := sortedSet (toSkip.filterMap (·.localName))
          unsubmitted := names.2 }
      else none)

/-- lib.rs:214-518 `submit` with branch_forge.rs:31-185 `query_status`, for the commits `set` for which the
revsets stand: the commands of git, and what is reported, or `none` for an exit code. -/
def submit (w : SubmitWorld) (main : Text) (set : List Oid) (create dryRun : Bool) :
    SubmitWorld × List GitCommand × Option SubmitReport :=
  let infos := branchInfos w main set
  let f := fetchAll w (fetchGroups infos)
  if f.2.2 then
    let x := submitStatuses f.1 main create dryRun (commitStatuses f.1 infos)
    (x.1, f.2.1 ++ x.2.1, x.2.2)
  else (f.1, f.2.1, none)

end Verif
