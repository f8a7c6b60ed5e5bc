import Verif.Model.Text
import Verif.Model.Lines
import Verif.Model.Status
import Verif.Model.Tree
import Verif.Model.Trailers

/-!
git-branchless-lib/src/git/snapshot.rs (working copy snapshots), git/index.rs, and `restore_snapshot` of
core/check_out.rs; what `record` does with the kind of changes (git-branchless-record/src/lib.rs:92-170).

Of git itself are modelled: `git update-index --index-info`, and that `git reset` sets the index to the
files of a commit. (`git status` is described by a contract in `Spec/Snapshot`.)
-/

namespace Verif

/-- git/index.rs:10-24 `Stage`. -/
inductive Stage where
  | stage0
  | stage1
  | stage2
  | stage3
deriving DecidableEq, Repr

/-- git/index.rs:27-34 `get_trailer`. -/
def Stage.trailer : Stage → Text
  | .stage0 => t!"Branchless-stage-0"
  | .stage1 => t!"Branchless-stage-1"
  | .stage2 => t!"Branchless-stage-2"
  | .stage3 => t!"Branchless-stage-3"

/-- git/index.rs:37-46 `From<Stage> for i32`. -/
def Stage.number : Stage → Nat
  | .stage0 => 0
  | .stage1 => 1
  | .stage2 => 2
  | .stage3 => 3

/-- The index: the entries (mode and object) by path and stage. Flags such as skip-worktree are not
modelled. -/
abbrev GitIndex := AMap (TreePath × Stage) (Nat × MaybeZero)

/-- git/index.rs:77-90 `get_entry_in_stage`. -/
def getEntryInStage (index : GitIndex) (p : TreePath) (stage : Stage) : Option (MaybeZero × FileMode) :=
  (AMap.get? index (p, stage)).map fun e => (e.2, FileMode.ofI32 e.1)

/-- The components of a path. (git writes paths without empty components, `.` and `..`.) -/
def components (path : Text) : TreePath := splitChar '/' path

/-- A commit object. `other` stands for author, committer, dates and further headers. -/
structure SnapCommit where
  message : Text
  tree : Tree
  parents : List Oid
  other : Text

/-- The objects of the repository, with the hash functions for commits and trees. -/
structure SnapRepo where
  commitId : SnapCommit → Oid
  treeId : Tree → Oid
  commits : List SnapCommit

/-- git/repo.rs `find_commit_or_fail`. -/
def SnapRepo.find (r : SnapRepo) (o : Oid) : Except Unit SnapCommit :=
  match r.commits.find? fun c => r.commitId c = o with
  | some c => .ok c
  | none => .error ()

/-- git/repo.rs `create_commit`, without a reference, with the automated signature
(git/repo.rs:1652-1661), which is always the same. -/
def SnapRepo.createCommit (r : SnapRepo) (message : Text) (tree : Tree) (parents : List Oid) :
    SnapRepo × SnapCommit :=
  let c : SnapCommit := ⟨message, tree, parents, t!"automated"⟩
  ({ r with commits := r.commits ++ [c] }, c)

/-- core/formatting.rs:42-70 `Display for Pluralize`, without determiner. -/
def pluralize (amount : Nat) (one many : Text) : Text :=
  natToText amount ++ t!" " ++ (if amount = 1 then one else many)

/-! ### creating a snapshot -/

/-- snapshot.rs:47-86 `WorkingCopySnapshot`. -/
structure WcSnapshot where
  base : SnapCommit
  head : Option SnapCommit
  headRef : Option Text
  unstaged : SnapCommit
  stage0 : SnapCommit
  stage1 : SnapCommit
  stage2 : SnapCommit
  stage3 : SnapCommit

/-- snapshot.rs:305-330: the paths in the unstaged commit. -/
def unstagedPaths (es : List StatusEntry) : List (TreePath × FileMode) :=
  (es.filter fun e => e.workingCopyStatus.isChanged || e.indexStatus.isChanged).flatMap fun e =>
    e.paths.map fun p => (components p, e.workingCopyMode)

/-- snapshot.rs:336-349: one round of the loop. -/
def addUnstaged (wc : WorkingCopy) (m : AMap TreePath (Option Node)) (e : TreePath × FileMode) :
    Except Unit (AMap TreePath (Option Node)) :=
  if e.2 = .unreadable then .ok (AMap.insert m e.1 none)
  else
    match createBlobFromPath wc e.1 with
    | .error () => .error ()
    | .ok blob => .ok (AMap.insert m e.1 (blob.map fun o => .leaf e.2.toI32.toNat o))

/-- snapshot.rs:299-375 `create_commit_for_unstaged_changes`: tree and message. `head` is the tree of the
commit `HEAD`. -/
def unstagedTree (head : Option Tree) (wc : WorkingCopy) (es : List StatusEntry) : Except Unit Tree :=
  match (unstagedPaths es).foldlM (addUnstaged wc) [] with
  | .error () => .error ()
  | .ok entries => .ok (hydrateTree (head.getD []) entries)

/-- snapshot.rs:358-365: the message. -/
def unstagedMessage (es : List StatusEntry) : Text :=
  t!"branchless: working copy snapshot data: " ++
    pluralize (unstagedPaths es).length t!"unstaged change" t!"unstaged changes"

/-- snapshot.rs:392-428: the entry for a stage commit; `none` is `continue`. -/
def stageEntry (index : GitIndex) (stage : Stage) (e : StatusEntry) : Option (Option Node) :=
  match getEntryInStage index (components e.path) stage with
  | none =>
    if stage = .stage0 then some none
    else if e.indexStatus = .unmerged then some none
    else none
  | some (.zero, _) => some none
  | some (.nonZero oid, mode) => some (some (.leaf mode.toI32.toNat oid))

/-- snapshot.rs:386-431: one round of the loop. -/
def addStageEntry (index : GitIndex) (stage : Stage) (m : AMap TreePath (Option Node)) (e : StatusEntry) :
    AMap TreePath (Option Node) :=
  match stageEntry index stage e with
  | none => m
  | some v => AMap.insert m (components e.path) v

/-- snapshot.rs:385-431. -/
def stageEntries (index : GitIndex) (stage : Stage) (es : List StatusEntry) : AMap TreePath (Option Node) :=
  es.foldl (addStageEntry index stage) []

/-- snapshot.rs:434-439: the tree of a stage commit. -/
def stageTree (head : Option Tree) (index : GitIndex) (stage : Stage) (es : List StatusEntry) : Tree :=
  hydrateTree (head.getD []) (stageEntries index stage es)

/-- snapshot.rs:442-452: the message of a stage commit. -/
def stageMessage (index : GitIndex) (stage : Stage) (es : List StatusEntry) : Text :=
  t!"branchless: working copy snapshot data: " ++
    pluralize (stageEntries index stage es).length (t!"change in stage " ++ natToText stage.number)
      (t!"changes in stage " ++ natToText stage.number)

/-- snapshot.rs:378-465 `create_commit_for_stage`. -/
def createCommitForStage (r : SnapRepo) (index : GitIndex) (head : Option SnapCommit)
    (es : List StatusEntry) (stage : Stage) : SnapRepo × SnapCommit :=
  r.createCommit (stageMessage index stage es) (stageTree (head.map (·.tree)) index stage es)
    (head.map r.commitId).toList

/-- snapshot.rs:41. -/
def headTrailer : Text := t!"Branchless-head"

/-- snapshot.rs:42. -/
def headRefTrailer : Text := t!"Branchless-head-ref"

/-- snapshot.rs:43. -/
def unstagedTrailer : Text := t!"Branchless-unstaged"

/-- snapshot.rs:156-172: the trailers. -/
def snapshotTrailers (head : MaybeZero) (headRef : Option Text) (unstaged s0 s1 s2 s3 : Oid) :
    List (Text × Text) :=
  (headTrailer, head.toText) :: (headRef.map fun name => (headRefTrailer, name)).toList ++
    [(unstagedTrailer, unstaged.toText), (Stage.stage0.trailer, s0.toText),
     (Stage.stage1.trailer, s1.toText), (Stage.stage2.trailer, s2.toText),
     (Stage.stage3.trailer, s3.toText)]

/-- snapshot.rs:174-185: the message of the base commit. -/
def snapshotMessage (trailers : List (Text × Text)) : Text :=
  t!"branchless: automated working copy snapshot\n\n" ++
    List.intercalate t!"\n" (trailers.map fun e => e.1 ++ t!": " ++ e.2) ++ t!"\n"

/-- snapshot.rs:113-116: the commit `HEAD`. -/
def findHead (r : SnapRepo) : Option Oid → Except Unit (Option SnapCommit)
  | some oid => (r.find oid).map some
  | none => .ok none

/-- snapshot.rs:107-228 `create`. The arguments are the index, the commit and the branch of `HEAD`, the
working copy and the status. -/
def createSnapshot (r : SnapRepo) (index : GitIndex) (headOid : Option Oid) (headRef : Option Text)
    (wc : WorkingCopy) (es : List StatusEntry) : Except Unit (SnapRepo × WcSnapshot) := do
  let head ← findHead r headOid
  let tree ← unstagedTree (head.map (·.tree)) wc es
  let (r, unstaged) := r.createCommit (unstagedMessage es) tree (head.map r.commitId).toList
  let (r, stage0) := createCommitForStage r index head es .stage0
  let (r, stage1) := createCommitForStage r index head es .stage1
  let (r, stage2) := createCommitForStage r index head es .stage2
  let (r, stage3) := createCommitForStage r index head es .stage3
  let message := snapshotMessage (snapshotTrailers (MaybeZero.ofOption (head.map r.commitId)) headRef
    (r.commitId unstaged) (r.commitId stage0) (r.commitId stage1) (r.commitId stage2) (r.commitId stage3))
  let (r, base) := r.createCommit message ((head.map (·.tree)).getD [])
    ((head.map r.commitId).toList ++
      [r.commitId stage0, r.commitId stage1, r.commitId stage2, r.commitId stage3])
  .ok (r, ⟨base, head, headRef, unstaged, stage0, stage1, stage2, stage3⟩)

/-! ### loading a snapshot -/

/-- snapshot.rs:238-255 `find_commit`. -/
def findTrailerCommit (r : SnapRepo) (name : Text) : List (Text × Text) → Except Unit (Option SnapCommit)
  | [] => .ok none
  | (k, v) :: rest =>
    if k ≠ name then findTrailerCommit r name rest
    else
      match MaybeZero.parse v with
      | some (.nonZero oid) => (r.find oid).map some
      | some .zero => .ok none
      | none => findTrailerCommit r name rest

/-- snapshot.rs:262-268. -/
def findHeadRef (trailers : List (Text × Text)) : Option Text :=
  (trailers.find? fun e => e.1 = headRefTrailer).map (·.2)

/-- snapshot.rs:270-285: a stage commit, then the rest. -/
def withCommit {α : Type} (r : SnapRepo) (name : Text) (trailers : List (Text × Text))
    (f : SnapCommit → Except Unit (Option α)) : Except Unit (Option α) :=
  match findTrailerCommit r name trailers with
  | .error () => .error ()
  | .ok none => .ok none
  | .ok (some c) => f c

/-- snapshot.rs:233-297 `try_from_base_commit`. -/
def tryFromBaseCommit (r : SnapRepo) (base : SnapCommit) : Except Unit (Option WcSnapshot) :=
  match getTrailers base.message with
  | none => .error ()
  | some trailers =>
    match findTrailerCommit r headTrailer trailers with
    | .error () => .error ()
    | .ok head =>
      withCommit r unstagedTrailer trailers fun unstaged =>
      withCommit r Stage.stage0.trailer trailers fun stage0 =>
      withCommit r Stage.stage1.trailer trailers fun stage1 =>
      withCommit r Stage.stage2.trailer trailers fun stage2 =>
      withCommit r Stage.stage3.trailer trailers fun stage3 =>
      .ok (some ⟨base, head, findHeadRef trailers, unstaged, stage0, stage1, stage2, stage3⟩)

/-! ### the kind of changes -/

/-- snapshot.rs:88-103 `WorkingCopyChangesType`. -/
inductive ChangesType where
  | none
  | unstaged
  | staged
  | conflicts
deriving DecidableEq, Repr

/-- snapshot.rs:467-489 `get_working_copy_changes_type`. -/
def WcSnapshot.changesType (r : SnapRepo) (s : WcSnapshot) : ChangesType :=
  let base := r.treeId s.base.tree
  if base ≠ r.treeId s.stage1.tree || base ≠ r.treeId s.stage2.tree || base ≠ r.treeId s.stage3.tree then
    .conflicts
  else if base ≠ r.treeId s.stage0.tree then .staged
  else if base ≠ r.treeId s.unstaged.tree then .unstaged
  else .none

/-- What `record` does. -/
inductive RecordAction where
  /-- There is nothing to commit. -/
  | nothing
  /-- An error message and exit code 1. -/
  | refused
  /-- The changes are selected interactively. -/
  | select
  /-- `git commit`, with `--all` or not. -/
  | commit (all : Bool)
deriving DecidableEq, Repr

/-- git-branchless-record/src/lib.rs:97-120 and 138-168: how `record` commits. (For the whole command see
Model/Record.lean.) -/
def recordAction (interactive : Bool) : ChangesType → RecordAction
  | .none => .nothing
  | .conflicts => .refused
  | .staged => if interactive then .refused else .commit false
  | .unstaged => if interactive then .select else .commit true

/-! ### restoring a snapshot -/

/-- git/index.rs:93-106 `UpdateIndexCommand`. -/
inductive IndexCommand where
  | delete (path : TreePath)
  | update (path : TreePath) (stage : Stage) (mode : Nat) (oid : Oid)
deriving DecidableEq

/-- One line of the input of `git update-index --index-info` (builtin/update-index.c `read_index_info`,
read-cache.c `remove_file_from_index` and `add_index_entry_with_check`, where the options allow to add, to
remove and to replace): removing a path removes all its stages; an entry of the same path and stage is
replaced; otherwise, an entry in stage 0 replaces the other stages of the path, and an entry replaces those
of the same stage which are below or above its path. (The text between the two programs is not modelled,
see git/index.rs:120-152.) -/
def applyIndexCommand (index : GitIndex) : IndexCommand → GitIndex
  | .delete p => index.filter fun e => e.1.1 ≠ p
  | .update p stage mode oid =>
    if (AMap.get? index (p, stage)).isSome then AMap.insert index (p, stage) (mode, .nonZero oid)
    else
      let index := if stage = .stage0 then index.filter fun e => e.1.1 ≠ p else index
      let index := index.filter fun e =>
        !(e.1.2 = stage && (strictlyBelow p e.1.1 || strictlyBelow e.1.1 p))
      AMap.insert index (p, stage) (mode, .nonZero oid)

/-- The object of a tree entry. -/
def SnapRepo.nodeId (r : SnapRepo) : Node → Oid
  | .leaf _ o => o
  | .dir _ es => r.treeId es

/-- The raw mode of a tree entry. -/
def Node.mode : Node → Nat
  | .leaf m _ => m
  | .dir m _ => m

/-- core/check_out.rs:301-316: the command for a path. -/
def restoreCommand (r : SnapRepo) (stage : Stage) (tree : Tree) (p : TreePath) : IndexCommand :=
  match getPath tree p with
  | none => .delete p
  | some x => .update p stage (FileMode.ofI32 (normalizeMode x.mode)).toI32.toNat (r.nodeId x)

/-- A commit with the trees of its parents, for `get_paths_touched_by_commit`. (All parents are there.) -/
def SnapRepo.withParents (r : SnapRepo) (c : SnapCommit) : TreeCommit where
  tree := c.tree
  parents := c.parents.filterMap fun o => (r.find o).toOption.map (·.tree)

/-- core/check_out.rs:291-320: the commands. `order` is the order in which the set of paths is visited. -/
def restoreCommands (r : SnapRepo) (order : List TreePath → List TreePath) (s : WcSnapshot) :
    List IndexCommand :=
  [(Stage.stage0, s.stage0), (Stage.stage1, s.stage1), (Stage.stage2, s.stage2),
    (Stage.stage3, s.stage3)].flatMap fun e =>
      (order (r.withParents e.2).pathsTouched).map (restoreCommand r e.1 e.2.tree)

/-- `git reset`/`git checkout`: the index has the files of a tree. -/
def indexOfTree (t : Tree) : GitIndex :=
  (treeFilePaths t).dedup.filterMap fun p =>
    (getFile t p).map fun f => ((p, Stage.stage0), (f.1, .nonZero f.2))

/-- core/check_out.rs:241-328 `restore_snapshot`: the index after it, if the commands of git succeed.
`git checkout` of the unstaged commit sets it; `git reset` is done if there was a commit `HEAD`. -/
def restoreIndex (r : SnapRepo) (order : List TreePath → List TreePath) (s : WcSnapshot) : GitIndex :=
  let start := match s.head with
    | some head => indexOfTree head.tree
    | none => indexOfTree s.unstaged.tree
  (restoreCommands r order s).foldl applyIndexCommand start

/-- `HEAD`, and the references. -/
structure SnapHead where
  /-- The branch to which `HEAD` refers, or the commit. -/
  head : Text ⊕ Oid
  refs : AMap Text Oid

/-- core/check_out.rs:265-288 and 330-352: `HEAD` after `restore_snapshot`. The checkout detaches `HEAD`,
`git update-ref` with the zero id removes a reference. -/
def restoreHead (r : SnapRepo) (s : WcSnapshot) (h : SnapHead) : SnapHead :=
  let h := { h with head := .inr (r.commitId s.unstaged) }
  let h := match s.head with
    | some c => { h with head := .inr (r.commitId c) }
    | none => h
  match s.headRef with
  | none => h
  | some name =>
    let refs := match s.head with
      | some c => AMap.insert h.refs name (r.commitId c)
      | none => AMap.erase h.refs name
    ⟨.inl name, refs⟩

end Verif
