import Verif.Model.FinishRebase
import Verif.Spec.Todo

/-!
An on-disk rebase: the files which are written before `git rebase --continue` is called
(core/rewrite/execute.rs:984-1151), the hooks which git calls while it works
(core/rewrite/rewrite_hooks.rs:346-555 and 184-216), and what `git rebase` itself does with the todo list.

git is an external program. What it does here is what its documentation and sequencer.c say: this is trusted,
not taken from the code in the repository.
-/

namespace Verif

/-- The files in git's state directory of a rebase, and `ORIG_HEAD`. Files whose contents are not used
here (`interactive`, `orig-head`, `head`, `onto`, `end`, `keep_redundant_commits`) are left out. -/
structure RebaseFiles where
  /-- `git-rebase-todo` -/
  todo : Text
  /-- `ORIG_HEAD`, which is not in the directory -/
  origHead : Option Text
  /-- `head-name` -/
  headName : Option Text
  /-- `branchless_original_head_oid` -/
  originalHeadOid : Option Text
  /-- `branchless_original_head` -/
  originalHead : Option Text
  /-- `cdate_is_adate` exists -/
  cdateIsAdate : Bool
  /-- `rewritten-list` -/
  rewrittenList : Option Text
  /-- `deferred-commits` -/
  deferred : Option Text
  /-- `branchless_updated_head` -/
  updatedHead : Option Text
  /-- `branchless_do_extra_post_rewrite` exists -/
  extraPostRewrite : Bool
deriving DecidableEq

/-- rewrite_hooks.rs:351-374 `save_original_head_info`. -/
def RebaseFiles.saveOriginalHeadInfo (f : RebaseFiles) (info : HeadInfo) : RebaseFiles :=
  let f := match info.oid with
    | some o => { f with originalHeadOid := some o.toText }
    | none => f
  match info.referenceName with
  | some n => { f with originalHead := some n }
  | none => f

/-- rewrite_hooks.rs:376-403 `load_original_head_info`; `none` is an error. -/
def RebaseFiles.loadOriginalHeadInfo (f : RebaseFiles) : Option HeadInfo :=
  match f.originalHeadOid with
  | none => some ⟨none, f.originalHead⟩
  | some t =>
    match Oid.parse t with
    | none => none
    | some o => some ⟨some o, f.originalHead⟩

/-- rewrite_hooks.rs:415-421 `save_updated_head_oid`. -/
def RebaseFiles.saveUpdatedHeadOid (f : RebaseFiles) (o : Oid) : RebaseFiles :=
  { f with updatedHead := some o.toText }

/-- rewrite_hooks.rs:423-433 `load_updated_head_oid`; the outer `none` is an error. -/
def RebaseFiles.loadUpdatedHeadOid (f : RebaseFiles) : Option (Option Oid) :=
  match f.updatedHead with
  | none => some none
  | some t =>
    match Oid.parse t with
    | none => none
    | some o => some (some o)

/-- execute.rs:1036-1141: the files which are written before git is called. `orig` is `ORIG_HEAD` as it was. -/
def initialFiles (orig : Option Text) (head : HeadInfo) (preserveTimestamps : Bool) (todo : Text) :
    RebaseFiles :=
  let f : RebaseFiles := ⟨todo, orig, none, none, none, preserveTimestamps, none, none, none, false⟩
  match head.oid with
  | none => f
  | some o =>
    { f with
      origHead := some o.toText
      headName := some (head.referenceName.getD t!"detached HEAD") }.saveOriginalHeadInfo head

/-- What git depends on when it works on the todo list. -/
structure SeqEnv where
  /-- The three-way merge of a cherry-pick: the tree after applying the change of the commit to a tree; an error
  if there are conflicts. -/
  pick : Oid → Nat → Except Unit Nat
  /-- The tree of a merge of commits. -/
  mergeTree : List Oid → Except Unit Nat
  /-- Who runs git. -/
  user : Nat
  /-- The time when the n-th object is made. -/
  clock : Nat → Nat
  /-- The time in an author's signature. -/
  authorTime : Nat → Nat
  /-- The order in which a `HashMap` is iterated. -/
  shuffle : List (Oid × MaybeZero) → List (Oid × MaybeZero)

/-- Where git is: `HEAD` (which is detached), the labels (references below `refs/rewritten`), the objects
created so far, newest first, and the files. -/
structure SeqState where
  head : Oid
  labels : AMap Text Oid
  created : List (Oid × CommitData)
  files : RebaseFiles
deriving DecidableEq

/-- How git stops before the end of the todo list: for a conflict (or at `break`), because an object cannot be
written, or because of an error. -/
inductive SeqStop where
  | paused
  | unwritable
  | failed
deriving DecidableEq

namespace SeqEnv

variable (env : SeqEnv) (ee : ExecEnv)

/-! ### the hooks -/

/-- object.rs:261-267 `is_empty`. (A parent which cannot be read is left out there, object.rs:72-77, which makes
the commit not empty.) -/
def isEmpty (created : List (Oid × CommitData)) (d : CommitData) : Bool :=
  match d.parents with
  | [p] =>
    match ee.find created p with
    | some pd => d.tree = pd.tree
    | none => false
  | _ => false

/-- rewrite_hooks.rs:496-502 and 536-538: the commit in `ORIG_HEAD`. -/
def origHeadOid (s : SeqState) : Option Oid := s.files.origHead.bind Oid.parse

/-- Adding to the `rewritten-list` (rewrite_hooks.rs:506-513 and 547-551); an error makes the command fail. -/
def addRewritten (s : SeqState) (entries : List (Oid × MaybeZero)) : Except SeqStop SeqState :=
  match addRewrittenListEntries env.shuffle s.files.rewrittenList entries with
  | none => .error .failed
  | some list => .ok { s with files := { s.files with rewrittenList := some list } }

/-- rewrite_hooks.rs:468-519 `hook_drop_commit_if_empty`. -/
def hookDropCommitIfEmpty (s : SeqState) (old : Oid) : Except SeqStop SeqState :=
  match ee.find s.created s.head with
  | none => .ok s
  | some d =>
    if !isEmpty ee s.created d then .ok s
    else
      match d.parents with
      | [p] =>
        let empty := s.head
        let s := { s with head := p }
        let s := if some old = origHeadOid s then { s with files := s.files.saveUpdatedHeadOid p } else s
        addRewritten env s [(old, .zero), (empty, .zero)]
      | _ => .ok s

/-- rewrite_hooks.rs:523-555 `hook_skip_upstream_applied_commit`. -/
def hookSkipUpstreamAppliedCommit (s : SeqState) (c : Oid) : Except SeqStop SeqState :=
  match ee.find s.created c with
  | none => .error .failed
  | some _ =>
    let s := if origHeadOid s = some c then { s with files := s.files.saveUpdatedHeadOid s.head } else s
    addRewritten env s [(c, .zero)]

/-- rewrite_hooks.rs:441-463 `hook_register_extra_post_rewrite_hook`. -/
def hookRegisterExtraPostRewriteHook (s : SeqState) : SeqState :=
  { s with files := { s.files with extraPostRewrite := true, headName := some t!"detached HEAD" } }

/-- hook/lib.rs:122-138: during a rebase, the post-commit hook notes the new commit (see `hookPostCommit`). -/
def deferCommit (file : Option Text) (o : Oid) : Option Text :=
  some (file.getD [] ++ (o.toText ++ ['\n']))

/-! ### git -/

/-- git adds a line to its `rewritten-list`. -/
def recordRewritten (s : SeqState) (old new : Oid) : SeqState :=
  { s with files := { s.files with
      rewrittenList := some (s.files.rewrittenList.getD [] ++ writeRewrittenList [(old, .nonZero new)]) } }

/-- git makes a new version of a commit: the committer is the user, the time is now or, with the option
`--committer-date-is-author-date`, the author's. The post-commit hook runs. -/
def commitAs (s : SeqState) (orig : CommitData) (parents : List Oid) (tree : Nat) :
    Except SeqStop SeqState :=
  let time := if s.files.cdateIsAdate then env.authorTime orig.author else env.clock s.created.length
  let d : CommitData := ⟨parents, tree, orig.message, orig.author, env.user, time⟩
  match ee.createCommit d with
  | none => .error .unwritable
  | some o =>
    .ok { s with
      head := o
      created := (o, d) :: s.created
      files := { s.files with deferred := deferCommit s.files.deferred o } }

/-- `pick`: if the commit is on top of `HEAD` already, git just goes there (unless the dates have to be changed).
With `keep_redundant_commits`, a commit is made also if there is nothing left of the change. -/
def seqPick (s : SeqState) (c : Oid) : Except SeqStop SeqState :=
  match ee.find s.created c with
  | none => .error .failed
  | some orig =>
    if orig.parents.length > 1 then .error .failed
    else if s.files.cdateIsAdate = false ∧ orig.parents = [s.head] then
      .ok (recordRewritten { s with head := c } c c)
    else
      match ee.find s.created s.head with
      | none => .error .failed
      | some base =>
        match env.pick c base.tree with
        | .error _ => .error .paused
        | .ok tree =>
          match commitAs env ee s orig [s.head] tree with
          | .error e => .error e
          | .ok s => .ok (recordRewritten s c s.head)

/-- The commit which a name means. -/
def resolve (s : SeqState) : OidOrLabel → Except SeqStop Oid
  | .label l =>
    match AMap.get? s.labels l with
    | some o => .ok o
    | none => .error .failed
  | .oid o =>
    match ee.find s.created o with
    | some _ => .ok o
    | none => .error .failed

/-- `merge -C`: like `pick`, for a merge of `HEAD` with other commits. -/
def seqMerge (s : SeqState) (c : Oid) (others : List OidOrLabel) : Except SeqStop SeqState :=
  match ee.find s.created c with
  | none => .error .failed
  | some orig =>
    match others.mapM (resolve ee s) with
    | .error e => .error e
    | .ok others =>
      if s.files.cdateIsAdate = false ∧ orig.parents = s.head :: others then
        .ok (recordRewritten { s with head := c } c c)
      else
        match env.mergeTree (s.head :: others) with
        | .error _ => .error .paused
        | .ok tree =>
          match commitAs env ee s orig (s.head :: others) tree with
          | .error e => .error e
          | .ok s => .ok (recordRewritten s c s.head)

/-- `exec`: the commands of git-branchless (hook/lib.rs:621-672); others are not modelled, and fail here. -/
def seqExec (s : SeqState) (words : List Text) : Except SeqStop SeqState :=
  match words with
  | [git, branchless, hook] =>
    if git = t!"git" ∧ branchless = t!"branchless" ∧ hook = t!"hook-register-extra-post-rewrite-hook" then
      .ok (hookRegisterExtraPostRewriteHook s)
    else .error .failed
  | [git, branchless, hook, arg] =>
    match Oid.parse arg with
    | none => .error .failed
    | some c =>
      if git = t!"git" ∧ branchless = t!"branchless" ∧ hook = t!"hook-detect-empty-commit" then
        hookDropCommitIfEmpty env ee s c
      else if git = t!"git" ∧ branchless = t!"branchless" ∧ hook = t!"hook-skip-upstream-applied-commit" then
        hookSkipUpstreamAppliedCommit env ee s c
      else .error .failed
  | _ => .error .failed

/-- One instruction of the todo list. -/
def seqStep (s : SeqState) : Spec.TodoItem → Except SeqStop SeqState
  | .label l => .ok { s with labels := AMap.insert s.labels l s.head }
  | .reset t =>
    match resolve ee s t with
    | .error e => .error e
    | .ok o => .ok { s with head := o }
  | .pick c => seqPick env ee s c
  | .merge c others => seqMerge env ee s c others
  | .exec words => seqExec env ee s words
  | .break => .error .paused

/-- git works on the todo list. -/
def seqRun (s : SeqState) (items : List Spec.TodoItem) : Except SeqStop SeqState :=
  items.foldlM (seqStep env ee) s

end SeqEnv

/-! ### the end -/

/-- How the hook after the rewrite ended. -/
inductive ExtraResult where
  | error
  /-- The flag says whether the checkout succeeded. -/
  | done (ok : Bool)
  /-- There was nothing more to do. -/
  | nothing
deriving DecidableEq

/-- rewrite_hooks.rs:133-237 `hook_post_rewrite`, with moving branches and checking out (184-216). The warning about
abandoned commits (218-234) is not modelled. -/
def hookPostRewriteExtra (env : FinishEnv) (w : RepoWorld) (f : RebaseFiles) (stdin : Text) :
    RepoWorld × ExtraResult :=
  match hookPostRewrite ⟨true, f.deferred, w.db, []⟩ (some env.tx) t!"rebase" env.now stdin with
  | (.spurious, h) => ({ w with db := h.db }, .nothing)
  | (.error, h) => ({ w with db := h.db }, .error)
  | (.done rewritten, h) =>
    let w := { w with db := h.db }
    if !f.extraPostRewrite then (w, .nothing)
    else
      match f.loadOriginalHeadInfo with
      | none => (w, .error)
      | some previous =>
        let moved := moveBranches env.move w.git.refs rewritten
        let w := { w with
          git := { w.git with refs := moved.refs }
          db := match moved.report with
            | some moves => runReferenceTransactionHook env w.db moves
            | none => w.db }
        if !moved.ok then (w, .error)
        else
          match f.loadUpdatedHeadOid with
          | none => (w, .error)
          | some skipped =>
            match checkOutUpdatedHead env.checkout w.git rewritten previous skipped with
            | .error _ => (w, .error)
            | .ok (git, ok) => ({ w with git }, .done ok)

/-- hook/lib.rs:107-108: the post-commit hook keeps the new commits alive. An error has no consequences here, since git
ignores the exit code of the hook. -/
def keepCreated (isCommit : Oid → Bool) : List (Oid × CommitData) → Refs → Refs
  | [], refs => refs
  | (o, _) :: l, refs =>
    let refs := keepCreated isCommit l refs
    match markCommitReachable isCommit refs o with
    | .error _ => refs
    | .ok refs => refs

/-- git at the end of the todo list: if `head-name` is the name of a reference, it is moved to `HEAD` and checked out;
the post-rewrite hook is run if anything is in the `rewritten-list` (its exit code is ignored); the state directory
is removed. The labels, and what the other hooks record of git's own work, are not modelled. -/
def gitFinish (env : FinishEnv) (w : RepoWorld) (s : SeqState) : RepoWorld × ExtraResult :=
  let name := s.files.headName.getD []
  let refs := keepCreated env.move.isCommit s.created w.git.refs
  let git : GitState :=
    if t!"refs/".isPrefixOf name then ⟨AMap.insert refs name s.head, .symbolic name⟩
    else ⟨refs, .detached s.head⟩
  let w := { w with git }
  let (w, r) := match s.files.rewrittenList with
    | none => (w, ExtraResult.nothing)
    | some [] => (w, ExtraResult.nothing)
    | some list => hookPostRewriteExtra env w s.files list
  ({ w with rebaseDir := none, deferred := none }, r)

/-- `git rebase --continue` after the files have been written, where `head` was `HEAD` before: the repository, how git
stopped (`none`: it reached the end), how the hook at the end did, and what git did. -/
def gitRebaseContinue (env : SeqEnv) (ee : ExecEnv) (finish : List (Oid × CommitData) → FinishEnv)
    (orig : Option Text) (head : HeadInfo) (w : RepoWorld) : RepoWorld × Except SeqStop (ExtraResult × SeqState) :=
  match w.rebaseDir, w.git.headInfo.oid with
  | some (some todo), some o =>
    match Spec.readTodo todo with
    | none => (w, .error .failed)
    | some items =>
      match env.seqRun ee ⟨o, [], [], initialFiles orig head ee.preserveTimestamps todo⟩ items with
      | .error e => (w, .error e)
      | .ok s =>
        let (w, r) := gitFinish (finish s.created) w s
        (w, .ok (r, s))
  | _, _ => (w, .error .failed)

/-- What an on-disk rebase depends on, with git as above. The exit code is 1 if git stops. -/
def onDiskEnv (disk : OnDiskEnv) (env : SeqEnv) (ee : ExecEnv) (finish : List (Oid × CommitData) → FinishEnv)
    (orig : Option Text) (head : HeadInfo) : OnDiskEnv :=
  { disk with rebaseContinue := fun w =>
      match gitRebaseContinue env ee finish orig head w with
      | (w, .ok _) => (w, 0)
      | (w, .error _) => (w, 1) }

end Verif
