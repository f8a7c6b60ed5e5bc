import Verif.Model.Snapshot
import Mathlib.Data.List.Sort
import Mathlib.Data.List.Lex
import Mathlib.Data.Char

/-!
`record --interactive`: git-branchless-lib/src/git/diff.rs (which changes are offered), and
`record_interactive` of git-branchless-record/src/lib.rs (what is done with the selected ones).

The terminal interface is another program (the crate `scm-record`). It is arbitrary here: it returns the files
with other marks, and says for each of them what the selected contents are (`Recorder`).
-/

namespace Verif

/-- diff.rs:18-24 `GitHunk`. -/
structure Hunk where
  oldStart : Nat
  oldLines : Nat
  newStart : Nat
  newLines : Nat
deriving DecidableEq, Repr

/-- `scm_record::ChangeType`. -/
inductive LineChange where
  | added
  | removed
deriving DecidableEq, Repr

/-- `scm_record::SectionChangedLine`. -/
structure ChangedLine where
  checked : Bool
  change : LineChange
  line : Text
deriving DecidableEq, Repr

/-- `scm_record::Section`. -/
inductive FileSection where
  | unchanged (lines : List Text)
  | changed (lines : List ChangedLine)
  | fileMode (checked : Bool) (before after : Nat)
  | binary (checked : Bool) (old new : Option Text)
deriving DecidableEq, Repr

/-- `scm_record::File` (`old_path` is always `None`). -/
structure RecordFile where
  path : TreePath
  mode : Option Nat
  sections : List FileSection
deriving DecidableEq, Repr

/-- diff.rs:30-37 `DeltaFileContent`. -/
inductive DeltaContent where
  | hunks (hs : List Hunk)
  | binary (oldBytes newBytes : Nat)
deriving DecidableEq, Repr

/-- diff.rs:39-46 `Delta`. -/
structure Delta where
  oldOid : MaybeZero
  oldMode : Nat
  newOid : MaybeZero
  newMode : Nat
  content : DeltaContent
deriving DecidableEq

/-- What libgit2 says about one file: the arguments of the callback for the file, and of the callbacks which
follow it, for a binary file or for each hunk. -/
structure FileDelta where
  oldPath : TreePath
  newPath : TreePath
  delta : Delta
deriving DecidableEq

/-- How it fails. -/
inductive DiffError where
  | error
  | panic
deriving DecidableEq, Repr

/-- diff.rs:83-101: the callback for a hunk. -/
def pushHunk (path : TreePath) (m : AMap TreePath Delta) (h : Hunk) : Except DiffError (AMap TreePath Delta) :=
  match AMap.get? m path with
  | none => .error .panic
  | some d =>
    match d.content with
    | .hunks hs => .ok (AMap.insert m path { d with content := .hunks (hs ++ [h]) })
    | .binary _ _ => .error .panic

/-- diff.rs:49-63: the callback for a file, and diff.rs:64-82 for a binary file. -/
def putDelta (m : AMap TreePath Delta) (d : FileDelta) (content : DeltaContent) : AMap TreePath Delta :=
  let delta := { d.delta with content }
  AMap.insert (AMap.insert m d.oldPath delta) d.newPath delta

/-- diff.rs:48-104: the callbacks for one file, in the order in which libgit2 calls them. -/
def collectDelta (m : AMap TreePath Delta) (d : FileDelta) : Except DiffError (AMap TreePath Delta) :=
  let m := putDelta m d (.hunks [])
  match d.delta.content with
  | .binary o n => .ok (putDelta m d (.binary o n))
  | .hunks hs => hs.foldlM (pushHunk d.newPath) m

/-- A blob: its size, whether libgit2 takes it for a binary file, and its text if it is UTF-8. -/
structure BlobData where
  size : Nat
  isBinary : Bool
  text : Option Text

/-- What the program reads. -/
structure DiffEnv where
  /-- The blobs of the repository. -/
  blob : Oid → Option BlobData
  /-- Adding the file of the working copy to the repository fails, and not because it does not exist. -/
  addFails : TreePath → Bool
  /-- `scm_record::helpers::make_binary_description`. -/
  describe : MaybeZero → Nat → Text

/-- diff.rs:163-167 `BlobContents`. -/
inductive BlobContents where
  | absent
  | binary (bytes : Nat)
  | text (lines : List Text)
deriving DecidableEq

/-- `str::split_inclusive('\n')`. -/
def splitInclusive : Text → List Text
  | [] => []
  | c :: cs =>
    if c = '\n' then [c] :: splitInclusive cs
    else
      match splitInclusive cs with
      | [] => [[c]]
      | l :: ls => (c :: l) :: ls

/-- diff.rs:165-191 `get_lines_from_blob`. -/
def linesFromBlob (env : DiffEnv) : MaybeZero → Except DiffError BlobContents
  | .zero => .ok .absent
  | .nonZero oid =>
    match env.blob oid with
    | none => .error .error
    | some b =>
      if b.isBinary then .ok (.binary b.size)
      else
        match b.text with
        | none => .ok (.binary b.size)
        | some t => .ok (.text (splitInclusive t))

/-- A range of a vector (`&lines[start..end]`), which panics outside of it. -/
def sliceLines (lines : List Text) (start stop : Nat) : Except DiffError (List Text) :=
  if start ≤ stop ∧ stop ≤ lines.length then .ok ((lines.drop start).take (stop - start)) else .error .panic

/-- diff.rs:215-259: the lines to compare; or, for a binary file, the section for this hunk. -/
def hunkLines (env : DiffEnv) (delta : Delta) (before after : BlobContents) :
    (List Text × List Text) ⊕ FileSection :=
  let beforeLines : List Text ⊕ Text := match before with
    | .absent => .inl []
    | .text ls => .inl ls
    | .binary n => .inr (env.describe delta.oldOid n)
  let afterLines : List Text ⊕ Text := match after with
    | .absent => .inl []
    | .text ls => .inl ls
    | .binary n => .inr (env.describe delta.newOid n)
  match beforeLines, afterLines with
  | .inl b, .inl a => .inl (b, a)
  | .inr _, .inl a => .inl ([], a)
  | .inl _, .inr d => .inr (.binary false none (some d))
  | .inr o, .inr d => .inr (.binary false (some o) (some d))

/-- diff.rs:268-273: the lines are numbered from one. -/
def zeroBased (start lines : Nat) : Except DiffError (Nat × Bool) :=
  if start = 0 ∧ lines = 0 then .ok (0, true)
  else if start = 0 then .error .panic
  else .ok (start - 1, false)

/-- diff.rs:283-301: the unchanged lines before a hunk. -/
def unchangedBefore (before : List Text) (idx oldStart oldLines : Nat) (oldIsEmpty : Bool)
    (sections : List FileSection) : Except DiffError (Nat × List FileSection) :=
  if idx ≤ oldStart then
    let stop := if oldLines = 0 ∧ !oldIsEmpty then oldStart + 1 else oldStart
    match sliceLines before idx stop with
    | .error e => .error e
    | .ok ls => .ok (stop + oldLines, sections ++ [.unchanged ls])
  else .ok (idx, sections)

/-- diff.rs:260-354: one hunk of a text file. The state is the first line of the old file which is in no
section yet, and the sections. -/
def textHunk (before after : List Text) (st : Nat × List FileSection) (h : Hunk) :
    Except DiffError (Nat × List FileSection) := do
  let (oldStart, oldIsEmpty) ← zeroBased h.oldStart h.oldLines
  let (newStart, _) ← zeroBased h.newStart h.newLines
  let (idx, sections) ← unchangedBefore before st.1 oldStart h.oldLines oldIsEmpty st.2
  let removed ← sliceLines before oldStart (oldStart + h.oldLines)
  let added ← sliceLines after newStart (newStart + h.newLines)
  let lines := removed.map (ChangedLine.mk false .removed) ++ added.map (ChangedLine.mk false .added)
  if lines.isEmpty then .ok (idx, sections) else .ok (idx, sections ++ [.changed lines])

/-- diff.rs:206-355: one round of the loop over the hunks. -/
def hunkStep (env : DiffEnv) (delta : Delta) (before after : BlobContents) (st : Nat × List FileSection)
    (h : Hunk) : Except DiffError (Nat × List FileSection) :=
  match hunkLines env delta before after with
  | .inr s => .ok (st.1, st.2 ++ [s])
  | .inl (b, a) => textHunk b a st h

/-- diff.rs:357-367: the rest of the file. -/
def restOfFile (before : BlobContents) (st : Nat × List FileSection) : List FileSection :=
  match before with
  | .text ls => if st.1 < ls.length then st.2 ++ [.unchanged (ls.drop st.1)] else st.2
  | _ => st.2

/-- diff.rs:155: the order of the hunks. -/
def hunkLe (a b : Hunk) : Prop := a.oldStart < b.oldStart ∨ a.oldStart = b.oldStart ∧ a.oldLines ≤ b.oldLines

instance : DecidableRel hunkLe := fun a b => by unfold hunkLe; infer_instance

/-- diff.rs:108-384: one round of the loop over the files. -/
def processDelta (env : DiffEnv) (path : TreePath) (delta : Delta) : Except DiffError RecordFile :=
  if delta.newOid = .zero then
    .ok ⟨path, some delta.oldMode, [.fileMode false delta.oldMode 0]⟩
  else
    match delta.content with
    | .binary o n =>
      .ok ⟨path, some delta.oldMode,
        [.binary false (some (env.describe delta.oldOid o)) (some (env.describe delta.newOid n))]⟩
    | .hunks hs => do
      if env.addFails path then throw .error
      let before ← linesFromBlob env delta.oldOid
      let after ← linesFromBlob env delta.newOid
      let st ← (hs.insertionSort hunkLe).foldlM (hunkStep env delta before after) (0, [])
      let modeSection :=
        if delta.oldMode ≠ delta.newMode then [.fileMode false delta.oldMode delta.newMode] else []
      .ok ⟨path, some delta.oldMode, modeSection ++ restOfFile before st⟩

/-- diff.rs:27-385 `process_diff_for_record`. `order` is the order in which the entries of the map are
visited. -/
def processDiff (env : DiffEnv) (order : AMap TreePath Delta → List (TreePath × Delta))
    (diff : List FileDelta) : Except DiffError (List RecordFile) := do
  let deltas ← diff.foldlM collectDelta []
  let files ← (order deltas).mapM fun e => processDelta env e.1 e.2
  .ok (files.insertionSort fun a b => a.path ≤ b.path)

/-! ### the selected changes -/

/-- `scm_record::SelectedContents`. -/
inductive SelectedContents where
  | absent
  | unchanged
  | binary
  | present (contents : Text)
deriving DecidableEq

/-- The crate `scm-record`. -/
structure Recorder where
  /-- `Recorder::run`: the files after the user has made their choice; nothing if it was cancelled, or
  there was an error. -/
  run : List RecordFile → Option (List RecordFile)
  /-- `File::get_selected_contents` -/
  contents : RecordFile → SelectedContents
  /-- `File::get_file_mode` -/
  mode : RecordFile → Option Nat

/-- git/tree.rs:114-117 `get_oid_for_path`. -/
def oidForPath (treeId : Tree → Oid) (t : Tree) (p : TreePath) : Option Oid :=
  (getPath t p).map fun
    | .leaf _ o => o
    | .dir _ es => treeId es

/-- record/lib.rs:348-370: the mode which is staged. -/
def recordMode (rec : Recorder) (f : RecordFile) : FileMode :=
  match rec.mode f with
  | none => .blob
  | some m => if m < 2147483648 then .ofI32 m else .blob

/-- record/lib.rs:345-398: the command for one file. `hash` creates a blob. For a line with the mode zero,
`git update-index --index-info` removes the path, which is said here. -/
def recordCommand (rec : Recorder) (hash : Text → Oid) (treeId : Tree → Oid) (old new : Tree)
    (f : RecordFile) : Except DiffError IndexCommand :=
  let oid : Except DiffError (Option Oid) := match rec.contents f with
    | .absent => .ok none
    | .unchanged => .ok (oidForPath treeId old f.path)
    | .binary => match oidForPath treeId new f.path with
      | some o => .ok (some o)
      | none => .error .panic
    | .present t => .ok (some (hash t))
  match oid with
  | .error e => .error e
  | .ok none => .ok (.delete f.path)
  | .ok (some o) =>
    if recordMode rec f = .unreadable then .ok (.delete f.path)
    else .ok (.update f.path .stage0 (recordMode rec f).toI32.toNat o)

/-- How `record_interactive` ends, before `git commit`. -/
inductive SelectOutcome where
  | failed (e : DiffError)
  /-- record/lib.rs:316-339, exit code 1 -/
  | cancelled
  /-- The index, to be committed. -/
  | staged (index : GitIndex)

/-- record/lib.rs:250-417 `record_interactive`, up to `git commit`. The trees are those of the stage 0 and
of the unstaged changes of the snapshot; the message is not modelled. -/
def recordInteractive (env : DiffEnv) (rec : Recorder) (hash : Text → Oid) (treeId : Tree → Oid)
    (order : AMap TreePath Delta → List (TreePath × Delta)) (old new : Tree) (diff : List FileDelta)
    (index : GitIndex) : SelectOutcome :=
  match processDiff env order diff with
  | .error e => .failed e
  | .ok files =>
    match rec.run files with
    | none => .cancelled
    | some files =>
      match files.mapM (recordCommand rec hash treeId old new) with
      | .error e => .failed e
      | .ok commands => .staged (commands.foldl applyIndexCommand index)

end Verif
