import Verif.Model.Basic
import Mathlib.Data.List.Dedup

/-!
git-branchless-lib/src/git/tree.rs, and the parts of git/repo.rs which work on trees: the paths touched by
a commit, the fast cherry-pick and the fast amend.

A tree object is modelled by its contents, and two trees have the same object id iff their contents are
the same (no collisions of SHA-1). That an object cannot be read or written is not modelled, nor are names
which git does not allow.
-/

namespace Verif

/-- What a tree entry points to, with the raw file mode of the entry: a blob (file or symbolic link) or a
submodule commit, or another tree. `git2::TreeEntry::kind` follows from the mode. -/
inductive Node where
  | leaf (mode : Nat) (oid : Oid)
  | dir (mode : Nat) (entries : List (Text × Node))

/-- The entries of a tree object; names occur at most once. The order of the entries is not modelled. -/
abbrev Tree := List (Text × Node)

/-- A path in a tree: its components. -/
abbrev TreePath := List Text

mutual
/-- Comparison of contents, in place of the comparison of object ids. -/
def Node.decEq : (a b : Node) → Decidable (a = b)
  | .leaf m o, .leaf m' o' =>
    if h : m = m' ∧ o = o' then isTrue (by rw [h.1, h.2])
    else isFalse (by intro e; cases e; exact h ⟨rfl, rfl⟩)
  | .leaf _ _, .dir _ _ => isFalse (by intro e; cases e)
  | .dir _ _, .leaf _ _ => isFalse (by intro e; cases e)
  | .dir m es, .dir m' es' =>
    match Node.decEqTree es es' with
    | isTrue h =>
      if hm : m = m' then isTrue (by rw [h, hm]) else isFalse (by intro e; cases e; exact hm rfl)
    | isFalse h => isFalse (by intro e; cases e; exact h rfl)
/-- The same for trees. -/
def Node.decEqTree : (a b : List (Text × Node)) → Decidable (a = b)
  | [], [] => isTrue rfl
  | [], _ :: _ => isFalse (by simp)
  | _ :: _, [] => isFalse (by simp)
  | (n, t) :: es, (n', t') :: es' =>
    if hn : n = n' then
      match Node.decEq t t' with
      | isTrue h =>
        match Node.decEqTree es es' with
        | isTrue h' => isTrue (by rw [hn, h, h'])
        | isFalse h' => isFalse (by intro e; cases e; exact h' rfl)
      | isFalse h => isFalse (by intro e; cases e; exact h rfl)
    else isFalse (by intro e; cases e; exact hn rfl)
end

instance : DecidableEq Node := Node.decEq

mutual
/-- How many trees are below each other. -/
def Node.depth : Node → Nat
  | .leaf _ _ => 0
  | .dir _ es => treeDepth es + 1
/-- The same for trees. -/
def treeDepth : List (Text × Node) → Nat
  | [] => 0
  | (_, t) :: es => max t.depth (treeDepth es)
end

/-- libgit2's `GIT_FILEMODE_TREE`. -/
def modeTree : Nat := 0o040000

/-- libgit2's `normalize_filemode`, which `git2::TreeEntry::filemode` applies. Converting the result to
`FileMode` and back (status.rs:91-121) changes nothing. -/
def normalizeMode (m : Nat) : Nat :=
  if m / 0o10000 = 0o04 then modeTree
  else if m &&& 0o111 ≠ 0 then 0o100755
  else if m / 0o10000 = 0o16 then 0o160000
  else if m / 0o10000 = 0o12 then 0o120000
  else 0o100644

/-- The entry as it is after reading its mode with `filemode()`. -/
def Node.normalize : Node → Node
  | .leaf m o => .leaf (normalizeMode m) o
  | .dir m es => .dir (normalizeMode m) es

/-- tree.rs:99-108 `Tree::get_path` (libgit2's `git_tree_entry_bypath`); `none` is "not found". -/
def getPath : Tree → TreePath → Option Node
  | _, [] => none
  | t, [n] => AMap.get? t n
  | t, n :: m :: p =>
    match AMap.get? t n with
    | some (.dir _ es) => getPath es (m :: p)
    | _ => none

/-! ### the paths which differ between two trees -/

/-- tree.rs:176-317: one round of the loop over the names. `rec` is the recursion. -/
def changedEntry (rec : TreePath → Tree → Tree → List TreePath) (cur : TreePath) (l r : Tree)
    (n : Text) : List TreePath :=
  let full := cur ++ [n]
  match AMap.get? l n, AMap.get? r n with
  | none, none => []
  | some (.leaf m o), some (.leaf m' o') => if o = o' ∧ m = m' then [] else [full]
  | none, some (.leaf _ _) => [full]
  | some (.leaf _ _), none => [full]
  | none, some (.dir _ es) => rec full es []
  | some (.dir _ es), none => rec full es []
  | some (.leaf _ _), some (.dir _ es) => rec full es [] ++ [full]
  | some (.dir _ es), some (.leaf _ _) => rec full es [] ++ [full]
  | some (.dir m es), some (.dir m' es') =>
    if es = es' then
      if m = m' then [] else [full]
    else if m = m' then rec full es es'
    else rec full es es' ++ [full]

/-- tree.rs:136-330 `get_changed_paths_between_trees_internal`; a missing tree is treated like an empty
one. The fuel bounds the depth of the recursion. The order in which the names are visited does not matter,
since the result is put into a set. -/
def changedPathsInternal : Nat → TreePath → Tree → Tree → List TreePath
  | 0, _, _, _ => []
  | fuel + 1, cur, l, r =>
    (AMap.keys l ++ AMap.keys r).dedup.flatMap (changedEntry (changedPathsInternal fuel) cur l r)

/-- tree.rs:336-351 `get_changed_paths_between_trees`. -/
def getChangedPathsBetweenTrees (l r : Tree) : List TreePath :=
  (changedPathsInternal (treeDepth l + treeDepth r + 1) [] l r).dedup

/-! ### writing to trees -/

/-- tree.rs:469-487 `remove_entry_if_exists`. -/
def removeEntryIfExists (b : Tree) (n : Text) : Tree :=
  if (AMap.get? b n).isSome then AMap.erase b n else b

/-- The two maps of tree.rs:375-395. -/
structure HydrateEntries where
  files : AMap Text (Option Node)
  dirs : AMap Text (AMap TreePath (Option Node))

/-- tree.rs:379-393: one round of the loop. -/
def splitEntry (s : HydrateEntries) (e : TreePath × Option Node) : HydrateEntries :=
  match e.1 with
  | [] => s
  | [n] => { s with files := AMap.insert s.files n e.2 }
  | n :: rest => { s with dirs := AMap.insert s.dirs n (AMap.insert ((AMap.get? s.dirs n).getD []) rest e.2) }

/-- tree.rs:402-415: one round of the loop over the entries directly in this tree. -/
def hydrateFile (b : Tree) (e : Text × Option Node) : Tree :=
  match e.2 with
  | some node => AMap.insert b e.1 node
  | none => removeEntryIfExists b e.1

/-- tree.rs:418-434: the directory which is there already. -/
def entriesOf : Option Node → Tree
  | some (.dir _ es) => es
  | _ => []

/-- tree.rs:417-453: one round of the loop over the directories. `rec` is the recursion. -/
def hydrateDir (rec : Tree → AMap TreePath (Option Node) → Tree) (b : Tree)
    (e : Text × AMap TreePath (Option Node)) : Tree :=
  let new := rec (entriesOf (AMap.get? b e.1)) e.2
  if new = [] then removeEntryIfExists b e.1 else AMap.insert b e.1 (.dir modeTree new)

/-- tree.rs:370-457 `hydrate_tree`; no tree is the empty tree. The entries are a map from paths to an
object and its mode. The fuel bounds the depth of the recursion; the order of the entries does not matter,
since each name occurs at most once in either loop. -/
def hydrate : Nat → Tree → AMap TreePath (Option Node) → Tree
  | 0, t, _ => t
  | fuel + 1, t, entries =>
    let s := entries.foldl splitEntry ⟨[], []⟩
    let b := s.files.foldl hydrateFile t
    s.dirs.foldl (hydrateDir (hydrate fuel)) b

/-- tree.rs:370-457 `hydrate_tree`. -/
def hydrateTree (t : Tree) (entries : AMap TreePath (Option Node)) : Tree :=
  hydrate ((entries.map fun e => e.1.length).foldl max 0 + 1) t entries

/-- tree.rs:492-515 `dehydrate_tree`. The paths are distinct (they come from a set). -/
def dehydrateTree (t : Tree) (paths : List TreePath) : Tree :=
  hydrateTree [] (paths.map fun p => (p, (getPath t p).map Node.normalize))

/-! ### commits -/

/-- A commit: its tree, and the trees of its parents. -/
structure TreeCommit where
  tree : Tree
  parents : List Tree

/-- repo.rs:899-917 `get_paths_touched_by_commit`. -/
def TreeCommit.pathsTouched (c : TreeCommit) : List TreePath :=
  if c.parents = [] then getChangedPathsBetweenTrees [] c.tree
  else (c.parents.flatMap fun p => getChangedPathsBetweenTrees p c.tree).dedup

/-- repo.rs:1435-1476 `dehydrate_commit`. -/
def TreeCommit.dehydrate (c : TreeCommit) (paths : List TreePath) (baseOnParent : Bool) : TreeCommit where
  tree := dehydrateTree c.tree paths
  parents :=
    if baseOnParent then
      match c.parents with
      | [p] => [dehydrateTree p paths]
      | _ => []
    else []

/-- A file: mode and contents. -/
abbrev File := Nat × Oid

mutual
/-- The paths of all files in an entry. -/
def Node.filePaths : Node → List TreePath
  | .leaf _ _ => [[]]
  | .dir _ es => treeFilePaths es
/-- The paths of all files in a tree. -/
def treeFilePaths : List (Text × Node) → List TreePath
  | [] => []
  | (n, t) :: es => t.filePaths.map (n :: ·) ++ treeFilePaths es
end

/-- The file with a path. -/
def getFile (t : Tree) (p : TreePath) : Option File :=
  match getPath t p with
  | some (.leaf m o) => some (m, o)
  | _ => none

/-- The three-way merge of one file. `content` merges the contents when both sides changed (with or without
a common ancestor); `none` is a conflict. -/
def mergeFile (content : Option File → File → File → Option File) (base ours theirs : Option File) :
    Option (Option File) :=
  if ours = theirs then some ours
  else if base = ours then some theirs
  else if base = theirs then some ours
  else
    match ours, theirs with
    | some o, some t => (content base o t).map some
    | _, _ => none

/-- Whether a path is strictly below another one. -/
def strictlyBelow : TreePath → TreePath → Bool
  | [], _ :: _ => true
  | x :: p, y :: q => x = y && strictlyBelow p q
  | _, _ => false

/-- libgit2's `git_merge_trees` without detection of renames: the files of the resulting index, or the
paths of the conflicts. A file and a directory cannot have the same path. -/
def mergeTrees (content : Option File → File → File → Option File) (base ours theirs : Tree) :
    Except (List TreePath) (AMap TreePath File) :=
  let paths := (treeFilePaths base ++ treeFilePaths ours ++ treeFilePaths theirs).dedup
  let merged := fun p => mergeFile content (getFile base p) (getFile ours p) (getFile theirs p)
  let present := fun p => merged p ≠ some none
  let conflicts := paths.filter fun p =>
    merged p = none || (present p && paths.any fun q => present q && (strictlyBelow p q || strictlyBelow q p))
  if conflicts = [] then
    .ok (paths.filterMap fun p =>
      match merged p with
      | some (some f) => some (p, f)
      | _ => none)
  else .error conflicts

/-- repo.rs:1289-1302 `cherry_pick_commit` (libgit2's `git_cherrypick_commit` with `mainline` 0), for a
commit with at most one parent. -/
def cherryPickCommit (content : Option File → File → File → Option File) (patch ours : TreeCommit) :
    Except (List TreePath) (AMap TreePath File) :=
  mergeTrees content (patch.parents.headD []) ours.tree patch.tree

/-- repo.rs:1395-1421: an entry of the index. (The modes in an index are among those which `FileMode`
knows, so that converting them changes nothing.) -/
def indexNode (index : AMap TreePath File) (p : TreePath) : Option Node :=
  (AMap.get? index p).map fun f => .leaf f.1 f.2

/-- repo.rs:397-430 `CreateCommitFastError`: conflicts, or any other error. -/
inductive FastTreeError where
  | mergeConflict (paths : List TreePath)
  | other
deriving DecidableEq

/-- repo.rs:1314-1433 `cherry_pick_fast`. -/
def cherryPickFast (content : Option File → File → File → Option File) (reuse : Bool)
    (patch target : TreeCommit) : Except FastTreeError Tree :=
  if reuse && patch.parents = [target.tree] then .ok patch.tree
  else
    let changed := patch.pathsTouched
    match cherryPickCommit content (patch.dehydrate changed true) (target.dehydrate changed false) with
    | .error conflicts => .error (.mergeConflict conflicts)
    | .ok index => .ok (hydrateTree target.tree (changed.map fun p => (p, indexNode index p)))

/-- A file of the working copy: the blob with its contents; or a symbolic link: the blob with the text of
the link, as git stores it, and the file to which it leads (links out of the working copy and to
directories are not modelled). -/
inductive WorkFile where
  | file (blob : Oid)
  | link (blob : Oid) (target : TreePath)
deriving DecidableEq

/-- The files of the working copy. -/
abbrev WorkingCopy := AMap TreePath WorkFile

/-- `std::fs::read`: it follows symbolic links (up to 40, as in Linux). A path below a file
(`NotADirectory`) or of a directory (`IsADirectory`) is an error, as are loops of links; `none` is
`NotFound`. -/
def readWorkFile (wc : WorkingCopy) : Nat → TreePath → Except Unit (Option Oid)
  | 0, _ => .error ()
  | fuel + 1, p =>
    match AMap.get? wc p with
    | some (.file blob) => .ok (some blob)
    | some (.link _ target) => readWorkFile wc fuel target
    | none =>
      if (AMap.keys wc).any fun q => strictlyBelow q p || strictlyBelow p q then .error ()
      else .ok none

/-- repo.rs:1222-1247 `create_blob_from_path`. -/
def createBlobFromPath (wc : WorkingCopy) (p : TreePath) : Except Unit (Option Oid) := readWorkFile wc 41 p

/-- repo.rs:432-450 `AmendFastOptions`, with what is read later. -/
inductive AmendFastOptions where
  /-- The entries of the index. -/
  | fromIndex (paths : List TreePath) (index : AMap TreePath File)
  /-- The paths and modes of the working copy in the status, and the working copy. -/
  | fromWorkingCopy (status : AMap TreePath Nat) (wc : WorkingCopy)
  | fromCommit (commit : TreeCommit)

/-- repo.rs:1528-1544: the paths. -/
def AmendFastOptions.paths : AmendFastOptions → List TreePath
  | .fromIndex paths _ => paths
  | .fromWorkingCopy status _ => AMap.keys status
  | .fromCommit c => c.pathsTouched

/-- repo.rs:1562-1574: one entry from the working copy. -/
def workingCopyEntry (wc : WorkingCopy) (e : TreePath × Nat) : Except FastTreeError (TreePath × Option Node) :=
  match createBlobFromPath wc e.1 with
  | .error () => .error .other
  | .ok blob => .ok (e.1, blob.map fun o => .leaf e.2 o)

/-- repo.rs:1558-1612: the new entries. -/
def AmendFastOptions.newEntries (content : Option File → File → File → Option File)
    (parent : TreeCommit) : AmendFastOptions → Except FastTreeError (AMap TreePath (Option Node))
  | .fromIndex paths index => .ok (paths.map fun p => (p, indexNode index p))
  | .fromWorkingCopy status wc => status.mapM (workingCopyEntry wc)
  | .fromCommit c =>
    match cherryPickFast content false c parent with
    | .error e => .error e
    | .ok amended => .ok (c.pathsTouched.filterMap fun p =>
        (getPath amended p).map fun e => (p, some e.normalize))

/-- repo.rs:1523-1636 `amend_fast`. -/
def amendFast (content : Option File → File → File → Option File) (parent : TreeCommit)
    (opts : AmendFastOptions) : Except FastTreeError Tree :=
  let changed := (parent.pathsTouched ++ opts.paths).dedup
  let dehydratedParent := dehydrateTree parent.tree changed
  match opts.newEntries content parent with
  | .error e => .error e
  | .ok new =>
    .ok (hydrateTree parent.tree (changed.map fun p =>
      (p, (AMap.get? new p).getD ((getPath dehydratedParent p).map Node.normalize))))

end Verif
