import Verif.Model.Init
import Verif.Model.Text

/-!
The command `init`: git-branchless-init/src/lib.rs. The configuration, the main branch, the aliases and the
version of Git, and the whole command. The man pages (a feature which is off by default) and the messages are
not modelled.
-/

namespace Verif

/-- A configuration file: its entries in their order. The names of keys are compared as they are (in Git,
without regard to the case of the section and the last part), and a value without `=` is not modelled. -/
abbrev ConfigFile := List (Text × Text)

/-- git/config.rs:85-103 `get_from_config` for a text: the last entry with the key. -/
def getValue (c : ConfigFile) (key : Text) : Option Text := (c.reverse.find? (·.1 = key)).map (·.2)

/-- How often the key occurs. -/
def countKey (c : ConfigFile) (key : Text) : Nat := c.countP (·.1 = key)

/-- git/config.rs:258-268 `set_inner`: libgit2 refuses to set a key which has several entries (`none`). A new
entry is put at the end (in libgit2, at the end of its section). -/
def setValue (c : ConfigFile) (key value : Text) : Option ConfigFile :=
  if 1 < countKey c key then none
  else if countKey c key = 1 then some (c.map fun e => if e.1 = key then (key, value) else e)
  else some (c ++ [(key, value)])

/-- git/config.rs:271-277 `remove_inner`: the key has to have exactly one entry. -/
def removeValue (c : ConfigFile) (key : Text) : Option ConfigFile :=
  if countKey c key = 1 then some (c.filter (·.1 ≠ key)) else none

/-- The key of an included file. -/
def includeKey : Text := t!"include.path"

/-- lib.rs:527 `INCLUDE_PATH_REGEX`, which is `^branchless/`. -/
def includeMatches (v : Text) : Bool := t!"branchless/".isPrefixOf v

/-- An entry for which `set_multivar` and `remove_multivar` are called (lib.rs:562, lib.rs:586). -/
def isOurInclude (e : Text × Text) : Bool := e.1 = includeKey && includeMatches e.2

/-- lib.rs:548-561: the path of the isolated file, relative to the directory `.git`. -/
def isolatedPath : Text := t!"branchless/config"

/-- git/config.rs:280-284 `set_multivar_inner`, for the key and the pattern of `create_isolated_config`:
libgit2 replaces all values which match, and appends an entry to the file if there is none. -/
def setInclude (c : ConfigFile) : ConfigFile :=
  if c.any isOurInclude then c.map fun e => if isOurInclude e then (includeKey, isolatedPath) else e
  else c ++ [(includeKey, isolatedPath)]

/-- git/config.rs:287-298 `remove_multivar_inner`, for the same key and pattern. -/
def removeInclude (c : ConfigFile) : ConfigFile := c.filter fun e => !isOurInclude e

/-- lib.rs:87-105 `ALL_ALIASES`. -/
def allAliases : List (Text × Text) :=
  [(t!"amend", t!"amend"), (t!"hide", t!"hide"), (t!"move", t!"move"), (t!"next", t!"next"),
    (t!"prev", t!"prev"), (t!"query", t!"query"), (t!"record", t!"record"), (t!"restack", t!"restack"),
    (t!"reword", t!"reword"), (t!"sl", t!"smartlog"), (t!"smartlog", t!"smartlog"), (t!"submit", t!"submit"),
    (t!"sw", t!"switch"), (t!"sync", t!"sync"), (t!"test", t!"test"), (t!"undo", t!"undo"),
    (t!"unhide", t!"unhide")]

/-- The files which the command writes: the configuration file of the repository, the isolated file under
`.git/branchless`, and the hooks. -/
structure InitFiles where
  repo : ConfigFile
  isolated : Option ConfigFile
  hooks : HookFiles

/-- What the command depends on. -/
structure InitCommandEnv where
  /-- The entries of the system's and the user's configuration (`open_default`, git/config.rs:250-256). -/
  defaults : ConfigFile
  /-- The entries of the other files which the configuration includes, by their paths. -/
  included : Text → ConfigFile
  /-- Whether there is a local branch of this name; `none` is an error. -/
  findBranch : Text → Option Bool
  /-- The line which the user types. -/
  input : Text
  /-- What `git version` prints, if it succeeds and is UTF-8. -/
  gitVersion : Option Text
  /-- The hooks. -/
  hooks : InitEnv
  /-- Whether opening the database and the graph of commits succeeds (lib.rs:629-646). -/
  opens : Bool

/-- The file for a path in `include.path`. -/
def includedFile (env : InitCommandEnv) (s : InitFiles) (path : Text) : ConfigFile :=
  if path = isolatedPath then s.isolated.getD [] else env.included path

/-- The entries of the configuration file of the repository; those of an included file come after the entry
which includes it. -/
def repoEntries (env : InitCommandEnv) (s : InitFiles) : ConfigFile :=
  s.repo.flatMap fun e => e :: if e.1 = includeKey then includedFile env s e.2 else []

/-- git/repo.rs:603-607 `get_readonly_config`: all entries, with those of the highest priority last. (The
file `config.worktree` and variables of the environment are not modelled.) -/
def readConfig (env : InitCommandEnv) (s : InitFiles) : ConfigFile := env.defaults ++ repoEntries env s

/-- core/config.rs:155-160 `get_default_branch_name`. -/
def getDefaultBranchName (env : InitCommandEnv) (s : InitFiles) : Option Text :=
  getValue (readConfig env s) t!"init.defaultBranch"

/-- core/config.rs:71-88 `get_main_branch_name`. -/
def getMainBranchName (env : InitCommandEnv) (s : InitFiles) : Text :=
  match getValue (readConfig env s) t!"branchless.core.mainBranch" with
  | some name => name
  | none =>
    match getValue (readConfig env s) t!"branchless.mainBranch" with
    | some name => name
    | none =>
      match getDefaultBranchName env s with
      | some name => name
      | none => t!"master"

/-- lib.rs:361-369 -/
def usualMainBranches : List Text :=
  [t!"master", t!"main", t!"mainline", t!"devel", t!"develop", t!"development", t!"trunk"]

/-- lib.rs:361-374: the loop. `none` is an error. -/
def firstBranch (env : InitCommandEnv) : List Text → Option (Option Text)
  | [] => some none
  | n :: ns =>
    match env.findBranch n with
    | none => none
    | some true => some (some n)
    | some false => firstBranch env ns

/-- lib.rs:352-376 `detect_main_branch_name`; `none` is an error. -/
def detectMainBranchName (env : InitCommandEnv) (s : InitFiles) : Option (Option Text) :=
  match getDefaultBranchName env s with
  | some name =>
    match env.findBranch name with
    | none => none
    | some true => some (some name)
    | some false => firstBranch env usualMainBranches
  | none => firstBranch env usualMainBranches

/-- How the command ends. -/
inductive InitOutcome where
  /-- Successfully; with whether it was warned that the version of Git is too old for `git undo`. -/
  | done (warned : Bool)
  /-- A branch could not be looked up. -/
  | branchError
  /-- No name of the main branch was given. -/
  | noMainBranch
  /-- An entry of the isolated file could not be set or removed. -/
  | configError
  /-- A hook could not be updated. -/
  | hookError
  /-- The version of Git could not be found. -/
  | versionError
  /-- The database could not be opened. -/
  | databaseError
deriving DecidableEq

/-- lib.rs:472-515: the name of the main branch. -/
def chooseMainBranch (env : InitCommandEnv) (s : InitFiles) (given : Option Text) : Except InitOutcome Text :=
  match given with
  | some name => .ok name
  | none =>
    match detectMainBranchName env s with
    | none => .error .branchError
    | some (some name) => .ok name
    | some none => if trim env.input = [] then .error .noMainBranch else .ok (trim env.input)

/-- Several values are set, until one fails; what was set before stays. -/
def setValues : ConfigFile → List (Text × Text) → ConfigFile × Bool
  | c, [] => (c, true)
  | c, (k, v) :: kvs =>
    match setValue c k v with
    | none => (c, false)
    | some c => setValues c kvs

/-- lib.rs:517-519: the values which `set_configs` sets. -/
def configValues (main : Text) : List (Text × Text) :=
  [(t!"branchless.core.mainBranch", main), (t!"advice.detachedHead", t!"false"),
    (t!"log.excludeDecoration", t!"refs/branchless/*")]

/-- lib.rs:318-349 `install_alias`. The second component is whether it succeeded. -/
def installAlias (defaults c : ConfigFile) (a : Text × Text) : ConfigFile × Bool :=
  let key := t!"alias." ++ a.1
  let removed := if (getValue c key).isSome then removeValue c key else some c
  match removed with
  | none => (c, false)
  | some c =>
    if (getValue defaults key).isSome then (c, true)
    else match setValue c key (t!"branchless " ++ a.2) with
      | none => (c, false)
      | some c => (c, true)

/-- lib.rs:387-389: the loop over the aliases. -/
def installAliasesLoop (defaults : ConfigFile) : ConfigFile → List (Text × Text) → ConfigFile × Bool
  | c, [] => (c, true)
  | c, a :: as =>
    match installAlias defaults c a with
    | (c, true) => installAliasesLoop defaults c as
    | (c, false) => (c, false)

/-- git/repo.rs:363-386 `GitVersion::from_str`, after the words have been split. -/
def parseVersionParts : List Text → Option (Int × Int × Int)
  | major :: minor :: patch :: _ =>
    match parseIsize major, parseIsize minor with
    | some a, some b => some (a, b, (parseIsize patch).getD 0)
    | _, _ => none
  | _ => none

/-- Rust `str::split` at spaces and hyphens. -/
def splitWords (t : Text) : List Text := (splitChar ' ' t).flatMap (splitChar '-')

/-- git/repo.rs:363-386 `GitVersion::from_str`. -/
def parseGitVersion (output : Text) : Option (Int × Int × Int) :=
  match splitWords (trim output) with
  | _ :: _ :: version :: _ => parseVersionParts (splitChar '.' version)
  | _ => none

/-- git/repo.rs:355-357: the order of `GitVersion`, which compares the components one after another. -/
def versionLt (a b : Int × Int × Int) : Bool :=
  a.1 < b.1 || (a.1 = b.1 && (a.2.1 < b.2.1 || (a.2.1 = b.2.1 && a.2.2 < b.2.2)))

/-- lib.rs:602-658 `command_init`, with lib.rs:533-571 `create_isolated_config`, lib.rs:464-522
`set_configs` and lib.rs:378-422 `install_aliases`. -/
def commandInit (env : InitCommandEnv) (given : Option Text) (s : InitFiles) : InitFiles × InitOutcome :=
  let s := { s with repo := setInclude s.repo }
  match chooseMainBranch env s given with
  | .error e => (s, e)
  | .ok main =>
    match setValues (s.isolated.getD []) (configValues main) with
    | (c, false) => ({ s with isolated := some c }, .configError)
    | (c, true) =>
      match installHooks env.hooks s.hooks with
      | (hooks, false) => ({ s with isolated := some c, hooks }, .hookError)
      | (hooks, true) =>
        match installAliasesLoop env.defaults c allAliases with
        | (c, false) => ({ s with isolated := some c, hooks }, .configError)
        | (c, true) =>
          let s := { s with isolated := some c, hooks }
          match env.gitVersion.bind fun t => parseGitVersion (trim t) with
          | none => (s, .versionError)
          | some v => if env.opens then (s, .done (versionLt v (2, 29, 0))) else (s, .databaseError)

/-- lib.rs:661-668 `command_uninstall`, with lib.rs:573-599 `delete_isolated_config`. Deleting the file does
not fail, whether it is there or not. The second component is whether the command succeeds. -/
def commandUninstall (env : InitCommandEnv) (s : InitFiles) : InitFiles × Bool :=
  let s := { s with repo := removeInclude s.repo, isolated := none }
  match uninstallHooks env.hooks s.hooks with
  | (hooks, ok) => ({ s with hooks }, ok)

end Verif
