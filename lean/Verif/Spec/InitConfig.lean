import Verif.Model.InitConfig

/-! What `git branchless init` should do to the configuration. -/

namespace Verif.Spec

open Verif

/-- The value of a key: that of its last entry. -/
def ValueOf (c : ConfigFile) (key value : Text) : Prop :=
  ∃ before after, c = before ++ (key, value) :: after ∧ ∀ e ∈ after, e.1 ≠ key

/-- The key has no entry. -/
def Unset (c : ConfigFile) (key : Text) : Prop := ∀ e ∈ c, e.1 ≠ key

/-- No key has two entries. -/
def UniqueKeys (c : ConfigFile) : Prop := (c.map Prod.fst).Nodup

/-- An entry which includes a file under `branchless/`. -/
def OurInclude (e : Text × Text) : Prop := e.1 = t!"include.path" ∧ ∃ rest, e.2 = t!"branchless/" ++ rest

instance (e : Text × Text) : Decidable (OurInclude e) :=
  decidable_of_iff (isOurInclude e = true) (by
    unfold isOurInclude OurInclude includeMatches includeKey
    rw [Bool.and_eq_true, decide_eq_true_eq, List.isPrefixOf_iff_prefix]
    constructor
    · rintro ⟨h, r, hr⟩
      exact ⟨h, r, hr.symm⟩
    · rintro ⟨h, r, hr⟩
      exact ⟨h, r, hr.symm⟩)

/-- The user's own entries in the configuration file of the repository. -/
def ownEntries (c : ConfigFile) : ConfigFile := c.filter fun e => ¬OurInclude e

/-- The program was not installed before. -/
def NotInstalled (s : InitFiles) : Prop := (∀ e ∈ s.repo, ¬OurInclude e) ∧ s.isolated = none

/-- The branch which is taken for the main branch if none is given: the configured one for new repositories,
if there is such a branch, or the first of the usual ones, or what the user types. -/
inductive Detected (env : InitCommandEnv) (config : ConfigFile) : Text → Prop
  | default (name : Text) : ValueOf config t!"init.defaultBranch" name → env.findBranch name = some true →
      Detected env config name
  | usual (before after : List Text) (name : Text) :
      (∀ n, ValueOf config t!"init.defaultBranch" n → env.findBranch n = some false) →
      [t!"master", t!"main", t!"mainline", t!"devel", t!"develop", t!"development", t!"trunk"] =
        before ++ name :: after →
      (∀ n ∈ before, env.findBranch n = some false) → env.findBranch name = some true →
      Detected env config name
  | typed : (∀ n, ValueOf config t!"init.defaultBranch" n → env.findBranch n = some false) →
      (∀ n ∈ [t!"master", t!"main", t!"mainline", t!"devel", t!"develop", t!"development", t!"trunk"],
        env.findBranch n = some false) →
      trim env.input ≠ [] → Detected env config (trim env.input)

/-- The main branch: the given one, or the detected one. -/
def MainIs (env : InitCommandEnv) (config : ConfigFile) (given : Option Text) (name : Text) : Prop :=
  given = some name ∨ (given = none ∧ Detected env config name)

/-- The aliases: every command by its own name, and `sl` and `sw`. -/
def shortcuts : List (Text × Text) :=
  [t!"amend", t!"hide", t!"move", t!"next", t!"prev", t!"query", t!"record", t!"restack", t!"reword"].map
    (fun c => (c, c)) ++ (t!"sl", t!"smartlog") ::
  [t!"smartlog", t!"submit"].map (fun c => (c, c)) ++ (t!"sw", t!"switch") ::
  [t!"sync", t!"test", t!"undo", t!"unhide"].map fun c => (c, c)

/-- The values which the isolated file has for the keys of the program, for the given main branch. The aliases
are those which the user does not have already. -/
inductive OurValue (env : InitCommandEnv) (main : Text) : Text → Text → Prop
  | main : OurValue env main t!"branchless.core.mainBranch" main
  | detachedHead : OurValue env main t!"advice.detachedHead" t!"false"
  | decoration : OurValue env main t!"log.excludeDecoration" t!"refs/branchless/*"
  | shortcut (short command : Text) : (short, command) ∈ shortcuts → Unset env.defaults (t!"alias." ++ short) →
      OurValue env main (t!"alias." ++ short) (t!"branchless " ++ command)

/-- The keys which the program takes care of. -/
def OurKey (key : Text) : Prop :=
  key = t!"branchless.core.mainBranch" ∨ key = t!"advice.detachedHead" ∨ key = t!"log.excludeDecoration" ∨
    ∃ a ∈ shortcuts, key = t!"alias." ++ a.1

/-- The hooks can be updated: no file is in the way which is not UTF-8. -/
def HooksReadable (env : InitEnv) (hooks : HookFiles) : Prop :=
  ∀ h ∈ allHooks, ∀ f, AMap.get? hooks (env.hooksDir ++ ['/'] ++ h.1) = some f → f.contents ≠ none

/-- One of the commands `init` (with the name of the main branch, if given) and `init --uninstall`, however
it ends. -/
inductive InitStep where
  | init (env : InitCommandEnv) (given : Option Text)
  | uninstall (env : InitCommandEnv)

/-- The files after the command. -/
def InitStep.run : InitStep → InitFiles → InitFiles
  | .init env given, s => (commandInit env given s).1
  | .uninstall env, s => (commandUninstall env s).1

end Verif.Spec
