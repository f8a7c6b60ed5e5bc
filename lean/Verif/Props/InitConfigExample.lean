import Verif.Props.InitVersion

/-! C92: examples for `init`, and what it does to the user's own aliases and included files. -/

namespace Verif.Props

open Verif Verif.Spec

/-- A repository with the branch `main`; the user has an alias `sl` for all repositories. -/
def exInitCommandEnv : InitCommandEnv where
  defaults := [(t!"alias.sl", t!"log --oneline"), (t!"init.defaultBranch", t!"develop")]
  included := fun p => if p = t!"branchless/mine" then [(t!"user.name", t!"Me")] else []
  findBranch := fun n => some (n = t!"main")
  input := t!"\n"
  gitVersion := some t!"git version 2.28.1.windows.1\n"
  hooks := ⟨t!".git/hooks", none, 0o644⟩
  opens := true

/-- A configuration file with an alias. -/
def exInitFiles : InitFiles where
  repo := [(t!"core.bare", t!"false"), (t!"alias.amend", t!"commit --amend")]
  isolated := none
  hooks := []

theorem exInit_not_installed : NotInstalled exInitFiles := by
  refine ⟨?_, rfl⟩
  decide +kernel

example : (commandInit exInitCommandEnv none exInitFiles).2 = .done true := by decide +kernel

example : (commandInit exInitCommandEnv none exInitFiles).1.isolated.map (·.take 4) =
    some [(t!"branchless.core.mainBranch", t!"main"), (t!"advice.detachedHead", t!"false"),
      (t!"log.excludeDecoration", t!"refs/branchless/*"), (t!"alias.amend", t!"branchless amend")] := by
  decide +kernel

example : getMainBranchName exInitCommandEnv (commandInit exInitCommandEnv none exInitFiles).1 = t!"main" := by decide +kernel

/-- The hypotheses of `init_fresh` and of `init_again` hold here. -/
example : ∃ s1 s2 w1 w2, commandInit exInitCommandEnv none exInitFiles = (s1, .done w1) ∧
    commandInit exInitCommandEnv none s1 = (s2, .done w2) := by
  have h1 : (commandInit exInitCommandEnv none exInitFiles).2 = .done true := by decide +kernel
  have h2 : (commandInit exInitCommandEnv none (commandInit exInitCommandEnv none exInitFiles).1).2 = .done true := by
    decide +kernel
  exact ⟨_, _, true, true, Prod.ext rfl h1, Prod.ext rfl h2⟩

/-- The alias `sl` which the user has for all repositories is kept. -/
example : getValue (readConfig exInitCommandEnv (commandInit exInitCommandEnv none exInitFiles).1) t!"alias.sl" =
    some t!"log --oneline" := by decide +kernel

/-- `init_succeeds` and `main_branch_chosen`. -/
example : MainIs exInitCommandEnv (readConfig exInitCommandEnv exInitFiles) none t!"main" := by
  rw [← main_branch_chosen]
  rfl

example : HooksReadable exInitCommandEnv.hooks exInitFiles.hooks := by
  intro h _ f hf
  cases hf

/-- Without a branch of a usual name and with a blank line, it fails, and only the entry for the isolated file
was added. -/
example : let env := { exInitCommandEnv with findBranch := fun _ => some false }
    (commandInit env none exInitFiles).2 = .noMainBranch ∧
    (commandInit env none exInitFiles).1.repo =
      exInitFiles.repo ++ [(t!"include.path", t!"branchless/config")] ∧
    (commandInit env (some t!"trunk") exInitFiles).2 = .done true := by decide +kernel

/-- What is typed is used otherwise. -/
example : let env := { exInitCommandEnv with findBranch := fun _ => some false, input := t!" stable \n" }
    (commandInit env none exInitFiles).2 = .done true ∧
    getMainBranchName env (commandInit env none exInitFiles).1 = t!"stable" := by decide +kernel

/-- A version without a third number is not understood; then the command fails after everything is installed. -/
example : (commandInit { exInitCommandEnv with gitVersion := some t!"git version 2.40\n" } none exInitFiles).2 =
    .versionError := by decide +kernel

/-- `old_git_warned`. -/
example : t!"git version 2.28.1.windows.1\n" = versionText 2 28 1 t!".windows.1\n" ∧
    VersionRest t!".windows.1\n" := ⟨by decide +kernel, .inr ⟨_, _, rfl, .inl rfl⟩⟩

example : parseGitVersion t!"git version 2.33.GIT" = some (2, 33, 0) := by decide +kernel

/-- `init_user_overrides`: a value which is set after installing. -/
example : let s := { (commandInit exInitCommandEnv none exInitFiles).1 with
      repo := (commandInit exInitCommandEnv none exInitFiles).1.repo ++ [(t!"alias.sw", t!"switch")] }
    getValue (readConfig exInitCommandEnv s) t!"alias.sw" = some t!"switch" ∧
    getValue (readConfig exInitCommandEnv (commandInit exInitCommandEnv none s).1) t!"alias.sw" = some t!"switch" := by
  decide +kernel

/-- Uninstalling. -/
example : let s := (commandUninstall exInitCommandEnv (commandInit exInitCommandEnv none exInitFiles).1).1
    s.repo = exInitFiles.repo ∧ s.isolated = none := by decide +kernel

/-- C92, what is not so: an alias which the user has in this repository is replaced, unlike one which the user
has for all repositories. -/
theorem repository_alias_replaced :
    ∃ (env : InitCommandEnv) (s s' : InitFiles) (w : Bool), NotInstalled s ∧
      commandInit env none s = (s', .done w) ∧
      ValueOf (readConfig env s) t!"alias.amend" t!"commit --amend" ∧
      ValueOf (readConfig env s') t!"alias.amend" t!"branchless amend" := by
  have h1 : (commandInit exInitCommandEnv none exInitFiles).2 = .done true := by decide +kernel
  refine ⟨exInitCommandEnv, exInitFiles, _, true, exInit_not_installed, Prod.ext rfl h1, ?_, ?_⟩
  · rw [← getValue_some]
    decide +kernel
  · rw [← getValue_some]
    decide +kernel

/-- C92, what is not so: a file under `.git/branchless` which the user includes is not included any more after
installing, and not after uninstalling either. -/
theorem user_include_lost :
    ∃ (env : InitCommandEnv) (s s' : InitFiles) (w : Bool), commandInit env none s = (s', .done w) ∧
      ValueOf (readConfig env s) t!"user.name" t!"Me" ∧ Unset (readConfig env s') t!"user.name" ∧
      Unset (readConfig env (commandUninstall env s').1) t!"user.name" := by
  have h1 : (commandInit exInitCommandEnv none { exInitFiles with repo := [(t!"include.path", t!"branchless/mine")] }).2 =
      .done true := by decide +kernel
  refine ⟨exInitCommandEnv, { exInitFiles with repo := [(t!"include.path", t!"branchless/mine")] }, _, true,
    Prod.ext rfl h1, ?_, ?_, ?_⟩
  · rw [← getValue_some]
    decide +kernel
  · rw [← getValue_none]
    decide +kernel
  · rw [← getValue_none]
    decide +kernel

end Verif.Props
