import Verif.Model.TestRun
import Verif.Model.Plan

/-!
The options of `git test`: git-branchless-test/src/lib.rs:148-201 `resolve_test_command_alias` and lib.rs:218-455
`ResolvedTestOptions::resolve`. The messages are not modelled, apart from which one it is. The verbosity is passed on
as it is and left out here.
-/

namespace Verif.TestRun

open Verif.Bisect

/-- git-branchless-opts/src/lib.rs:746-758 `TestExecutionStrategy`. -/
inductive ExecutionStrategy where
  | workingCopy
  | worktree
deriving DecidableEq, Repr

/-- lib.rs:103-146 `RawTestOptions`, and of the options for moving commits those which are used. -/
structure RawTestOptions where
  exec : Option Text
  command : Option Text
  dryRun : Bool
  strategy : Option ExecutionStrategy
  search : Option StrategyKind
  bisect : Bool
  noCache : Bool
  interactive : Bool
  jobs : Option Nat
  applyFixes : Bool
  moveOnDisk : Bool
  moveForceRewritePublicCommits : Bool
  moveDetectDuplicateCommits : Bool

/-- The configuration and the environment. An inner `none` says that there is no value, an outer one that reading it
is an error. -/
structure TestConfig where
  /-- `branchless.test.alias.<name>`; errors count as no value (lib.rs:155). -/
  alias_ : Text → Option Text
  /-- `branchless.test.strategy` -/
  strategy : Option (Option Text)
  /-- `branchless.test.jobs` -/
  jobs : Option (Option Int)
  /-- `branchless.restack.preserveTimestamps` can be read. -/
  preserveTimestampsOk : Bool
  /-- The environment variable `SHELL`. -/
  shell : Option Text
  /-- The number of CPUs (`num_cpus::get_physical`). -/
  cpus : Nat

/-- lib.rs:203-216 `ResolvedTestOptions`. -/
structure ResolvedTestOptions where
  command : Text
  strategy : ExecutionStrategy
  search : Option StrategyKind
  dryRun : Bool
  useCache : Bool
  interactive : Bool
  numJobs : Nat
  fix : Option RebasePlanPermissions

/-- Why the options are not accepted. -/
inductive OptionsStop where
  /-- An `eyre` error. -/
  | error
  | panic
  /-- lib.rs:160-199, exit code 1: the alias is not defined (`none`: the default one). -/
  | noCommand (alias_ : Option Text)
  /-- lib.rs:279-290, exit code 1. -/
  | invalidStrategy
  /-- lib.rs:304-309, exit code 1. -/
  | invalidJobs
  /-- lib.rs:334-342, exit code 1. -/
  | interactiveJobs
  /-- lib.rs:348-355, exit code 1. -/
  | workingCopyJobs
  /-- lib.rs:360-366, exit code 1: "BUG". -/
  | interactiveBug
  /-- lib.rs:394-400, exit code 1. -/
  | onDisk
  | planner (e : BuildRebasePlanError)
deriving DecidableEq

/-- Equality up to the case of ASCII letters (`str::eq_ignore_ascii_case`). -/
def eqIgnoreCase (a b : Text) : Bool := a.map Char.toLower = b.map Char.toLower

/-- `TestExecutionStrategy::from_str` without regard to case (clap): the names of the two strategies. -/
def ExecutionStrategy.parse (t : Text) : Option ExecutionStrategy :=
  if eqIgnoreCase t!"working-copy" t then some .workingCopy
  else if eqIgnoreCase t!"worktree" t then some .worktree
  else none

/-- lib.rs:148-201 `resolve_test_command_alias`. -/
def resolveAlias (config : TestConfig) (name : Option Text) : Except OptionsStop Text :=
  match config.alias_ (name.getD t!"default") with
  | some command => .ok command
  | none => .error (.noCommand name)

/-- lib.rs:245-268: the command. -/
def resolveCommand (config : TestConfig) (o : RawTestOptions) : Except OptionsStop Text :=
  match o.exec, o.command with
  | some command, none => .ok command
  | none, none =>
    match o.interactive, config.shell with
    | true, some shell => .ok shell
    | _, _ => resolveAlias config none
  | none, some name => resolveAlias config (some name)
  | some _, some _ => .error .panic

/-- lib.rs:269-296: the strategy which is asked for or configured. -/
def configuredStrategy (config : TestConfig) (o : RawTestOptions) : Except OptionsStop ExecutionStrategy :=
  match o.strategy with
  | some s => .ok s
  | none =>
    match config.strategy with
    | none => .error .error
    | some none => .ok .workingCopy
    | some (some t) =>
      match ExecutionStrategy.parse t with
      | some s => .ok s
      | none => .error .invalidStrategy

/-- lib.rs:298-312: the number of jobs which is configured. -/
def configuredJobs (config : TestConfig) : Except OptionsStop (Option Nat) :=
  match config.jobs with
  | none => .error .error
  | some none => .ok none
  | some (some n) => if n < 0 then .error .invalidJobs else .ok (some n.toNat)

/-- lib.rs:313-358: how many jobs, where, and whether they are interactive. -/
def resolveJobs (o : RawTestOptions) (strategy : ExecutionStrategy) (jobs : Option Nat) :
    Except OptionsStop (Nat × ExecutionStrategy × Bool) :=
  match o.jobs with
  | none =>
    match o.strategy, o.interactive with
    | some .workingCopy, interactive => .ok (1, .workingCopy, interactive)
    | some .worktree, true => .ok (1, .worktree, true)
    | some .worktree, false => .ok (jobs.getD 1, .worktree, false)
    | none, true => .ok (1, strategy, true)
    | none, false => .ok (jobs.getD 1, strategy, false)
  | some 1 => .ok (1, strategy, o.interactive)
  | some n =>
    if o.interactive then .error .interactiveJobs
    else
      match o.strategy with
      | none | some .worktree => .ok (n, .worktree, false)
      | some .workingCopy => .error .workingCopyJobs

/-- lib.rs:375-431: what is needed to apply fixes. -/
def resolveFix (config : TestConfig) (d : Dag) (commits : List Oid) (o : RawTestOptions) :
    Except OptionsStop (Option RebasePlanPermissions) :=
  if o.applyFixes then
    if o.moveOnDisk then .error .onDisk
    else if !config.preserveTimestampsOk then .error .error
    else
      match verifyRewriteSet d o.moveForceRewritePublicCommits o.moveDetectDuplicateCommits commits with
      | .error e => .error (.planner e)
      | .ok permissions => .ok (some permissions)
  else .ok none

/-- lib.rs:220-455 `ResolvedTestOptions::resolve`. -/
def resolveTestOptions (config : TestConfig) (d : Dag) (commits : List Oid) (o : RawTestOptions) :
    Except OptionsStop ResolvedTestOptions :=
  match resolveCommand config o with
  | .error e => .error e
  | .ok command =>
    match configuredStrategy config o with
    | .error e => .error e
    | .ok strategy =>
      match configuredJobs config with
      | .error e => .error e
      | .ok jobs =>
        match resolveJobs o strategy jobs with
        | .error e => .error e
        | .ok (n, strategy, interactive) =>
          if interactive ≠ o.interactive then .error .interactiveBug
          else
            let n := if n = 0 then config.cpus else n
            if n = 0 then .error .panic
            else
              match resolveFix config d commits o with
              | .error e => .error e
              | .ok fix =>
                .ok
                  { command
                    strategy
                    search := if o.bisect then some .binary else o.search
                    dryRun := o.dryRun
                    useCache := !o.noCache
                    interactive
                    numJobs := n
                    fix }

/-- lib.rs:1041-1078 `abbreviate_lines`, for a file which was read (lines.rs `lines`), with all of it (`full`) or
only a part. -/
def abbreviateLines (full : Bool) (lines : List Text) : List Text :=
  let missing := lines.length - 2 * 5
  if lines.isEmpty then [t!"<no output>"]
  else if missing = 0 || full then lines
  else lines.take 5 ++ [t!"<" ++ natToText missing ++ t!" more lines>"] ++ lines.drop (lines.length - 5)

/-- lib.rs:1131-1144 `shell_escape`. -/
def shellEscape (s : Text) : Text :=
  t!"\"" ++ (s.flatMap fun c =>
    if c = '"' then ['\\', '"'] else if c = '\\' then ['\\', '\\', '\\', '\\'] else [c]) ++ t!"\""

end Verif.TestRun
