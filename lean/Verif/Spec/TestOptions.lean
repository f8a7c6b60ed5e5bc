import Verif.Model.TestOptions

/-! What the options of `git test` mean, and how a shell reads a word in double quotes. -/

namespace Verif.Spec

open Verif.TestRun Verif.Bisect

/-- The command which is asked for: the one given with `--exec`, the one with the given alias, or else the shell of the
user if it is to be interactive, or else the default command. -/
inductive MeansCommand (config : TestConfig) (o : RawTestOptions) : Text → Prop
  | exec {t : Text} (h : o.exec = some t) (h' : o.command = none) : MeansCommand config o t
  | named {name t : Text} (h : o.exec = none) (h' : o.command = some name) (ha : config.alias_ name = some t) :
      MeansCommand config o t
  | shell {t : Text} (h : o.exec = none) (h' : o.command = none) (hi : o.interactive = true)
      (hs : config.shell = some t) : MeansCommand config o t
  | default {t : Text} (h : o.exec = none) (h' : o.command = none) (hi : o.interactive = true → config.shell = none)
      (ha : config.alias_ t!"default" = some t) : MeansCommand config o t

/-- The names of the strategies in the configuration, in any case. -/
def StrategyName (t : Text) (s : ExecutionStrategy) : Prop :=
  (s = .workingCopy ∧ t.map Char.toLower = t!"working-copy") ∨ (s = .worktree ∧ t.map Char.toLower = t!"worktree")

/-- The strategy: the one given with `--strategy`; or worktrees if `--jobs` is given with another number than 1; or the
configured one; or the working copy. -/
inductive MeansStrategy (config : TestConfig) (o : RawTestOptions) : ExecutionStrategy → Prop
  | given {s : ExecutionStrategy} (h : o.strategy = some s) : MeansStrategy config o s
  | jobs {n : Nat} (h : o.strategy = none) (hj : o.jobs = some n) (hn : n ≠ 1) : MeansStrategy config o .worktree
  | configured {t : Text} {s : ExecutionStrategy} (h : o.strategy = none) (hj : ∀ n, o.jobs = some n → n = 1)
      (hc : config.strategy = some (some t)) (hs : StrategyName t s) : MeansStrategy config o s
  | default (h : o.strategy = none) (hj : ∀ n, o.jobs = some n → n = 1) (hc : config.strategy = some none) :
      MeansStrategy config o .workingCopy

/-- The number of jobs before 0 is replaced by the number of CPUs: the one given with `--jobs`; or 1 if it is to be
interactive, or with `--strategy working-copy`; or the configured one; or 1. -/
inductive MeansJobs (config : TestConfig) (o : RawTestOptions) : Nat → Prop
  | given {n : Nat} (h : o.jobs = some n) : MeansJobs config o n
  | single (h : o.jobs = none) (hs : o.interactive = true ∨ o.strategy = some .workingCopy) : MeansJobs config o 1
  | configured {n : Nat} (h : o.jobs = none) (hi : o.interactive = false) (hs : o.strategy ≠ some .workingCopy)
      (hc : config.jobs = some (some (n : Int))) : MeansJobs config o n
  | default (h : o.jobs = none) (hi : o.interactive = false) (hs : o.strategy ≠ some .workingCopy)
      (hc : config.jobs = some none) : MeansJobs config o 1

/-- How a POSIX shell reads the rest of a word after an opening double quote, up to the closing one which ends the word:
`none` if there is none, if something comes after it, or if something is to be expanded. -/
def readQuoted : Text → Option Text
  | [] => none
  | '"' :: rest => if rest.isEmpty then some [] else none
  | '$' :: _ => none
  | '`' :: _ => none
  | '\\' :: c :: rest =>
    if c = '"' ∨ c = '\\' ∨ c = '$' ∨ c = '`' then (readQuoted rest).map (c :: ·)
    else if c = '\n' then readQuoted rest
    else (readQuoted rest).map fun t => '\\' :: c :: t
  | '\\' :: [] => none
  | c :: rest => (readQuoted rest).map (c :: ·)

/-- How a shell reads a word in double quotes. -/
def readDoubleQuoted : Text → Option Text
  | '"' :: rest => readQuoted rest
  | _ => none

end Verif.Spec
