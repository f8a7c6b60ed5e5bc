import Verif.Model.Lines
import Verif.Model.Reword

/-!
The command `init`: git-branchless-init/src/lib.rs. The hooks and the aliases; not the other configuration
values, the man pages and the messages. The paths are given as texts.
-/

namespace Verif

/-- Rust `str::lines`: like `textLines`, but a carriage return at the end of a last line without newline is
kept. -/
def strLines (t : Text) : List Text :=
  let ps := splitChar '\n' t
  ps.dropLast.map stripCr ++ ps.getLast?.toList.filter (· ≠ [])

/-- lib.rs:35-85 `ALL_HOOKS`. -/
def allHooks : List (Text × Text) :=
  [(t!"post-applypatch", t!"\ngit branchless hook post-applypatch \"$@\"\n"),
    (t!"post-checkout", t!"\ngit branchless hook post-checkout \"$@\"\n"),
    (t!"post-commit", t!"\ngit branchless hook post-commit \"$@\"\n"),
    (t!"post-merge", t!"\ngit branchless hook post-merge \"$@\"\n"),
    (t!"post-rewrite", t!"\ngit branchless hook post-rewrite \"$@\"\n"),
    (t!"pre-auto-gc", t!"\ngit branchless hook pre-auto-gc \"$@\"\n"),
    (t!"reference-transaction",
      t!"\n# Avoid canceling the reference transaction in the case that `branchless` fails\n# for whatever reason.\ngit branchless hook reference-transaction \"$@\" || (\necho 'branchless: Failed to process reference transaction!'\necho 'branchless: Some events (e.g. branch updates) may have been lost.'\necho 'branchless: This is a bug. Please report it.'\n)\n")]

/-- lib.rs:279-286: what is left in the hooks. -/
def uninstalledScript : Text :=
  t!"\n# This hook has been uninstalled.\n# Run `git branchless init` to reinstall.\n"

/-- lib.rs:139-141 -/
def shebang : Text := t!"#!/bin/sh"
def markerStart : Text := t!"## START BRANCHLESS CONFIG"
def markerEnd : Text := t!"## END BRANCHLESS CONFIG"

/-- lib.rs:143-149 `append_hook`. -/
def appendHook (newLines contents : Text) : Text :=
  newLines ++ markerStart ++ ['\n'] ++ contents ++ markerEnd ++ ['\n']

/-- The variables of the loop in `update_between_lines`. -/
structure UpdateState where
  newLines : Text
  foundMarker : Bool
  isIgnoringLines : Bool

/-- lib.rs:155-166: one round. -/
def updateLine (updated : Text) (s : UpdateState) (line : Text) : UpdateState :=
  if line = markerStart then ⟨appendHook s.newLines updated, true, true⟩
  else if line = markerEnd then { s with isIgnoringLines := false }
  else if !s.isIgnoringLines then { s with newLines := s.newLines ++ line ++ ['\n'] }
  else s

/-- lib.rs:151-173 `update_between_lines` (the warning is not modelled). -/
def updateBetweenLines (lines updated : Text) : Text :=
  let s := (strLines lines).foldl (updateLine updated) ⟨[], false, false⟩
  if s.isIgnoringLines then s.newLines
  else if !s.foundMarker then appendHook s.newLines updated
  else s.newLines

/-- A file: its contents, if they are UTF-8, and its mode. -/
structure HookFile where
  contents : Option Text
  mode : Nat
deriving DecidableEq

/-- What the command depends on. -/
structure InitEnv where
  /-- config.rs:38-62 `get_main_worktree_hooks_dir`. -/
  hooksDir : Text
  /-- The directory `hooks_multi` of the repository, if it exists (lib.rs:124). -/
  multiHooks : Option Text
  /-- The mode of new files. -/
  newMode : Nat

/-- lib.rs:107-121 `Hook`. -/
inductive HookKind where
  | regular (path : Text)
  | multi (path : Text)
deriving DecidableEq

/-- lib.rs:122-135 `determine_hook_path`. -/
def determineHookPath (env : InitEnv) (hookType : Text) : HookKind :=
  match env.multiHooks with
  | some dir => .multi (dir ++ ['/'] ++ hookType ++ t!".d/00_local_branchless")
  | none => .regular (env.hooksDir ++ ['/'] ++ hookType)

/-- The files by their paths. -/
abbrev HookFiles := AMap Text HookFile

/-- lib.rs:176-206 `write_script`. The variable TEST_SEPARATE_COMMAND_BINARIES is not set, and writing does
not fail. The mode of an existing file stays, apart from the bits for execution. -/
def writeScript (env : InitEnv) (fs : HookFiles) (path contents : Text) : HookFiles :=
  let mode := match AMap.get? fs path with
    | some f => f.mode
    | none => env.newMode
  AMap.insert fs path ⟨some contents, mode ||| 0o111⟩

/-- lib.rs:206-230 `update_hook_contents`; `none` is an error. -/
def updateHookContents (env : InitEnv) (fs : HookFiles) (hook : HookKind) (contents : Text) : Option HookFiles :=
  match hook with
  | .multi path => some (writeScript env fs path (shebang ++ ['\n'] ++ contents))
  | .regular path =>
    match AMap.get? fs path with
    | none => some (writeScript env fs path
        (shebang ++ ['\n'] ++ markerStart ++ ['\n'] ++ contents ++ ['\n'] ++ markerEnd ++ ['\n']))
    | some ⟨none, _⟩ => none
    | some ⟨some lines, _⟩ => some (writeScript env fs path (updateBetweenLines lines contents))

/-- lib.rs:232-242 `install_hook`. -/
def installHook (env : InitEnv) (fs : HookFiles) (hook : Text × Text) : Option HookFiles :=
  updateHookContents env fs (determineHookPath env hook.1) hook.2

/-- A loop which stops at the first error; what was written before stays. -/
def installAll (env : InitEnv) : HookFiles → List (Text × Text) → HookFiles × Bool
  | fs, [] => (fs, true)
  | fs, h :: hs =>
    match installHook env fs h with
    | none => (fs, false)
    | some fs => installAll env fs hs

/-- lib.rs:244-274 `install_hooks`, with whether it succeeded. -/
def installHooks (env : InitEnv) (fs : HookFiles) : HookFiles × Bool := installAll env fs allHooks

/-- lib.rs:277-300 `uninstall_hooks`. -/
def uninstallHooks (env : InitEnv) (fs : HookFiles) : HookFiles × Bool :=
  installAll env fs (allHooks.map fun h => (h.1, uninstalledScript))

end Verif
