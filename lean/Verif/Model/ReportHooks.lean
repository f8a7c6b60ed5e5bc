import Verif.Model.Init
import Verif.Model.Prompt

/-! The hooks in a bug report (git-branchless/src/commands/bug_report.rs). -/

namespace Verif

/-- bug_report.rs:258-266: the contents of a hook; `none` is an error, for a file which is there but cannot be read
as text. -/
def reportedContents (fs : HookFiles) : HookKind → Option Text
  | .regular path | .multi path =>
    match AMap.get? fs path with
    | some f => f.contents
    | none => some t!"<not found>"

/-- `str::strip_suffix('\n')`. -/
def stripNl (t : Text) : Option Text := if t.getLast? = some '\n' then some t.dropLast else none

/-- bug_report.rs:274-291: the lines for one hook. (A line may itself consist of several.) -/
def hookLines (hook : Text × Text) : List Text :=
  [t!"##### Hook `" ++ hook.1 ++ t!"`", [], t!"```"] ++
  (match stripNl hook.2 with
   | some contents => [contents]
   | none => [hook.2, t!"<missing newline>"]) ++
  [t!"```"]

/-- bug_report.rs:251-306 `collect_hooks`. `dir` is the directory of the hooks as it is printed. -/
def collectHooks (env : InitEnv) (fs : HookFiles) (dir : Text) : Option Text := do
  let hooks ← allHooks.mapM fun h => do some (h.1, ← reportedContents fs (determineHookPath env h.1))
  some (t!"\nHooks directory: `" ++ dir ++ t!"`\n\n<details>\n<summary>Show " ++ natToText hooks.length ++
    t!" hooks</summary>\n\n" ++ joinNl (hooks.flatMap hookLines) ++ t!"\n\n</details>")

end Verif
