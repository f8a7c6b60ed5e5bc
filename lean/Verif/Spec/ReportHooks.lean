import Verif.Model.ReportHooks

/-! Reading the hooks in a bug report. -/

namespace Verif.Spec

open Verif

/-- Where the reader is: between the hooks, after the title of one, or inside the code of one. -/
inductive ReportMode where
  | outside
  | titled (name : Text)
  | inside (name : Text) (lines : List Text)

/-- The name in the title of a hook. -/
def titleName (l : Text) : Option Text :=
  if l.take 12 = t!"##### Hook `" then some (l.drop 12).dropLast else none

/-- The contents of a file, from the lines of code. -/
def codeText (lines : List Text) : Text :=
  if lines.getLast? = some t!"<missing newline>" then joinNl lines.dropLast else joinNl lines ++ t!"\n"

/-- Read the lines of a report as Markdown: code is between lines of three backticks. -/
def readHooks : ReportMode → List Text → List (Text × Text)
  | _, [] => []
  | .outside, l :: ls =>
    match titleName l with
    | some name => readHooks (.titled name) ls
    | none => readHooks .outside ls
  | .titled name, l :: ls => if l = t!"```" then readHooks (.inside name []) ls else readHooks (.titled name) ls
  | .inside name code, l :: ls =>
    if l = t!"```" then (name, codeText code) :: readHooks .outside ls else readHooks (.inside name (code ++ [l])) ls

/-- Contents which can be told from the report: no line of three backticks, and `<missing newline>` is not the last
line. -/
def Reportable (contents : Text) : Prop :=
  t!"```" ∉ splitNl contents ∧ ∀ t, contents ≠ t ++ t!"\n<missing newline>\n" ∧ contents ≠ t!"<missing newline>\n"

/-- The file of a hook: in the directory of hooks, or with several hooks in the directory for each kind. -/
def hookFileOf (env : InitEnv) (name : Text) : Text :=
  match env.multiHooks with
  | some dir => dir ++ t!"/" ++ name ++ t!".d/00_local_branchless"
  | none => env.hooksDir ++ t!"/" ++ name

/-- What the report should say of a hook. -/
def hookSays (fs : HookFiles) (path : Text) : Option Text :=
  match AMap.get? fs path with
  | some f => f.contents
  | none => some t!"<not found>"

end Verif.Spec
