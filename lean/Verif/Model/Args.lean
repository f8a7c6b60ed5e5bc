import Verif.Model.Reference
import Verif.Model.Reword

/-!
# The arguments of `git-branchless` (git-branchless-opts/src/lib.rs)
-/

namespace Verif

/-- An argument (`OsString`): text, or something which is not UTF-8. -/
inductive OsArg where
  | text (t : Text)
  | other (n : Nat)
deriving DecidableEq

/-- `Path::file_name` on Unix, which ignores `.`, and has no result for `..`. -/
def pathFileName (t : Text) : Option Text :=
  match ((splitChar '/' t).filter fun c => c ≠ [] ∧ c ≠ t!".").getLast? with
  | some c => if c = t!".." then none else some c
  | none => none

/-- lib.rs:999-1059 `rewrite_args` on Unix, where `EXE_SUFFIX` is empty. Simplified: a path which is not UTF-8 has no
name which is. -/
def rewriteArgs (args : List OsArg) : List OsArg :=
  match args with
  | [] => args
  | .other _ :: _ => args
  | .text first :: rest =>
    match pathFileName first with
    | none => args
    | some exe =>
      let args : List OsArg :=
        match stripPrefix? t!"git-branchless-" exe with
        | some subcommand => .text t!"git-branchless" :: .text subcommand :: rest
        | none => .text exe :: rest
      match args with
      | first :: subcommand :: rest =>
        if exe = t!"git-branchless" then
          match subcommand with
          | .text s =>
            match stripPrefix? t!"hook-" s with
            | some hook => first :: .text t!"hook" :: .text hook :: rest
            | none => first :: subcommand :: rest
          | .other _ => first :: subcommand :: rest
        else args
      | _ => args

end Verif
