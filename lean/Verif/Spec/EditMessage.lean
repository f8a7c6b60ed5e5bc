import Verif.Model.EditMessage
import Verif.Spec.Reword

/-! How a command line for an editor is read by a shell, and what an editor leaves. -/

namespace Verif.Spec

open Verif

/-- A character which stands for itself in a shell, wherever it appears. -/
def OrdinaryChar (c : Char) : Prop := c ∉ t!" \t\n'\"\\$`#&;|<>()*?[]{}~!="

/-- A piece of a word, as it is written, and what it stands for. -/
inductive ShellPiece : Text → Text → Prop
  | char {c : Char} : OrdinaryChar c → ShellPiece [c] [c]
  | escaped {c : Char} : c ≠ '\n' → ShellPiece ['\\', c] [c]
  | single {t : Text} : '\'' ∉ t → ShellPiece (t!"'" ++ t ++ t!"'") t
  | double {t : Text} : (∀ c ∈ t, c ∉ t!"\"\\$`!") → ShellPiece (t!"\"" ++ t ++ t!"\"") t

/-- A word: pieces next to each other. -/
inductive ShellWord : Text → Text → Prop
  | one {s v : Text} : ShellPiece s v → ShellWord s v
  | more {s v s' v' : Text} : ShellPiece s v → ShellWord s' v' → ShellWord (s ++ s') (v ++ v')

/-- A command: words with blanks between them. -/
inductive ShellCommand : Text → List Text → Prop
  | one {s v : Text} : ShellWord s v → ShellCommand s [v]
  | more {s v gap rest : Text} {vs : List Text} : ShellWord s v → gap ≠ [] → (∀ c ∈ gap, c = ' ' ∨ c = '\t') →
      ShellCommand rest vs → ShellCommand (s ++ gap ++ rest) (v :: vs)

/-- Only line breaks. -/
def LineBreaks (t : Text) : Prop := ∀ c ∈ t, c = '\n' ∨ c = '\r'

/-- The editor of git is this command, as `git var` prints it. -/
def EditorIs (env : EditorEnv) (program cmd : Text) (args : List Text) : Prop :=
  env.gitVar = some (program ++ t!"\n") ∧ program ≠ t!":" ∧ ShellCommand program (cmd :: args) ∧
    ∀ c, program.getLast? = some c → isSpace c = false

/-- The editor, given a text, leaves another, perhaps with line breaks at the end, and ends with some exit code. -/
def Saves (env : EditorEnv) (cmd : Text) (args : List Text) (shown saved : Text) (exitCode : Int) : Prop :=
  ∃ breaks, LineBreaks breaks ∧ env.run cmd args shown = some ⟨exitCode, some (saved ++ breaks)⟩

/-- The comment character of the settings: `#`, or the one given. -/
def CommentIs (setting : Option Text) (comment : Char) : Prop :=
  (setting = none ∧ comment = '#') ∨ setting = some [comment]

/-- The path of the template, as git understands the setting: `~` is the home directory, and a relative path is below
the working copy. (`~user` is left out.) -/
inductive TemplatePath (home root : Text) : Text → Text → Prop
  | home {p : Text} : TemplatePath home root (t!"~/" ++ p) (home ++ t!"/" ++ p)
  | absolute {p : Text} : TemplatePath home root (t!"/" ++ p) (t!"/" ++ p)
  | relative {p : Text} : p.head? ≠ some '/' → p.head? ≠ some '~' → TemplatePath home root p (root ++ t!"/" ++ p)

end Verif.Spec
