import Verif.Model.Init

/-! What installing hooks should do. -/

namespace Verif.Spec

open Verif

/-- A line with a Unix line ending which is none of the two marker lines. -/
def PlainLine (l : Text) : Prop :=
  '\n' ∉ l ∧ l.getLast? ≠ some '\r' ∧ l ≠ markerStart ∧ l ≠ markerEnd

/-- The lines of a script between the marker lines. -/
def marked (script : List Text) : List Text := markerStart :: script ++ [markerEnd]

/-- A text with these lines. The newline at the end may be missing. -/
def HasLines (t : Text) (ls : List Text) : Prop :=
  t = unlines ls ∨ (ls.getLast? ≠ some [] ∧ t ++ ['\n'] = unlines ls)

/-- A hook which can be updated: the user's own lines, and at most one section between marker lines.
`before` and `after` are the user's own lines. -/
inductive HookText (before after : List Text) (t : Text) : Prop
  | without : after = [] → HasLines t before → HookText before after t
  | with (old : List Text) : (∀ l ∈ old, PlainLine l) → HasLines t (before ++ marked old ++ after) →
      HookText before after t

/-- The line of a script which runs the program for a hook, with the arguments of the hook. -/
def callOf (hook : Text) : Text := t!"git branchless hook " ++ hook ++ t!" \"$@\""

/-- The lines which are not in a section. A section starts at the first marker and goes on to the second
one, or to the end of the file. -/
def outside : Bool → List Text → List Text
  | _, [] => []
  | inside, l :: ls =>
    if l = markerStart then outside true ls
    else if l = markerEnd then outside false ls
    else if inside then outside true ls
    else l :: outside false ls

/-- How many sections there are. -/
def sections (ls : List Text) : Nat := ls.count markerStart

/-- A line of a shell script which does nothing. -/
def Comment (l : Text) : Prop := l = [] ∨ l.head? = some '#'

end Verif.Spec
