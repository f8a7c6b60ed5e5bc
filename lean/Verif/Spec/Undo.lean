import Verif.Spec.Replay
import Verif.Model.Refs

/-! Specification of what it means that a list of events describes how references changed. -/

namespace Verif.Spec

open Verif

/-- The references of a repository, as a map from names to positions. -/
abbrev RefState := Text → Option Oid

/-- No existing name is a directory of another existing name (Git's file/directory rule). -/
def PathOk (s : RefState) : Prop :=
  ∀ a b, s a ≠ none → s b ≠ none → pathConflict a b = false

/-- One event describes the change from one state to the next: an update of a reference other than
`HEAD` states the true old position, and the new state is possible; anything else changes nothing.
(`HEAD` is not part of the state.) -/
inductive RefStep : RefState → Event → RefState → Prop
  | update {s s' : RefState} {ts tx n old new m} : n ≠ t!"HEAD" → s n = old.toOption →
      s' n = new.toOption → (∀ k, k ≠ n → s' k = s k) → PathOk s' →
      RefStep s (.refUpdate ts tx n old new m) s'
  | head {s ts tx old new m} : RefStep s (.refUpdate ts tx t!"HEAD" old new m) s
  | other {s e} : (∀ ts tx n old new m, e ≠ .refUpdate ts tx n old new m) → RefStep s e s

/-- The events describe the change from the first to the second state. -/
inductive Describes : RefState → List Event → RefState → Prop
  | nil {s} : Describes s [] s
  | snoc {s s' s'' es e} : Describes s es s' → RefStep s' e s'' → Describes s (es ++ [e]) s''

end Verif.Spec
