import Verif.Props.Styled

/-! Concrete cases for the theorems about text with styles. -/

namespace Verif.Props

open Verif Verif.Spec

/-- A line of the smartlog: a short hash in yellow, a branch in light green and bold. -/
def exStyled : StyledText :=
  [(t!"o ", plainStyle), (t!"62fc20d", ⟨.dark .yellow, .inherit, []⟩), (t!" ", plainStyle),
    (t!"(b)", ⟨.light .green, .inherit, [.bold]⟩)]

/-- What is printed. -/
example : renderStyled true exStyled = some (t!"o " ++ [esc] ++ t!"[33m62fc20d" ++ [esc] ++ t!"[0m " ++ [esc] ++ t!"[38;5;10m" ++
    [esc] ++ t!"[1m(b)" ++ [esc] ++ t!"[0m") ∧ NoEscapes exStyled := by
  refine ⟨by decide +kernel, ?_⟩
  unfold NoEscapes
  decide +kernel

/-- Some of what is seen. -/
example : ((seenAs exStyled)[0]?, (seenAs exStyled)[2]?, (seenAs exStyled)[11]?) =
    (some ('o', ({} : Look)), some ('6', { color := some 3 }), some ('b', { color := some 10, bold := true })) := by
  decide +kernel

/-- Styles which cannot be printed. -/
example : renderStyled true [(t!"x", ⟨.rgb, .inherit, []⟩)] = none ∧
    renderStyled true [(t!"x", ⟨.inherit, .inherit, [.strikethrough]⟩)] = none ∧
    renderStyled false [(t!"x", ⟨.rgb, .inherit, []⟩)] = some t!"x" := by
  decide +kernel

/-- Joining, lines and effects. -/
example : (renderStyled false (joinStyled t!", " [exStyled, [(t!"x", plainStyle)]]),
      renderStyled false (linesStyled [[(t!"x", plainStyle)], []]),
      renderStyled true (setEffect [(t!"x", ⟨.dark .blue, .inherit, [.dim]⟩)] .bold)) =
    (some t!"o 62fc20d (b), x", some t!"x\n\n",
      some ([esc] ++ t!"[34m" ++ [esc] ++ t!"[1m" ++ [esc] ++ t!"[2mx" ++ [esc] ++ t!"[0m")) := by
  decide +kernel

/-- Violation of C102: escape sequences in a text, as in the message of a commit which somebody else made, reach the terminal, also
without colours. Here the message is not seen as it is, and everything after it is red. -/
theorem escapes_reach_terminal : ∃ (message out : Text) (rest : Text), renderStyled false [(message, plainStyle)] = some out ∧
    terminal .normal {} (out ++ rest) ≠
      (seenAs [(message, plainStyle)] ++ (terminal .normal {} rest).1, (terminal .normal {} rest).2) ∧
    (terminal .normal {} (out ++ rest)).2.2 = { color := some 1 } := by
  refine ⟨t!"Fix " ++ [esc] ++ t!"[31m", _, t!"x", plain_is_text _, ?_, ?_⟩ <;> decide +kernel

end Verif.Props
