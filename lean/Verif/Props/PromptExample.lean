import Verif.Props.Prompt

/-! Witnesses and concrete cases for the theorems about the prompt. -/

namespace Verif.Props

open Verif Spec

/-- C103: a search for a word (`'word`, which the searcher answers with bytes) can panic if there are characters of
two bytes before the word: here `x` is found in a summary with `été` in it. -/
theorem search_panics :
    let t := t!"62fc20d 3d été x"
    FoundIn t (.byteRange 17 18) ∧ displayItem t (fun _ => false) true (.byteRange 17 18) = none := by
  exact ⟨⟨t!"62fc20d 3d été ", t!"x", [], rfl, by decide +kernel, by decide +kernel⟩, by decide +kernel⟩

/-- C103: the commit `abc` of the branch which is checked out: the arrow is a character of three bytes. `fix` is found in
`abc ᐅ main fix it`, and ` i` is highlighted as well. -/
theorem search_highlights_too_much :
    let t := t!"abc ᐅ main fix it"
    FoundIn t (.byteRange 13 16) ∧ t.drop 11 = t!"fix it" ∧
      (displayItem t (fun _ => false) true (.byteRange 13 16)).map (fun shown => (List.range t.length).filter shown) =
        some [11, 12, 13, 14, 15] := by
  refine ⟨⟨t!"abc ᐅ main ", t!"fix", t!" it", rfl, by decide +kernel, by decide +kernel⟩, rfl, by decide +kernel⟩

/-- Without such characters it is right. -/
example : (displayItem t!"abc main fix it" (fun _ => false) true (.byteRange 9 12)).map
    (fun shown => (List.range 15).filter shown) = some [9, 10, 11] := by
  decide +kernel

/-- A search which is answered with positions. -/
example : FoundIn t!"é abc" (.charIndices [2, 4]) ∧
    (displayItem t!"é abc" (fun _ => false) true (.charIndices [2, 4])).map
      (fun shown => (List.range 5).filter shown) = some [2, 4] := by
  refine ⟨?_, by decide +kernel⟩
  show ∀ i ∈ [2, 4], i < _
  decide

/-- Blank lines are those of spaces. -/
def exBlank : BlankLines := ⟨fun l => l.all (· == ' '), rfl⟩

/-- A preview. -/
example : (friendlyPreview exBlank t!"62fc20d" (some t!"A <a@b>") none t!"Fix\n\n  it\n").flatMap Prod.fst =
    t!"Commit:\t62fc20d\nAuthor:\tA <a@b>\nDate:\t?\n    Fix\n\n      it\n\n" ∧
    previewMessage exBlank t!"Commit:\t62fc20d\nAuthor:\tA <a@b>\nDate:\t?\n    Fix\n\n      it\n\n" =
      t!"Fix\n\n  it\n" := by
  decide +kernel

/-- The condition on blank lines holds. -/
example : ∀ l, exBlank.blank l = false → exBlank.blank (t!"    " ++ l) = false := by
  intro l h
  simpa [exBlank] using h

/-- Two commits, of which the second is chosen. -/
example : promptSkim (fun c => some [((if c.val = 1 then t!"a" else t!"b"), plainStyle)]) (fun _ => some [])
    (fun items => some (false, items.drop 1)) [⟨1, by decide, by decide⟩, ⟨2, by decide, by decide⟩] = some (some ⟨2, by decide, by decide⟩) := by
  decide +kernel

end Verif.Props
