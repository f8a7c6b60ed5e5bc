import Verif.Model.Prompt

/-! What the prompt should show. -/

namespace Verif.Spec

open Verif

/-- What a searcher finds is in the text: positions of characters, or bytes of a part of the text. -/
def FoundIn (t : Text) : SearchMatch → Prop
  | .charIndices l => ∀ i ∈ l, i < t.length
  | .charRange start stop => start ≤ stop ∧ stop ≤ t.length
  | .byteRange start stop => ∃ a b c, t = a ++ b ++ c ∧ start = byteLen a ∧ stop = byteLen a + byteLen b
  | .none => True

/-- The `i`-th character was found: it is at one of the positions, or begins in the range of bytes. -/
def Found (t : Text) : SearchMatch → Nat → Prop
  | .charIndices l, i => i ∈ l
  | .charRange start stop, i => start ≤ i ∧ i < stop
  | .byteRange start stop, i => start ≤ byteLen (t.take i) ∧ byteLen (t.take i) < stop
  | .none, _ => False

/-- Exactly the characters which were found are highlighted; the others are shown as before. -/
def ShownRight {A : Type} (t : Text) (attrs : Nat → A) (highlight : A) (m : SearchMatch) (shown : Nat → A) : Prop :=
  ∀ i, i < t.length → (Found t m i → shown i = highlight) ∧ (¬ Found t m i → shown i = attrs i)

/-- Read a preview: the text after the third line, without the indentation of the lines which are not blank. -/
def previewMessage (bl : BlankLines) (preview : Text) : Text :=
  joinNl (((splitNl preview).drop 3).dropLast.map fun l => if bl.blank l then l else l.drop 4)

end Verif.Spec
