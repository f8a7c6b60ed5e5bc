import Verif.Model.Styled

/-!
A terminal, and what should be seen there.
-/

namespace Verif.Spec

open Verif

/-- How a character looks: the number of its colour in the palette (0 to 7 are the dark colours, 8 to 15 the light ones), and the
attributes. -/
structure Look where
  color : Option Nat := none
  bold : Bool := false
  dim : Bool := false
  italic : Bool := false
  underlined : Bool := false
  blink : Bool := false
  reverse : Bool := false
deriving DecidableEq

/-- What the codes for colours and attributes do (ECMA-48 SGR, as far as needed; others do nothing). -/
def sgr (look : Look) : List Nat → Look
  | [] => look
  | [38, 5, n] => { look with color := some n }
  | n :: rest =>
    sgr (if n = 0 then {}
      else if n = 1 then { look with bold := true }
      else if n = 2 then { look with dim := true }
      else if n = 3 then { look with italic := true }
      else if n = 4 then { look with underlined := true }
      else if n = 5 then { look with blink := true }
      else if n = 7 then { look with reverse := true }
      else if 30 ≤ n ∧ n ≤ 37 then { look with color := some (n - 30) }
      else look) rest

/-- What a terminal has read of an escape sequence. -/
inductive TermMode where
  | normal
  | escape
  | params (done : List Nat) (current : Nat)
deriving DecidableEq

/-- What a terminal shows, and its state afterwards. -/
def terminal : TermMode → Look → Text → List (Char × Look) × TermMode × Look
  | mode, look, [] => ([], mode, look)
  | .normal, look, c :: rest =>
    if c = Char.ofNat 27 then terminal .escape look rest
    else ((c, look) :: (terminal .normal look rest).1, (terminal .normal look rest).2)
  | .escape, look, c :: rest =>
    if c = '[' then terminal (.params [] 0) look rest else terminal .normal look rest
  | .params done current, look, c :: rest =>
    if '0' ≤ c ∧ c ≤ '9' then terminal (.params done (current * 10 + (c.toNat - 48))) look rest
    else if c = ';' then terminal (.params (done ++ [current]) 0) look rest
    else if c = 'm' then terminal .normal (sgr look (done ++ [current])) rest
    else terminal .normal look rest

/-- The number of a colour. -/
def paletteNumber : StyleColor → Option Nat
  | .dark c => some ([BaseColor.black, .red, .green, .yellow, .blue, .magenta, .cyan, .white].idxOf c)
  | .light c => some (8 + [BaseColor.black, .red, .green, .yellow, .blue, .magenta, .cyan, .white].idxOf c)
  | _ => none

/-- How text with a style should look. -/
def lookOf (s : TextStyle) : Look where
  color := paletteNumber s.front
  bold := decide (.bold ∈ s.effects)
  dim := decide (.dim ∈ s.effects)
  italic := decide (.italic ∈ s.effects)
  underlined := decide (.underline ∈ s.effects)
  blink := decide (.blink ∈ s.effects)
  reverse := decide (.reverse ∈ s.effects)

/-- What should be seen. -/
def seenAs (s : StyledText) : List (Char × Look) := s.flatMap fun x => x.1.map fun c => (c, lookOf x.2)

/-- The text has no escape characters. -/
def NoEscapes (s : StyledText) : Prop := ∀ x ∈ s, Char.ofNat 27 ∉ x.1

/-- The style can be printed. -/
def Printable (s : TextStyle) : Prop := s.front ≠ .palette ∧ s.front ≠ .rgb ∧ .strikethrough ∉ s.effects

end Verif.Spec
