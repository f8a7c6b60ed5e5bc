import Verif.Model.Text

/-!
Text with styles, and how it is printed: git-branchless-lib/src/core/formatting.rs:230-430.

Of the library cursive are modelled: a `StyledString` is a sequence of pieces of text with a style each, and appending puts them one
after the other; a set of effects is iterated over in the order of their declaration. Of the library console 0.15
(`StyledObject`): the escape codes, which are those for the colour and then those for the attributes, in the order of the latter, and
the code for resetting, if there was one of the others.
-/

namespace Verif

/-! ### cursive -/

inductive BaseColor where
  | black | red | green | yellow | blue | magenta | cyan | white
deriving DecidableEq

/-- `ColorType`. -/
inductive StyleColor where
  | palette
  | rgb
  | inherit
  | terminalDefault
  | light (c : BaseColor)
  | dark (c : BaseColor)
deriving DecidableEq

inductive TextEffect where
  | simple | dim | reverse | bold | italic | strikethrough | underline | blink
deriving DecidableEq

/-- In the order of their declaration. -/
def allEffects : List TextEffect := [.simple, .dim, .reverse, .bold, .italic, .strikethrough, .underline, .blink]

/-- `Style`. The list stands for a set. -/
structure TextStyle where
  front : StyleColor
  back : StyleColor
  effects : List TextEffect
deriving DecidableEq

/-- `Style::default()`, the style of plain text. -/
def plainStyle : TextStyle := ⟨.inherit, .inherit, []⟩

/-- `StyledString`. -/
abbrev StyledText := List (Text × TextStyle)

/-! ### console -/

inductive TermAttr where
  | bold | dim | italic | underlined | blink | reverse
deriving DecidableEq

/-- `Attribute::ansi_num`. -/
def TermAttr.ansiNum : TermAttr → Nat
  | .bold => 1
  | .dim => 2
  | .italic => 3
  | .underlined => 4
  | .blink => 5
  | .reverse => 7

def allAttrs : List TermAttr := [.bold, .dim, .italic, .underlined, .blink, .reverse]

/-- `Color::ansi_num`. -/
def BaseColor.ansiNum : BaseColor → Nat
  | .black => 0
  | .red => 1
  | .green => 2
  | .yellow => 3
  | .blue => 4
  | .magenta => 5
  | .cyan => 6
  | .white => 7

/-- `StyledObject`, with the style only. The attributes are a set. -/
structure ConsoleStyle where
  fg : Option BaseColor
  bright : Bool
  attrs : List TermAttr

def esc : Char := Char.ofNat 27

/-- The code with these parameters. -/
def ansiCode (params : Text) : Text := esc :: '[' :: params ++ t!"m"

/-- The code for the colour. -/
def ConsoleStyle.colorCode (s : ConsoleStyle) : Text :=
  match s.fg with
  | none => []
  | some c => if s.bright then ansiCode (t!"38;5;" ++ natToText (c.ansiNum + 8)) else ansiCode (natToText (c.ansiNum + 30))

/-- The codes for the attributes. -/
def ConsoleStyle.attrCodes (s : ConsoleStyle) : Text :=
  (allAttrs.filter s.attrs.contains).flatMap fun a => ansiCode (natToText a.ansiNum)

/-- `Display for StyledObject`, when forced. -/
def ConsoleStyle.display (s : ConsoleStyle) (content : Text) : Text :=
  let codes := s.colorCode ++ s.attrCodes
  codes ++ content ++ if codes.isEmpty then [] else ansiCode t!"0"

/-! ### formatting.rs -/

/-- formatting.rs:374-401: the colour; `none` is an error. -/
def consoleColor : StyleColor → Option ConsoleStyle
  | .palette => none
  | .rgb => none
  | .inherit => some ⟨none, false, []⟩
  | .terminalDefault => some ⟨none, false, []⟩
  | .light c => some ⟨some c, true, []⟩
  | .dark c => some ⟨some c, false, []⟩

/-- formatting.rs:407-418: one effect. -/
def addEffect (s : ConsoleStyle) : TextEffect → Option ConsoleStyle
  | .simple => some s
  | .dim => some { s with attrs := .dim :: s.attrs }
  | .reverse => some { s with attrs := .reverse :: s.attrs }
  | .bold => some { s with attrs := .bold :: s.attrs }
  | .italic => some { s with attrs := .italic :: s.attrs }
  | .strikethrough => none
  | .underline => some { s with attrs := .underlined :: s.attrs }
  | .blink => some { s with attrs := .blink :: s.attrs }

/-- formatting.rs:368-430 `render_style_as_ansi`. -/
def renderAnsi (content : Text) (style : TextStyle) : Option Text :=
  match consoleColor style.front with
  | none => none
  | some s => ((allEffects.filter style.effects.contains).foldlM addEffect s).map fun s => s.display content

/-- formatting.rs:230-253 `Glyphs::render`. `ansi` is `should_write_ansi_escape_codes`. -/
def renderStyled (ansi : Bool) : StyledText → Option Text
  | [] => some []
  | (content, style) :: rest =>
    match (if ansi then renderAnsi content style else some content) with
    | none => none
    | some t => (renderStyled ansi rest).map (t ++ ·)

/-- formatting.rs:315-323 `StyledStringBuilder::build`. -/
def buildStyled (elements : List StyledText) : StyledText := elements.foldl (· ++ ·) []

/-- formatting.rs:325-339 `StyledStringBuilder::join`. -/
def joinStyled (delimiter : Text) (strings : List StyledText) : StyledText :=
  buildStyled (strings.foldl (fun (acc : List StyledText × Bool) s =>
    (if acc.2 then acc.1 ++ [s] else acc.1 ++ [[(delimiter, plainStyle)], s], false)) ([], true)).1

/-- formatting.rs:341-351 `StyledStringBuilder::from_lines`. -/
def linesStyled (lines : List StyledText) : StyledText :=
  buildStyled (lines.foldl (fun acc l => acc ++ [l, [(t!"\n", plainStyle)]]) [])

/-- formatting.rs:354-360 `set_effect`. -/
def setEffect (s : StyledText) (e : TextEffect) : StyledText :=
  s.map fun x => (x.1, { x.2 with effects := e :: x.2.effects })

end Verif
