import Verif.Model.Styled

/-! The prompt with which a commit is chosen (git-branchless-navigation/src/prompt.rs) and the preview it shows
(git-branchless-lib/src/git/object.rs). The searcher (`skim` 0.10) is not modelled: what it finds in a text, and
what the user selects, are arbitrary. -/

namespace Verif

/-! ### strings as bytes -/

/-- The number of bytes of a text, in UTF-8. -/
def byteLen (t : Text) : Nat := (t.map Char.utf8Size).sum

/-- `&t[..n]`; `none` is a panic: `n` is not between two characters, or too large. -/
def strTo : Text → Nat → Option Text
  | [], n => if n = 0 then some [] else none
  | c :: t, n => if n = 0 then some [] else if c.utf8Size ≤ n then (strTo t (n - c.utf8Size)).map (c :: ·) else none

/-- `&t[n..]`. -/
def strFrom : Text → Nat → Option Text
  | [], n => if n = 0 then some [] else none
  | c :: t, n => if n = 0 then some (c :: t) else if c.utf8Size ≤ n then strFrom t (n - c.utf8Size) else none

/-- `&t[start..end]`. -/
def strRange (t : Text) (start stop : Nat) : Option Text :=
  if start ≤ stop then (strFrom t start).bind fun r => strTo r (stop - start) else none

/-- `u32::try_from(n).unwrap()`. -/
def asU32 (n : Nat) : Option Nat := if n < 2 ^ 32 then some n else none

/-! ### the prompt -/

/-- `skim::Matches`: how the searcher says what it found in the text of an item. -/
inductive SearchMatch where
  | charIndices (l : List Nat)
  | charRange (start stop : Nat)
  | byteRange (start stop : Nat)
  | none

/-- prompt.rs:60-84: which characters are to be highlighted, as ranges; `none` is a panic. `text` is the text
without escape codes (`stripped`). -/
def matchRanges (text : Text) : SearchMatch → Option (List (Nat × Nat))
  | .charIndices l => l.mapM fun i => do some (← asU32 i, ← asU32 (i + 1))
  | .charRange start stop => do some [(← asU32 start, ← asU32 stop)]
  | .byteRange start stop => do
    let start := (← strTo text start).length
    let stop := start + (← strRange text start stop).length
    some [(← asU32 start, ← asU32 stop)]
  | .none => some []

/-- `AnsiString::override_attrs`, as it is documented: the characters in the ranges get the attribute. -/
def overrideAttrs {A : Type} (attrs : Nat → A) (highlight : A) (ranges : List (Nat × Nat)) : Nat → A :=
  fun i => if ranges.any fun r => decide (r.1 ≤ i) && decide (i < r.2) then highlight else attrs i

/-- prompt.rs:57-90 `display`: how each character of the text is shown. -/
def displayItem {A : Type} (text : Text) (attrs : Nat → A) (highlight : A) (m : SearchMatch) : Option (Nat → A) :=
  (matchRanges text m).map (overrideAttrs attrs highlight)

/-- prompt.rs:46-50 `CommitSkimItem`. -/
structure PromptItem where
  oid : Oid
  styledSummary : Text
  styledPreview : Text

/-- prompt.rs:98-116 `from_descriptors`. `none` is an error. The descriptors are arbitrary here. -/
def promptItem (summary preview : Oid → Option StyledText) (c : Oid) : Option PromptItem := do
  let s ← summary c
  let s ← renderStyled true s
  let p ← preview c
  let p ← renderStyled true p
  some ⟨c, s, p⟩

/-- prompt.rs:120-163 `prompt_skim`. `run` is `Skim::run_with`: whether it was aborted, and the selected items. -/
def promptSkim (summary preview : Oid → Option StyledText) (run : List PromptItem → Option (Bool × List PromptItem))
    (commits : List Oid) : Option (Option Oid) := do
  let items ← commits.mapM (promptItem summary preview)
  match run items with
  | some (isAbort, selected) => if isAbort then some none else some (selected.head?.map (·.oid))
  | none => some none

/-! ### the preview -/

/-- `str::split('\n')`. -/
def splitNl : Text → List Text
  | [] => [[]]
  | c :: t =>
    if c = '\n' then [] :: splitNl t
    else
      match splitNl t with
      | [] => [[c]]
      | l :: ls => (c :: l) :: ls

/-- Lines with line breaks between them. -/
def joinNl : List Text → Text
  | [] => []
  | [l] => l
  | l :: ls => l ++ '\n' :: joinNl ls

/-- A line of spaces. (`str::trim` of textwrap knows more characters; `blank` is arbitrary, but a line without
characters is blank.) -/
structure BlankLines where
  blank : Text → Bool
  empty : blank [] = true

/-- `textwrap::indent` with four spaces: blank lines are not indented. (It looks at `split_terminator` and adds a
line break at the end if there was one; as the empty line is blank this is the same as taking all parts.) -/
def indentText (bl : BlankLines) (m : Text) : Text :=
  joinNl ((splitNl m).map fun l => if bl.blank l then l else t!"    " ++ l)

/-- object.rs:222-257 `friendly_preview`. The author is described as in the repository, if it can be; the date is
arbitrary. -/
def friendlyPreview (bl : BlankLines) (oid : Text) (author date : Option Text) (message : Text) : StyledText :=
  linesStyled
    [[(t!"Commit:\t" ++ oid, ⟨.light .yellow, .inherit, []⟩)],
     [(t!"Author:\t" ++ author.getD [], ⟨.light .magenta, .inherit, []⟩)],
     [(t!"Date:\t" ++ date.getD t!"?", ⟨.light .green, .inherit, []⟩)],
     [(indentText bl message, plainStyle)]]

end Verif
