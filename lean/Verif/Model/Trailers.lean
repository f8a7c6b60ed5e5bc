import Verif.Model.Basic

/-!
libgit2's `git_message_trailers` (src/libgit2/trailer.c of libgit2 1.9.0), which
git-branchless-lib/src/git/object.rs:153-168 `Commit::get_trailers` calls. libgit2 is not part of the
repository; it is modelled here since the metadata of snapshots is written in trailers.

The C code works on the positions of a buffer; here the message is split in lines, each with its newline,
and a position at the start of a line is the number of the line. Text is a list of characters; all
characters which matter are ASCII.
-/

namespace Verif

/-- The lines of a text, each with the newline which ends it (the last one may have none). -/
def keepLines : Text → List Text
  | [] => []
  | c :: s =>
    if c = '\n' then [c] :: keepLines s
    else
      match keepLines s with
      | [] => [[c]]
      | l :: ls => (c :: l) :: ls

/-- libgit2's `git__isspace`. -/
def isSpaceC (c : Char) : Bool :=
  c = ' ' || c = '\t' || c = '\n' || c = '\x0c' || c = '\r' || c = '\x0b'

/-- libgit2's `git__isalnum`. -/
def isAlnumC (c : Char) : Bool :=
  ('0' ≤ c && c ≤ '9') || ('a' ≤ c && c ≤ 'z') || ('A' ≤ c && c ≤ 'Z')

/-- trailer.c `is_blank_line`. -/
def isBlankLine (l : Text) : Bool := l.all isSpaceC

/-- trailer.c: the first character of the line is `COMMENT_LINE_CHAR`. -/
def isCommentLine (l : Text) : Bool := l.head? = some '#'

/-- trailer.c `find_separator`, for the separator `:`; `none` is `false`. The first argument says whether
white space was found, the second one whether this is the start of the line. -/
def findSeparator : (ws start : Bool) → Text → Option Nat
  | _, _, [] => none
  | ws, start, c :: s =>
    if c = ':' then some 0
    else if !ws && (isAlnumC c || c = '-') then (findSeparator ws false s).map (· + 1)
    else if !start && (c = ' ' || c = '\t') then (findSeparator true false s).map (· + 1)
    else none

/-- trailer.c `find_patch_start`: the line starts a patch. -/
def isPatchStart (l : Text) : Bool :=
  match l with
  | '-' :: '-' :: '-' :: c :: _ => isSpaceC c
  | _ => false

/-- trailer.c `ignore_non_trailer`: the state of the loop. `boc` is where the trailing run of comments
begins; as in the code, zero stands for no such run. -/
structure EndScan where
  boc : Nat
  conflicts : Bool

/-- trailer.c `ignore_non_trailer`: one round of the loop. -/
def endStep (s : EndScan) (e : Nat × Text) : EndScan :=
  if isCommentLine e.2 || e.2.head? = some '\n' then
    { s with boc := if s.boc = 0 then e.1 else s.boc }
  else if e.2 = t!"Conflicts:\n" then
    { boc := if s.boc = 0 then e.1 else s.boc, conflicts := true }
  else if s.conflicts && e.2.head? = some '\t' then s
  else if s.boc ≠ 0 then { boc := 0, conflicts := false }
  else s

/-- Lines with their numbers. -/
def numberLines (n : Nat) : List Text → List (Nat × Text)
  | [] => []
  | l :: ls => (n, l) :: numberLines (n + 1) ls

/-- trailer.c `find_trailer_end`: the number of lines before the end of the trailers. -/
def findTrailerEnd (ls : List Text) : Nat :=
  let s := (numberLines 0 ls).foldl endStep ⟨0, false⟩
  if s.boc ≠ 0 then s.boc else ls.length

/-- trailer.c `find_trailer_start`: the number of lines of the title, i.e. before the first blank line. -/
def endOfTitle : List Text → Nat
  | [] => 0
  | l :: ls =>
    if isCommentLine l then endOfTitle ls + 1
    else if isBlankLine l then 0
    else endOfTitle ls + 1

/-- trailer.c `git_generated_prefixes`. -/
def isGenerated (l : Text) : Bool :=
  t!"Signed-off-by: ".isPrefixOf l || t!"(cherry picked from commit ".isPrefixOf l

/-- The line starts with a character of white space. -/
def startsWithSpace (l : Text) : Bool :=
  match l with
  | c :: _ => isSpaceC c
  | [] => false

/-- trailer.c `find_trailer_start`: the state of the loop. -/
structure StartScan where
  onlySpaces : Bool
  recognized : Bool
  trailers : Nat
  others : Nat
  continuations : Nat

/-- trailer.c `find_trailer_start`: the loop over the lines from the last one backwards. The result is the
number of the first line of the trailers, or `none` if there are none. -/
def startLoop (s : StartScan) : List (Nat × Text) → Option Nat
  | [] => none
  | (n, l) :: ls =>
    if isCommentLine l then
      startLoop { s with others := s.others + s.continuations, continuations := 0 } ls
    else if isBlankLine l then
      if s.onlySpaces then startLoop s ls
      else
        let others := s.others + s.continuations
        if s.recognized && s.trailers * 3 ≥ others then some (n + 1)
        else if s.trailers ≠ 0 && others = 0 then some (n + 1)
        else none
    else if isGenerated l then
      startLoop { s with onlySpaces := false, trailers := s.trailers + 1, continuations := 0,
                         recognized := true } ls
    else if (findSeparator false true l).getD 0 ≥ 1 && !startsWithSpace l then
      startLoop { s with onlySpaces := false, trailers := s.trailers + 1, continuations := 0 } ls
    else if startsWithSpace l then
      startLoop { s with onlySpaces := false, continuations := s.continuations + 1 } ls
    else
      startLoop { s with onlySpaces := false, others := s.others + 1 + s.continuations,
                         continuations := 0 } ls

/-- trailer.c `last_line` does not look at the first character of the text: if that is a newline, then the
second line is not found. -/
def seenBackwards (ls : List (Nat × Text)) : List (Nat × Text) :=
  match ls with
  | (0, ['\n']) :: _ :: rest => (0, ['\n']) :: rest
  | _ => ls

/-- trailer.c `find_trailer_start`; `none` says that there are no trailers. -/
def findTrailerStart (ls : List Text) : Option Nat :=
  let numbered := seenBackwards (numberLines 0 ls)
  startLoop ⟨true, false, 0, 0, 0⟩ (numbered.filter fun e => endOfTitle ls ≤ e.1).reverse

/-- trailer.c `extract_trailer_block`. -/
def trailerBlock (message : Text) : Text :=
  let ls := (keepLines message).takeWhile fun l => !isPatchStart l
  let ls := ls.take (findTrailerEnd ls)
  match findTrailerStart ls with
  | none => []
  | some n => (ls.drop n).flatten

/-- trailer.c: the states of `git_message_trailers`. (`S_START` is `key []` with something left;
`S_VALUE_END` is left at once.) -/
inductive TrailerState where
  | key (k : Text)
  | keyWs (k : Text)
  | sepWs (k : Text)
  | value (k v : Text)
  | valueNl (k v : Text)
  | ignore

/-- trailer.c: the states `S_IGNORE` and `S_KEY` at the next character, for a trailer of which nothing has
been read. -/
def afterIgnored (c : Char) : TrailerState := if c = '\n' then .key [] else .ignore

/-- trailer.c: `S_KEY`. -/
def keyStep (k : Text) (c : Char) : TrailerState :=
  if isAlnumC c || c = '-' then .key (k ++ [c])
  else if c = ' ' || c = '\t' then .keyWs k
  else if c = ':' then .sepWs k
  else afterIgnored c

/-- trailer.c `git_message_trailers`: one character. A finished trailer is returned with the next state. -/
def trailerStep (s : TrailerState) (c : Char) : Option (Text × Text) × TrailerState :=
  match s with
  | .key k => (none, keyStep k c)
  | .keyWs k =>
    (none, if c = ' ' || c = '\t' then .keyWs k else if c = ':' then .sepWs k else afterIgnored c)
  | .sepWs k => (none, if c = ' ' || c = '\t' then .sepWs k else .value k [c])
  | .value k v => (none, if c = '\n' then .valueNl k v else .value k (v ++ [c]))
  | .valueNl k v =>
    if c = ' ' then (none, .value k (v ++ ['\n', c])) else (some (k, v), keyStep [] c)
  | .ignore => (none, afterIgnored c)

/-- trailer.c `git_message_trailers`: at the end of the block. -/
def trailerEnd : TrailerState → List (Text × Text)
  | .value k v => [(k, v)]
  | .valueNl k v => [(k, v)]
  | _ => []

/-- trailer.c `git_message_trailers`: the loop. -/
def parseTrailers : TrailerState → Text → List (Text × Text)
  | s, [] => trailerEnd s
  | s, c :: t => (trailerStep s c).1.toList ++ parseTrailers (trailerStep s c).2 t

/-- git-branchless-lib/src/git/object.rs:153-168 `get_trailers`, with git2's `message_trailers_bytes`
(which refuses messages with a NUL character, as they are no C strings) and libgit2's
`git_message_trailers`. `none` is an error. -/
def getTrailers (message : Text) : Option (List (Text × Text)) :=
  if '\x00' ∈ message then none
  else some (parseTrailers (.key []) (trailerBlock message))

end Verif
