import Verif.Model.Lines
import Verif.Model.Plan
import Verif.Model.Execute

/-!
`git reword`: the text for the editor, and what is read from the edited text. Model of
git-branchless-reword/src/lib.rs.
-/

namespace Verif

/-! ### libgit2's `git_message_prettify` -/

/-- libgit2 `git__isspace`. -/
def gitSpace (c : Char) : Bool := (9 ≤ c.toNat && c.toNat ≤ 13) || c.toNat == 32

/-- libgit2 `line_length_without_trailing_spaces`. -/
def rtrim (line : Text) : Text := (line.reverse.dropWhile gitSpace).reverse

/-- The first byte of a character in UTF-8. -/
def leadByte (c : Char) : Nat :=
  let n := c.toNat
  if n < 0x80 then n else if n < 0x800 then 0xC0 + n / 64
  else if n < 0x10000 then 0xE0 + n / 4096 else 0xF0 + n / 262144

/-- A comment. libgit2 compares bytes. -/
def isComment (comment : Option Char) (line : Text) : Bool :=
  match comment, line with
  | some c, x :: _ => leadByte x == c.toNat
  | _, _ => false

/-- The loop of `git_message_prettify`: comments are left out, trailing spaces are removed, and blank lines
appear only between other lines, one at a time. `started`: something was written; `blank`: there were blank
lines since. -/
def prettifyLines (comment : Option Char) : Bool → Bool → List Text → List Text
  | _, _, [] => []
  | started, blank, line :: rest =>
    if isComment comment line then prettifyLines comment started blank rest
    else if rtrim line = [] then prettifyLines comment started true rest
    else (if blank && started then [[]] else []) ++ [rtrim line] ++ prettifyLines comment true false rest

/-- Lines, each with its end. -/
def unlines (ls : List Text) : Text := ls.flatMap fun l => l ++ ['\n']

/-- repo.rs:295-309 `message_prettify`: an error for a comment character which is not a byte, or a text with
a zero byte; else libgit2's `git_message_prettify`, an external library. -/
def messagePrettify (text : Text) (comment : Option Char) : Except Unit Text :=
  if comment.any (fun c => 256 ≤ c.toNat) then .error ()
  else if '\x00' ∈ text then .error ()
  else .ok (unlines (prettifyLines comment false false (splitChar '\n' text)))

/-! ### Rust's `split` by a string -/

/-- The rest of `splitText`: the number of characters of the separator still to be skipped. -/
def splitTextAux (sep : Text) : Nat → Text → List Text
  | _, [] => [[]]
  | skip + 1, _ :: cs => splitTextAux sep skip cs
  | 0, c :: cs =>
    if sep.isPrefixOf (c :: cs) then [] :: splitTextAux sep (sep.length - 1) cs
    else
      match splitTextAux sep 0 cs with
      | [] => [[c]]
      | p :: ps => (c :: p) :: ps

/-- Rust `str::split(&str)`, for a separator which is not empty. -/
def splitText (sep t : Text) : List Text := splitTextAux sep 0 t

/-- Rust `str::split_once(char)`. -/
def splitOnce (c : Char) : Text → Option (Text × Text)
  | [] => none
  | x :: xs => if x = c then some ([], xs) else (splitOnce c xs).map fun r => (x :: r.1, r.2)

/-! ### the messages -/

/-- What is used of a commit. -/
structure RewordCommit where
  oid : Oid
  /-- `get_short_oid` (libgit2's `short_id`), whose errors are not modelled. -/
  short : Text
  /-- `get_message_raw`; nothing if it cannot be decoded. -/
  message : Option Text
deriving DecidableEq

/-- lib.rs:48-59 `InitialCommitMessages`; `FixUp` was replaced with a message before (lib.rs:135-176). -/
inductive InitialMessages where
  | discard
  | messages (ms : List Text)
deriving DecidableEq

def rewordMarker : Text := t!"++ reword"

/-- lib.rs:560-572 `ParseMessageResult`. The hash map is in the order of its insertions. -/
structure ParsedMessages where
  duplicates : List Text
  messages : AMap Oid Text
  unexpected : List Text

/-- lib.rs:575-579: `commits_oids`. -/
def shortOids (commits : List RewordCommit) : AMap Text Oid :=
  commits.foldl (fun m c => AMap.insert m c.short c.oid) []

/-- lib.rs:581-587: for one commit, the marker is added if there is none in the text. -/
def markedText (message : Text) : List RewordCommit → Text
  | [only] =>
    if rewordMarker <:+: message then message else rewordMarker ++ [' '] ++ only.short ++ ['\n'] ++ message
  | _ => message

/-- lib.rs:590-593: `msgs`. -/
def bulkSections (text : Text) : List (Text × Text) :=
  ((splitText rewordMarker text).filterMap (splitOnce '\n')).map fun s => (trim s.1, s.2)

/-- lib.rs:598-612: the loop. -/
def parseSections (oids : AMap Text Oid) (comment : Char) (r : ParsedMessages) :
    List (Text × Text) → Except Unit ParsedMessages
  | [] => .ok r
  | (hash, msg) :: rest =>
    match AMap.get? oids hash with
    | none => parseSections oids comment { r with unexpected := r.unexpected ++ [hash] } rest
    | some oid =>
      if (AMap.get? r.messages oid).isSome then
        parseSections oids comment { r with duplicates := r.duplicates ++ [hash] } rest
      else
        match messagePrettify msg (some comment) with
        | .error e => .error e
        | .ok m => parseSections oids comment { r with messages := AMap.insert r.messages oid m } rest

/-- lib.rs:574-622 `parse_bulk_edit_message`. -/
def parseBulkEditMessage (message : Text) (commits : List RewordCommit) (comment : Char) :
    Except Unit ParsedMessages :=
  parseSections (shortOids commits) comment ⟨[], [], []⟩ (bulkSections (markedText message commits))

/-- lib.rs:352-373 `PrepareMessagesResult`. -/
inductive PreparedMessages where
  | empty
  | identical
  | mismatched (duplicates missing unexpected : List Text)
  | succeeded (messages : AMap Oid Text)
deriving DecidableEq

/-- Rust `[&str]::join`. -/
def joinTexts (sep : Text) (ts : List Text) : Text := List.intercalate sep ts

/-- lib.rs:434-446: the message of a commit, as a comment below the template. -/
def discardedMessage (comment : Char) (template original : Text) : Text :=
  let possible := if trim template = [] then ['\n'] else trim template ++ ['\n', '\n']
  possible ++ (comment :: t!" Original message:\n" ++ (comment :: t!" ")) ++
    joinTexts ('\n' :: comment :: [' ']) (splitChar '\n' original)

/-- lib.rs:448-452: the part of the text for one commit. -/
def commitPart (single : Bool) (short msg : Text) : Text :=
  if single then msg ++ ['\n', '\n']
  else rewordMarker ++ [' '] ++ short ++ ['\n'] ++ msg ++ ['\n', '\n']

/-- lib.rs:456-476: the explanation at the end. -/
def rewordFooter (comment : Char) (count : Nat) : Text :=
  (comment :: t!" Rewording: Please enter the commit ") ++
    (if count = 1 then t!"message" else t!"messages") ++ t!" to apply to " ++
    (if count = 1 then t!"this 1 commit" else t!"these " ++ natToText count ++ t!" commits") ++ t!".\n" ++
    (comment :: t!" Lines starting with '") ++ [comment] ++ t!"' will be ignored, and an empty message aborts\n" ++
    (comment :: t!" rewording.")

/-- lib.rs:410-476: the text for the editor; an error if a message cannot be decoded. -/
def editorText (comment : Char) (template : Text) (discard : Bool) (commits : List RewordCommit) :
    Except Unit Text :=
  let parts := commits.mapM fun c =>
    c.message.map fun m =>
      let original := trim m
      commitPart (commits.length = 1) c.short
        (if discard then discardedMessage comment template original else original)
  match parts with
  | none => .error ()
  | some parts => .ok (parts.flatten ++ rewordFooter comment commits.length)

/-- lib.rs:379-558 `prepare_messages`; `edit` is the editor. That the edited text is saved to a file if it
does not match (lib.rs:513-535) is not modelled. `missing` is in the order of a hash set (it is sorted before
it is shown). -/
def prepareMessages (comment : Char) (template : Text) (messages : InitialMessages)
    (commits : List RewordCommit) (edit : Text → Except Unit Text) : Except Unit PreparedMessages :=
  let (message, loadEditor, discard) :=
    match messages with
    | .discard => (template, true, true)
    | .messages ms =>
      let message := trim (joinTexts ['\n', '\n'] ms)
      (message, message.isEmpty, false)
  if !loadEditor then
    match messagePrettify message none with
    | .error e => .error e
    | .ok message =>
      if trim message = [] then .ok .empty
      else .ok (.succeeded (commits.foldl (fun m c => AMap.insert m c.oid message) []))
  else
    match editorText comment message discard commits with
    | .error e => .error e
    | .ok text =>
      match edit text with
      | .error e => .error e
      | .ok edited =>
        if edited = text then .ok .identical
        else
          match messagePrettify edited (some comment) with
          | .error e => .error e
          | .ok message =>
            if trim message = [] then .ok .empty
            else
              match parseBulkEditMessage message commits comment with
              | .error e => .error e
              | .ok parsed =>
                let missing := commits.filter fun c => (AMap.get? parsed.messages c.oid).isNone
                let same := missing.isEmpty &&
                  (AMap.keys parsed.messages).all fun o => decide (o ∈ commits.map (·.oid))
                if same && parsed.duplicates.isEmpty && parsed.unexpected.isEmpty then
                  .ok (.succeeded parsed.messages)
                else .ok (.mismatched parsed.duplicates (missing.map (·.short)) parsed.unexpected)

end Verif
