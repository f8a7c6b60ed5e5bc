import Verif.Model.Basic

/-!
git-branchless-lib/src/git/status.rs (file statuses, file modes, status lines), and the loop of
`Repo::get_status` (git/repo.rs:1004-1048) which splits the output of
`git status --porcelain=v2 -z` in lines.

Text is modelled as a list of characters: the output is assumed to be valid UTF-8. (The code works
on bytes; its regular expression only matches valid UTF-8 too, so that any other path is an error.)
-/

namespace Verif

/-- status.rs:11-24 `FileStatus`. -/
inductive FileStatus where
  | unmodified
  | modified
  | added
  | deleted
  | renamed
  | copied
  | unmerged
  | untracked
  | ignored
deriving DecidableEq, Repr

/-- status.rs:29-42 `is_changed`. -/
def FileStatus.isChanged : FileStatus → Bool
  | .added => true
  | .copied => true
  | .deleted => true
  | .modified => true
  | .renamed => true
  | .ignored => false
  | .unmerged => false
  | .unmodified => false
  | .untracked => false

/-- status.rs:45-62 `From<u8> for FileStatus`. -/
def FileStatus.ofChar (c : Char) : FileStatus :=
  if c = '.' then .unmodified
  else if c = 'M' then .modified
  else if c = 'A' then .added
  else if c = 'D' then .deleted
  else if c = 'R' then .renamed
  else if c = 'C' then .copied
  else if c = 'U' then .unmerged
  else if c = '?' then .untracked
  else if c = '!' then .ignored
  else .untracked

/-- status.rs:67-75 `FileMode`. -/
inductive FileMode where
  | unreadable
  | tree
  | blob
  | blobExecutable
  | blobGroupWritable
  | link
  | commit
deriving DecidableEq, Repr

/-- status.rs:109-121 `From<FileMode> for i32`, with libgit2's constants (`git_filemode_t`). -/
def FileMode.toI32 : FileMode → Int
  | .unreadable => 0
  | .tree => 0o040000
  | .blob => 0o100644
  | .blobGroupWritable => 0o100664
  | .blobExecutable => 0o100755
  | .link => 0o120000
  | .commit => 0o160000

/-- status.rs:91-107 `From<i32> for FileMode`. -/
def FileMode.ofI32 (m : Int) : FileMode :=
  if m = FileMode.toI32 .blob then .blob
  else if m = FileMode.toI32 .blobExecutable then .blobExecutable
  else if m = FileMode.toI32 .commit then .commit
  else if m = FileMode.toI32 .link then .link
  else if m = FileMode.toI32 .tree then .tree
  else .unreadable

/-- status.rs:123-127 `From<FileMode> for u32`; `none` is a panic. -/
def FileMode.toU32 (m : FileMode) : Option Nat :=
  if 0 ≤ m.toI32 ∧ m.toI32 < 2 ^ 32 then some m.toI32.toNat else none

/-- status.rs:129-148 `FromStr for FileMode`; `none` is an error. -/
def FileMode.parse (s : Text) : Option FileMode :=
  if s = t!"000000" then some .unreadable
  else if s = t!"040000" then some .tree
  else if s = t!"100644" then some .blob
  else if s = t!"100755" then some .blobExecutable
  else if s = t!"100664" then some .blobGroupWritable
  else if s = t!"120000" then some .link
  else if s = t!"160000" then some .commit
  else none

/-- status.rs:150-162 `Display for FileMode`. -/
def FileMode.toText : FileMode → Text
  | .unreadable => t!"000000"
  | .tree => t!"040000"
  | .blob => t!"100644"
  | .blobExecutable => t!"100755"
  | .blobGroupWritable => t!"100664"
  | .link => t!"120000"
  | .commit => t!"160000"

/-- status.rs:165-178 `StatusEntry`. -/
structure StatusEntry where
  indexStatus : FileStatus
  workingCopyStatus : FileStatus
  workingCopyMode : FileMode
  path : Text
  origPath : Option Text
deriving DecidableEq, Repr

/-- status.rs:180-189 `StatusEntry::paths`. -/
def StatusEntry.paths (e : StatusEntry) : List Text := e.path :: e.origPath.toList

/-! ## Regular expressions

A regular expression with captures, as the list of its matches at the start of a text (captured
value and rest of the text), in the order of preference of a leftmost-first engine. -/

/-- See above. -/
abbrev Rx (α : Type) := Text → List (α × Text)

/-- Matches nothing, and captures a given value. -/
def Rx.pure {α : Type} (a : α) : Rx α := fun s => [(a, s)]

/-- Concatenation. -/
def Rx.bind {α β : Type} (r : Rx α) (f : α → Rx β) : Rx β :=
  fun s => (r s).flatMap fun x => f x.1 x.2

/-- Alternative: the first is preferred. -/
def Rx.or {α : Type} (a b : Rx α) : Rx α := fun s => a s ++ b s

/-- One character of a class. -/
def Rx.char (p : Char → Bool) : Rx Char
  | [] => []
  | c :: s => if p c then [(c, s)] else []

/-- Greedy `[..]+`: the longest match is preferred. -/
def Rx.plus (p : Char → Bool) : Rx Text
  | [] => []
  | c :: s => if p c then ((Rx.plus p s).map fun x => (c :: x.1, x.2)) ++ [([c], s)] else []

/-- `[..]{n}`. -/
def Rx.exactly (p : Char → Bool) : Nat → Rx Text
  | 0 => Rx.pure []
  | n + 1 => (Rx.char p).bind fun c => (Rx.exactly p n).bind fun s => Rx.pure (c :: s)

/-- Greedy `(..)?`. -/
def Rx.opt {α : Type} (r : Rx α) : Rx (Option α) :=
  Rx.or (r.bind fun a => Rx.pure (some a)) (Rx.pure none)

/-- `$`: the end of the text. -/
def Rx.eos : Rx Unit := fun s => if s.isEmpty then [((), s)] else []

/-- A literal character. -/
def Rx.lit (c : Char) : Rx Char := Rx.char (· = c)

/-- The classes `\d` and `\w` of the regular expression engine, which include characters outside of
ASCII; only their ASCII part is fixed here. -/
structure CharClasses where
  digit : Char → Bool
  word : Char → Bool
  digit_ascii : ∀ c, c.toNat < 128 → (digit c = true ↔ '0' ≤ c ∧ c ≤ '9')
  word_ascii : ∀ c, c.toNat < 128 → (word c = true ↔
    ('0' ≤ c ∧ c ≤ '9') ∨ ('a' ≤ c ∧ c ≤ 'z') ∨ ('A' ≤ c ∧ c ≤ 'Z') ∨ c = '_')

/-- `[\w.]`. -/
def CharClasses.wordDot (k : CharClasses) (c : Char) : Bool := k.word c || c == '.'

/-- `[a-f\d]`. -/
def CharClasses.hex (k : CharClasses) (c : Char) : Bool := ('a' ≤ c && c ≤ 'f') || k.digit c

/-- `[..]+` followed by a space. -/
def rxField (p : Char → Bool) : Rx Text :=
  (Rx.plus p).bind fun w => (Rx.lit ' ').bind fun _ => Rx.pure w

/-- `\d{6} `. -/
def rxMode (k : CharClasses) : Rx Text :=
  (Rx.exactly k.digit 6).bind fun m => (Rx.lit ' ').bind fun _ => Rx.pure m

/-- `(..){2,3}`, greedy; what is captured is not used. -/
def rxTwoOrThree {α : Type} (r : Rx α) : Rx Unit :=
  Rx.or (r.bind fun _ => r.bind fun _ => r.bind fun _ => Rx.pure ())
    (r.bind fun _ => r.bind fun _ => Rx.pure ())

/-- `\d{1,3}`, greedy. -/
def rxOneToThree (p : Char → Bool) : Rx Text :=
  Rx.or (Rx.exactly p 3) (Rx.or (Rx.exactly p 2) (Rx.exactly p 1))

/-- `[CR]\d{1,3} `. -/
def rxScore (k : CharClasses) : Rx Unit :=
  (Rx.char fun c => c == 'C' || c == 'R').bind fun _ =>
  (rxOneToThree k.digit).bind fun _ => (Rx.lit ' ').bind fun _ => Rx.pure ()

/-- `[^\x00]`. -/
def notNul (c : Char) : Bool := c != '\x00'

/-- `(?P<path>[^\x00]+)(\x00(?P<orig_path>[^\x00]+))?$`. -/
def rxPaths : Rx (Text × Option Text) :=
  (Rx.plus notNul).bind fun path =>
  (Rx.opt ((Rx.lit '\x00').bind fun _ => Rx.plus notNul)).bind fun orig =>
  Rx.eos.bind fun _ => Rx.pure (path, orig)

/-- `([a-f\d]+ ){2,3}([CR]\d{1,3} )?` and the paths. -/
def rxTail (k : CharClasses) : Rx (Text × Option Text) :=
  (rxTwoOrThree (rxField k.hex)).bind fun _ =>
  (Rx.opt (rxScore k)).bind fun _ => rxPaths

/-- What the regular expression captures. -/
structure StatusCaptures where
  pfx : Char
  index : Char
  workingCopy : Char
  mode : Text
  path : Text
  orig : Option Text

/-- status.rs:197-211 `STATUS_PORCELAIN_V2_REGEXP`. -/
def rxStatus (k : CharClasses) : Rx StatusCaptures :=
  (Rx.char fun c => c == '1' || c == '2' || c == 'u').bind fun pfx =>
  (Rx.lit ' ').bind fun _ =>
  (Rx.char k.wordDot).bind fun index =>
  (Rx.char k.wordDot).bind fun workingCopy =>
  (Rx.lit ' ').bind fun _ =>
  (rxField k.wordDot).bind fun _ =>
  (rxTwoOrThree (rxMode k)).bind fun _ =>
  (rxMode k).bind fun mode =>
  (rxTail k).bind fun paths =>
  Rx.pure ⟨pfx, index, workingCopy, mode, paths.1, paths.2⟩

/-- status.rs:191-256 `TryFrom<&[u8]> for StatusEntry`; `none` is an error. -/
def StatusEntry.ofLine (k : CharClasses) (line : Text) : Option StatusEntry :=
  match (rxStatus k line).head? with
  | none => none
  | some (m, _) =>
    match FileMode.parse m.mode with
    | none => none
    | some mode =>
      some { indexStatus := if m.pfx = 'u' then .unmerged else FileStatus.ofChar m.index
             workingCopyStatus := FileStatus.ofChar m.workingCopy
             workingCopyMode := mode
             path := m.path
             origPath := m.orig }

/-- Why reading the status failed. -/
inductive StatusError where
  | unknownPrefix (c : Char)
  | parse (line : Text)
deriving DecidableEq, Repr

/-- `status_bytes.by_ref().take_while(not_null_terminator)`: the characters before the next NUL,
and what is left of the iterator (the NUL is consumed). -/
def takeEntry (s : Text) : Text × Text := (s.takeWhile notNul, (s.dropWhile notNul).drop 1)

/-- git/repo.rs:1004-1048, the loop of `get_status`, with at most `fuel` rounds; `none` says that
they were not enough. A header line (`#`) is peeked at and not consumed. -/
def parseStatus (k : CharClasses) : Nat → Text → Option (Except StatusError (List StatusEntry))
  | 0, _ => none
  | _ + 1, [] => some (.ok [])
  | fuel + 1, c :: s =>
    if c = '#' then parseStatus k fuel (c :: s)
    else if c = '1' ∨ c = 'u' ∨ c = '2' then
      let x := takeEntry (c :: s)
      let line := if c = '2' then x.1 ++ '\x00' :: (takeEntry x.2).1 else x.1
      let rest := if c = '2' then (takeEntry x.2).2 else x.2
      match StatusEntry.ofLine k line with
      | none => some (.error (.parse line))
      | some e =>
        match parseStatus k fuel rest with
        | none => none
        | some (.error err) => some (.error err)
        | some (.ok es) => some (.ok (e :: es))
    else some (.error (.unknownPrefix c))

end Verif
