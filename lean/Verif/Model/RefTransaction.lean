import Verif.Model.EventLog
import Verif.Model.Lines

/-!
Model of the reference-transaction hook: git-branchless-hook/src/lib.rs, lines 187-610.
-/

namespace Verif

/-- hook/lib.rs:199-208 `ReferenceTarget`. -/
inductive RefTarget where
  | direct (oid : MaybeZero)
  | symbolic (name : Text)
deriving DecidableEq, Repr

/-- hook/lib.rs:229-248 `FromStr for ReferenceTarget`; `none` is an error. -/
def RefTarget.parse (s : Text) : Option RefTarget :=
  if (t!"ref:").isPrefixOf s then some (.symbolic (s.drop 4))
  else (MaybeZero.parse s).map .direct

/-- hook/lib.rs:211-227 `as_oid`. `resolve` is `Repo::reference_name_to_oid`
(git-branchless-lib/src/git/repo.rs:703-711), `none` if the reference does not resolve. -/
def RefTarget.asOid (resolve : Text → Option MaybeZero) : RefTarget → Option MaybeZero
  | .direct oid => some oid
  | .symbolic name => resolve name

/-- Rust `char::is_ascii_hexdigit`. -/
def isAsciiHexDigit (c : Char) : Bool :=
  ('0' ≤ c && c ≤ '9') || ('a' ≤ c && c ≤ 'f') || ('A' ≤ c && c ≤ 'F')

/-- hook/lib.rs:251-294 `parse_packed_refs_line`. The regular expression `^([^ ]+) (.+)$` splits
at the first space and wants both sides non-empty; the line has no newline in it. -/
def parsePackedRefsLine (line : Text) : Option (Text × MaybeZero) :=
  match line with
  | [] => none
  | c :: _ =>
    if c = '#' then none
    else if c = '^' then none
    else if !isAsciiHexDigit c then none
    else
      match (line.takeWhile (· ≠ ' '), line.dropWhile (· ≠ ' ')) with
      | (_, []) => none
      | (_, [_]) => none
      | (oid, _ :: name) => (MaybeZero.parse oid).map fun o => (name, o)

/-- hook/lib.rs:308-330 `read_packed_refs_file`. `none` is a missing file; a file which cannot be
read (or is not UTF-8) is not modelled here, see `hookReferenceTransaction`. -/
def readPackedRefs (file : Option Text) : AMap Text MaybeZero :=
  match file with
  | none => []
  | some contents => AMap.ofList ((textLines contents).filterMap parsePackedRefsLine)

/-- hook/lib.rs:332-337 `ParsedReferenceTransactionLine`. -/
structure ParsedRefLine where
  refName : Text
  old : RefTarget
  new : RefTarget
deriving DecidableEq, Repr

/-- hook/lib.rs:340-357 `parse_reference_transaction_line`; `none` is an error. -/
def parseRefLine (line : Text) : Option ParsedRefLine :=
  match splitChar ' ' line with
  | [old, new, name] =>
    match RefTarget.parse old, RefTarget.parse new with
    | some old, some new => some ⟨name, old, new⟩
    | _, _ => none
  | _ => none

/-- hook/lib.rs:418-427 `reftarget_matches_refname`. -/
def targetMatches (packed : AMap Text MaybeZero) (t : RefTarget) (name : Text) : Bool :=
  match t with
  | .direct oid => packed.get? name == some oid
  | .symbolic n => n == name

/-- hook/lib.rs:453-497 `fix_packed_reference_oid`. -/
def fixPacked (packed : AMap Text MaybeZero) (l : ParsedRefLine) : ParsedRefLine :=
  if l.old = .direct .zero ∧ targetMatches packed l.new l.refName = true then
    { l with old := l.new }
  else if l.new = .direct .zero ∧ targetMatches packed l.old l.refName = true then
    { l with new := l.old }
  else l

/-- hook/lib.rs:523-557: the lines which are kept, corrected. -/
def keptLines (packed : AMap Text MaybeZero) (lines : List (Option Text)) : List ParsedRefLine :=
  ((lines.filterMap fun l => l.bind parseRefLine).filter
    fun l => !shouldIgnoreRefUpdates l.refName).map (fixPacked packed)

/-- hook/lib.rs:588-605: the event of a line; `none` is an error. -/
def eventOfLine (now : Timestamp) (tx : TxId) (resolve : Text → Option MaybeZero)
    (l : ParsedRefLine) : Option Event := do
  let old ← l.old.asOid resolve
  let new ← l.new.asOid resolve
  pure (Event.refUpdate now tx l.refName old new none)

/-- hook/lib.rs:504-610 `hook_reference_transaction`. `packedFile` is `none` if `packed-refs` cannot
be read, and else the file (if it exists). `lines` are the lines of the standard input, `none` for a line
that is not UTF-8. The result is whether the hook succeeded, and the database. The message printed
is not modelled. -/
def hookReferenceTransaction (db : Db) (env : Option Text) (state : Text) (now : Timestamp)
    (packedFile : Option (Option Text)) (resolve : Text → Option MaybeZero)
    (lines : List (Option Text)) : Bool × Db :=
  if state ≠ t!"committed" then (true, db)
  else
    let (tx, db) := db.makeTransactionId env t!"reference-transaction"
    match packedFile with
    | none => (false, db)
    | some file =>
      let packed := readPackedRefs file
      let parsed := keptLines packed lines
      if parsed.isEmpty then (true, db)
      else
        match parsed.mapM (eventOfLine now tx resolve) with
        | none => (false, db)
        | some es => (true, db.addEvents es)

end Verif
