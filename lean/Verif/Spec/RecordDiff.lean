import Verif.Model.RecordDiff
import Verif.Spec.Snapshot

/-!
What `record --interactive` should offer and stage: a comparison of two files as pieces, the hunks with which
git describes it, what choosing changes means for the text of a file, and what is expected of the
program which asks the user.
-/

namespace Verif.Spec

open Verif

/-- A piece of a comparison of two files: lines which are in both, or lines which are replaced. -/
inductive Piece where
  | same (lines : List Text)
  | change (removed added : List Text)
deriving DecidableEq

/-- The old file. -/
def oldOf : List Piece → List Text
  | [] => []
  | .same ls :: ps => ls ++ oldOf ps
  | .change r _ :: ps => r ++ oldOf ps

/-- The new file. -/
def newOf : List Piece → List Text
  | [] => []
  | .same ls :: ps => ls ++ newOf ps
  | .change _ a :: ps => a ++ newOf ps

/-- The file with some of the changes: those for which `choice` says so, counted from `i`. -/
def mixOf (choice : Nat → Bool) : Nat → List Piece → List Text
  | _, [] => []
  | i, .same ls :: ps => ls ++ mixOf choice i ps
  | i, .change r a :: ps => (if choice i then a else r) ++ mixOf choice (i + 1) ps

/-- The changes. -/
def changesOf : List Piece → List (List Text × List Text)
  | [] => []
  | .same _ :: ps => changesOf ps
  | .change r a :: ps => (r, a) :: changesOf ps

/-- The first piece is a change. -/
def startsChanged : List Piece → Bool
  | .change _ _ :: _ => true
  | _ => false

/-- No piece is empty, and there is something between two changes. -/
def Separated : List Piece → Prop
  | [] => True
  | .same ls :: ps => ls ≠ [] ∧ Separated ps
  | .change r a :: ps => (r ≠ [] ∨ a ≠ []) ∧ startsChanged ps = false ∧ Separated ps

/-- The start of a range of lines as git writes it: lines are counted from one; an empty range is after
the line with this number. -/
def rangeStart (pos : Nat) (lines : List Text) : Nat := if lines = [] then pos else pos + 1

/-- The hunks of a comparison, without context (`git diff -U0`), where `o` and `n` lines of the files come
before. -/
def hunksOf : Nat → Nat → List Piece → List Hunk
  | _, _, [] => []
  | o, n, .same ls :: ps => hunksOf (o + ls.length) (n + ls.length) ps
  | o, n, .change r a :: ps =>
    ⟨rangeStart o r, r.length, rangeStart n a, a.length⟩ :: hunksOf (o + r.length) (n + a.length) ps

/-- The lines of a text, with the characters which end them. -/
structure IsLines (text : Text) (lines : List Text) : Prop where
  joined : lines.flatten = text
  nonempty : ∀ l ∈ lines, l ≠ []
  single : ∀ l ∈ lines, '\n' ∉ l.dropLast
  ended : ∀ l ∈ lines.dropLast, l.getLast? = some '\n'

/-- The lines of a text file (which may be absent). -/
def FileLines (env : DiffEnv) (oid : MaybeZero) (lines : List Text) : Prop :=
  (oid = .zero ∧ lines = []) ∨
  ∃ o b t, oid = .nonZero o ∧ env.blob o = some b ∧ b.isBinary = false ∧ b.text = some t ∧ IsLines t lines

/-! ### choosing -/

/-- The lines of a section which are in the file if the marked changes are made. -/
def chosenIn : FileSection → List Text
  | .unchanged ls => ls
  | .changed ls =>
    (ls.filter fun l => match l.change with
      | .added => l.checked
      | .removed => !l.checked).map (·.line)
  | _ => []

/-- The file with the marked changes. -/
def chosenLines (ss : List FileSection) : List Text := ss.flatMap chosenIn

/-- Mark a section, or remove its marks. -/
def markSection (b : Bool) : FileSection → FileSection
  | .unchanged ls => .unchanged ls
  | .changed ls => .changed (ls.map fun l => { l with checked := b })
  | .fileMode _ before after => .fileMode b before after
  | .binary _ o n => .binary b o n

/-- Mark some of the changes, counted from `i`. -/
def markChanges (choice : Nat → Bool) : Nat → List FileSection → List FileSection
  | _, [] => []
  | i, .changed ls :: ss => markSection (choice i) (.changed ls) :: markChanges choice (i + 1) ss
  | i, s :: ss => s :: markChanges choice i ss

/-- The changes which are offered: the removed and the added lines of each section. -/
def offeredChanges : List FileSection → List (List Text × List Text)
  | [] => []
  | .changed ls :: ss =>
    ((ls.filter (·.change = .removed)).map (·.line), (ls.filter (·.change = .added)).map (·.line)) ::
      offeredChanges ss
  | _ :: ss => offeredChanges ss

/-- A section about lines. -/
def FileSection.IsText : FileSection → Prop
  | .unchanged _ => True
  | .changed _ => True
  | _ => False

/-- What is offered for a comparison of two text files. -/
structure TextOffer (ps : List Piece) (ss : List FileSection) : Prop where
  text : ∀ s ∈ ss, FileSection.IsText s
  /-- Nothing is marked. -/
  unmarked : ss.map (markSection false) = ss
  /-- Exactly the changes are offered. -/
  changes : offeredChanges ss = changesOf ps
  /-- Nothing marked: the old file. -/
  none : chosenLines (ss.map (markSection false)) = oldOf ps
  /-- Everything marked: the new file. -/
  all : chosenLines (ss.map (markSection true)) = newOf ps
  /-- Some changes marked: the file with these changes. -/
  some : ∀ choice, chosenLines (markChanges choice 0 ss) = mixOf choice 0 ps

/-- The section about the mode of a file. -/
def modeSection (oldMode newMode : Nat) : List FileSection :=
  if oldMode = newMode then [] else [.fileMode false oldMode newMode]

/-- What is offered for a file. -/
structure FileOffer (env : DiffEnv) (d : Delta) (f : RecordFile) : Prop where
  mode : f.mode = some d.oldMode
  deleted : d.newOid = .zero → f.sections = [.fileMode false d.oldMode 0]
  binary : d.newOid ≠ .zero → ∀ o n, d.content = .binary o n → ∃ x y, f.sections = [.binary false x y]
  text : d.newOid ≠ .zero → ∀ ps, d.content = .hunks (hunksOf 0 0 ps) → Separated ps →
    FileLines env d.oldOid (oldOf ps) → FileLines env d.newOid (newOf ps) →
    ∃ ss, f.sections = modeSection d.oldMode d.newMode ++ ss ∧ TextOffer ps ss

/-! ### the comparison of two trees -/

/-- The object and the mode of a file which may be absent. -/
def fileOid (f : Option File) : MaybeZero := match f with
  | some f => .nonZero f.2
  | none => .zero

def fileModeOf (f : Option File) : Nat := match f with
  | some f => f.1
  | none => 0

/-- The comparison of two files by libgit2: for a deleted file anything, for a binary file its sizes, for
others the hunks of some comparison of their lines. -/
def GoodContent (env : DiffEnv) (d : Delta) : Prop :=
  d.newOid = .zero ∨ (∃ o n, d.content = .binary o n) ∨
  ∃ ps, d.content = .hunks (hunksOf 0 0 ps) ∧ Separated ps ∧
    FileLines env d.oldOid (oldOf ps) ∧ FileLines env d.newOid (newOf ps)

/-- The contract for libgit2's comparison of two trees (without detection of renames): each file which
differs is listed once. -/
structure ComparesTrees (env : DiffEnv) (old new : Tree) (diff : List FileDelta) : Prop where
  paths : ∀ p, p ∈ diff.map (·.newPath) ↔ fileAt old p ≠ fileAt new p
  once : (diff.map (·.newPath)).Nodup
  same : ∀ d ∈ diff, d.oldPath = d.newPath
  oldFile : ∀ d ∈ diff, d.delta.oldOid = fileOid (fileAt old d.newPath) ∧
    d.delta.oldMode = fileModeOf (fileAt old d.newPath)
  newFile : ∀ d ∈ diff, d.delta.newOid = fileOid (fileAt new d.newPath) ∧
    d.delta.newMode = fileModeOf (fileAt new d.newPath)
  content : ∀ d ∈ diff, GoodContent env d.delta

end Verif.Spec

namespace Verif.Spec

open Verif

/-! ### the program which asks the user -/

/-- The same file, up to the marks. -/
structure SameButMarks (f g : RecordFile) : Prop where
  path : g.path = f.path
  mode : g.mode = f.mode
  sections : g.sections.map (markSection false) = f.sections.map (markSection false)

/-- The mode which a section gives, if it is marked. -/
def markedMode : FileSection → Option Nat
  | .fileMode true _ after => some after
  | _ => none

/-- The mode of a file with the marked changes. -/
def chosenMode (f : RecordFile) : Option Nat := (f.sections.findSome? markedMode).or f.mode

/-- The file with everything marked, or nothing. -/
def markFile (b : Bool) (f : RecordFile) : RecordFile := { f with sections := f.sections.map (markSection b) }

/-- What is expected of the crate `scm-record`: the user only changes the marks; the contents of a file are
those which the marks mean. Nothing is said about a text file from which all lines are removed. -/
structure Faithful (rec : Recorder) : Prop where
  run : ∀ fs gs, rec.run fs = some gs → List.Forall₂ SameButMarks fs gs
  mode : ∀ f, rec.mode f = chosenMode f
  deleted : ∀ p m c b, rec.contents ⟨p, m, [.fileMode c b 0]⟩ = if c then .absent else .unchanged
  binary : ∀ p m c x y, rec.contents ⟨p, m, [.binary c x y]⟩ = if c then .binary else .unchanged
  text : ∀ p m ms ss, (ms = [] ∨ ∃ c b a, ms = [.fileMode c b a] ∧ a ≠ 0) →
    (∀ s ∈ ss, FileSection.IsText s) → (chosenLines ss).flatten ≠ [] →
    rec.contents ⟨p, m, ms ++ ss⟩ = .present (chosenLines ss).flatten
  /-- A new file, nothing of which is marked. -/
  nothing : ∀ p m a ss, (∀ s ∈ ss, FileSection.IsText s) → (chosenLines ss).flatten = [] →
    rec.contents ⟨p, m, .fileMode false 0 a :: ss⟩ = .unchanged

/-- The file which the marks mean. -/
inductive Stages (hash : Text → Oid) (old new : Tree) (d : Delta) (g : RecordFile) : Option File → Prop
  /-- The file is deleted, or not. -/
  | deleted (c : Bool) (b : Nat) (h : g.sections = [.fileMode c b 0]) :
    Stages hash old new d g (if c then none else fileAt old g.path)
  /-- A binary file is replaced (its mode stays), or not. -/
  | binary (c : Bool) (x y : Option Text) (h : g.sections = [.binary c x y]) {f : Option File}
    (hf : if c then ∃ fo fn, fileAt old g.path = some fo ∧ fileAt new g.path = some fn ∧ f = some (fo.1, fn.2)
      else f = fileAt old g.path) : Stages hash old new d g f
  /-- Some lines are there: the text, with the new mode or the old one. -/
  | text (ms ss : List FileSection) (h : g.sections = ms ++ ss)
    (hms : ms = [] ∧ d.oldMode = d.newMode ∨
      ∃ c, ms = [.fileMode c d.oldMode d.newMode] ∧ d.oldMode ≠ d.newMode ∧ d.newMode ≠ 0)
    (ht : ∀ s ∈ ss, FileSection.IsText s) (hne : (chosenLines ss).flatten ≠ [])
    (hm : (if ms = [.fileMode true d.oldMode d.newMode] then d.newMode else d.oldMode) ∈ fileModes) :
    Stages hash old new d g (some (if ms = [.fileMode true d.oldMode d.newMode] then d.newMode
      else d.oldMode, hash (chosenLines ss).flatten))
  /-- A new file, nothing of which is marked. -/
  | nothing (a : Nat) (ss : List FileSection) (h : g.sections = .fileMode false 0 a :: ss)
    (ht : ∀ s ∈ ss, FileSection.IsText s) (he : (chosenLines ss).flatten = [])
    (hold : fileAt old g.path = none) : Stages hash old new d g none

/-- No file is where the other tree has a directory. -/
def NoKindChange (old new : Tree) : Prop :=
  ∀ p, fileAt old p ≠ fileAt new p → ∀ m es, nodeAt old p ≠ some (.dir m es) ∧ nodeAt new p ≠ some (.dir m es)

/-- Blobs are found by their contents. -/
def HashesBlobs (env : DiffEnv) (hash : Text → Oid) : Prop :=
  ∀ o b t, env.blob o = some b → b.text = some t → hash t = o

end Verif.Spec
