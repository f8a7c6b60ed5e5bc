import Verif.Model.Status
import Verif.Model.Text

/-!
The format of `git status --porcelain=v2 -z`, from git's documentation (git-status, "Porcelain
Format Version 2"), and what its entries mean.
-/

namespace Verif.Spec

/-- The letters used for `X` and `Y`. -/
inductive Letter where
  | unmodified
  | modified
  | typeChanged
  | added
  | deleted
  | renamed
  | copied
  | unmerged
deriving DecidableEq

def Letter.char : Letter → Char
  | .unmodified => '.'
  | .modified => 'M'
  | .typeChanged => 'T'
  | .added => 'A'
  | .deleted => 'D'
  | .renamed => 'R'
  | .copied => 'C'
  | .unmerged => 'U'

/-- What a letter should be read as, except for a changed type, for which there is no status. -/
def Letter.status : Letter → FileStatus
  | .unmodified => .unmodified
  | .modified => .modified
  | .typeChanged => .modified
  | .added => .added
  | .deleted => .deleted
  | .renamed => .renamed
  | .copied => .copied
  | .unmerged => .unmerged

/-- The submodule state: `N...` or `S<c><m><u>`. -/
inductive Submodule where
  | no
  | yes (c m u : Bool)

def Submodule.text : Submodule → Text
  | .no => t!"N..."
  | .yes c m u => ['S', if c then 'C' else '.', if m then 'M' else '.', if u then 'U' else '.']

/-- An entry. -/
inductive GitEntry where
  /-- `1 <XY> <sub> <mH> <mI> <mW> <hH> <hI> <path>` -/
  | ordinary (x y : Letter) (sub : Submodule) (mH mI mW : FileMode) (hH hI : MaybeZero) (path : Text)
  /-- `2 <XY> <sub> <mH> <mI> <mW> <hH> <hI> <X><score> <path><sep><origPath>` -/
  | renamed (x y : Letter) (sub : Submodule) (mH mI mW : FileMode) (hH hI : MaybeZero)
      (copy : Bool) (score : Nat) (path orig : Text)
  /-- `u <XY> <sub> <m1> <m2> <m3> <mW> <h1> <h2> <h3> <path>` -/
  | unmerged (x y : Letter) (sub : Submodule) (m1 m2 m3 mW : FileMode) (h1 h2 h3 : MaybeZero)
      (path : Text)

/-- Fields separated by spaces, each followed by one. -/
def fields (fs : List Text) : Text := fs.flatMap fun f => f ++ [' ']

/-- How git writes an entry (without the terminating NUL). -/
def GitEntry.text : GitEntry → Text
  | .ordinary x y sub mH mI mW hH hI path =>
    fields [t!"1", [x.char, y.char], sub.text, mH.toText, mI.toText, mW.toText, hH.toText, hI.toText]
      ++ path
  | .renamed x y sub mH mI mW hH hI copy score path orig =>
    fields [t!"2", [x.char, y.char], sub.text, mH.toText, mI.toText, mW.toText, hH.toText, hI.toText,
      (if copy then 'C' else 'R') :: natToText score] ++ (path ++ '\x00' :: orig)
  | .unmerged x y sub m1 m2 m3 mW h1 h2 h3 path =>
    fields [t!"u", [x.char, y.char], sub.text, m1.toText, m2.toText, m3.toText, mW.toText, h1.toText,
      h2.toText, h3.toText] ++ path

/-- The output for a list of entries. -/
def statusOutput (es : List GitEntry) : Text := es.flatMap fun e => e.text ++ ['\x00']

/-- How an entry should be read. -/
def GitEntry.expected : GitEntry → StatusEntry
  | .ordinary x y _ _ _ mW _ _ path => ⟨x.status, y.status, mW, path, none⟩
  | .renamed x y _ _ _ mW _ _ _ _ path orig => ⟨x.status, y.status, mW, path, some orig⟩
  | .unmerged _ y _ _ _ _ mW _ _ _ path => ⟨.unmerged, y.status, mW, path, none⟩

/-- What git can write: non-empty paths without NUL, scores up to 100. -/
def GitEntry.Valid : GitEntry → Prop
  | .ordinary _ _ _ _ _ _ _ _ path => path ≠ [] ∧ '\x00' ∉ path
  | .renamed _ _ _ _ _ _ _ _ _ score path orig =>
    score ≤ 100 ∧ path ≠ [] ∧ '\x00' ∉ path ∧ orig ≠ [] ∧ '\x00' ∉ orig
  | .unmerged _ _ _ _ _ _ _ _ _ _ path => path ≠ [] ∧ '\x00' ∉ path

/-- A path which starts like another column of the format. -/
def LooksLikeScore (k : CharClasses) (path : Text) : Prop :=
  ∃ c ds rest, path = c :: ds ++ ' ' :: rest ∧ (c = 'C' ∨ c = 'R') ∧ 1 ≤ ds.length ∧ ds.length ≤ 3 ∧
    (∀ d ∈ ds, k.digit d = true) ∧ rest ≠ []

def LooksLikeId (k : CharClasses) (path : Text) : Prop :=
  ∃ w rest, path = w ++ ' ' :: rest ∧ w ≠ [] ∧ (∀ d ∈ w, k.hex d = true) ∧ rest ≠ []

/-- The entries which are read correctly: no type change, and paths which do not start like
another column. -/
def GitEntry.Plain (k : CharClasses) : GitEntry → Prop
  | .ordinary x y _ _ _ _ _ _ path =>
    x ≠ .typeChanged ∧ y ≠ .typeChanged ∧ ¬ LooksLikeScore k path ∧ ¬ LooksLikeId k path
  | .renamed x y _ _ _ _ _ _ _ _ _ _ => x ≠ .typeChanged ∧ y ≠ .typeChanged
  | .unmerged _ y _ _ _ _ _ _ _ _ path => y ≠ .typeChanged ∧ ¬ LooksLikeScore k path

end Verif.Spec
