import Verif.Model.Basic

/-!
Reference names: git-branchless-lib/src/git/reference.rs.
-/

namespace Verif

/-- reference.rs:138-166 `CategorizedReferenceName`. The `prefix` field is determined by the
constructor and given by `RefCategory.pfx`. -/
inductive RefCategory where
  | localBranch (name : Text)
  | remoteBranch (name : Text)
  | otherRef (name : Text)
deriving DecidableEq, Repr

/-- `str::strip_prefix`. -/
def stripPrefix? (p s : Text) : Option Text :=
  match p, s with
  | [], s => some s
  | _ :: _, [] => none
  | a :: p, b :: s => if a = b then stripPrefix? p s else none

/-- reference.rs:170-186 `CategorizedReferenceName::new`. -/
def categorize (name : Text) : RefCategory :=
  if (t!"refs/heads/").isPrefixOf name then .localBranch name
  else if (t!"refs/remotes/").isPrefixOf name then .remoteBranch name
  else .otherRef name

/-- reference.rs:190-197 `render_full`. -/
def RefCategory.renderFull : RefCategory → Text
  | .localBranch n => n
  | .remoteBranch n => n
  | .otherRef n => n

/-- The `prefix` field of reference.rs:144-165. -/
def RefCategory.pfx : RefCategory → Text
  | .localBranch _ => t!"refs/heads/"
  | .remoteBranch _ => t!"refs/remotes/"
  | .otherRef _ => []

/-- reference.rs:202-209 `render_suffix`. -/
def RefCategory.renderSuffix (c : RefCategory) : Text :=
  (stripPrefix? c.pfx c.renderFull).getD c.renderFull

/-- reference.rs:213-224 `friendly_describe`. -/
def RefCategory.friendlyDescribe (c : RefCategory) : Text :=
  match c with
  | .localBranch _ => t!"branch " ++ c.renderSuffix
  | .remoteBranch _ => t!"remote branch " ++ c.renderSuffix
  | .otherRef _ => t!"ref " ++ c.renderSuffix

/-- Pattern `CategorizedReferenceName::LocalBranch { .. }`. -/
def RefCategory.isLocalBranch : RefCategory → Bool
  | .localBranch _ => true
  | _ => false

end Verif
