import Verif.Model.TestCache
import Verif.Spec.TestRun

/-! Specification for the cached results of tests: what happened before. -/

namespace Verif.TestCache

open Verif.TestRun

/-- Any sequence of operations on a cache which is empty at first, the cache after them, and what
was seen, one event for each operation. -/
inductive History : List Op → Cache → List Event → Prop where
  | nil : History [] Cache.empty []
  | snoc {ops c es} (op : Op) : History ops c es →
    History (ops ++ [op]) (c.step op).1 (es ++ [(c.step op).2])

/-- The command was run on the tree with this outcome, and the results of the tree were not removed
since then. -/
def TestedSince (es : List Event) (tree : Oid) (command : Text) (interactive : Bool)
    (outcome : Outcome) (status : TestStatus) : Prop :=
  ∃ before after, es = before ++ .tested tree command interactive outcome status :: after ∧
    .cleaned tree ∉ after

/-- The command was run on the tree, at some time. -/
def Tested (es : List Event) (tree : Oid) (command : Text) (outcome : Outcome) : Prop :=
  ∃ interactive status, .tested tree command interactive outcome status ∈ es

/-- The command has an exit code. -/
def Outcome.Exited (o : Outcome) : Prop := ∃ code fixInfo, o = .exited code fixInfo

/-- The status, if it is told from the cache. -/
def asCached : TestStatus → TestStatus
  | .passed _ fixInfo interactive => .passed true fixInfo interactive
  | .failed _ code interactive => .failed true code interactive
  | st => st

/-- What an exit code means. -/
def Means (code : Int) (status : TestStatus) : Prop :=
  (code = 0 ∧ status.Passed) ∨ (code = 125 ∧ status = .indeterminate code) ∨
    (code = 127 ∧ status = .abort code) ∨ (code ≠ 0 ∧ code ≠ 125 ∧ code ≠ 127 ∧ status.Failed)

/-- The command has none of the letters which cannot be in the name of a directory. -/
def Plain (command : Text) : Prop := ∀ c ∈ command, c ≠ '/' ∧ c ≠ ' ' ∧ c ≠ '\n'

/-- A test of the tree is being run. -/
def Cache.Testing (c : Cache) (id : Nat) (tree : Oid) (command : Text) : Prop :=
  ∃ r, c.running.get? id = some r ∧ r.tree = tree ∧ r.command = command

end Verif.TestCache
