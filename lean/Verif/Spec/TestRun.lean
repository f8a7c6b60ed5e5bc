import Verif.Spec.Bisect
import Verif.Model.TestRun

/-! Specification for running tests: executions and what happens in them. -/

namespace Verif.TestRun

open Verif.Bisect

variable {N : Type} [DecidableEq N]

/-- An execution: steps of the threads, in any order in which they can be taken. -/
inductive Exec (p : Params N) (s : State N) : List (Label N) → State N → Prop where
  | nil : Exec p s [] s
  | snoc {ls l s1 s2} : Exec p s ls s1 → step p s1 l = some s2 → Exec p s (ls ++ [l]) s2

/-- The commits on which a test was started, in this order. -/
def started (ls : List (Label N)) : List N :=
  ls.filterMap fun l => match l with
    | .start _ job => some job
    | _ => none

/-- A test of the commit ended with this status. -/
def Ran (ls : List (Label N)) (c : N) (o : TestStatus) : Prop := ∃ w, Label.finish w c o ∈ ls

/-- A worker panicked in the middle of a test. -/
def Crashed (ls : List (Label N)) : Prop := ∃ w c, Label.crash w c ∈ ls

/-- A worker could not open the repository, could not run a test, or panicked in the middle of
one. -/
def Disturbed (ls : List (Label N)) : Prop :=
  Crashed ls ∨ (∃ w, Label.setupFailed w ∈ ls) ∨ ∃ w c, Label.fault w c ∈ ls

/-- The command said that the commit is good. -/
def TestStatus.Passed (o : TestStatus) : Prop := ∃ cached fix interactive, o = .passed cached fix interactive

/-- The command said that the commit is bad. -/
def TestStatus.Failed (o : TestStatus) : Prop := ∃ cached code interactive, o = .failed cached code interactive

/-- The results which came contradict each other: a commit which is an ancestor of one that passes
fails. -/
def Contradictory (p : Params N) (ls : List (Label N)) : Prop :=
  ∃ f x o o', Ran ls f o ∧ o.Failed ∧ Ran ls x o' ∧ o'.Passed ∧ p.graph.Le f x

/-- What the threads do if nothing goes wrong and the command ends as `result` says. -/
def Ordinary (result : N → TestStatus) : Label N → Prop
  | .setupFailed _ | .fault _ _ | .crash _ _ => False
  | .finish _ c o => o = result c
  | _ => True

/-- All the threads have ended. -/
def State.Finished (s : State N) : Prop := ∃ r, s.main = .finished r

end Verif.TestRun
