import Verif.Model.Bisect

/-! Specification for the bisection library. -/

namespace Verif.Bisect

variable {N : Type} [DecidableEq N]

/-- `a` is an ancestor of (or is) `b`. -/
def Graph.Le (g : Graph N) (a b : N) : Prop := a ∈ g.ancestors b

/-- The graph is the graph of a partial order, and its two functions agree: what the documentation
of the traits asks for (search.rs:19-27, basic.rs:26-28, 71-73). `N` may be read as the type of the
nodes of the graph. -/
structure Graph.Lawful (g : Graph N) : Prop where
  refl : ∀ a, g.Le a a
  trans : ∀ a b c, g.Le a b → g.Le b c → g.Le a c
  antisymm : ∀ a b, g.Le a b → g.Le b a → a = b
  descendants : ∀ a b, b ∈ g.descendants a ↔ g.Le a b

/-- The report on a node, if there is one. -/
def Search.reported (s : Search N) (n : N) (st : Status) : Prop := s.nodes.get? n = some st

/-- No node reported failing is an ancestor of one reported passing. -/
def Search.Consistent (s : Search N) : Prop :=
  ∀ f x, s.reported f .failure → s.reported x .success → ¬ s.graph.Le f x

/-- A node which is still to be found out about: untested, and neither an ancestor of a passing nor a descendant of a
failing node. -/
def Search.Undecided (s : Search N) (n : N) : Prop :=
  s.reported n .untested ∧ (∀ x, s.reported x .success → ¬ s.graph.Le n x) ∧
    ∀ f, s.reported f .failure → ¬ s.graph.Le f n

/-- Accept a report, or stay as before if it is rejected. -/
def Search.report (s : Search N) (r : N × Status) : Search N :=
  match s.notify r.1 r.2 with
  | .ok s' => s'
  | .error _ => s

end Verif.Bisect
