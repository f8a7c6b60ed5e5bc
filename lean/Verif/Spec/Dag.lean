import Verif.Model.Dag
import Mathlib.Logic.Relation

/-! Commit graphs as mathematical graphs. -/

namespace Verif.Spec

open Verif

variable {N : Type} [DecidableEq N]

/-- A well-formed graph: every commit is stored once, and its parents are stored before it. -/
inductive WFEntries : List (N × List N) → Prop
  | nil : WFEntries []
  | cons {c ps rest} : c ∉ rest.map Prod.fst → (∀ p ∈ ps, p ∈ rest.map Prod.fst) →
      WFEntries rest → WFEntries ((c, ps) :: rest)

def WFGraph (g : CommitGraph N) : Prop := WFEntries g.entries

/-- `p` is a parent of `c`. -/
def IsParent (g : CommitGraph N) (p c : N) : Prop := ∃ ps, (c, ps) ∈ g.entries ∧ p ∈ ps

/-- `a` is an ancestor of `d`: it is `d` or reached from `d` through parents. -/
inductive Anc (g : CommitGraph N) : N → N → Prop
  | refl {c} : Anc g c c
  | step {a p c} : Anc g a p → IsParent g p c → Anc g a c

/-- Two commits of the set which are parent and child. -/
def Linked (g : CommitGraph N) (s : List N) (a b : N) : Prop :=
  a ∈ s ∧ b ∈ s ∧ (IsParent g a b ∨ IsParent g b a)

/-- Two commits which are connected by parent/child edges inside the set. -/
def Connected (g : CommitGraph N) (s : List N) : N → N → Prop := Relation.ReflTransGen (Linked g s)

end Verif.Spec
