import Verif.Spec.Replay

/-! Specification of "newest version of a commit" on the plain list of events. -/

namespace Verif.Spec

open Verif

/-- The last event with an effect on `a` rewrote `a` into something else (`zero`: dropped it). -/
def RewrittenTo (es : List Event) (a : Oid) (b : MaybeZero) : Prop :=
  ∃ ts tx, (lastEffect a es).map Prod.fst = some (.rewrite ts tx (.nonZero a) b) ∧ b ≠ .nonZero a

/-- `m` is the end of a non-empty chain of rewrites starting at `a`: either the last commit of the
chain was dropped, or it is a commit which is not itself rewritten. -/
inductive Newest (es : List Event) : Oid → MaybeZero → Prop
  | dropped {a} : RewrittenTo es a .zero → Newest es a .zero
  | last {a b} : RewrittenTo es a (.nonZero b) → (∀ m, ¬ RewrittenTo es b m) →
      Newest es a (.nonZero b)
  | step {a b m} : RewrittenTo es a (.nonZero b) → Newest es b m → Newest es a m

end Verif.Spec
