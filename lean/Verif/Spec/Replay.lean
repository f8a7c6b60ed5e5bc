import Verif.Model.EventLog

/-!
Specifications for the event replayer, in terms of the plain list of events.
-/

namespace Verif.Spec

open Verif

/-- Position `i` of a log (with the given transaction ids) lies between two transactions: at the
beginning, at the end, or where the id changes. -/
def IsBoundary (txs : List TxId) (i : Nat) : Prop :=
  i = 0 ∨ i = txs.length ∨ txs[i - 1]? ≠ txs[i]?

instance (txs : List TxId) (i : Nat) : Decidable (IsBoundary txs i) :=
  inferInstanceAs (Decidable (_ ∨ _))

/-- Number of transactions (maximal runs of equal ids) which begin before position `i`. -/
def txsStartedBefore (txs : List TxId) (i : Nat) : Nat :=
  (List.range i).countP fun j => decide (IsBoundary txs j)

/-- What an event does to a commit: makes it active, obsolete, or nothing. -/
def effectOn (oid : Oid) : Event → Option Bool
  | .rewrite _ _ old new =>
    if new = .nonZero oid then some true
    else if old = .nonZero oid then some false
    else none
  | .commit _ _ o => if o = oid then some true else none
  | .unobsolete _ _ o => if o = oid then some true else none
  | .obsolete _ _ o => if o = oid then some false else none
  | .refUpdate .. => none
  | .snapshot .. => none

/-- The last event of the list which has an effect on the commit, with the effect. -/
def lastEffect (oid : Oid) (es : List Event) : Option (Event × Bool) :=
  es.reverse.findSome? fun e => (effectOn oid e).map fun b => (e, b)

/-- The new position given to the reference by an event (`some none`: deleted). -/
def updateOf (name : Text) : Event → Option (Option Oid)
  | .refUpdate _ _ n _ new _ => if n = name then some new.toOption else none
  | _ => none

/-- Position of a reference according to the last update in the list. -/
def lastPosition (name : Text) (es : List Event) : Option Oid :=
  (es.reverse.findSome? (updateOf name)).join

end Verif.Spec
