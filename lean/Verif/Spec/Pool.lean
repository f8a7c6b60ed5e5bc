import Verif.Model.Pool

/-! Who has a resource of the pool. -/

namespace Verif.Spec

open Verif

/-- A resource is in use by a handle, or a thread has it in its hands while it acquires or releases it. -/
inductive PoolUser where
  | handle (h : HandleId)
  | thread (t : ThreadId)
deriving DecidableEq

/-- The user has the resource. -/
def Has (s : PoolState) : PoolUser → ResourceId → Prop
  | .handle h, r => (h, some r) ∈ s.handles
  | .thread t, r => s.pc t = .got r ∨ s.pc t = .pushing (some r)

/-- Exactly these are the users which have a resource now. -/
def Users (s : PoolState) (us : List PoolUser) : Prop :=
  us.Nodup ∧ ∀ u, u ∈ us ↔ ∃ r, Has s u r

end Verif.Spec
