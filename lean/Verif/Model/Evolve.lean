import Verif.Model.Replay

/-!
core/rewrite/evolve.rs: following rewrite events to the newest version of a commit.
-/

namespace Verif

/-- evolve.rs:16-58 `find_rewrite_target`. The recursion of the code is not bounded by anything
visible; `fuel` is the number of nested calls allowed, and the outer `none` says that they were
not enough (the code would go on). -/
def findRewriteTargetFuel (r : Replayer) (c : Cursor) : Nat → Oid → Option (Option MaybeZero)
  | 0, _ => none
  | fuel + 1, oid =>
    match r.latestEvent c oid with
    | none => some none
    | some (.rewrite _ _ (.nonZero old) new) =>
      if old = oid ∧ new ≠ .nonZero oid then
        match new with
        | .zero => some (some .zero)
        | .nonZero new =>
          match findRewriteTargetFuel r c fuel new with
          | none => none
          | some (some newer) => some (some newer)
          | some none => some (some (.nonZero new))
      else some none
    | some _ => some none

/-- evolve.rs:16-58 `find_rewrite_target`, with enough nested calls allowed
(`find_rewrite_target_terminates` in Props/Evolve.lean). -/
def findRewriteTarget (r : Replayer) (c : Cursor) (oid : Oid) : Option MaybeZero :=
  (findRewriteTargetFuel r c (r.events.length + 2) oid).join

end Verif
