import Verif.Lemmas.Evolve
import Verif.Props.Replay

/-! C10: following rewrites. -/

namespace Verif.Props

open Spec

/-- The events which are before cursor `c`, as the replayer sees them. -/
def before (mb : Text) (es : List Event) (c : Nat) : List Event :=
  (Replayer.fromEvents mb es).events.take c

/-- C10: the recursion always ends, after at most as many nested calls as there are events,
whatever rewrites (also cycles) the log contains. -/
theorem find_rewrite_target_terminates (mb : Text) (es : List Event) (c : Nat) (oid : Oid) :
    let r := Replayer.fromEvents mb es
    findRewriteTargetFuel r ⟨c⟩ (r.events.length + 2) oid = some (findRewriteTarget r ⟨c⟩ oid) := by
  intro r
  obtain ⟨res, h, _⟩ := findRewriteTargetFuel_spec (r := r) (c := c) (es := r.events.take c)
    (latest_event_exact mb es c) (r.events.length + 2) oid (by rw [List.length_take]; omega)
  unfold findRewriteTarget
  rw [h]; rfl

/-- C10: the answer is the end of the chain of rewrites, and exactly then given. -/
theorem find_rewrite_target_exact (mb : Text) (es : List Event) (c : Nat) (oid : Oid)
    (m : MaybeZero) :
    findRewriteTarget (Replayer.fromEvents mb es) ⟨c⟩ oid = some m ↔ Newest (before mb es c) oid m := by
  obtain ⟨res, h, h1, h2⟩ := findRewriteTargetFuel_spec (r := Replayer.fromEvents mb es) (c := c)
    (es := before mb es c) (latest_event_exact mb es c)
    ((Replayer.fromEvents mb es).events.length + 2) oid
    (by unfold before; rw [List.length_take]; omega)
  unfold findRewriteTarget
  rw [h]
  exact h1 m

/-- C10: no answer iff the latest event of the commit is not a rewrite of it. -/
theorem find_rewrite_target_none (mb : Text) (es : List Event) (c : Nat) (oid : Oid) :
    findRewriteTarget (Replayer.fromEvents mb es) ⟨c⟩ oid = none ↔
      ∀ m, ¬ RewrittenTo (before mb es c) oid m := by
  obtain ⟨res, h, h1, h2⟩ := findRewriteTargetFuel_spec (r := Replayer.fromEvents mb es) (c := c)
    (es := before mb es c) (latest_event_exact mb es c)
    ((Replayer.fromEvents mb es).events.length + 2) oid
    (by unfold before; rw [List.length_take]; omega)
  unfold findRewriteTarget
  rw [h]
  exact h2

/-- C10: a commit is never reported as the newest version of itself. -/
theorem find_rewrite_target_ne (mb : Text) (es : List Event) (c : Nat) (oid : Oid) :
    findRewriteTarget (Replayer.fromEvents mb es) ⟨c⟩ oid ≠ some (.nonZero oid) := by
  intro h
  exact (newest_idx ((find_rewrite_target_exact ..).1 h) oid rfl).2 rfl

/-- Non-vacuity: a chain A → B → C; and a cycle A → B → A. -/
example :
    let r := Replayer.fromEvents t!"refs/heads/main"
      [.rewrite 1 (.id 1) (.nonZero oidA) (.nonZero oidB), .rewrite 2 (.id 2) (.nonZero oidB) (.nonZero oidC)]
    findRewriteTarget r ⟨2⟩ oidA = some (.nonZero oidC) ∧
    findRewriteTarget r ⟨1⟩ oidA = some (.nonZero oidB) ∧
    findRewriteTarget r ⟨2⟩ oidC = none := by decide

example :
    let r := Replayer.fromEvents t!"refs/heads/main"
      [.rewrite 1 (.id 1) (.nonZero oidA) (.nonZero oidB), .rewrite 2 (.id 2) (.nonZero oidB) (.nonZero oidA)]
    findRewriteTarget r ⟨2⟩ oidA = none ∧
    findRewriteTarget r ⟨2⟩ oidB = some (.nonZero oidA) := by decide

end Verif.Props
