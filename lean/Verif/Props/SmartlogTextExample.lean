import Verif.Props.SmartlogText

/-!
Examples for C80.
-/

namespace Verif.Props

open Verif Verif.Spec

/-- The new version of commit 2. -/
def exNewTwo : Oid := ⟨0xfe9d4a0b1c2d3e4f5061728394a5b6c7d8e9fa0b, by decide, by decide⟩

/-- The main branch is at 1; 2 and its child 3 are on top of it, and so is the new version of 2. -/
def exSmartlogCommand (seconds : Int) : SmartlogCommandEnv where
  events := [.commit 0 (.id 1) (oidN 2), .commit 1 (.id 2) (oidN 3), .commit 1 (.id 3) exNewTwo,
    .rewrite 2 (.id 4) (.nonZero (oidN 2)) (.nonZero exNewTwo), .obsolete 2 (.id 5) (oidN 3)]
  main := ⟨t!"refs/heads/master", oidN 1⟩
  refs := ⟨some (oidN 2), oidN 1, [(oidN 1, [t!"refs/heads/master"]), (oidN 3, [t!"refs/heads/topic"])]⟩
  graph := ⟨[(exNewTwo, [oidN 1]), (oidN 3, [oidN 2]), (oidN 2, [oidN 1]), (oidN 1, [])]⟩
  commit := fun o => some ⟨o.toText.reverse.take 2, t!"fix it", t!"fix it\n\nDifferential Revision: D12", seconds⟩
  showTime := true
  showBranches := true
  showRevision := true
  now := 2000 * 1000000000
  headName := some t!"refs/heads/topic"
  smartlog := exSmartlog
  resolve := fun dag => some dag.observedCommits

/-- The smartlog of the example. -/
theorem exSmartlogCommand_text : (smartlogCommand (exSmartlogCommand 1000) .text none false false).toOption = some (some
    [t!"O 20 16m (master) D12 fix it", t!"|\\", t!"| % 30 16m (rewritten as fe9d4a0b) D12 fix it", t!"| |",
      t!"| x 40 16m (manually hidden) (> topic) D12 fix it", t!"|", t!"o b0 16m D12 fix it"]) := by
  decide +kernel

/-- C80, a defect: the smartlog of an earlier time, when nothing was hidden or rewritten, has the symbols of that
time, but says that the commits were rewritten and hidden. -/
theorem earlier_explained : (smartlogCommand (exSmartlogCommand 1000) .pretty (some 2) true false).toOption = some (some
    [t!"● 40 16m (manually hidden) D12 fix it", t!"┃", t!"◯ 30 16m (rewritten as fe9d4a0b) D12 fix it", t!"┃",
      t!"◇ 20 16m (master) D12 fix it"]) := by
  decide +kernel

/-- C80, a defect: with commits from before 1970, there is no smartlog. -/
theorem old_commit_fails : (smartlogCommand (exSmartlogCommand (-1)) .text none false false).toOption = none ∧
    (smartlogLines (exSmartlogCommand (-1)) (Replayer.fromEvents t!"refs/heads/master" (exSmartlogCommand (-1)).events)
      none false).toOption.isSome := by
  decide +kernel

/-- Non-vacuity of `smartlog_readable` and `smartlog_shown_iff`: the lines are there, and the short hashes differ. -/
example : (∀ l ∈ ((smartlogLines (exSmartlogCommand 1000)
      (Replayer.fromEvents t!"refs/heads/master" (exSmartlogCommand 1000).events) none false).toOption.getD none).elim []
        Prod.snd, ∀ o ∈ itemOid l.2, o ∈ [oidN 1, oidN 2, oidN 3, exNewTwo]) ∧
    ∀ o ∈ [oidN 1, oidN 2, oidN 3, exNewTwo], ∀ o' ∈ [oidN 1, oidN 2, oidN 3, exNewTwo],
      o.toText.reverse.take 2 = o'.toText.reverse.take 2 → o = o' := by
  decide +kernel

/-- Non-vacuity of `abandoned_exact`: 3 is not hidden yet, and its parent was rewritten. -/
example : abandonedInGraph
    { exLine with graph := ⟨[(exNewTwo, [oidN 1]), (oidN 3, [oidN 2]), (oidN 2, [oidN 1]), (oidN 1, [])]⟩
                  obsoleteCommits := [oidN 2] }
    (Replayer.fromEvents t!"refs/heads/master" (exSmartlogCommand 1000).events) ⟨4⟩
    [(oidN 2, ⟨true, [], [], none, [], false, true, 0⟩)] = [oidN 3] := by
  decide +kernel

/-- Non-vacuity of `smartlog_at_event`: the time of `earlier_explained`. -/
example : (exSmartlogCommand 1000).events =
      [.commit 0 (.id 1) (oidN 2), .commit 1 (.id 2) (oidN 3)] ++ (exSmartlogCommand 1000).events.drop 2 ∧
    (Replayer.fromEvents t!"refs/heads/master"
      [.commit 0 (.id 1) (oidN 2), .commit 1 (.id 2) (oidN 3)]).events.length = 2 := by
  decide +kernel

end Verif.Props
