import Verif.Props.Query
import Verif.Props.SwitchExample

/-! Concrete cases of C97. -/

namespace Verif.Props

open Verif Verif.Spec

/-- The names: branches, a tag, and the remote branch `origin/x`, whose commit `6` was fetched and is not yet known. -/
def exQueryNames : AMap Text Oid := (t!"origin/x", oidN 6) :: exSwitchNames

def exQueryGraph : CommitGraph Oid := ⟨[(oidN 6, [oidN 1])] ++ exFork.entries⟩

def exQueryEnv : QueryEnv where
  revset := { exRevsetEnv with
    revparse := exQueryNames.get?, headOid := some (oidN 2),
    replayer := Replayer.fromEvents t!"refs/heads/main" exForkEvents }
  fuel := 20
  mainBranch := t!"refs/heads/main"
  synced := exQueryGraph
  describe :=
    { commit := fun o => if o = oidN 3 then none else some ⟨o.toText.take 7, t!"message", t!"message\n", 0⟩
      showTime := false, showBranches := false, showRevision := false, now := 0, headName := none, branchNames := [] }

/-- A query in the repository of C91: a stack which forks at `1`, `HEAD` at `2`, and the branch `b` at `4`. -/
def exQuery (args : QueryArgs) (graph : CommitGraph Oid := exFork) : QueryOutcome :=
  query exQueryEnv args graph (exSwitchWorld (.detached (oidN 2)))

/-- Non-vacuity: the hypotheses hold in this repository. -/
theorem exQuery_setting (args : QueryArgs) (ht : args.revset = t!"origin/x" ∨ args.revset = t!"all()") :
    ∃ d, QuerySetting exQueryEnv args exFork (exSwitchWorld (.detached (oidN 2))) exForkEvents d := by
  have hg : WFGraph exQueryEnv.synced := by
    show WFEntries ([(oidN 6, [oidN 1])] ++ exFork.entries)
    unfold exFork
    repeat (first | exact .nil | refine .cons (by decide) (by decide) ?_)
  have he : (exRestackWorld exForkEvents (oidN 4)).db.getEvents = some exForkEvents := by decide +kernel
  refine ⟨_, ?_, he, rfl, ⟨_, _, rfl, rfl⟩, hg, ⟨_, rfl⟩, ?_, ?_⟩
  · show AMap.WF (exRestackWorld exForkEvents (oidN 4)).git.refs
    unfold AMap.WF
    decide +kernel
  · intro n o h
    rcases exSwitch_branches h with ⟨-, rfl⟩ | ⟨-, rfl⟩ <;> decide +kernel
  · intro S hS o ho
    rcases ht with ht | ht
    · rw [ht] at hS
      have hp : exQueryEnv.revset.revparse t!"origin/x" = some (oidN 6) := by decide +kernel
      cases hS with
      | commit h =>
        rw [hp] at h
        cases h
        subst ho
        decide +kernel
      | value h => rw [hp] at h; cases h
    · rw [ht] at hS
      have hp : exQueryEnv.revset.revparse t!"all()" = none := by decide +kernel
      cases hS with
      | commit h => rw [hp] at h; cases h
      | value _ h1 h2 h3 =>
        have e1 := (parse_exact _ _).2 ⟨_, h1, h2⟩
        have e2 : parseRevset t!"all()" = some (.call t!"all" []) := by decide +kernel
        rw [e1] at e2
        cases e2
        cases h3 with
        | call _ => exact ho.2.1

/-- Non-vacuity: all commits, a stack, the branches, a name, and an empty set. -/
example :
    exQuery ⟨t!"all()", false, false, true⟩ =
      ⟨[(oidN 0).toText, (oidN 1).toText, (oidN 2).toText, (oidN 3).toText, (oidN 4).toText], .done⟩ ∧
    exQuery ⟨t!"::b - main", false, false, true⟩ = ⟨[(oidN 1).toText, (oidN 3).toText, (oidN 4).toText], .done⟩ ∧
    exQuery ⟨t!"all()", false, true, false⟩ = ⟨[t!"main", t!"b"], .done⟩ ∧
    exQuery ⟨t!"origin/x", false, false, true⟩ = ⟨[(oidN 6).toText], .done⟩ ∧
    exQuery ⟨t!"origin/x", true, true, false⟩ = ⟨[], .done⟩ ∧
    exQuery ⟨t!"none()", false, false, false⟩ = ⟨[], .done⟩ := by
  decide +kernel

/-- Non-vacuity: descriptions; a commit which is missing ends the output; a name which is not known. -/
example :
    exQuery ⟨t!"main + tag", false, false, false⟩ =
      ⟨[(oidN 0).toText.take 7 ++ t!" message", (oidN 1).toText.take 7 ++ t!" message"], .done⟩ ∧
    exQuery ⟨t!"::b - main", false, false, false⟩ = ⟨[(oidN 1).toText.take 7 ++ t!" message"], .error⟩ ∧
    exQuery ⟨t!"main + nothing", false, false, false⟩ =
      ⟨[], .unresolved (.eval t!"main + nothing" (.unboundName t!"nothing"))⟩ := by
  decide +kernel

/-- C97 (finding): `git query --hidden origin/x` fails for a commit which was not known before; when it is repeated, it
succeeds, since the commit is in the stored graph by then. -/
theorem hidden_query_fails_once :
    exQuery ⟨t!"origin/x", true, false, true⟩ = ⟨[], .error⟩ ∧
    exQuery ⟨t!"origin/x", true, false, true⟩ exQueryGraph = ⟨[(oidN 6).toText], .done⟩ ∧
    exQuery ⟨t!"origin/x", false, false, true⟩ = ⟨[(oidN 6).toText], .done⟩ := by
  decide +kernel

/-- C97 (finding): a commit which is not visible is printed if it is the whole query, but it is lost in every
function, even in a union with itself. -/
theorem named_invisible_lost :
    exQuery ⟨t!"origin/x", false, false, true⟩ = ⟨[(oidN 6).toText], .done⟩ ∧
    exQuery ⟨t!"origin/x + origin/x", false, false, true⟩ = ⟨[], .done⟩ ∧
    exQuery ⟨t!"origin/x + b", false, false, true⟩ = ⟨[(oidN 4).toText], .done⟩ := by
  decide +kernel

end Verif.Props
