import Verif.Props.BugReport
import Verif.Props.Smartlog

/-!
Examples for C79.
-/

namespace Verif.Props

open Verif Verif.Spec

/-- The two names are exchanged. -/
def exRenaming (name : Text) : Text :=
  if name = t!"refs/heads/topic" then t!"refs/heads/acquisition"
  else if name = t!"refs/heads/acquisition" then t!"refs/heads/topic" else name

theorem exRenaming_involutive (name : Text) : exRenaming (exRenaming name) = name := by
  have hne : t!"refs/heads/acquisition" ≠ t!"refs/heads/topic" := by decide
  unfold exRenaming
  by_cases h1 : name = t!"refs/heads/topic"
  · rw [if_pos h1, if_neg hne, if_pos rfl, h1]
  · by_cases h2 : name = t!"refs/heads/acquisition"
    · rw [if_neg h1, if_pos h2, if_pos rfl, h2]
    · rw [if_neg h1, if_neg h2, if_neg h1, if_neg h2]

theorem exRenaming_ok : Renaming t!"refs/heads/master" exRenaming := by
  have cases3 : ∀ name, (name = t!"refs/heads/topic" ∧ exRenaming name = t!"refs/heads/acquisition") ∨
      (name = t!"refs/heads/acquisition" ∧ exRenaming name = t!"refs/heads/topic") ∨ exRenaming name = name := by
    intro name
    unfold exRenaming
    by_cases h1 : name = t!"refs/heads/topic"
    · exact .inl ⟨h1, if_pos h1⟩
    · by_cases h2 : name = t!"refs/heads/acquisition"
      · exact .inr (.inl ⟨h2, by rw [if_neg h1, if_pos h2]⟩)
      · exact .inr (.inr (by rw [if_neg h1, if_neg h2]))
  refine ⟨(show Function.Involutive exRenaming from exRenaming_involutive).injective, ?_, ?_, ?_, ?_⟩
  · intro name hn
    rcases cases3 name with ⟨rfl, h⟩ | ⟨rfl, h⟩ | h
    · exact absurd ⟨by decide, by decide⟩ hn
    · exact absurd ⟨by decide, by decide⟩ hn
    · exact h
  · intro name hn
    rcases cases3 name with ⟨rfl, h⟩ | ⟨rfl, h⟩ | h
    · rw [h]; exact ⟨by decide, by decide⟩
    · rw [h]; exact ⟨by decide, by decide⟩
    · rw [h]; exact hn
  · intro name
    rcases cases3 name with ⟨rfl, h⟩ | ⟨rfl, h⟩ | h
    · rw [h]; decide
    · rw [h]; decide
    · rw [h]
  · intro name
    rcases cases3 name with ⟨rfl, h⟩ | ⟨rfl, h⟩ | h
    · rw [h]; decide
    · rw [h]; decide
    · rw [h]

/-- What `Debug` shows of the events, shortened. -/
def exDebug : Event → Text
  | .refUpdate _ _ name _ _ _ => t!"RefUpdateEvent " ++ name
  | .commit _ _ _ => t!"CommitEvent"
  | .obsolete _ _ _ => t!"ObsoleteEvent"
  | _ => t!"Event"

/-- A repository: the main branch ends with 3; on top of it are 4, 5, 6. A branch is created, and another one. The
messages of the commits are as given. -/
def exReport (a b : Text) (message : Text) : ReportEnv where
  events := [.commit 0 (.id 1) (oidN 4), .refUpdate 1 (.id 1) a .zero (.nonZero (oidN 4)) none,
    .refUpdate 2 (.id 2) t!"HEAD" .zero (.nonZero (oidN 6)) none,
    .refUpdate 2 (.id 2) b .zero (.nonZero (oidN 6)) none]
  mainName := t!"refs/heads/master"
  txMessage := fun _ => some t!"hook-reference-transaction"
  describe :=
    { commit := fun o => some ⟨o.toText.reverse.take 2, message, message, 1000⟩
      showTime := true
      showBranches := true
      showRevision := true
      now := 2000 * 1000000000
      headName := some b
      branchNames := [(oidN 3, [t!"refs/heads/master"]), (oidN 4, [a]), (oidN 6, [b, t!"refs/remotes/origin/x"])] }
  dag := exLine
  smartlog := exSmartlog
  commits := [oidN 4]
  headOid := some (oidN 6)
  debug := exDebug

/-- Non-vacuity of `report_hides`: with other names and other words in the messages, the report is the same. -/
example :
    Renaming (exReport t!"refs/heads/topic" t!"refs/heads/acquisition" t!"buy it now").mainName exRenaming ∧
    SameButSecrets exRenaming (exReport t!"refs/heads/topic" t!"refs/heads/acquisition" t!"buy it now")
      (exReport t!"refs/heads/acquisition" t!"refs/heads/topic" t!"add an ant") ∧
    ¬ LooksRedacted t!"refs/heads/topic" ∧ ¬ LooksRedacted t!"refs/heads/acquisition" := by
  refine ⟨exRenaming_ok, ?_, ?_, ?_⟩
  · refine ⟨by decide +kernel, rfl, rfl, rfl, rfl, rfl, rfl, rfl, ?_, rfl, rfl, rfl, by decide +kernel, by decide +kernel⟩
    intro oid
    refine .some ⟨rfl, rfl, ?_⟩
    show SameShape t!"buy it now" t!"add an ant"
    unfold SameShape White
    repeat (first | exact .nil | refine .cons (by decide) ?_)
  · rintro ⟨p, hp, n, hn⟩
    simp only [List.mem_cons, List.not_mem_nil, or_false] at hp
    rcases hp with rfl | rfl | rfl <;> simp at hn
  · rintro ⟨p, hp, n, hn⟩
    simp only [List.mem_cons, List.not_mem_nil, or_false] at hp
    rcases hp with rfl | rfl | rfl <;> simp at hn

/-- The section about the last transaction. -/
theorem exReport_section :
    (describeEventCursor (exReport t!"refs/heads/topic" t!"refs/heads/acquisition" t!"buy it now")
      (Replayer.fromEvents t!"refs/heads/master"
        (exReport t!"refs/heads/topic" t!"refs/heads/acquisition" t!"buy it now").events) ⟨4⟩
      (.new [t!"refs/heads/master"])).toOption.map Prod.fst = some
    [t!"##### Event ID: 3, transaction ID: 2 (message: hook-reference-transaction)", [],
      t!"1. `RefUpdateEvent HEAD`", t!"1. `RefUpdateEvent refs/heads/redacted-ref-0`", t!"```", t!":",
      t!"O 40 16m (master) xxx xx xxx", t!"|", t!"o 50 16m (redacted-ref-1) xxx xx xxx", t!":",
      t!"# 1 omitted commit", t!":", t!"@ 70 16m (redacted-ref-0, remote redacted-ref-2) xxx xx xxx", t!"```"] := by
  decide +kernel

/-- C79, a defect, in an example: below "There are no previous available events", the graph has the branches and
`HEAD`, which were created later; and the branch which is checked out has no arrow. -/
theorem exReport_before :
    (describeEventCursor (exReport t!"refs/heads/topic" t!"refs/heads/acquisition" t!"buy it now")
      (Replayer.fromEvents t!"refs/heads/master"
        (exReport t!"refs/heads/topic" t!"refs/heads/acquisition" t!"buy it now").events) ⟨0⟩
      (.new [t!"refs/heads/master"])).toOption.map Prod.fst = some
    [t!"There are no previous available events.", t!"```", t!":",
      t!"O 40 16m (master) xxx xx xxx", t!"|", t!"o 50 16m (redacted-ref-0) xxx xx xxx", t!":",
      t!"# 1 omitted commit", t!":", t!"@ 70 16m (redacted-ref-1, remote redacted-ref-2) xxx xx xxx", t!"```"] := by
  decide +kernel

/-- Non-vacuity of `report_hides_head` and `report_names`. -/
example : Secret t!"refs/heads/master" t!"refs/heads/acquisition" ∧
    (collectEvents (exReport t!"refs/heads/topic" t!"refs/heads/acquisition" t!"buy it now")).toOption.isSome := by
  refine ⟨⟨by decide, by decide⟩, by decide +kernel⟩

end Verif.Props
