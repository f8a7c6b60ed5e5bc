import Verif.Props.FinishRebase

/-!
C21 and C24: failures of a rebase, and the choice between a rebase in memory and one on disk.
-/

namespace Verif.Props

open Verif Verif.Spec

/-- The on-disk half, as it would be run on its own. -/
theorem forceOnDisk_eq (ee : ExecEnv) (finish : List (Oid × CommitData) → FinishEnv) (disk : OnDiskEnv)
    (opts : ExecOptions) (plan : RebasePlan) (w : RepoWorld) (h : opts.forceInMemory = false) :
    executeRebasePlan ee finish disk { opts with forceOnDisk := true } plan w =
      match rebaseOnDisk disk plan w with
      | (w, .error e) => (w, .error e)
      | (w, .ok (.ok 0)) => (w, .ok (.succeeded none))
      | (w, .ok (.ok code)) => (w, .ok (.failed code))
      | (w, .ok (.error .changedFilesInRepository)) => (w, .ok (.failed 1))
      | (w, .ok (.error (.operationAlreadyInProgress _))) => (w, .ok (.failed 1)) := by
  unfold executeRebasePlan
  simp only [h, if_true, Bool.false_eq_true, if_false]
  rfl

/-! ### C21 -/

/-- C21: if the command reports that it declined to merge, then nothing was changed: no reference,
`HEAD`, event or state of a rebase. -/
theorem declined_changes_nothing (ee : ExecEnv) (finish : List (Oid × CommitData) → FinishEnv)
    (disk : OnDiskEnv) (opts : ExecOptions) (plan : RebasePlan) (w w' : RepoWorld)
    (info : FailedMergeInfo)
    (h : executeRebasePlan ee finish disk opts plan w = (w', .ok (.declinedToMerge info))) :
    w' = w ∧ ee.rebaseInMemory w.git.headInfo.oid plan = .error (.mergeFailed info) := by
  have hdisk : ∀ x, (if opts.forceInMemory then ((w, .error .error) : RepoWorld × Except Failure ExecResult)
      else
        match rebaseOnDisk disk plan w with
        | (w, .error e) => (w, .error e)
        | (w, .ok (.ok 0)) => (w, .ok (.succeeded none))
        | (w, .ok (.ok code)) => (w, .ok (.failed code))
        | (w, .ok (.error .changedFilesInRepository)) => (w, .ok (.failed 1))
        | (w, .ok (.error (.operationAlreadyInProgress _))) => (w, .ok (.failed 1))) ≠
      (x, .ok (.declinedToMerge info)) := by
    intro x hx
    split at hx
    · simp at hx
    · split at hx <;> simp at hx
  unfold executeRebasePlan at h
  simp only at h
  split at h
  · exact absurd h (hdisk w')
  · split at h
    · simp at h
    · simp at h
    · split at h <;> simp at h
    · rename_i i hi
      split at h
      · simp only [Prod.mk.injEq, Except.ok.injEq, ExecResult.declinedToMerge.injEq] at h
        exact ⟨h.1.symm, by rw [hi, h.2]⟩
      · split at h
        · simp only [Prod.mk.injEq, Except.ok.injEq, ExecResult.declinedToMerge.injEq] at h
          exact ⟨h.1.symm, by rw [hi, h.2]⟩
        · split at h <;> simp at h

/-- C21: whenever the in-memory rebase fails, for whatever reason and at whatever command, then nothing
was changed by it. Either that is the end, or an on-disk rebase starts, exactly as if the in-memory one
had not been tried. -/
theorem failed_in_memory_changes_nothing (ee : ExecEnv) (finish : List (Oid × CommitData) → FinishEnv)
    (disk : OnDiskEnv) (opts : ExecOptions) (plan : RebasePlan) (w : RepoWorld)
    (hd : opts.forceOnDisk = false) (e : InMemoryStop)
    (h : ee.rebaseInMemory w.git.headInfo.oid plan = .error e) :
    (executeRebasePlan ee finish disk opts plan w).1 = w ∨
    (opts.forceInMemory = false ∧ opts.resolveMergeConflicts = true ∧ (∃ info, e = .mergeFailed info) ∧
      executeRebasePlan ee finish disk opts plan w =
        executeRebasePlan ee finish disk { opts with forceOnDisk := true } plan w) := by
  cases e with
  | panic => left; unfold executeRebasePlan; simp only [hd, h]; simp
  | error => left; unfold executeRebasePlan; simp only [hd, h]; simp
  | mergeFailed info =>
    by_cases hr : opts.resolveMergeConflicts = true
    · by_cases hm : opts.forceInMemory = true
      · left
        unfold executeRebasePlan
        simp only [hd, h, hr, hm]; simp
      · right
        have hm : opts.forceInMemory = false := by simpa using hm
        refine ⟨hm, hr, ⟨info, rfl⟩, ?_⟩
        rw [forceOnDisk_eq _ _ _ _ _ _ hm]
        unfold executeRebasePlan
        simp only [hd, h, hr, hm, Bool.not_true, Bool.false_eq_true, if_false]
        rfl
    · left
      unfold executeRebasePlan
      simp only [hd, h]
      simp [hr]

/-! ### C24 -/

/-- C24: if in-memory is requested, the state of the working copy and of git's own rebase does not
matter for anything, and no on-disk rebase is started. -/
theorem in_memory_only (ee : ExecEnv) (finish : List (Oid × CommitData) → FinishEnv)
    (disk disk' : OnDiskEnv) (opts : ExecOptions) (plan : RebasePlan) (w : RepoWorld)
    (h : opts.forceInMemory = true) :
    executeRebasePlan ee finish disk opts plan w = executeRebasePlan ee finish disk' opts plan w ∧
    (executeRebasePlan ee finish disk opts plan w).1.rebaseDir = w.rebaseDir := by
  constructor
  · unfold executeRebasePlan
    simp only [h, if_true]
  · unfold executeRebasePlan
    simp only [h, if_true]
    split
    · rfl
    · split
      · rfl
      · rfl
      · rename_i s newHead _
        have hr : (postRebaseInMemory (finish s.created) w s.rewritten newHead).1.rebaseDir =
            w.rebaseDir := by
          unfold postRebaseInMemory
          simp only
          split
          · rfl
          · split
            · rfl
            · split <;> rfl
        split <;> rename_i h1 <;> rw [h1] at hr <;> exact hr
      · split <;> rfl

/-- C24: if on-disk is requested, nothing is done in memory: what an in-memory rebase would do does not
matter, and the result is that of `rebase_on_disk`. -/
theorem on_disk_only (ee ee' : ExecEnv) (finish finish' : List (Oid × CommitData) → FinishEnv)
    (disk : OnDiskEnv) (opts : ExecOptions) (plan : RebasePlan) (w : RepoWorld)
    (h : opts.forceOnDisk = true) :
    executeRebasePlan ee finish disk opts plan w = executeRebasePlan ee' finish' disk opts plan w ∧
    (opts.forceInMemory = false →
      (executeRebasePlan ee finish disk opts plan w).1 = (rebaseOnDisk disk plan w).1) := by
  constructor
  · unfold executeRebasePlan
    simp only [h, if_true]
  · intro hm
    unfold executeRebasePlan
    simp only [h, hm, if_true, Bool.false_eq_true, if_false]
    split <;> rename_i h1 <;> rw [h1]

/-- C24: conflicts are only handed to the user (as an on-disk rebase) if this was requested. -/
theorem conflicts_only_if_requested (ee : ExecEnv) (finish : List (Oid × CommitData) → FinishEnv)
    (disk : OnDiskEnv) (opts : ExecOptions) (plan : RebasePlan) (w : RepoWorld)
    (hd : opts.forceOnDisk = false) (hr : opts.resolveMergeConflicts = false) (info : FailedMergeInfo)
    (h : ee.rebaseInMemory w.git.headInfo.oid plan = .error (.mergeFailed info)) :
    executeRebasePlan ee finish disk opts plan w = (w, .ok (.declinedToMerge info)) := by
  unfold executeRebasePlan
  simp only [hd, hr, h]
  simp

/-- C24: without conflicts, the rebase is done in memory unless on-disk was requested. -/
theorem in_memory_if_possible (ee : ExecEnv) (finish : List (Oid × CommitData) → FinishEnv)
    (disk : OnDiskEnv) (opts : ExecOptions) (plan : RebasePlan) (w : RepoWorld)
    (hd : opts.forceOnDisk = false) (s : ExecState) (newHead : Option Oid)
    (h : ee.rebaseInMemory w.git.headInfo.oid plan = .ok (s, newHead)) :
    (executeRebasePlan ee finish disk opts plan w).1 =
      (postRebaseInMemory (finish s.created) w s.rewritten newHead).1 ∧
    ((∃ ok, (postRebaseInMemory (finish s.created) w s.rewritten newHead).2 = .ok ok) →
      (executeRebasePlan ee finish disk opts plan w).2 = .ok (.succeeded (some s.rewritten))) := by
  unfold executeRebasePlan
  simp only [hd, h, Bool.false_eq_true, if_false]
  split
  · rename_i h1
    rw [h1]
    simp
  · rename_i h1
    rw [h1]
    simp

/-- C24: both requests together are an error, and nothing is changed. -/
theorem both_forced (ee : ExecEnv) (finish : List (Oid × CommitData) → FinishEnv)
    (disk : OnDiskEnv) (opts : ExecOptions) (plan : RebasePlan) (w : RepoWorld)
    (hm : opts.forceInMemory = true) (hd : opts.forceOnDisk = true) :
    executeRebasePlan ee finish disk opts plan w = (w, .error .error) := by
  unfold executeRebasePlan
  simp [hm, hd]

/-- C24 (partial): an on-disk rebase does not start when a rebase or another operation is in progress, or
when files of the working copy differ from the index: nothing is changed, and `git rebase` is not run.

Missing for the full claim: the index may differ from `HEAD` (`staged_changes_ignored`). -/
theorem on_disk_not_started_partial (disk : OnDiskEnv) (plan : RebasePlan) (w : RepoWorld)
    (h : w.rebaseDir.isSome ∨ disk.otherOperation.isSome ∨ disk.unstagedChanges = true)
    (run : RepoWorld → RepoWorld × Nat) :
    (∃ e, rebaseOnDisk disk plan w = (w, .ok (.error e)) ∧
      rebaseOnDisk { disk with rebaseContinue := run } plan w = (w, .ok (.error e))) ∧
    ∀ ee finish opts, opts.forceOnDisk = true → opts.forceInMemory = false →
      executeRebasePlan ee finish disk opts plan w = (w, .ok (.failed 1)) := by
  have key : ∃ e, ∀ run, rebaseOnDisk { disk with rebaseContinue := run } plan w = (w, .ok (.error e)) := by
    unfold rebaseOnDisk writeRebaseStateToDisk OnDiskEnv.currentOperationType OnDiskEnv.hasChangedFiles
    simp only
    by_cases h1 : w.rebaseDir.isSome = true
    · simp only [h1, if_true]; exact ⟨_, fun _ => rfl⟩
    · simp only [h1, Bool.false_eq_true, if_false]
      cases h2 : disk.otherOperation with
      | some op => exact ⟨_, fun _ => rfl⟩
      | none =>
        rw [h2] at h
        simp only [h1, Bool.false_eq_true, Option.isSome_none, false_or] at h
        simp only [h, if_true]
        exact ⟨_, fun _ => rfl⟩
  obtain ⟨e, he⟩ := key
  refine ⟨⟨e, he disk.rebaseContinue, he run⟩, ?_⟩
  intro ee finish opts ho hm
  have hd := he disk.rebaseContinue
  have hd : rebaseOnDisk disk plan w = (w, .ok (.error e)) := hd
  unfold executeRebasePlan
  simp only [ho, hm, if_true, Bool.false_eq_true, if_false]
  rw [hd]
  cases e <;> rfl

/-- C24: otherwise it starts: for a plan without squashes, `git rebase` is run with the todo list, one
line for every command. -/
theorem on_disk_starts (disk : OnDiskEnv) (plan : RebasePlan) (w : RepoWorld)
    (h1 : w.rebaseDir = none) (h2 : disk.otherOperation = none) (h3 : disk.unstagedChanges = false)
    (hp : ∀ c l, .pick c l ∈ plan.commands → l = [c]) :
    ∃ lines, plan.commands.mapM RebaseCommand.toRebaseCommand = .ok lines ∧
      lines.length = plan.commands.length ∧
      rebaseOnDisk disk plan w =
        (let r := disk.rebaseContinue { w with
            rebaseDir := some (some (lines.flatMap fun l => l ++ ['\n']))
            git := w.git.detachHead w.git.headInfo }
         (r.1, .ok (.ok r.2))) := by
  have hl : ∀ cs : List RebaseCommand, (∀ c l, .pick c l ∈ cs → l = [c]) →
      ∃ lines, cs.mapM RebaseCommand.toRebaseCommand = .ok lines ∧ lines.length = cs.length := by
    intro cs
    induction cs with
    | nil => intro _; exact ⟨[], rfl, rfl⟩
    | cons c cs ih =>
      intro hc
      obtain ⟨lines, h4, h5⟩ := ih fun a l hm => hc a l (by simp [hm])
      have : ∃ t, c.toRebaseCommand = .ok t := by
        cases c with
        | pick a l => rw [hc a l (by simp)]; exact ⟨_, rfl⟩
        | _ => exact ⟨_, rfl⟩
      obtain ⟨t, ht⟩ := this
      refine ⟨t :: lines, ?_, by simp [h5]⟩
      rw [List.mapM_cons, ht, h4]
      rfl
  obtain ⟨lines, h4, h5⟩ := hl plan.commands hp
  refine ⟨lines, h4, h5, ?_⟩
  unfold rebaseOnDisk writeRebaseStateToDisk OnDiskEnv.currentOperationType OnDiskEnv.hasChangedFiles
  simp only [h1, h2, h3, Option.isSome_none, Bool.false_eq_true, if_false, h4]
  rw [if_neg]
  rw [Bool.not_eq_true, List.any_eq_false]
  intro c hc
  cases c with
  | pick a l => rw [hp a l hc]; simp
  | _ => simp

/-- git for examples: it finishes the rebase without doing anything. -/
def exDisk (staged : Bool) : OnDiskEnv := ⟨none, false, staged, fun w => ({ w with rebaseDir := none }, 0)⟩

/-- C24 fails for staged changes: an on-disk rebase is started although there are changes in the index.
The documentation of `has_changed_files` (repo.rs:966-967) says "staged or unstaged changes", but it runs
`git diff --quiet`, which does not look at the difference between the index and `HEAD`. -/
theorem staged_changes_ignored :
    ∃ (disk : OnDiskEnv) (plan : RebasePlan) (w : RepoWorld), disk.stagedChanges = true ∧
      (rebaseOnDisk disk plan w).2 = .ok (.ok 0) := by
  refine ⟨exDisk true, ⟨oidN 0, [.reset (.oid (oidN 0)), .pick (oidN 1) [oidN 1]]⟩,
    exWorld [] (.detached (oidN 1)), rfl, ?_⟩
  decide +kernel

/-- An on-disk rebase of a plan with a squash (`git move --fixup --on-disk`, or after a conflict) panics
when git's state directory has been created already: afterwards git believes that a rebase is in
progress. -/
theorem on_disk_fixup_panics :
    ∃ (disk : OnDiskEnv) (plan : RebasePlan) (w w' : RepoWorld), disk.stagedChanges = false ∧
      w.rebaseDir = none ∧
      rebaseOnDisk disk plan w = (w', .error .panic) ∧ w'.rebaseDir = some none ∧
      (rebaseOnDisk disk plan w').2 = .ok (.error (.operationAlreadyInProgress t!"rebase")) := by
  refine ⟨exDisk false, ⟨oidN 0, [.reset (.oid (oidN 0)), .pick (oidN 1) [oidN 1, oidN 2]]⟩,
    exWorld [] (.detached (oidN 1)), _, rfl, rfl, rfl, rfl, ?_⟩
  decide +kernel

/-- Non-vacuity of `on_disk_starts`, and of `on_disk_not_started_partial` afterwards. -/
example : (exWorld [] (.detached (oidN 1))).rebaseDir = none ∧ (exDisk false).otherOperation = none ∧
    (∀ c l, .pick c l ∈ [RebaseCommand.reset (.oid (oidN 0)), .pick (oidN 1) [oidN 1]] → l = [c]) ∧
    [RebaseCommand.reset (.oid (oidN 0)), .pick (oidN 1) [oidN 1], .merge (oidN 2) [.oid (oidN 1), .label t!"x"]].mapM
      RebaseCommand.toRebaseCommand = .ok [t!"reset " ++ (oidN 0).toText, t!"pick " ++ (oidN 1).toText,
        t!"merge -C " ++ (oidN 2).toText ++ t!" " ++ (oidN 1).toText ++ t!" x"] := by
  refine ⟨rfl, rfl, ?_, by decide +kernel⟩
  intro c l h
  simp only [List.mem_cons, reduceCtorEq, RebaseCommand.pick.injEq, List.not_mem_nil, or_false,
    false_or] at h
  rw [h.1, h.2]

/-- Non-vacuity: a plan with a merge commit cannot be executed in memory. Without the wish to resolve
conflicts it is declined; with it, git is run. -/
example (ee : ExecEnv) (finish : List (Oid × CommitData) → FinishEnv) :
    let plan : RebasePlan := ⟨oidN 0, [.merge (oidN 2) [.oid (oidN 1)]]⟩
    let w := exWorld [] (.detached (oidN 1))
    executeRebasePlan ee finish (exDisk false) ⟨false, false, false⟩ plan w =
      (w, .ok (.declinedToMerge (.cannotRebaseMergeInMemory (oidN 2)))) ∧
    (executeRebasePlan ee finish (exDisk false) ⟨false, false, true⟩ plan w).2 =
      .ok (.succeeded none) := ⟨rfl, rfl⟩

end Verif.Props
