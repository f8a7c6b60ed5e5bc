import Verif.Model.AbortTrap
import Verif.Spec.TestDir
import Verif.Props.ExecuteChoice

/-! C87: after tests in the working copy everything is as before. -/

namespace Verif.Props

open Verif Verif.Spec Verif.TestRun Verif.TestDir

/-- That there are no changes to tracked files means that what is checked out is the tree of `HEAD`. -/
structure HonestChanges (env : TrapEnv) (w : TrapWorld) : Prop where
  unstaged : env.unstagedChanges = false → ∀ p t, w.dir.index p = some t → w.dir.files p = some t
  staged : ∀ o, w.repo.git.headInfo.oid = some o → env.stagedChanges = false → ∀ p, w.dir.index p = env.tree o p

theorem set_trap_cases (ee : ExecEnv) (finish : List (Oid × CommitData) → FinishEnv) (env : TrapEnv)
    (w : TrapWorld) :
    (setAbortTrap ee finish env .workingCopy w = (w, .ok (.error 1)) ∧
      (w.repo.rebaseDir.isSome ∨ env.otherOperation.isSome ∨ w.repo.git.headInfo.oid = none ∨
        env.unstagedChanges = true)) ∨
    (w.repo.rebaseDir = none ∧ env.otherOperation = none ∧ env.unstagedChanges = false ∧
      ∃ o, w.repo.git.headInfo.oid = some o ∧
        setAbortTrap ee finish env .workingCopy w =
          (⟨{ w.repo with
                rebaseDir := some (some (if env.stagedChanges then t!"break\n" else []))
                git := { w.repo.git with head := .detached o } }, some o,
              some (w.repo.git.headInfo.referenceName.getD t!"detached HEAD"), w.dir⟩,
            .ok (if env.stagedChanges then .error 1 else .ok true))) := by
  by_cases hop : w.repo.rebaseDir.isSome ∨ env.otherOperation.isSome
  · left
    constructor
    · unfold setAbortTrap
      have : ∃ t, env.disk.currentOperationType w.repo = some t := by
        unfold OnDiskEnv.currentOperationType TrapEnv.disk
        rcases hop with h | h
        · exact ⟨_, by rw [if_pos h]⟩
        · dsimp only
          split
          · exact ⟨_, rfl⟩
          · exact Option.isSome_iff_exists.1 h
      obtain ⟨t, ht⟩ := this
      simp only [ht]
    · tauto
  simp only [not_or, Bool.not_eq_true, Option.isSome_eq_false_iff, Option.isNone_iff_eq_none] at hop
  have hcur : env.disk.currentOperationType w.repo = none := by
    unfold OnDiskEnv.currentOperationType TrapEnv.disk
    simp [hop.1, hop.2]
  cases ho : w.repo.git.headInfo.oid with
  | none =>
    left
    refine ⟨?_, by tauto⟩
    unfold setAbortTrap
    simp only [hcur, ho]
  | some o =>
    cases hu : env.unstagedChanges with
    | true =>
      left
      refine ⟨?_, by tauto⟩
      unfold setAbortTrap executeRebasePlan rebaseOnDisk writeRebaseStateToDisk OnDiskEnv.hasChangedFiles
      simp only [hcur, ho]
      have : env.disk.unstagedChanges = true := hu
      simp only [this, ↓reduceIte]
      simp [TrapWorld.started, hop.1]
    | false =>
      right
      refine ⟨hop.1, hop.2, rfl, o, rfl, ?_⟩
      unfold setAbortTrap executeRebasePlan rebaseOnDisk writeRebaseStateToDisk OnDiskEnv.hasChangedFiles
      simp only [hcur, ho]
      have : env.disk.unstagedChanges = false := hu
      have hc : env.disk.rebaseContinue = gitContinueBreak env.stagedChanges := rfl
      simp only [this, hc, Bool.false_eq_true, ↓reduceIte]
      cases hs : env.stagedChanges with
      | true =>
        simp only [List.any_cons, List.any_nil, Bool.or_false, Bool.false_eq_true, ↓reduceIte, gitContinueBreak]
        simp [TrapWorld.started, hop.1, ho, List.mapM_cons, RebaseCommand.toRebaseCommand, GitState.detachHead]
      | false =>
        simp only [List.any_cons, List.any_nil, Bool.or_false, Bool.false_eq_true, ↓reduceIte, gitContinueBreak]
        simp [TrapWorld.started, hop.1, ho, List.mapM_cons, RebaseCommand.toRebaseCommand, GitState.detachHead]

/-- `HEAD` is a branch, or a commit. -/
def ProperHead (g : GitState) : Prop :=
  match g.head with
  | .missing => True
  | .detached _ => True
  | .symbolic n => (stripPrefix? t!"refs/" n).isSome

/-- What `git rebase --abort` does after `set_abort_trap`, whatever was done in between to references, `HEAD` and files. -/
theorem trap_aborted (tree : Oid → Text → Option Text) (w w1 : TrapWorld) (o : Oid)
    (ho : w.repo.git.headInfo.oid = some o) (hh : ProperHead w.repo.git) (h1 : w1.repo.rebaseDir.isSome)
    (h2 : w1.origHead = some o)
    (h3 : w1.headName = some (w.repo.git.headInfo.referenceName.getD t!"detached HEAD")) :
    ∃ w2, gitRebaseAbort tree w1 = (w2, 0) ∧ w2.repo.git.head = w.repo.git.head ∧
      w2.repo.git.headInfo = w.repo.git.headInfo ∧ w2.repo.rebaseDir = none ∧ w2.repo.db = w1.repo.db ∧
      w2.repo.deferred = w1.repo.deferred ∧
      (∀ n, w.repo.git.head ≠ .symbolic n → w2.repo.git.refs.get? n = w1.repo.git.refs.get? n) ∧
      HasTree (tree o) w2.dir ∧
      ∀ p, tree o p = none → w2.dir.files p = if (w1.dir.index p).isSome then none else w1.dir.files p := by
  obtain ⟨x, hx⟩ := Option.isSome_iff_exists.1 h1
  unfold gitRebaseAbort
  rw [hx, h2, h3]
  refine ⟨_, rfl, ?_⟩
  have hreset : HasTree (tree o) (w1.dir.reset (tree o)) :=
    ⟨fun p t h => by simp [Dir.reset, h], fun p => rfl⟩
  have hun : ∀ p, tree o p = none →
      (w1.dir.reset (tree o)).files p = if (w1.dir.index p).isSome then none else w1.dir.files p := by
    intro p h4
    simp [Dir.reset, h4]
  unfold ProperHead at hh
  unfold GitState.headInfo at ho ⊢
  cases hw : w.repo.git.head with
  | missing => rw [hw] at ho; cases ho
  | detached o' =>
    rw [hw] at ho
    simp only [Option.some.injEq] at ho
    subst ho
    have : (stripPrefix? t!"refs/" t!"detached HEAD").isSome = false := by decide +kernel
    simp only [Option.getD_none, this, Bool.false_eq_true, ↓reduceIte]
    exact ⟨trivial, trivial, trivial, trivial, trivial, fun _ _ => trivial, hreset, hun⟩
  | symbolic n =>
    rw [hw] at ho hh
    simp only at ho hh
    simp only [Option.getD_some, hh, ↓reduceIte]
    refine ⟨trivial, ?_, trivial, trivial, trivial, ?_, hreset, hun⟩
    · rw [AMap.get?_insert, if_pos rfl, ho]
    · intro m hm
      rw [AMap.get?_insert, if_neg]
      rintro rfl
      exact hm rfl

/-- C87: after tests in the working copy `HEAD`, the branch which is checked out and the tracked files are as before, and
no rebase is in progress, whatever the tests do to references, `HEAD` and files, and whether or not they fail. Missing:
staged changes, see `staged_changes_trapped`. -/
theorem tests_leave_no_trace_partial (ee : ExecEnv) (finish : List (Oid × CommitData) → FinishEnv) (env : TrapEnv)
    (inner : TrapWorld → TrapWorld × Except Failure (Except Nat α)) (w w' : TrapWorld)
    (r : Except Failure (Except Nat α)) (h : runTests ee finish env .workingCopy inner w = (w', r))
    (hc : HonestChanges env w) (hh : ProperHead w.repo.git) (hs : env.stagedChanges = false)
    (hi : ∀ v, v.repo.rebaseDir.isSome → (inner v).1.repo.rebaseDir.isSome ∧ (inner v).1.origHead = v.origHead ∧
      (inner v).1.headName = v.headName) :
    w'.repo.git.head = w.repo.git.head ∧ w'.repo.git.headInfo = w.repo.git.headInfo ∧
      w'.repo.rebaseDir = w.repo.rebaseDir ∧ (∀ p t, w.dir.index p = some t → w.dir.files p = some t →
        w'.dir.files p = some t) ∧ w'.dir.index = w.dir.index := by
  unfold runTests at h
  rcases set_trap_cases ee finish env w with ⟨h1, -⟩ | ⟨h1, h2, h3, o, h4, h5⟩
  · rw [h1] at h
    cases h
    exact ⟨rfl, rfl, rfl, fun _ _ _ h => h, rfl⟩
  · rw [h5, hs] at h
    simp only [Bool.false_eq_true, ↓reduceIte] at h
    generalize hv : (⟨_, some o, some (w.repo.git.headInfo.referenceName.getD t!"detached HEAD"), w.dir⟩ : TrapWorld) = v
      at h
    obtain ⟨h6, h7, h8⟩ := hi v (by rw [← hv]; rfl)
    obtain ⟨w2, ha, hb, hc', hd, -, -, -, he, -⟩ := trap_aborted env.tree w (inner v).1 o h4 hh h6
      (by rw [h7, ← hv]) (by rw [h8, ← hv])
    unfold clearAbortTrap at h
    rw [if_pos rfl, ha] at h
    simp only [Prod.mk.injEq] at h
    obtain ⟨rfl, -⟩ := h
    have hidx := hc.staged o h4 hs
    refine ⟨hb, hc', by rw [hd, h1], fun p t hp _ => ?_, ?_⟩
    · rw [hidx p] at hp
      exact he.1 p t hp
    · funext p
      rw [he.2 p, hidx p]

/-- C87: if an operation is in progress, no commit is checked out or there are unstaged changes then nothing is done. -/
theorem tests_refused (ee : ExecEnv) (finish : List (Oid × CommitData) → FinishEnv) (env : TrapEnv)
    (inner : TrapWorld → TrapWorld × Except Failure (Except Nat α)) (w : TrapWorld)
    (h : w.repo.rebaseDir.isSome ∨ env.otherOperation.isSome ∨ w.repo.git.headInfo.oid = none ∨
      env.unstagedChanges = true) :
    runTests ee finish env .workingCopy inner w = (w, .ok (.error 1)) := by
  unfold runTests
  rcases set_trap_cases ee finish env w with ⟨h1, -⟩ | ⟨h1, h2, h3, o, h4, -⟩
  · rw [h1]
  · rw [h1, h2, h3, h4] at h
    simp at h

/-- C87: otherwise, without staged changes, the tests are run, at the commit which was checked out, while a rebase is in
progress; and their result is the one of the command. -/
theorem tests_run (ee : ExecEnv) (finish : List (Oid × CommitData) → FinishEnv) (env : TrapEnv)
    (inner : TrapWorld → TrapWorld × Except Failure (Except Nat α)) (w : TrapWorld) (o : Oid)
    (h1 : w.repo.rebaseDir = none) (h2 : env.otherOperation = none) (h3 : w.repo.git.headInfo.oid = some o)
    (h4 : env.unstagedChanges = false) (h5 : env.stagedChanges = false) (hh : ProperHead w.repo.git)
    (hi : ∀ v, v.repo.rebaseDir.isSome → (inner v).1.repo.rebaseDir.isSome ∧ (inner v).1.origHead = v.origHead ∧
      (inner v).1.headName = v.headName) :
    ∃ v, v.repo.git = { w.repo.git with head := .detached o } ∧ v.repo.rebaseDir.isSome ∧ v.dir = w.dir ∧
      v.repo.db = w.repo.db ∧ (runTests ee finish env .workingCopy inner w).2 = (inner v).2 ∧
      ∀ p, env.tree o p = none →
        (runTests ee finish env .workingCopy inner w).1.dir.files p =
          if ((inner v).1.dir.index p).isSome then none else (inner v).1.dir.files p := by
  rcases set_trap_cases ee finish env w with ⟨-, h⟩ | ⟨-, -, -, o', h3', h6⟩
  · rw [h1, h2, h3, h4] at h
    simp at h
  rw [h3] at h3'
  cases h3'
  rw [h5] at h6
  simp only [Bool.false_eq_true, ↓reduceIte] at h6
  generalize hv : (⟨_, some o, some (w.repo.git.headInfo.referenceName.getD t!"detached HEAD"), w.dir⟩ : TrapWorld) = v
    at h6
  obtain ⟨h7, h8, h9⟩ := hi v (by rw [← hv]; rfl)
  obtain ⟨w2, ha, -, -, -, -, -, -, -, he⟩ := trap_aborted env.tree w (inner v).1 o h3 hh h7
    (by rw [h8, ← hv]) (by rw [h9, ← hv])
  have hr : runTests ee finish env .workingCopy inner w = (w2, (inner v).2) := by
    unfold runTests
    rw [h6]
    simp only [clearAbortTrap, ↓reduceIte, ha]
  refine ⟨v, by rw [← hv], by rw [← hv]; rfl, by rw [← hv], by rw [← hv], by rw [hr], ?_⟩
  rw [hr]
  exact he

/-- C87: if the tests themselves end the rebase, this is an error. -/
theorem lost_rebase_noticed (ee : ExecEnv) (finish : List (Oid × CommitData) → FinishEnv) (env : TrapEnv)
    (inner : TrapWorld → TrapWorld × Except Failure (Except Nat α)) (w : TrapWorld) (o : Oid)
    (h1 : w.repo.rebaseDir = none) (h2 : env.otherOperation = none) (h3 : w.repo.git.headInfo.oid = some o)
    (h4 : env.unstagedChanges = false) (h5 : env.stagedChanges = false)
    (hi : ∀ v, (inner v).1.repo.rebaseDir = none) :
    (runTests ee finish env .workingCopy inner w).2 = .ok (.error 128) := by
  rcases set_trap_cases ee finish env w with ⟨-, h⟩ | ⟨-, -, -, o', h3', h6⟩
  · rw [h1, h2, h3, h4] at h
    simp at h
  rw [h5] at h6
  simp only [Bool.false_eq_true, ↓reduceIte] at h6
  unfold runTests
  rw [h6]
  simp only [clearAbortTrap, ↓reduceIte, gitRebaseAbort, hi]

/-- C87: with worktrees there is no rebase, and nothing but what the tests do. -/
theorem tests_in_worktrees (ee : ExecEnv) (finish : List (Oid × CommitData) → FinishEnv) (env : TrapEnv)
    (inner : TrapWorld → TrapWorld × Except Failure (Except Nat α)) (w : TrapWorld) :
    runTests ee finish env .worktree inner w = inner w := by
  rfl

/-- C87: with staged changes and no unstaged ones the tests are not run, but the branch is not checked out any more, and a
rebase is in progress; so that they are refused next time, too. -/
theorem staged_changes_trapped (ee : ExecEnv) (finish : List (Oid × CommitData) → FinishEnv) (env : TrapEnv)
    (inner : TrapWorld → TrapWorld × Except Failure (Except Nat α)) (w : TrapWorld) (o : Oid)
    (h1 : w.repo.rebaseDir = none) (h2 : env.otherOperation = none) (h3 : w.repo.git.headInfo.oid = some o)
    (h4 : env.unstagedChanges = false) (h5 : env.stagedChanges = true) :
    ∃ w', runTests ee finish env .workingCopy inner w = (w', .ok (.error 1)) ∧
      w'.repo.git.head = .detached o ∧ w'.repo.rebaseDir.isSome ∧
      runTests ee finish env .workingCopy inner w' = (w', .ok (.error 1)) := by
  rcases set_trap_cases ee finish env w with ⟨-, h⟩ | ⟨-, -, -, o', h3', h6⟩
  · rw [h1, h2, h3, h4] at h
    simp at h
  rw [h3] at h3'
  cases h3'
  rw [h5] at h6
  simp only [↓reduceIte] at h6
  refine ⟨(setAbortTrap ee finish env .workingCopy w).1, ?_, ?_, ?_, tests_refused ee finish env inner _ (.inl ?_)⟩
  · unfold runTests
    rw [h6]
  all_goals simp [h6]

/-- C87: if the tests are interrupted, then `git rebase --abort` does the same, whatever state they have left. -/
theorem interrupted_tests_aborted (ee : ExecEnv) (finish : List (Oid × CommitData) → FinishEnv) (env : TrapEnv)
    (w v v' : TrapWorld) (hh : ProperHead w.repo.git)
    (h : setAbortTrap ee finish env .workingCopy w = (v, .ok (.ok true)))
    (hd : v'.repo.rebaseDir.isSome) (ho : v'.origHead = v.origHead) (hn : v'.headName = v.headName) :
    ∃ o w', w.repo.git.headInfo.oid = some o ∧ gitRebaseAbort env.tree v' = (w', 0) ∧
      w'.repo.git.head = w.repo.git.head ∧ w'.repo.git.headInfo = w.repo.git.headInfo ∧ w'.repo.rebaseDir = none ∧
      HasTree (env.tree o) w'.dir ∧
      ∀ p, env.tree o p = none → w'.dir.files p = if (v'.dir.index p).isSome then none else v'.dir.files p := by
  rcases set_trap_cases ee finish env w with ⟨h1, -⟩ | ⟨-, -, -, o, h3, h6⟩
  · rw [h1] at h; cases h
  · rw [h6] at h
    obtain ⟨h7, h8⟩ := Prod.mk.inj h
    obtain ⟨w2, ha, hb, hc, hd', -, -, -, he, hf⟩ := trap_aborted env.tree w v' o h3 hh hd
      (by rw [ho, ← h7]) (by rw [hn, ← h7])
    exact ⟨o, w2, h3, ha, hb, hc, hd', he, hf⟩

/-- A working copy of a branch. -/
def exTrapEnv (staged : Bool) : TrapEnv := ⟨none, false, staged, fun o p => if p = t!"a" then some (natToText o.val) else none⟩

def exTrapWorld : TrapWorld :=
  ⟨exWorld [(t!"refs/heads/x", oidN 1)] (.symbolic t!"refs/heads/x"), none, none,
    ⟨fun p => if p = t!"a" then some t!"2" else if p = t!"u" then some t!"untracked" else none,
      fun p => if p = t!"a" then some t!"2" else none⟩⟩

/-- Tests which check out another commit, commit to the branch and change files. -/
def exTests (v : TrapWorld) : TrapWorld × Except Failure (Except Nat Unit) :=
  ({ v with
      repo := { v.repo with git := ⟨v.repo.git.refs.insert t!"refs/heads/x" (oidN 7), .symbolic t!"refs/heads/x"⟩ }
      dir := ⟨fun p => if p = t!"u" then some t!"changed" else none, fun _ => some t!"z"⟩ }, .ok (.error 3))

example : HonestChanges (exTrapEnv false) exTrapWorld ∧ ProperHead exTrapWorld.repo.git := by
  refine ⟨⟨fun _ p t h => ?_, fun o ho _ p => ?_⟩, by rfl⟩
  · simp only [exTrapWorld] at h ⊢
    split at h
    · rename_i hp; rw [if_pos hp]; exact h
    · cases h
  · have : o = oidN 1 := by
      have h1 : exTrapWorld.repo.git.headInfo.oid = some (oidN 1) := by decide +kernel
      rw [h1] at ho
      exact (Option.some.inj ho).symm
    subst this
    rfl

example (ee : ExecEnv) (finish : List (Oid × CommitData) → FinishEnv) :
    (runTests ee finish (exTrapEnv false) .workingCopy exTests exTrapWorld).1.repo.git = exTrapWorld.repo.git ∧
    (runTests ee finish (exTrapEnv false) .workingCopy exTests exTrapWorld).2 = .ok (.error 3) :=
  ⟨rfl, rfl⟩

end Verif.Props
