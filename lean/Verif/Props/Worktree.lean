import Verif.Spec.Worktree
import Verif.Props.RefTransaction
import Mathlib.Tactic.Common

/-!
# C99: every worktree uses the data of its repository
-/

namespace Verif.Props

open Verif Verif.Spec

/-- What is opened from a directory is what there is at the nearest directory above. -/
theorem fromDir_inside {d : Disk} {cwd top : RPath} {r : OpenedRepo} (hin : InsideOf d cwd top)
    (htop : discoverAt d top = some (some r)) : d.fromDir cwd = some r := by
  induction cwd with
  | nil =>
    have : top = [] := by simpa using hin.1
    subst this
    simp [Disk.fromDir, htop]
  | cons c up ih =>
    by_cases he : top = c :: up
    · subst he
      simp [Disk.fromDir, htop]
    · have hsuf : top <:+ up := by
        rcases List.suffix_cons_iff.1 hin.1 with h | h
        · exact absurd h he
        · exact h
      obtain ⟨h1, h2, h3⟩ := hin.2 (c :: up) (List.suffix_refl _) hin.1 (fun h => he h.symm)
      have hnone : discoverAt d (c :: up) = none := by
        simp [discoverAt, h1, h2, h3]
      simp only [Disk.fromDir, hnone]
      exact ih ⟨hsuf, fun p hp => hin.2 p (hp.trans (List.suffix_cons _ _))⟩

theorem discoverAt_ordinary {d : Disk} {root : RPath} (h : OrdinaryRepo d root) :
    discoverAt d root = some (some ⟨t!".git" :: root⟩) := by
  simp [discoverAt, h.valid]

theorem discoverAt_worktree {d : Disk} {git wt : RPath} {name : Text} (h : WorktreeOf d git name wt) :
    discoverAt d wt = some (some ⟨name :: t!"worktrees" :: git⟩) := by
  simp [discoverAt, h.noDir, h.forth, h.valid]

theorem worktree_isWorktree {d : Disk} {git wt : RPath} {name : Text} (h : WorktreeOf d git name wt) :
    (OpenedRepo.mk (name :: t!"worktrees" :: git)).isWorktree d = true := by
  simp [OpenedRepo.isWorktree, h.back]

theorem main_isWorktree {d : Disk} {git : RPath} (h : IsMain d git) : (OpenedRepo.mk git).isWorktree d = false := by
  simp [OpenedRepo.isWorktree, h.own]

/-! ### the data of the program -/

/-- In the working copy of the repository itself the data is in `.git/branchless`. -/
theorem main_data {d : Disk} {root cwd : RPath} (h : OrdinaryRepo d root) (hin : InsideOf d cwd root) :
    ∃ r, d.fromDir cwd = some r ∧ r.branchlessDir d = some (t!"branchless" :: t!".git" :: root) ∧
      r.database d = some (t!"db.sqlite3" :: t!"branchless" :: t!".git" :: root) ∧
      r.defaultHooksDir d = some (t!"hooks" :: t!".git" :: root) := by
  refine ⟨_, fromDir_inside hin (discoverAt_ordinary h), ?_, ?_, ?_⟩ <;>
    simp [OpenedRepo.database, OpenedRepo.branchlessDir, OpenedRepo.defaultHooksDir, OpenedRepo.worktreeParent,
      main_isWorktree h.toIsMain]

/-- In a worktree of a repository whose directory of git is `.git` in its working copy, the data and the hooks are those
of the repository. -/
theorem worktree_data_partial {d : Disk} {root wt cwd : RPath} {name : Text} (hm : OrdinaryRepo d root)
    (h : WorktreeOf d (t!".git" :: root) name wt) (hin : InsideOf d cwd wt) :
    ∃ r, d.fromDir cwd = some r ∧ r.branchlessDir d = some (t!"branchless" :: t!".git" :: root) ∧
      r.database d = some (t!"db.sqlite3" :: t!"branchless" :: t!".git" :: root) ∧
      r.defaultHooksDir d = some (t!"hooks" :: t!".git" :: root) := by
  have hp : d.fromDir root = some ⟨t!".git" :: root⟩ :=
    fromDir_inside ⟨List.suffix_refl _, fun p h1 h2 h3 =>
      absurd (List.IsSuffix.eq_of_length h1 (Nat.le_antisymm h1.length_le h2.length_le)) h3⟩ (discoverAt_ordinary hm)
  refine ⟨_, fromDir_inside hin (discoverAt_worktree h), ?_, ?_, ?_⟩ <;>
    simp [OpenedRepo.database, OpenedRepo.branchlessDir, OpenedRepo.defaultHooksDir, OpenedRepo.worktreeParent,
      worktree_isWorktree h, hp]

/-- So two commands in any two places of such a repository, in its working copy or in worktrees, have the same event
log. -/
theorem same_database_partial {d : Disk} {root : RPath} (hm : OrdinaryRepo d root) {cwd1 cwd2 : RPath}
    (h1 : InsideOf d cwd1 root ∨ ∃ name wt, WorktreeOf d (t!".git" :: root) name wt ∧ InsideOf d cwd1 wt)
    (h2 : InsideOf d cwd2 root ∨ ∃ name wt, WorktreeOf d (t!".git" :: root) name wt ∧ InsideOf d cwd2 wt) :
    ∃ r1 r2 file, d.fromDir cwd1 = some r1 ∧ d.fromDir cwd2 = some r2 ∧ r1.database d = some file ∧
      r2.database d = some file := by
  have key : ∀ {cwd : RPath}, (InsideOf d cwd root ∨ ∃ name wt, WorktreeOf d (t!".git" :: root) name wt ∧
      InsideOf d cwd wt) → ∃ r, d.fromDir cwd = some r ∧
      r.database d = some (t!"db.sqlite3" :: t!"branchless" :: t!".git" :: root) := by
    rintro cwd (h | ⟨name, wt, hw, h⟩)
    · obtain ⟨r, a, _, b, _⟩ := main_data hm h
      exact ⟨r, a, b⟩
    · obtain ⟨r, a, _, b, _⟩ := worktree_data_partial hm hw h
      exact ⟨r, a, b⟩
  obtain ⟨r1, a1, b1⟩ := key h1
  obtain ⟨r2, a2, b2⟩ := key h2
  exact ⟨r1, r2, _, a1, a2, b1, b2⟩

/-- In general: the data of a worktree is the data of the repository which is found from the directory ABOVE the
directory of git, and there is an error if there is none. So it is the right one exactly if that repository is. -/
theorem worktree_data_right_iff {d : Disk} {git wt cwd up : RPath} {c name : Text} (hg : git = c :: up)
    (h : WorktreeOf d git name wt) (hin : InsideOf d cwd wt) :
    ∃ r, d.fromDir cwd = some r ∧ r.branchlessDir d = (d.fromDir up).map (fun o => t!"branchless" :: o.path) ∧
      (r.branchlessDir d = some (t!"branchless" :: git) ↔ d.fromDir up = some ⟨git⟩) := by
  have hb : (OpenedRepo.mk (name :: t!"worktrees" :: git)).branchlessDir d =
      (d.fromDir up).map (fun o => t!"branchless" :: o.path) := by
    subst hg
    simp only [OpenedRepo.branchlessDir, OpenedRepo.worktreeParent, worktree_isWorktree h, Bool.not_true,
      Bool.false_eq_true, if_false]
    cases d.fromDir up <;> rfl
  refine ⟨_, fromDir_inside hin (discoverAt_worktree h), hb, ?_⟩
  rw [hb]
  cases ho : d.fromDir up with
  | none => simp
  | some o =>
    cases o
    simp

/-- The worktree of a bare repository: if no repository is around it, every command fails. -/
theorem bare_worktree_fails {d : Disk} {wt cwd up : RPath} {c name : Text} (h : WorktreeOf d (c :: up) name wt)
    (hin : InsideOf d cwd wt) (hnone : ∀ p, p <:+ up → discoverAt d p = none) :
    ∃ r, d.fromDir cwd = some r ∧ r.branchlessDir d = none ∧ r.database d = none ∧ r.defaultHooksDir d = none := by
  have hn : d.fromDir up = none := by
    clear h hin
    induction up with
    | nil => simp [Disk.fromDir, hnone [] (List.suffix_refl _)]
    | cons x up ih =>
      simp only [Disk.fromDir, hnone (x :: up) (List.suffix_refl _)]
      exact ih fun p hp => hnone p (hp.trans (List.suffix_cons _ _))
  refine ⟨_, fromDir_inside hin (discoverAt_worktree h), ?_, ?_, ?_⟩ <;>
    simp [OpenedRepo.database, OpenedRepo.branchlessDir, OpenedRepo.defaultHooksDir, OpenedRepo.worktreeParent,
      worktree_isWorktree h, hn]

/-- If there is one, its data and hooks are used and changed: those of another repository. -/
theorem worktree_uses_other_repo {d : Disk} {wt cwd up outer : RPath} {c name : Text}
    (h : WorktreeOf d (c :: up) name wt) (hin : InsideOf d cwd wt) (ho : OrdinaryRepo d outer)
    (hout : InsideOf d up outer) (hc : c :: up ≠ t!".git" :: outer) :
    ∃ r, d.fromDir cwd = some r ∧ r.branchlessDir d = some (t!"branchless" :: t!".git" :: outer) ∧
      r.branchlessDir d ≠ some (t!"branchless" :: c :: up) ∧
      r.defaultHooksDir d = some (t!"hooks" :: t!".git" :: outer) := by
  have hf : d.fromDir up = some ⟨t!".git" :: outer⟩ := fromDir_inside hout (discoverAt_ordinary ho)
  have hb : (OpenedRepo.mk (name :: t!"worktrees" :: c :: up)).branchlessDir d =
      some (t!"branchless" :: t!".git" :: outer) := by
    simp [OpenedRepo.branchlessDir, OpenedRepo.worktreeParent, worktree_isWorktree h, hf]
  refine ⟨_, fromDir_inside hin (discoverAt_worktree h), hb, ?_, ?_⟩
  · rw [hb]
    intro he
    simp only [Option.some.injEq, List.cons.injEq, true_and] at he
    exact hc (by rw [← he.1, ← he.2])
  · simp [OpenedRepo.defaultHooksDir, OpenedRepo.worktreeParent, worktree_isWorktree h, hf]

/-- A repository which is below the directory of git of another, as that of a submodule is: a worktree of it uses the data and
hooks of the other one. -/
theorem submodule_worktree_uses_other {d : Disk} {wt cwd up outer : RPath} {c name : Text}
    (h : WorktreeOf d (c :: up) name wt) (hin : InsideOf d cwd wt) (ho : IsMain d outer)
    (hplain : d.gitDir (t!".git" :: outer) = false ∧ d.gitFile outer = none) (hout : InsideOf d up outer) :
    ∃ r, d.fromDir cwd = some r ∧ r.branchlessDir d = some (t!"branchless" :: outer) ∧
      r.branchlessDir d ≠ some (t!"branchless" :: c :: up) ∧ r.defaultHooksDir d = some (t!"hooks" :: outer) := by
  have hf : d.fromDir up = some ⟨outer⟩ :=
    fromDir_inside hout (by simp [discoverAt, hplain.1, hplain.2, ho.valid])
  have hb : (OpenedRepo.mk (name :: t!"worktrees" :: c :: up)).branchlessDir d = some (t!"branchless" :: outer) := by
    simp [OpenedRepo.branchlessDir, OpenedRepo.worktreeParent, worktree_isWorktree h, hf]
  refine ⟨_, fromDir_inside hin (discoverAt_worktree h), hb, ?_, ?_⟩
  · rw [hb]
    intro he
    simp only [Option.some.injEq, List.cons.injEq, true_and] at he
    have := hout.1.length_le
    rw [he] at this
    simp at this
    omega
  · simp [OpenedRepo.defaultHooksDir, OpenedRepo.worktreeParent, worktree_isWorktree h, hf]

/-! ### the working copy -/

/-- git and the hooks are run at the top of the working copy of the worktree in which the program was started. -/
theorem worktree_working_directory {d : Disk} {git wt cwd : RPath} {name : Text} (h : WorktreeOf d git name wt)
    (hin : InsideOf d cwd wt) (hfile : d.gitdirFile wt = .missing) :
    ∃ r, d.fromDir cwd = some r ∧ r.workingCopyPath d = some wt ∧ r.workingDirectory d cwd = wt := by
  have hw : (OpenedRepo.mk (name :: t!"worktrees" :: git)).workingCopyPath d = some wt := by
    unfold OpenedRepo.workingCopyPath
    rcases h.workdir with hd | hd
    · simp [hd, worktree_isWorktree h, hfile]
    · simp [hd, worktree_isWorktree h, h.back, h.there]
  refine ⟨_, fromDir_inside hin (discoverAt_worktree h), hw, ?_⟩
  simp [OpenedRepo.workingDirectory, hw, hin.1]

theorem main_working_directory {d : Disk} {root cwd : RPath} (h : OrdinaryRepo d root) (hin : InsideOf d cwd root) :
    ∃ r, d.fromDir cwd = some r ∧ r.workingCopyPath d = some root ∧ r.workingDirectory d cwd = root := by
  have hw : (OpenedRepo.mk (t!".git" :: root)).workingCopyPath d = some root := by
    simp [OpenedRepo.workingCopyPath, h.workdir, main_isWorktree h.toIsMain]
  refine ⟨_, fromDir_inside hin (discoverAt_ordinary h), hw, ?_⟩
  simp [OpenedRepo.workingDirectory, hw, hin.1]

/-- A file of the user which is called `gitdir`, at the top of a worktree, is read as if it were git's: the working copy is
then wherever its first line leads. -/
theorem file_called_gitdir {d : Disk} {git wt cwd other : RPath} {name c : Text} (h : WorktreeOf d git name wt)
    (hin : InsideOf d cwd wt) (hwd : d.workdir (name :: t!"worktrees" :: git) = some wt)
    (hfile : d.gitdirFile wt = .link (c :: other)) :
    ∃ r, d.fromDir cwd = some r ∧ r.workingCopyPath d = d.canonicalize other := by
  refine ⟨_, fromDir_inside hin (discoverAt_worktree h), ?_⟩
  simp [OpenedRepo.workingCopyPath, hwd, worktree_isWorktree h, hfile]

/-! ### hooks -/

/-- Hooks with an absolute setting, or none, are looked up independently of the directory of the program. -/
theorem hooks_dir_partial {d : Disk} {setting : Option HooksSetting} (hs : ∀ p, setting ≠ some (.relative p))
    (cwd1 cwd2 : RPath) (r : OpenedRepo) : r.hooksDir d setting cwd1 = r.hooksDir d setting cwd2 := by
  unfold OpenedRepo.hooksDir
  cases setting with
  | none => rfl
  | some s =>
    cases s with
    | absolute p => rfl
    | relative p => exact absurd rfl (hs p)

/-- With a relative setting, git takes it relative to the top of the working copy, where it runs hooks; the program takes
it relative to where it was started, so `init` in another directory installs hooks which git never runs. -/
theorem relative_hooks_misplaced {d : Disk} {root cwd : RPath} {p : List Text} (r : OpenedRepo) (hcwd : cwd ≠ root) :
    r.hooksDir d (some (.relative p)) cwd ≠ some (p ++ root) := by
  simp only [OpenedRepo.hooksDir, ne_eq, Option.some.injEq]
  intro h
  exact hcwd (List.append_cancel_left h)

/-! ### packed references -/

/-- The file with the packed references is that of the repository, in its own working copy. -/
theorem main_packed_refs {d : Disk} {root cwd : RPath} (h : OrdinaryRepo d root) (hin : InsideOf d cwd root) :
    ∃ r, d.fromDir cwd = some r ∧ r.packedRefsPath = t!"packed-refs" :: t!".git" :: root ∧
      r.rebaseStateDir = t!"rebase-merge" :: t!".git" :: root :=
  ⟨_, fromDir_inside hin (discoverAt_ordinary h), rfl, rfl⟩

/-- In a worktree, the program looks for it in the directory of the worktree, where git has none. (The state of a rebase is
where git has it.) -/
theorem worktree_packed_refs_wrong {d : Disk} {git wt cwd : RPath} {name : Text} (h : WorktreeOf d git name wt)
    (hin : InsideOf d cwd wt) :
    ∃ r, d.fromDir cwd = some r ∧ r.packedRefsPath ≠ t!"packed-refs" :: git ∧
      r.packedRefsPath = t!"packed-refs" :: name :: t!"worktrees" :: git ∧
      r.rebaseStateDir = t!"rebase-merge" :: name :: t!"worktrees" :: git := by
  refine ⟨_, fromDir_inside hin (discoverAt_worktree h), ?_, rfl, rfl⟩
  intro he
  have := congrArg List.length he
  simp [OpenedRepo.packedRefsPath] at this
  omega

theorem hook_records_one {files : RPath → Option Text} {r : OpenedRepo} {db : Db} {es : List Event} {env : Option Text}
    {now : Timestamp} {resolve : Text → Option MaybeZero} {name : Text} {o n o' n' : MaybeZero}
    (hrep : Reports (readPackedRefs (files r.packedRefsPath)).get? resolve
      [some (o.toText ++ ' ' :: (n.toText ++ ' ' :: name))] [(name, o', n')])
    (hs : ' ' ∉ name) (hp : db.pending = none) (he : db.getEvents = some es) :
    ∃ db', r.refTransactionHook files db env now resolve [some (o.toText ++ ' ' :: (n.toText ++ ' ' :: name))] =
        (true, db') ∧
      db'.getEvents = some (es ++ storable
        [.refUpdate now (db.makeTransactionId env t!"reference-transaction").1 name o' n' none]) := by
  have hres : Resolvable resolve [some (o.toText ++ ' ' :: (n.toText ++ ' ' :: name))] := by
    intro l hl t nm a b ht hu _
    rw [List.mem_singleton] at hl
    subst hl
    cases ht
    have hu' : UpdateLine (o.toText ++ ' ' :: (n.toText ++ ' ' :: name)) name (.direct o) (.direct n) :=
      ⟨_, _, rfl, space_not_mem_maybeZero o, space_not_mem_maybeZero n, hs,
        .direct (MaybeZero.parse_toText o), .direct (MaybeZero.parse_toText n)⟩
    have e := (parseRefLine_iff _ _ _ _).2 hu
    rw [(parseRefLine_iff _ _ _ _).2 hu'] at e
    cases e
    simp [RefTarget.asOid]
  obtain ⟨rr, h1, db', h2, h3⟩ := committed_recorded_partial resolve _ hres db es env now (files r.packedRefsPath) hp he
  rw [reports_unique h1 hrep] at h3
  exact ⟨db', h2, h3⟩

/-- `git pack-refs` writes the references to the file and deletes their own files, and (before git 2.36) tells the hook of
both. In the working copy of the repository the deletion is recorded as no change. -/
theorem main_packing_no_change {d : Disk} {root cwd : RPath} (h : OrdinaryRepo d root) (hin : InsideOf d cwd root)
    {files : RPath → Option Text} {db : Db} {es : List Event} {name : Text} {oid : Oid}
    (hpacked : (readPackedRefs (files (t!"packed-refs" :: t!".git" :: root))).get? name = some (.nonZero oid))
    (hs : ' ' ∉ name) (hi : ¬ Internal name) (hp : db.pending = none) (he : db.getEvents = some es)
    (env : Option Text) (now : Timestamp) (resolve : Text → Option MaybeZero) :
    ∃ r db', d.fromDir cwd = some r ∧
      r.refTransactionHook files db env now resolve
        [some ((MaybeZero.nonZero oid).toText ++ ' ' :: (MaybeZero.zero.toText ++ ' ' :: name))] = (true, db') ∧
      db'.getEvents = some (es ++ storable
        [.refUpdate now (db.makeTransactionId env t!"reference-transaction").1 name (.nonZero oid) (.nonZero oid) none]) := by
  obtain ⟨db', h1, h2⟩ := hook_records_one (r := ⟨t!".git" :: root⟩) (files := files) (env := env) (now := now)
    (packing_is_no_change _ resolve name _ _ oid hpacked (.inr ⟨rfl, rfl⟩) hs hi) hs hp he
  exact ⟨_, db', fromDir_inside hin (discoverAt_ordinary h), h1, h2⟩

/-- In a worktree, the same is recorded as the deletion of the reference, whatever is in the file. -/
theorem worktree_packing_is_deletion {d : Disk} {git wt cwd : RPath} {wtName : Text} (h : WorktreeOf d git wtName wt)
    (hin : InsideOf d cwd wt) {files : RPath → Option Text}
    (hnone : files (t!"packed-refs" :: wtName :: t!"worktrees" :: git) = none)
    {db : Db} {es : List Event} {name : Text} {oid : Oid}
    (hs : ' ' ∉ name) (hi : ¬ Internal name) (hp : db.pending = none) (he : db.getEvents = some es)
    (env : Option Text) (now : Timestamp) (resolve : Text → Option MaybeZero) :
    ∃ r db', d.fromDir cwd = some r ∧
      r.refTransactionHook files db env now resolve
        [some ((MaybeZero.nonZero oid).toText ++ ' ' :: (MaybeZero.zero.toText ++ ' ' :: name))] = (true, db') ∧
      db'.getEvents = some (es ++ storable
        [.refUpdate now (db.makeTransactionId env t!"reference-transaction").1 name (.nonZero oid) .zero none]) := by
  have hr : (readPackedRefs (files (OpenedRepo.mk (wtName :: t!"worktrees" :: git)).packedRefsPath)).get? name = none := by
    simp only [OpenedRepo.packedRefsPath, hnone]
    rfl
  obtain ⟨db', h1, h2⟩ := hook_records_one (r := ⟨wtName :: t!"worktrees" :: git⟩) (files := files) (env := env)
    (now := now) (unpacked_update_as_given _ resolve name (.nonZero oid) .zero (by simp) (by simp [hr]) hs hi) hs hp he
  exact ⟨_, db', fromDir_inside hin (discoverAt_worktree h), h1, h2⟩

end Verif.Props
