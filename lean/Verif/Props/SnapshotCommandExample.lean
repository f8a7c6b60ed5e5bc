import Verif.Props.SnapshotCommand
import Verif.Props.SnapshotExample

/-!
Concrete cases for the theorems about the commands for snapshots (C94).
-/

namespace Verif.Props

open Verif Verif.Spec

theorem reportsFiles_of_check {head : Tree} {index : GitIndex} {files : AMap TreePath File} {es : List StatusEntry}
    (h1 : ∀ p ∈ trackedPaths head index, AMap.get? files p ≠ fileAt head p →
      ∃ e ∈ es, ∃ q ∈ e.paths, components q = p)
    (h2 : ∀ e ∈ es, trackedB head index (components e.path) = true)
    (h3 : ∀ e ∈ es, e.workingCopyMode.toI32 =
      match AMap.get? files (components e.path) with
      | some f => (f.1 : Int)
      | none => 0) : ReportsFiles head index files es :=
  ⟨fun p ht hp => h1 p (tracked_mem ht) hp, fun e he => trackedB_iff.1 (h2 e he), h3⟩

theorem fileModes_of_check {w : SnapWorld} (h : ∀ e ∈ w.files, e.2.1 = 0o100644 ∨ e.2.1 = 0o100755) :
    ∀ p f, SnapFile w p = some f → f.1 = 0o100644 ∨ f.1 = 0o100755 :=
  fun _ _ hp => h _ (AMap.mem_of_get? hp)

theorem nothingInTheWay_of_check {head : Tree} {w : SnapWorld}
    (h1 : ∀ p ∈ trackedPaths head w.index, p.length = 1) (h2 : ∀ e ∈ w.files, e.1.length = 1) :
    NothingInTheWay head w := by
  intro p q hp _ hq
  obtain ⟨f, hf⟩ := Option.ne_none_iff_exists'.1 hp
  have hl1 := h2 _ (AMap.mem_of_get? hf)
  have hl2 := h1 q (tracked_mem hq)
  simp only at hl1
  refine ⟨?_, ?_⟩ <;>
  · rintro ⟨n, r, rfl⟩
    simp only [List.length_append, List.length_cons] at hl1 hl2
    omega

/-- What the commands depend on: this status, and git works. -/
def exSnapEnv (es : List StatusEntry) : SnapshotEnv :=
  { now := 100, txVar := none, status := es, linkTarget := fun p _ => p, works := fun _ => true, order := id }

/-- A working copy. -/
def exSnapWorld (t : Tree) (index : GitIndex) (files : AMap TreePath File) (head : Text ⊕ Oid) (merging : List Oid) :
    SnapWorld :=
  { repo := exRepo t, index, files, merging, db := {},
    head := ⟨head, [(t!"refs/heads/main", exCommitId (exHeadCommit t)), (t!"refs/heads/other", oidN 70)]⟩ }

/-- Creating and restoring a snapshot both succeed; `g` says what happens in between. -/
def exBothWork (es : List StatusEntry) (w : SnapWorld) (g : SnapWorld → SnapWorld) : Bool :=
  match snapshotCreate (exSnapEnv es) w with
  | (.created o, w1) =>
    decide ((snapshotRestore (exSnapEnv []) (g w1) o).1 = .restored) && decide (w1.repo.commits.map w1.repo.commitId).Nodup
  | _ => false

theorem exBothWork_iff {es : List StatusEntry} {w : SnapWorld} {g : SnapWorld → SnapWorld}
    (h : exBothWork es w g = true) :
    ∃ o w1, snapshotCreate (exSnapEnv es) w = (.created o, w1) ∧ NoCollisionsIn w1.repo ∧
      ∃ w2, snapshotRestore (exSnapEnv []) (g w1) o = (.restored, w2) := by
  unfold exBothWork at h
  split at h
  · rename_i o w1 hc
    rw [Bool.and_eq_true, decide_eq_true_eq, decide_eq_true_eq] at h
    exact ⟨o, w1, hc, noCollisions_of_nodup h.2, _, Prod.ext h.1 rfl⟩
  · cases h

/-! ### staged and unstaged changes, and an untracked file -/

/-- The files: `a` and `b` are changed, `d` is new, and `x` is untracked. -/
def exFiles1 : AMap TreePath File :=
  [([t!"a"], (0o100644, oidN 6)), ([t!"b"], (0o100644, oidN 7)), ([t!"d"], (0o100755, oidN 5)),
   ([t!"x"], (0o100644, oidN 9))]

/-- On a branch. -/
def exSnapW1 : SnapWorld := exSnapWorld exHead1 exIndex1 exFiles1 (.inl t!"refs/heads/main") []

theorem exOrdinaryIndex1 : OrdinaryIndex exSnapW1 (exHeadCommit exHead1) (exSnapEnv exEs1).status :=
  ⟨List.mem_singleton.2 rfl, rfl, exGoodRef, exPlain1, exValid1, exReports1, exRenames1, exNesting1⟩

theorem exOrdinaryFiles1 : OrdinaryFiles exSnapW1 (exHeadCommit exHead1) (exSnapEnv exEs1).status :=
  ⟨reportsFiles_of_check (by decide +kernel) (by decide +kernel) (by decide +kernel),
    fileModes_of_check (by decide +kernel)⟩

theorem exInTheWay1 : NothingInTheWay exHead1 exSnapW1 :=
  nothingInTheWay_of_check (by decide +kernel) (by decide +kernel)

theorem exKnownAt1 (p : TreePath) : KnownChangeAt (exSnapEnv exEs1).status p := fun e he _ => exKnown1 e he

/-- It succeeds. -/
example : ∃ o w', snapshotCreate (exSnapEnv exEs1) exSnapW1 = (.created o, w') :=
  snapshot_create_succeeds (fun _ => rfl) exOrdinaryIndex1 exOrdinaryFiles1

/-- The outcome. -/
theorem exCreated1 : ∃ o w', snapshotCreate (exSnapEnv exEs1) exSnapW1 = (.created o, w') ∧ NoCollisionsIn w'.repo ∧
    exHeadCommit exHead1 ∈ w'.repo.commits ∧ w'.headOid = some (w'.repo.commitId (exHeadCommit exHead1)) := by
  refine ⟨_, _, rfl, noCollisions_of_nodup (by decide +kernel), ?_, rfl⟩
  exact (created (r := exRepo exHead1) (index := exIndex1) (headOid := exSnapW1.headOid) (headRef := exSnapW1.headRef)
    (wc := workOf (exSnapEnv exEs1) exFiles1) (es := exEs1) rfl).grown.commits _ (List.mem_singleton.2 rfl)

/-- After creating, `a` is as in `HEAD`, `d` is gone, and `x` is as before. -/
example : ∃ o w', snapshotCreate (exSnapEnv exEs1) exSnapW1 = (.created o, w') ∧
    SnapFile w' [t!"a"] = some (0o100644, oidN 1) ∧ SnapFile w' [t!"d"] = none ∧
    AMap.get? w'.index ([t!"c"], .stage0) = some (0o100644, .nonZero (oidN 3)) ∧
    w'.db.rows.length = 1 := by
  obtain ⟨o, w', h, hn, -⟩ := exCreated1
  obtain ⟨h1, h2, -, -, -, h3⟩ := snapshot_create_discards exOrdinaryIndex1 h hn
  refine ⟨o, w', h, ?_, ?_, ?_, ?_⟩
  · rw [(h1 _).1 (trackedB_iff.1 (by decide +kernel))]; decide +kernel
  · rw [(h1 _).1 (trackedB_iff.1 (by decide +kernel))]; decide +kernel
  · rw [h2]; decide +kernel
  · rw [h3]; rfl

/-- There and back. -/
example : ∃ o w1 w2, snapshotCreate (exSnapEnv exEs1) exSnapW1 = (.created o, w1) ∧
    snapshotRestore (exSnapEnv []) w1 o = (.restored, w2) ∧ (∀ p, SnapFile w2 p = SnapFile exSnapW1 p) ∧
    SameHead w2.head exSnapW1.head ∧ SameIndex w2.index exIndex1 := by
  obtain ⟨o, w1, h, hn, -⟩ := exCreated1
  obtain ⟨w2, g1, g2, -, g4, g5⟩ := snapshot_there_and_back_partial (env' := exSnapEnv []) (fun _ => rfl) (fun _ => .refl _)
    exOrdinaryIndex1 exOrdinaryFiles1 exInTheWay1 h hn
  refine ⟨o, w1, w2, h, g1, fun p => g2 p (exKnownAt1 p), g5, g4 ?_⟩
  intro p st hst hne
  obtain ⟨v, hv⟩ := Option.ne_none_iff_exists'.1 hne
  have : ∀ e ∈ exIndex1, e.1.2 = .stage0 := by decide +kernel
  exact absurd (this _ (AMap.mem_of_get? hv)) hst

/-- Other changes, in another branch. -/
def exLater (w : SnapWorld) : SnapWorld :=
  { w with
    files := [([t!"a"], (0o100644, oidN 40)), ([t!"z"], (0o100644, oidN 41))]
    head := ⟨.inl t!"refs/heads/feature", [(t!"refs/heads/feature", exCommitId (exHeadCommit exHead1))]⟩ }

/-- The snapshot is restored although other changes were made. -/
example : ∃ o w1 w3, snapshotCreate (exSnapEnv exEs1) exSnapW1 = (.created o, w1) ∧
    snapshotRestore (exSnapEnv []) (exLater w1) o = (.restored, w3) ∧
    SnapFile w3 [t!"a"] = some (0o100644, oidN 6) ∧ SnapFile w3 [t!"z"] = some (0o100644, oidN 41) ∧
    w3.head.head = .inl t!"refs/heads/main" ∧
    AMap.get? w3.head.refs t!"refs/heads/main" = some (exCommitId (exHeadCommit exHead1)) := by
  obtain ⟨o, w1, h, hn, w3, hr⟩ := exBothWork_iff (es := exEs1) (w := exSnapW1) (g := exLater) (by decide +kernel)
  obtain ⟨hid, hm⟩ : w1.repo.commitId = exCommitId ∧ exHeadCommit exHead1 ∈ w1.repo.commits := by
    obtain ⟨repo, s, d, tx, db, hc, -, -, -, rfl⟩ := snapshotCreate_created h
    exact ⟨(created hc).grown.commitId, (created hc).grown.commits _ (List.mem_singleton.2 rfl)⟩
  obtain ⟨g1, -, -, g4, g5⟩ := snapshot_restore_brings_back_partial exOrdinaryIndex1 exOrdinaryFiles1 h
    (w2 := exLater w1) (extends_refl _) hn (d := exHeadCommit exHead1) hm
    (by show some _ = some (w1.repo.commitId _); rw [hid]) (fun _ => .refl _) hr
  refine ⟨o, w1, w3, h, hr, ?_, ?_, g4, ?_⟩
  · exact (g1 _ (exKnownAt1 _)).1 _ (trackedB_iff.1 (by decide +kernel)) rfl
  · obtain ⟨hdis, hind, -⟩ := snapshot_create_discards exOrdinaryIndex1 h hn
    rw [((g1 [t!"z"] (exKnownAt1 _)).2 fun _ => rfl).2]
    · rfl
    · rintro (h1 | ⟨st, h1⟩)
      · revert h1; decide +kernel
      · revert h1
        show ¬ AMap.get? w1.index ([t!"z"], st) ≠ none
        rw [hind]
        cases st <;> decide +kernel
    · rintro ⟨q, hq, hb⟩
      have hq1 : q.length = 1 := by
        have : ∀ p ∈ trackedPaths exHead1 exIndex1, p.length = 1 := by decide +kernel
        exact this q (tracked_mem (.inl hq))
      rcases hb with ⟨n, r, hb⟩ | ⟨n, r, rfl⟩
      · have := congrArg List.length hb
        simp [hq1] at this
      · simp at hq1
  · rw [g5]; rfl

/-- A failing `git reset`: nothing is lost. -/
example : ∃ w', snapshotCreate { exSnapEnv exEs1 with works := fun _ => false } exSnapW1 = (.error, w') ∧
    w'.files = exFiles1 := by
  refine ⟨_, rfl, ?_⟩
  exact (snapshot_create_error (env := { exSnapEnv exEs1 with works := fun _ => false }) (w := exSnapW1) rfl).1

/-- An untracked file `d` makes restoring fail; the change of `b` is gone. -/
example : ∃ o w1 w3, snapshotCreate (exSnapEnv exEs1) exSnapW1 = (.created o, w1) ∧
    snapshotRestore (exSnapEnv [])
      { w1 with files := [([t!"b"], (0o100644, oidN 40)), ([t!"d"], (0o100644, oidN 41))] } o =
      (.gitFailed, w3) ∧ SnapFile w3 [t!"b"] = some (0o100644, oidN 2) := by
  obtain ⟨o, w1, h, hn, hm, hh⟩ := exCreated1
  obtain ⟨-, hind, -⟩ := snapshot_create_discards exOrdinaryIndex1 h hn
  obtain ⟨w3, g1, g2, -⟩ := blocked_restore_discards (env' := exSnapEnv []) (fun _ => rfl) exOrdinaryIndex1
    exOrdinaryFiles1 h
    (w2 := { w1 with files := [([t!"b"], (0o100644, oidN 40)), ([t!"d"], (0o100644, oidN 41))] }) (extends_refl _)
    (by exact hn) (by exact hm) (by exact hh) (p := [t!"d"]) (exKnownAt1 _) (trackedB_iff.1 (by decide +kernel)) rfl rfl
    (by decide +kernel) (by
      rintro (h1 | ⟨st, h1⟩)
      · revert h1; decide +kernel
      · revert h1
        show ¬ AMap.get? w1.index ([t!"d"], st) ≠ none
        rw [hind]
        cases st <;> decide +kernel) (by
      rintro ⟨q, hq, hb⟩
      have hq1 : q.length = 1 := by
        have : ∀ p ∈ trackedPaths exHead1 exIndex1, p.length = 1 := by decide +kernel
        exact this q (tracked_mem (.inl hq))
      rcases hb with ⟨n, r, hb⟩ | ⟨n, r, rfl⟩
      · have := congrArg List.length hb
        simp [hq1] at this
      · simp at hq1)
  refine ⟨o, w1, w3, h, g1, ?_⟩
  rw [g2 _ (.inl (by decide +kernel))]
  decide +kernel

/-- `HEAD` itself is no snapshot. -/
example : ∃ w', snapshotRestore (exSnapEnv []) exSnapW1 (exCommitId (exHeadCommit exHead1)) = (.notSnapshot, w') ∧
    w'.files = exFiles1 := by
  obtain ⟨w', h1, h2, -⟩ := ordinary_commit_not_restored (env := exSnapEnv []) (w := exSnapW1)
    (o := exCommitId (exHeadCommit exHead1)) (b := exHeadCommit exHead1) rfl (by decide +kernel) (by
      intro h
      obtain ⟨n, hn, h1, h2⟩ := atLineStart_at h
      revert n
      decide +kernel)
  exact ⟨w', h1, h2⟩

/-! ### an unfinished merge -/

/-- The files, with markers of conflicts in `a`. -/
def exFiles2 : AMap TreePath File :=
  [([t!"a"], (0o100644, oidN 10)), ([t!"b"], (0o100644, oidN 2)), ([t!"c"], (0o100644, oidN 11))]

/-- A merge with conflicts. -/
def exSnapW2 : SnapWorld :=
  exSnapWorld exHead2 exIndex2 exFiles2 (.inr (exCommitId (exHeadCommit exHead2))) [oidN 60]

theorem exOrdinaryIndex2 : OrdinaryIndex exSnapW2 (exHeadCommit exHead2) (exSnapEnv exEs2).status :=
  ⟨List.mem_singleton.2 rfl, rfl, (by intro name h; cases h), exPlain2, exValid2, exReports2, exRenames2, exNesting2⟩

/-- The contents of `a` are lost, and so is the merge. -/
example : ∃ o w1 w2, snapshotCreate (exSnapEnv exEs2) exSnapW2 = (.created o, w1) ∧
    snapshotRestore (exSnapEnv []) w1 o = (.restored, w2) ∧ exSnapW2.merging ≠ [] ∧ w2.merging = [] ∧
    SnapFile w2 [t!"a"] = some (0o100644, oidN 1) ∧ SnapFile exSnapW2 [t!"a"] = some (0o100644, oidN 10) := by
  obtain ⟨o, w1, h, hn, w2, hr⟩ := exBothWork_iff (es := exEs2) (w := exSnapW2) (g := id) (by decide +kernel)
  refine ⟨o, w1, w2, h, hr, by decide +kernel, (merge_forgotten (env := exSnapEnv []) (w0 := exSnapW2) (o := o)
    (w1 := w1) (env' := exSnapEnv [])).2 hr, ?_, rfl⟩
  exact conflict_file_lost exOrdinaryIndex2 h (extends_refl _) hn hr (by decide +kernel) (by decide +kernel)

/-! ### an untracked directory in place of a file -/

/-- The index is as `HEAD`. -/
def exIndex4 : GitIndex :=
  [(([t!"a"], .stage0), (0o100644, .nonZero (oidN 1))), (([t!"b"], .stage0), (0o100644, .nonZero (oidN 2))),
   (([t!"c"], .stage0), (0o100644, .nonZero (oidN 3)))]

/-- `c` is a directory now. -/
def exFiles4 : AMap TreePath File :=
  [([t!"a"], (0o100644, oidN 1)), ([t!"b"], (0o100644, oidN 2)), ([t!"c", t!"new"], (0o100644, oidN 30))]

/-- `c` is deleted. -/
def exEs4 : List StatusEntry := [exStatus .unmodified .deleted .unreadable t!"c"]

/-- On a branch. -/
def exSnapW4 : SnapWorld := exSnapWorld exHead1 exIndex4 exFiles4 (.inl t!"refs/heads/main") []

/-- The new file is lost. -/
example : ∃ o w1 w2, snapshotCreate (exSnapEnv exEs4) exSnapW4 = (.created o, w1) ∧
    snapshotRestore (exSnapEnv []) w1 o = (.restored, w2) ∧
    SnapFile exSnapW4 [t!"c", t!"new"] = some (0o100644, oidN 30) ∧ SnapFile w2 [t!"c", t!"new"] = none := by
  obtain ⟨o, w1, h, hn, w2, hr⟩ := exBothWork_iff (es := exEs4) (w := exSnapW4) (g := id) (by decide +kernel)
  have hi : OrdinaryIndex exSnapW4 (exHeadCommit exHead1) (exSnapEnv exEs4).status :=
    ⟨List.mem_singleton.2 rfl, rfl, exGoodRef, exPlain1,
      validIndex_of_check (by unfold AMap.WF; decide +kernel) (by decide +kernel),
      reportsIndex_of_check (by decide +kernel) (by decide +kernel) (by decide +kernel),
      (by unfold NoRenames; decide +kernel), noNesting_of_check (by decide +kernel)⟩
  have hf : OrdinaryFiles exSnapW4 (exHeadCommit exHead1) (exSnapEnv exEs4).status :=
    ⟨reportsFiles_of_check (by decide +kernel) (by decide +kernel) (by decide +kernel),
      fileModes_of_check (by decide +kernel)⟩
  refine ⟨o, w1, w2, h, hr, rfl, (file_in_the_way_lost hi hf h hn ?_ ?_).2 hr⟩
  · rw [← trackedB_iff]; decide +kernel
  · exact ⟨[t!"c"], by decide +kernel, .inl ⟨t!"new", [], rfl⟩⟩

/-- Before the first commit. -/
example : (snapshotCreate (exSnapEnv []) { exSnapW1 with head := ⟨.inl t!"refs/heads/new", []⟩ }).1 = .error :=
  unborn_create_fails _ _ rfl

end Verif.Props
