import Verif.Lemmas.SnapshotCommand

/-!
C94: `git branchless snapshot create` puts the changes away and `git branchless snapshot restore` brings them back.
-/

namespace Verif.Props

open Verif Verif.Spec

/-! ### creating -/

/-- What is known if a snapshot was created by the command. -/
theorem snapshotCreate_created {env : SnapshotEnv} {w w' : SnapWorld} {o : Oid}
    (h : snapshotCreate env w = (.created o, w')) :
    ∃ repo s c tx db, createSnapshot w.repo w.index w.headOid w.headRef (workOf env w.files) env.status = .ok (repo, s) ∧
      o = repo.commitId s.base ∧ w.db.makeTransactionId env.txVar t!"snapshot create" = (tx, db) ∧
      ({ w with repo } : SnapWorld).headCommit = some c ∧
      w' = { resetWorld w c with
        repo, db := db.addEvents [.snapshot env.now tx (MaybeZero.ofOption w.headOid) o w.headRef] } := by
  unfold snapshotCreate at h
  simp only at h
  generalize htx : w.db.makeTransactionId env.txVar t!"snapshot create" = p at h
  obtain ⟨tx, db⟩ := p
  simp only at h
  split at h
  · cases h
  · rename_i repo s hc
    split at h
    · cases h
    · rename_i w1 h1
      have e1 := run_some h1
      rw [gitResetHard_eq] at e1
      obtain ⟨c, hcm, rfl⟩ := Option.map_eq_some_iff.1 e1
      cases h
      exact ⟨repo, s, c, tx, db, hc, rfl, rfl, hcm, rfl⟩

/-- The commit `HEAD` is the same one after commits were added. -/
theorem headCommit_grown {w : SnapWorld} {repo : SnapRepo} (he : Extends w.repo repo) (hn : NoCollisionsIn repo)
    {c d : SnapCommit} (hc : c ∈ w.repo.commits) (hh : w.headOid = some (w.repo.commitId c))
    (hd : ({ w with repo } : SnapWorld).headCommit = some d) : d = c := by
  obtain ⟨h1, h2⟩ := headCommit_some hd
  have h3 : w.headOid = some (repo.commitId d) := h2
  rw [hh, ← he.commitId, Option.some.injEq] at h3
  exact (hn c (he.commits c hc) d h1 h3).symm

/-- **C94.** After `snapshot create`, every tracked file and the whole index are as in `HEAD`, untracked files are as
before (unless they are in a directory in place of a tracked file, or the other way round), and `HEAD` and the
references are not changed. The printed commit is a snapshot, and one event for it was added to the log. -/
theorem snapshot_create_discards {env : SnapshotEnv} {w w' : SnapWorld} {o : Oid} {c : SnapCommit}
    (hi : OrdinaryIndex w c env.status) (h : snapshotCreate env w = (.created o, w')) (hn : NoCollisionsIn w'.repo) :
    (∀ p, (Tracked c.tree w.index p → SnapFile w' p = fileAt c.tree p) ∧
      (¬ Tracked c.tree w.index p → ¬ Buried c.tree p → SnapFile w' p = SnapFile w p)) ∧
    (∀ p stage, AMap.get? w'.index (p, stage) = if stage = .stage0 then entryOf (fileAt c.tree p) else none) ∧
    w'.head = w.head ∧
    (∃ base s, w'.repo.find o = .ok base ∧ tryFromBaseCommit w'.repo base = .ok (some s)) ∧
    Extends w.repo w'.repo ∧
    w'.db = (w.db.makeTransactionId env.txVar t!"snapshot create").2.addEvents
      [.snapshot env.now (w.db.makeTransactionId env.txVar t!"snapshot create").1 (.nonZero (w.repo.commitId c)) o
        w.headRef] := by
  obtain ⟨repo, s, d, tx, db, hc, rfl, htx, hd, rfl⟩ := snapshotCreate_created h
  have hcr := created hc
  have hdc : d = c := headCommit_grown hcr.grown hn hi.commit hi.head hd
  subst hdc
  refine ⟨?_, ?_, rfl, ⟨s.base, s, ?_, ?_⟩, hcr.grown, ?_⟩
  · intro p
    unfold SnapFile resetWorld
    rw [get?_putFiles]
    refine ⟨fun ht => by rw [if_pos ht], fun ht hb => by rw [if_neg ht, if_neg hb]⟩
  · intro p stage
    exact get?_indexOfTree d.tree p stage
  · exact find_of_mem hn hcr.baseMem
  · exact snapshot_roundtrip hi.refName hc ⟨rfl, rfl, fun _ h => h⟩ hn
  · rw [htx, hi.head]; rfl

/-- **C94.** If `snapshot create` ends with an error, then nothing is lost: files, index, `HEAD` and an unfinished
merge are as before. -/
theorem snapshot_create_error {env : SnapshotEnv} {w w' : SnapWorld} (h : snapshotCreate env w = (.error, w')) :
    w'.files = w.files ∧ w'.index = w.index ∧ w'.head = w.head ∧ w'.merging = w.merging := by
  unfold snapshotCreate at h
  simp only at h
  split at h
  · cases h; exact ⟨rfl, rfl, rfl, rfl⟩
  · split at h
    · cases h; exact ⟨rfl, rfl, rfl, rfl⟩
    · cases h

/-- **C94.** `snapshot create` succeeds in every ordinary state, if git can be run. -/
theorem snapshot_create_succeeds {env : SnapshotEnv} (hw : ∀ args, env.works args = true) {w : SnapWorld}
    {c : SnapCommit} (hi : OrdinaryIndex w c env.status) (hf : OrdinaryFiles w c env.status) :
    ∃ o w', snapshotCreate env w = (.created o, w') := by
  obtain ⟨repo, s, hs⟩ := snapshot_created (r := w.repo) (index := w.index) (headRef := w.headRef) (headOid := w.headOid)
    (wc := workOf env w.files) (es := env.status) (head := c.tree)
    (by
      intro o ho
      rw [hi.head, Option.mem_some_iff] at ho
      exact ⟨c, hi.commit, ho⟩)
    (hf.reports.work env) (hf.noLinks env) hi.renames
  have hex : ∃ d, ∀ db, ({ w with repo, db } : SnapWorld).headCommit = some d := by
    have hcr := created hs
    have hfind : ∃ d, repo.find (w.repo.commitId c) = .ok d := by
      unfold SnapRepo.find
      cases hf : repo.commits.find? fun d => decide (repo.commitId d = w.repo.commitId c) with
      | none =>
        have := List.find?_eq_none.1 hf c (hcr.grown.commits c hi.commit)
        simp [hcr.grown.commitId] at this
      | some d => exact ⟨d, rfl⟩
    obtain ⟨d, hd⟩ := hfind
    refine ⟨d, fun db => ?_⟩
    show w.headOid.bind _ = _
    rw [hi.head]
    simp [hd, Except.toOption]
  obtain ⟨d, hd⟩ := hex
  unfold snapshotCreate
  have hs' : createSnapshot w.repo w.index
      ({ w with db := (w.db.makeTransactionId env.txVar t!"snapshot create").2 } : SnapWorld).headOid
      ({ w with db := (w.db.makeTransactionId env.txVar t!"snapshot create").2 } : SnapWorld).headRef
      (workOf env w.files) env.status = .ok (repo, s) := hs
  simp only [hs', run_works hw, gitResetHard_eq, hd, Option.map_some]
  exact ⟨_, _, rfl⟩

/-- **C94, as far as it fails.** Before the first commit, `snapshot create` always ends with an error. -/
theorem unborn_create_fails (env : SnapshotEnv) (w : SnapWorld) (h : w.headOid = none) :
    (snapshotCreate env w).1 = .error := by
  cases hr : snapshotCreate env w with
  | mk e w' =>
    unfold snapshotCreate at hr
    simp only at hr
    split at hr
    · cases hr; rfl
    · split at hr
      · cases hr; rfl
      · rename_i w1 h1
        have e1 := run_some h1
        rw [gitResetHard_eq] at e1
        obtain ⟨d, hd, -⟩ := Option.map_eq_some_iff.1 e1
        have h2 : w.headOid = some _ := (headCommit_some hd).2
        rw [h] at h2
        cases h2

/-! ### restoring -/

theorem snapshotRestore_restored {env : SnapshotEnv} {w w' : SnapWorld} {o : Oid}
    (h : snapshotRestore env w o = (.restored, w')) :
    ∃ base s d db, w.repo.find o = .ok base ∧ tryFromBaseCommit w.repo base = .ok (some s) ∧
      RestoredFrom env { w with db } w' s d := by
  unfold snapshotRestore at h
  simp only at h
  split at h
  · cases h
  · rename_i base hb
    split at h
    · cases h
    · cases h
    · rename_i s hs
      obtain ⟨d, hd⟩ := restoreWork_restored h
      exact ⟨base, s, d, _, hb, hs, hd⟩

/-- The snapshot which is restored is the one which was created. -/
theorem restored_snapshot {env env' : SnapshotEnv} {w0 w1 w2 w3 : SnapWorld} {o : Oid} {c : SnapCommit}
    (hi : OrdinaryIndex w0 c env.status) (h : snapshotCreate env w0 = (.created o, w1)) (he : Extends w1.repo w2.repo)
    (hn : NoCollisionsIn w2.repo) (hr : snapshotRestore env' w2 o = (.restored, w3)) :
    ∃ s d db, createSnapshot w0.repo w0.index w0.headOid w0.headRef (workOf env w0.files) env.status =
        .ok (w1.repo, s) ∧ s.head = some c ∧ RestoredFrom env' { w2 with db } w3 s d := by
  obtain ⟨repo, s, d', tx, db, hc, rfl, -, -, rfl⟩ := snapshotCreate_created h
  obtain ⟨base, s', d, db', hb, hs, hres⟩ := snapshotRestore_restored hr
  have hcr := created hc
  have hf := find_extended he hn hcr.baseMem
  have : base = s.base := by
    have h2 : w2.repo.find (repo.commitId s.base) = .ok s.base := hf
    rw [h2] at hb
    cases hb; rfl
  subst this
  have hs2 := snapshot_roundtrip hi.refName hc he hn
  rw [hs2] at hs
  cases hs
  exact ⟨s, d, db', hc, snapshot_head hc he hn hi.commit hi.head, hres⟩

/-- The files after restoring a snapshot. -/
theorem _root_.Verif.Spec.RestoredFrom.file {env : SnapshotEnv} {w w' : SnapWorld} {s : WcSnapshot} {d : SnapCommit}
    (h : RestoredFrom env w w' s d) (p : TreePath) :
    (fileAt s.unstaged.tree p ≠ none → SnapFile w' p = fileAt s.unstaged.tree p) ∧
    (fileAt s.unstaged.tree p = none →
      (Tracked d.tree w.index p → SnapFile w' p = none) ∧
      (¬ Tracked d.tree w.index p → ¬ Buried d.tree p → SnapFile w' p = SnapFile w p)) := by
  unfold SnapFile
  rw [h.files, get?_putFiles]
  refine ⟨fun hp => by rw [if_pos (tracked_indexOfTree.2 (.inl hp))], fun hp => ?_⟩
  have h1 : AMap.get? (resetWorld w d).files p = _ := get?_putFiles w.files d.tree w.index p
  constructor
  · intro ht
    by_cases hd : fileAt d.tree p = none
    · rw [if_neg (by rw [tracked_indexOfTree]; simp [hp, hd])]
      split
      · rfl
      · rw [h1, if_pos ht, hd]
    · rw [if_pos (tracked_indexOfTree.2 (.inr hd)), hp]
  · intro ht hb
    have hd : fileAt d.tree p = none := by
      by_contra hne
      exact ht (.inl hne)
    rw [if_neg (by rw [tracked_indexOfTree]; simp [hp, hd])]
    rw [if_neg ht, if_neg hb] at h1
    cases hf : AMap.get? w.files p with
    | none => rw [h1, hf]; simp
    | some f =>
      rw [hf] at h1
      have := (not_blocked h.free (p := p) (f := f) h1 (by
        show AMap.get? (indexOfTree d.tree) (p, .stage0) = none
        rw [get?_indexOfTree, if_pos rfl, hd]; rfl)).2
      rw [if_neg this, h1]

/-- The commit `HEAD` before restoring. -/
theorem _root_.Verif.Spec.RestoredFrom.headIs {env : SnapshotEnv} {w w' : SnapWorld} {s : WcSnapshot} {d e : SnapCommit}
    (h : RestoredFrom env w w' s d) (hn : NoCollisionsIn w.repo) (he : e ∈ w.repo.commits)
    (hh : w.headOid = some (w.repo.commitId e)) : d = e := by
  have := headCommit_eq hn he hh
  rw [h.commit, Option.some.injEq] at this
  exact this

/-- **C94.** `snapshot restore` brings back the state in which the snapshot was created, whatever happened since (if
the commits are still there, and `HEAD` is at any commit `d`):
* Each tracked file has the contents and the mode which it had then.
* A tracked file which did not exist is deleted again, if it is tracked now.
* Untracked files are as they were just before, unless they would be in the way of a file of `d`.
* Each path of the index which was not in conflict has its entry again; all of them have, exactly if the conflicts
  can be stored.
* `HEAD` is on the same branch, which is at the same commit, or on the same commit. The other references are not
  changed.

What is missing: of files in conflict, only the index is considered here; see `conflict_file_lost`. Symbolic links,
renames, and changes between files and directories are excluded. -/
theorem snapshot_restore_brings_back_partial {env env' : SnapshotEnv} {w0 w1 w2 w3 : SnapWorld} {o : Oid}
    {c d : SnapCommit} (hi : OrdinaryIndex w0 c env.status) (hf : OrdinaryFiles w0 c env.status)
    (h : snapshotCreate env w0 = (.created o, w1)) (he : Extends w1.repo w2.repo) (hn : NoCollisionsIn w2.repo)
    (hd : d ∈ w2.repo.commits) (hdh : w2.headOid = some (w2.repo.commitId d))
    (ho : ∀ ps, (env'.order ps).Perm ps) (hr : snapshotRestore env' w2 o = (.restored, w3)) :
    (∀ p, KnownChangeAt env.status p →
      (∀ f, Tracked c.tree w0.index p → SnapFile w0 p = some f → SnapFile w3 p = some f) ∧
      ((Tracked c.tree w0.index p → SnapFile w0 p = none) →
        (Tracked d.tree w2.index p → SnapFile w3 p = none) ∧
        (¬ Tracked d.tree w2.index p → ¬ Buried d.tree p → SnapFile w3 p = SnapFile w2 p))) ∧
    (∀ p, ¬ Conflicted w0.index p → ∀ stage, AMap.get? w3.index (p, stage) = AMap.get? w0.index (p, stage)) ∧
    (SameIndex w3.index w0.index ↔ ConflictsSurvive c.tree w0.index) ∧
    w3.head.head = w0.head.head ∧
    (∀ name, AMap.get? w3.head.refs name =
      if w0.head.head = .inl name then AMap.get? w0.head.refs name else AMap.get? w2.head.refs name) := by
  obtain ⟨s, d', db, hc, hsc, hres⟩ := restored_snapshot hi h he hn hr
  have hdd : d' = d := hres.headIs hn hd hdh
  subst hdd
  have hh : (s.head.map (·.tree)).getD [] = c.tree := by rw [hsc]; rfl
  refine ⟨?_, ?_, ?_, ?_, ?_⟩
  · intro p hk
    have hst := working_copy_stored_at hc hh (hf.reports.work env) hf.modeIn_ne (hf.noLinks env) hi.renames hi.nesting p
      hk
    rw [workFile_workOf] at hst
    obtain ⟨h1, h2⟩ := hres.file p
    constructor
    · intro f ht hs
      have : fileAt s.unstaged.tree p = some f := (hst.1 ht).trans hs
      rw [h1 (by rw [this]; simp), this]
    · intro h0
      have : fileAt s.unstaged.tree p = none := by
        by_cases ht : Tracked c.tree w0.index p
        · exact (hst.1 ht).trans (h0 ht)
        · exact hst.2 ht
      exact h2 this
  · intro p hp stage
    rw [hres.index]
    exact (restored_index_partial hc he hn hi.commit hi.head hi.index hi.reports hi.renames hi.nesting hi.plain
      env'.order ho p).1 hp stage
  · rw [hres.index]
    exact index_restored_iff_partial hc he hn hi.commit hi.head hi.index hi.reports hi.renames hi.nesting hi.plain
      env'.order ho
  · obtain ⟨h1, h2, -⟩ := head_restored hc he w2.head
    rw [hres.head]
    cases hw : w0.head.head with
    | inl name => exact (h1 name (by unfold SnapWorld.headRef; rw [hw])).1
    | inr o => exact h2 o (by unfold SnapWorld.headRef; rw [hw]) (by unfold SnapWorld.headOid; rw [hw])
  · obtain ⟨h1, -, h3⟩ := head_restored hc he w2.head
    intro name
    rw [hres.head]
    split
    · rename_i hw
      have := (h1 name (by unfold SnapWorld.headRef; rw [hw])).2
      refine this.trans ?_
      unfold SnapWorld.headOid; rw [hw]
    · rename_i hw
      refine h3 name ?_
      unfold SnapWorld.headRef
      cases hx : w0.head.head with
      | inl name' =>
        intro hcon
        cases hcon
        exact hw hx
      | inr o => simp

/-- Only tracked files are stored. -/
theorem stored_tracked {env : SnapshotEnv} {w : SnapWorld} {c : SnapCommit} {repo : SnapRepo} {s : WcSnapshot}
    (hi : OrdinaryIndex w c env.status) (hf : OrdinaryFiles w c env.status)
    (hc : createSnapshot w.repo w.index w.headOid w.headRef (workOf env w.files) env.status = .ok (repo, s))
    (hh : s.head = some c) {p : TreePath} (hp : fileAt s.unstaged.tree p ≠ none) : Tracked c.tree w.index p := by
  by_contra ht
  have hst := working_copy_stored_at hc (by rw [hh]; rfl) (hf.reports.work env) hf.modeIn_ne (hf.noLinks env) hi.renames
    hi.nesting p (by
      rintro e he rfl
      exact absurd (hi.reports.tracked e he) ht)
  exact hp (hst.2 ht)

/-- **C94.** If git can be run, then `snapshot create` and `snapshot restore` after it both succeed, and bring back what
there was: the files, also the untracked ones, `HEAD` and all references, and the index, if conflicts in it can be
stored. Required is that no untracked file is in the way of a tracked one.

What is missing: files in conflict, for which see `conflict_file_lost`; an unfinished merge, for which see
`merge_forgotten`; symbolic links, renames, and changes between files and directories. -/
theorem snapshot_there_and_back_partial {env env' : SnapshotEnv} (hw : ∀ args, env'.works args = true)
    (ho : ∀ ps, (env'.order ps).Perm ps) {w0 w1 : SnapWorld} {o : Oid} {c : SnapCommit}
    (hi : OrdinaryIndex w0 c env.status) (hf : OrdinaryFiles w0 c env.status) (hx : NothingInTheWay c.tree w0)
    (h : snapshotCreate env w0 = (.created o, w1)) (hn : NoCollisionsIn w1.repo) :
    ∃ w2, snapshotRestore env' w1 o = (.restored, w2) ∧
      (∀ p, KnownChangeAt env.status p → SnapFile w2 p = SnapFile w0 p) ∧
      (∀ p, ¬ Conflicted w0.index p → ∀ stage, AMap.get? w2.index (p, stage) = AMap.get? w0.index (p, stage)) ∧
      (ConflictsSurvive c.tree w0.index → SameIndex w2.index w0.index) ∧
      SameHead w2.head w0.head := by
  obtain ⟨hfiles, hindex, hhead, -, -, -⟩ := snapshot_create_discards hi h hn
  obtain ⟨repo, s, d, tx, db, hc, ho', -, hd, hw1⟩ := snapshotCreate_created h
  have hrepo : w1.repo = repo := by rw [hw1]
  have hcr := created hc
  have hself : Extends repo w1.repo := by rw [hrepo]; exact ⟨rfl, rfl, fun _ h => h⟩
  have hsc := snapshot_head hc hself hn hi.commit hi.head
  have hmem : c ∈ w1.repo.commits := by rw [hrepo]; exact hcr.grown.commits c hi.commit
  have hho : w1.headOid = some (w1.repo.commitId c) := by
    rw [hrepo, hcr.grown.commitId, ← hi.head]
    unfold SnapWorld.headOid
    rw [hhead]
  have hbur : ∀ p, SnapFile w0 p ≠ none → ¬ Tracked c.tree w0.index p → ¬ Buried c.tree p := by
    rintro p h1 h2 ⟨q, hq, h3⟩
    obtain ⟨h4, h5⟩ := hx p q h1 h2 (.inl hq)
    exact h3.elim h5 h4
  have htr1 : ∀ p, Tracked c.tree w1.index p ↔ fileAt c.tree p ≠ none := by
    intro p
    refine ⟨?_, .inl⟩
    rintro (h1 | ⟨st, h1⟩)
    · exact h1
    · rw [hindex] at h1
      split at h1
      · rintro h0; rw [h0] at h1; exact h1 rfl
      · exact absurd rfl h1
  have hrestored : (snapshotRestore env' w1 o).1 = .restored := by
    unfold snapshotRestore
    simp only
    have hfind : w1.repo.find o = .ok s.base := by
      rw [ho']
      exact find_extended hself hn hcr.baseMem
    rw [hfind]
    simp only
    rw [snapshot_roundtrip hi.refName hc hself hn]
    refine restoreWork_works hw (d := c) (headCommit_eq hn hmem hho) ?_
    rw [Bool.eq_false_iff, ne_eq, untrackedBlocks_iff]
    rintro ⟨p, f, hf1, hi1, hor⟩
    have hi1' : AMap.get? (indexOfTree c.tree) (p, .stage0) = none := hi1
    rw [get?_indexOfTree, if_pos rfl] at hi1'
    have hcp : fileAt c.tree p = none := by
      cases hq : fileAt c.tree p with
      | none => rfl
      | some v => rw [hq] at hi1'; cases hi1'
    have hf2 : AMap.get? (putFiles w1.files (pathsOf c.tree w1.index) c.tree) p = some f := hf1
    rw [get?_putFiles, if_neg (by rw [htr1]; simp [hcp])] at hf2
    split at hf2
    · cases hf2
    rename_i hnb
    have hf3 : SnapFile w1 p = some f := hf2
    have hnt : ¬ Tracked c.tree w0.index p := by
      intro ht
      rw [(hfiles p).1 ht, hcp] at hf3
      cases hf3
    have hf0 : SnapFile w0 p = some f := by
      rw [← hf3, (hfiles p).2 hnt hnb]
    rcases hor with ⟨h1, -⟩ | ⟨q, hq, h2⟩
    · exact hnt (stored_tracked hi hf hc hsc h1)
    · have h3 := hx p q (by rw [hf0]; simp) hnt (stored_tracked hi hf hc hsc hq)
      exact h2.elim h3.2 h3.1
  obtain ⟨w2, hr⟩ : ∃ w2, snapshotRestore env' w1 o = (.restored, w2) := ⟨_, Prod.ext hrestored rfl⟩
  obtain ⟨g1, g2, g3, g4, g5⟩ := snapshot_restore_brings_back_partial hi hf h ⟨rfl, rfl, fun _ h => h⟩ hn hmem hho ho hr
  refine ⟨w2, hr, ?_, g2, g3.2, g4, ?_⟩
  · intro p hk
    obtain ⟨k1, k2⟩ := g1 p hk
    by_cases ht : Tracked c.tree w0.index p
    · cases hp : SnapFile w0 p with
      | some f => exact k1 f ht hp
      | none =>
        obtain ⟨k3, k4⟩ := k2 fun _ => hp
        by_cases htd : Tracked c.tree w1.index p
        · exact k3 htd
        · have hcp : fileAt c.tree p = none := by
            by_contra hne
            exact htd ((htr1 p).2 hne)
          rw [k4 htd ?_, (hfiles p).1 ht, hcp]
          rintro ⟨q, hq, hb⟩
          exact hb.elim (hi.nesting q p (.inl hq) ht) (hi.nesting p q ht (.inl hq))
    · obtain ⟨k3, k4⟩ := k2 fun h => absurd h ht
      have hntd : ¬ Tracked c.tree w1.index p := by
        rw [htr1]
        exact fun h => ht (.inl h)
      by_cases hb : Buried c.tree p
      · have h0 : SnapFile w0 p = none := by
          by_contra hne
          exact hbur p hne ht hb
        obtain ⟨s', d', db', hc', hsc', hres⟩ := restored_snapshot hi h ⟨rfl, rfl, fun _ h => h⟩ hn hr
        rw [h0]
        unfold SnapFile
        rw [hres.files, get?_putFiles]
        have hdd : d' = c := hres.headIs hn hmem hho
        subst hdd
        have hun : fileAt s'.unstaged.tree p = none := by
          by_contra hne
          exact ht (stored_tracked hi hf hc' hsc' hne)
        have hcp : fileAt d'.tree p = none := by
          by_contra hne
          exact ht (.inl hne)
        rw [if_neg (by rw [tracked_indexOfTree]; simp [hun, hcp])]
        split
        · rfl
        · show AMap.get? (putFiles w1.files (pathsOf d'.tree w1.index) d'.tree) p = none
          rw [get?_putFiles, if_neg hntd, if_pos hb]
      · rw [k4 hntd hb, (hfiles p).2 ht hb]
  · intro name
    rw [g5, hhead]
    split <;> rfl

/-! ### what is lost -/

/-- **C94, as far as it fails.** A file of a change which the program does not know (such as a conflict) gets the
contents it has in `HEAD`: what was there is not stored. -/
theorem conflict_file_lost {env env' : SnapshotEnv} {w0 w1 w2 w3 : SnapWorld} {o : Oid} {c : SnapCommit}
    (hi : OrdinaryIndex w0 c env.status) (h : snapshotCreate env w0 = (.created o, w1))
    (he : Extends w1.repo w2.repo) (hn : NoCollisionsIn w2.repo) (hr : snapshotRestore env' w2 o = (.restored, w3))
    {p : TreePath} (hp : ∀ e ∈ env.status, components e.path = p →
      e.workingCopyStatus.isChanged = false ∧ e.indexStatus.isChanged = false)
    {f : File} (hf : fileAt c.tree p = some f) : SnapFile w3 p = some f := by
  obtain ⟨s, d, db, hc, hsc, hres⟩ := restored_snapshot hi h he hn hr
  have := unknown_change_not_stored hc (by rw [hsc]; rfl) hi.reports.tracked hi.renames hi.nesting p hp
  rw [hf] at this
  rw [(hres.file p).1 (by rw [this]; simp), this]

/-- **C94, as far as it fails.** An untracked file in a directory which is in place of a tracked file (or the other
way round) is deleted when a snapshot is created, and is not stored in the snapshot. -/
theorem file_in_the_way_lost {env env' : SnapshotEnv} {w0 w1 w2 : SnapWorld} {o : Oid} {c : SnapCommit}
    (hi : OrdinaryIndex w0 c env.status) (hf : OrdinaryFiles w0 c env.status)
    (h : snapshotCreate env w0 = (.created o, w1)) (hn : NoCollisionsIn w1.repo) {p : TreePath}
    (ht : ¬ Tracked c.tree w0.index p) (hb : Buried c.tree p) :
    SnapFile w1 p = none ∧ (snapshotRestore env' w1 o = (.restored, w2) → SnapFile w2 p = none) := by
  have h1 : SnapFile w1 p = none := by
    obtain ⟨repo, s, d, tx, db, hc, ho', -, hd, rfl⟩ := snapshotCreate_created h
    have hdc : d = c := headCommit_grown (created hc).grown hn hi.commit hi.head hd
    subst hdc
    unfold SnapFile resetWorld
    rw [get?_putFiles, if_neg ht, if_pos hb]
  refine ⟨h1, fun hr => ?_⟩
  obtain ⟨s, d, db, hc, hsc, hres⟩ := restored_snapshot hi h ⟨rfl, rfl, fun _ h => h⟩ hn hr
  have hun : fileAt s.unstaged.tree p = none := by
    by_contra hne
    exact ht (stored_tracked hi hf hc hsc hne)
  obtain ⟨h3, h4⟩ := (hres.file p).2 hun
  by_cases htd : Tracked d.tree ({ w1 with db } : SnapWorld).index p
  · exact h3 htd
  · by_cases hbd : Buried d.tree p
    · unfold SnapFile
      rw [hres.files, get?_putFiles]
      have hcp : fileAt d.tree p = none := by
        by_contra hne
        exact htd (.inl hne)
      rw [if_neg (by rw [tracked_indexOfTree]; simp [hun, hcp])]
      split
      · rfl
      · show AMap.get? (putFiles w1.files (pathsOf d.tree w1.index) d.tree) p = none
        rw [get?_putFiles, if_neg htd, if_pos hbd]
    · rw [h4 htd hbd]
      exact h1

/-- **C94, as far as it fails.** An unfinished merge is forgotten when a snapshot is created, and restoring the
snapshot does not bring it back. -/
theorem merge_forgotten {env env' : SnapshotEnv} {w0 w1 w2 w3 : SnapWorld} {o o' : Oid} :
    (snapshotCreate env w0 = (.created o, w1) → w1.merging = []) ∧
    (snapshotRestore env' w2 o' = (.restored, w3) → w3.merging = []) := by
  constructor
  · intro h
    obtain ⟨repo, s, d, tx, db, hc, ho', -, hd, rfl⟩ := snapshotCreate_created h
    rfl
  · intro h
    obtain ⟨base, s, d, db, -, -, hres⟩ := snapshotRestore_restored h
    exact hres.merging

/-- **C94, as far as it fails.** If an untracked file is at the path of a file of the snapshot, and differs from it,
then `snapshot restore` fails; but it has already discarded the changes of all tracked files and of the index, which
are not in any snapshot. -/
theorem blocked_restore_discards {env env' : SnapshotEnv} (hw : ∀ args, env'.works args = true)
    {w0 w1 w2 : SnapWorld} {o : Oid} {c d : SnapCommit} (hi : OrdinaryIndex w0 c env.status)
    (hf : OrdinaryFiles w0 c env.status) (h : snapshotCreate env w0 = (.created o, w1)) (he : Extends w1.repo w2.repo)
    (hn : NoCollisionsIn w2.repo) (hd : d ∈ w2.repo.commits) (hdh : w2.headOid = some (w2.repo.commitId d))
    {p : TreePath} {f g : File} (hk : KnownChangeAt env.status p) (hp : Tracked c.tree w0.index p)
    (hp0 : SnapFile w0 p = some f) (hp2 : SnapFile w2 p = some g) (hfg : f ≠ g) (hnt : ¬ Tracked d.tree w2.index p)
    (hnb : ¬ Buried d.tree p) :
    ∃ w3, snapshotRestore env' w2 o = (.gitFailed, w3) ∧
      (∀ q, Tracked d.tree w2.index q → SnapFile w3 q = fileAt d.tree q) ∧
      (∀ q stage, AMap.get? w3.index (q, stage) = if stage = .stage0 then entryOf (fileAt d.tree q) else none) ∧
      w3.head = w2.head := by
  obtain ⟨repo, s, d', tx, db, hc, rfl, -, -, rfl⟩ := snapshotCreate_created h
  have hcr := created hc
  have hfind : w2.repo.find (repo.commitId s.base) = .ok s.base := find_extended he hn hcr.baseMem
  have hst := working_copy_stored_at hc (by rw [snapshot_head hc he hn hi.commit hi.head]; rfl) (hf.reports.work env)
    hf.modeIn_ne (hf.noLinks env) hi.renames hi.nesting p hk
  rw [workFile_workOf] at hst
  have hun : fileAt s.unstaged.tree p = some f := (hst.1 hp).trans hp0
  unfold snapshotRestore
  simp only
  rw [hfind]
  simp only
  rw [snapshot_roundtrip hi.refName hc he hn]
  simp only
  unfold restoreWork
  rw [run_works hw, gitResetHard_eq]
  have hcm : ({ w2 with db := (w2.db.makeTransactionId env'.txVar t!"snapshot restore").2 } : SnapWorld).headCommit =
      some d := headCommit_eq hn hd hdh
  rw [hcm]
  simp only [Option.map_some]
  rw [run_works hw]
  unfold gitCheckoutDetached
  rw [if_pos]
  · refine ⟨_, rfl, ?_, ?_, rfl⟩
    · intro q hq
      unfold SnapFile resetWorld
      rw [get?_putFiles, if_pos hq]
    · exact fun q stage => get?_indexOfTree d.tree q stage
  · rw [untrackedBlocks_iff]
    have hdp : fileAt d.tree p = none := by
      by_contra hne
      exact hnt (.inl hne)
    refine ⟨p, g, ?_, ?_, .inl ⟨by rw [hun]; simp, by rw [hun]; simpa using hfg⟩⟩
    · unfold SnapFile resetWorld
      rw [get?_putFiles, if_neg hnt, if_neg hnb]
      exact hp2
    · show AMap.get? (indexOfTree d.tree) (p, .stage0) = none
      rw [get?_indexOfTree, if_pos rfl, hdp]
      rfl

/-- **C94.** A commit which is no snapshot is not restored: nothing happens to the files, the index, `HEAD` or an
unfinished merge. -/
theorem ordinary_commit_not_restored {env : SnapshotEnv} {w : SnapWorld} {o : Oid} {b : SnapCommit}
    (hb : w.repo.find o = .ok b) (hz : '\x00' ∉ b.message) (h : ¬ AtLineStart t!"Branchless-" b.message) :
    ∃ w', snapshotRestore env w o = (.notSnapshot, w') ∧ w'.files = w.files ∧ w'.index = w.index ∧ w'.head = w.head ∧
      w'.merging = w.merging ∧ w'.repo = w.repo := by
  unfold snapshotRestore
  simp only
  rw [hb]
  simp only
  rw [ordinary_commit hz h]
  exact ⟨_, rfl, rfl, rfl, rfl, rfl, rfl⟩

end Verif.Props
