import Verif.Lemmas.TreePick

/-!
C35: the fast cherry-pick and the fast amend give the same files as the full ones.
-/

namespace Verif.Props

open Verif Verif.Spec

/-- C35: a fast cherry-pick gives at every path what the three-way merge of the whole trees gives; if it
fails, it reports exactly the paths which conflict, and there is one. This needs that the commit and the
target do not have a file and a directory in the same place. -/
theorem cherry_pick_fast_partial (content : Option File → File → File → Option File) (reuse : Bool)
    (patch target : TreeCommit) (base : Tree) (hl : patch.parents.length ≤ 1)
    (hbase : base = patch.parents.headD []) (hb : Plain base) (hp : Plain patch.tree)
    (ht : Plain target.tree)
    (ha : Apart (fun p => fileAt base p ≠ fileAt patch.tree p) target.tree) :
    match cherryPickFast content reuse patch target with
    | .ok r => ∀ p, MergesTo content (fileAt base p) (fileAt target.tree p) (fileAt patch.tree p)
        (fileAt r p)
    | .error e => ∃ ps, e = .mergeConflict ps ∧ ps ≠ [] ∧ ∀ p, p ∈ ps ↔
        ∀ f, ¬ MergesTo content (fileAt base p) (fileAt target.tree p) (fileAt patch.tree p) f := by
  have hC := touched_files hl (hbase ▸ hb) hp
  rw [← hbase] at hC
  have ha' : Apart (· ∈ patch.pathsTouched) target.tree := by
    simpa only [hC] using ha
  have hn := nodup_pathsTouched patch
  have h0 := nil_pathsTouched patch
  unfold cherryPickFast
  by_cases hr : (reuse && decide (patch.parents = [target.tree])) = true
  · rw [if_pos hr]
    simp only [Bool.and_eq_true, decide_eq_true_eq] at hr
    intro p
    rw [hr.2] at hbase
    rw [hbase]
    exact .theirs _ _
  rw [if_neg hr]
  simp only
  unfold cherryPickCommit
  have hbd : ∀ q, fileAt ((patch.dehydrate patch.pathsTouched true).parents.headD []) q =
      fileAt (dehydrateTree base patch.pathsTouched) q := by
    intro q
    cases hps : patch.parents with
    | nil =>
      have hbn : base = [] := by rw [hbase, hps]; rfl
      have hleft : fileAt ((patch.dehydrate patch.pathsTouched true).parents.headD []) q = none := by
        simp only [TreeCommit.dehydrate, hps]
        cases q with
        | nil => rfl
        | cons n q =>
          show fileOf (nodeAt [] (n :: q)) = none
          rw [nodeAt_nil _ (by simp)]; rfl
      rw [hleft]
      by_cases hup : ∃ p ∈ patch.pathsTouched, p <+: q
      · obtain ⟨p, hp', r, rfl⟩ := hup
        have hpr : p ++ r ≠ [] := by
          intro e
          simp only [List.append_eq_nil_iff] at e
          exact h0 (e.1 ▸ hp')
        unfold fileAt
        rw [nodeAt_dehydrate hb hn h0 ha'.paths hp', hbn, nodeAt_nil _ hpr]
        rfl
      · rw [fileAt_dehydrate_none hn fun p hp' h => hup ⟨p, hp', h⟩]
    | cons x xs =>
      have : xs = [] := by
        cases xs with
        | nil => rfl
        | cons y ys => rw [hps] at hl; simp at hl
      subst this
      have hbx : base = x := by rw [hbase, hps]; rfl
      simp only [TreeCommit.dehydrate, hps, if_true, List.headD, hbx]
  set M := fun p => mergeFile content (fileAt base p) (fileAt target.tree p) (fileAt patch.tree p)
    with hM
  set D := fun p => mergeFile content
    (fileAt ((patch.dehydrate patch.pathsTouched true).parents.headD []) p)
    (fileAt (target.dehydrate patch.pathsTouched false).tree p)
    (fileAt (patch.dehydrate patch.pathsTouched true).tree p) with hD
  have hunder : ∀ p ∈ patch.pathsTouched, ∀ r, D (p ++ r) = M (p ++ r) := by
    intro p hp' r
    simp only [hD, hM, hbd]
    simp only [TreeCommit.dehydrate, fileAt]
    rw [nodeAt_dehydrate hb hn h0 ha'.paths hp', nodeAt_dehydrate ht hn h0 ha'.paths hp',
      nodeAt_dehydrate hp hn h0 ha'.paths hp']
  have hout : ∀ q, (∀ p ∈ patch.pathsTouched, ¬ p <+: q) → D q = some none := by
    intro q hq
    simp only [hD, hbd]
    simp only [TreeCommit.dehydrate]
    rw [fileAt_dehydrate_none hn hq, fileAt_dehydrate_none hn hq, fileAt_dehydrate_none hn hq]
    simp [mergeFile]
  have huntouched : ∀ q, q ∉ patch.pathsTouched → M q = some (fileAt target.tree q) := by
    intro q hq
    rw [hC, not_not] at hq
    rw [hM]
    simp only
    rw [mergeFile_some, hq]
    exact .ours _ _
  have hDnotC : ∀ q, q ∉ patch.pathsTouched → D q = some none := by
    intro q hq
    by_cases hup : ∃ p ∈ patch.pathsTouched, p <+: q
    · obtain ⟨p, hp', r, rfl⟩ := hup
      have hr : r ≠ [] := by rintro rfl; exact hq (by simpa using hp')
      rw [hunder p hp' r, huntouched _ hq, ha'.below p _ hp' (below_of_ne hr)]
    · exact hout q fun p hp' h => hup ⟨p, hp', h⟩
  have hDC : ∀ q ∈ patch.pathsTouched, D q = M q := by
    intro q hq
    have := hunder q hq []
    rwa [List.append_nil] at this
  cases hm : mergeTrees content ((patch.dehydrate patch.pathsTouched true).parents.headD [])
      (target.dehydrate patch.pathsTouched false).tree
      (patch.dehydrate patch.pathsTouched true).tree with
  | ok idx =>
    simp only
    intro q
    rw [← mergeFile_some]
    rw [fileAt_hydrate hn h0 ha' (fun p => indexNode idx p)]
    · split
      · rename_i hq
        have h1 : D q = some (AMap.get? idx q) := mergeTrees_ok hm q
        rw [hDC q hq] at h1
        rw [show fileOf (indexNode idx q) = AMap.get? idx q from by
          unfold indexNode; cases AMap.get? idx q <;> rfl]
        exact h1
      · rename_i hq
        exact huntouched q hq
    · intro p _ n r
      unfold indexNode
      cases AMap.get? idx p <;> simp [fileOf, inside]
  | error ps =>
    simp only
    have h1 := mergeTrees_error hm (by
      intro p q hp' hq'
      by_cases h2 : p ∈ patch.pathsTouched
      · by_cases h3 : q ∈ patch.pathsTouched
        · exact ha'.paths _ _ h2 h3
        · exact absurd (hDnotC q h3) hq'
      · exact absurd (hDnotC p h2) hp')
    refine ⟨ps, rfl, h1.1, fun p => ?_⟩
    rw [h1.2 p, ← mergeFile_none]
    show D p = none ↔ M p = none
    by_cases hp' : p ∈ patch.pathsTouched
    · rw [hDC p hp']
    · rw [hDnotC p hp', huntouched p hp']
      simp

/-- C35: amending from the index gives what is in the index at the given paths, and nothing else changes.
This needs that the amended commit and the index do not have a file and a directory in the same place. -/
theorem amend_from_index_partial (content : Option File → File → File → Option File)
    (parent : TreeCommit) (paths : List TreePath) (index : AMap TreePath File)
    (hp : Plain parent.tree) (h0 : [] ∉ paths)
    (ha : Apart (fun p => TouchedBy parent p ∨ p ∈ paths) parent.tree) :
    ∃ r, amendFast content parent (.fromIndex paths index) = .ok r ∧
      ∀ q, fileAt r q = if q ∈ paths then AMap.get? index q else fileAt parent.tree q := by
  obtain ⟨r, hr, h⟩ := amend_files (content := content) (opts := .fromIndex paths index)
    (new := paths.map fun p => (p, indexNode index p)) hp h0 ha rfl
    (by
      intro p v h
      rw [get?_map] at h
      split at h
      · rename_i h1; exact h1
      · cases h)
    (by
      intro p v h n r
      rw [get?_map] at h
      split at h
      · simp only [Option.some.injEq] at h
        subst h
        unfold indexNode
        cases AMap.get? index p <;> simp [fileOf, inside]
      · cases h)
  refine ⟨r, hr, fun q => ?_⟩
  rw [h q, get?_map]
  by_cases hq : q ∈ paths
  · simp only [hq, if_true]
    unfold indexNode
    cases AMap.get? index q <;> rfl
  · simp only [hq, if_false]

/-- C35: amending from the working copy gives the files of the working copy at the given paths, with the
modes of the status, removes those which are not there, and nothing else changes. This needs in addition
that no symbolic link is among them. -/
theorem amend_from_working_copy_partial (content : Option File → File → File → Option File)
    (parent : TreeCommit) (status : AMap TreePath Nat) (wc : WorkingCopy) (r : Tree)
    (hp : Plain parent.tree) (h0 : [] ∉ AMap.keys status)
    (ha : Apart (fun p => TouchedBy parent p ∨ p ∈ AMap.keys status) parent.tree)
    (hlink : ∀ p ∈ AMap.keys status, ∀ b t, AMap.get? wc p ≠ some (.link b t))
    (hr : amendFast content parent (.fromWorkingCopy status wc) = .ok r) (q : TreePath) :
    fileAt r q =
      match AMap.get? status q, AMap.get? wc q with
      | some m, some (.file blob) => some (m, blob)
      | some _, _ => none
      | none, _ => fileAt parent.tree q := by
  cases hnew : status.mapM (workingCopyEntry wc) with
  | error e =>
    unfold amendFast AmendFastOptions.newEntries at hr
    simp only [hnew] at hr
    cases hr
  | ok new =>
    have hm := workingCopy_mapM hnew
    obtain ⟨r', hr', h⟩ := amend_files (content := content) (opts := .fromWorkingCopy status wc)
      (new := new) hp h0 ha hnew
      (by
        intro p v hv
        have := hm p
        rw [hv] at this
        obtain ⟨m, b, h1, -⟩ := this
        rw [AmendFastOptions.paths, AMap.mem_keys_iff, h1]
        rfl)
      (by
        intro p v hv n r
        have := hm p
        rw [hv] at this
        obtain ⟨m, b, -, -, rfl⟩ := this
        cases b <;> simp [fileOf, inside])
    rw [hr] at hr'
    simp only [Except.ok.injEq] at hr'
    subst hr'
    rw [h q]
    have hq := hm q
    cases e : AMap.get? new q with
    | none =>
      rw [e] at hq
      simp only at hq
      rw [← get?_eq_none_iff] at hq
      rw [hq]
    | some v =>
      rw [e] at hq
      obtain ⟨m, b, h1, h2, rfl⟩ := hq
      rw [h1]
      have hk : q ∈ AMap.keys status := by rw [AMap.mem_keys_iff, h1]; rfl
      unfold createBlobFromPath at h2
      rw [readWorkFile] at h2
      cases hw : AMap.get? wc q with
      | none =>
        rw [hw] at h2
        simp only at h2
        split at h2
        · cases h2
        · simp only [Except.ok.injEq] at h2
          subst h2; rfl
      | some w =>
        cases w with
        | file blob =>
          rw [hw] at h2
          simp only [Except.ok.injEq] at h2
          subst h2; rfl
        | link b t => exact absurd hw (hlink q hk b t)

/-- C35: amending with the changes of a commit (as for fixups) gives what the three-way merge of the whole
trees gives, or fails exactly if that fails. This needs in addition that the commit deletes no file. -/
theorem amend_from_commit_partial (content : Option File → File → File → Option File)
    (parent c : TreeCommit) (base : Tree) (hl : c.parents.length ≤ 1)
    (hbase : base = c.parents.headD []) (hb : Plain base) (hc : Plain c.tree) (hp : Plain parent.tree)
    (ha : Apart (fun p => TouchedBy parent p ∨ fileAt base p ≠ fileAt c.tree p) parent.tree)
    (hcontent : ∀ b o t f, content b o t = some f → f.1 ∈ fileModes)
    (hdel : ∀ p, fileAt base p ≠ none → fileAt c.tree p ≠ none) :
    match amendFast content parent (.fromCommit c) with
    | .ok r => ∀ p, MergesTo content (fileAt base p) (fileAt parent.tree p) (fileAt c.tree p)
        (fileAt r p)
    | .error e => ∃ ps, e = .mergeConflict ps ∧ ps ≠ [] ∧ ∀ p, p ∈ ps ↔
        ∀ f, ¬ MergesTo content (fileAt base p) (fileAt parent.tree p) (fileAt c.tree p) f := by
  have hC := touched_files hl (hbase ▸ hb) hc
  rw [← hbase] at hC
  have hpick := cherry_pick_fast_partial content false c parent base hl hbase hb hc hp
    ⟨fun p q h1 h2 => ha.paths p q (.inr h1) (.inr h2), fun p q h1 => ha.above p q (.inr h1),
      fun p q h1 => ha.below p q (.inr h1)⟩
  cases hcp : cherryPickFast content false c parent with
  | error e =>
    rw [hcp] at hpick
    unfold amendFast AmendFastOptions.newEntries
    simp only [hcp]
    exact hpick
  | ok amended =>
    rw [hcp] at hpick
    simp only at hpick
    have hsome : ∀ p ∈ c.pathsTouched, ∃ m o, nodeAt amended p = some (.leaf m o) ∧
        normalizeMode m = m := by
      intro p hp'
      have h1 := hpick p
      rw [hC] at hp'
      have h2 : fileAt c.tree p ≠ none := fun h3 => hdel p (by rw [← h3]; exact hp') h3
      have hn1 : ∀ f, fileAt c.tree p = some f → normalizeMode f.1 = f.1 := by
        intro f hf
        unfold fileAt fileOf at hf
        split at hf
        · rename_i m o hx
          simp only [Option.some.injEq] at hf
          subst hf
          exact normalizeMode_fileModes (hc.files _ _ _ hx)
        · cases hf
      have hf : ∃ f, fileAt amended p = some f ∧ normalizeMode f.1 = f.1 := by
        generalize hr : fileAt amended p = r at h1
        generalize fileAt base p = b' at h1 hp'
        generalize fileAt parent.tree p = o' at h1
        generalize fileAt c.tree p = c' at h1 h2 hn1 hp'
        have hc' : ∃ f, c' = some f := Option.ne_none_iff_exists'.1 h2
        obtain ⟨f, rfl⟩ := hc'
        cases h1 with
        | same => exact ⟨f, rfl, hn1 f rfl⟩
        | theirs => exact ⟨f, rfl, hn1 f rfl⟩
        | ours => exact absurd rfl hp'
        | both o t r h3 h4 h5 h6 => exact ⟨r, rfl, normalizeMode_fileModes (hcontent _ _ _ _ h6)⟩
      obtain ⟨f, hf, hm⟩ := hf
      unfold fileAt fileOf at hf
      split at hf
      · rename_i m o hx
        simp only [Option.some.injEq] at hf
        subst hf
        exact ⟨m, o, hx, hm⟩
      · cases hf
    have h0 := nil_pathsTouched c
    have hg := get?_filterMap (f := fun p => (getPath amended p).map fun e => some e.normalize)
      (g := fun p => (getPath amended p).map fun e => (p, some e.normalize)) (nodup_pathsTouched c)
      (by intro p; cases getPath amended p <;> rfl)
    have hg' : ∀ p v, AMap.get? (c.pathsTouched.filterMap fun p =>
        (getPath amended p).map fun e => (p, some e.normalize)) p = some v →
        p ∈ c.pathsTouched ∧ v = nodeAt amended p := by
      intro p v h
      rw [hg] at h
      split at h
      · rename_i h1
        obtain ⟨m, o, h2, h3⟩ := hsome p h1
        rw [getPath_eq _ _ (fun e => h0 (e ▸ h1)), h2] at h
        simp only [Option.map_some, Option.some.injEq, Node.normalize, h3] at h
        exact ⟨h1, by rw [h2, ← h]⟩
      · cases h
    have htouch : ∀ p, p ∈ c.pathsTouched ↔ fileAt base p ≠ fileAt c.tree p := hC
    obtain ⟨r, hr, h⟩ := amend_files (content := content) (opts := .fromCommit c)
      (new := c.pathsTouched.filterMap fun p =>
        (getPath amended p).map fun e => (p, some e.normalize)) hp h0
      (by simpa only [AmendFastOptions.paths, htouch] using ha)
      (by unfold AmendFastOptions.newEntries; simp only [hcp])
      (fun p v hv => (hg' p v hv).1)
      (by
        intro p v hv n r
        obtain ⟨h1, rfl⟩ := hg' p v hv
        obtain ⟨m, o, h2, -⟩ := hsome p h1
        rw [h2]
        simp [fileOf, inside])
    rw [hr]
    simp only
    intro p
    rw [h p]
    by_cases hp' : p ∈ c.pathsTouched
    · obtain ⟨m, o, h2, h3⟩ := hsome p hp'
      cases e : AMap.get? (c.pathsTouched.filterMap fun p =>
          (getPath amended p).map fun e => (p, some e.normalize)) p with
      | none =>
        rw [hg, if_pos hp', getPath_eq _ _ (fun e => h0 (e ▸ hp')), h2] at e
        cases e
      | some v =>
        simp only
        rw [(hg' p v e).2]
        exact hpick p
    · rw [hg, if_neg hp']
      rw [hC, not_not] at hp'
      rw [hp']
      exact .ours _ _

/-! ### Where the files differ -/

/-- A merge of contents which always conflicts. -/
def noContent : Option File → File → File → Option File := fun _ _ _ => none

/-- A commit replaces the directory `a` by a file. After the fast cherry-pick, that file is missing. -/
theorem cherry_pick_loses_new_file :
    ∃ patch target base : Tree, base = [(t!"a", .dir modeTree [(t!"b", exFile 1)])] ∧
      target = (t!"z", exFile 3) :: base ∧ patch = [(t!"a", exFile 2)] ∧
      ∃ r, cherryPickFast noContent true ⟨patch, [base]⟩ ⟨target, []⟩ = .ok r ∧
        fileAt r [t!"a"] = none ∧
        MergesTo noContent (fileAt base [t!"a"]) (fileAt target [t!"a"]) (fileAt patch [t!"a"])
          (some (0o100644, oidN 2)) := by
  refine ⟨_, _, _, rfl, rfl, rfl, [(t!"z", exFile 3)], ?_, ?_, ?_⟩
  · decide +kernel
  · decide +kernel
  · exact .theirs _ _

/-- A commit replaces the file `a` by a directory, the target has changed that file. The conflict is not
found; the change of the target is lost. -/
theorem cherry_pick_misses_conflict :
    ∃ patch target base : Tree, base = [(t!"a", exFile 1)] ∧ target = [(t!"a", exFile 2)] ∧
      patch = [(t!"a", .dir modeTree [(t!"b", exFile 3)])] ∧
      cherryPickFast noContent true ⟨patch, [base]⟩ ⟨target, []⟩ = .ok patch ∧
      cherryPickCommit noContent ⟨patch, [base]⟩ ⟨target, []⟩ = .error [[t!"a"], [t!"a", t!"b"]] := by
  refine ⟨_, _, _, rfl, rfl, rfl, ?_, ?_⟩
  · decide +kernel
  · decide +kernel

/-- A commit adds the file `a/b`, the target has a file `a`: that file is lost without a conflict. -/
theorem cherry_pick_loses_file_of_target :
    ∃ patch target : Tree, target = [(t!"a", exFile 2)] ∧
      patch = [(t!"a", .dir modeTree [(t!"b", exFile 3)])] ∧
      cherryPickFast noContent true ⟨patch, [[]]⟩ ⟨target, []⟩ = .ok patch ∧
      cherryPickCommit noContent ⟨patch, [[]]⟩ ⟨target, []⟩ = .error [[t!"a"], [t!"a", t!"b"]] := by
  refine ⟨_, _, rfl, rfl, ?_, ?_⟩
  · decide +kernel
  · decide +kernel

/-- A commit deletes the file `a`, where the target has a directory: that directory is lost. -/
theorem cherry_pick_loses_directory_of_target :
    ∃ target base : Tree, base = [(t!"a", exFile 2)] ∧
      target = [(t!"a", .dir modeTree [(t!"b", exFile 3)])] ∧
      cherryPickFast noContent true ⟨[], [base]⟩ ⟨target, []⟩ = .ok [] ∧
      cherryPickCommit noContent ⟨[], [base]⟩ ⟨target, []⟩ =
        .ok [([t!"a", t!"b"], (0o100644, oidN 3))] := by
  refine ⟨_, _, rfl, rfl, ?_, ?_⟩
  · decide +kernel
  · decide +kernel

/-- A commit has replaced the directory `a` by a file. Amending the commit with a change of another file
deletes that file. -/
theorem amend_loses_file :
    ∃ (parent : TreeCommit) (index : AMap TreePath File),
      parent = ⟨[(t!"a", exFile 2), (t!"z", exFile 3)],
        [[(t!"a", .dir modeTree [(t!"b", exFile 1)]), (t!"z", exFile 3)]]⟩ ∧
      index = [([t!"a"], (0o100644, oidN 2)), ([t!"z"], (0o100644, oidN 4))] ∧
      amendFast noContent parent (.fromIndex [[t!"z"]] index) = .ok [(t!"z", exFile 4)] := by
  refine ⟨_, _, rfl, rfl, ?_⟩
  decide +kernel

/-- A fixup which deletes a file does not delete it. -/
theorem fixup_keeps_deleted_file :
    ∃ (parent c : TreeCommit), parent = ⟨[(t!"a", exFile 1), (t!"z", exFile 3)], [[(t!"z", exFile 3)]]⟩ ∧
      c = ⟨[(t!"a", exFile 1)], [[(t!"a", exFile 1), (t!"z", exFile 3)]]⟩ ∧
      fileAt c.tree [t!"z"] = none ∧
      cherryPickFast noContent false c parent = .ok [(t!"a", exFile 1)] ∧
      ∃ r, amendFast noContent parent (.fromCommit c) = .ok r ∧
        fileAt r [t!"z"] = some (0o100644, oidN 3) := by
  refine ⟨_, _, rfl, rfl, ?_, ?_, ⟨_, rfl, ?_⟩⟩
  · decide +kernel
  · decide +kernel
  · decide +kernel

/-- Amending with a symbolic link stores the contents of the file to which it leads, not the link; if
there is no such file, the link is deleted. -/
theorem amend_follows_links :
    ∃ (parent : TreeCommit) (status : AMap TreePath Nat) (wc : WorkingCopy),
      parent = ⟨[(t!"l", .leaf 0o120000 (oidN 1)), (t!"m", .leaf 0o120000 (oidN 1))], []⟩ ∧
      status = [([t!"l"], 0o120000), ([t!"m"], 0o120000)] ∧
      wc = [([t!"l"], .link (oidN 2) [t!"f"]), ([t!"m"], .link (oidN 3) [t!"g"]),
        ([t!"f"], .file (oidN 4))] ∧
      ∃ r, amendFast noContent parent (.fromWorkingCopy status wc) = .ok r ∧
        fileAt r [t!"l"] = some (0o120000, oidN 4) ∧ fileAt r [t!"m"] = none := by
  refine ⟨_, _, _, rfl, rfl, rfl, ⟨_, rfl, ?_, ?_⟩⟩
  · decide +kernel
  · decide +kernel

/-! ### Non-vacuity -/

/-- The trees of the examples are plain. -/
theorem plain_of_check (t : Tree) (h : ∀ p x, nodeAt t p = some x →
    match x with
    | .dir m _ => m = modeTree
    | .leaf m _ => m ∈ fileModes) : Plain t :=
  ⟨fun p m es hx => h p _ hx, fun p m o hx => h p _ hx⟩

theorem plain_flat (es : List (Text × Oid)) :
    Plain (es.map fun e => (e.1, Node.leaf 0o100644 e.2)) := by
  have hg : ∀ n x, AMap.get? (es.map fun e => (e.1, Node.leaf 0o100644 e.2)) n = some x →
      ∃ o, x = .leaf 0o100644 o := by
    intro n x hx
    have := AMap.mem_of_get? hx
    obtain ⟨e, -, he⟩ := List.mem_map.1 this
    simp only [Prod.mk.injEq] at he
    exact ⟨e.2, he.2.symm⟩
  refine plain_of_check _ fun p x hx => ?_
  cases p with
  | nil =>
    simp only [nodeAt, inside, Option.some.injEq] at hx
    subst hx; rfl
  | cons n p =>
    rw [nodeAt_cons] at hx
    cases e : AMap.get? (es.map fun e => (e.1, Node.leaf 0o100644 e.2)) n with
    | none => rw [e] at hx; cases hx
    | some y =>
      obtain ⟨o, rfl⟩ := hg n y e
      rw [e] at hx
      cases p with
      | nil =>
        simp only [Option.bind_some, inside, Option.some.injEq] at hx
        subst hx; simp [fileModes]
      | cons m p => simp [inside] at hx

/-- In trees without directories, no file is above or below another one. -/
theorem apart_flat (es : List (Text × Oid)) (C : TreePath → Prop) (hC : ∀ p, C p → p.length = 1) :
    Apart C (es.map fun e => (e.1, Node.leaf 0o100644 e.2)) := by
  have hb : ∀ p q : TreePath, p.length = 1 → Below p q → 2 ≤ q.length := by
    rintro p q h ⟨n, r, rfl⟩
    simp only [List.length_append, List.length_cons]
    omega
  have hf : ∀ q : TreePath, q.length ≠ 1 →
      fileAt (es.map fun e => (e.1, Node.leaf 0o100644 e.2)) q = none := by
    intro q hq
    cases q with
    | nil => rfl
    | cons n q =>
      cases q with
      | nil => simp at hq
      | cons m q =>
        unfold fileAt
        rw [nodeAt_cons]
        cases e : AMap.get? (es.map fun e => (e.1, Node.leaf 0o100644 e.2)) n with
        | none => rfl
        | some y =>
          have := AMap.mem_of_get? e
          obtain ⟨e, -, he⟩ := List.mem_map.1 this
          simp only [Prod.mk.injEq] at he
          rw [← he.2]
          rfl
  constructor
  · intro p q h1 h2 h3
    have := hb p q (hC p h1) h3
    rw [hC q h2] at this
    omega
  · rintro p q h1 ⟨n, r, rfl⟩
    have := hC _ h1
    simp only [List.length_append, List.length_cons] at this
    exact hf q (by omega)
  · intro p q h1 h2
    have := hb p q (hC p h1) h2
    exact hf q (by omega)

/-- Files for examples. -/
def exFlat (es : List (Text × Fin 16)) : Tree :=
  (es.map fun e => (e.1, oidN e.2)).map fun e => (e.1, Node.leaf 0o100644 e.2)

theorem flat_length (es : List (Text × Fin 16)) (p : TreePath) (h : fileAt (exFlat es) p ≠ none) :
    p.length = 1 := by
  by_contra hne
  cases p with
  | nil => exact h rfl
  | cons n q =>
    cases q with
    | nil => exact hne rfl
    | cons m q =>
      have ha := apart_flat (es.map fun e => (e.1, oidN e.2)) (· = [n]) (by rintro p rfl; rfl)
      exact h (ha.below [n] _ rfl ⟨m, q, rfl⟩)

/-- Non-vacuity of `cherry_pick_fast_partial` and `amend_from_commit_partial`: a commit changes the file
`a` and adds `b`; the other commit has changed `z`. -/
example :
    let base := exFlat [(t!"a", 1), (t!"z", 2)]
    let patch : TreeCommit := ⟨exFlat [(t!"a", 3), (t!"b", 4), (t!"z", 2)], [base]⟩
    let target : TreeCommit := ⟨exFlat [(t!"a", 1), (t!"z", 5)], [base]⟩
    (Plain base ∧ Plain patch.tree ∧ Plain target.tree ∧
      Apart (fun p => TouchedBy target p ∨ fileAt base p ≠ fileAt patch.tree p) target.tree ∧
      (∀ p, fileAt base p ≠ none → fileAt patch.tree p ≠ none)) ∧
    ∃ r, cherryPickFast noContent true patch target = .ok r ∧
      fileAt r [t!"a"] = some (0o100644, oidN 3) ∧ fileAt r [t!"b"] = some (0o100644, oidN 4) ∧
      fileAt r [t!"z"] = some (0o100644, oidN 5) := by
  refine ⟨⟨plain_flat _, plain_flat _, plain_flat _, apart_flat _ _ ?_, ?_⟩, _, rfl, ?_⟩
  · intro p hp
    have hlen : ∀ es es', fileAt (exFlat es) p ≠ fileAt (exFlat es') p → p.length = 1 := by
      intro es es' h
      by_cases h1 : fileAt (exFlat es) p = none
      · rw [h1] at h
        exact flat_length es' p fun e => h e.symm
      · exact flat_length es p h1
    rcases hp with (⟨h, -⟩ | ⟨x, hx, h⟩) | h
    · cases h
    · simp only [List.mem_singleton] at hx
      subst hx
      rcases h with h | ⟨m, es, m', es', h1, h2, hne⟩
      · exact hlen _ _ h
      · exact absurd (((plain_flat _).dirs _ _ _ h1).trans ((plain_flat _).dirs _ _ _ h2).symm) hne
    · exact hlen _ _ h
  · intro p hp
    have h1 := flat_length _ _ hp
    obtain ⟨n, rfl⟩ : ∃ n, p = [n] := List.length_eq_one_iff.1 h1
    by_cases ha : n = t!"a"
    · subst ha; decide +kernel
    · by_cases hz : n = t!"z"
      · subst hz; decide +kernel
      · exfalso
        apply hp
        unfold fileAt
        rw [nodeAt_cons]
        have h2 : ¬ t!"a" = n := fun e => ha e.symm
        have h3 : ¬ t!"z" = n := fun e => hz e.symm
        simp [exFlat, AMap.get?_cons, h2, h3, fileOf]
  · decide +kernel

/-- Non-vacuity of `amend_from_index_partial`. -/
example :
    let parent : TreeCommit := ⟨exFlat [(t!"a", 1), (t!"z", 5)], [exFlat [(t!"z", 5)]]⟩
    let index : AMap TreePath File := [([t!"a"], (0o100644, oidN 7)), ([t!"n"], (0o100644, oidN 8))]
    let paths : List TreePath := [[t!"a"], [t!"n"], [t!"z"]]
    Apart (fun p => TouchedBy parent p ∨ p ∈ paths) parent.tree ∧
    ∃ r, amendFast noContent parent (.fromIndex paths index) = .ok r ∧
      fileAt r [t!"a"] = some (0o100644, oidN 7) ∧ fileAt r [t!"n"] = some (0o100644, oidN 8) ∧
      fileAt r [t!"z"] = none := by
  refine ⟨apart_flat _ _ ?_, _, rfl, ?_⟩
  · intro p hp
    rcases hp with (⟨h, -⟩ | ⟨x, hx, h⟩) | h
    · cases h
    · simp only [List.mem_singleton] at hx
      subst hx
      rcases h with h | ⟨m, es, m', es', h1, h2, hne⟩
      · change fileAt (exFlat [(t!"z", 5)]) p ≠ fileAt (exFlat [(t!"a", 1), (t!"z", 5)]) p at h
        by_cases h1 : fileAt (exFlat [(t!"z", 5)]) p = none
        · rw [h1] at h
          exact flat_length _ p fun e => h e.symm
        · exact flat_length _ p h1
      · exact absurd (((plain_flat _).dirs _ _ _ h1).trans ((plain_flat _).dirs _ _ _ h2).symm) hne
    · revert h
      revert p
      simp
  · decide +kernel

/-- Non-vacuity of `amend_from_working_copy_partial`: a file is changed, another one is deleted. -/
example :
    let parent : TreeCommit := ⟨exFlat [(t!"a", 1), (t!"z", 5)], [exFlat [(t!"z", 5)]]⟩
    let status : AMap TreePath Nat := [([t!"a"], 0o100755), ([t!"z"], 0o100644)]
    let wc : WorkingCopy := [([t!"a"], .file (oidN 9))]
    ∃ r, amendFast noContent parent (.fromWorkingCopy status wc) = .ok r ∧
      fileAt r [t!"a"] = some (0o100755, oidN 9) ∧ fileAt r [t!"z"] = none := by
  refine ⟨_, rfl, ?_⟩
  decide +kernel

end Verif.Props
