import Verif.Spec.SnapshotCommand
import Verif.Lemmas.Snapshot
import Verif.Props.SnapshotRestore

/-!
Lemmas about the commands for snapshots.
-/

namespace Verif.Spec

open Verif

theorem mem_pathsOf {t : Tree} {index : GitIndex} {p : TreePath} : p ∈ pathsOf t index ↔ Tracked t index p := by
  unfold pathsOf Tracked
  rw [List.mem_append, List.mem_filter, getFile_eq, Option.isSome_iff_ne_none, List.mem_map]
  constructor
  · rintro (⟨-, h⟩ | ⟨e, he, rfl⟩)
    · exact .inl h
    · refine .inr ⟨e.1.2, ?_⟩
      have : (e.1.1, e.1.2) ∈ AMap.keys index := List.mem_map.2 ⟨e, he, rfl⟩
      rw [AMap.mem_keys_iff] at this
      exact Option.isSome_iff_ne_none.1 this
  · rintro (h | ⟨s, h⟩)
    · exact .inl ⟨mem_treeFilePaths h, h⟩
    · obtain ⟨v, hv⟩ := Option.ne_none_iff_exists'.1 h
      exact .inr ⟨_, AMap.mem_of_get? hv, rfl⟩

theorem get?_map_files (t : Tree) (p : TreePath) (ps : List TreePath) (hps : ps.Nodup) :
    AMap.get? (ps.filterMap fun p => (getFile t p).map fun f => (p, f)) p =
      if p ∈ ps then fileAt t p else none := by
  induction ps with
  | nil => simp
  | cons q ps ih =>
    rw [List.filterMap_cons]
    have hq := (List.nodup_cons.1 hps).1
    cases e : getFile t q with
    | none =>
      simp only [Option.map_none]
      rw [ih (List.nodup_cons.1 hps).2]
      by_cases hpq : p = q
      · subst hpq
        rw [getFile_eq] at e
        rw [e]
        simp
      · simp [hpq]
    | some f =>
      simp only [Option.map_some]
      rw [AMap.get?_cons, ih (List.nodup_cons.1 hps).2]
      by_cases hpq : q = p
      · subst hpq
        rw [getFile_eq] at e
        simp [e]
      · rw [if_neg hpq]
        simp [Ne.symm hpq]

theorem get?_files_append (m m' : AMap TreePath File) (p : TreePath) :
    AMap.get? (m ++ m') p = (AMap.get? m p).or (AMap.get? m' p) := by
  induction m with
  | nil => simp
  | cons e m ih =>
    obtain ⟨k, v⟩ := e
    rw [List.cons_append, AMap.get?_cons, AMap.get?_cons, ih]
    split <;> simp

theorem get?_filter_files (m : AMap TreePath File) (g : TreePath → Bool) (p : TreePath) :
    AMap.get? (m.filter fun e => g e.1) p = if g p then AMap.get? m p else none := by
  induction m with
  | nil => simp
  | cons e m ih =>
    obtain ⟨k, v⟩ := e
    rw [List.filter_cons]
    by_cases hk : g k = true
    · simp only [hk, if_true]
      rw [AMap.get?_cons, AMap.get?_cons, ih]
      by_cases h : k = p
      · subst h; simp [hk]
      · simp [h]
    · simp only [hk]
      rw [if_neg (by simp), ih, AMap.get?_cons]
      by_cases h : k = p
      · subst h; simp [hk]
      · simp [h]

theorem inTheWay_iff {p q : TreePath} : inTheWay p q = true ↔ Below p q ∨ Below q p := by
  unfold inTheWay
  rw [Bool.or_eq_true, strictlyBelow_iff, strictlyBelow_iff]

open Classical in
theorem get?_putFiles (files : AMap TreePath File) (t : Tree) (index : GitIndex) (p : TreePath) :
    AMap.get? (putFiles files (pathsOf t index) t) p =
      if Tracked t index p then fileAt t p
      else if Buried t p then none else AMap.get? files p := by
  unfold putFiles
  rw [get?_files_append, get?_map_files t p _ (List.nodup_dedup _)]
  have hf := get?_filter_files files (fun q => decide (q ∉ pathsOf t index) &&
    !((pathsOf t index).any fun p => (getFile t p).isSome && inTheWay p q)) p
  rw [hf]
  simp only [List.mem_dedup, mem_pathsOf]
  by_cases ht : Tracked t index p
  · rw [if_pos ht, if_pos ht, if_neg (by simp [ht])]
    simp
  · rw [if_neg ht, if_neg ht, Option.none_or]
    have hb : ((pathsOf t index).any fun q => (getFile t q).isSome && inTheWay q p) = true ↔ Buried t p := by
      rw [List.any_eq_true]
      constructor
      · rintro ⟨q, -, h⟩
        rw [Bool.and_eq_true, getFile_eq, Option.isSome_iff_ne_none, inTheWay_iff] at h
        exact ⟨q, h.1, h.2⟩
      · rintro ⟨q, h1, h2⟩
        refine ⟨q, mem_pathsOf.2 (.inl h1), ?_⟩
        rw [Bool.and_eq_true, getFile_eq, Option.isSome_iff_ne_none, inTheWay_iff]
        exact ⟨h1, h2⟩
    by_cases hbu : Buried t p
    · rw [if_pos hbu, if_neg (by simp [hb.2 hbu])]
    · rw [if_neg hbu, if_pos]
      rw [Bool.and_eq_true]
      refine ⟨by simpa using ht, ?_⟩
      rw [Bool.not_eq_true', Bool.eq_false_iff]
      exact fun h => hbu (hb.1 h)

theorem get?_indexOfTree (t : Tree) (p : TreePath) (s : Stage) :
    AMap.get? (indexOfTree t) (p, s) = if s = .stage0 then entryOf (fileAt t p) else none :=
  entriesAt_indexOfTree t p s

theorem tracked_indexOfTree {t d : Tree} {p : TreePath} :
    Tracked t (indexOfTree d) p ↔ fileAt t p ≠ none ∨ fileAt d p ≠ none := by
  unfold Tracked
  refine or_congr Iff.rfl ⟨?_, ?_⟩
  · rintro ⟨s, h⟩
    rw [get?_indexOfTree] at h
    split at h
    · rintro h0; rw [h0] at h; exact h rfl
    · exact absurd rfl h
  · intro h
    refine ⟨.stage0, ?_⟩
    rw [get?_indexOfTree, if_pos rfl]
    obtain ⟨v, hv⟩ := Option.ne_none_iff_exists'.1 h
    rw [hv]; simp [entryOf]

/-- What blocks a checkout. -/
theorem untrackedBlocks_iff {w : SnapWorld} {t : Tree} :
    untrackedBlocks w t = true ↔
      ∃ p f, SnapFile w p = some f ∧ AMap.get? w.index (p, .stage0) = none ∧
        ((fileAt t p ≠ none ∧ fileAt t p ≠ some f) ∨ Buried t p) := by
  unfold untrackedBlocks
  simp only [List.any_eq_true, Bool.and_eq_true, Option.isNone_iff_eq_none, Bool.or_eq_true, decide_eq_true_eq, getFile_eq,
    inTheWay_iff, ne_eq, Option.isSome_iff_ne_none]
  constructor
  · rintro ⟨q, -, hq, ⟨p, f'⟩, he, h1, h2⟩
    have hk : p ∈ AMap.keys w.files := List.mem_map.2 ⟨_, he, rfl⟩
    rw [AMap.mem_keys_iff] at hk
    obtain ⟨f, hf⟩ := Option.isSome_iff_exists.1 hk
    refine ⟨p, f, hf, h1, ?_⟩
    rcases h2 with ⟨rfl, h⟩ | h
    · rw [hf] at h
      exact .inl ⟨hq, h⟩
    · exact .inr ⟨q, hq, h⟩
  · rintro ⟨p, f, hf, h1, h2⟩
    rcases h2 with ⟨h, h'⟩ | ⟨q, hq, h⟩
    · exact ⟨p, mem_treeFilePaths h, h, (p, f), AMap.mem_of_get? hf, h1, .inl ⟨rfl, by
        rw [show AMap.get? w.files p = some f from hf]; exact h'⟩⟩
    · exact ⟨q, mem_treeFilePaths hq, hq, (p, f), AMap.mem_of_get? hf, h1, .inr h⟩

/-- A file which is not in the index does not block a checkout. -/
theorem not_blocked {w : SnapWorld} {t : Tree} (h : untrackedBlocks w t = false) {p : TreePath} {f : File}
    (hf : SnapFile w p = some f) (hi : AMap.get? w.index (p, .stage0) = none) :
    (fileAt t p ≠ none → fileAt t p = some f) ∧ ¬ Buried t p := by
  rw [Bool.eq_false_iff, ne_eq, untrackedBlocks_iff] at h
  constructor
  · intro hq
    by_contra hne
    exact h ⟨p, f, hf, hi, .inl ⟨hq, hne⟩⟩
  · exact fun hb => h ⟨p, f, hf, hi, .inr hb⟩

theorem headCommit_eq {w : SnapWorld} (hn : NoCollisionsIn w.repo) {c : SnapCommit} (hc : c ∈ w.repo.commits)
    (hh : w.headOid = some (w.repo.commitId c)) : w.headCommit = some c := by
  unfold SnapWorld.headCommit
  rw [hh]
  simp [Props.find_of_mem hn hc, Except.toOption]

theorem headCommit_some {w : SnapWorld} {c : SnapCommit} (h : w.headCommit = some c) :
    c ∈ w.repo.commits ∧ w.headOid = some (w.repo.commitId c) := by
  unfold SnapWorld.headCommit at h
  cases ho : w.headOid with
  | none => rw [ho] at h; cases h
  | some o =>
    rw [ho] at h
    simp only [Option.bind_some] at h
    cases hf : w.repo.find o with
    | error => rw [hf] at h; cases h
    | ok d =>
      rw [hf] at h
      cases h
      obtain ⟨h1, h2⟩ := Props.find_mem hf
      exact ⟨h1, by rw [h2]⟩

/-- The mode of a file. -/
def modeIn (files : AMap TreePath File) (p : TreePath) : Nat :=
  match AMap.get? files p with
  | some f => f.1
  | none => 0o100644

theorem get?_workOf (env : SnapshotEnv) (files : AMap TreePath File) (p : TreePath) :
    AMap.get? (workOf env files) p = (AMap.get? files p).map fun f =>
      if f.1 = 0o120000 then .link f.2 (env.linkTarget p f.2) else .file f.2 := by
  unfold workOf
  induction files with
  | nil => rfl
  | cons e m ih =>
    obtain ⟨k, v⟩ := e
    rw [List.map_cons, AMap.get?_cons, AMap.get?_cons, ih]
    split
    · rename_i h; subst h; rfl
    · rfl

theorem workFile_workOf (env : SnapshotEnv) (files : AMap TreePath File) (p : TreePath) :
    workFile (workOf env files) (modeIn files) p = AMap.get? files p := by
  unfold workFile modeIn
  rw [get?_workOf]
  cases h : AMap.get? files p with
  | none => rfl
  | some f =>
    obtain ⟨m, o⟩ := f
    simp only [Option.map_some]
    by_cases hm : m = 0o120000
    · subst hm; rfl
    · rw [if_neg hm]

theorem ReportsFiles.work {head : Tree} {index : GitIndex} {files : AMap TreePath File} {es : List StatusEntry}
    (h : ReportsFiles head index files es) (env : SnapshotEnv) :
    ReportsWork head index (workOf env files) (modeIn files) es := by
  refine ⟨?_, h.tracked, ?_⟩
  · intro p ht hne
    rw [workFile_workOf] at hne
    exact h.complete p ht hne
  · intro e he
    rw [workFile_workOf]
    exact h.modes e he

theorem OrdinaryFiles.noLinks {w : SnapWorld} {c : SnapCommit} {es : List StatusEntry} (h : OrdinaryFiles w c es)
    (env : SnapshotEnv) (p : TreePath) (b : Oid) (t : TreePath) :
    AMap.get? (workOf env w.files) p ≠ some (.link b t) := by
  rw [get?_workOf]
  cases hf : AMap.get? w.files p with
  | none => simp
  | some f =>
    rcases h.modes p f hf with hm | hm <;> simp [hm]

theorem OrdinaryFiles.modeIn_ne {w : SnapWorld} {c : SnapCommit} {es : List StatusEntry} (h : OrdinaryFiles w c es)
    (p : TreePath) : modeIn w.files p ≠ 0 := by
  unfold modeIn
  cases hf : AMap.get? w.files p with
  | none => simp
  | some f => rcases h.modes p f hf with hm | hm <;> simp [hm]

/-! ### the steps of the commands -/

/-- After `git reset --hard HEAD`. -/
def resetWorld (w : SnapWorld) (d : SnapCommit) : SnapWorld :=
  { w with
    index := indexOfTree d.tree
    files := putFiles w.files (pathsOf d.tree w.index) d.tree
    merging := [] }

theorem gitResetHard_eq (w : SnapWorld) : gitResetHard w = w.headCommit.map (resetWorld w) := rfl

theorem run_some {α : Type} {env : SnapshotEnv} {args : List Text} {x : Option α} {a : α}
    (h : env.run args x = some a) : x = some a := by
  unfold SnapshotEnv.run at h
  split at h
  · exact h
  · cases h

theorem run_works {α : Type} {env : SnapshotEnv} (hw : ∀ args, env.works args = true) (args : List Text)
    (x : Option α) : env.run args x = x := by
  unfold SnapshotEnv.run
  rw [if_pos (hw args)]

theorem restoreRef_restored {env : SnapshotEnv} {w w' : SnapWorld} {s : WcSnapshot}
    (h : restoreRef env w s = (.restored, w')) :
    w' = { w with head := w'.head } ∧
    w'.head = match s.headRef with
      | none => w.head
      | some name => ⟨.inl name, match s.head with
        | some c => AMap.insert w.head.refs name (w.repo.commitId c)
        | none => AMap.erase w.head.refs name⟩ := by
  unfold restoreRef at h
  cases hr : s.headRef with
  | none => rw [hr] at h; cases h; exact ⟨rfl, rfl⟩
  | some name =>
    rw [hr] at h
    simp only at h
    split at h
    · cases h
    · rename_i w1 h1
      split at h
      · cases h
      · rename_i w2 h2
        have e1 := run_some h1
        have e2 := run_some h2
        cases e1
        cases e2
        cases h
        exact ⟨rfl, rfl⟩

theorem restoreStages_restored {env : SnapshotEnv} {w w' : SnapWorld} {s : WcSnapshot}
    (h : restoreStages env w s = (.restored, w')) :
    w' = { w with head := w'.head, index := (restoreCommands w.repo env.order s).foldl applyIndexCommand w.index } ∧
    w'.head = match s.headRef with
      | none => w.head
      | some name => ⟨.inl name, match s.head with
        | some c => AMap.insert w.head.refs name (w.repo.commitId c)
        | none => AMap.erase w.head.refs name⟩ := by
  unfold restoreStages at h
  simp only at h
  split at h
  · cases h
  · rename_i w1 h1
    have e1 := run_some h1
    cases e1
    exact restoreRef_restored h

/-- What is known after a snapshot was restored. -/
structure RestoredFrom (env : SnapshotEnv) (w w' : SnapWorld) (s : WcSnapshot) (d : SnapCommit) : Prop where
  commit : w.headCommit = some d
  free : untrackedBlocks (resetWorld w d) s.unstaged.tree = false
  files : w'.files = putFiles (resetWorld w d).files (pathsOf s.unstaged.tree (indexOfTree d.tree)) s.unstaged.tree
  index : w'.index = restoreIndex w.repo env.order s
  head : w'.head = restoreHead w.repo s w.head
  merging : w'.merging = []
  repo : w'.repo = w.repo
  db : w'.db = w.db

theorem restoreWork_restored {env : SnapshotEnv} {w w' : SnapWorld} {s : WcSnapshot}
    (h : restoreWork env w s = (.restored, w')) : ∃ d, RestoredFrom env w w' s d := by
  unfold restoreWork at h
  split at h
  · cases h
  · rename_i w1 h1
    have e1 := run_some h1
    rw [gitResetHard_eq] at e1
    obtain ⟨d, hd, rfl⟩ := Option.map_eq_some_iff.1 e1
    split at h
    · cases h
    · rename_i w2 h2
      have e2 := run_some h2
      unfold gitCheckoutDetached at e2
      split at e2
      · cases e2
      · rename_i hb
        cases e2
        refine ⟨d, ?_⟩
        have hfree : untrackedBlocks (resetWorld w d) s.unstaged.tree = false := Bool.eq_false_iff.2 hb
        cases hs : s.head with
        | none =>
          rw [hs] at h
          obtain ⟨ha, hb⟩ := restoreStages_restored h
          rw [hs] at hb
          refine ⟨hd, hfree, by rw [ha]; rfl, ?_, ?_, by rw [ha]; rfl, by rw [ha]; rfl, by rw [ha]; rfl⟩
          · rw [ha]; unfold restoreIndex; rw [hs]; rfl
          · rw [hb]; unfold restoreHead; rw [hs]
            cases s.headRef <;> rfl
        | some c =>
          rw [hs] at h
          simp only at h
          split at h
          · cases h
          · rename_i w3 h3
            have e3 := run_some h3
            cases e3
            obtain ⟨ha, hb⟩ := restoreStages_restored h
            rw [hs] at hb
            refine ⟨hd, hfree, by rw [ha]; rfl, ?_, ?_, by rw [ha]; rfl, by rw [ha]; rfl, by rw [ha]; rfl⟩
            · rw [ha]; unfold restoreIndex; rw [hs]; rfl
            · rw [hb]; unfold restoreHead; rw [hs]
              cases s.headRef <;> rfl

/-- If git can be run, then restoring succeeds unless there is no commit or a file blocks. -/
theorem restoreWork_works {env : SnapshotEnv} (hw : ∀ args, env.works args = true) {w : SnapWorld} {s : WcSnapshot}
    {d : SnapCommit} (hd : w.headCommit = some d)
    (hb : untrackedBlocks (resetWorld w d) s.unstaged.tree = false) : (restoreWork env w s).1 = .restored := by
  unfold restoreWork
  rw [run_works hw, gitResetHard_eq, hd]
  simp only [Option.map_some]
  rw [run_works hw]
  unfold gitCheckoutDetached
  rw [if_neg (by rw [hb]; simp)]
  simp only
  cases s.head with
  | none => simp only [restoreStages, restoreRef, run_works hw]; split <;> rfl
  | some c => simp only [restoreStages, restoreRef, run_works hw]; split <;> rfl

end Verif.Spec
