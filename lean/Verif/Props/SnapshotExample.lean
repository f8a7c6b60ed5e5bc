import Verif.Props.SnapshotKind
import Verif.Props.TreePick

/-!
Concrete cases for the theorems about snapshots (C30, C31, C32, C59, C60), and what goes wrong for renames
and for directories which replace files.
-/

namespace Verif.Props

open Verif Verif.Spec

/-! ### checking the hypotheses -/

/-- The paths of `HEAD` and of the index. -/
def trackedPaths (head : Tree) (index : GitIndex) : List TreePath :=
  treeFilePaths head ++ index.map (·.1.1)

theorem tracked_mem {head : Tree} {index : GitIndex} {p : TreePath} (h : Tracked head index p) :
    p ∈ trackedPaths head index := by
  rcases h with h | ⟨s, h⟩
  · exact List.mem_append_left _ (mem_treeFilePaths h)
  · obtain ⟨v, hv⟩ := Option.ne_none_iff_exists'.1 h
    exact List.mem_append_right _ (List.mem_map.2 ⟨_, AMap.mem_of_get? hv, rfl⟩)

/-- As `Conflicted`. -/
def conflictedB (index : GitIndex) (p : TreePath) : Bool :=
  [Stage.stage1, .stage2, .stage3].any fun s => (AMap.get? index (p, s)).isSome

theorem conflictedB_iff (index : GitIndex) (p : TreePath) : conflictedB index p = true ↔ Conflicted index p := by
  unfold conflictedB Conflicted
  rw [List.any_eq_true]
  constructor
  · rintro ⟨s, hs, h⟩
    refine ⟨s, ?_, by rintro e; rw [e] at h; cases h⟩
    rintro rfl
    simp at hs
  · rintro ⟨s, hs, h⟩
    refine ⟨s, ?_, Option.isSome_iff_ne_none.2 h⟩
    cases s <;> simp at hs ⊢

instance (index : GitIndex) (p : TreePath) : Decidable (Conflicted index p) :=
  decidable_of_iff _ (conflictedB_iff index p)

theorem validIndex_of_check {index : GitIndex} (hw : AMap.WF index)
    (h : ∀ e ∈ index, e.2.1 ∈ fileModes ∧ e.2.2 ≠ .zero ∧
      (Conflicted index e.1.1 → AMap.get? index (e.1.1, .stage0) = none)) : ValidIndex index := by
  refine ⟨hw, ?_, ?_⟩
  · intro k m o hk
    have := h _ (AMap.mem_of_get? hk)
    exact ⟨this.1, this.2.1⟩
  · intro p hc
    by_contra hne
    obtain ⟨v, hv⟩ := Option.ne_none_iff_exists'.1 hne
    exact hne ((h _ (AMap.mem_of_get? hv)).2.2 hc)

/-- As `Tracked`. -/
def trackedB (head : Tree) (index : GitIndex) (p : TreePath) : Bool :=
  (fileAt head p).isSome || [Stage.stage0, .stage1, .stage2, .stage3].any fun s =>
    (AMap.get? index (p, s)).isSome

theorem trackedB_iff {head : Tree} {index : GitIndex} {p : TreePath} :
    trackedB head index p = true ↔ Tracked head index p := by
  unfold trackedB Tracked
  rw [Bool.or_eq_true, List.any_eq_true, Option.isSome_iff_ne_none]
  constructor
  · rintro (h | ⟨s, -, h⟩)
    · exact .inl h
    · exact .inr ⟨s, Option.isSome_iff_ne_none.1 h⟩
  · rintro (h | ⟨s, h⟩)
    · exact .inl h
    · exact .inr ⟨s, by cases s <;> simp, Option.isSome_iff_ne_none.2 h⟩

theorem reportsIndex_of_check {head : Tree} {index : GitIndex} {es : List StatusEntry}
    (h1 : ∀ p ∈ trackedPaths head index,
      (Conflicted index p ∨ AMap.get? index (p, .stage0) ≠ entryOf (fileAt head p)) →
      ∃ e ∈ es, ∃ q ∈ e.paths, components q = p)
    (h2 : ∀ e ∈ es, trackedB head index (components e.path) = true)
    (h3 : ∀ e ∈ es, e.indexStatus = .unmerged ↔ Conflicted index (components e.path)) :
    ReportsIndex head index es := by
  refine ⟨fun p hp => h1 p (tracked_mem ?_) hp, fun e he => trackedB_iff.1 (h2 e he), h3⟩
  rcases hp with ⟨s, -, h⟩ | h
  · exact .inr ⟨s, h⟩
  · by_cases hf : fileAt head p = none
    · exact .inr ⟨.stage0, fun h0 => h (by rw [h0, hf]; rfl)⟩
    · exact .inl hf

theorem reportsWork_of_check {head : Tree} {index : GitIndex} {wc : WorkingCopy} {mode : TreePath → Nat}
    {es : List StatusEntry}
    (h1 : ∀ p ∈ trackedPaths head index, workFile wc mode p ≠ fileAt head p →
      ∃ e ∈ es, ∃ q ∈ e.paths, components q = p)
    (h2 : ∀ e ∈ es, trackedB head index (components e.path) = true)
    (h3 : ∀ e ∈ es, e.workingCopyMode.toI32 =
      match workFile wc mode (components e.path) with
      | some f => (f.1 : Int)
      | none => 0) : ReportsWork head index wc mode es :=
  ⟨fun p ht hp => h1 p (tracked_mem ht) hp, fun e he => trackedB_iff.1 (h2 e he), h3⟩

theorem noNesting_of_check {head : Tree} {index : GitIndex}
    (h : ∀ p ∈ trackedPaths head index, p.length = 1) : NoNesting head index := by
  rintro p q hp hq ⟨n, r, rfl⟩
  have h1 := h p (tracked_mem hp)
  have h2 := h _ (tracked_mem hq)
  simp only [List.length_append, List.length_cons] at h2
  omega

theorem noLinks_of_check {wc : WorkingCopy} (h : ∀ e ∈ wc, ∀ b t, e.2 ≠ .link b t) :
    ∀ p b t, AMap.get? wc p ≠ some (.link b t) :=
  fun _ b t hp => h _ (AMap.mem_of_get? hp) b t rfl

theorem flat_dir {t : Tree} (h : ∀ e ∈ t, ∃ m o, e.2 = .leaf m o) (n : Text) (p : TreePath) :
    nodeAt t (n :: p) = none ∨ (p = [] ∧ ∃ m o, nodeAt t (n :: p) = some (.leaf m o)) := by
  unfold nodeAt
  rw [inside]
  cases hg : AMap.get? t n with
  | none => exact .inl rfl
  | some x =>
    obtain ⟨m, o, hx⟩ := h _ (AMap.mem_of_get? hg)
    simp only at hx
    subst hx
    cases p with
    | nil => exact .inr ⟨rfl, m, o, rfl⟩
    | cons => exact .inl rfl

theorem solid_of_flat {t : Tree} (h : ∀ e ∈ t, ∃ m o, e.2 = .leaf m o) : Solid t := by
  intro p m es hp hd
  cases p with
  | nil => exact absurd rfl hp
  | cons n p =>
    rcases flat_dir h n p with h1 | ⟨-, _, _, h1⟩ <;> rw [hd] at h1 <;> cases h1

theorem sameTree_of_flat {t t' : Tree} (h : ∀ e ∈ t, ∃ m o, e.2 = .leaf m o)
    (h' : ∀ e ∈ t', ∃ m o, e.2 = .leaf m o) :
    SameTree t t' ↔ ∀ n ∈ t.map (·.1) ++ t'.map (·.1), fileAt t [n] = fileAt t' [n] := by
  rw [sameTree_iff (solid_of_flat h) (solid_of_flat h')]
  constructor
  · intro hall n _; exact hall [n]
  · intro hall p
    cases p with
    | nil => rfl
    | cons n p =>
      cases p with
      | nil =>
        by_cases hn : n ∈ t.map (·.1) ++ t'.map (·.1)
        · exact hall n hn
        · rw [List.mem_append, not_or] at hn
          have key : ∀ t : Tree, n ∉ t.map (·.1) → fileAt t [n] = none := by
            intro t hn
            unfold fileAt nodeAt
            rw [inside]
            cases hg : AMap.get? t n with
            | none => rfl
            | some x => exact absurd (List.mem_map.2 ⟨_, AMap.mem_of_get? hg, rfl⟩) hn
          rw [key t hn.1, key t' hn.2]
      | cons m p =>
        have key : ∀ t : Tree, (∀ e ∈ t, ∃ m o, e.2 = .leaf m o) → fileAt t (n :: m :: p) = none := by
          intro t ht
          unfold fileAt
          rcases flat_dir ht n (m :: p) with h1 | ⟨h1, -⟩
          · rw [h1]; rfl
          · cases h1
        rw [key t h, key t' h']

/-! ### a repository -/

/-- An id from numbers. -/
def exId (n : Nat) : Oid :=
  ⟨n % 2 ^ 150 + 1, Nat.succ_pos _,
    Nat.lt_of_le_of_lt (Nat.succ_le_of_lt (Nat.mod_lt n (by decide))) (by decide)⟩

/-- A hash of the message of a commit. -/
def exCommitId (c : SnapCommit) : Oid := exId (c.message.foldl (fun h ch => h * 131 + ch.toNat) 7)

/-- A hash of a tree without directories; the order does not matter. -/
def exTreeId (t : Tree) : Oid :=
  exId ((t.map fun e => (e.1.foldl (fun h ch => h * 131 + ch.toNat) 7) *
    (match e.2 with | .leaf m o => m * 1000003 + o.val | .dir _ _ => 1) ^ 3).sum)

/-- The commit `HEAD`. -/
def exHeadCommit (t : Tree) : SnapCommit := ⟨t!"first", t, [], t!"me"⟩

/-- A repository with one commit. -/
def exRepo (t : Tree) : SnapRepo := ⟨exCommitId, exTreeId, [exHeadCommit t]⟩

/-- An entry of the status. -/
def exStatus (x y : FileStatus) (m : FileMode) (path : Text) : StatusEntry := ⟨x, y, m, path, none⟩

theorem noCollisions_of_nodup {r : SnapRepo} (h : (r.commits.map r.commitId).Nodup) : NoCollisionsIn r := by
  intro c hc c' hc' heq
  exact List.inj_on_of_nodup_map h hc hc' heq

/-! #### staged and unstaged changes -/

/-- `HEAD`: three files. -/
def exHead1 : Tree := exFlat [(t!"a", 1), (t!"b", 2), (t!"c", 3)]

/-- The index: `a` is changed, `c` is deleted, `d` is added. -/
def exIndex1 : GitIndex :=
  [(([t!"a"], .stage0), (0o100644, .nonZero (oidN 4))), (([t!"b"], .stage0), (0o100644, .nonZero (oidN 2))),
   (([t!"d"], .stage0), (0o100755, .nonZero (oidN 5)))]

/-- The working copy: `a` is changed again, and `b` is changed. -/
def exWc1 : WorkingCopy :=
  [([t!"a"], .file (oidN 6)), ([t!"b"], .file (oidN 7)), ([t!"d"], .file (oidN 5)), ([t!"x"], .file (oidN 9))]

/-- The modes. -/
def exMode1 (p : TreePath) : Nat := if p = [t!"d"] then 0o100755 else 0o100644

/-- The status. -/
def exEs1 : List StatusEntry :=
  [exStatus .modified .modified .blob t!"a", exStatus .unmodified .modified .blob t!"b",
   exStatus .deleted .unmodified .unreadable t!"c", exStatus .added .unmodified .blobExecutable t!"d"]

/-- The snapshot. -/
def exSnapshot1 : Except Unit (SnapRepo × WcSnapshot) :=
  createSnapshot (exRepo exHead1) exIndex1 (some (exCommitId (exHeadCommit exHead1)))
    (some t!"refs/heads/main") exWc1 exEs1

theorem exValid1 : ValidIndex exIndex1 :=
  validIndex_of_check (by unfold AMap.WF; decide +kernel) (by decide +kernel)

theorem exReports1 : ReportsIndex exHead1 exIndex1 exEs1 :=
  reportsIndex_of_check (by decide +kernel) (by decide +kernel) (by decide +kernel)

theorem exWork1 : ReportsWork exHead1 exIndex1 exWc1 exMode1 exEs1 :=
  reportsWork_of_check (by decide +kernel) (by decide +kernel) (by decide +kernel)

theorem exNesting1 : NoNesting exHead1 exIndex1 := noNesting_of_check (by decide +kernel)

theorem exKnown1 : KnownChanges exEs1 := by unfold KnownChanges; decide +kernel

theorem exRenames1 : NoRenames exEs1 := by unfold NoRenames; decide +kernel

theorem exLinks1 : ∀ p b t, AMap.get? exWc1 p ≠ some (.link b t) :=
  noLinks_of_check (by
    intro e he b t
    simp only [exWc1, List.mem_cons, List.not_mem_nil, or_false] at he
    rcases he with rfl | rfl | rfl | rfl <;> simp)

theorem exMode1_ne (p : TreePath) : exMode1 p ≠ 0 := by
  unfold exMode1; split <;> decide

theorem extends_refl (r : SnapRepo) : Extends r r := ⟨rfl, rfl, fun _ h => h⟩

/-- A tree without directories. -/
def isFlat (t : Tree) : Bool := t.all fun e => match e.2 with | .leaf _ _ => true | .dir _ _ => false

theorem flat_of_isFlat {t : Tree} (h : isFlat t = true) : ∀ e ∈ t, ∃ m o, e.2 = .leaf m o := by
  intro e he
  have := List.all_eq_true.1 h e he
  obtain ⟨n, x⟩ := e
  cases x with
  | leaf m o => exact ⟨m, o, rfl⟩
  | dir m es => cases this

theorem treeIdsExact_of_check {r : SnapRepo} {ts : List Tree} (h1 : ∀ t ∈ ts, isFlat t = true)
    (h2 : ∀ t ∈ ts, ∀ t' ∈ ts, r.treeId t = r.treeId t' ↔
      ∀ n ∈ t.map (·.1) ++ t'.map (·.1), fileAt t [n] = fileAt t' [n]) : TreeIdsExact r ts := by
  intro t ht t' ht'
  rw [h2 t ht t' ht', sameTree_of_flat (flat_of_isFlat (h1 t ht)) (flat_of_isFlat (h1 t' ht'))]

/-- What is needed of a concrete snapshot. -/
structure ExChecked (head : Tree) (x : Except Unit (SnapRepo × WcSnapshot)) (r : SnapRepo) (s : WcSnapshot) :
    Prop where
  eq : x = .ok (r, s)
  nodup : (r.commits.map r.commitId).Nodup
  head : s.head = some (exHeadCommit head)
  exact_ : TreeIdsExact r (snapshotTrees s)
  new : s.unstaged.message ≠ t!"first"

/-- The repository and the snapshot. -/
theorem exSnapshot1_eq : ∃ r s, ExChecked exHead1 exSnapshot1 r s := by
  refine ⟨_, _, rfl, ?_, rfl, treeIdsExact_of_check ?_ ?_, ?_⟩
  · decide +kernel
  · decide +kernel
  · decide +kernel
  · decide +kernel

theorem exPlain1 : Plain exHead1 := plain_flat [(t!"a", oidN 1), (t!"b", oidN 2), (t!"c", oidN 3)]

theorem exSolid1 : Solid exHead1 := solid_of_flat (flat_of_isFlat (by decide +kernel))

theorem exGoodRef : ∀ name ∈ some t!"refs/heads/main", GoodRefName name := by
  intro name h
  rw [Option.mem_some_iff] at h
  subst h
  refine ⟨by decide, by decide +kernel⟩

/-- C30: the snapshot is read again. -/
example : ∃ r s, exSnapshot1 = .ok (r, s) ∧ tryFromBaseCommit r s.base = .ok (some s) := by
  obtain ⟨r, s, h⟩ := exSnapshot1_eq
  exact ⟨r, s, h.eq, snapshot_roundtrip exGoodRef h.eq (extends_refl r) (noCollisions_of_nodup h.nodup)⟩

theorem atLineStart_at {m t : Text} (h : AtLineStart m t) : ∃ n, n < t.length + 1 ∧
    m.isPrefixOf (t.drop n) = true ∧ (t.take n = [] ∨ (t.take n).getLast? = some '\n') := by
  obtain ⟨a, b, rfl, h⟩ := h
  refine ⟨a.length, by simp only [List.length_append]; omega, ?_, ?_⟩
  · rw [List.append_assoc, List.drop_left, List.isPrefixOf_iff_prefix]
    exact ⟨b, rfl⟩
  · rwa [List.append_assoc, List.take_left]

theorem realConflicts_of_check {index : GitIndex} (h : ∀ e ∈ index, e.1.2 ≠ .stage0 →
    AMap.get? index (e.1.1, .stage1) ≠ AMap.get? index (e.1.1, .stage2) ∨
    AMap.get? index (e.1.1, .stage2) ≠ AMap.get? index (e.1.1, .stage3)) : RealConflicts index := by
  rintro p ⟨s, hs, hne⟩
  obtain ⟨v, hv⟩ := Option.ne_none_iff_exists'.1 hne
  rcases h _ (AMap.mem_of_get? hv) hs with h | h
  · exact ⟨.stage1, .stage2, by decide, by decide, h⟩
  · exact ⟨.stage2, .stage3, by decide, by decide, h⟩

/-- C30: an ordinary commit. -/
example (r : SnapRepo) : tryFromBaseCommit r ⟨t!"Fix it\n\nSee: there\nBranch: less\n", [], [], []⟩ = .ok none := by
  refine ordinary_commit (by decide +kernel) ?_
  intro h
  obtain ⟨n, hn, h1, h2⟩ := atLineStart_at h
  revert n
  decide +kernel

/-- C31: the index is restored. -/
example : ∃ r s, exSnapshot1 = .ok (r, s) ∧ ∀ k, AMap.get? (restoreIndex r id s) k = AMap.get? exIndex1 k := by
  obtain ⟨r, s, h⟩ := exSnapshot1_eq
  refine ⟨r, s, h.eq, fun k => ?_⟩
  refine (restored_index_partial h.eq (extends_refl r) (noCollisions_of_nodup h.nodup)
    (c := exHeadCommit exHead1) (List.mem_singleton.2 rfl) rfl exValid1 exReports1 exRenames1 exNesting1
    exPlain1 id (fun _ => .refl _) k.1).1 ?_ k.2
  rintro ⟨st, hst, hne⟩
  obtain ⟨v, hv⟩ := Option.ne_none_iff_exists'.1 hne
  have hm := AMap.mem_of_get? hv
  have : ∀ e ∈ exIndex1, e.1.2 = .stage0 := by decide +kernel
  exact hst (this _ hm)

/-- C59: the working copy is stored; the untracked file `x` is not. -/
example : ∃ r s, exSnapshot1 = .ok (r, s) ∧ fileAt s.unstaged.tree [t!"a"] = some (0o100644, oidN 6) ∧
    fileAt s.unstaged.tree [t!"x"] = none := by
  obtain ⟨r, s, h⟩ := exSnapshot1_eq
  have hh : (s.head.map (·.tree)).getD [] = exHead1 := by rw [h.head]; rfl
  refine ⟨r, s, h.eq, ?_, ?_⟩
  · rw [(working_copy_stored_partial h.eq hh exWork1 exMode1_ne exKnown1 exLinks1 exRenames1 exNesting1
      [t!"a"]).1 (trackedB_iff.1 (by decide +kernel))]
    decide +kernel
  · refine (working_copy_stored_partial h.eq hh exWork1 exMode1_ne exKnown1 exLinks1 exRenames1 exNesting1
      [t!"x"]).2 ?_
    rw [← trackedB_iff]
    decide +kernel

/-- C59: the snapshot is created. -/
example : ∃ r s, exSnapshot1 = .ok (r, s) :=
  snapshot_created (head := exHead1) (mode := exMode1)
    (fun o ho => ⟨exHeadCommit exHead1, List.mem_singleton.2 rfl, by rw [Option.mem_some_iff] at ho; exact ho⟩)
    exWork1 exLinks1 exRenames1

/-- C32: changes are staged. -/
example : ∃ r s, exSnapshot1 = .ok (r, s) ∧ s.changesType r = .staged := by
  obtain ⟨r, s, h⟩ := exSnapshot1_eq
  have hh : (s.head.map (·.tree)).getD [] = exHead1 := by rw [h.head]; rfl
  refine ⟨r, s, h.eq, ?_⟩
  refine (changes_type_partial h.eq hh h.exact_ exSolid1 exValid1 exReports1 exRenames1 exNesting1 exWork1
    exMode1_ne exLinks1).2.1.2 ⟨?_, [t!"a"], ?_⟩
  · rintro ⟨p, -, ⟨st, hst, hne⟩, -⟩
    obtain ⟨v, hv⟩ := Option.ne_none_iff_exists'.1 hne
    have : ∀ e ∈ exIndex1, e.1.2 = .stage0 := by decide +kernel
    exact hst (this _ (AMap.mem_of_get? hv))
  · decide +kernel

/-- C60: the unstaged commit is not reachable from the base commit. -/
example : ∃ r s, exSnapshot1 = .ok (r, s) ∧
    ¬ KeepsAlive r (r.commitId s.base) (r.commitId s.unstaged) := by
  obtain ⟨r, s, h⟩ := exSnapshot1_eq
  refine ⟨r, s, h.eq, unstaged_not_kept_alive h.eq ?_ (noCollisions_of_nodup h.nodup) ?_⟩
  · intro c hc p hp
    rw [List.mem_singleton.1 hc] at hp
    cases hp
  · intro hm
    have := List.mem_singleton.1 hm
    exact h.new (by rw [this]; rfl)

/-! #### conflicts -/

/-- `HEAD`: two files. -/
def exHead2 : Tree := exFlat [(t!"a", 1), (t!"b", 2), (t!"c", 3)]

/-- The index: `a` was changed on both sides, `b` was deleted on the other side, `c` was added on the other
side with another content (and there is something else in `HEAD`, after a `git reset --soft`). -/
def exIndex2 : GitIndex :=
  [(([t!"a"], .stage1), (0o100644, .nonZero (oidN 3))), (([t!"a"], .stage2), (0o100644, .nonZero (oidN 1))),
   (([t!"a"], .stage3), (0o100644, .nonZero (oidN 4))), (([t!"b"], .stage1), (0o100644, .nonZero (oidN 5))),
   (([t!"b"], .stage2), (0o100644, .nonZero (oidN 2))), (([t!"c"], .stage2), (0o100644, .nonZero (oidN 8))),
   (([t!"c"], .stage3), (0o100644, .nonZero (oidN 9)))]

/-- The working copy. -/
def exWc2 : WorkingCopy :=
  [([t!"a"], .file (oidN 10)), ([t!"b"], .file (oidN 2)), ([t!"c"], .file (oidN 11))]

/-- The status. -/
def exEs2 : List StatusEntry :=
  [exStatus .unmerged .unmerged .blob t!"a", exStatus .unmerged .deleted .blob t!"b",
   exStatus .unmerged .added .blob t!"c"]

/-- The snapshot. -/
def exSnapshot2 : Except Unit (SnapRepo × WcSnapshot) :=
  createSnapshot (exRepo exHead2) exIndex2 (some (exCommitId (exHeadCommit exHead2))) none exWc2 exEs2

theorem exSnapshot2_eq : ∃ r s, ExChecked exHead2 exSnapshot2 r s := by
  refine ⟨_, _, rfl, ?_, rfl, treeIdsExact_of_check ?_ ?_, ?_⟩
  · decide +kernel
  · decide +kernel
  · decide +kernel
  · decide +kernel

theorem exValid2 : ValidIndex exIndex2 :=
  validIndex_of_check (by unfold AMap.WF; decide +kernel) (by decide +kernel)

theorem exReports2 : ReportsIndex exHead2 exIndex2 exEs2 :=
  reportsIndex_of_check (by decide +kernel) (by decide +kernel) (by decide +kernel)

theorem exNesting2 : NoNesting exHead2 exIndex2 := noNesting_of_check (by decide +kernel)

theorem exRenames2 : NoRenames exEs2 := by unfold NoRenames; decide +kernel

theorem exPlain2 : Plain exHead2 := plain_flat [(t!"a", oidN 1), (t!"b", oidN 2), (t!"c", oidN 3)]

/-- C31: our side of the conflict in `a` is lost, and all about the conflict in `b`; their side of `a` and
both sides of `c` are restored. -/
example : ∃ r s, exSnapshot2 = .ok (r, s) ∧
    AMap.get? (restoreIndex r id s) ([t!"a"], .stage2) = none ∧
    (∀ stage, AMap.get? (restoreIndex r id s) ([t!"b"], stage) = none) ∧
    AMap.get? (restoreIndex r id s) ([t!"a"], .stage3) = some (0o100644, .nonZero (oidN 4)) ∧
    AMap.get? (restoreIndex r id s) ([t!"c"], .stage2) = some (0o100644, .nonZero (oidN 8)) := by
  obtain ⟨r, s, h⟩ := exSnapshot2_eq
  have hn := noCollisions_of_nodup h.nodup
  have hm : exHeadCommit exHead2 ∈ (exRepo exHead2).commits := List.mem_singleton.2 rfl
  have rest := restored_index_partial h.eq (extends_refl r) hn hm rfl exValid2 exReports2 exRenames2
    exNesting2 exPlain2 id (fun _ => .refl _)
  refine ⟨r, s, h.eq, ?_, ?_, ?_, ?_⟩
  · exact our_side_lost h.eq (extends_refl r) hn hm rfl exValid2 exReports2 exRenames2
      exNesting2 exPlain2 id (fun _ => .refl _) _ (by decide +kernel) (by decide +kernel)
  · exact deleted_by_them_lost h.eq (extends_refl r) hn hm rfl exValid2 exReports2 exRenames2
      exNesting2 exPlain2 id (fun _ => .refl _) _ (by decide +kernel) (by decide +kernel) (by decide +kernel)
  · refine ((rest [t!"a"]).2 (by decide +kernel) .stage3).1 ⟨by decide +kernel, .inr ?_⟩
    intro t ht; cases ht
  · refine ((rest [t!"c"]).2 (by decide +kernel) .stage2).1 ⟨by decide +kernel, .inr ?_⟩
    intro t ht; cases ht; decide +kernel

/-- C32: `record` refuses. -/
example : ∃ r s, exSnapshot2 = .ok (r, s) ∧ recordAction false (s.changesType r) = .refused := by
  obtain ⟨r, s, h⟩ := exSnapshot2_eq
  have hh : (s.head.map (·.tree)).getD [] = exHead2 := by rw [h.head]; rfl
  refine ⟨r, s, h.eq, ?_⟩
  refine (record_action_partial (mode := fun _ => 0o100644) h.eq hh h.exact_
    (solid_of_flat (flat_of_isFlat (by decide +kernel))) exValid2 ?_ exReports2 exRenames2 exNesting2
    (reportsWork_of_check (by decide +kernel) (by decide +kernel) (by decide +kernel)) (fun _ => by decide)
    (.inr ⟨[t!"a"], by decide +kernel⟩) (noLinks_of_check ?_) false).1 ⟨[t!"a"], by decide +kernel⟩
  · exact realConflicts_of_check (by decide +kernel)
  · intro e he b t
    simp only [exWc2, List.mem_cons, List.not_mem_nil, or_false] at he
    rcases he with rfl | rfl | rfl <;> simp

/-! #### no commit yet -/

/-- Two files are added; `HEAD` does not exist yet. -/
def exIndex3 : GitIndex :=
  [(([t!"a"], .stage0), (0o100644, .nonZero (oidN 4))), (([t!"b"], .stage0), (0o100644, .nonZero (oidN 2)))]

/-- The snapshot; `a` is changed since it was added. -/
def exSnapshot3 : Except Unit (SnapRepo × WcSnapshot) :=
  createSnapshot ⟨exCommitId, exTreeId, []⟩ exIndex3 none (some t!"refs/heads/main")
    [([t!"a"], .file (oidN 5)), ([t!"b"], .file (oidN 2))]
    [exStatus .added .modified .blob t!"a", exStatus .added .unmodified .blob t!"b"]

/-- C31: the index is restored, and `HEAD` refers to the branch, which does not exist. -/
example : ∃ r s, exSnapshot3 = .ok (r, s) ∧
    (∀ k, AMap.get? (restoreIndex r id s) k = AMap.get? exIndex3 k) ∧
    (restoreHead r s ⟨.inr (oidN 3), []⟩).head = .inl t!"refs/heads/main" ∧
    AMap.get? (restoreHead r s ⟨.inr (oidN 3), []⟩).refs t!"refs/heads/main" = none := by
  have hex : ∃ r s, exSnapshot3 = .ok (r, s) ∧ (r.commits.map r.commitId).Nodup := by
    refine ⟨_, _, rfl, ?_⟩
    decide +kernel
  obtain ⟨r, s, h, hn⟩ := hex
  refine ⟨r, s, h, ?_, ?_⟩
  · refine restored_index_unborn h (extends_refl r) (noCollisions_of_nodup hn)
      (validIndex_of_check (by unfold AMap.WF; decide +kernel) (by decide +kernel))
      (reportsIndex_of_check (by decide +kernel) (by decide +kernel) (by decide +kernel))
      (by unfold NoRenames; decide +kernel) (noNesting_of_check (by decide +kernel)) ?_ id (fun _ => .refl _)
    rintro p ⟨st, hst, hne⟩
    obtain ⟨v, hv⟩ := Option.ne_none_iff_exists'.1 hne
    have : ∀ e ∈ exIndex3, e.1.2 = .stage0 := by decide +kernel
    exact hst (this _ (AMap.mem_of_get? hv))
  · exact (head_restored h (extends_refl r) _).1 _ rfl

/-! ### what goes wrong without the hypotheses -/

/-- The restored index of a snapshot. -/
def exRestored (x : Except Unit (SnapRepo × WcSnapshot)) : Option GitIndex :=
  match x with
  | .ok (r, s) => some (restoreIndex r id s)
  | .error () => none

/-- **C31 without `NoRenames`.** `a` was renamed to `b`, and this is staged. The original path is not an
entry of the commit for stage 0, so `a` is in the restored index again. -/
theorem renamed_file_back :
    (exRestored (createSnapshot (exRepo (exFlat [(t!"a", 1)]))
      [(([t!"b"], .stage0), (0o100644, .nonZero (oidN 1)))]
      (some (exCommitId (exHeadCommit (exFlat [(t!"a", 1)])))) none [([t!"b"], .file (oidN 1))]
      [⟨.renamed, .unmodified, .blob, t!"b", some t!"a"⟩])).map (AMap.get? · ([t!"a"], .stage0)) =
    some (some (0o100644, .nonZero (oidN 1))) := by decide +kernel

/-- A directory `d` with one file. -/
def exHeadDir : Tree := [(t!"d", .dir 0o40000 (exFlat [(t!"x", 1)]))]

/-- **C31 without `NoNesting`.** The directory `d` was replaced by a file, and this is staged. The file is
not in the restored index. -/
theorem replaced_directory_lost :
    (exRestored (createSnapshot (exRepo exHeadDir) [(([t!"d"], .stage0), (0o100644, .nonZero (oidN 2)))]
      (some (exCommitId (exHeadCommit exHeadDir))) none [([t!"d"], .file (oidN 2))]
      [exStatus .added .unmodified .blob t!"d", exStatus .deleted .unmodified .unreadable t!"d/x"])).map
      (AMap.get? · ([t!"d"], .stage0)) = some none := by decide +kernel

/-- The commands for the index. -/
def exCommands (x : Except Unit (SnapRepo × WcSnapshot)) : List IndexCommand :=
  match x with
  | .ok (r, s) => restoreCommands r id s
  | .error () => []

/-- **C31 without `NoNesting`.** The file `d` was replaced by a directory with a file, and this is staged.
Among the commands for the index is one for the path `d` with the mode of a directory. -/
theorem directory_in_index :
    ∃ o, IndexCommand.update [t!"d"] .stage0 0o40000 o ∈
      exCommands (createSnapshot (exRepo (exFlat [(t!"d", 1)]))
        [(([t!"d", t!"x"], .stage0), (0o100644, .nonZero (oidN 2)))]
        (some (exCommitId (exHeadCommit (exFlat [(t!"d", 1)])))) none [([t!"d", t!"x"], .file (oidN 2))]
        [exStatus .deleted .unmodified .unreadable t!"d", exStatus .added .unmodified .blob t!"d/x"]) := by
  refine ⟨exTreeId (exFlat [(t!"x", 2)]), ?_⟩
  decide +kernel

/-- The kind of changes of a snapshot. -/
def exKind (x : Except Unit (SnapRepo × WcSnapshot)) : Option ChangesType :=
  match x with
  | .ok (r, s) => some (s.changesType r)
  | .error () => none

/-- **C32 without `KnownChanges`.** The file `a` was replaced by a symbolic link (`.T` in the status): there
are no changes, says the snapshot, and `record` has nothing to do. -/
theorem type_change_unnoticed :
    exKind (createSnapshot (exRepo (exFlat [(t!"a", 1)]))
      [(([t!"a"], .stage0), (0o100644, .nonZero (oidN 1)))]
      (some (exCommitId (exHeadCommit (exFlat [(t!"a", 1)])))) none [([t!"a"], .link (oidN 2) [t!"b"])]
      [exStatus .unmodified (FileStatus.ofChar 'T') .link t!"a"]) = some .none := by decide +kernel

/-- The tree of the unstaged commit. -/
def exUnstaged (x : Except Unit (SnapRepo × WcSnapshot)) : Option Tree :=
  match x with
  | .ok (_, s) => some s.unstaged.tree
  | .error () => none

/-- A tree with the symbolic link `l`. -/
def exHeadLink : Tree := [(t!"l", .leaf 0o120000 (oidN 1))]

/-- **C59 for symbolic links.** The link `l` was changed to refer to `b`, whose contents are the object 3.
In the unstaged commit, the link refers to the text of `b`, and not to the text `b` (the object 2). -/
theorem link_target_stored :
    (exUnstaged (createSnapshot (exRepo exHeadLink) [(([t!"l"], .stage0), (0o120000, .nonZero (oidN 1)))]
      (some (exCommitId (exHeadCommit exHeadLink))) none
      [([t!"l"], .link (oidN 2) [t!"b"]), ([t!"b"], .file (oidN 3))]
      [exStatus .unmodified .modified .link t!"l"])).map (fileAt · [t!"l"]) =
    some (some (0o120000, oidN 3)) := by decide +kernel

/-- **C59 with renames.** The script `a` was renamed to `b`, and then another file `a` was written, which is
not executable. In the unstaged commit it is executable: the original path has the mode of the new one. -/
theorem original_path_mode :
    (exUnstaged (createSnapshot (exRepo [(t!"a", .leaf 0o100755 (oidN 1))])
      [(([t!"b"], .stage0), (0o100755, .nonZero (oidN 1)))]
      (some (exCommitId (exHeadCommit [(t!"a", .leaf 0o100755 (oidN 1))]))) none
      [([t!"b"], .file (oidN 1)), ([t!"a"], .file (oidN 3))]
      [⟨.renamed, .unmodified, .blobExecutable, t!"b", some t!"a"⟩])).map (fileAt · [t!"a"]) =
    some (some (0o100755, oidN 3)) := by decide +kernel

end Verif.Props
