import Verif.Props.Snapshot
import Verif.Lemmas.PlanLabels

/-!
C31: restoring a snapshot gives the index and `HEAD` which were there when it was created. This is true
for paths without conflicts, but not for conflicts.

C59: restoring a snapshot gives the files of the working copy.
-/

namespace Verif.Props

open Verif Verif.Spec

/-! ### one stage -/

theorem restoreCommand_path (r : SnapRepo) (stage : Stage) (t : Tree) (p : TreePath) :
    (IndexCommand.split (restoreCommand r stage t p)).1 = p := by
  unfold restoreCommand
  split <;> rfl

theorem restoreCommand_file {r : SnapRepo} {stage : Stage} {t : Tree} {p : TreePath} (hp : p ≠ [])
    (ht : Plain t) (hd : fileAt t p = none → nodeAt t p = none) :
    (IndexCommand.split (restoreCommand r stage t p)).2 =
      (fileAt t p).map fun f => (stage, f.1, f.2) := by
  unfold restoreCommand
  rw [getPath_eq t p hp]
  cases h : nodeAt t p with
  | none => simp [fileAt, h, fileOf, IndexCommand.split]
  | some x =>
    cases x with
    | dir m es =>
      have := hd (by simp [fileAt, h, fileOf])
      rw [h] at this; cases this
    | leaf m o =>
      have hm := mode_roundtrip' (ht.files p m o h)
      simp only [fileAt, h, fileOf, IndexCommand.split, Option.map_some, Node.mode, hm, SnapRepo.nodeId]

/-- The paths which are changed in a stage. -/
theorem deleted_is_gone {head : Tree} {index : GitIndex} {es : List StatusEntry} (hi : ValidIndex index)
    (hr : ReportsIndex head index es) (hnr : NoRenames es) (hn : NoNesting head index) (stage : Stage)
    (p : TreePath)
    (hne : fileAt head p ≠ fileAt (hydrateTree head (stageEntries index stage es)) p)
    (h0 : fileAt (hydrateTree head (stageEntries index stage es)) p = none) :
    nodeAt (hydrateTree head (stageEntries index stage es)) p = none := by
  have hf := fileAt_stageTree hi hr hnr hn stage p
  have hrep : p ∈ reported es := by
    by_contra hnrep
    obtain ⟨h1, h2⟩ := unreported hr hnr hnrep
    rw [hf] at hne
    by_cases hs : stage = .stage0
    · subst hs
      rw [if_pos (.inl rfl)] at hne
      apply hne
      refine entryOf_injective ?_
      rw [hi.entryOf, h2]
    · rw [if_neg (by rintro (h | h); exacts [hs h, h1 h])] at hne
      exact hne rfl
  have hcase : stage = .stage0 ∨ Conflicted index p := by
    by_contra hnc
    rw [hf, if_neg hnc] at hne
    exact hne rfl
  have hget := (stageEntries_get? hi hr stage p).2
  rw [if_pos hrep] at hget
  rw [hf, if_pos hcase] at h0
  have hv : stageValue index stage p = some none := by
    unfold stageValue
    cases e : AMap.get? index (p, stage) with
    | none => simp only [if_pos hcase]
    | some v =>
      obtain ⟨m, o⟩ := v
      cases o with
      | zero => rfl
      | nonZero o => rw [e] at h0; cases h0
  rw [hv] at hget
  refine nodeAt_hydrateTree_given (stageEntries_get? hi hr stage p).1 (reported_ne_nil hrep) hget ?_
  intro q hq
  exact hn p q (tracked_of_reported hr hrep) (tracked_of_reported hr (reported_of_key hi hr stage hq))

/-- The commands of one stage, at a path. -/
theorem restore_stage {head : Tree} {index : GitIndex} {es : List StatusEntry} (hi : ValidIndex index)
    (hr : ReportsIndex head index es) (hnr : NoRenames es) (hn : NoNesting head index) (hp : Plain head)
    (r : SnapRepo) (order : List TreePath → List TreePath) (ho : ∀ ps, (order ps).Perm ps) (stage : Stage)
    (c : TreeCommit) (hc : c.tree = hydrateTree head (stageEntries index stage es))
    (hl : c.parents.length ≤ 1) (hh : c.parents.headD [] = head) (start : GitIndex)
    (hs : Within (Tracked head index) start) :
    Within (Tracked head index)
      (((order c.pathsTouched).map (restoreCommand r stage c.tree)).foldl applyIndexCommand start) ∧
    ∀ q, entriesAt (((order c.pathsTouched).map (restoreCommand r stage c.tree)).foldl
        applyIndexCommand start) q =
      if fileAt head q ≠ fileAt c.tree q then
        localApply (entriesAt start q) ((fileAt c.tree q).map fun f => (stage, f.1, f.2))
      else entriesAt start q := by
  have hpt : Plain c.tree := by rw [hc]; exact plain_stageTree hi hr hp stage
  have htouch : ∀ p, p ∈ order c.pathsTouched ↔ fileAt head p ≠ fileAt c.tree p := by
    intro p
    rw [(ho _).mem_iff, touched_files hl (by rw [hh]; exact hp) hpt, hh]
  have htr : ∀ p ∈ order c.pathsTouched, Tracked head index p := by
    intro p hpm
    have := (htouch p).1 hpm
    by_cases h1 : fileAt head p = none
    · rw [h1, hc, fileAt_stageTree hi hr hnr hn] at this
      split at this
      · refine .inr ⟨stage, fun h2 => ?_⟩
        rw [h2] at this
        exact this rfl
      · exact absurd h1.symm this
    · exact .inl h1
  obtain ⟨h1, h2⟩ := foldl_entriesAt (T := Tracked head index) hn (restoreCommand r stage c.tree)
    (restoreCommand_path r stage c.tree) (order c.pathsTouched) htr
    ((ho _).nodup_iff.2 (nodup_pathsTouched c)) start hs
  refine ⟨h1, fun q => ?_⟩
  rw [h2]
  by_cases hq : q ∈ order c.pathsTouched
  · have hq' := (htouch q).1 hq
    rw [if_pos hq, if_pos hq']
    have hqn : q ≠ [] := by
      rintro rfl
      exact nil_pathsTouched c ((ho _).mem_iff.1 hq)
    rw [restoreCommand_file hqn hpt]
    intro h0
    rw [hc] at h0 hq' ⊢
    exact deleted_is_gone hi hr hnr hn stage q hq' h0
  · rw [if_neg hq, if_neg fun h => hq ((htouch q).2 h)]

/-! ### the four stages -/

theorem foldl_restoreCommands (r : SnapRepo) (order : List TreePath → List TreePath) (s : WcSnapshot)
    (start : GitIndex) : (restoreCommands r order s).foldl applyIndexCommand start =
      ([Stage.stage0, .stage1, .stage2, .stage3]).foldl (fun i stage =>
        ((order (r.withParents (s.stageCommit stage)).pathsTouched).map
          (restoreCommand r stage (s.stageCommit stage).tree)).foldl applyIndexCommand i) start := by
  simp only [restoreCommands, List.flatMap_cons, List.flatMap_nil, List.append_nil, List.foldl_append,
    List.foldl_cons, List.foldl_nil, WcSnapshot.stageCommit]

/-- The trees of a snapshot, for `restore_stage`. -/
theorem stage_withParents {r r' r'' : SnapRepo} {index : GitIndex} {headOid : Option Oid}
    {headRef : Option Text} {wc : WorkingCopy} {es : List StatusEntry} {s : WcSnapshot}
    (h : createSnapshot r index headOid headRef wc es = .ok (r', s)) (he : Extends r' r'')
    (hn : NoCollisionsIn r'') (stage : Stage) :
    (r''.withParents (s.stageCommit stage)).tree =
      hydrateTree ((s.head.map (·.tree)).getD []) (stageEntries index stage es) ∧
    (r''.withParents (s.stageCommit stage)).parents = (s.head.map (·.tree)).toList := by
  have hc := created h
  refine ⟨hc.stageTree stage, ?_⟩
  unfold SnapRepo.withParents
  simp only
  rw [hc.stageParents]
  cases hh : s.head with
  | none => rfl
  | some c =>
    have := find_extended he hn (hc.grown.commits c (hc.headMem c hh))
    rw [hc.grown.commitId] at this
    simp [this, Except.toOption]

/-- The commit `HEAD` of a snapshot. -/
theorem snapshot_head {r r' r'' : SnapRepo} {index : GitIndex} {headOid : Option Oid}
    {headRef : Option Text} {wc : WorkingCopy} {es : List StatusEntry} {s : WcSnapshot}
    (h : createSnapshot r index headOid headRef wc es = .ok (r', s)) (he : Extends r' r'')
    (hn : NoCollisionsIn r'') {c : SnapCommit} (hc : c ∈ r.commits) (hid : headOid = some (r.commitId c)) :
    s.head = some c := by
  have hcr := created h
  have h1 := hcr.head
  cases hh : s.head with
  | none => rw [hh, hid] at h1; cases h1
  | some d =>
    rw [hh, hid, Option.map_some, Option.some.injEq] at h1
    have hids : r''.commitId = r.commitId := he.commitId.trans hcr.grown.commitId
    rw [hn d (he.commits _ (hcr.grown.commits _ (hcr.headMem d hh))) c
      (he.commits _ (hcr.grown.commits _ hc)) (by rw [hids, h1])]

/-- One stage at one path: `f` is the file in `HEAD`, `g` gives those of the stages. -/
def stepAt (f : Option File) (g : Stage → Option File) (a : Stage → Option (Nat × MaybeZero)) (k : Stage) :
    Stage → Option (Nat × MaybeZero) :=
  if f ≠ g k then localApply a ((g k).map fun x => (k, x.1, x.2)) else a

theorem stepAt_self (f : Option File) (g : Stage → Option File) (a : Stage → Option (Nat × MaybeZero))
    (k : Stage) : stepAt f g a k k = if f = g k then a k else entryOf (g k) := by
  unfold stepAt
  by_cases h : f = g k
  · rw [if_pos h, if_neg (fun h' => h' h)]
  · rw [if_neg h, if_pos h]
    cases e : g k with
    | none => rfl
    | some x => simp [localApply, entryOf]

theorem stepAt_other (f : Option File) (g : Stage → Option File) (a : Stage → Option (Nat × MaybeZero))
    {k t : Stage} (hk : k ≠ .stage0) (ht : t ≠ k) :
    stepAt f g a k t = if f ≠ none ∧ g k = none then none else a t := by
  unfold stepAt
  cases e : g k with
  | none =>
    by_cases h : f = none
    · rw [if_neg (fun h' => h' h), if_neg (fun h' => h'.1 h)]
    · rw [if_pos h, if_pos ⟨h, rfl⟩]; rfl
  | some x =>
    by_cases h : f = some x
    · simp [h]
    · simp [h, localApply, hk, ht]

/-- The four stages at one path. -/
def restoreAt (start : Stage → Option (Nat × MaybeZero)) (f : Option File) (g : Stage → Option File) :
    Stage → Option (Nat × MaybeZero) :=
  [Stage.stage0, .stage1, .stage2, .stage3].foldl (stepAt f g) start

theorem entriesAt_restore {head : Tree} {r r' r'' : SnapRepo} {index : GitIndex} {headOid : Option Oid}
    {headRef : Option Text} {wc : WorkingCopy} {es : List StatusEntry} {s : WcSnapshot}
    (h : createSnapshot r index headOid headRef wc es = .ok (r', s)) (he : Extends r' r'')
    (hn : NoCollisionsIn r'') (hh : (s.head.map (·.tree)).getD [] = head)
    (hi : ValidIndex index) (hr : ReportsIndex head index es) (hnr : NoRenames es)
    (hnn : NoNesting head index) (hp : Plain head) (order : List TreePath → List TreePath)
    (ho : ∀ ps, (order ps).Perm ps) (start : GitIndex) (hs : Within (Tracked head index) start)
    (p : TreePath) :
    entriesAt ((restoreCommands r'' order s).foldl applyIndexCommand start) p =
      restoreAt (entriesAt start p) (fileAt head p) fun stage => fileAt (s.stageCommit stage).tree p := by
  have hst := fun stage => stage_withParents h he hn stage
  rw [hh] at hst
  have step : ∀ (stage : Stage) (start : GitIndex), Within (Tracked head index) start → _ :=
    fun stage start hs => restore_stage hi hr hnr hnn hp r'' order ho stage
      (r''.withParents (s.stageCommit stage)) (hst stage).1
      (by rw [(hst stage).2]; cases s.head <;> simp)
      (by rw [(hst stage).2, ← hh]; cases s.head <;> rfl) start hs
  rw [foldl_restoreCommands]
  simp only [List.foldl_cons, List.foldl_nil, restoreAt, stepAt]
  obtain ⟨w0, e0⟩ := step .stage0 _ hs
  obtain ⟨w1, e1⟩ := step .stage1 _ w0
  obtain ⟨w2, e2⟩ := step .stage2 _ w1
  obtain ⟨w3, e3⟩ := step .stage3 _ w2
  have htree : ∀ stage, (r''.withParents (s.stageCommit stage)).tree = (s.stageCommit stage).tree :=
    fun _ => rfl
  simp only [htree] at e0 e1 e2 e3
  rw [e3 p, e2 p, e1 p, e0 p]

theorem stage_file {head : Tree} {r r' : SnapRepo} {index : GitIndex} {headOid : Option Oid}
    {headRef : Option Text} {wc : WorkingCopy} {es : List StatusEntry} {s : WcSnapshot}
    (h : createSnapshot r index headOid headRef wc es = .ok (r', s))
    (hh : (s.head.map (·.tree)).getD [] = head)
    (hi : ValidIndex index) (hr : ReportsIndex head index es) (hnr : NoRenames es)
    (hnn : NoNesting head index) (p : TreePath) (stage : Stage) :
    (stage = .stage0 ∨ Conflicted index p →
      fileAt (s.stageCommit stage).tree p = fileOfEntry (AMap.get? index (p, stage))) ∧
    (¬ (stage = .stage0 ∨ Conflicted index p) → fileAt (s.stageCommit stage).tree p = fileAt head p) := by
  have h1 := (created h).stageTree stage
  unfold stageTree at h1
  rw [hh] at h1
  rw [h1, fileAt_stageTree hi hr hnr hnn]
  exact ⟨fun h => if_pos h, fun h => if_neg h⟩

theorem entriesAt_head (t : Tree) (p : TreePath) : entriesAt (indexOfTree t) p =
    fun s => if s = .stage0 then entryOf (fileAt t p) else none :=
  funext fun s => entriesAt_indexOfTree t p s

/-- Without a conflict. -/
theorem restoreAt_plain {start : Stage → Option (Nat × MaybeZero)} {f : Option File}
    {g : Stage → Option File} (hs : ∀ t, t ≠ Stage.stage0 → start t = none) (hg : ∀ t, t ≠ Stage.stage0 → g t = f)
    (hs0 : start .stage0 = entryOf f ∨ g .stage0 ≠ f) (t : Stage) :
    restoreAt start f g t = if t = .stage0 then entryOf (g .stage0) else none := by
  simp only [restoreAt, stepAt, List.foldl_cons, List.foldl_nil, hg .stage1 (by decide), hg .stage2 (by decide),
    hg .stage3 (by decide), ne_eq, not_true_eq_false, if_false]
  by_cases hfg : f = g .stage0
  · rw [if_neg (fun h => h hfg)]
    rcases hs0 with h0 | h0
    · by_cases ht : t = .stage0
      · rw [if_pos ht, ht, h0, hfg]
      · rw [if_neg ht, hs t ht]
    · exact absurd hfg.symm h0
  · rw [if_pos hfg]
    cases hg0 : g .stage0 with
    | none =>
      simp only [Option.map_none, localApply, entryOf]
      split <;> rfl
    | some x =>
      simp only [Option.map_some, localApply, entryOf]
      by_cases ht : t = .stage0
      · rw [if_pos ht, if_pos ht]
      · rw [if_neg ht, if_neg ht, hs t ht]
        split <;> rfl

/-- With a conflict: nothing of stage 0 is left; then the stages are written, and if one is missing though
there is a file in `HEAD`, all are removed. -/
theorem restoreAt_conflict {f : Option File} {g : Stage → Option File} (hg : g .stage0 = none) (t : Stage) :
    (t ≠ .stage0 ∧ g t ≠ f ∧ (f = none ∨ ∀ t', Later t t' → g t' ≠ none) →
      restoreAt (fun s => if s = .stage0 then entryOf f else none) f g t = entryOf (g t)) ∧
    (¬ (t ≠ .stage0 ∧ g t ≠ f ∧ (f = none ∨ ∀ t', Later t t' → g t' ≠ none)) →
      restoreAt (fun s => if s = .stage0 then entryOf f else none) f g t = none) := by
  have l1 : (∀ t, Later .stage1 t → g t ≠ none) ↔ g .stage2 ≠ none ∧ g .stage3 ≠ none :=
    ⟨fun h => ⟨h _ .s12, h _ .s13⟩, fun h t ht => by cases ht; exacts [h.1, h.2]⟩
  have l2 : (∀ t, Later .stage2 t → g t ≠ none) ↔ g .stage3 ≠ none :=
    ⟨fun h => h _ .s23, fun h t ht => by cases ht; exact h⟩
  have l3 : (∀ t, Later .stage3 t → g t ≠ none) ↔ True :=
    ⟨fun _ => trivial, fun _ t ht => by cases ht⟩
  have hzero : ∀ t, stepAt f g (fun s => if s = .stage0 then entryOf f else none) .stage0 t = none := by
    intro t
    unfold stepAt
    rw [hg]
    by_cases hf0 : f = none
    · rw [if_neg (fun h => h hf0), hf0]
      split <;> rfl
    · rw [if_pos hf0]; rfl
  simp only [restoreAt, List.foldl_cons, List.foldl_nil]
  cases t with
  | stage0 =>
    refine ⟨fun h => absurd rfl h.1, fun _ => ?_⟩
    rw [stepAt_other _ _ _ (by decide) (by decide), stepAt_other _ _ _ (by decide) (by decide),
      stepAt_other _ _ _ (by decide) (by decide), hzero]
    simp
  | stage1 =>
    rw [l1, stepAt_other _ _ _ (by decide) (by decide), stepAt_other _ _ _ (by decide) (by decide),
      stepAt_self, hzero]
    constructor
    · rintro ⟨-, h1, h2⟩
      rw [if_neg, if_neg, if_neg (Ne.symm h1)]
      · rintro ⟨h3, h4⟩
        rcases h2 with h2 | h2
        exacts [h3 h2, h2.1 h4]
      · rintro ⟨h3, h4⟩
        rcases h2 with h2 | h2
        exacts [h3 h2, h2.2 h4]
    · intro h
      by_cases k1 : g .stage1 = f
      · rw [if_pos k1.symm]; simp
      · have h2 : ¬ (f = none ∨ g .stage2 ≠ none ∧ g .stage3 ≠ none) := fun h' => h ⟨by decide, k1, h'⟩
        rw [not_or, Classical.not_and_iff_not_or_not, Classical.not_not, Classical.not_not] at h2
        rcases h2.2 with h3 | h3
        · rw [if_pos (c := f ≠ none ∧ g .stage2 = none) ⟨h2.1, h3⟩]; simp
        · rw [if_pos ⟨h2.1, h3⟩]
  | stage2 =>
    rw [l2, stepAt_other _ _ _ (by decide) (by decide), stepAt_self,
      stepAt_other _ _ _ (by decide) (by decide), hzero]
    constructor
    · rintro ⟨-, h1, h2⟩
      rw [if_neg, if_neg (Ne.symm h1)]
      rintro ⟨h3, h4⟩
      rcases h2 with h2 | h2
      exacts [h3 h2, h2 h4]
    · intro h
      by_cases k1 : g .stage2 = f
      · rw [if_pos k1.symm]; simp
      · have h2 : ¬ (f = none ∨ g .stage3 ≠ none) := fun h' => h ⟨by decide, k1, h'⟩
        rw [not_or, Classical.not_not] at h2
        rw [if_pos ⟨h2.1, h2.2⟩]
  | stage3 =>
    rw [l3, stepAt_self, stepAt_other _ _ _ (by decide) (by decide),
      stepAt_other _ _ _ (by decide) (by decide), hzero]
    constructor
    · rintro ⟨-, h1, -⟩
      rw [if_neg (Ne.symm h1)]
    · intro h
      have k1 : g .stage3 = f := by
        by_contra k1
        exact h ⟨by decide, k1, .inr trivial⟩
      rw [if_pos k1.symm]; simp

/-- **C31.** After restoring a snapshot, a path without conflict has the entries in the index which it had
when the snapshot was created. Of a path in conflict, an entry is there exactly if it `Survives`: it must
differ from `HEAD`, and no later stage may be missing (unless the path is not in `HEAD`).

This is about a `HEAD` with a commit; renames and the change of a file to a directory are excluded. -/
theorem restored_index_partial {r r' r'' : SnapRepo} {index : GitIndex} {headOid : Option Oid}
    {headRef : Option Text} {wc : WorkingCopy} {es : List StatusEntry} {s : WcSnapshot}
    (h : createSnapshot r index headOid headRef wc es = .ok (r', s)) (he : Extends r' r'')
    (hn : NoCollisionsIn r'') {c : SnapCommit} (hc : c ∈ r.commits) (hid : headOid = some (r.commitId c))
    (hi : ValidIndex index) (hr : ReportsIndex c.tree index es) (hnr : NoRenames es)
    (hnn : NoNesting c.tree index) (hp : Plain c.tree) (order : List TreePath → List TreePath)
    (ho : ∀ ps, (order ps).Perm ps) (p : TreePath) :
    (¬ Conflicted index p → ∀ stage,
      AMap.get? (restoreIndex r'' order s) (p, stage) = AMap.get? index (p, stage)) ∧
    (Conflicted index p → ∀ stage,
      (Survives c.tree index p stage →
        AMap.get? (restoreIndex r'' order s) (p, stage) = AMap.get? index (p, stage)) ∧
      (¬ Survives c.tree index p stage → AMap.get? (restoreIndex r'' order s) (p, stage) = none)) := by
  have hhead := snapshot_head h he hn hc hid
  have hh : (s.head.map (·.tree)).getD [] = c.tree := by rw [hhead]; rfl
  have hstart : Within (Tracked c.tree index) (indexOfTree c.tree) := by
    intro q t hq
    have := entriesAt_indexOfTree c.tree q t
    unfold entriesAt at this
    rw [this] at hq
    split at hq
    · refine .inl fun h0 => hq (by rw [h0]; rfl)
    · exact absurd rfl hq
  have hres : restoreIndex r'' order s =
      (restoreCommands r'' order s).foldl applyIndexCommand (indexOfTree c.tree) := by
    unfold restoreIndex
    rw [hhead]
  have hfin : ∀ t, AMap.get? (restoreIndex r'' order s) (p, t) = restoreAt
      (fun s => if s = .stage0 then entryOf (fileAt c.tree p) else none) (fileAt c.tree p)
      (fun stage => fileAt (s.stageCommit stage).tree p) t := by
    intro t
    have := entriesAt_restore h he hn hh hi hr hnr hnn hp order ho _ hstart p
    rw [← hres, entriesAt_head] at this
    exact congrFun this t
  have hf := stage_file h hh hi hr hnr hnn p
  constructor
  · intro hnc stage
    have hno : ∀ t, t ≠ Stage.stage0 → AMap.get? index (p, t) = none := by
      intro t ht
      by_contra hne
      exact hnc ⟨t, ht, hne⟩
    rw [hfin, restoreAt_plain (start := fun s => if s = .stage0 then entryOf (fileAt c.tree p) else none)
      (fun t ht => if_neg ht) (fun t ht => (hf t).2 (by rintro (h | h); exacts [ht h, hnc h]))
      (.inl (if_pos rfl)), (hf .stage0).1 (.inl rfl), hi.entryOf]
    by_cases hs : stage = .stage0
    · rw [if_pos hs, hs]
    · rw [if_neg hs, hno stage hs]
  · intro hcf stage
    have h00 := hi.conflicts p hcf
    have hg : ∀ t, fileAt (s.stageCommit t).tree p = fileOfEntry (AMap.get? index (p, t)) :=
      fun t => (hf t).1 (.inr hcf)
    have hg0 : fileAt (s.stageCommit .stage0).tree p = none := by rw [hg, h00]; rfl
    have hsurv : Survives c.tree index p stage ↔
        fileAt (s.stageCommit stage).tree p ≠ fileAt c.tree p ∧
        (fileAt c.tree p = none ∨ ∀ t, Later stage t → fileAt (s.stageCommit t).tree p ≠ none) := by
      have hnone : ∀ t, AMap.get? index (p, t) ≠ none ↔ fileAt (s.stageCommit t).tree p ≠ none := by
        intro t
        rw [hg]
        conv_lhs => rw [← hi.entryOf (p, t)]
        cases fileOfEntry (AMap.get? index (p, t)) <;> simp [entryOf]
      unfold Survives
      simp only [hnone]
      have : AMap.get? index (p, stage) ≠ entryOf (fileAt c.tree p) ↔
          fileAt (s.stageCommit stage).tree p ≠ fileAt c.tree p := by
        rw [hg]
        conv_lhs => rw [← hi.entryOf (p, stage)]
        exact ⟨fun h e => h (by rw [e]), fun h e => h (entryOf_injective e)⟩
      rw [this]
    obtain ⟨k1, k2⟩ := restoreAt_conflict (f := fileAt c.tree p)
      (g := fun stage => fileAt (s.stageCommit stage).tree p) hg0 stage
    rw [hfin, hsurv]
    by_cases hs : stage = .stage0
    · have := k2 fun h => h.1 hs
      rw [this, hs, h00]
      exact ⟨fun _ => rfl, fun _ => rfl⟩
    · constructor
      · intro h1
        rw [k1 ⟨hs, h1⟩, hg, hi.entryOf]
      · intro h1
        exact k2 fun h => h1 h.2

/-- **C31.** The whole index is restored exactly if all entries of conflicts survive; in particular, it is
restored if there are no conflicts. -/
theorem index_restored_iff_partial {r r' r'' : SnapRepo} {index : GitIndex} {headOid : Option Oid}
    {headRef : Option Text} {wc : WorkingCopy} {es : List StatusEntry} {s : WcSnapshot}
    (h : createSnapshot r index headOid headRef wc es = .ok (r', s)) (he : Extends r' r'')
    (hn : NoCollisionsIn r'') {c : SnapCommit} (hc : c ∈ r.commits) (hid : headOid = some (r.commitId c))
    (hi : ValidIndex index) (hr : ReportsIndex c.tree index es) (hnr : NoRenames es)
    (hnn : NoNesting c.tree index) (hp : Plain c.tree) (order : List TreePath → List TreePath)
    (ho : ∀ ps, (order ps).Perm ps) :
    (∀ k, AMap.get? (restoreIndex r'' order s) k = AMap.get? index k) ↔
      ∀ p stage, stage ≠ .stage0 → AMap.get? index (p, stage) ≠ none → Survives c.tree index p stage := by
  have key := restored_index_partial h he hn hc hid hi hr hnr hnn hp order ho
  constructor
  · intro hall p stage hs hne
    by_contra hsv
    have := ((key p).2 ⟨stage, hs, hne⟩ stage).2 hsv
    rw [hall] at this
    exact hne this
  · rintro hall ⟨p, stage⟩
    by_cases hcf : Conflicted index p
    · by_cases hsv : Survives c.tree index p stage
      · exact ((key p).2 hcf stage).1 hsv
      · rw [((key p).2 hcf stage).2 hsv]
        by_contra hne
        by_cases hs : stage = .stage0
        · subst hs
          exact hne (hi.conflicts p hcf).symm
        · exact hsv (hall p stage hs (Ne.symm hne))
    · exact (key p).1 hcf stage

/-- **C31, as far as it fails.** In a conflict, the entry of "our" side (stage 2), which is the file in
`HEAD`, is always lost. -/
theorem our_side_lost {r r' r'' : SnapRepo} {index : GitIndex} {headOid : Option Oid}
    {headRef : Option Text} {wc : WorkingCopy} {es : List StatusEntry} {s : WcSnapshot}
    (h : createSnapshot r index headOid headRef wc es = .ok (r', s)) (he : Extends r' r'')
    (hn : NoCollisionsIn r'') {c : SnapCommit} (hc : c ∈ r.commits) (hid : headOid = some (r.commitId c))
    (hi : ValidIndex index) (hr : ReportsIndex c.tree index es) (hnr : NoRenames es)
    (hnn : NoNesting c.tree index) (hp : Plain c.tree) (order : List TreePath → List TreePath)
    (ho : ∀ ps, (order ps).Perm ps) (p : TreePath) (hcf : Conflicted index p)
    (hours : AMap.get? index (p, .stage2) = entryOf (fileAt c.tree p)) :
    AMap.get? (restoreIndex r'' order s) (p, .stage2) = none :=
  (((restored_index_partial h he hn hc hid hi hr hnr hnn hp order ho p).2 hcf .stage2).2)
    fun hs => hs.1 hours

/-- **C31, as far as it fails.** If "they" have deleted a file which "we" have changed, then the conflict is
lost altogether: there is no entry for the path in any stage. -/
theorem deleted_by_them_lost {r r' r'' : SnapRepo} {index : GitIndex} {headOid : Option Oid}
    {headRef : Option Text} {wc : WorkingCopy} {es : List StatusEntry} {s : WcSnapshot}
    (h : createSnapshot r index headOid headRef wc es = .ok (r', s)) (he : Extends r' r'')
    (hn : NoCollisionsIn r'') {c : SnapCommit} (hc : c ∈ r.commits) (hid : headOid = some (r.commitId c))
    (hi : ValidIndex index) (hr : ReportsIndex c.tree index es) (hnr : NoRenames es)
    (hnn : NoNesting c.tree index) (hp : Plain c.tree) (order : List TreePath → List TreePath)
    (ho : ∀ ps, (order ps).Perm ps) (p : TreePath) (hcf : Conflicted index p)
    (hhead : fileAt c.tree p ≠ none) (hthem : AMap.get? index (p, .stage3) = none) (stage : Stage) :
    AMap.get? (restoreIndex r'' order s) (p, stage) = none := by
  have key := (restored_index_partial h he hn hc hid hi hr hnr hnn hp order ho p).2 hcf stage
  by_cases hs : Survives c.tree index p stage
  · rw [key.1 hs]
    cases stage with
    | stage0 => exact hi.conflicts p hcf
    | stage1 => exact absurd hthem ((hs.2.resolve_left hhead) _ .s13)
    | stage2 => exact absurd hthem ((hs.2.resolve_left hhead) _ .s23)
    | stage3 => exact hthem
  · exact key.2 hs

/-! ### the unstaged changes -/

/-- What is written for a path. -/
def unstagedValue (wc : WorkingCopy) (e : TreePath × FileMode) : Except Unit (Option Node) :=
  if e.2 = .unreadable then .ok none
  else
    match createBlobFromPath wc e.1 with
    | .error () => .error ()
    | .ok blob => .ok (blob.map fun o => .leaf e.2.toI32.toNat o)

theorem addUnstaged_eq (wc : WorkingCopy) (m : AMap TreePath (Option Node)) (e : TreePath × FileMode) :
    addUnstaged wc m e = (unstagedValue wc e).map (AMap.insert m e.1) := by
  unfold addUnstaged unstagedValue
  split
  · rfl
  · cases createBlobFromPath wc e.1 <;> rfl

theorem unstaged_entries {wc : WorkingCopy} {ps : List (TreePath × FileMode)}
    {m : AMap TreePath (Option Node)} (h : ps.foldlM (addUnstaged wc) [] = .ok m) :
    AMap.WF m ∧ (∀ q v, AMap.get? m q = some v → ∃ e ∈ ps, e.1 = q ∧ unstagedValue wc e = .ok v) ∧
    ∀ e ∈ ps, AMap.get? m e.1 ≠ none := by
  refine foldlM_except_inv (P := fun pre (m : AMap TreePath (Option Node)) => AMap.WF m ∧
      (∀ q v, AMap.get? m q = some v → ∃ e ∈ pre, e.1 = q ∧ unstagedValue wc e = .ok v) ∧
      ∀ e ∈ pre, AMap.get? m e.1 ≠ none) ⟨AMap.wf_nil, by simp, by simp⟩ ?_ h
  rintro pre e post m m' - ⟨h1, h2, h3⟩ hm
  rw [addUnstaged_eq] at hm
  cases hv : unstagedValue wc e with
  | error x => rw [hv] at hm; cases hm
  | ok v =>
    rw [hv] at hm
    cases hm
    refine ⟨AMap.wf_insert h1 _ _, ?_, ?_⟩
    · intro q w hw
      rw [AMap.get?_insert] at hw
      split at hw
      · rename_i heq
        cases hw
        exact ⟨e, by simp, heq, hv⟩
      · obtain ⟨e', he', h4, h5⟩ := h2 q w hw
        exact ⟨e', by simp [he'], h4, h5⟩
    · intro e' he'
      rw [AMap.get?_insert]
      split
      · simp
      · rcases List.mem_append.1 he' with h4 | h4
        · exact h3 e' h4
        · rename_i hne
          simp only [List.mem_singleton] at h4
          exact absurd (by rw [h4]) hne

theorem unstaged_files {wc : WorkingCopy} {ps : List (TreePath × FileMode)}
    {m : AMap TreePath (Option Node)} (h : ps.foldlM (addUnstaged wc) [] = .ok m) : FileEntries m := by
  intro p x hx
  obtain ⟨e, -, -, he⟩ := (unstaged_entries h).2.1 p _ hx
  unfold unstagedValue at he
  split at he
  · cases he
  · split at he
    · cases he
    · rename_i blob _
      cases blob with
      | none => cases he
      | some o => cases he; exact ⟨_, _, rfl⟩

theorem solid_unstaged {head : Option Tree} {wc : WorkingCopy} {es : List StatusEntry} {t : Tree}
    (h : unstagedTree head wc es = .ok t) (hs : Solid (head.getD [])) : Solid t := by
  unfold unstagedTree at h
  split at h
  · cases h
  rename_i m hm
  cases h
  exact solid_hydrateTree (unstaged_entries hm).1 hs (unstaged_files hm)

theorem mem_unstagedPaths {es : List StatusEntry} (hnr : NoRenames es) {x : TreePath × FileMode} :
    x ∈ unstagedPaths es ↔ ∃ e ∈ es, (e.workingCopyStatus.isChanged = true ∨ e.indexStatus.isChanged = true) ∧
      x = (components e.path, e.workingCopyMode) := by
  unfold unstagedPaths
  rw [List.mem_flatMap]
  constructor
  · rintro ⟨e, he, hx⟩
    rw [List.mem_filter, Bool.or_eq_true] at he
    rw [StatusEntry.paths, hnr e he.1] at hx
    simp only [Option.toList_none, List.map_cons, List.map_nil, List.mem_singleton] at hx
    exact ⟨e, he.1, he.2, hx⟩
  · rintro ⟨e, he, hc, rfl⟩
    refine ⟨e, List.mem_filter.2 ⟨he, by rw [Bool.or_eq_true]; exact hc⟩, ?_⟩
    rw [StatusEntry.paths]
    simp

/-- What is at a path in the tree with the unstaged changes. -/
theorem fileAt_unstaged {head : Option Tree} {index : GitIndex} {wc : WorkingCopy} {es : List StatusEntry}
    {t : Tree} (h : unstagedTree head wc es = .ok t) (hnr : NoRenames es)
    (htr : ∀ e ∈ es, Tracked (head.getD []) index (components e.path))
    (hnn : NoNesting (head.getD []) index) (q : TreePath) :
    (q ∉ (unstagedPaths es).map (·.1) → fileAt t q = fileAt (head.getD []) q) ∧
    (q ∈ (unstagedPaths es).map (·.1) → ∃ e ∈ unstagedPaths es, ∃ v, e.1 = q ∧
      unstagedValue wc e = .ok v ∧ fileAt t q = fileOf v) := by
  unfold unstagedTree at h
  split at h
  · cases h
  rename_i m hm
  cases h
  obtain ⟨h1, h2, h3⟩ := unstaged_entries hm
  have hkey : ∀ p ∈ AMap.keys m, ∃ e ∈ es, p = components e.path := by
    intro p hp
    rw [AMap.mem_keys_iff] at hp
    obtain ⟨v, hv⟩ := Option.isSome_iff_exists.1 hp
    obtain ⟨x, hx, hx1, -⟩ := h2 p v hv
    obtain ⟨e, he, -, rfl⟩ := (mem_unstagedPaths hnr).1 hx
    exact ⟨e, he, hx1.symm⟩
  have hfe := unstaged_files hm
  have hfile := fileAt_hydrateTree h1
    (fun h0 => by obtain ⟨e, -, he⟩ := hkey _ h0; exact components_ne_nil _ he.symm)
    (apart_of_tracked hnn fun p hp => by obtain ⟨e, he, rfl⟩ := hkey p hp; exact htr e he) hfe q
  rw [hfile]
  constructor
  · intro hq
    have : AMap.get? m q = none := by
      by_contra hne
      obtain ⟨v, hv⟩ := Option.ne_none_iff_exists'.1 hne
      obtain ⟨x, hx, hx1, -⟩ := h2 q v hv
      exact hq (List.mem_map.2 ⟨x, hx, hx1⟩)
    rw [this]
  · intro hq
    obtain ⟨x, hx, rfl⟩ := List.mem_map.1 hq
    obtain ⟨v, hv⟩ := Option.ne_none_iff_exists'.1 (h3 x hx)
    obtain ⟨e, he, he1, he2⟩ := h2 _ v hv
    exact ⟨e, he, v, he1, he2, by rw [hv]⟩

/-- **C31.** The same if there is no commit yet (`HEAD` is a branch without commits): without conflicts, the
index is restored. -/
theorem restored_index_unborn {r r' r'' : SnapRepo} {index : GitIndex} {headRef : Option Text}
    {wc : WorkingCopy} {es : List StatusEntry} {s : WcSnapshot}
    (h : createSnapshot r index none headRef wc es = .ok (r', s)) (he : Extends r' r'')
    (hn : NoCollisionsIn r'') (hi : ValidIndex index) (hr : ReportsIndex [] index es) (hnr : NoRenames es)
    (hnn : NoNesting [] index) (hnc : ∀ p, ¬ Conflicted index p) (order : List TreePath → List TreePath)
    (ho : ∀ ps, (order ps).Perm ps) (k : TreePath × Stage) :
    AMap.get? (restoreIndex r'' order s) k = AMap.get? index k := by
  obtain ⟨p, stage⟩ := k
  have hcr := created h
  have hhead : s.head = none := by
    have := hcr.head
    cases e : s.head with
    | none => rfl
    | some c => rw [e] at this; cases this
  have hh : (s.head.map (·.tree)).getD [] = [] := by rw [hhead]; rfl
  have hno : ∀ p t, t ≠ Stage.stage0 → AMap.get? index (p, t) = none := by
    intro p t ht
    by_contra hne
    exact hnc p ⟨t, ht, hne⟩
  have hut := hcr.unstagedTree
  have hnil : ∀ q, fileAt ([] : Tree) q = none := by
    intro q
    cases q with
    | nil => rfl
    | cons n q => unfold fileAt; rw [nodeAt_nil _ (by simp)]; rfl
  have hun : ∀ q, fileAt s.unstaged.tree q ≠ none → Tracked [] index q := by
    intro q hq
    rw [hhead] at hut
    have := fileAt_unstaged (index := index) hut hnr hr.tracked hnn q
    by_cases hm : q ∈ (unstagedPaths es).map (·.1)
    · obtain ⟨x, hx, rfl⟩ := List.mem_map.1 hm
      obtain ⟨e, he', -, rfl⟩ := (mem_unstagedPaths hnr).1 hx
      exact hr.tracked e he'
    · rw [this.1 hm] at hq
      exact absurd (hnil q) hq
  have hstart : Within (Tracked [] index) (indexOfTree s.unstaged.tree) := by
    intro q t hq
    have := entriesAt_indexOfTree s.unstaged.tree q t
    unfold entriesAt at this
    rw [this] at hq
    split at hq
    · exact hun q fun h0 => hq (by rw [h0]; rfl)
    · exact absurd rfl hq
  have hres : restoreIndex r'' order s =
      (restoreCommands r'' order s).foldl applyIndexCommand (indexOfTree s.unstaged.tree) := by
    unfold restoreIndex
    rw [hhead]
  have hplain : Plain ([] : Tree) := plain_nil
  have hent := entriesAt_restore h he hn hh hi hr hnr hnn hplain order ho _ hstart p
  rw [← hres, entriesAt_head, hnil p] at hent
  have hf := stage_file h hh hi hr hnr hnn p
  have hg : ∀ t, t ≠ Stage.stage0 → fileAt (s.stageCommit t).tree p = none := fun t ht => by
    rw [(hf t).2 (by rintro (h | h); exacts [ht h, hnc p h]), hnil]
  have hfin : AMap.get? (restoreIndex r'' order s) (p, stage) = _ := congrFun hent stage
  rw [hfin, restoreAt_plain
    (start := fun t => if t = .stage0 then entryOf (fileAt s.unstaged.tree p) else none)
    (fun t ht => if_neg ht) hg, (hf .stage0).1 (.inl rfl), hi.entryOf]
  · by_cases hs : stage = .stage0
    · rw [if_pos hs, hs]
    · rw [if_neg hs, hno p stage hs]
  · by_cases hu : fileAt s.unstaged.tree p = none
    · left; rw [if_pos rfl, hu]
    · right
      rw [(hf .stage0).1 (.inl rfl)]
      rcases hun p hu with h1 | ⟨t, ht⟩
      · exact absurd (hnil p) h1
      · have : t = .stage0 := by
          by_contra hne
          exact ht (hno p t hne)
        subst this
        intro h0
        apply ht
        rw [← hi.entryOf (p, .stage0), h0]; rfl

/-! ### `HEAD` -/

/-- **C31.** After restoring a snapshot, `HEAD` is where it was: on the branch, which points to the commit,
or on the commit itself; the other references are unchanged. (If the branch had no commit, it has none
again.) -/
theorem head_restored {r r' r'' : SnapRepo} {index : GitIndex} {headOid : Option Oid}
    {headRef : Option Text} {wc : WorkingCopy} {es : List StatusEntry} {s : WcSnapshot}
    (h : createSnapshot r index headOid headRef wc es = .ok (r', s)) (he : Extends r' r'') (h0 : SnapHead) :
    (∀ name, headRef = some name →
      (restoreHead r'' s h0).head = .inl name ∧ AMap.get? (restoreHead r'' s h0).refs name = headOid) ∧
    (∀ o, headRef = none → headOid = some o → (restoreHead r'' s h0).head = .inr o) ∧
    (∀ name, headRef ≠ some name → AMap.get? (restoreHead r'' s h0).refs name = AMap.get? h0.refs name) := by
  have hc := created h
  have hid : r''.commitId = r.commitId := he.commitId.trans hc.grown.commitId
  have h1 := hc.head
  have h2 := hc.ref
  unfold restoreHead
  rw [h2]
  cases hh : s.head with
  | none =>
    rw [hh] at h1
    cases headRef with
    | none =>
      refine ⟨by simp, ?_, by simp⟩
      intro o _ ho
      rw [ho] at h1; cases h1
    | some name =>
      refine ⟨?_, by simp, ?_⟩
      · intro name' hn
        cases hn
        refine ⟨rfl, ?_⟩
        rw [← h1]
        simp [AMap.get?_erase]
      · intro name' hn
        simp only [ne_eq, Option.some.injEq] at hn
        simp [AMap.get?_erase, hn]
  | some c =>
    rw [hh] at h1
    cases headRef with
    | none =>
      refine ⟨by simp, ?_, by simp⟩
      intro o _ ho
      rw [ho, Option.map_some, Option.some.injEq] at h1
      simp only [hid, h1]
    | some name =>
      refine ⟨?_, by simp, ?_⟩
      · intro name' hn
        cases hn
        refine ⟨rfl, ?_⟩
        rw [← h1, hid]
        simp [AMap.get?_insert]
      · intro name' hn
        simp only [ne_eq, Option.some.injEq] at hn
        simp [AMap.get?_insert, hn]

/-! ### the working copy (C59) -/

theorem unreadable_iff (m : FileMode) : m.toI32 = 0 ↔ m = .unreadable := by
  cases m <;> decide

/-- The status of all entries is one which `is_changed` knows: there are no conflicts, and no change of the
type of a file. -/
def KnownChanges (es : List StatusEntry) : Prop :=
  ∀ e ∈ es, e.workingCopyStatus.isChanged = true ∨ e.indexStatus.isChanged = true

/-- As `working_copy_stored_partial`, for one path. -/
theorem working_copy_stored_at {r r' : SnapRepo} {index : GitIndex} {headOid : Option Oid}
    {headRef : Option Text} {wc : WorkingCopy} {mode : TreePath → Nat} {es : List StatusEntry}
    {s : WcSnapshot} {head : Tree}
    (h : createSnapshot r index headOid headRef wc es = .ok (r', s))
    (hh : (s.head.map (·.tree)).getD [] = head)
    (hr : ReportsWork head index wc mode es) (hm : ∀ p, mode p ≠ 0)
    (hl : ∀ p b t, AMap.get? wc p ≠ some (.link b t)) (hnr : NoRenames es) (hnn : NoNesting head index)
    (p : TreePath) (hk : ∀ e ∈ es, components e.path = p →
      e.workingCopyStatus.isChanged = true ∨ e.indexStatus.isChanged = true) :
    (Tracked head index p → fileAt s.unstaged.tree p = workFile wc mode p) ∧
    (¬ Tracked head index p → fileAt s.unstaged.tree p = none) := by
  have hut := (created h).unstagedTree
  subst hh
  obtain ⟨h1, h2⟩ := fileAt_unstaged hut hnr hr.tracked hnn p
  by_cases hpm : p ∈ (unstagedPaths es).map (·.1)
  · obtain ⟨x, hx, v, rfl, hv, hfile⟩ := h2 hpm
    obtain ⟨e, he, -, rfl⟩ := (mem_unstagedPaths hnr).1 hx
    refine ⟨fun _ => ?_, fun hnt => absurd (hr.tracked e he) hnt⟩
    simp only
    rw [hfile]
    have hmode := hr.modes e he
    unfold unstagedValue createBlobFromPath at hv
    unfold workFile at hmode ⊢
    simp only at hv
    cases hwc : AMap.get? wc (components e.path) with
    | none =>
      rw [hwc] at hmode
      rw [if_pos ((unreadable_iff _).1 hmode)] at hv
      cases hv
      rfl
    | some f =>
      cases f with
      | link b t => exact absurd hwc (hl _ b t)
      | file b =>
        rw [hwc] at hmode
        simp only at hmode
        rw [if_neg (fun h0 => hm (components e.path) (by
          rw [(unreadable_iff _).2 h0] at hmode; exact_mod_cast hmode.symm))] at hv
        rw [readWorkFile, hwc] at hv
        simp only [Option.map_some, hmode, Int.toNat_natCast] at hv
        cases hv
        rfl
  · rw [h1 hpm]
    constructor
    · intro ht
      by_contra hne
      obtain ⟨e, he, q, hq, hqp⟩ := hr.complete p ht (Ne.symm hne)
      rw [StatusEntry.paths, hnr e he] at hq
      simp only [Option.toList_none, List.mem_cons, List.not_mem_nil, or_false] at hq
      subst hq
      exact hpm (List.mem_map.2 ⟨_, (mem_unstagedPaths hnr).2 ⟨e, he, hk e he hqp, rfl⟩, hqp⟩)
    · intro hnt
      by_contra hne
      exact hnt (.inl hne)

/-- **C59.** The commit of a snapshot with the unstaged changes (which is checked out when the snapshot is
restored) has, at each tracked path, the file of the working copy: contents and mode, or that it is deleted.
At other paths, it has no file. This excludes conflicts, changes of the type of a file, symbolic links,
renames, and the change of a file to a directory. -/
theorem working_copy_stored_partial {r r' : SnapRepo} {index : GitIndex} {headOid : Option Oid}
    {headRef : Option Text} {wc : WorkingCopy} {mode : TreePath → Nat} {es : List StatusEntry}
    {s : WcSnapshot} {head : Tree}
    (h : createSnapshot r index headOid headRef wc es = .ok (r', s))
    (hh : (s.head.map (·.tree)).getD [] = head)
    (hr : ReportsWork head index wc mode es) (hm : ∀ p, mode p ≠ 0) (hk : KnownChanges es)
    (hl : ∀ p b t, AMap.get? wc p ≠ some (.link b t)) (hnr : NoRenames es) (hnn : NoNesting head index)
    (p : TreePath) :
    (Tracked head index p → fileAt s.unstaged.tree p = workFile wc mode p) ∧
    (¬ Tracked head index p → fileAt s.unstaged.tree p = none) :=
  working_copy_stored_at h hh hr hm hl hnr hnn p fun e he _ => hk e he

/-- **C59.** In the situation of `working_copy_stored_partial`, the snapshot can be created. -/
theorem snapshot_created {r : SnapRepo} {index : GitIndex} {headOid : Option Oid} {head : Tree}
    {headRef : Option Text} {wc : WorkingCopy} {mode : TreePath → Nat} {es : List StatusEntry}
    (hhead : ∀ o ∈ headOid, ∃ c ∈ r.commits, r.commitId c = o)
    (hr : ReportsWork head index wc mode es)
    (hl : ∀ p b t, AMap.get? wc p ≠ some (.link b t)) (hnr : NoRenames es) :
    ∃ r' s, createSnapshot r index headOid headRef wc es = .ok (r', s) := by
  have h1 : ∃ hd, findHead r headOid = .ok hd := by
    cases headOid with
    | none => exact ⟨none, rfl⟩
    | some o =>
      obtain ⟨c, hc, hid⟩ := hhead o rfl
      unfold findHead SnapRepo.find
      cases hf : r.commits.find? fun c => decide (r.commitId c = o) with
      | none =>
        have := List.find?_eq_none.1 hf c hc
        simp [hid] at this
      | some d => exact ⟨some d, by simp only [hf]; rfl⟩
  obtain ⟨hd, hhd⟩ := h1
  have hval : ∀ x ∈ unstagedPaths es, ∃ v, unstagedValue wc x = .ok v := by
    intro x hx
    obtain ⟨e, he, -, rfl⟩ := (mem_unstagedPaths hnr).1 hx
    have hmode := hr.modes e he
    unfold unstagedValue createBlobFromPath
    unfold workFile at hmode
    simp only
    cases hwc : AMap.get? wc (components e.path) with
    | none =>
      rw [hwc] at hmode
      rw [if_pos ((unreadable_iff _).1 hmode)]
      exact ⟨_, rfl⟩
    | some f =>
      cases f with
      | link b t => exact absurd hwc (hl _ b t)
      | file b =>
        split
        · exact ⟨_, rfl⟩
        · rw [readWorkFile, hwc]
          exact ⟨_, rfl⟩
  have hfold : ∀ (ps : List (TreePath × FileMode)) (m : AMap TreePath (Option Node)),
      (∀ x ∈ ps, ∃ v, unstagedValue wc x = .ok v) → ∃ m', ps.foldlM (addUnstaged wc) m = .ok m' := by
    intro ps
    induction ps with
    | nil => intro m _; exact ⟨m, rfl⟩
    | cons x ps ih =>
      intro m hx
      obtain ⟨v, hv⟩ := hx x List.mem_cons_self
      obtain ⟨m', hm'⟩ := ih (AMap.insert m x.1 v) fun y hy => hx y (List.mem_cons_of_mem _ hy)
      refine ⟨m', ?_⟩
      rw [List.foldlM_cons, addUnstaged_eq, hv]
      exact hm'
  obtain ⟨m, hm⟩ := hfold _ [] hval
  have hut : unstagedTree (hd.map (·.tree)) wc es = .ok (hydrateTree ((hd.map (·.tree)).getD []) m) := by
    unfold unstagedTree
    rw [hm]
  unfold createSnapshot
  rw [hhd]
  simp only [bind, Except.bind, hut]
  exact ⟨_, _, rfl⟩

/-- **C59, as far as it fails.** A path whose entries are all of a kind which `is_changed` does not know
(conflicts such as `UU`, where both sides have changed the file, and changes of the type of a file) is stored
as it is in `HEAD`: what is in the working copy is lost. -/
theorem unknown_change_not_stored {r r' : SnapRepo} {index : GitIndex} {headOid : Option Oid}
    {headRef : Option Text} {wc : WorkingCopy} {es : List StatusEntry} {s : WcSnapshot} {head : Tree}
    (h : createSnapshot r index headOid headRef wc es = .ok (r', s))
    (hh : (s.head.map (·.tree)).getD [] = head)
    (htr : ∀ e ∈ es, Tracked head index (components e.path)) (hnr : NoRenames es)
    (hnn : NoNesting head index) (p : TreePath)
    (hp : ∀ e ∈ es, components e.path = p →
      e.workingCopyStatus.isChanged = false ∧ e.indexStatus.isChanged = false) :
    fileAt s.unstaged.tree p = fileAt head p := by
  have hut := (created h).unstagedTree
  subst hh
  refine (fileAt_unstaged hut hnr htr hnn p).1 fun hm => ?_
  obtain ⟨x, hx, rfl⟩ := List.mem_map.1 hm
  obtain ⟨e, he, hc, rfl⟩ := (mem_unstagedPaths hnr).1 hx
  have := hp e he rfl
  rw [this.1, this.2] at hc
  simp at hc

end Verif.Props
