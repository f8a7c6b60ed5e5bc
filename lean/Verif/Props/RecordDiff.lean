import Verif.Lemmas.RecordDiff
import Verif.Props.SnapshotRestore
import Mathlib.Data.Char

/-!
C78: `record --interactive` offers exactly the changes, and what is chosen is what is staged.
-/

namespace Verif.Props

open Verif Verif.Spec

/-! ### one file -/

/-- **C78**: what is offered for a file: for a deleted file, that it is deleted; for a binary file, that it
is changed; for a text file, its changes, so that choosing none of them gives the old file, choosing all gives
the new file, and choosing some gives the file with these. There is no panic. -/
theorem file_offered {env : DiffEnv} {path : TreePath} {d : Delta} (hadd : env.addFails path = false)
    (hc : GoodContent env d) : ∃ f, processDelta env path d = .ok f ∧ f.path = path ∧ FileOffer env d f := by
  have zeroCase : d.newOid = .zero →
      ∃ f, processDelta env path d = .ok f ∧ f.path = path ∧ FileOffer env d f := by
    intro h
    refine ⟨_, by unfold processDelta; rw [if_pos h], rfl, ?_⟩
    exact ⟨rfl, fun _ => rfl, fun h' => absurd h h', fun h' => absurd h h'⟩
  by_cases hz : d.newOid = .zero
  · exact zeroCase hz
  rcases hc with h | ⟨o, n, h⟩ | ⟨ps, h, hs, hold, hnew⟩
  · exact zeroCase h
  · refine ⟨_, by unfold processDelta; rw [if_neg hz, h], rfl, ?_⟩
    exact ⟨rfl, fun h' => absurd h' hz, fun _ _ _ _ => ⟨_, _, rfl⟩,
      fun _ ps hp => nomatch h.symm.trans hp⟩
  · refine ⟨_, processDelta_text hadd hz h hs hold hnew, rfl, ?_⟩
    refine ⟨rfl, fun h' => absurd h' hz, fun _ o n hb => (nomatch h.symm.trans hb), ?_⟩
    intro _ ps' h' hs' hold' hnew'
    have := (processDelta_text hadd hz h hs hold hnew).symm.trans
      (processDelta_text hadd hz h' hs' hold' hnew')
    simp only [Except.ok.injEq] at this
    rw [this]
    exact ⟨_, rfl, textOffer_sections ps'⟩

/-! ### all files -/

/-- The map after the callbacks for a file. -/
theorem collectDelta_get? {m : AMap TreePath Delta} {d : FileDelta} (hw : AMap.WF m)
    (hd : d.oldPath = d.newPath) : ∃ m', collectDelta m d = .ok m' ∧ AMap.WF m' ∧
      ∀ q, AMap.get? m' q = if q = d.newPath then some d.delta else AMap.get? m q := by
  have hput : ∀ (m : AMap TreePath Delta) c, AMap.WF m → AMap.WF (putDelta m d c) ∧
      ∀ q, AMap.get? (putDelta m d c) q =
        if q = d.newPath then some { d.delta with content := c } else AMap.get? m q := by
    intro m c hm
    unfold putDelta
    refine ⟨AMap.wf_insert (AMap.wf_insert hm _ _) _ _, fun q => ?_⟩
    rw [hd, AMap.get?_insert, AMap.get?_insert]
    by_cases hq : q = d.newPath
    · rw [if_pos hq.symm, if_pos hq]
    · rw [if_neg (Ne.symm hq), if_neg (Ne.symm hq), if_neg hq]
  unfold collectDelta
  cases hc : d.delta.content with
  | binary o n =>
    obtain ⟨h1, h2⟩ := hput _ (.binary o n) (hput m (.hunks []) hw).1
    refine ⟨_, rfl, h1, fun q => ?_⟩
    rw [h2, (hput m (.hunks []) hw).2]
    by_cases hq : q = d.newPath
    · rw [if_pos hq, if_pos hq, ← hc]
    · simp only [if_neg hq]
  | hunks hs =>
    have hpush : ∀ (hs hs0 : List Hunk) (m : AMap TreePath Delta), AMap.WF m →
        AMap.get? m d.newPath = some { d.delta with content := .hunks hs0 } →
        ∃ m', hs.foldlM (pushHunk d.newPath) m = .ok m' ∧ AMap.WF m' ∧
          ∀ q, AMap.get? m' q =
            if q = d.newPath then some { d.delta with content := .hunks (hs0 ++ hs) } else AMap.get? m q := by
      intro hs
      induction hs with
      | nil =>
        intro hs0 m hm hg
        refine ⟨m, rfl, hm, fun q => ?_⟩
        by_cases hq : q = d.newPath
        · rw [if_pos hq, hq, hg, List.append_nil]
        · rw [if_neg hq]
      | cons h hs ih =>
        intro hs0 m hm hg
        obtain ⟨m', h1, h2, h3⟩ := ih (hs0 ++ [h]) (AMap.insert m d.newPath
          { d.delta with content := .hunks (hs0 ++ [h]) }) (AMap.wf_insert hm _ _)
          (by rw [AMap.get?_insert, if_pos rfl])
        refine ⟨m', ?_, h2, fun q => ?_⟩
        · rw [List.foldlM_cons]
          have : pushHunk d.newPath m h = .ok (AMap.insert m d.newPath
              { d.delta with content := .hunks (hs0 ++ [h]) }) := by
            simp only [pushHunk, hg]
          rw [this]
          exact h1
        · rw [h3, AMap.get?_insert]
          by_cases hq : q = d.newPath
          · rw [if_pos hq, if_pos hq, List.append_assoc]; rfl
          · rw [if_neg hq, if_neg hq, if_neg (Ne.symm hq)]
    obtain ⟨h1, h2⟩ := hput m (.hunks []) hw
    obtain ⟨m', h3, h4, h5⟩ := hpush hs [] _ h1 (by rw [h2, if_pos rfl])
    refine ⟨m', h3, h4, fun q => ?_⟩
    rw [h5, h2]
    by_cases hq : q = d.newPath
    · rw [if_pos hq, if_pos hq, List.nil_append, ← hc]
    · simp only [if_neg hq]

theorem collect_all (diff : List FileDelta) (hsame : ∀ d ∈ diff, d.oldPath = d.newPath)
    (hn : (diff.map (·.newPath)).Nodup) : ∀ m, AMap.WF m → (∀ d ∈ diff, AMap.get? m d.newPath = none) →
      ∃ m', diff.foldlM collectDelta m = .ok m' ∧ AMap.WF m' ∧
        ∀ q e, AMap.get? m' q = some e ↔
          AMap.get? m q = some e ∨ ∃ d ∈ diff, d.newPath = q ∧ d.delta = e := by
  induction diff with
  | nil => intro m hm _; exact ⟨m, rfl, hm, fun q e => by simp⟩
  | cons d diff ih =>
    intro m hm hnone
    obtain ⟨m1, h1, h2, h3⟩ := collectDelta_get? (m := m) hm (hsame d List.mem_cons_self)
    rw [List.map_cons, List.nodup_cons] at hn
    obtain ⟨m2, h4, h5, h6⟩ := ih (fun d hd => hsame d (List.mem_cons_of_mem _ hd)) hn.2 m1 h2 (by
      intro d' hd'
      rw [h3, if_neg]
      · exact hnone d' (List.mem_cons_of_mem _ hd')
      · intro heq; exact hn.1 (heq ▸ List.mem_map_of_mem hd'))
    refine ⟨m2, ?_, h5, fun q e => ?_⟩
    · rw [List.foldlM_cons, h1]; exact h4
    · rw [h6, h3]
      by_cases hq : q = d.newPath
      · subst hq
        rw [if_pos rfl, hnone d List.mem_cons_self]
        simp
      · rw [if_neg hq]
        simp only [List.mem_cons, exists_eq_or_imp]
        have : ¬ (d.newPath = q ∧ d.delta = e) := fun h => hq h.1.symm
        simp [this]

theorem mapM_ok_map {α β ε : Type} {f : α → Except ε β} {F : α → β} {l : List α}
    (h : ∀ a ∈ l, f a = .ok (F a)) : l.mapM f = .ok (l.map F) := by
  induction l with
  | nil => rfl
  | cons a l ih =>
    rw [List.mapM_cons, h a List.mem_cons_self, ih fun a ha => h a (List.mem_cons_of_mem _ ha)]
    rfl

instance filePathLe_trans : IsTrans RecordFile (fun a b => a.path ≤ b.path) :=
  ⟨fun _ _ _ h1 h2 => le_trans h1 h2⟩

instance filePathLe_total : Std.Total (fun a b : RecordFile => a.path ≤ b.path) :=
  ⟨fun a b => le_total a.path b.path⟩

/-- **C78**: the files which are offered are exactly those which differ, each once and in the order of their
paths, whatever the order of the map is; for what is offered for each of them see `file_offered`. -/
theorem files_offered {env : DiffEnv} {old new : Tree} {diff : List FileDelta}
    (hadd : ∀ p, env.addFails p = false) (hd : ComparesTrees env old new diff) :
    ∃ files, (∀ order : AMap TreePath Delta → List (TreePath × Delta), (∀ m, (order m).Perm m) →
        processDiff env order diff = .ok files) ∧
      files.Pairwise (fun f g => f.path < g.path) ∧
      (∀ p, (∃ f ∈ files, f.path = p) ↔ fileAt old p ≠ fileAt new p) ∧
      ∀ f ∈ files, ∃ d ∈ diff, d.newPath = f.path ∧ FileOffer env d.delta f := by
  obtain ⟨m, hm, hw, hget⟩ := collect_all diff hd.same hd.once [] AMap.wf_nil (fun _ _ => rfl)
  simp only [AMap.get?_nil, reduceCtorEq, false_or] at hget
  have hex : ∀ e : TreePath × Delta, ∃ f : RecordFile, e ∈ m →
      processDelta env e.1 e.2 = .ok f ∧ f.path = e.1 ∧ FileOffer env e.2 f := by
    intro e
    by_cases he : e ∈ m
    · obtain ⟨d, hdm, hp, hde⟩ := (hget e.1 e.2).1 (AMap.get?_of_mem hw he)
      obtain ⟨f, hf⟩ := file_offered (path := e.1) (hadd e.1) (hde ▸ hd.content d hdm)
      exact ⟨f, fun _ => hf⟩
    · exact ⟨⟨[], none, []⟩, fun h => absurd h he⟩
  choose F hF using hex
  have hres : ∀ order : AMap TreePath Delta → List (TreePath × Delta), (∀ m, (order m).Perm m) →
      processDiff env order diff = .ok (((order m).map F).insertionSort fun a b => a.path ≤ b.path) := by
    intro order ho
    unfold processDiff
    rw [hm]
    show (do
      let files ← (order m).mapM fun e : TreePath × Delta => processDelta env e.1 e.2
      Except.ok (files.insertionSort fun a b : RecordFile => a.path ≤ b.path)) = _
    rw [mapM_ok_map (F := F) fun e he => (hF e ((ho m).mem_iff.1 he)).1]
    rfl
  have hpaths : (m.map F).map (·.path) = AMap.keys m := by
    rw [List.map_map]
    exact List.map_congr_left fun e he => (hF e he).2.1
  have hperm := List.perm_insertionSort (fun a b : RecordFile => a.path ≤ b.path) (m.map F)
  have hsorted := List.pairwise_insertionSort (fun a b : RecordFile => a.path ≤ b.path) (m.map F)
  have hnd : (((m.map F).insertionSort fun a b => a.path ≤ b.path).map (·.path)).Nodup := by
    rw [(hperm.map _).nodup_iff, hpaths]
    exact hw
  have hstrict : ((m.map F).insertionSort fun a b => a.path ≤ b.path).Pairwise
      (fun f g => f.path < g.path) := by
    rw [List.Nodup, List.pairwise_map] at hnd
    exact (hsorted.and hnd).imp fun h => lt_of_le_of_ne h.1 h.2
  refine ⟨(m.map F).insertionSort fun a b => a.path ≤ b.path, ?_, hstrict, ?_, ?_⟩
  · intro order ho
    rw [hres order ho]
    congr 1
    have hp2 : (((order m).map F).insertionSort fun a b => a.path ≤ b.path).Perm
        ((m.map F).insertionSort fun a b => a.path ≤ b.path) :=
      ((List.perm_insertionSort _ _).trans ((ho m).map F)).trans hperm.symm
    refine hp2.eq_of_pairwise (le := fun a b => a.path ≤ b.path) ?_
      (List.pairwise_insertionSort _ _) hsorted
    intro a b ha hb hab hba
    have hpe := le_antisymm hab hba
    have ha' := hp2.mem_iff.1 ha
    by_contra hne
    have := List.inj_on_of_nodup_map hnd ha' hb hpe
    exact hne this
  · intro p
    have hk : (∃ f ∈ (m.map F).insertionSort fun a b => a.path ≤ b.path, f.path = p) ↔ p ∈ AMap.keys m := by
      rw [← hpaths, List.mem_map]
      constructor
      · rintro ⟨f, hf, rfl⟩; exact ⟨f, hperm.mem_iff.1 hf, rfl⟩
      · rintro ⟨f, hf, rfl⟩; exact ⟨f, hperm.mem_iff.2 hf, rfl⟩
    rw [hk, ← hd.paths, AMap.mem_keys_iff, Option.isSome_iff_exists, List.mem_map]
    constructor
    · rintro ⟨e, he⟩
      obtain ⟨d, hdm, hp, _⟩ := (hget p e).1 he
      exact ⟨d, hdm, hp⟩
    · rintro ⟨d, hdm, hp⟩
      exact ⟨d.delta, (hget p _).2 ⟨d, hdm, hp, rfl⟩⟩
  · intro f hf
    obtain ⟨e, he, rfl⟩ := List.mem_map.1 (hperm.mem_iff.1 hf)
    obtain ⟨_, h2, h3⟩ := hF e he
    obtain ⟨d, hdm, hp, hde⟩ := (hget e.1 e.2).1 (AMap.get?_of_mem hw he)
    exact ⟨d, hdm, by rw [h2, hp], by rw [hde]; exact h3⟩

/-! ### what is staged -/

theorem markSection_markSection (a b : Bool) (s : FileSection) :
    markSection a (markSection b s) = markSection a s := by
  cases s <;> simp [markSection, Function.comp_def]

theorem sameButMarks_markFile (b : Bool) (f : RecordFile) : SameButMarks f (markFile b f) :=
  ⟨rfl, rfl, by simp only [markFile, List.map_map]; exact List.map_congr_left fun s _ => markSection_markSection _ _ _⟩

theorem marked_isText {s s' : FileSection} (h : markSection false s = markSection false s') :
    FileSection.IsText s ↔ FileSection.IsText s' := by
  cases s <;> cases s' <;> simp_all [markSection, FileSection.IsText]

/-- The commands, applied to an index. -/
theorem staged_at {T : TreePath → Prop} (hT : ∀ p q, T p → T q → ¬ Below p q) {gs : List RecordFile}
    (hnd : (gs.map (·.path)).Nodup) (hgs : ∀ g ∈ gs, T g.path) {C : RecordFile → IndexCommand}
    (hC : ∀ g ∈ gs, (IndexCommand.split (C g)).1 = g.path) {index : GitIndex} (hi : Within T index) :
    (∀ g ∈ gs, entriesAt ((gs.map C).foldl applyIndexCommand index) g.path =
      localApply (entriesAt index g.path) (IndexCommand.split (C g)).2) ∧
    ∀ p, p ∉ gs.map (·.path) →
      entriesAt ((gs.map C).foldl applyIndexCommand index) p = entriesAt index p := by
  let f : TreePath → IndexCommand := fun p =>
    match gs.find? (fun g => g.path = p) with
    | some g => C g
    | none => .delete p
  have hfind : ∀ g ∈ gs, gs.find? (fun g' => g'.path = g.path) = some g := by
    intro g hg
    cases h : gs.find? (fun g' => g'.path = g.path) with
    | none =>
      have := List.find?_eq_none.1 h g hg
      simp at this
    | some g' =>
      have h1 := List.mem_of_find?_eq_some h
      have h2 := List.find?_some h
      simp only [decide_eq_true_eq] at h2
      rw [List.inj_on_of_nodup_map hnd h1 hg h2]
  have hfg : ∀ g ∈ gs, f g.path = C g := fun g hg => by simp only [f, hfind g hg]
  have hf : ∀ p, (IndexCommand.split (f p)).1 = p := by
    intro p
    simp only [f]
    cases h : gs.find? (fun g => g.path = p) with
    | none => rfl
    | some g =>
      have h1 := List.mem_of_find?_eq_some h
      have h2 := List.find?_some h
      simp only [decide_eq_true_eq] at h2
      simp only
      rw [hC g h1, h2]
  have hmap : gs.map C = (gs.map (·.path)).map f := by
    rw [List.map_map]
    exact List.map_congr_left fun g hg => (hfg g hg).symm
  obtain ⟨_, h2⟩ := foldl_entriesAt hT f hf (gs.map (·.path)) (by
    intro p hp
    obtain ⟨g, hg, rfl⟩ := List.mem_map.1 hp
    exact hgs g hg) hnd index hi
  rw [hmap]
  refine ⟨fun g hg => ?_, fun p hp => ?_⟩
  · rw [h2, if_pos (List.mem_map_of_mem hg), hfg g hg]
  · rw [h2, if_neg hp]

/-- The paths of the two trees and of the index, as far as they matter: none is a directory of another. -/
def NoNestingOf (old new : Tree) (index : GitIndex) : Prop :=
  ∀ p q, (Tracked old index p ∨ fileAt new p ≠ none) → (Tracked old index q ∨ fileAt new q ≠ none) →
    ¬ Below p q

/-- The stage 0 of an entry after a command. -/
def stagedFile : IndexCommand → Option (Nat × MaybeZero)
  | .delete _ => none
  | .update _ _ m o => some (m, .nonZero o)

theorem oidForPath_file {treeId : Tree → Oid} {t : Tree} {p : TreePath} (hp : p ≠ [])
    (hd : ∀ m es, nodeAt t p ≠ some (.dir m es)) : oidForPath treeId t p = (fileAt t p).map (·.2) := by
  unfold oidForPath
  rw [getPath_eq t p hp]
  cases h : nodeAt t p with
  | none => simp [fileAt, h, fileOf]
  | some x =>
    cases x with
    | leaf m o => simp [fileAt, h, fileOf]
    | dir m es => exact absurd h (hd m es)

theorem fileAt_nil (t : Tree) : fileAt t [] = none := by
  simp [fileAt, nodeAt, fileOf]

theorem mode_of_file {t : Tree} (ht : Plain t) {p : TreePath} {f : File} (h : fileAt t p = some f) :
    f.1 ∈ fileModes := by
  unfold fileAt at h
  cases hn : nodeAt t p with
  | none => rw [hn] at h; cases h
  | some x =>
    cases x with
    | dir m es => rw [hn] at h; cases h
    | leaf m o =>
      rw [hn] at h
      simp only [fileOf, Option.some.injEq] at h
      rw [← h]
      exact ht.files p m o hn

theorem recordMode_file {rec : Recorder} {g : RecordFile} {m : Nat} (h : rec.mode g = some m)
    (hm : m ∈ fileModes) : recordMode rec g ≠ .unreadable ∧ (recordMode rec g).toI32.toNat = m := by
  have : ∀ m ∈ fileModes, m < 2147483648 ∧ FileMode.ofI32 (m : Int) ≠ .unreadable := by decide
  unfold recordMode
  rw [h]
  simp only
  rw [if_pos (this m hm).1]
  exact ⟨(this m hm).2, mode_roundtrip hm⟩

theorem recordMode_zero {rec : Recorder} {g : RecordFile} (h : rec.mode g = some 0) :
    recordMode rec g = .unreadable := by
  unfold recordMode
  rw [h]
  decide

/-- The command for a file whose blob is known. -/
theorem recordCommand_blob {rec : Recorder} {hash : Text → Oid} {treeId : Tree → Oid} {old new : Tree}
    {g : RecordFile} {m : Nat} {o : Oid} (hm : rec.mode g = some m) (hmm : m ∈ fileModes)
    (ho : (rec.contents g = .unchanged ∧ oidForPath treeId old g.path = some o) ∨
      (rec.contents g = .binary ∧ oidForPath treeId new g.path = some o) ∨
      ∃ t, rec.contents g = .present t ∧ hash t = o) :
    recordCommand rec hash treeId old new g = .ok (.update g.path .stage0 m o) := by
  obtain ⟨h1, h2⟩ := recordMode_file hm hmm
  unfold recordCommand
  rcases ho with ⟨hc, hp⟩ | ⟨hc, hp⟩ | ⟨t, hc, rfl⟩
  · simp only [hc, hp, if_neg h1, h2]
  · simp only [hc, hp, if_neg h1, h2]
  · simp only [hc, if_neg h1, h2]

/-- The command for a file which is not there. -/
theorem recordCommand_delete {rec : Recorder} {hash : Text → Oid} {treeId : Tree → Oid} {old new : Tree}
    {g : RecordFile} (ho : rec.contents g = .absent ∨
      (rec.contents g = .unchanged ∧ oidForPath treeId old g.path = none)) :
    recordCommand rec hash treeId old new g = .ok (.delete g.path) := by
  unfold recordCommand
  rcases ho with hc | ⟨hc, hp⟩
  · simp only [hc]
  · simp only [hc, hp]

/-- The sections of a file for which lines are offered, after the user has changed the marks. -/
theorem text_sections {om nm : Nat} {ss : List FileSection} {f g : RecordFile}
    (hf : f.sections = modeSection om nm ++ ss) (ht : ∀ s ∈ ss, FileSection.IsText s)
    (hg : SameButMarks f g) : ∃ ms ss', g.sections = ms ++ ss' ∧
      (ms = [] ∧ om = nm ∨ ∃ c, ms = [.fileMode c om nm] ∧ om ≠ nm) ∧
      ss'.map (markSection false) = ss.map (markSection false) ∧ ∀ s ∈ ss', FileSection.IsText s := by
  have hs := hg.sections
  rw [hf, List.map_append] at hs
  obtain ⟨ms, ss', hgs, hms, hss⟩ := List.map_eq_append_iff.1 hs
  refine ⟨ms, ss', hgs, ?_, hss, ?_⟩
  · unfold modeSection at hms
    split at hms
    · rename_i h
      exact .inl ⟨List.map_eq_nil_iff.1 hms, h⟩
    · rename_i h
      right
      rw [List.map_singleton, List.map_eq_singleton_iff] at hms
      obtain ⟨s, rfl, hs⟩ := hms
      cases s with
      | fileMode c b a =>
        simp only [markSection, FileSection.fileMode.injEq, true_and] at hs
        exact ⟨c, by rw [hs.1, hs.2], h⟩
      | _ => simp [markSection] at hs
  · intro s hs'
    have : markSection false s ∈ ss.map (markSection false) := hss ▸ List.mem_map_of_mem hs'
    obtain ⟨s0, hs0, he⟩ := List.mem_map.1 this
    exact (marked_isText he).1 (ht s0 hs0)

theorem chosenMode_text {ms ss : List FileSection} {om nm : Nat} {p : TreePath}
    (hms : ms = [] ∧ om = nm ∨ ∃ c, ms = [.fileMode c om nm] ∧ om ≠ nm)
    (ht : ∀ s ∈ ss, FileSection.IsText s) :
    chosenMode ⟨p, some om, ms ++ ss⟩ =
      some (if ms = [.fileMode true om nm] then nm else om) := by
  have hss : ∀ (m : Nat), (ss.findSome? markedMode).or (some m) = some m := by
    intro m
    rw [List.findSome?_eq_none_iff.2]
    · rfl
    · intro s hs
      have := ht s hs
      cases s <;> simp_all [FileSection.IsText, markedMode]
  unfold chosenMode
  rcases hms with ⟨rfl, rfl⟩ | ⟨c, rfl, hne⟩
  · simp only [List.nil_append, hss]
    simp
  · cases c
    · simp only [List.cons_append, List.nil_append, List.findSome?_cons, markedMode]
      rw [hss]
      simp
    · simp [List.findSome?_cons, markedMode]

/-- What the theorems about staging assume: a faithful interface; a comparison of the trees by libgit2; usual
modes; no file where there is a directory; the paths of the index are those of the old tree. -/
structure RecordSetup (env : DiffEnv) (rec : Recorder) (hash : Text → Oid) (old new : Tree)
    (diff : List FileDelta) (index : GitIndex) : Prop where
  adds : ∀ p, env.addFails p = false
  faithful : Faithful rec
  compares : ComparesTrees env old new diff
  hashes : HashesBlobs env hash
  oldPlain : Plain old
  newPlain : Plain new
  kinds : NoKindChange old new
  nesting : NoNestingOf old new index
  index : ∀ p, AMap.get? index (p, .stage0) = entryOf (fileAt old p)

/-- The command for one file: what it has to stage is given by `want`. -/
theorem staged_of_commands {env : DiffEnv} {rec : Recorder} {hash : Text → Oid} {treeId : Tree → Oid}
    {order : AMap TreePath Delta → List (TreePath × Delta)} (ho : ∀ m, (order m).Perm m) {old new : Tree}
    {diff : List FileDelta} {index : GitIndex} (hs : RecordSetup env rec hash old new diff index)
    {files gs : List RecordFile} (hfiles : processDiff env order diff = .ok files)
    (hrun : rec.run files = some gs) (C : RecordFile → IndexCommand)
    (hC : ∀ g ∈ gs, recordCommand rec hash treeId old new g = .ok (C g) ∧
      (C g = .delete g.path ∨ ∃ m o, C g = .update g.path .stage0 m o)) :
    ∃ index', recordInteractive env rec hash treeId order old new diff index = .staged index' ∧
      (∀ g ∈ gs, AMap.get? index' (g.path, .stage0) = stagedFile (C g)) ∧
      ∀ p, fileAt old p = fileAt new p → entriesAt index' p = entriesAt index p := by
  obtain ⟨files', h1, h2, h3, -⟩ := files_offered hs.adds hs.compares
  rw [h1 order ho] at hfiles
  cases hfiles
  have hall := hs.faithful.run _ _ hrun
  have hpaths : gs.map (·.path) = files.map (·.path) := by
    clear hC hrun h1 h2 h3
    induction hall with
    | nil => rfl
    | cons h _ ih => rw [List.map_cons, List.map_cons, h.path, ih]
  have hnd : (gs.map (·.path)).Nodup := by
    rw [hpaths, List.Nodup, List.pairwise_map]
    exact h2.imp fun h => ne_of_lt h
  have hT : ∀ g ∈ gs, Tracked old index g.path ∨ fileAt new g.path ≠ none := by
    intro g hg
    have : g.path ∈ files.map (·.path) := hpaths ▸ List.mem_map_of_mem hg
    obtain ⟨f, hf, hp⟩ := List.mem_map.1 this
    have hne := (h3 g.path).1 ⟨f, hf, hp⟩
    by_cases h : fileAt old g.path = none
    · right; rw [h] at hne; exact Ne.symm hne
    · exact .inl (.inl h)
  have hsplit : ∀ g ∈ gs, (IndexCommand.split (C g)).1 = g.path := by
    intro g hg
    rcases (hC g hg).2 with h | ⟨m, o, h⟩ <;> rw [h] <;> rfl
  obtain ⟨h5, h6⟩ := staged_at (T := fun p => Tracked old index p ∨ fileAt new p ≠ none) hs.nesting hnd hT
    hsplit (index := index) (fun q s h => .inl (.inr ⟨s, h⟩))
  refine ⟨(gs.map C).foldl applyIndexCommand index, ?_, ?_, ?_⟩
  · unfold recordInteractive
    rw [h1 order ho]
    simp only [hrun]
    rw [mapM_ok_map (F := C) fun g hg => (hC g hg).1]
  · intro g hg
    have := congrFun (h5 g hg) .stage0
    simp only [entriesAt] at this
    rw [this]
    rcases (hC g hg).2 with h | ⟨m, o, h⟩ <;> rw [h] <;> simp [IndexCommand.split, localApply, stagedFile]
  · intro p hp
    refine h6 p ?_
    rw [hpaths, List.mem_map]
    rintro ⟨f, hf, hfp⟩
    exact (h3 p).1 ⟨f, hf, hfp⟩ hp

/-- A file which differs, as it is known to the functions above. -/
theorem offered_paths {env : DiffEnv} {old new : Tree} {diff : List FileDelta}
    (hc : ComparesTrees env old new diff) {d : FileDelta} (hd : d ∈ diff) :
    fileAt old d.newPath ≠ fileAt new d.newPath ∧ d.newPath ≠ [] := by
  have := (hc.paths d.newPath).1 (List.mem_map_of_mem hd)
  refine ⟨this, fun h => ?_⟩
  rw [h, fileAt_nil, fileAt_nil] at this
  exact this rfl

theorem newOid_zero_iff {env : DiffEnv} {old new : Tree} {diff : List FileDelta}
    (hc : ComparesTrees env old new diff) {d : FileDelta} (hd : d ∈ diff) :
    d.delta.newOid = .zero ↔ fileAt new d.newPath = none := by
  rw [(hc.newFile d hd).1]
  cases fileAt new d.newPath <;> simp [fileOid]

/-- The hash of the lines of a file is its blob. -/
theorem hash_lines {env : DiffEnv} {hash : Text → Oid} (hh : HashesBlobs env hash) {o : Oid}
    {ls : List Text} (h : FileLines env (.nonZero o) ls) : hash ls.flatten = o := by
  rcases h with ⟨h, _⟩ | ⟨o', b, t, he, hb, _, ht, hl⟩
  · cases h
  · cases he
    rw [hl.joined]
    exact hh _ _ _ hb ht

theorem lines_absent {env : DiffEnv} {ls : List Text} (h : FileLines env .zero ls) : ls = [] := by
  rcases h with ⟨_, h⟩ | ⟨_, _, _, h, _⟩
  · exact h
  · cases h

/-- **C78**, for the whole command: whatever the user marks, the index has exactly what the marks say for each
file which was offered (`Stages`), and nothing else changes. -/
theorem record_stages {env : DiffEnv} {rec : Recorder} {hash : Text → Oid} (treeId : Tree → Oid)
    {order : AMap TreePath Delta → List (TreePath × Delta)} (ho : ∀ m, (order m).Perm m) {old new : Tree}
    {diff : List FileDelta} {index : GitIndex} (hs : RecordSetup env rec hash old new diff index)
    {files gs : List RecordFile} (hfiles : processDiff env order diff = .ok files)
    (hrun : rec.run files = some gs) {want : RecordFile → Option File}
    (hw : ∀ g ∈ gs, ∀ d ∈ diff, d.newPath = g.path → Stages hash old new d.delta g (want g)) :
    ∃ index', recordInteractive env rec hash treeId order old new diff index = .staged index' ∧
      (∀ g ∈ gs, AMap.get? index' (g.path, .stage0) = entryOf (want g)) ∧
      ∀ p, fileAt old p = fileAt new p → entriesAt index' p = entriesAt index p := by
  obtain ⟨files', h1, h2, h3, h4⟩ := files_offered hs.adds hs.compares
  rw [h1 order ho] at hfiles
  cases hfiles
  have hall := hs.faithful.run _ _ hrun
  let C : RecordFile → IndexCommand := fun g => match want g with
    | none => .delete g.path
    | some x => .update g.path .stage0 x.1 x.2
  have key : ∀ g ∈ gs, recordCommand rec hash treeId old new g = .ok (C g) := by
    intro g hg
    obtain ⟨f, hf, hfg⟩ : ∃ f ∈ files, SameButMarks f g := by
      obtain ⟨i, hi, rfl⟩ := List.mem_iff_getElem.1 hg
      have hl := hall.length_eq
      exact ⟨files[i]'(by omega), List.getElem_mem _, (List.forall₂_iff_get.1 hall).2 i (by omega) hi⟩
    obtain ⟨d, hd, hdp, hoff⟩ := h4 f hf
    have hdg : d.newPath = g.path := by rw [hdp, hfg.path]
    obtain ⟨hne, hpn⟩ := offered_paths hs.compares hd
    have hk := hs.kinds d.newPath hne
    have hold := oidForPath_file (treeId := treeId) (t := old) hpn fun m es => (hk m es).1
    have hnew := oidForPath_file (treeId := treeId) (t := new) hpn fun m es => (hk m es).2
    rw [hdg] at hold hnew
    have hgm : g.mode = some d.delta.oldMode := by rw [hfg.mode, hoff.mode]
    have hom := (hs.compares.oldFile d hd).2
    rw [hdg] at hom
    -- what is staged if the contents are unchanged
    have unchanged : rec.contents g = .unchanged → rec.mode g = some d.delta.oldMode →
        want g = fileAt old g.path → recordCommand rec hash treeId old new g = .ok (C g) := by
      intro hc hm hwant
      cases he : fileAt old g.path with
      | none =>
        rw [he] at hwant hold
        simp only [C, hwant]
        exact recordCommand_delete (.inr ⟨hc, hold⟩)
      | some x =>
        rw [he] at hwant hold hom
        simp only [C, hwant]
        simp only [fileModeOf] at hom
        exact recordCommand_blob (hom ▸ hm) (mode_of_file hs.oldPlain he) (.inl ⟨hc, hold⟩)
    obtain ⟨gp, gm, gsec⟩ := g
    simp only at *
    subst hgm
    have hst := hw _ hg d hd hdg
    generalize hwg : want ⟨gp, some d.delta.oldMode, gsec⟩ = w at hst
    cases hst with
    | deleted c b hsec =>
      simp only at hsec
      subst hsec
      have hc := hs.faithful.deleted gp (some d.delta.oldMode) c b
      cases c with
      | true =>
        simp only [if_true] at hc
        simp only [C, hwg, if_true]
        exact recordCommand_delete (.inl hc)
      | false =>
        simp only [Bool.false_eq_true, if_false] at hc
        refine unchanged hc ?_ (by rw [hwg]; simp)
        rw [hs.faithful.mode]
        rfl
    | binary c x y hsec hx =>
      simp only at hsec
      subst hsec
      have hc := hs.faithful.binary gp (some d.delta.oldMode) c x y
      have hm : rec.mode ⟨gp, some d.delta.oldMode, [.binary c x y]⟩ = some d.delta.oldMode := by
        rw [hs.faithful.mode]; rfl
      cases c with
      | true =>
        simp only [if_true] at hc hx
        obtain ⟨fo, fn, hfo, hfn, hwant⟩ := hx
        simp only [C, hwg, hwant]
        rw [hfn] at hnew
        rw [hfo] at hom
        simp only [fileModeOf] at hom
        exact recordCommand_blob (hom ▸ hm) (mode_of_file hs.oldPlain hfo) (.inr (.inl ⟨hc, hnew⟩))
      | false =>
        simp only [Bool.false_eq_true, if_false] at hc hx
        exact unchanged hc hm (hwg.trans hx)
    | text ms ss hsec hms htext hne' hmode =>
      simp only at hsec
      subst hsec
      have hnm : ms = [] ∨ ∃ c b a, ms = [.fileMode c b a] ∧ a ≠ 0 := by
        rcases hms with ⟨h, _⟩ | ⟨c, h, _, h0⟩
        · exact .inl h
        · exact .inr ⟨c, _, _, h, h0⟩
      have hc := hs.faithful.text gp (some d.delta.oldMode) ms ss hnm htext hne'
      have hm := hs.faithful.mode ⟨gp, some d.delta.oldMode, ms ++ ss⟩
      rw [chosenMode_text (om := d.delta.oldMode) (nm := d.delta.newMode) (by
        rcases hms with h | ⟨c, h, h', _⟩
        · exact .inl h
        · exact .inr ⟨c, h, h'⟩) htext] at hm
      simp only [C, hwg]
      exact recordCommand_blob hm hmode (.inr (.inr ⟨_, hc, rfl⟩))
    | nothing a ss hsec htext he hold' =>
      simp only at hsec
      subst hsec
      have hc := hs.faithful.nothing gp (some d.delta.oldMode) a ss htext he
      simp only at hold'
      rw [hold'] at hold
      simp only [C, hwg]
      exact recordCommand_delete (.inr ⟨hc, hold⟩)
  obtain ⟨index', g1, g2, g3⟩ := staged_of_commands (treeId := treeId) ho hs (h1 order ho) hrun C
    (fun g hg => ⟨key g hg, by
      simp only [C]
      cases want g with
      | none => exact .inl rfl
      | some x => exact .inr ⟨_, _, rfl⟩⟩)
  refine ⟨index', g1, fun g hg => ?_, g3⟩
  rw [g2 g hg]
  simp only [C, stagedFile]
  cases want g <;> rfl

/-- Choosing everything, or nothing, for a file means the new file, or the old one. -/
theorem stages_marked {env : DiffEnv} {rec : Recorder} {hash : Text → Oid} {old new : Tree}
    {diff : List FileDelta} {index : GitIndex} (hs : RecordSetup env rec hash old new diff index)
    {d : FileDelta} (hd : d ∈ diff) {f : RecordFile} (hf : FileOffer env d.delta f) (hp : d.newPath = f.path)
    (b : Bool)
    (hbin : b = true → ∀ o n, d.delta.content = .binary o n → d.delta.newOid ≠ .zero →
      d.delta.oldMode = d.delta.newMode)
    (hempty : ∀ o x, (if b then d.delta.newOid else d.delta.oldOid) = .nonZero o → env.blob o = some x →
      x.text ≠ some []) :
    Stages hash old new d.delta (markFile b f) (fileAt (if b then new else old) f.path) := by
  obtain ⟨hne, hpn⟩ := offered_paths hs.compares hd
  obtain ⟨ho1, ho2⟩ := hs.compares.oldFile d hd
  obtain ⟨hn1, hn2⟩ := hs.compares.newFile d hd
  have hzi := newOid_zero_iff hs.compares hd
  rw [hp] at hne ho1 ho2 hn1 hn2 hzi
  have hnewMode : d.delta.newOid ≠ .zero → d.delta.newMode ∈ fileModes := by
    intro hz
    obtain ⟨x, hx⟩ := Option.ne_none_iff_exists'.1 (hzi.not.1 hz)
    rw [hn2, hx]
    exact mode_of_file hs.newPlain hx
  have h0 : (0 : Nat) ∉ fileModes := by decide
  by_cases hz : d.delta.newOid = .zero
  · have hsec := hf.deleted hz
    have : fileAt (if b then new else old) f.path = if b then none else fileAt old f.path := by
      cases b
      · rfl
      · simpa using hzi.1 hz
    rw [this]
    exact .deleted b d.delta.oldMode (by simp only [markFile, hsec]; rfl)
  obtain ⟨fn, hfn⟩ := Option.ne_none_iff_exists'.1 (hzi.not.1 hz)
  rcases hs.compares.content d hd with h | ⟨o, n, h⟩ | ⟨ps, h, hsep, hol, hnl⟩
  · exact absurd h hz
  · obtain ⟨x, y, hsec⟩ := hf.binary hz o n h
    refine .binary b x y (by simp only [markFile, hsec]; rfl) ?_
    cases b with
    | false => simp [markFile]
    | true =>
      have hmm := hbin rfl o n h hz
      obtain ⟨fo, hfo⟩ : ∃ fo, fileAt old f.path = some fo := by
        refine Option.ne_none_iff_exists'.1 fun hnone => ?_
        rw [hnone] at ho2
        simp only [fileModeOf] at ho2
        have := hnewMode hz
        rw [← hmm, ho2] at this
        exact h0 this
      refine ⟨fo, fn, hfo, hfn, ?_⟩
      rw [hfo] at ho2
      rw [hfn] at hn2
      simp only [fileModeOf] at ho2 hn2
      rw [if_pos rfl, hfn, ← ho2, hmm, hn2]
  · obtain ⟨ss, hsec, hoff⟩ := hf.text hz ps h hsep hol hnl
    have htext : ∀ s ∈ ss.map (markSection b), FileSection.IsText s := by
      intro s hs'
      obtain ⟨s0, h1, rfl⟩ := List.mem_map.1 hs'
      refine (marked_isText (s := s0) (s' := markSection b s0) ?_).1 (hoff.text s0 h1)
      rw [markSection_markSection]
    have hsec' : (markFile b f).sections =
        (modeSection d.delta.oldMode d.delta.newMode).map (markSection b) ++ ss.map (markSection b) := by
      simp only [markFile, hsec, List.map_append]
    have hms : (modeSection d.delta.oldMode d.delta.newMode).map (markSection b) = [] ∧
        d.delta.oldMode = d.delta.newMode ∨
        ∃ c, (modeSection d.delta.oldMode d.delta.newMode).map (markSection b) =
          [.fileMode c d.delta.oldMode d.delta.newMode] ∧ d.delta.oldMode ≠ d.delta.newMode ∧
          d.delta.newMode ≠ 0 := by
      unfold modeSection
      split
      · rename_i heq; exact .inl ⟨rfl, heq⟩
      · rename_i heq
        exact .inr ⟨b, rfl, heq, fun h => h0 (h ▸ hnewMode hz)⟩
    have hmode : (if (modeSection d.delta.oldMode d.delta.newMode).map (markSection b) =
        [.fileMode true d.delta.oldMode d.delta.newMode] then d.delta.newMode else d.delta.oldMode) =
        if b then d.delta.newMode else d.delta.oldMode := by
      unfold modeSection
      by_cases heq : d.delta.oldMode = d.delta.newMode
      · rw [if_pos heq]; cases b <;> simp [heq]
      · rw [if_neg heq]; cases b <;> simp [markSection]
    cases b with
    | true =>
      have hchosen := hoff.all
      rw [hfn] at hn1 hn2
      simp only [fileOid, fileModeOf] at hn1 hn2
      rw [hn1] at hnl
      have hne' : (chosenLines (ss.map (markSection true))).flatten ≠ [] := by
        rw [hchosen]
        rcases hnl with ⟨hx, _⟩ | ⟨o', x, t, he, hx, _, ht, hl⟩
        · cases hx
        · rw [hl.joined]
          rintro rfl
          exact hempty o' x (by rw [if_pos rfl, hn1, he]) hx ht
      have := Stages.text (hash := hash) (old := old) (new := new) (d := d.delta) (g := markFile true f)
        _ _ hsec' hms htext hne' (by rw [hmode]; exact hnewMode hz)
      rw [hmode, hchosen, hash_lines hs.hashes hnl] at this
      rw [if_pos rfl, hfn]
      simp only [if_true] at this
      rw [hn2] at this
      exact this
    | false =>
      have hchosen := hoff.none
      rw [if_neg (by simp)] at hempty
      cases hfo : fileAt old f.path with
      | none =>
        rw [hfo] at ho1 ho2
        simp only [fileOid, fileModeOf] at ho1 ho2
        rw [ho1] at hol
        rw [lines_absent hol] at hchosen
        have hneq : d.delta.oldMode ≠ d.delta.newMode := by
          rw [ho2]; intro h; exact h0 (h ▸ hnewMode hz)
        simp only [Bool.false_eq_true, if_false]
        rw [hfo]
        refine .nothing d.delta.newMode (ss.map (markSection false)) ?_ htext (by rw [hchosen]; rfl) hfo
        rw [hsec', modeSection, if_neg hneq, ho2]
        rfl
      | some fo =>
        rw [hfo] at ho1 ho2
        simp only [fileOid, fileModeOf] at ho1 ho2
        rw [ho1] at hol
        have hne' : (chosenLines (ss.map (markSection false))).flatten ≠ [] := by
          rw [hchosen]
          rcases hol with ⟨hx, _⟩ | ⟨o', x, t, he, hx, _, ht, hl⟩
          · cases hx
          · rw [hl.joined]
            rintro rfl
            exact hempty o' x (by rw [ho1, he]) hx ht
        have hom : d.delta.oldMode ∈ fileModes := by rw [ho2]; exact mode_of_file hs.oldPlain hfo
        have := Stages.text (hash := hash) (old := old) (new := new) (d := d.delta) (g := markFile false f)
          _ _ hsec' hms htext hne' (by rw [hmode]; exact hom)
        rw [hmode, hchosen, hash_lines hs.hashes hol] at this
        simp only [Bool.false_eq_true, if_false] at this ⊢
        rw [hfo]
        rw [ho2] at this
        exact this

/-- The index after the user has marked everything, or nothing. -/
theorem record_marked {env : DiffEnv} {rec : Recorder} {hash : Text → Oid} (treeId : Tree → Oid)
    {order : AMap TreePath Delta → List (TreePath × Delta)} (ho : ∀ m, (order m).Perm m) {old new : Tree}
    {diff : List FileDelta} {index : GitIndex} (hs : RecordSetup env rec hash old new diff index) (b : Bool)
    (hbin : b = true → ∀ d ∈ diff, ∀ o n, d.delta.content = .binary o n → d.delta.newOid ≠ .zero →
      d.delta.oldMode = d.delta.newMode)
    (hempty : ∀ d ∈ diff, ∀ o x, (if b then d.delta.newOid else d.delta.oldOid) = .nonZero o →
      env.blob o = some x → x.text ≠ some [])
    (hrun : ∀ fs, rec.run fs = some (fs.map (markFile b))) :
    ∃ index', recordInteractive env rec hash treeId order old new diff index = .staged index' ∧
      ∀ p, AMap.get? index' (p, .stage0) = entryOf (fileAt (if b then new else old) p) := by
  obtain ⟨files, h1, h2, h3, h4⟩ := files_offered hs.adds hs.compares
  obtain ⟨index', g1, g2, g3⟩ := record_stages treeId ho hs (h1 order ho) (hrun files)
    (want := fun g => fileAt (if b then new else old) g.path) (by
      intro g hg d hd hdp
      obtain ⟨f, hf, rfl⟩ := List.mem_map.1 hg
      obtain ⟨d', hd', hp', hoff⟩ := h4 f hf
      have hdd : d = d' := by
        refine List.inj_on_of_nodup_map hs.compares.once hd hd' ?_
        rw [hdp, hp']
        rfl
      subst hdd
      exact stages_marked hs hd hoff hdp b (fun h o n => hbin h d hd o n) (fun o x => hempty d hd o x))
  refine ⟨index', g1, fun p => ?_⟩
  by_cases hp : fileAt old p = fileAt new p
  · have := congrFun (g3 p hp) .stage0
    simp only [entriesAt] at this
    rw [this, hs.index]
    cases b
    · rfl
    · rw [hp]; rfl
  · obtain ⟨f, hf, rfl⟩ := (h3 p).2 hp
    exact g2 (markFile b f) (List.mem_map_of_mem hf)

/-- **C78**: marking nothing leaves the index as it is (if no old file is empty). -/
theorem record_nothing {env : DiffEnv} {rec : Recorder} {hash : Text → Oid} (treeId : Tree → Oid)
    {order : AMap TreePath Delta → List (TreePath × Delta)} (ho : ∀ m, (order m).Perm m) {old new : Tree}
    {diff : List FileDelta} {index : GitIndex} (hs : RecordSetup env rec hash old new diff index)
    (hempty : ∀ d ∈ diff, ∀ o x, d.delta.oldOid = .nonZero o → env.blob o = some x → x.text ≠ some [])
    (hrun : ∀ fs, rec.run fs = some (fs.map (markFile false))) :
    ∃ index', recordInteractive env rec hash treeId order old new diff index = .staged index' ∧
      ∀ p, AMap.get? index' (p, .stage0) = AMap.get? index (p, .stage0) := by
  obtain ⟨i, h1, h2⟩ := record_marked treeId ho hs false (fun h => by cases h) hempty hrun
  exact ⟨i, h1, fun p => by rw [h2 p, hs.index p]; rfl⟩

/-- **C78**: marking everything stages exactly the files of the working copy, if no new file is empty, and
if no binary file has another mode (see `binary_mode_lost`). -/
theorem record_everything_partial {env : DiffEnv} {rec : Recorder} {hash : Text → Oid} (treeId : Tree → Oid)
    {order : AMap TreePath Delta → List (TreePath × Delta)} (ho : ∀ m, (order m).Perm m) {old new : Tree}
    {diff : List FileDelta} {index : GitIndex} (hs : RecordSetup env rec hash old new diff index)
    (hbin : ∀ d ∈ diff, ∀ o n, d.delta.content = .binary o n → d.delta.newOid ≠ .zero →
      d.delta.oldMode = d.delta.newMode)
    (hempty : ∀ d ∈ diff, ∀ o x, d.delta.newOid = .nonZero o → env.blob o = some x → x.text ≠ some [])
    (hrun : ∀ fs, rec.run fs = some (fs.map (markFile true))) :
    ∃ index', recordInteractive env rec hash treeId order old new diff index = .staged index' ∧
      ∀ p, AMap.get? index' (p, .stage0) = entryOf (fileAt new p) :=
  record_marked treeId ho hs true (fun _ => hbin) hempty hrun

/-! ### what goes wrong -/

/-- A binary file never gets its new mode, whatever is marked: there is no section for it. (If the file is new
then its mode is the one of an absent file, with which `git update-index` removes it.) -/
theorem binary_mode_lost {env : DiffEnv} {rec : Recorder} {hash : Text → Oid} {treeId : Tree → Oid}
    {old new : Tree} {path : TreePath} {d : Delta} {o n : Nat} (hc : d.content = .binary o n)
    (hz : d.newOid ≠ .zero) (hf : Faithful rec) :
    ∃ f, processDelta env path d = .ok f ∧ ∀ g, SameButMarks f g → ∀ m oid,
      recordCommand rec hash treeId old new g = .ok (.update path .stage0 m oid) →
      m = (FileMode.ofI32 d.oldMode).toI32.toNat ∧ d.oldMode ≠ 0 ∨ ¬ d.oldMode < 2147483648 := by
  refine ⟨_, by unfold processDelta; rw [if_neg hz, hc], fun g hg m oid hr => ?_⟩
  have hsec := hg.sections
  simp only [List.map_singleton] at hsec
  rw [List.map_eq_singleton_iff] at hsec
  obtain ⟨s, hs, hm⟩ := hsec
  have hmode : rec.mode g = some d.oldMode := by
    rw [hf.mode, chosenMode, hs, hg.mode]
    cases s <;> simp_all [markSection, markedMode]
  by_cases hlt : d.oldMode < 2147483648
  swap
  · exact .inr hlt
  left
  have hrm : recordMode rec g = FileMode.ofI32 d.oldMode := by
    unfold recordMode; rw [hmode]; simp only; rw [if_pos hlt]
  unfold recordCommand at hr
  rw [hrm] at hr
  simp only at hr
  split at hr
  · cases hr
  · cases hr
  · split at hr
    · cases hr
    · rename_i hu
      simp only [Except.ok.injEq, IndexCommand.update.injEq] at hr
      refine ⟨hr.2.2.1.symm, fun h => hu ?_⟩
      rw [h]
      decide

/-- Nothing is staged unless the user has confirmed. -/
theorem record_confirmed {env : DiffEnv} {rec : Recorder} {hash : Text → Oid} {treeId : Tree → Oid}
    {order : AMap TreePath Delta → List (TreePath × Delta)} {old new : Tree} {diff : List FileDelta}
    {index index' : GitIndex}
    (h : recordInteractive env rec hash treeId order old new diff index = .staged index') :
    ∃ files gs, processDiff env order diff = .ok files ∧ rec.run files = some gs := by
  unfold recordInteractive at h
  cases hp : processDiff env order diff with
  | error e => rw [hp] at h; cases h
  | ok files =>
    rw [hp] at h
    cases hr : rec.run files with
    | none => simp only [hr] at h; cases h
    | some gs => exact ⟨files, gs, rfl, hr⟩

/-- If the new file is no UTF-8 text (or has a zero byte) and the old one is, then for each change the whole new
file is offered as a binary file, followed by the old file as unchanged lines. -/
theorem other_encoding_offered {env : DiffEnv} {path : TreePath} {d : Delta} {ps : List Piece} {o : Oid}
    {x : BlobData} (hadd : env.addFails path = false) (hold : d.oldOid ≠ .zero)
    (ho : d.newOid = .nonZero o) (hx : env.blob o = some x) (hxt : x.isBinary = true ∨ x.text = none)
    (hol : FileLines env d.oldOid (oldOf ps)) (hne : oldOf ps ≠ [])
    (hc : d.content = .hunks (hunksOf 0 0 ps)) :
    processDelta env path d = .ok ⟨path, some d.oldMode, modeSection d.oldMode d.newMode ++
      (changesOf ps).map (fun _ => .binary false none (some (env.describe d.newOid x.size))) ++
      [.unchanged (oldOf ps)]⟩ := by
  have hcb : linesFromBlob env d.oldOid = .ok (.text (oldOf ps)) := by
    rcases hol.read with ⟨h, _, _⟩ | h
    · exact absurd h hold
    · exact h
  have hca : linesFromBlob env d.newOid = .ok (.binary x.size) := by
    rw [ho]
    simp only [linesFromBlob, hx]
    rcases hxt with h | h
    · simp [h]
    · simp [h]
  have hz : d.newOid ≠ .zero := by rw [ho]; exact fun h => nomatch h
  have hfold : ∀ (hs : List Hunk) (n : Nat) (ss : List FileSection),
      hs.foldlM (hunkStep env d (.text (oldOf ps)) (.binary x.size)) (n, ss) =
        Except.ok (n, ss ++ hs.map fun _ => .binary false none (some (env.describe d.newOid x.size))) := by
    intro hs
    induction hs with
    | nil => intro n ss; simp; rfl
    | cons h hs ih =>
      intro n ss
      rw [List.foldlM_cons]
      show hs.foldlM _ (n, ss ++ [FileSection.binary false none (some (env.describe d.newOid x.size))]) = _
      rw [ih]
      simp
  have hlen : (((hunksOf 0 0 ps).insertionSort hunkLe).map fun _ =>
      FileSection.binary false none (some (env.describe d.newOid x.size))) =
      (changesOf ps).map fun _ => .binary false none (some (env.describe d.newOid x.size)) := by
    rw [List.map_const', List.map_const', List.length_insertionSort]
    congr 1
    have : ∀ (ps : List Piece) (a b : Nat), (hunksOf a b ps).length = (changesOf ps).length := by
      intro ps
      induction ps with
      | nil => intro a b; rfl
      | cons p ps ih => intro a b; cases p <;> simp [hunksOf, changesOf, ih]
    exact this ps 0 0
  unfold processDelta
  rw [if_neg hz, hc]
  simp only [hadd]
  show (do
    let before ← linesFromBlob env d.oldOid
    let after ← linesFromBlob env d.newOid
    let st ← ((hunksOf 0 0 ps).insertionSort hunkLe).foldlM (hunkStep env d before after) (0, [])
    Except.ok (RecordFile.mk path (some d.oldMode) ((if d.oldMode ≠ d.newMode then
      [FileSection.fileMode false d.oldMode d.newMode] else []) ++ restOfFile before st))) = _
  rw [hcb, hca]
  show (do
    let st ← ((hunksOf 0 0 ps).insertionSort hunkLe).foldlM (hunkStep env d (.text (oldOf ps)) (.binary x.size)) (0, [])
    Except.ok (RecordFile.mk path (some d.oldMode) ((if d.oldMode ≠ d.newMode then
      [FileSection.fileMode false d.oldMode d.newMode] else []) ++ restOfFile (.text (oldOf ps)) st))) = _
  rw [hfold, hlen]
  show Except.ok (RecordFile.mk path (some d.oldMode) ((if d.oldMode ≠ d.newMode then
      [FileSection.fileMode false d.oldMode d.newMode] else []) ++ restOfFile (.text (oldOf ps)) _)) = _
  unfold restOfFile modeSection
  simp only
  rw [if_pos (List.length_pos_iff.2 hne)]
  by_cases hm : d.oldMode = d.newMode
  · simp [hm]
  · simp [hm]

/-- If the old file is no UTF-8 text (or has a zero byte) and the new one is, then the program panics, unless
the first change is an insertion at the beginning. -/
theorem other_encoding_panics {env : DiffEnv} {path : TreePath} {d : Delta} {ps : List Piece} {o : Oid}
    {x : BlobData} (hadd : env.addFails path = false) (hz : d.newOid ≠ .zero)
    (ho : d.oldOid = .nonZero o) (hx : env.blob o = some x) (hxt : x.isBinary = true ∨ x.text = none)
    (hnl : FileLines env d.newOid (newOf ps)) (hsep : Separated ps)
    (hc : d.content = .hunks (hunksOf 0 0 ps)) {h : Hunk} (hh : (hunksOf 0 0 ps).head? = some h)
    (hr : h.oldStart ≠ 0) : processDelta env path d = .error .panic := by
  obtain ⟨ca, hca, ha⟩ : ∃ ca, linesFromBlob env d.newOid = .ok ca ∧
      (ca = .text (newOf ps) ∨ (ca = .absent ∧ newOf ps = [])) := by
    rcases hnl.read with ⟨_, h1, h2⟩ | h
    · exact ⟨_, h2, .inr ⟨rfl, h1⟩⟩
    · exact ⟨_, h, .inl rfl⟩
  have hcb : linesFromBlob env d.oldOid = .ok (.binary x.size) := by
    rw [ho]
    simp only [linesFromBlob, hx]
    rcases hxt with h | h
    · simp [h]
    · simp [h]
  have hstep : hunkStep env d (.binary x.size) ca = textHunk [] (newOf ps) := by
    funext st h
    unfold hunkStep hunkLines
    rcases ha with rfl | ⟨rfl, h⟩
    · rfl
    · rw [h]
  unfold processDelta
  rw [if_neg hz, hc]
  simp only [hadd, sort_hunksOf ps hsep]
  show (do
    let before ← linesFromBlob env d.oldOid
    let after ← linesFromBlob env d.newOid
    let st ← (hunksOf 0 0 ps).foldlM (hunkStep env d before after) (0, [])
    Except.ok (RecordFile.mk path (some d.oldMode) ((if d.oldMode ≠ d.newMode then
      [FileSection.fileMode false d.oldMode d.newMode] else []) ++ restOfFile before st))) = _
  rw [hcb, hca]
  show (do
    let st ← (hunksOf 0 0 ps).foldlM (hunkStep env d (.binary x.size) ca) (0, [])
    Except.ok (RecordFile.mk path (some d.oldMode) ((if d.oldMode ≠ d.newMode then
      [FileSection.fileMode false d.oldMode d.newMode] else []) ++ restOfFile (.binary x.size) st))) = _
  rw [hstep]
  have hpanic : ∀ a, textHunk [] a (0, []) h = .error .panic := by
    intro a
    unfold textHunk
    have h1 : zeroBased h.oldStart h.oldLines = .ok (h.oldStart - 1, false) := by
      unfold zeroBased
      rw [if_neg (fun hc => hr hc.1), if_neg hr]
    rw [h1]
    show (do
      let (newStart, _) ← zeroBased h.newStart h.newLines
      let (idx, sections) ← unchangedBefore [] 0 (h.oldStart - 1) h.oldLines false []
      let removed ← sliceLines [] (h.oldStart - 1) (h.oldStart - 1 + h.oldLines)
      let added ← sliceLines a newStart (newStart + h.newLines)
      let lines := removed.map (ChangedLine.mk false .removed) ++ added.map (ChangedLine.mk false .added)
      if lines.isEmpty then Except.ok (idx, sections)
      else .ok (idx, sections ++ [FileSection.changed lines])) = _
    have h2 : zeroBased h.newStart h.newLines = .error .panic ∨
        ∃ y, zeroBased h.newStart h.newLines = .ok y := by
      unfold zeroBased
      split
      · exact .inr ⟨_, rfl⟩
      · split
        · exact .inl rfl
        · exact .inr ⟨_, rfl⟩
    rcases h2 with h2 | ⟨y, h2⟩
    · rw [h2]; rfl
    · rw [h2]
      by_cases h0 : h.oldLines = 0 ∨ h.oldStart - 1 ≠ 0
      · have h3 : unchangedBefore [] 0 (h.oldStart - 1) h.oldLines false [] = .error .panic := by
          unfold unchangedBefore
          rw [if_pos (Nat.zero_le _)]
          simp only
          unfold sliceLines
          rw [if_neg]
          simp only [List.length_nil, Nat.zero_le, true_and, Bool.not_false, and_true, Nat.le_zero_eq]
          rcases h0 with h0 | h0
          · rw [if_pos h0]; omega
          · split <;> omega
        rw [h3]
        rfl
      · push Not at h0
        have h3 : unchangedBefore [] 0 (h.oldStart - 1) h.oldLines false [] =
            .ok (h.oldLines, [.unchanged []]) := by
          unfold unchangedBefore
          rw [h0.2, if_pos (Nat.le_refl 0)]
          simp [sliceLines, h0.1]
        have h4 : sliceLines [] (h.oldStart - 1) (h.oldStart - 1 + h.oldLines) = .error .panic := by
          unfold sliceLines
          rw [if_neg]
          simp only [List.length_nil]
          omega
        rw [h3, h4]
        rfl
  cases hl : hunksOf 0 0 ps with
  | nil => rw [hl] at hh; cases hh
  | cons h' hs =>
    rw [hl] at hh
    simp only [List.head?_cons, Option.some.injEq] at hh
    subst hh
    rw [List.foldlM_cons, hpanic]
    rfl

end Verif.Props
