import Verif.Props.Tree

/-!
Merging dehydrated trees.
-/

namespace Verif.Spec

open Verif Verif.Props

theorem mergeFile_some {content : Option File → File → File → Option File} {b o t r : Option File} :
    mergeFile content b o t = some r ↔ MergesTo content b o t r := by
  constructor
  · intro h
    unfold mergeFile at h
    split at h
    · rename_i e
      simp only [Option.some.injEq] at h
      subst e; subst h; exact .same _ _
    · rename_i e1
      split at h
      · rename_i e
        simp only [Option.some.injEq] at h
        subst e; subst h; exact .theirs _ _
      · rename_i e2
        split at h
        · rename_i e
          simp only [Option.some.injEq] at h
          subst e; subst h; exact .ours _ _
        · rename_i e3
          split at h
          · rename_i o t
            simp only [Option.map_eq_some_iff] at h
            obtain ⟨f, h1, h2⟩ := h
            subst h2
            exact .both _ _ _ _ e2 e3 (fun e => e1 (by rw [e])) h1
          · exact absurd h (by simp)
  · intro h
    unfold mergeFile
    cases h with
    | same => simp
    | theirs => split <;> simp_all
    | ours => split <;> simp_all
    | both o t r h1 h2 h3 h4 => simp [h1, h2, h3, h4]

theorem mergeFile_none {content : Option File → File → File → Option File} {b o t : Option File} :
    mergeFile content b o t = none ↔ ∀ r, ¬ MergesTo content b o t r := by
  constructor
  · intro h r hr
    rw [← mergeFile_some, h] at hr
    cases hr
  · intro h
    cases e : mergeFile content b o t with
    | none => rfl
    | some r => exact absurd (mergeFile_some.1 e) (h r)

theorem getFile_eq (t : Tree) (p : TreePath) : getFile t p = fileAt t p := by
  unfold getFile fileAt
  cases p with
  | nil =>
    have : getPath t [] = none := by simp [getPath]
    rw [this]; rfl
  | cons n p =>
    rw [getPath_eq _ _ (by simp)]
    unfold fileOf
    rcases nodeAt t (n :: p) with _ | ⟨_, _⟩ | ⟨_, _⟩ <;> rfl

mutual
theorem mem_filePaths (x : Node) (p : TreePath) (f : File) (h : fileOf (inside x p) = some f) :
    p ∈ x.filePaths := by
  cases x with
  | leaf m o =>
    cases p with
    | nil => simp [Node.filePaths]
    | cons n p => simp [inside, fileOf] at h
  | dir m es =>
    cases p with
    | nil => simp [inside, fileOf] at h
    | cons n p =>
      rw [Node.filePaths]
      rw [inside] at h
      refine mem_entryFilePaths es n p f ?_
      cases e : AMap.get? es n with
      | none => rw [e] at h; simp [fileOf] at h
      | some y => rw [e] at h; exact h
theorem mem_entryFilePaths (es : List (Text × Node)) (n : Text) (p : TreePath) (f : File)
    (h : fileOf ((AMap.get? es n).bind (inside · p)) = some f) : n :: p ∈ treeFilePaths es := by
  cases es with
  | nil => simp [fileOf] at h
  | cons e es =>
    obtain ⟨m, y⟩ := e
    rw [treeFilePaths, List.mem_append]
    rw [AMap.get?_cons] at h
    by_cases hm : m = n
    · subst hm
      left
      simp only [if_true] at h
      exact List.mem_map.2 ⟨p, mem_filePaths y p f h, rfl⟩
    · right
      simp only [hm, if_false] at h
      exact mem_entryFilePaths es n p f h
end

theorem mem_treeFilePaths {t : Tree} {p : TreePath} (h : fileAt t p ≠ none) : p ∈ treeFilePaths t := by
  cases e : fileAt t p with
  | none => exact absurd e h
  | some f =>
    have := mem_filePaths (.dir modeTree t) p f e
    rwa [Node.filePaths] at this

theorem strictlyBelow_iff {p q : TreePath} : strictlyBelow p q = true ↔ Below p q := by
  induction p generalizing q with
  | nil =>
    cases q with
    | nil => simp [strictlyBelow, Below]
    | cons n q => simp only [strictlyBelow, true_iff]; exact ⟨n, q, rfl⟩
  | cons m p ih =>
    cases q with
    | nil => simp [strictlyBelow, Below]
    | cons n q =>
      simp only [strictlyBelow, Bool.and_eq_true, decide_eq_true_eq, ih]
      constructor
      · rintro ⟨rfl, k, r, rfl⟩; exact ⟨k, r, rfl⟩
      · rintro ⟨k, r, h⟩
        simp only [List.cons_append, List.cons.injEq] at h
        exact ⟨h.1.symm, k, r, h.2⟩

theorem get?_filterMap {β : Type} {f : TreePath → Option β} {ps : List TreePath} (hn : ps.Nodup) {g}
    (hg : ∀ p, g p = (f p).map fun x => (p, x)) (p : TreePath) :
    AMap.get? (ps.filterMap g) p = if p ∈ ps then f p else none := by
  induction ps with
  | nil => simp
  | cons q ps ih =>
    rw [List.nodup_cons] at hn
    rw [List.filterMap_cons, hg]
    by_cases h : q = p
    · subst h
      have hz : AMap.get? (ps.filterMap g) q = none := by rw [ih hn.2, if_neg hn.1]
      cases f q with
      | none => simpa using hz
      | some x => simp [AMap.get?_cons]
    · have h' : ¬ p = q := fun e => h e.symm
      cases f q with
      | none => simpa [h'] using ih hn.2
      | some x => simpa [AMap.get?_cons, h, h'] using ih hn.2

/-- What a successful merge of trees gives. -/
theorem mergeTrees_ok {content : Option File → File → File → Option File} {b o t : Tree}
    {idx : AMap TreePath File} (h : mergeTrees content b o t = .ok idx) (p : TreePath) :
    mergeFile content (fileAt b p) (fileAt o p) (fileAt t p) = some (AMap.get? idx p) := by
  unfold mergeTrees at h
  simp only [getFile_eq] at h
  split at h
  · rename_i hc
    simp only [Except.ok.injEq] at h
    rw [← h, get?_filterMap (f := fun p => (mergeFile content (fileAt b p) (fileAt o p) (fileAt t p)).join)
      (List.nodup_dedup _)]
    · by_cases hp : p ∈ (treeFilePaths b ++ treeFilePaths o ++ treeFilePaths t).dedup
      · rw [if_pos hp]
        rw [List.filter_eq_nil_iff] at hc
        have := hc p hp
        simp only [Bool.or_eq_true, decide_eq_true_eq, not_or] at this
        cases e : mergeFile content (fileAt b p) (fileAt o p) (fileAt t p) with
        | none => exact absurd e this.1
        | some r => rfl
      · rw [if_neg hp]
        have hz : ∀ x : Tree, (∀ q ∈ treeFilePaths x, q ∈ (treeFilePaths b ++ treeFilePaths o ++
            treeFilePaths t).dedup) → fileAt x p = none := by
          intro x hx
          by_contra hne
          exact hp (hx _ (mem_treeFilePaths hne))
        rw [hz b (by simp +contextual), hz o (by simp +contextual), hz t (by simp +contextual)]
        simp [mergeFile]
    · intro p
      rcases mergeFile content (fileAt b p) (fileAt o p) (fileAt t p) with _ | _ | _ <;> rfl
  · cases h

/-- The conflicts of a merge of trees. -/
theorem mergeTrees_error {content : Option File → File → File → Option File} {b o t : Tree}
    {ps : List TreePath} (h : mergeTrees content b o t = .error ps)
    (hdf : ∀ p q, mergeFile content (fileAt b p) (fileAt o p) (fileAt t p) ≠ some none →
      mergeFile content (fileAt b q) (fileAt o q) (fileAt t q) ≠ some none → ¬ Below p q) :
    ps ≠ [] ∧ ∀ p, p ∈ ps ↔ mergeFile content (fileAt b p) (fileAt o p) (fileAt t p) = none := by
  unfold mergeTrees at h
  simp only [getFile_eq] at h
  split at h
  · cases h
  · rename_i hc
    simp only [Except.error.injEq] at h
    rw [h] at hc
    refine ⟨hc, fun p => ?_⟩
    rw [← h, List.mem_filter]
    simp only [Bool.or_eq_true, decide_eq_true_eq, Bool.and_eq_true, List.any_eq_true,
      strictlyBelow_iff]
    constructor
    · rintro ⟨h1, h2 | ⟨h2, q, h3, h4, h5 | h5⟩⟩
      · exact h2
      · exact absurd h5 (hdf p q h2 h4)
      · exact absurd h5 (hdf q p h4 h2)
    · intro h1
      refine ⟨?_, .inl h1⟩
      have : fileAt o p ≠ none ∨ fileAt t p ≠ none := by
        by_contra hne
        simp only [not_or, not_not] at hne
        rw [hne.1, hne.2] at h1
        simp [mergeFile] at h1
      rw [List.mem_dedup, List.mem_append, List.mem_append]
      rcases this with h2 | h2
      · exact .inl (.inr (mem_treeFilePaths h2))
      · exact .inr (mem_treeFilePaths h2)

theorem normalizeMode_fileModes {m : Nat} (h : m ∈ fileModes) : normalizeMode m = m := by
  have : ∀ m ∈ fileModes, normalizeMode m = m := by decide
  exact this m h

theorem Plain.normalize {t : Tree} (h : Plain t) (p : TreePath) :
    (nodeAt t p).map Node.normalize = nodeAt t p := by
  cases e : nodeAt t p with
  | none => rfl
  | some x =>
    cases x with
    | leaf m o => simp [Node.normalize, normalizeMode_fileModes (h.files _ _ _ e)]
    | dir m es =>
      have := h.dirs _ _ _ e
      subst this
      simp [Node.normalize, normalizeMode, modeTree]

theorem wf_map (C : List TreePath) (hn : C.Nodup) (val : TreePath → Option Node) :
    AMap.WF (C.map fun p => (p, val p)) := by
  unfold AMap.WF AMap.keys
  rw [List.map_map]
  simpa [Function.comp_def] using hn

theorem keys_map (C : List TreePath) (val : TreePath → Option Node) :
    AMap.keys (C.map fun p => (p, val p)) = C := by
  unfold AMap.keys
  rw [List.map_map]
  simp [Function.comp_def]

theorem nodeAt_nil (q : TreePath) (hq : q ≠ []) : nodeAt [] q = none := by
  cases q with
  | nil => exact absurd rfl hq
  | cons n q => simp [nodeAt, inside]

theorem below_append {p q r : TreePath} (h : Below (p ++ r) q) : Below p q := by
  obtain ⟨n, s, rfl⟩ := h
  cases r with
  | nil => exact ⟨n, s, by simp⟩
  | cons m r => exact ⟨m, r ++ n :: s, by simp⟩

theorem below_of_ne {p r : TreePath} (h : r ≠ []) : Below p (p ++ r) := by
  cases r with
  | nil => exact absurd rfl h
  | cons n r => exact ⟨n, r, rfl⟩

/-- What is at a path of a dehydrated tree, or below it. -/
theorem nodeAt_dehydrate {t : Tree} {C : List TreePath} (ht : Plain t) (hn : C.Nodup) (h0 : [] ∉ C)
    (hC : ∀ p q, p ∈ C → q ∈ C → ¬ Below p q) {p : TreePath} (hp : p ∈ C) (r : TreePath) :
    nodeAt (dehydrateTree t C) (p ++ r) = nodeAt t (p ++ r) := by
  have hp0 : p ≠ [] := fun e => h0 (e ▸ hp)
  unfold dehydrateTree
  rw [hydrate_given (v := nodeAt t p)]
  · unfold nodeAt
    rw [inside_append]
  · exact wf_map C hn _
  · exact hp0
  · exact List.mem_map.2 ⟨p, hp, by rw [getPath_eq _ _ hp0, ht.normalize]⟩
  · intro r' h1 _ h3
    rw [keys_map] at h3
    exact hC _ _ hp h3 (below_of_ne h1)
  · intro q hq h1
    rw [keys_map] at hq
    exact hC _ _ hp hq (below_append h1)

theorem fileAt_dehydrate_none {t : Tree} {C : List TreePath} (hn : C.Nodup) {q : TreePath}
    (hq : ∀ p ∈ C, ¬ p <+: q) : fileAt (dehydrateTree t C) q = none := by
  by_cases h0 : q = []
  · subst h0; rfl
  unfold fileAt dehydrateTree
  by_cases h : ∃ p ∈ C, Below q p
  · generalize he : nodeAt _ q = x
    cases x with
    | none => rfl
    | some x =>
      obtain ⟨es', -, rfl⟩ := hydrate_above _ _ (wf_map C hn _) q h0 (by rwa [keys_map]) x he
      rfl
  · rw [hydrate_unchanged _ _ (wf_map C hn _) q h0, nodeAt_nil q h0]; rfl
    · intro p hp _; rw [keys_map] at hp; exact hq p hp
    · intro p hp hb; rw [keys_map] at hp; exact h ⟨p, hp, hb⟩

/-- The files of a tree to which entries were written. -/
theorem fileAt_hydrate {t : Tree} {C : List TreePath} (hn : C.Nodup) (h0 : [] ∉ C)
    (ha : Apart (· ∈ C) t) (val : TreePath → Option Node)
    (hv : ∀ p ∈ C, ∀ n r, fileOf ((val p).bind (inside · (n :: r))) = none) (q : TreePath) :
    fileAt (hydrateTree t (C.map fun p => (p, val p))) q =
      if q ∈ C then fileOf (val q) else fileAt t q := by
  by_cases hq0 : q = []
  · subst hq0; rw [if_neg h0]; rfl
  have hgiven : ∀ p ∈ C, ∀ r, nodeAt (hydrateTree t (C.map fun p => (p, val p))) (p ++ r) =
      (val p).bind (inside · r) := by
    intro p hp r
    refine hydrate_given _ _ (wf_map C hn _) p (val p) (fun e => h0 (e ▸ hp))
      (List.mem_map.2 ⟨p, hp, rfl⟩) r ?_ ?_
    · intro r' h1 _ h3
      rw [keys_map] at h3
      exact ha.paths _ _ hp h3 (below_of_ne h1)
    · intro q hq h1
      rw [keys_map] at hq
      exact ha.paths _ _ hp hq (below_append h1)
  split
  · rename_i hq
    have := hgiven q hq []
    rw [List.append_nil] at this
    unfold fileAt
    rw [this]
    cases val q <;> rfl
  · rename_i hq
    by_cases hup : ∃ p ∈ C, p <+: q
    · obtain ⟨p, hp, r, rfl⟩ := hup
      have hr : r ≠ [] := by rintro rfl; exact hq (by simpa using hp)
      rw [ha.below p _ hp (below_of_ne hr)]
      unfold fileAt
      rw [hgiven p hp r]
      cases r with
      | nil => exact absurd rfl hr
      | cons n r => exact hv p hp n r
    · by_cases h : ∃ p ∈ C, Below q p
      · obtain ⟨p, hp, hb⟩ := h
        rw [ha.above p q hp hb]
        unfold fileAt
        generalize he : nodeAt _ q = x
        cases x with
        | none => rfl
        | some x =>
          obtain ⟨es', -, rfl⟩ := hydrate_above _ _ (wf_map C hn _) q hq0
            ⟨p, by rwa [keys_map], hb⟩ x he
          rfl
      · unfold fileAt
        rw [hydrate_unchanged _ _ (wf_map C hn _) q hq0]
        · intro p hp _ h1; rw [keys_map] at hp; exact hup ⟨p, hp, h1⟩
        · intro p hp hb; rw [keys_map] at hp; exact h ⟨p, hp, hb⟩

theorem nodup_pathsTouched (c : TreeCommit) : c.pathsTouched.Nodup := by
  unfold TreeCommit.pathsTouched getChangedPathsBetweenTrees
  split <;> exact List.nodup_dedup _

theorem nil_pathsTouched (c : TreeCommit) : [] ∉ c.pathsTouched := by
  have : ∀ l r : Tree, ¬ NodeDiffers (nodeAt l []) (nodeAt r []) := by
    rintro l r (h | ⟨m, es, m', es', h1, h2, hne⟩)
    · exact h rfl
    · simp only [nodeAt, inside, Option.some.injEq, Node.dir.injEq] at h1 h2
      exact hne (h1.1.symm.trans h2.1)
  rw [touched_exact]
  rintro (⟨-, h⟩ | ⟨p, -, h⟩) <;> exact this _ _ h

theorem plain_nil : Plain [] := by
  constructor
  · intro p m es h
    cases p with
    | nil =>
      simp only [nodeAt, inside, Option.some.injEq, Node.dir.injEq] at h
      exact h.1.symm
    | cons n p => rw [nodeAt_nil _ (by simp)] at h; cases h
  · intro p m o h
    cases p with
    | nil => simp [nodeAt, inside] at h
    | cons n p => rw [nodeAt_nil _ (by simp)] at h; cases h

/-- The paths touched by a commit with at most one parent. -/
theorem touched_files {c : TreeCommit} (hl : c.parents.length ≤ 1) (hb : Plain (c.parents.headD []))
    (ht : Plain c.tree) (p : TreePath) :
    p ∈ c.pathsTouched ↔ fileAt (c.parents.headD []) p ≠ fileAt c.tree p := by
  rw [TreeCommit.pathsTouched]
  cases hps : c.parents with
  | nil =>
    rw [hps] at hb
    simp only [if_true]
    exact changed_files_exact _ _ hb.dirs ht.dirs p
  | cons x xs =>
    rw [hps] at hl hb
    have : xs = [] := by cases xs with | nil => rfl | cons y ys => simp at hl
    subst this
    simp only [reduceCtorEq, if_false, List.mem_dedup, List.flatMap_cons, List.flatMap_nil,
      List.append_nil]
    exact changed_files_exact _ _ hb.dirs ht.dirs p

/-- The files after an amend. -/
theorem amend_files {content : Option File → File → File → Option File} {parent : TreeCommit}
    {opts : AmendFastOptions} {new : AMap TreePath (Option Node)} (hp : Plain parent.tree)
    (h0 : [] ∉ opts.paths)
    (ha : Apart (fun p => TouchedBy parent p ∨ p ∈ opts.paths) parent.tree)
    (hnew : opts.newEntries content parent = .ok new)
    (hk : ∀ p v, AMap.get? new p = some v → p ∈ opts.paths)
    (hv : ∀ p v, AMap.get? new p = some v → ∀ n r, fileOf (v.bind (inside · (n :: r))) = none) :
    ∃ r, amendFast content parent opts = .ok r ∧ ∀ q, fileAt r q =
      match AMap.get? new q with
      | some v => fileOf v
      | none => fileAt parent.tree q := by
  unfold amendFast
  rw [hnew]
  simp only
  refine ⟨_, rfl, fun q => ?_⟩
  have hmem : ∀ p, p ∈ (parent.pathsTouched ++ opts.paths).dedup ↔
      TouchedBy parent p ∨ p ∈ opts.paths := by
    intro p; rw [List.mem_dedup, List.mem_append, touched_exact]
  have h0' : [] ∉ (parent.pathsTouched ++ opts.paths).dedup := by
    rw [List.mem_dedup, List.mem_append]
    rintro (h | h)
    · exact nil_pathsTouched _ h
    · exact h0 h
  have ha' : Apart (· ∈ (parent.pathsTouched ++ opts.paths).dedup) parent.tree := by
    simpa only [hmem] using ha
  have hdn : ∀ p ∈ (parent.pathsTouched ++ opts.paths).dedup,
      (getPath (dehydrateTree parent.tree (parent.pathsTouched ++ opts.paths).dedup) p).map
        Node.normalize = nodeAt parent.tree p := by
    intro p hp'
    have := nodeAt_dehydrate hp (List.nodup_dedup _) h0' ha'.paths hp' []
    rw [List.append_nil] at this
    rw [getPath_eq _ _ (fun e => h0' (e ▸ hp')), this, hp.normalize]
  rw [fileAt_hydrate (List.nodup_dedup _) h0' ha'
    (fun p => (AMap.get? new p).getD
      ((getPath (dehydrateTree parent.tree (parent.pathsTouched ++ opts.paths).dedup) p).map
        Node.normalize))]
  · split
    · rename_i hq
      cases e : AMap.get? new q with
      | some v => rfl
      | none => simp only [Option.getD_none]; rw [hdn q hq]; rfl
    · rename_i hq
      cases e : AMap.get? new q with
      | some v => exact absurd ((hmem q).2 (.inr (hk q v e))) hq
      | none => rfl
  · intro p hp' n r
    cases e : AMap.get? new p with
    | some v => exact hv p v e n r
    | none =>
      simp only [Option.getD_none]
      rw [hdn p hp']
      have := ha'.below p (p ++ n :: r) hp' ⟨n, r, rfl⟩
      unfold fileAt nodeAt at this
      rwa [inside_append] at this

theorem get?_map {β : Type} (C : List TreePath) (val : TreePath → β) (p : TreePath) :
    AMap.get? (C.map fun p => (p, val p)) p = if p ∈ C then some (val p) else none := by
  induction C with
  | nil => simp
  | cons q C ih =>
    rw [List.map_cons, AMap.get?_cons, ih]
    by_cases h : q = p
    · subst h; simp
    · have h' : ¬ p = q := fun e => h e.symm
      simp [h, h']

/-- The entries from the working copy. -/
theorem workingCopy_mapM {wc : WorkingCopy} {status : AMap TreePath Nat}
    {new : AMap TreePath (Option Node)} (h : status.mapM (workingCopyEntry wc) = .ok new) (p : TreePath) :
    match AMap.get? new p with
    | none => p ∉ AMap.keys status
    | some v => ∃ m blob, AMap.get? status p = some m ∧ createBlobFromPath wc p = .ok blob ∧
        v = blob.map fun o => Node.leaf m o := by
  induction status generalizing new with
  | nil =>
    simp only [List.mapM_nil, pure, Except.pure, Except.ok.injEq] at h
    subst h
    simp [AMap.keys]
  | cons e status ih =>
    rw [List.mapM_cons] at h
    unfold workingCopyEntry at h
    cases hb : createBlobFromPath wc e.1 with
    | error u =>
      rw [hb] at h
      simp [bind, Except.bind] at h
    | ok blob =>
      rw [hb] at h
      cases hs : status.mapM (workingCopyEntry wc) with
      | error u =>
        have hs' := hs
        unfold workingCopyEntry at hs'
        rw [hs'] at h
        simp [bind, Except.bind] at h
      | ok new' =>
        have hs' := hs
        unfold workingCopyEntry at hs'
        rw [hs'] at h
        simp only [bind, Except.bind, pure, Except.pure, Except.ok.injEq] at h
        subst h
        have := ih hs
        rw [AMap.get?_cons]
        obtain ⟨k, m⟩ := e
        by_cases hk : k = p
        · subst hk
          simp only [if_true]
          exact ⟨m, blob, by simp [AMap.get?_cons], hb, rfl⟩
        · simp only [hk, if_false, AMap.get?_cons]
          cases hg : AMap.get? new' p with
          | none =>
            rw [hg] at this
            simp only [AMap.keys, List.map_cons, List.mem_cons, not_or] at this ⊢
            exact ⟨fun e => hk e.symm, this⟩
          | some v => rw [hg] at this; exact this

end Verif.Spec
