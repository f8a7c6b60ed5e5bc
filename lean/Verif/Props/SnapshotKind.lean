import Verif.Props.SnapshotRestore

/-!
C32: the kind of changes in the working copy, as told by a snapshot, and what `record` does with it.
-/

namespace Verif.Props

open Verif Verif.Spec

/-! ### the same files -/

theorem fileOf_of_label {x y : Option Node} (h : treeLabel x = treeLabel y) : fileOf x = fileOf y := by
  rcases x with _ | (⟨m, o⟩ | ⟨m, es⟩) <;> rcases y with _ | (⟨m', o'⟩ | ⟨m', es'⟩) <;>
    simp_all [treeLabel, fileOf]

theorem inside_append (x : Node) (p q : TreePath) : inside x (p ++ q) = (inside x p).bind (inside · q) := by
  induction p generalizing x with
  | nil => simp [inside]
  | cons n p ih =>
    cases x with
    | leaf m o => simp [inside]
    | dir m es =>
      simp only [List.cons_append, inside]
      cases AMap.get? es n with
      | none => rfl
      | some y => exact ih y

theorem sizeOf_child {m : Nat} {es : Tree} {n : Text} {x : Node} (h : AMap.get? es n = some x) :
    sizeOf x < sizeOf (Node.dir m es) := by
  have h1 := List.sizeOf_lt_of_mem (AMap.mem_of_get? h)
  have h2 : sizeOf (Node.dir m es) = 1 + sizeOf m + sizeOf es := by simp
  have h3 : sizeOf (n, x) = 1 + sizeOf n + sizeOf x := rfl
  omega

/-- There is a file in each directory. -/
theorem solid_has_file {t : Tree} (ht : Solid t) (k : Nat) : ∀ (p : TreePath) (m : Nat) (es : Tree), p ≠ [] →
    nodeAt t p = some (.dir m es) → sizeOf (Node.dir m es) ≤ k →
    ∃ q, Below p q ∧ fileAt t q ≠ none := by
  induction k with
  | zero =>
    intro p m es _ _ hk
    have h2 : sizeOf (Node.dir m es) = 1 + sizeOf m + sizeOf es := by simp
    omega
  | succ k ih =>
    intro p m es hp h hk
    obtain ⟨-, hne⟩ := ht p m es hp h
    cases es with
    | nil => exact absurd rfl hne
    | cons e es =>
      obtain ⟨n, x⟩ := e
      have hget : AMap.get? ((n, x) :: es) n = some x := by simp [AMap.get?_cons]
      have hx : nodeAt t (p ++ [n]) = some x := by
        unfold nodeAt at h ⊢
        rw [inside_append, h]
        simp [inside, hget]
      cases x with
      | leaf md o =>
        refine ⟨p ++ [n], ⟨n, [], rfl⟩, ?_⟩
        simp [fileAt, hx, fileOf]
      | dir md es' =>
        have hs := sizeOf_child (m := m) hget
        obtain ⟨q, ⟨a, b, rfl⟩, hq⟩ := ih (p ++ [n]) md es' (by simp) hx (by omega)
        exact ⟨_, ⟨n, a :: b, by simp⟩, hq⟩

theorem below_file_none {t : Tree} {p q : TreePath} (hb : Below p q)
    (h : ∀ m es, nodeAt t p ≠ some (.dir m es)) : fileAt t q = none := by
  obtain ⟨n, r, rfl⟩ := hb
  unfold fileAt nodeAt
  rw [inside_append]
  cases e : inside (.dir modeTree t) p with
  | none => rfl
  | some x =>
    cases x with
    | leaf m o => rfl
    | dir m es => exact absurd e (h m es)

/-- Trees without empty directories are the same if they have the same files. -/
theorem sameTree_iff {t t' : Tree} (ht : Solid t) (ht' : Solid t') :
    SameTree t t' ↔ ∀ p, fileAt t p = fileAt t' p := by
  constructor
  · intro h p
    exact fileOf_of_label (h p)
  · intro h p
    cases p with
    | nil => rfl
    | cons n p =>
      have key : ∀ {t t' : Tree}, Solid t → (∀ p, fileAt t p = fileAt t' p) → ∀ m es,
          nodeAt t (n :: p) = some (.dir m es) → ∃ m' es', nodeAt t' (n :: p) = some (.dir m' es') := by
        intro t t' ht h m es hd
        obtain ⟨q, hb, hq⟩ := solid_has_file ht _ (n :: p) m es (by simp) hd (Nat.le_refl _)
        by_contra hno
        rw [h q, below_file_none hb fun m' es' e => hno ⟨m', es', e⟩] at hq
        exact hq rfl
      have hf := h (n :: p)
      unfold fileAt at hf
      rcases h1 : nodeAt t (n :: p) with _ | (⟨m, o⟩ | ⟨m, es⟩) <;>
        rcases h2 : nodeAt t' (n :: p) with _ | (⟨m', o'⟩ | ⟨m', es'⟩)
      · rfl
      · rw [h1, h2] at hf; cases hf
      · obtain ⟨a, b, e⟩ := key ht' (fun p => (h p).symm) _ _ h2
        rw [h1] at e; cases e
      · rw [h1, h2] at hf; cases hf
      · rw [h1, h2] at hf
        simp only [fileOf, Option.some.injEq, Prod.mk.injEq] at hf
        simp [treeLabel, hf]
      · obtain ⟨a, b, e⟩ := key ht' (fun p => (h p).symm) _ _ h2
        rw [h1] at e; cases e
      · obtain ⟨a, b, e⟩ := key ht h _ _ h1
        rw [h2] at e; cases e
      · obtain ⟨a, b, e⟩ := key ht h _ _ h1
        rw [h2] at e; cases e
      · simp [treeLabel, (ht _ _ _ (by simp) h1).1, (ht' _ _ _ (by simp) h2).1]

/-! ### the kind of changes -/

/-- The trees of a snapshot. -/
def snapshotTrees (s : WcSnapshot) : List Tree :=
  [s.base.tree, s.unstaged.tree, s.stage0.tree, s.stage1.tree, s.stage2.tree, s.stage3.tree]

/-- The index has a conflict which differs from `HEAD`. -/
def HasConflict (head : Tree) (index : GitIndex) : Prop :=
  ∃ p stage, Conflicted index p ∧ stage ≠ Stage.stage0 ∧
    AMap.get? index (p, stage) ≠ entryOf (fileAt head p)

/-- The index differs from `HEAD`. -/
def HasStaged (head : Tree) (index : GitIndex) : Prop :=
  ∃ p, AMap.get? index (p, .stage0) ≠ entryOf (fileAt head p)

/-- A tracked file of the working copy differs from `HEAD`. -/
def HasUnstaged (head : Tree) (index : GitIndex) (wc : WorkingCopy) (mode : TreePath → Nat) : Prop :=
  ∃ p, Tracked head index p ∧ workFile wc mode p ≠ fileAt head p

theorem changesType_eq {r : SnapRepo} {s : WcSnapshot} {C S U : Prop}
    (hC : C ↔ r.treeId s.base.tree ≠ r.treeId s.stage1.tree ∨ r.treeId s.base.tree ≠ r.treeId s.stage2.tree ∨
      r.treeId s.base.tree ≠ r.treeId s.stage3.tree)
    (hS : S ↔ r.treeId s.base.tree ≠ r.treeId s.stage0.tree)
    (hU : U ↔ r.treeId s.base.tree ≠ r.treeId s.unstaged.tree) :
    (s.changesType r = .conflicts ↔ C) ∧ (s.changesType r = .staged ↔ ¬ C ∧ S) ∧
    (s.changesType r = .unstaged ↔ ¬ C ∧ ¬ S ∧ U) ∧ (s.changesType r = .none ↔ ¬ C ∧ ¬ S ∧ ¬ U) := by
  unfold WcSnapshot.changesType
  simp only [Bool.or_eq_true, decide_eq_true_eq, or_assoc]
  by_cases c : C
  · rw [if_pos (hC.1 c)]; simp [c]
  · rw [if_neg fun h => c (hC.2 h)]
    by_cases s : S
    · rw [if_pos (hS.1 s)]; simp [c, s]
    · rw [if_neg fun h => s (hS.2 h)]
      by_cases u : U
      · rw [if_pos (hU.1 u)]; simp [c, s, u]
      · rw [if_neg fun h => u (hU.2 h)]; simp [c, s, u]

theorem differs_iff {r : SnapRepo} {ts : List Tree} (hx : TreeIdsExact r ts) {t t' : Tree} (h : t ∈ ts)
    (h' : t' ∈ ts) (hs : Solid t) (hs' : Solid t') :
    r.treeId t ≠ r.treeId t' ↔ ∃ p, fileAt t' p ≠ fileAt t p := by
  rw [ne_eq, hx t h t' h', sameTree_iff hs hs', not_forall]
  exact ⟨fun ⟨p, hp⟩ => ⟨p, Ne.symm hp⟩, fun ⟨p, hp⟩ => ⟨p, Ne.symm hp⟩⟩

/-- **C32.** The kind of changes is exact: conflicts if there is a path in conflict which differs from `HEAD`
in some stage; otherwise staged changes if the index differs from `HEAD`; otherwise unstaged changes if a
tracked file of the working copy differs from `HEAD`; otherwise none. -/
theorem changes_type_partial {r r' : SnapRepo} {index : GitIndex} {headOid : Option Oid}
    {headRef : Option Text} {wc : WorkingCopy} {mode : TreePath → Nat} {es : List StatusEntry}
    {s : WcSnapshot} {head : Tree}
    (h : createSnapshot r index headOid headRef wc es = .ok (r', s))
    (hh : (s.head.map (·.tree)).getD [] = head) (hx : TreeIdsExact r' (snapshotTrees s)) (hsol : Solid head)
    (hi : ValidIndex index) (hr : ReportsIndex head index es) (hnr : NoRenames es)
    (hnn : NoNesting head index) (hw : ReportsWork head index wc mode es) (hm : ∀ p, mode p ≠ 0)
    (hl : ∀ p b t, AMap.get? wc p ≠ some (.link b t)) :
    (s.changesType r' = .conflicts ↔ HasConflict head index) ∧
    (s.changesType r' = .staged ↔ ¬ HasConflict head index ∧ HasStaged head index) ∧
    (KnownChanges es →
      (s.changesType r' = .unstaged ↔
        ¬ HasConflict head index ∧ ¬ HasStaged head index ∧ HasUnstaged head index wc mode) ∧
      (s.changesType r' = .none ↔
        ¬ HasConflict head index ∧ ¬ HasStaged head index ∧ ¬ HasUnstaged head index wc mode)) := by
  have hc := created h
  have hbase : s.base.tree = head := by rw [hc.baseTree, hh]
  have hstage : ∀ stage, (s.stageCommit stage).tree = hydrateTree head (stageEntries index stage es) := by
    intro stage
    rw [hc.stageTree stage]
    unfold stageTree
    rw [hh]
  have hsolS : ∀ stage, Solid (s.stageCommit stage).tree := by
    intro stage
    rw [hstage]
    exact solid_stageTree hi hr hsol stage
  have hsolU : Solid s.unstaged.tree := solid_unstaged hc.unstagedTree (by rw [hh]; exact hsol)
  have hfile := stage_file h hh hi hr hnr hnn
  have hmem : ∀ stage, (s.stageCommit stage).tree ∈ snapshotTrees s := by
    intro stage; cases stage <;> simp [snapshotTrees, WcSnapshot.stageCommit]
  have hbm : s.base.tree ∈ snapshotTrees s := by simp [snapshotTrees]
  have hum : s.unstaged.tree ∈ snapshotTrees s := by simp [snapshotTrees]
  have hsolB : Solid s.base.tree := by rw [hbase]; exact hsol
  have hne : ∀ p stage, fileOfEntry (AMap.get? index (p, stage)) ≠ fileAt head p ↔
      AMap.get? index (p, stage) ≠ entryOf (fileAt head p) := by
    intro p stage
    constructor
    · intro h1 e
      exact h1 (entryOf_injective (by rw [hi.entryOf, e]))
    · intro h1 e
      exact h1 (by rw [← e, hi.entryOf])
  have hstg : ∀ stage, stage ≠ Stage.stage0 →
      (r'.treeId s.base.tree ≠ r'.treeId (s.stageCommit stage).tree ↔
        ∃ p, Conflicted index p ∧ AMap.get? index (p, stage) ≠ entryOf (fileAt head p)) := by
    intro stage hs0
    rw [differs_iff hx hbm (hmem stage) hsolB (hsolS stage), hbase]
    refine exists_congr fun p => ?_
    by_cases hcf : Conflicted index p
    · rw [(hfile p stage).1 (.inr hcf), hne]
      exact ⟨fun h => ⟨hcf, h⟩, fun h => h.2⟩
    · rw [(hfile p stage).2 (by rintro (h | h); exacts [hs0 h, hcf h])]
      exact ⟨fun h => absurd rfl h, fun h => absurd h.1 hcf⟩
  have hC : HasConflict head index ↔ r'.treeId s.base.tree ≠ r'.treeId s.stage1.tree ∨
      r'.treeId s.base.tree ≠ r'.treeId s.stage2.tree ∨ r'.treeId s.base.tree ≠ r'.treeId s.stage3.tree := by
    have h1 := hstg .stage1 (by decide)
    have h2 := hstg .stage2 (by decide)
    have h3 := hstg .stage3 (by decide)
    simp only [WcSnapshot.stageCommit] at h1 h2 h3
    rw [h1, h2, h3]
    constructor
    · rintro ⟨p, stage, hcf, hs0, hd⟩
      cases stage with
      | stage0 => exact absurd rfl hs0
      | stage1 => exact .inl ⟨p, hcf, hd⟩
      | stage2 => exact .inr (.inl ⟨p, hcf, hd⟩)
      | stage3 => exact .inr (.inr ⟨p, hcf, hd⟩)
    · rintro (⟨p, hcf, hd⟩ | ⟨p, hcf, hd⟩ | ⟨p, hcf, hd⟩)
      · exact ⟨p, .stage1, hcf, by decide, hd⟩
      · exact ⟨p, .stage2, hcf, by decide, hd⟩
      · exact ⟨p, .stage3, hcf, by decide, hd⟩
  have hS : HasStaged head index ↔ r'.treeId s.base.tree ≠ r'.treeId s.stage0.tree := by
    have h0 := differs_iff hx hbm (hmem .stage0) hsolB (hsolS .stage0)
    simp only [WcSnapshot.stageCommit] at h0
    rw [h0, hbase]
    refine exists_congr fun p => ?_
    have h1 := (hfile p .stage0).1 (.inl rfl)
    simp only [WcSnapshot.stageCommit] at h1
    rw [h1, hne]
  have hU : KnownChanges es → (HasUnstaged head index wc mode ↔
      r'.treeId s.base.tree ≠ r'.treeId s.unstaged.tree) := by
    intro hk
    rw [differs_iff hx hbm hum hsolB hsolU, hbase]
    refine exists_congr fun p => ?_
    have h1 := working_copy_stored_partial h hh hw hm hk hl hnr hnn p
    by_cases ht : Tracked head index p
    · rw [h1.1 ht]
      exact ⟨fun h => h.2, fun h => ⟨ht, h⟩⟩
    · rw [h1.2 ht]
      constructor
      · intro h; exact absurd h.1 ht
      · intro h
        exact absurd (.inl (Ne.symm h)) ht
  have key1 := changesType_eq (r := r') (s := s) hC hS (U := r'.treeId s.base.tree ≠ r'.treeId s.unstaged.tree)
    Iff.rfl
  refine ⟨key1.1, key1.2.1, fun hk => ?_⟩
  have key2 := changesType_eq (r := r') (s := s) hC hS (hU hk)
  exact ⟨key2.2.2.1, key2.2.2.2⟩

/-- A conflict as git makes it: the stages of each path in conflict are not all the same. -/
def RealConflicts (index : GitIndex) : Prop :=
  ∀ p, Conflicted index p → ∃ s t, s ≠ Stage.stage0 ∧ t ≠ Stage.stage0 ∧
    AMap.get? index (p, s) ≠ AMap.get? index (p, t)

theorem hasConflict_iff {head : Tree} {index : GitIndex} (h : RealConflicts index) :
    HasConflict head index ↔ ∃ p, Conflicted index p := by
  constructor
  · rintro ⟨p, s, hc, -, -⟩; exact ⟨p, hc⟩
  · rintro ⟨p, hc⟩
    obtain ⟨s, t, hs, ht, hne⟩ := h p hc
    by_cases h1 : AMap.get? index (p, s) = entryOf (fileAt head p)
    · exact ⟨p, t, hc, ht, fun h2 => hne (h1.trans h2.symm)⟩
    · exact ⟨p, s, hc, hs, h1⟩

/-- **C32.** What `record` does: it refuses if there is a conflict; it commits what is staged if something is
staged (or refuses, if the changes are to be selected); it commits all changes (or lets select them) if
something is changed in the working copy; and otherwise says that there is nothing to commit. -/
theorem record_action_partial {r r' : SnapRepo} {index : GitIndex} {headOid : Option Oid}
    {headRef : Option Text} {wc : WorkingCopy} {mode : TreePath → Nat} {es : List StatusEntry}
    {s : WcSnapshot} {head : Tree}
    (h : createSnapshot r index headOid headRef wc es = .ok (r', s))
    (hh : (s.head.map (·.tree)).getD [] = head) (hx : TreeIdsExact r' (snapshotTrees s)) (hsol : Solid head)
    (hi : ValidIndex index) (hreal : RealConflicts index) (hr : ReportsIndex head index es)
    (hnr : NoRenames es) (hnn : NoNesting head index) (hw : ReportsWork head index wc mode es)
    (hm : ∀ p, mode p ≠ 0) (hk : KnownChanges es ∨ ∃ p, Conflicted index p)
    (hl : ∀ p b t, AMap.get? wc p ≠ some (.link b t)) (interactive : Bool) :
    ((∃ p, Conflicted index p) → recordAction interactive (s.changesType r') = .refused) ∧
    ((∀ p, ¬ Conflicted index p) →
      (HasStaged head index →
        recordAction interactive (s.changesType r') = if interactive then .refused else .commit false) ∧
      (¬ HasStaged head index → HasUnstaged head index wc mode →
        recordAction interactive (s.changesType r') = if interactive then .select else .commit true) ∧
      (¬ HasStaged head index → ¬ HasUnstaged head index wc mode →
        recordAction interactive (s.changesType r') = .nothing)) := by
  obtain ⟨k1, k2, k3⟩ := changes_type_partial h hh hx hsol hi hr hnr hnn hw hm hl
  rw [hasConflict_iff hreal] at k1 k2 k3
  constructor
  · intro hc
    rw [k1.2 hc]; rfl
  · intro hc
    have hc' : ¬ ∃ p, Conflicted index p := fun ⟨p, hp⟩ => hc p hp
    have hk' : KnownChanges es := hk.resolve_right hc'
    refine ⟨fun hs => ?_, fun hs hu => ?_, fun hs hu => ?_⟩
    · rw [k2.2 ⟨hc', hs⟩]; rfl
    · rw [(k3 hk').1.2 ⟨hc', hs, hu⟩]; rfl
    · rw [(k3 hk').2.2 ⟨hc', hs, hu⟩]; rfl

end Verif.Props
