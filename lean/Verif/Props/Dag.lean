import Verif.Lemmas.Dag
import Verif.Props.Evolve

/-! C14 (visible, draft and public commits), C15 (connected components), C51 (stacks). -/

namespace Verif.Props

open Verif Spec

/-! ## C14 -/

/-- What keeps a commit and its ancestors visible: it is checked out, or the main branch or another
branch is on it, or its last event (before the cursor) made it active. -/
def Anchor (mb : Text) (es : List Event) (c : Nat) (refs : Replayer.RefsSnapshot) (h : Oid) : Prop :=
  refs.headOid = some h ∨ refs.mainBranchOid = h ∨
  (∃ names, AMap.get? refs.branchOidToNames h = some names) ∨
  (lastEffect h (before mb es c)).map Prod.snd = some true

/-- The graph as the code opens it for a history, a cursor and the positions of the references. -/
abbrev openDag (g : CommitGraph Oid) (mb : Text) (es : List Event) (c : Nat)
    (refs : Replayer.RefsSnapshot) : Dag :=
  Dag.openWithoutSyncing g (Replayer.fromEvents mb es) ⟨c⟩ refs

theorem mem_observed_diff (g : CommitGraph Oid) (mb : Text) (es : List Event) (c : Nat)
    (refs : Replayer.RefsSnapshot) (h : Oid) :
    h ∈ CommitGraph.diff (openDag g mb es c refs).observedCommits
      (openDag g mb es c refs).obsoleteCommits ↔
    (lastEffect h (before mb es c)).map Prod.snd = some true := by
  have h1 := cursor_oids_exact mb es c h
  have h2 := activity_status_exact mb es c h
  simp only at h1 h2
  rw [mem_diff]
  simp only [openDag, Dag.openWithoutSyncing, List.mem_filter, h1]
  unfold before
  cases hl : lastEffect h ((Replayer.fromEvents mb es).events.take c) with
  | none => rw [hl] at h2; simp only at h2; simp [h2]
  | some x =>
    obtain ⟨e, b⟩ := x
    rw [hl] at h2
    cases b <;> simp only at h2 <;> simp [h2]

theorem mem_anchors (g : CommitGraph Oid) (mb : Text) (es : List Event) (c : Nat)
    (refs : Replayer.RefsSnapshot) (h : Oid) :
    let d := openDag g mb es c refs
    h ∈ CommitGraph.diff d.observedCommits d.obsoleteCommits ++ d.headCommit
      ++ d.mainBranchCommit ++ d.branchCommits ↔ Anchor mb es c refs h := by
  intro d
  simp only [List.mem_append, d, mem_observed_diff]
  have hh : h ∈ (openDag g mb es c refs).headCommit ↔ refs.headOid = some h := by
    simp only [openDag, Dag.openWithoutSyncing]
    cases refs.headOid with
    | none => simp
    | some o => simp [eq_comm]
  have hm : h ∈ (openDag g mb es c refs).mainBranchCommit ↔ refs.mainBranchOid = h := by
    simp [openDag, Dag.openWithoutSyncing, eq_comm]
  have hb : h ∈ (openDag g mb es c refs).branchCommits ↔
      ∃ names, AMap.get? refs.branchOidToNames h = some names := by
    simp only [openDag, Dag.openWithoutSyncing, AMap.mem_keys_iff, Option.isSome_iff_exists]
  rw [hh, hm, hb]
  unfold Anchor
  constructor
  · rintro (((h | h) | h) | h)
    · exact .inr (.inr (.inr h))
    · exact .inl h
    · exact .inr (.inl h)
    · exact .inr (.inr (.inl h))
  · rintro (h | h | h | h)
    · exact .inl (.inl (.inr h))
    · exact .inl (.inr h)
    · exact .inr h
    · exact .inl (.inl (.inl h))

/-- C14: a commit is visible iff it is an ancestor of `HEAD`, of the main branch, of a branch, or
of a commit which was observed and is not obsolete. -/
theorem visible_exact (g : CommitGraph Oid) (hg : WFGraph g) (mb : Text) (es : List Event) (c : Nat)
    (refs : Replayer.RefsSnapshot) (a : Oid) :
    a ∈ (openDag g mb es c refs).visibleCommits ↔
      a ∈ g.nodes ∧ ∃ h, Anchor mb es c refs h ∧ Anc g a h := by
  unfold Dag.visibleCommits Dag.visibleHeads
  have : (openDag g mb es c refs).graph = g := rfl
  rw [this, mem_ancestors_heads hg]
  refine and_congr Iff.rfl (exists_congr fun h => and_congr ?_ Iff.rfl)
  exact mem_anchors g mb es c refs h

/-- C14: filtering a set keeps exactly its visible commits. -/
theorem filter_visible_exact (g : CommitGraph Oid) (hg : WFGraph g) (mb : Text) (es : List Event)
    (c : Nat) (refs : Replayer.RefsSnapshot) (s : List Oid) (a : Oid) :
    a ∈ (openDag g mb es c refs).filterVisibleCommits s ↔
      a ∈ s ∧ a ∈ (openDag g mb es c refs).visibleCommits := by
  unfold Dag.filterVisibleCommits Dag.visibleCommits
  have : (openDag g mb es c refs).graph = g := rfl
  rw [this, mem_inter, mem_range hg, mem_ancestors hg]
  constructor
  · rintro ⟨h1, h2, _, h3⟩; exact ⟨h1, h2, h3⟩
  · rintro ⟨h1, h2, h3⟩; exact ⟨h1, h2, ⟨a, h1, .refl⟩, h3⟩

/-- C14: the public commits are the ancestors of the main branch, by both functions. -/
theorem public_exact (g : CommitGraph Oid) (hg : WFGraph g) (mb : Text) (es : List Event) (c : Nat)
    (refs : Replayer.RefsSnapshot) (a : Oid) :
    let d := openDag g mb es c refs
    (a ∈ d.publicCommits ↔ a ∈ g.nodes ∧ Anc g a refs.mainBranchOid) ∧
    (d.isPublicCommit a = true ↔ a ∈ g.nodes ∧ Anc g a refs.mainBranchOid) := by
  intro d
  have e1 : d.graph = g := rfl
  have e2 : d.mainBranchCommit = [refs.mainBranchOid] := rfl
  constructor
  · unfold Dag.publicCommits
    rw [e1, e2, mem_ancestors hg]; simp
  · unfold Dag.isPublicCommit
    rw [e1, e2]; simp [isAncestor_iff hg]

/-- C14: the draft commits are the visible ones which are not public. -/
theorem draft_exact (g : CommitGraph Oid) (hg : WFGraph g) (mb : Text) (es : List Event) (c : Nat)
    (refs : Replayer.RefsSnapshot) (a : Oid) :
    let d := openDag g mb es c refs
    a ∈ d.draftCommits ↔ a ∈ d.visibleCommits ∧ a ∉ d.publicCommits := by
  intro d
  have e1 : d.graph = g := rfl
  unfold Dag.draftCommits Dag.visibleCommits Dag.publicCommits
  rw [e1]
  exact mem_diff

/-- C14: public and draft commits together are the visible ones, and no commit is both. -/
theorem public_draft_partition (g : CommitGraph Oid) (hg : WFGraph g) (mb : Text) (es : List Event)
    (c : Nat) (refs : Replayer.RefsSnapshot) (a : Oid) :
    let d := openDag g mb es c refs
    (a ∈ d.visibleCommits ↔ a ∈ d.publicCommits ∨ a ∈ d.draftCommits) ∧
    ¬ (a ∈ d.publicCommits ∧ a ∈ d.draftCommits) := by
  intro d
  have h1 := draft_exact g hg mb es c refs a
  have h2 := (public_exact g hg mb es c refs a).1
  simp only at h1 h2
  refine ⟨⟨fun h => ?_, ?_⟩, fun h => (h1.1 h.2).2 h.1⟩
  · by_cases hp : a ∈ d.publicCommits
    · exact .inl hp
    · exact .inr (h1.2 ⟨h, hp⟩)
  · rintro (h | h)
    · have := h2.1 h
      exact (visible_exact g hg mb es c refs a).2 ⟨this.1, _, .inr (.inl rfl), this.2⟩
    · exact (h1.1 h).1

/-- C14: with `clear_obsolete_commits` every observed commit counts as active. -/
theorem clear_obsolete_exact (g : CommitGraph Oid) (hg : WFGraph g) (mb : Text) (es : List Event)
    (c : Nat) (refs : Replayer.RefsSnapshot) (a : Oid) :
    a ∈ (openDag g mb es c refs).clearObsoleteCommits.visibleCommits ↔
      a ∈ g.nodes ∧ ∃ h, (Anchor mb es c refs h ∨ (lastEffect h (before mb es c)).isSome) ∧
        Anc g a h := by
  unfold Dag.visibleCommits Dag.visibleHeads
  have : (openDag g mb es c refs).clearObsoleteCommits.graph = g := rfl
  rw [this, mem_ancestors_heads hg]
  refine and_congr Iff.rfl (exists_congr fun h => and_congr ?_ Iff.rfl)
  have hm := mem_anchors g mb es c refs h
  have h1 := cursor_oids_exact mb es c h
  have h2 := activity_status_exact mb es c h
  simp only at h1 h2
  have hobs : h ∈ (openDag g mb es c refs).observedCommits ↔ (lastEffect h (before mb es c)).isSome := by
    have : (openDag g mb es c refs).observedCommits = (Replayer.fromEvents mb es).cursorOids ⟨c⟩ := rfl
    rw [this, h1, h2]
    unfold before
    cases hl : lastEffect h ((Replayer.fromEvents mb es).events.take c) with
    | none => simp
    | some x => obtain ⟨e, b⟩ := x; cases b <;> simp
  simp only at hm
  rw [← hm, ← hobs]
  simp only [Dag.clearObsoleteCommits, List.mem_append, mem_diff, List.not_mem_nil, not_false_eq_true,
    and_true]
  constructor
  · rintro (((h | h) | h) | h)
    · exact .inr h
    · exact .inl (.inl (.inl (.inr h)))
    · exact .inl (.inl (.inr h))
    · exact .inl (.inr h)
  · rintro ((((⟨h, _⟩ | h) | h) | h) | h)
    · exact .inl (.inl (.inl h))
    · exact .inl (.inl (.inr h))
    · exact .inl (.inr h)
    · exact .inr h
    · exact .inl (.inl (.inl h))

theorem before_now (mb : Text) (es : List Event) :
    before mb es (Replayer.fromEvents mb es).events.length = (Replayer.fromEvents mb es).events := by
  unfold before; exact List.take_of_length_le (Nat.le_refl _)

/-- The visible commits at the end of the log. -/
abbrev visibleNow (g : CommitGraph Oid) (mb : Text) (es : List Event) (refs : Replayer.RefsSnapshot) :
    List Oid :=
  (openDag g mb es (Replayer.fromEvents mb es).events.length refs).visibleCommits

theorem visible_now_exact (g : CommitGraph Oid) (hg : WFGraph g) (mb : Text) (es : List Event)
    (refs : Replayer.RefsSnapshot) (a : Oid) :
    a ∈ visibleNow g mb es refs ↔ a ∈ g.nodes ∧ ∃ h, (refs.headOid = some h ∨ refs.mainBranchOid = h ∨
      (∃ names, AMap.get? refs.branchOidToNames h = some names) ∨
      (lastEffect h es).map Prod.snd = some true) ∧ Anc g a h := by
  rw [visible_exact g hg]
  unfold Anchor
  simp only [before_now, lastEffect_events]

/-- C14: hiding a commit takes away only commits which were kept visible by it. -/
theorem hide_removes_only_ancestors (g : CommitGraph Oid) (hg : WFGraph g) (mb : Text)
    (es : List Event) (refs : Replayer.RefsSnapshot) (ts : Timestamp) (tx : TxId) (x a : Oid) :
    a ∈ visibleNow g mb (es ++ [.obsolete ts tx x]) refs ↔
      a ∈ g.nodes ∧ ∃ h, (refs.headOid = some h ∨ refs.mainBranchOid = h ∨
      (∃ names, AMap.get? refs.branchOidToNames h = some names) ∨
      (h ≠ x ∧ (lastEffect h es).map Prod.snd = some true)) ∧ Anc g a h := by
  rw [visible_now_exact g hg]
  refine and_congr Iff.rfl (exists_congr fun h => and_congr ?_ Iff.rfl)
  refine or_congr Iff.rfl (or_congr Iff.rfl (or_congr Iff.rfl ?_))
  rw [Replayer.lastEffect_append]
  by_cases hx : x = h
  · subst hx; simp [effectOn]
  · simp [effectOn, hx, Ne.symm hx]

/-- C14: hiding a commit on which there is no reference and which has no visible descendants, and
whose parents are visible anyway, removes exactly it. -/
theorem hide_removes_exactly (g : CommitGraph Oid) (hg : WFGraph g) (mb : Text)
    (es : List Event) (refs : Replayer.RefsSnapshot) (ts : Timestamp) (tx : TxId) (x : Oid)
    (hleaf : ∀ d, d ∈ visibleNow g mb es refs → Anc g x d → d = x)
    (hhead : refs.headOid ≠ some x) (hmain : refs.mainBranchOid ≠ x)
    (hbranch : AMap.get? refs.branchOidToNames x = none)
    (hknown : ∀ h, (refs.headOid = some h ∨ refs.mainBranchOid = h ∨
      (∃ names, AMap.get? refs.branchOidToNames h = some names) ∨
      (lastEffect h es).map Prod.snd = some true) → h ∈ g.nodes)
    (hparents : ∀ p, IsParent g p x → ∃ h, h ≠ x ∧ (refs.headOid = some h ∨ refs.mainBranchOid = h ∨
      (∃ names, AMap.get? refs.branchOidToNames h = some names) ∨
      (lastEffect h es).map Prod.snd = some true) ∧ Anc g p h) (a : Oid) :
    a ∈ visibleNow g mb (es ++ [.obsolete ts tx x]) refs ↔ a ∈ visibleNow g mb es refs ∧ a ≠ x := by
  rw [hide_removes_only_ancestors g hg]
  have hv := fun a => visible_now_exact g hg mb es refs a
  have weaken : ∀ h, (refs.headOid = some h ∨ refs.mainBranchOid = h ∨
      (∃ names, AMap.get? refs.branchOidToNames h = some names) ∨
      (h ≠ x ∧ (lastEffect h es).map Prod.snd = some true)) → h ≠ x ∧ (refs.headOid = some h ∨
      refs.mainBranchOid = h ∨ (∃ names, AMap.get? refs.branchOidToNames h = some names) ∨
      (lastEffect h es).map Prod.snd = some true) := by
    rintro h (h1 | h1 | h1 | ⟨h1, h2⟩)
    · exact ⟨fun e => hhead (e ▸ h1), .inl h1⟩
    · exact ⟨fun e => hmain (e ▸ h1), .inr (.inl h1)⟩
    · refine ⟨?_, .inr (.inr (.inl h1))⟩
      rintro rfl
      obtain ⟨n, h1⟩ := h1
      rw [hbranch] at h1; cases h1
    · exact ⟨h1, .inr (.inr (.inr h2))⟩
  have strengthen : ∀ h, h ≠ x → (refs.headOid = some h ∨
      refs.mainBranchOid = h ∨ (∃ names, AMap.get? refs.branchOidToNames h = some names) ∨
      (lastEffect h es).map Prod.snd = some true) → (refs.headOid = some h ∨ refs.mainBranchOid = h ∨
      (∃ names, AMap.get? refs.branchOidToNames h = some names) ∨
      (h ≠ x ∧ (lastEffect h es).map Prod.snd = some true)) := by
    rintro h hne (h1 | h1 | h1 | h1)
    · exact .inl h1
    · exact .inr (.inl h1)
    · exact .inr (.inr (.inl h1))
    · exact .inr (.inr (.inr ⟨hne, h1⟩))
  constructor
  · rintro ⟨ha, h, hh, hanc⟩
    obtain ⟨hne, hh'⟩ := weaken h hh
    refine ⟨(hv a).2 ⟨ha, h, hh', hanc⟩, ?_⟩
    rintro rfl
    exact hne (hleaf h ((hv h).2 ⟨hknown h hh', h, hh', .refl⟩) hanc)
  · rintro ⟨ha, hne⟩
    obtain ⟨ha, h, hh, hanc⟩ := (hv a).1 ha
    refine ⟨ha, ?_⟩
    by_cases hx : h = x
    · subst hx
      rcases anc_iff.1 hanc with rfl | ⟨p, hp, hanc⟩
      · exact absurd rfl hne
      · obtain ⟨h', hne', hh', hanc'⟩ := hparents p hp
        exact ⟨h', strengthen h' hne' hh', hanc.trans hanc'⟩
    · exact ⟨h, strengthen h hx hh, hanc⟩

/-- A graph for the examples: `A` is the main branch, `B` its child, `C` the child of `B`. -/
def lineGraph : CommitGraph Oid := ⟨[(oidC, [oidB]), (oidB, [oidA]), (oidA, [])]⟩

theorem wf_lineGraph : WFGraph lineGraph := by
  refine .cons (by decide) (by decide) (.cons (by decide) (by decide) (.cons (by decide) (by decide) .nil))

/-- A fourth commit for the examples. -/
def oidD : Oid := ⟨0xdd, by decide, by decide⟩

def lineRefs : Replayer.RefsSnapshot := ⟨some oidA, oidA, [(oidA, [t!"refs/heads/main"])]⟩

/-- `B` and `C` were made, `C` was hidden: `B` is visible and draft, `C` is not visible, `A` is
public. -/
example :
    let es := [.commit 1 (.id 1) oidB, .commit 2 (.id 2) oidC, .obsolete 3 (.id 3) oidC]
    let d := openDag lineGraph t!"refs/heads/main" es 3 lineRefs
    d.visibleCommits = [oidB, oidA] ∧ d.draftCommits = [oidB] ∧ d.publicCommits = [oidA] ∧
    (openDag lineGraph t!"refs/heads/main" es 2 lineRefs).visibleCommits = [oidC, oidB, oidA] := by
  decide

/-- The hypotheses of `hide_removes_exactly` hold for the top commit `C` of the line. -/
example (a : Oid) :
    let es := [.commit 1 (.id 1) oidB, .commit 2 (.id 2) oidC]
    a ∈ visibleNow lineGraph t!"refs/heads/main" (es ++ [.obsolete 3 (.id 3) oidC]) lineRefs ↔
      a ∈ visibleNow lineGraph t!"refs/heads/main" es lineRefs ∧ a ≠ oidC := by
  intro es
  have anch : ∀ h, (lineRefs.headOid = some h ∨ lineRefs.mainBranchOid = h ∨
      (∃ names, AMap.get? lineRefs.branchOidToNames h = some names) ∨
      (lastEffect h es).map Prod.snd = some true) → h = oidA ∨ h = oidB ∨ h = oidC := by
    intro h hh
    simp only [lineRefs, Option.some.injEq, AMap.get?_cons, AMap.get?_nil, es, lastEffect,
      effectOn, List.reverse_cons, List.reverse_nil, List.nil_append, List.singleton_append,
      List.findSome?_cons, List.findSome?_nil] at hh
    rcases hh with rfl | rfl | ⟨n, hn⟩ | hh
    · exact .inl rfl
    · exact .inl rfl
    · split at hn
      · rename_i h; exact .inl h.symm
      · cases hn
    · by_cases h1 : oidC = h
      · exact .inr (.inr h1.symm)
      · by_cases h2 : oidB = h
        · exact .inr (.inl h2.symm)
        · simp [h1, h2] at hh
  refine hide_removes_exactly lineGraph wf_lineGraph _ es lineRefs 3 (.id 3) oidC ?_ (by decide)
    (by decide) (by decide) ?_ ?_ a
  · intro d hd hanc
    have : ∀ d ∈ visibleNow lineGraph t!"refs/heads/main" es lineRefs,
      lineGraph.isAncestor oidC d = true → d = oidC := by decide
    exact this d hd ((isAncestor_iff wf_lineGraph).2 ⟨by decide, hanc⟩)
  · intro h hh
    rcases anch h hh with rfl | rfl | rfl <;> decide
  · intro p hp
    have hp := (mem_parentsOf wf_lineGraph).2 hp
    have : p = oidB := by
      have : lineGraph.parentsOf oidC = [oidB] := by decide
      rw [this] at hp; exact List.mem_singleton.1 hp
    subst this
    exact ⟨oidB, by decide, .inr (.inr (.inr (by decide))), .refl⟩

/-- The parent of a hidden commit goes with it if it was obsolete and only visible because of it. -/
example :
    let es := [.commit 1 (.id 1) oidB, .commit 2 (.id 2) oidC, .obsolete 3 (.id 3) oidB]
    visibleNow lineGraph t!"refs/heads/main" es lineRefs = [oidC, oidB, oidA] ∧
    visibleNow lineGraph t!"refs/heads/main" (es ++ [.obsolete 4 (.id 4) oidC]) lineRefs = [oidA] := by
  decide

/-! ## C15 -/

/-- What the inner loop keeps: `c` is the start, `left0` the commits left at the beginning. -/
structure LoopInv (g : CommitGraph Oid) (s left0 : List Oid) (c : Oid)
    (commits component left : List Oid) : Prop where
  conn : ∀ x, x ∈ component ∨ x ∈ commits → Connected g s c x
  sub : ∀ x ∈ commits, x ∈ left
  cover : ∀ x, x ∈ left0 ↔ x ∈ component ∨ x ∈ left
  disj : ∀ x ∈ component, x ∉ left
  frontier : ∀ x ∈ component, ∀ y ∈ left, IsParent g x y ∨ IsParent g y x → y ∈ commits

theorem loopInv_step {g : CommitGraph Oid} (hg : WFGraph g) {s left0 : List Oid} {c : Oid}
    {commits component left : List Oid} (hs : ∀ x ∈ left0, x ∈ s)
    (h : LoopInv g s left0 c commits component left) :
    LoopInv g s left0 c
      (CommitGraph.inter (g.parents commits ++ g.children commits) (CommitGraph.diff left commits))
      (component ++ commits) (CommitGraph.diff left commits) := by
  have hleft : ∀ x ∈ left, x ∈ s := fun x hx => hs x ((h.cover x).2 (.inr hx))
  refine ⟨?_, ?_, ?_, ?_, ?_⟩
  · rintro x (hx | hx)
    · rcases List.mem_append.1 hx with hx | hx
      · exact h.conn x (.inl hx)
      · exact h.conn x (.inr hx)
    · obtain ⟨h1, h2⟩ := mem_inter.1 hx
      have hxl := (mem_diff.1 h2).1
      rw [List.mem_append, mem_parents hg, mem_children hg] at h1
      rcases h1 with ⟨y, hy, hp⟩ | ⟨y, hy, hp⟩
      · exact (h.conn y (.inr hy)).tail ⟨hleft _ (h.sub y hy), hleft _ hxl, .inr hp⟩
      · exact (h.conn y (.inr hy)).tail ⟨hleft _ (h.sub y hy), hleft _ hxl, .inl hp⟩
  · intro x hx; exact (mem_inter.1 hx).2
  · intro x
    rw [h.cover, List.mem_append, mem_diff]
    by_cases hx : x ∈ commits
    · simp [hx, h.sub x hx]
    · simp [hx]
  · intro x hx
    rw [mem_diff]
    rcases List.mem_append.1 hx with hx | hx
    · exact fun h' => h.disj x hx h'.1
    · exact fun h' => h'.2 hx
  · intro x hx y hy hl
    obtain ⟨hyl, hyc⟩ := mem_diff.1 hy
    rcases List.mem_append.1 hx with hx | hx
    · exact absurd (h.frontier x hx y hyl hl) hyc
    · refine mem_inter.2 ⟨?_, hy⟩
      rw [List.mem_append, mem_parents hg, mem_children hg]
      rcases hl with hl | hl
      · exact .inr ⟨x, hx, hl⟩
      · exact .inl ⟨x, hx, hl⟩

theorem length_diff_lt {left commits : List Oid} {x : Oid} (h1 : x ∈ commits) (h2 : x ∈ left) :
    (CommitGraph.diff left commits).length < left.length := by
  unfold CommitGraph.diff
  rcases Nat.lt_or_ge (left.filter fun c => !commits.contains c).length left.length with h | h
  · exact h
  · have := List.filter_eq_self.1 (List.Sublist.eq_of_length_le List.filter_sublist h) x h2
    simp [h1] at this

theorem collectComponent_spec {g : CommitGraph Oid} (hg : WFGraph g) {s left0 : List Oid} {c : Oid}
    (hs : ∀ x ∈ left0, x ∈ s) (fuel : Nat) (commits component left : List Oid)
    (h : LoopInv g s left0 c commits component left) (hf : left.length + 1 < fuel + 1) :
    ∃ component' left', Dag.collectComponent g fuel commits component left = some (component', left') ∧
      LoopInv g s left0 c [] component' left' ∧ (∀ x ∈ component ++ commits, x ∈ component') := by
  induction fuel generalizing commits component left with
  | zero => omega
  | succ fuel ih =>
    unfold Dag.collectComponent
    cases commits with
    | nil => exact ⟨component, left, rfl, h, by simp⟩
    | cons y ys =>
      simp only [List.isEmpty_cons, Bool.false_eq_true, if_false]
      have hlt := length_diff_lt (left := left) (commits := y :: ys) (x := y) List.mem_cons_self
        (h.sub y List.mem_cons_self)
      obtain ⟨k, l, h1, h2, h3⟩ := ih _ _ _ (loopInv_step hg hs h) (by omega)
      refine ⟨k, l, h1, h2, fun x hx => h3 x (List.mem_append_left _ hx)⟩

/-- What the outer loop keeps. -/
structure OuterInv (g : CommitGraph Oid) (s cs left : List Oid) (comps : List (List Oid)) : Prop where
  comp : ∀ k ∈ comps, ∃ c ∈ k, ∀ x, x ∈ k ↔ Connected g s c x
  inS : ∀ k ∈ comps, ∀ x ∈ k, x ∈ s
  left_sub : ∀ x ∈ left, x ∈ s ∧ ∀ k ∈ comps, x ∉ k
  cover : ∀ x ∈ s, x ∈ left ∨ ∃ k ∈ comps, x ∈ k
  pairwise : comps.Pairwise fun a b => ∀ x ∈ a, x ∉ b
  todo : ∀ x ∈ left, x ∈ cs

theorem collectComponents_spec {g : CommitGraph Oid} (hg : WFGraph g) (s cs left : List Oid)
    (comps : List (List Oid)) (h : OuterInv g s cs left comps) :
    ∃ comps', Dag.collectComponents g cs left comps = some comps' ∧ OuterInv g s [] [] comps' := by
  induction cs generalizing left comps with
  | nil =>
    refine ⟨comps, rfl, ?_⟩
    have : left = [] := List.eq_nil_iff_forall_not_mem.2 fun x hx => by cases h.todo x hx
    subst this
    exact h
  | cons c cs ih =>
    unfold Dag.collectComponents
    cases left with
    | nil =>
      exact ⟨comps, rfl, ⟨h.comp, h.inS, h.left_sub, h.cover, h.pairwise, by simp⟩⟩
    | cons l ls =>
      simp only [List.isEmpty_cons, Bool.false_eq_true, if_false]
      generalize hl : l :: ls = left at *
      by_cases hc : c ∈ left
      · have hcc : left.contains c = true := List.contains_iff_mem.2 hc
        simp only [hcc, Bool.not_true, Bool.false_eq_true, if_false]
        have h0 : LoopInv g s left c [c] [] left :=
          ⟨by
            rintro x (hx | hx)
            · cases hx
            · rw [List.mem_singleton.1 hx]; exact .refl,
           by intro x hx; rw [List.mem_singleton.1 hx]; exact hc,
           by simp, by simp, by simp⟩
        obtain ⟨k, l', h1, h2, h3⟩ := collectComponent_spec hg (fun x hx => (h.left_sub x hx).1)
          (left.length + 2) [c] [] left h0 (by omega)
        rw [h1]
        have hck : c ∈ k := h3 c (by simp)
        have hkl : ∀ x ∈ k, x ∈ left := fun x hx => (h2.cover x).2 (.inl hx)
        refine ih _ _ ⟨?_, ?_, ?_, ?_, ?_, ?_⟩
        · intro k' hk'
          rcases List.mem_append.1 hk' with hk' | hk'
          · exact h.comp k' hk'
          · rw [List.mem_singleton.1 hk']
            refine ⟨c, hck, fun x => ⟨fun hx => h2.conn x (.inl hx), fun hx => ?_⟩⟩
            induction hx with
            | refl => exact hck
            | @tail y z _ hl ihy =>
              obtain ⟨_, hzs, hl⟩ := hl
              have hyl := hkl y ihy
              have hzl : z ∈ left := by
                rcases h.cover z hzs with hz | ⟨k'', hk'', hz⟩
                · exact hz
                · obtain ⟨c'', _, hall⟩ := h.comp k'' hk''
                  have : y ∈ k'' := (hall y).2 (((hall z).1 hz).tail
                    ⟨hzs, (h.left_sub y hyl).1, hl.symm⟩)
                  exact absurd this ((h.left_sub y hyl).2 k'' hk'')
              rcases (h2.cover z).1 hzl with hz | hz
              · exact hz
              · exact absurd (h2.frontier y ihy z hz hl) (by simp)
        · intro k' hk' x hx
          rcases List.mem_append.1 hk' with hk' | hk'
          · exact h.inS k' hk' x hx
          · rw [List.mem_singleton.1 hk'] at hx
            exact (h.left_sub x (hkl x hx)).1
        · intro x hx
          have hxl := (h2.cover x).2 (.inr hx)
          refine ⟨(h.left_sub x hxl).1, fun k' hk' hxk => ?_⟩
          rcases List.mem_append.1 hk' with hk' | hk'
          · exact (h.left_sub x hxl).2 k' hk' hxk
          · rw [List.mem_singleton.1 hk'] at hxk
            exact h2.disj x hxk hx
        · intro x hx
          rcases h.cover x hx with hx | ⟨k', hk', hx⟩
          · rcases (h2.cover x).1 hx with hx | hx
            · exact .inr ⟨k, by simp, hx⟩
            · exact .inl hx
          · exact .inr ⟨k', List.mem_append_left _ hk', hx⟩
        · rw [List.pairwise_append]
          refine ⟨h.pairwise, by simp, fun a ha b hb x hx => ?_⟩
          rw [List.mem_singleton.1 hb]
          exact fun hxk => (h.left_sub x (hkl x hxk)).2 a ha hx
        · intro x hx
          have hxl := (h2.cover x).2 (.inr hx)
          rcases List.mem_cons.1 (h.todo x hxl) with rfl | hx'
          · exact absurd hx (h2.disj x hck)
          · exact hx'
      · have hcc : left.contains c = false := by
          rw [Bool.eq_false_iff]; exact fun h => hc (List.contains_iff_mem.1 h)
        simp only [hcc, Bool.not_false, if_true]
        refine ih _ _ ⟨h.comp, h.inS, h.left_sub, h.cover, h.pairwise, fun x hx => ?_⟩
        rcases List.mem_cons.1 (h.todo x hx) with rfl | hx'
        · exact absurd hx hc
        · exact hx'

theorem count_congr {a b : List Oid} (h : ∀ x, x ∈ a ↔ x ∈ b) :
    CommitGraph.count a = CommitGraph.count b := by
  unfold CommitGraph.count
  apply List.Perm.length_eq
  rw [List.perm_ext_iff_of_nodup (List.nodup_dedup _) (List.nodup_dedup _)]
  intro x
  rw [List.mem_dedup, List.mem_dedup, h]

/-- C15: the loops end, the assertions hold, and the result is the partition of the set in its
connected components: they cover the set, are disjoint, and each is exactly the set of commits
connected with one of its members by edges inside the set (in particular not empty, connected, and
without edges to the others). -/
theorem components_partition (g : CommitGraph Oid) (hg : WFGraph g) (s : List Oid) :
    ∃ comps, Dag.getConnectedComponents g s = some (.ok comps) ∧
      (∀ x, x ∈ s ↔ ∃ k ∈ comps, x ∈ k) ∧
      (comps.Pairwise fun a b => ∀ x ∈ a, x ∉ b) ∧
      ∀ k ∈ comps, ∃ c ∈ k, ∀ x, x ∈ k ↔ Connected g s c x := by
  obtain ⟨comps, h1, h2⟩ := collectComponents_spec hg s s.dedup s [] ⟨by simp, by simp, by simp,
    fun x hx => .inl hx, .nil, fun x hx => List.mem_dedup.2 hx⟩
  have hcov : ∀ x, x ∈ s ↔ ∃ k ∈ comps, x ∈ k := by
    intro x
    constructor
    · intro hx
      rcases h2.cover x hx with h | h
      · cases h
      · exact h
    · rintro ⟨k, hk, hx⟩; exact h2.inS k hk x hx
  refine ⟨comps, ?_, hcov, h2.pairwise, h2.comp⟩
  unfold Dag.getConnectedComponents
  rw [h1]
  have e1 : CommitGraph.count s = CommitGraph.count comps.flatten :=
    count_congr fun x => by rw [hcov, List.mem_flatten]
  have e2 : CommitGraph.count s = CommitGraph.count (CommitGraph.inter s comps.flatten) :=
    count_congr fun x => by
      rw [mem_inter, List.mem_flatten, ← hcov]; exact ⟨fun h => ⟨h, h⟩, fun h => h.1⟩
  simp only [← e1, ← e2, ne_eq, not_true_eq_false, if_false]

/-- C15: no edge joins two different components. -/
theorem components_no_edges (g : CommitGraph Oid) (hg : WFGraph g) (s : List Oid)
    (comps : List (List Oid)) (h : Dag.getConnectedComponents g s = some (.ok comps))
    (k k' : List Oid) (hk : k ∈ comps) (hk' : k' ∈ comps) (a b : Oid) (ha : a ∈ k) (hb : b ∈ k')
    (hp : IsParent g a b) : ∀ x, x ∈ k ↔ x ∈ k' := by
  obtain ⟨comps', h1, hcov, _, hcomp⟩ := components_partition g hg s
  rw [h] at h1
  cases h1
  obtain ⟨c, hc, hall⟩ := hcomp k hk
  obtain ⟨c', hc', hall'⟩ := hcomp k' hk'
  have has := (hcov a).2 ⟨k, hk, ha⟩
  have hbs := (hcov b).2 ⟨k', hk', hb⟩
  have hsym : ∀ {x y}, Connected g s x y → Connected g s y x := by
    intro x y h
    induction h with
    | refl => exact .refl
    | tail _ hl ih => exact Relation.ReflTransGen.head ⟨hl.2.1, hl.1, hl.2.2.symm⟩ ih
  have hcc : Connected g s c c' :=
    (((hall a).1 ha).tail ⟨has, hbs, .inl hp⟩).trans (hsym ((hall' b).1 hb))
  intro x
  rw [hall, hall']
  exact ⟨fun h => (hsym hcc).trans h, fun h => hcc.trans h⟩

/-- The example of the documentation: `B, C, E` in the line `A-B-C-D-E-F`. -/
example :
    let o := fun n h1 h2 => (⟨n, h1, h2⟩ : Oid)
    let a := o 1 (by decide) (by decide); let b := o 2 (by decide) (by decide)
    let c := o 3 (by decide) (by decide); let d := o 4 (by decide) (by decide)
    let e := o 5 (by decide) (by decide); let f := o 6 (by decide) (by decide)
    let g : CommitGraph Oid := ⟨[(f, [e]), (e, [d]), (d, [c]), (c, [b]), (b, [a]), (a, [])]⟩
    Dag.getConnectedComponents g [e, c, b] = some (.ok [[e], [c, b]]) := by
  decide +kernel

/-! ## C51 -/

/-- C51: what `query_stack_commits` returns: the draft commits above some root of the draft
commits which is also below a commit of the given set. -/
theorem stack_exact (d : Dag) (hg : WFGraph d.graph) (s : List Oid) (a : Oid) :
    a ∈ d.stackCommits s ↔ a ∈ d.draftCommits ∧ ∃ r, r ∈ d.draftCommits ∧
      (∀ p, IsParent d.graph p r → p ∉ d.draftCommits) ∧ Anc d.graph r a ∧
      ∃ x ∈ s, Anc d.graph r x := by
  have hroots : ∀ r, r ∈ d.graph.roots d.draftCommits ↔ r ∈ d.draftCommits ∧
      ∀ p, IsParent d.graph p r → p ∉ d.draftCommits := by
    intro r
    unfold CommitGraph.roots
    rw [mem_diff, mem_children hg]
    simp only [not_exists, not_and]
    exact ⟨fun h => ⟨h.1, fun p hp hd => h.2 p hd hp⟩, fun h => ⟨h.1, fun p hd hp => h.2 p hp hd⟩⟩
  have hdraft : ∀ a, a ∈ d.draftCommits ↔ a ∈ d.graph.nodes ∧ (∃ x ∈ d.visibleHeads, Anc d.graph a x) ∧
      ∀ x ∈ d.mainBranchCommit, ¬ Anc d.graph a x := fun a => mem_only hg
  unfold Dag.stackCommits
  simp only
  rw [mem_range hg]
  constructor
  · rintro ⟨ha, ⟨b, hb, hba⟩, e, he, hae⟩
    rw [mem_range hg] at hb
    obtain ⟨_, ⟨r, hr, hrb⟩, x, hx, hbx⟩ := hb
    rw [hroots] at hr
    have hr' := (hdraft r).1 hr.1
    refine ⟨?_, r, hr.1, hr.2, hrb.trans hba, x, hx, hrb.trans hbx⟩
    obtain ⟨y, hy, hey⟩ := ((hdraft e).1 he).2.1
    exact (hdraft a).2 ⟨ha, ⟨y, hy, hae.trans hey⟩, fun m hm h =>
      hr'.2.2 m hm ((hrb.trans hba).trans h)⟩
  · rintro ⟨ha, r, hr1, hr2, hra, x, hx, hrx⟩
    refine ⟨((hdraft a).1 ha).1, ⟨r, ?_, hra⟩, a, ha, .refl⟩
    rw [mem_range hg]
    exact ⟨((hdraft r).1 hr1).1, ⟨r, (hroots r).2 ⟨hr1, hr2⟩, .refl⟩, x, hx, hrx⟩

/-- The statement of the documentation (dag.rs:533-534): the stack consists of the connected
components of the draft commits which intersect the given set. -/
def StackIsComponents (d : Dag) (s : List Oid) : Prop :=
  ∀ a, a ∈ d.stackCommits s ↔ a ∈ d.draftCommits ∧ ∃ x ∈ s, Connected d.graph d.draftCommits x a

/-- C51, for draft commits without merges of draft commits. -/
theorem stack_is_components_partial (d : Dag) (hg : WFGraph d.graph) (s : List Oid)
    (hs : ∀ x ∈ s, x ∈ d.draftCommits)
    (hmerge : ∀ c p q, c ∈ d.draftCommits → IsParent d.graph p c → IsParent d.graph q c →
      p ∈ d.draftCommits → q ∈ d.draftCommits → p = q) :
    StackIsComponents d s := by
  have hdraft : ∀ a, a ∈ d.draftCommits ↔ a ∈ d.graph.nodes ∧ (∃ x ∈ d.visibleHeads, Anc d.graph a x) ∧
      ∀ x ∈ d.mainBranchCommit, ¬ Anc d.graph a x := fun a => mem_only hg
  -- everything between two draft commits is draft
  have between : ∀ r b a, r ∈ d.draftCommits → a ∈ d.draftCommits → Anc d.graph r b →
      Anc d.graph b a → b ∈ d.draftCommits := by
    intro r b a hr ha h1 h2
    obtain ⟨k1, ⟨y, hy, k2⟩, _⟩ := (hdraft a).1 ha
    exact (hdraft b).2 ⟨h2.mem hg k1, ⟨y, hy, h2.trans k2⟩, fun m hm h =>
      ((hdraft r).1 hr).2.2 m hm (h1.trans h)⟩
  have conn : ∀ r a, r ∈ d.draftCommits → a ∈ d.draftCommits → Anc d.graph r a →
      Connected d.graph d.draftCommits r a := by
    intro r a hr ha h
    induction h with
    | refl => exact .refl
    | @step p c h hp ih =>
      have hpd := between r p c hr ha h (Anc.of_parent hp)
      exact (ih hpd).tail ⟨hpd, ha, .inl hp⟩
  have hsym : ∀ {x y}, Connected d.graph d.draftCommits x y → Connected d.graph d.draftCommits y x := by
    intro x y h
    induction h with
    | refl => exact .refl
    | tail _ hl ih => exact Relation.ReflTransGen.head ⟨hl.2.1, hl.1, hl.2.2.symm⟩ ih
  intro a
  rw [stack_exact d hg]
  refine and_congr_right fun ha => ?_
  constructor
  · rintro ⟨r, hr, _, hra, x, hx, hrx⟩
    exact ⟨x, hx, (hsym (conn r x hr (hs x hx) hrx)).trans (conn r a hr ha hra)⟩
  · rintro ⟨x, hx, hc⟩
    -- a root below `x` stays a root below every connected commit
    obtain ⟨r, hr, hrx⟩ := exists_root hg (hs x hx)
    obtain ⟨hr1, hr2⟩ := mem_diff.1 hr
    rw [mem_children hg] at hr2
    have hr3 : ∀ p, IsParent d.graph p r → p ∉ d.draftCommits := fun p hp hpd => hr2 ⟨p, hpd, hp⟩
    refine ⟨r, hr1, hr3, ?_, x, hx, hrx⟩
    clear ha
    induction hc with
    | refl => exact hrx
    | @tail y z _ hl ih =>
      obtain ⟨hy, hz, hl | hl⟩ := hl
      · exact ih.trans (Anc.of_parent hl)
      · rcases anc_iff.1 ih with rfl | ⟨q, hq, hrq⟩
        · exact absurd hz (hr3 z hl)
        · have hqd := between r q y hr1 hy hrq (Anc.of_parent hq)
          rw [hmerge y z q hy hl hq hz hqd]
          exact hrq

/-- C51 is false with merge commits: `B` and `C` are two draft roots, merged in `D`; the stack of
`B` does not contain `C`. -/
theorem stack_misses_merged_root :
    ∃ (g : CommitGraph Oid) (es : List Event) (refs : Replayer.RefsSnapshot) (x : Oid),
      WFGraph g ∧ x ∈ (openDag g t!"refs/heads/main" es es.length refs).draftCommits ∧
      ¬ StackIsComponents (openDag g t!"refs/heads/main" es es.length refs) [x] := by
  refine ⟨⟨[(oidD, [oidB, oidC]), (oidC, [oidA]), (oidB, [oidA]), (oidA, [])]⟩,
    [.commit 1 (.id 1) oidB, .commit 2 (.id 2) oidC, .commit 3 (.id 3) oidD], lineRefs, oidB,
    .cons (by decide) (by decide) (.cons (by decide) (by decide) (.cons (by decide) (by decide)
      (.cons (by decide) (by decide) .nil))), by decide, fun h => ?_⟩
  have h := (h oidC).2 ⟨by decide, oidB, by decide, ?_⟩
  · exact absurd h (by decide)
  · refine Relation.ReflTransGen.tail (b := oidD) (Relation.ReflTransGen.single ⟨by decide, by decide, .inl ?_⟩)
      ⟨by decide, by decide, .inr ?_⟩
    · exact ⟨[oidB, oidC], by decide, by decide⟩
    · exact ⟨[oidB, oidC], by decide, by decide⟩

end Verif.Props
