import Verif.Model.WarnAbandoned
import Verif.Props.Restack

/-! C88: the warning about abandoned commits and branches. -/

namespace Verif.Spec

/-- A number of things. -/
def countOf (n : Nat) (one many : Text) : Text := natToText n ++ t!" " ++ (if n = 1 then one else many)

/-- What a branch is called. -/
def shortName (n : Text) : Text := (stripPrefix? t!"refs/heads/" n).getD n

/-- The warning for so many commits, and branches with these names. -/
def warningText (commits : Nat) (names : List Text) : Option Text :=
  if commits = 0 ∧ names = [] then none
  else some (t!"This operation abandoned " ++
    (if names = [] then countOf commits t!"commit" t!"commits"
     else if commits = 0 then countOf names.length t!"branch" t!"branches" ++ t!" (" ++ List.intercalate t!", " names ++ t!")"
     else countOf commits t!"commit" t!"commits" ++ t!" and " ++ countOf names.length t!"branch" t!"branches" ++ t!" (" ++
       List.intercalate t!", " names ++ t!")") ++ t!"!")

end Verif.Spec

namespace Verif.Props

open Verif Verif.Spec

theorem abandonedItems_spec (d : Dag) (r : Replayer) (refs : Replayer.RefsSnapshot) (old : List Oid) :
    (abandonedItems d r refs old).children.Nodup ∧ (abandonedItems d r refs old).branches.Nodup ∧
    (∀ c, c ∈ (abandonedItems d r refs old).children ↔
      ∃ o ∈ old, ∃ dest l, findAbandonedChildren d r r.makeDefaultCursor o = some (dest, l) ∧ c ∈ l) ∧
    (∀ n, n ∈ (abandonedItems d r refs old).branches ↔
      ∃ o ∈ old, (findAbandonedChildren d r r.makeDefaultCursor o).isSome ∧
        ∃ l, refs.branchOidToNames.get? o = some l ∧ n ∈ l) := by
  unfold abandonedItems
  induction old using List.reverseRecOn with
  | nil => simp
  | append_singleton old o ih =>
    rw [List.foldl_append, List.foldl_cons, List.foldl_nil]
    generalize List.foldl _ _ old = items at ih ⊢
    obtain ⟨h1, h2, h3, h4⟩ := ih
    cases hf : findAbandonedChildren d r r.makeDefaultCursor o with
    | none =>
      refine ⟨h1, h2, fun c => ?_, fun n => ?_⟩
      · rw [h3]
        constructor
        · rintro ⟨x, hx, y⟩; exact ⟨x, List.mem_append_left _ hx, y⟩
        · rintro ⟨x, hx, y⟩
          rw [List.mem_append, List.mem_singleton] at hx
          rcases hx with hx | rfl
          · exact ⟨x, hx, y⟩
          · obtain ⟨_, _, y, _⟩ := y; rw [hf] at y; cases y
      · rw [h4]
        constructor
        · rintro ⟨x, hx, y⟩; exact ⟨x, List.mem_append_left _ hx, y⟩
        · rintro ⟨x, hx, y⟩
          rw [List.mem_append, List.mem_singleton] at hx
          rcases hx with hx | rfl
          · exact ⟨x, hx, y⟩
          · rw [hf] at y; cases y.1
    | some v =>
      obtain ⟨dest, l⟩ := v
      refine ⟨List.nodup_dedup _, List.nodup_dedup _, fun c => ?_, fun n => ?_⟩
      · rw [List.mem_dedup, List.mem_append, h3]
        constructor
        · rintro (⟨x, hx, y⟩ | h)
          · exact ⟨x, List.mem_append_left _ hx, y⟩
          · exact ⟨o, by simp, dest, l, hf, h⟩
        · rintro ⟨x, hx, y⟩
          rw [List.mem_append, List.mem_singleton] at hx
          rcases hx with hx | rfl
          · exact .inl ⟨x, hx, y⟩
          · obtain ⟨_, _, y, hc⟩ := y; rw [hf] at y; cases y; exact .inr hc
      · rw [List.mem_dedup, List.mem_append, h4]
        constructor
        · rintro (⟨x, hx, y⟩ | h)
          · exact ⟨x, List.mem_append_left _ hx, y⟩
          · cases hg : AMap.get? refs.branchOidToNames o with
            | none => rw [hg] at h; cases h
            | some l => rw [hg] at h; exact ⟨o, by simp, by rw [hf]; rfl, l, hg, h⟩
        · rintro ⟨x, hx, y⟩
          rw [List.mem_append, List.mem_singleton] at hx
          rcases hx with hx | rfl
          · exact .inl ⟨x, hx, y⟩
          · obtain ⟨_, l, hl, hn⟩ := y
            right
            rw [hl]
            exact hn

/-- The branches at a commit, as they are read. -/
theorem mem_snapshot_names {g : GitState} (hw : AMap.WF g.refs) {main : Text} {refs : Replayer.RefsSnapshot}
    (h : g.referencesSnapshot main = some refs) (o : Oid) (n : Text) :
    (∃ l, refs.branchOidToNames.get? o = some l ∧ n ∈ l) ↔ IsBranch n ∧ g.refs.get? n = some o := by
  unfold GitState.referencesSnapshot at h
  split at h
  · cases h
  · cases h
    have hget : ∀ l : List Oid, AMap.get? (l.map fun o => (o, namesAt g.refs o)) o =
        if o ∈ l then some (namesAt g.refs o) else none := by
      intro l
      induction l with
      | nil => rfl
      | cons a l ih =>
        rw [List.map_cons]
        by_cases ha : a = o
        · subst ha; simp [AMap.get?]
        · have : AMap.get? ((a, namesAt g.refs a) :: l.map fun o => (o, namesAt g.refs o)) o =
              AMap.get? (l.map fun o => (o, namesAt g.refs o)) o := by simp [AMap.get?, ha]
          rw [this, ih]
          simp [Ne.symm ha]
    dsimp only
    rw [hget]
    constructor
    · rintro ⟨l, hl, hn⟩
      split at hl
      · cases hl; exact (mem_namesAt hw).1 hn
      · cases hl
    · intro hn
      rw [if_pos ((mem_branchOids hw).2 ⟨n, hn⟩)]
      exact ⟨_, rfl, (mem_namesAt hw).2 hn⟩

theorem abandonedMessage_eq (items : AbandonedItems) (hb : ∀ n ∈ items.branches, IsBranch n) :
    abandonedMessage items =
      warningText items.children.length ((items.branches.map shortName).insertionSort (· ≤ ·)) := by
  have hnames : (items.branches.map fun n => (categorize n).renderSuffix) = items.branches.map shortName := by
    refine List.map_congr_left fun n hn => ?_
    rw [categorize_branch (hb n hn)]
    rfl
  have hlen : ((items.branches.map shortName).insertionSort (· ≤ ·)).length = items.branches.length := by
    rw [List.length_insertionSort, List.length_map]
  have hnil : (items.branches.map shortName).insertionSort (· ≤ ·) = [] ↔ items.branches.length = 0 := by
    rw [← List.length_eq_zero_iff, hlen]
  unfold abandonedMessage warningText
  rw [hnames]
  simp only [hnil, hlen]
  by_cases h1 : items.children.length = 0
  · by_cases h2 : items.branches.length = 0
    · simp [h1, h2]
    · have : 0 < items.branches.length := by omega
      simp [h1, h2, this, joinTexts, List.intercalate, countOf, pluralize]
  · have hp : 0 < items.children.length := by omega
    by_cases h2 : items.branches.length = 0
    · simp [h1, h2, hp, joinTexts, List.intercalate, countOf, pluralize]
    · have : 0 < items.branches.length := by omega
      simp [h1, h2, hp, this, joinTexts, List.intercalate, countOf, pluralize]

/-- C88: the warning after commits were rewritten has the number of their visible, current children which were left
behind, and the names of the branches which were. -/
theorem warning_exact (graph : CommitGraph Oid) (hg : WFGraph graph) (main : Text) (w : RepoWorld)
    (hw : AMap.WF w.git.refs) (es : List Event) (he : w.db.getEvents = some es) (old : List Oid)
    (text : Option Text) (h : warnAbandoned graph main w old = some text) :
    ∃ (children : List Oid) (branches names : List Text), children.Nodup ∧ branches.Nodup ∧
      (∀ c, c ∈ children ↔ ∃ o ∈ old, Abandoned graph main w.git es o c) ∧
      (∀ n, n ∈ branches ↔ IsBranch n ∧ ∃ o ∈ old, w.git.refs.get? n = some o ∧ ∃ m, RewrittenTo es o m) ∧
      names.Perm (branches.map shortName) ∧ names.Pairwise (· ≤ ·) ∧
      text = warningText children.length names := by
  unfold warnAbandoned at h
  split at h
  · rename_i refs r d h1 h2
    cases h
    obtain ⟨ha, hb, hc, hd⟩ := abandonedItems_spec d r refs old
    obtain ⟨hgr, hr⟩ := graph_opened he h2
    have hvis := mem_filterVisible_opened hg hw he h2
    have hobs := mem_obsolete_opened he h2
    have hfind : ∀ o, (∃ v, findAbandonedChildren d r r.makeDefaultCursor o = some v) ↔ ∃ m, RewrittenTo es o m := by
      intro o
      subst hr
      obtain ⟨h3, h4⟩ := findRewriteTarget_now main es o
      unfold findAbandonedChildren abandonedDest
      constructor
      · rintro ⟨v, hv⟩
        by_contra hn
        push Not at hn
        rw [h4.2 hn] at hv
        cases hv
      · rintro ⟨m, hm⟩
        cases hf : findRewriteTarget (Replayer.fromEvents main es) (Replayer.fromEvents main es).makeDefaultCursor o with
        | none => exact absurd hm (h4.1 hf m)
        | some x => cases x <;> exact ⟨_, rfl⟩
    have hlist : ∀ o dest l, findAbandonedChildren d r r.makeDefaultCursor o = some (dest, l) →
        l = CommitGraph.diff (d.filterVisibleCommits (d.graph.children [o])) d.obsoleteCommits := by
      intro o dest l hl
      unfold findAbandonedChildren at hl
      split at hl
      · cases hl
      · cases hl; rfl
    have hmem : ∀ o c, (c ∈ CommitGraph.diff (d.filterVisibleCommits (d.graph.children [o])) d.obsoleteCommits) ↔
        IsParent graph o c ∧ Seen graph main w.git es c ∧ statusIn es c ≠ some false := by
      intro o c
      simp only [mem_diff, hvis, hobs, hgr, mem_children hg, List.mem_singleton, exists_eq_left]
      tauto
    have hbr : ∀ n, n ∈ (abandonedItems d r refs old).branches ↔
        IsBranch n ∧ ∃ o ∈ old, w.git.refs.get? n = some o ∧ ∃ m, RewrittenTo es o m := by
      intro n
      rw [hd]
      simp only [Option.isSome_iff_exists, hfind, mem_snapshot_names hw h1]
      constructor
      · rintro ⟨o, ho, hm, hn, hn'⟩; exact ⟨hn, o, ho, hn', hm⟩
      · rintro ⟨hn, o, ho, hn', hm⟩; exact ⟨o, ho, hm, hn, hn'⟩
    refine ⟨_, _, _, ha, hb, fun c => ?_, hbr, List.perm_insertionSort _ _, List.pairwise_insertionSort _ _,
      abandonedMessage_eq _ fun n hn => ((hbr n).1 hn).1⟩
    rw [hc]
    constructor
    · rintro ⟨o, ho, dest, l, hl, hcl⟩
      rw [hlist o dest l hl, hmem] at hcl
      exact ⟨o, ho, hcl.1, hcl.2.1, hcl.2.2, (hfind o).1 ⟨_, hl⟩⟩
    · rintro ⟨o, ho, hab⟩
      obtain ⟨⟨dest, l⟩, hl⟩ := (hfind o).2 hab.rewritten
      refine ⟨o, ho, dest, l, hl, ?_⟩
      rw [hlist o dest l hl, hmem]
      exact ⟨hab.parent, hab.seen, hab.current⟩
  · cases h

/-- C88: there is a warning exactly if something was left behind. -/
theorem warning_iff (graph : CommitGraph Oid) (hg : WFGraph graph) (main : Text) (w : RepoWorld)
    (hw : AMap.WF w.git.refs) (es : List Event) (he : w.db.getEvents = some es) (old : List Oid)
    (text : Option Text) (h : warnAbandoned graph main w old = some text) :
    text.isSome ↔ (∃ o ∈ old, ∃ c, Abandoned graph main w.git es o c) ∨
      ∃ o ∈ old, ∃ n, IsBranch n ∧ w.git.refs.get? n = some o ∧ ∃ m, RewrittenTo es o m := by
  obtain ⟨children, branches, names, -, -, h1, h2, h3, -, rfl⟩ := warning_exact graph hg main w hw es he old text h
  have hl : names = [] ↔ branches = [] := by
    rw [← List.length_eq_zero_iff, h3.length_eq, List.length_map, List.length_eq_zero_iff]
  have hs : (warningText children.length names).isSome ↔ ¬ (children = [] ∧ branches = []) := by
    have : ¬ (children = [] ∧ branches = []) ↔ ¬ (children.length = 0 ∧ names = []) := by
      rw [List.length_eq_zero_iff, hl]
    rw [this]
    unfold warningText
    split
    · rename_i h0; simp [h0]
    · rename_i h0; simp only [Option.isSome_some, true_iff]; exact h0
  rw [hs]
  constructor
  · intro hne
    by_cases hc : children = []
    · obtain ⟨n, hn⟩ := List.exists_mem_of_ne_nil _ (fun hb => hne ⟨hc, hb⟩)
      obtain ⟨hb, o, ho, hget, hm⟩ := (h2 n).1 hn
      exact .inr ⟨o, ho, n, hb, hget, hm⟩
    · obtain ⟨c, hm⟩ := List.exists_mem_of_ne_nil _ hc
      obtain ⟨o, ho, hab⟩ := (h1 c).1 hm
      exact .inl ⟨o, ho, c, hab⟩
  · rintro (⟨o, ho, c, hab⟩ | ⟨o, ho, n, hb, hget, hm⟩) ⟨hc, hb'⟩
    · have := (h1 c).2 ⟨o, ho, hab⟩
      rw [hc] at this
      cases this
    · have := (h2 n).2 ⟨hb, o, ho, hget, hm⟩
      rw [hb'] at this
      cases this

/-- C88: `git restack` for these commits is about the same commits as the warning. -/
theorem warned_restacked (graph : CommitGraph Oid) (main : Text) (git : GitState) (es : List Event) (old : List Oid)
    (c : Oid) :
    (∃ o ∈ old, Abandoned graph main git es o c) ↔ ∃ dest, Restacked graph main git es (some old) c dest := by
  constructor
  · rintro ⟨o, ho, hab⟩
    have ⟨h1, h2⟩ := findRewriteTarget_now main es o
    obtain ⟨m, hm⟩ := hab.rewritten
    cases hf : findRewriteTarget (Replayer.fromEvents main es) (Replayer.fromEvents main es).makeDefaultCursor o with
    | none => exact absurd hm (h2.1 hf m)
    | some x =>
      have hn := (h1 x).1 hf
      cases x with
      | zero => exact ⟨o, o, fun l hl => by cases hl; exact ho, hab, .inr ⟨hn, rfl⟩⟩
      | nonZero dest => exact ⟨dest, o, fun l hl => by cases hl; exact ho, hab, .inl hn⟩
  · rintro ⟨dest, o, hch, hab, -⟩
    exact ⟨o, hch old rfl, hab⟩

/-- C88: the children of a dropped commit are warned about, and `git restack` is recommended, but it leaves them where they
are. -/
theorem dropped_warned_in_vain :
    let w := exRestackWorld [.commit 1 (.id 1) (oidN 1), .commit 2 (.id 2) (oidN 2),
      .rewrite 4 (.id 4) (.nonZero (oidN 1)) .zero] (oidN 0)
    let graph : CommitGraph Oid := ⟨[(oidN 2, [oidN 1]), (oidN 1, [oidN 0]), (oidN 0, [])]⟩
    warnAbandoned graph t!"refs/heads/main" w [oidN 1] = some (some t!"This operation abandoned 1 commit!") ∧
    (∃ r d, openRepoDag graph t!"refs/heads/main" w = some (r, d) ∧
      findAbandonedChildren d r r.makeDefaultCursor (oidN 1) = some (oidN 1, [oidN 2])) := by
  refine ⟨by decide +kernel, _, _, rfl, by decide +kernel⟩

/-- Non-vacuity: a child and a branch are left behind by an amended commit. -/
example : warnAbandoned exAmendedGraph t!"refs/heads/main" (exRestackWorld exAmended (oidN 1)) [oidN 1] =
    some (some t!"This operation abandoned 1 commit and 1 branch (b)!") := by
  decide +kernel
example : warnAbandoned exAmendedGraph t!"refs/heads/main" (exRestackWorld exAmended (oidN 1)) [oidN 4] =
    some none := by
  decide +kernel

end Verif.Props
