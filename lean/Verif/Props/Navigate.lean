import Verif.Spec.Navigate
import Verif.Props.Hide
import Verif.Props.Restack

/-! C45: walking along a stack; C57: sorting sets of commits. -/

namespace Verif.Props

open Verif Verif.Spec

/-! ### sorting -/

theorem commitCompare_lt {d : Dag} (hg : WFGraph d.graph) {time : Oid → Nat} {a b : Oid}
    (ha : a ∈ d.graph.nodes) (hb : b ∈ d.graph.nodes) (hab : a ≠ b) :
    commitCompare d time a b = .lt ↔ Earlier d.graph time a b := by
  unfold commitCompare Earlier
  by_cases h1 : Anc d.graph a b
  · rw [if_pos ((isAncestor_iff hg).2 ⟨ha, h1⟩)]
    simp [hab, h1]
  · rw [if_neg (fun h => h1 ((isAncestor_iff hg).1 h).2)]
    by_cases h2 : Anc d.graph b a
    · rw [if_pos ((isAncestor_iff hg).2 ⟨hb, h2⟩)]
      simp [h1, h2]
    · rw [if_neg (fun h => h2 ((isAncestor_iff hg).1 h).2)]
      simp only [hab, ne_eq, not_false_eq_true, h1, h2, true_and, false_or]
      rw [Ordering.then_eq_lt]
      simp only [Nat.compare_eq_lt, Nat.compare_eq_eq]

theorem commitCompare_gt {d : Dag} (hg : WFGraph d.graph) {time : Oid → Nat} {a b : Oid}
    (ha : a ∈ d.graph.nodes) (hb : b ∈ d.graph.nodes) (hab : a ≠ b) :
    commitCompare d time a b = .gt ↔ commitCompare d time b a = .lt := by
  unfold commitCompare
  by_cases h1 : Anc d.graph a b
  · have h2 : ¬ Anc d.graph b a := fun h => hab (h1.antisymm hg h)
    rw [if_pos ((isAncestor_iff hg).2 ⟨ha, h1⟩), if_neg (fun h => h2 ((isAncestor_iff hg).1 h).2),
      if_pos ((isAncestor_iff hg).2 ⟨ha, h1⟩)]
    simp
  · rw [if_neg (fun h => h1 ((isAncestor_iff hg).1 h).2)]
    by_cases h2 : Anc d.graph b a
    · rw [if_pos ((isAncestor_iff hg).2 ⟨hb, h2⟩), if_pos ((isAncestor_iff hg).2 ⟨hb, h2⟩)]
      simp
    · rw [if_neg (fun h => h2 ((isAncestor_iff hg).1 h).2), if_neg (fun h => h2 ((isAncestor_iff hg).1 h).2),
        if_neg (fun h => h1 ((isAncestor_iff hg).1 h).2)]
      rw [Ordering.then_eq_lt, Ordering.then_eq_gt]
      simp only [Nat.compare_eq_lt, Nat.compare_eq_eq, Nat.compare_eq_gt]
      constructor
      · rintro (h | ⟨h, h'⟩)
        · exact .inl h
        · exact .inr ⟨h.symm, h'⟩
      · rintro (h | ⟨h, h'⟩)
        · exact .inl h
        · exact .inr ⟨h.symm, h'⟩

/-- Any two commits are in order, one way or the other. -/
theorem earlier_total {graph : CommitGraph Oid} {time : Oid → Nat} {a b : Oid} (h : a ≠ b) :
    Earlier graph time a b ∨ Earlier graph time b a := by
  unfold Earlier
  have hv : a.val ≠ b.val := by
    intro hv
    apply h
    cases a; cases b
    simp only [Oid.mk.injEq]
    exact hv
  by_cases h1 : Anc graph a b
  · exact .inl ⟨h, .inl h1⟩
  by_cases h2 : Anc graph b a
  · exact .inr ⟨h.symm, .inl h2⟩
  rcases Nat.lt_trichotomy (time a) (time b) with h3 | h3 | h3
  · exact .inl ⟨h, .inr ⟨h2, .inl h3⟩⟩
  · rcases Nat.lt_trichotomy a.val b.val with h4 | h4 | h4
    · exact .inl ⟨h, .inr ⟨h2, .inr ⟨h3, h4⟩⟩⟩
    · exact absurd h4 hv
    · exact .inr ⟨h.symm, .inr ⟨h1, .inr ⟨h3.symm, h4⟩⟩⟩
  · exact .inr ⟨h.symm, .inr ⟨h1, .inl h3⟩⟩

theorem earlier_asymm {graph : CommitGraph Oid} (hg : WFGraph graph) {time : Oid → Nat} {a b : Oid}
    (h : Earlier graph time a b) : ¬ Earlier graph time b a := by
  unfold Earlier at *
  obtain ⟨hne, h⟩ := h
  rintro ⟨_, h'⟩
  rcases h with h | ⟨h1, h⟩ <;> rcases h' with h' | ⟨h1', h'⟩
  · exact hne (h.antisymm hg h')
  · exact h1' h
  · exact h1 h'
  · omega

/-- C57: if the order makes sense for the set, the result is all its commits in this order, each once. -/
theorem sorted_commit_set_sorted (env : NavEnv) (hs : SortContract env.sortBy)
    (htv : ∀ l, (env.toVec l).Nodup ∧ ∀ x, x ∈ env.toVec l ↔ x ∈ l) (d : Dag) (hg : WFGraph d.graph)
    (s : List Oid) (hn : ∀ x ∈ s, x ∈ d.graph.nodes) :
    (sortedCommitSet env d s).Nodup ∧
    (∀ x, x ∈ sortedCommitSet env d s ↔ x ∈ s ∧ env.existing x = true) ∧
    (Orderly d.graph env.time (fun x => x ∈ s ∧ env.existing x = true) →
      (sortedCommitSet env d s).Pairwise (Earlier d.graph env.time)) := by
  unfold sortedCommitSet
  have hmem : ∀ x, x ∈ (env.toVec s).filter env.existing ↔ x ∈ s ∧ env.existing x = true := by
    intro x
    rw [List.mem_filter, (htv s).2]
  have hnd : ((env.toVec s).filter env.existing).Nodup := (htv s).1.filter _
  generalize (env.toVec s).filter env.existing = l at hmem hnd
  have hperm := hs.perm (commitCompare d env.time) l
  have hndp := hperm.nodup_iff.2 hnd
  refine ⟨hndp, fun x => (hperm.mem_iff).trans (hmem x), fun ho => ?_⟩
  have hnode : ∀ x ∈ l, x ∈ d.graph.nodes := fun x hx => hn x ((hmem x).1 hx).1
  have hlt : ∀ a ∈ l, ∀ b ∈ l, a ≠ b → (commitCompare d env.time a b = .lt ↔ Earlier d.graph env.time a b) :=
    fun a ha b hb hab => commitCompare_lt hg (hnode a ha) (hnode b hb) hab
  have := hs.sorted (commitCompare d env.time) l hnd ?_ ?_
  · have h2 : (env.sortBy (commitCompare d env.time) l).Pairwise fun a b =>
        a ≠ b ∧ commitCompare d env.time a b = .lt := hndp.imp₂ (fun _ _ a b => ⟨a, b⟩) this
    refine h2.imp_of_mem fun {a b} ha hb h => ?_
    exact (hlt a (hperm.mem_iff.1 ha) b (hperm.mem_iff.1 hb) h.1).1 h.2
  · intro a ha b hb hab
    rw [commitCompare_gt hg (hnode a ha) (hnode b hb) hab, commitCompare_gt hg (hnode b hb) (hnode a ha) hab.symm,
      hlt a ha b hb hab, hlt b hb a ha hab.symm, and_self, and_self]
    exact earlier_total hab
  · intro a ha b hb c hc hab hbc h1 h2
    rw [hlt a ha b hb hab] at h1
    rw [hlt b hb c hc hbc] at h2
    have h3 := ho a b c ((hmem a).1 ha) ((hmem b).1 hb) ((hmem c).1 hc) h1 h2
    exact ⟨h3.1, (hlt a ha c hc h3.1).2 h3⟩

/-- C57: the order makes sense if ancestors are older (by time, and in the same second by their object
ids). -/
theorem orderly_of_older {graph : CommitGraph Oid} (hg : WFGraph graph) {time : Oid → Nat} {s : Oid → Prop}
    (h : ∀ a b, s a → s b → Anc graph a b → a ≠ b →
      time a < time b ∨ (time a = time b ∧ a.val < b.val)) : Orderly graph time s := by
  intro a b c ha hb hc h1 h2
  have key : ∀ a b, s a → s b → Earlier graph time a b →
      time a < time b ∨ (time a = time b ∧ a.val < b.val) := by
    intro a b ha hb hab
    obtain ⟨hne, hab | hab⟩ := hab
    · exact h a b ha hb hab hne
    · exact hab.2
  have k1 := key a b ha hb h1
  have k2 := key b c hb hc h2
  have k3 : time a < time c ∨ (time a = time c ∧ a.val < c.val) := by omega
  have hne : a ≠ c := by rintro rfl; omega
  refine ⟨hne, ?_⟩
  by_cases hac : Anc graph a c
  · exact .inl hac
  · refine .inr ⟨fun hca => ?_, k3⟩
    have := h c a hc ha hca hne.symm
    omega

/-- C57: the order makes sense for a linear stack, whatever the times. -/
theorem orderly_of_chain {graph : CommitGraph Oid} (hg : WFGraph graph) {time : Oid → Nat} {s : Oid → Prop}
    (h : ∀ a b, s a → s b → Anc graph a b ∨ Anc graph b a) : Orderly graph time s := by
  intro a b c ha hb hc h1 h2
  have key : ∀ a b, s a → s b → Earlier graph time a b → Anc graph a b := by
    intro a b ha hb hab
    obtain ⟨_, hab | hab⟩ := hab
    · exact hab
    · exact (h a b ha hb).resolve_right hab.1
  have k1 := key a b ha hb h1
  have k2 := key b c hb hc h2
  refine ⟨?_, .inl (k1.trans k2)⟩
  rintro rfl
  exact h1.1 (k1.antisymm hg k2)

/-- An insertion from the right, into a list in reverse order. -/
def insertRev (cmp : Oid → Oid → Ordering) (x : Oid) : List Oid → List Oid
  | [] => [x]
  | y :: ys => if cmp x y = .lt then y :: insertRev cmp x ys else x :: y :: ys

/-- The insertion sort which `sort_by` of Rust 1.74 (see /repo/rust-toolchain.toml) does for up to 20
elements. -/
def insertionSortBy (cmp : Oid → Oid → Ordering) (l : List Oid) : List Oid :=
  (l.foldl (fun acc x => insertRev cmp x acc) []).reverse

theorem insertRev_perm (cmp : Oid → Oid → Ordering) (x : Oid) (l : List Oid) :
    (insertRev cmp x l).Perm (x :: l) := by
  induction l with
  | nil => exact .refl _
  | cons y l ih =>
    unfold insertRev
    split
    · exact (ih.cons y).trans (.swap _ _ _)
    · exact .refl _

theorem foldl_insertRev_perm (cmp : Oid → Oid → Ordering) (l acc : List Oid) :
    (l.foldl (fun acc x => insertRev cmp x acc) acc).Perm (l ++ acc) := by
  induction l generalizing acc with
  | nil => exact .refl _
  | cons x l ih =>
    rw [List.foldl_cons]
    refine (ih _).trans ?_
    refine ((insertRev_perm cmp x acc).append_left l).trans ?_
    exact List.perm_middle

theorem insertionSortBy_contract : SortContract insertionSortBy where
  perm cmp l := by
    unfold insertionSortBy
    refine (List.reverse_perm _).trans ?_
    simpa using foldl_insertRev_perm cmp l []
  sorted cmp l hn htot htr := by
    unfold insertionSortBy
    rw [List.pairwise_reverse]
    have key : ∀ (m acc : List Oid), (∀ x ∈ m, x ∈ l) → (∀ x ∈ acc, x ∈ l) → (m ++ acc).Nodup →
        acc.Pairwise (fun a b => cmp b a = .lt) →
        (m.foldl (fun acc x => insertRev cmp x acc) acc).Pairwise (fun a b => cmp b a = .lt) := by
      intro m
      induction m with
      | nil => intro acc _ _ _ h; exact h
      | cons x m ih =>
        intro acc hm hacc hnd hp
        rw [List.foldl_cons]
        have hperm := insertRev_perm cmp x acc
        have hxl := hm x List.mem_cons_self
        have hxa : x ∉ acc := by
          intro hx
          rw [List.cons_append, List.nodup_cons] at hnd
          exact hnd.1 (List.mem_append_right _ hx)
        refine ih _ (fun y hy => hm y (List.mem_cons_of_mem _ hy)) ?_ ?_ ?_
        · intro y hy
          rcases List.mem_cons.1 (hperm.mem_iff.1 hy) with rfl | hy
          · exact hxl
          · exact hacc y hy
        · have := (hperm.append_left m).nodup_iff.2
          apply this
          exact (List.perm_middle.nodup_iff).2 hnd
        · have hacn : acc.Nodup := (hnd.sublist (List.sublist_append_right (x :: m) acc))
          clear hnd hperm ih hm
          induction acc with
          | nil => simp [insertRev]
          | cons y ys ih =>
            rw [List.pairwise_cons] at hp
            have hyl := hacc y List.mem_cons_self
            have hxy : x ≠ y := fun h => hxa (h ▸ List.mem_cons_self)
            unfold insertRev
            split
            · rename_i hlt
              rw [List.pairwise_cons]
              refine ⟨fun z hz => ?_, ih (fun z hz => hacc z (List.mem_cons_of_mem _ hz)) hp.2
                (fun h => hxa (List.mem_cons_of_mem _ h)) (List.nodup_cons.1 hacn).2⟩
              rcases List.mem_cons.1 ((insertRev_perm cmp x ys).mem_iff.1 hz) with rfl | hz
              · exact hlt
              · exact hp.1 z hz
            · rename_i hlt
              have hyx : cmp y x = .lt := by
                rcases htot x hxl y hyl hxy with h | h
                · exact absurd h.1 hlt
                · exact h.2
              rw [List.pairwise_cons, List.pairwise_cons]
              refine ⟨fun z hz => ?_, hp⟩
              rcases List.mem_cons.1 hz with rfl | hz'
              · exact hyx
              · have hzl := hacc z hz
                have hzy := hp.1 z hz'
                have hne : z ≠ y := by
                  rintro rfl
                  exact (List.nodup_cons.1 hacn).1 hz'
                exact (htr z hzl y hyl x hxl hne hxy.symm hzy hyx).2
    exact key l [] (fun _ h => h) (by simp) (by simpa using hn) .nil

/-- `3` and its child `1`, and `2`, all made in the same second, on top of `4`. -/
def exSameSecond : CommitGraph Oid :=
  ⟨[(oidN 1, [oidN 3]), (oidN 2, [oidN 4]), (oidN 3, [oidN 4]), (oidN 4, [])]⟩

theorem exSameSecond_wf : WFGraph exSameSecond := by
  unfold WFGraph exSameSecond
  repeat (first | exact .nil | refine .cons (by decide) (by decide) ?_)

def exNav : NavEnv := ⟨id, fun _ => true, fun _ => 0, insertionSortBy, fun _ _ => .ok (some 1), false⟩

def exDagOf (graph : CommitGraph Oid) : Dag := ⟨graph, [], [], [], [], []⟩

theorem isAnc_of {graph : CommitGraph Oid} (hg : WFGraph graph) {a b : Oid}
    (h : graph.isAncestor a b = true) : Anc graph a b := ((isAncestor_iff hg).1 h).2

theorem not_isAnc_of {graph : CommitGraph Oid} (hg : WFGraph graph) {a b : Oid} (ha : a ∈ graph.nodes)
    (h : graph.isAncestor a b = false) : ¬ Anc graph a b := by
  intro h'
  rw [(isAncestor_iff hg).2 ⟨ha, h'⟩] at h
  simp at h

/-- C57 fails for commits which are made in the same second (such as those which a rebase makes): the
order goes in a circle. There is no list of these three commits in which it holds, whatever the
algorithm. -/
theorem same_second_cycle :
    Earlier exSameSecond (fun _ => 0) (oidN 3) (oidN 1) ∧ Earlier exSameSecond (fun _ => 0) (oidN 1) (oidN 2) ∧
    Earlier exSameSecond (fun _ => 0) (oidN 2) (oidN 3) ∧
    ∀ l : List Oid, l.Perm [oidN 1, oidN 2, oidN 3] → ¬ l.Pairwise (Earlier exSameSecond fun _ => 0) := by
  have hg := exSameSecond_wf
  have h31 : Earlier exSameSecond (fun _ => 0) (oidN 3) (oidN 1) :=
    ⟨by decide, .inl (isAnc_of hg (by decide))⟩
  have h12 : Earlier exSameSecond (fun _ => 0) (oidN 1) (oidN 2) :=
    ⟨by decide, .inr ⟨not_isAnc_of hg (by decide) (by decide), .inr ⟨rfl, by decide⟩⟩⟩
  have h23 : Earlier exSameSecond (fun _ => 0) (oidN 2) (oidN 3) :=
    ⟨by decide, .inr ⟨not_isAnc_of hg (by decide) (by decide), .inr ⟨rfl, by decide⟩⟩⟩
  refine ⟨h31, h12, h23, fun l hl hp => ?_⟩
  -- the first of the list is after another one
  match l, hl, hp with
  | [], hl, _ => simp at hl
  | x :: rest, hl, hp =>
    rw [List.pairwise_cons] at hp
    have hx : x ∈ [oidN 1, oidN 2, oidN 3] := hl.mem_iff.1 List.mem_cons_self
    have hrest : ∀ y ∈ [oidN 1, oidN 2, oidN 3], y ≠ x → y ∈ rest := fun y hy hne =>
      (List.mem_cons.1 (hl.mem_iff.2 hy)).resolve_left hne
    simp only [List.mem_cons, List.not_mem_nil, or_false] at hx
    rcases hx with rfl | rfl | rfl
    · exact earlier_asymm hg h31 (hp.1 _ (hrest _ (by simp) (by decide)))
    · exact earlier_asymm hg h12 (hp.1 _ (hrest _ (by simp) (by decide)))
    · exact earlier_asymm hg h23 (hp.1 _ (hrest _ (by simp) (by decide)))

/-- C57 fails: the child `1` comes before its parent `3`, if the set is listed in this order to begin with
(descendants first, as is usual for sets of commits). -/
theorem sorted_child_before_parent :
    sortedCommitSet exNav (exDagOf exSameSecond) [oidN 1, oidN 2, oidN 3] = [oidN 1, oidN 2, oidN 3] ∧
    IsParent exSameSecond (oidN 3) (oidN 1) := by
  refine ⟨by decide +kernel, [oidN 3], by decide, by decide⟩

/-- Non-vacuity: with the object ids the other way round. -/
example : Orderly exSameSecond (fun o => 10 - o.val) (fun x => x ∈ [oidN 1, oidN 2, oidN 3]) ∧
    sortedCommitSet { exNav with time := fun o => 10 - o.val } (exDagOf exSameSecond)
      [oidN 1, oidN 2, oidN 3] = [oidN 3, oidN 2, oidN 1] := by
  refine ⟨orderly_of_older exSameSecond_wf ?_, by decide +kernel⟩
  intro a b ha hb hab hne
  simp only [List.mem_cons, List.not_mem_nil, or_false] at ha hb
  rcases ha with rfl | rfl | rfl <;> rcases hb with rfl | rfl | rfl
  all_goals first
    | exact absurd rfl hne
    | exact absurd hab (not_isAnc_of exSameSecond_wf (by decide) (by decide))
    | exact .inl (by decide)

/-! ### the candidates -/

theorem branchCommits_opened {graph : CommitGraph Oid} {main : Text} {w : RepoWorld}
    (hw : AMap.WF w.git.refs) {es : List Event} (he : w.db.getEvents = some es) {r : Replayer} {d : Dag}
    (h : openRepoDag graph main w = some (r, d)) (o : Oid) :
    (o ∈ d.branchCommits ↔ AtBranch w.git o) ∧
    (o ∈ d.mainBranchCommit ↔ w.git.refs.get? main = some o) := by
  obtain ⟨refs, h1, rfl, rfl⟩ := openRepoDag_some he h
  obtain ⟨-, h3, h4⟩ := snapshot_anchor hw h1 o
  constructor
  · unfold AtBranch
    rw [← h4, ← Option.isSome_iff_exists, ← AMap.mem_keys_iff]
    rfl
  · rw [← h3]
    simp [Dag.openWithoutSyncing, eq_comm]

theorem nextBranch_iff {graph : CommitGraph Oid} (hg : WFGraph graph) {main : Text} {w : RepoWorld}
    (hw : AMap.WF w.git.refs) {es : List Event} (he : w.db.getEvents = some es) {r : Replayer} {d : Dag}
    (h : openRepoDag graph main w = some (r, d)) (cur x : Oid) :
    x ∈ descendantBranches d cur ↔ NextBranch graph w.git cur x := by
  obtain ⟨hgr, -⟩ := graph_opened he h
  have hvis := mem_filterVisible_opened hg hw he h
  have hbr := fun o => (branchCommits_opened hw he h o).1
  have hB : ∀ b, b ∈ CommitGraph.inter d.branchCommits (graph.descendants (childCommits d cur)) ↔
      AtBranch w.git b ∧ cur ≠ b ∧ Anc graph cur b := by
    intro b
    rw [mem_inter, hbr, mem_descendants hg]
    refine and_congr_right fun hb => ?_
    simp only [childCommits, hvis, hgr, mem_children hg, List.mem_singleton, exists_eq_left]
    constructor
    · rintro ⟨_, c, ⟨hp, _⟩, ha⟩
      have hcb : Anc graph cur b := (Anc.of_parent hp).trans ha
      refine ⟨?_, hcb⟩
      rintro rfl
      have := (Anc.of_parent hp).antisymm hg ha
      subst this
      exact not_isParent_self hg hp
    · rintro ⟨hne, ha⟩
      rcases anc_iff_child.1 ha with rfl | ⟨c, hp, hc⟩
      · exact absurd rfl hne
      · have hn : b ∈ graph.nodes := hc.mem_up hp.child_mem
        obtain ⟨name, hb1, hb2⟩ := hb
        exact ⟨hn, c, ⟨hp, hp.child_mem, b, hc, .inr (.inr (.inl ⟨name, hb1, hb2⟩))⟩, hc⟩
  unfold descendantBranches CommitGraph.roots NextBranch
  simp only [hgr, mem_diff, mem_descendants hg, mem_children hg, hB]
  constructor
  · rintro ⟨⟨hx, b, ⟨hb1, hb2, hb3⟩, hbx⟩, hno⟩
    have hbelow : ∀ b', AtBranch w.git b' → cur ≠ b' → Anc graph cur b' → Anc graph b' x → b' = x := by
      intro b' h1 h2 h3 h4
      rcases anc_iff.1 h4 with h | ⟨p, hp, hbp⟩
      · exact h
      · exact absurd ⟨p, ⟨hp.parent_mem hg, b', ⟨h1, h2, h3⟩, hbp⟩, hp⟩ hno
    have := hbelow b hb1 hb2 hb3 hbx
    subst this
    exact ⟨hb1, hb2, hb3, hbelow⟩
  · rintro ⟨h1, h2, h3, h4⟩
    have hx : x ∈ graph.nodes := by
      rcases anc_iff.1 h3 with rfl | ⟨p, hp, _⟩
      · exact absurd rfl h2
      · exact hp.child_mem
    refine ⟨⟨hx, x, ⟨h1, h2, h3⟩, .refl⟩, ?_⟩
    rintro ⟨p, ⟨_, b', ⟨g1, g2, g3⟩, g4⟩, hp⟩
    have := h4 b' g1 g2 g3 (.step g4 hp)
    subst this
    have := (Anc.of_parent hp).antisymm hg g4
    subst this
    exact not_isParent_self hg hp

theorem prevBranch_iff {graph : CommitGraph Oid} (hg : WFGraph graph) {main : Text} {w : RepoWorld}
    (hw : AMap.WF w.git.refs) {es : List Event} (he : w.db.getEvents = some es) {r : Replayer} {d : Dag}
    (h : openRepoDag graph main w = some (r, d)) (cur x : Oid) :
    x ∈ ancestorBranches d cur ↔ PrevBranch graph w.git cur x := by
  obtain ⟨hgr, -⟩ := graph_opened he h
  have hbr := fun o => (branchCommits_opened hw he h o).1
  have hB : ∀ b, b ∈ CommitGraph.inter d.branchCommits (graph.ancestors (parentCommits d cur)) ↔
      AtBranch w.git b ∧ cur ≠ b ∧ Anc graph b cur := by
    intro b
    rw [mem_inter, hbr, mem_ancestors hg]
    refine and_congr_right fun hb => ?_
    simp only [parentCommits, hgr, mem_parents hg, List.mem_singleton, exists_eq_left]
    constructor
    · rintro ⟨_, c, hp, ha⟩
      refine ⟨?_, .step ha hp⟩
      rintro rfl
      have := (Anc.of_parent hp).antisymm hg ha
      subst this
      exact not_isParent_self hg hp
    · rintro ⟨hne, ha⟩
      rcases anc_iff.1 ha with rfl | ⟨p, hp, hbp⟩
      · exact absurd rfl hne
      · exact ⟨hbp.mem hg (hp.parent_mem hg), p, hp, hbp⟩
  have hn : ∀ b, AtBranch w.git b → cur ≠ b → Anc graph b cur → b ∈ graph.nodes := by
    intro b _ hne ha
    rcases anc_iff.1 ha with rfl | ⟨p, hp, hbp⟩
    · exact absurd rfl hne
    · exact hbp.mem hg (hp.parent_mem hg)
  unfold ancestorBranches CommitGraph.headsAncestors PrevBranch
  simp only [hgr, List.mem_filter, hB, List.all_eq_true, Bool.or_eq_true, decide_eq_true_eq,
    Bool.not_eq_true', ← Bool.not_eq_true, isAncestor_iff hg]
  constructor
  · rintro ⟨⟨h1, h2, h3⟩, h4⟩
    refine ⟨h1, h2, h3, fun b' g1 g2 g3 g4 => ?_⟩
    rcases h4 b' ⟨g1, g2, g3⟩ with h | h
    · exact h
    · exact absurd ⟨hn x h1 h2 h3, g4⟩ h
  · rintro ⟨h1, h2, h3, h4⟩
    refine ⟨⟨h1, h2, h3⟩, fun b' ⟨g1, g2, g3⟩ => ?_⟩
    by_cases hb : Anc graph x b'
    · exact .inl (h4 b' g1 g2 g3 hb)
    · exact .inr fun h => hb h.2

theorem mem_candidateSet {graph : CommitGraph Oid} (hg : WFGraph graph) {main : Text} {w : RepoWorld}
    (hw : AMap.WF w.git.refs) {es : List Event} (he : w.db.getEvents = some es) {r : Replayer} {d : Dag}
    (h : openRepoDag graph main w = some (r, d)) (command : NavCommand) (distance : Distance) (cur x : Oid) :
    x ∈ candidateSet d command distance cur ↔ NavStep graph main w.git es command distance cur x := by
  obtain ⟨hgr, -⟩ := graph_opened he h
  have hvis := mem_filterVisible_opened hg hw he h
  have hmain := fun o => (branchCommits_opened hw he h o).2
  have hpub : ∀ o, o ∈ graph.nodes → (o ∈ d.publicCommits ↔ OnMain graph main w.git o) := by
    intro o ho
    unfold Dag.publicCommits OnMain
    rw [hgr, mem_ancestors hg]
    simp only [ho, true_and, hmain]
  have hchild : x ∈ childCommits d cur ↔ IsParent graph cur x ∧ Seen graph main w.git es x := by
    simp only [childCommits, hvis, hgr, mem_children hg, List.mem_singleton, exists_eq_left]
  have hpar : x ∈ parentCommits d cur ↔ IsParent graph x cur := by
    simp only [parentCommits, hgr, mem_parents hg, List.mem_singleton, exists_eq_left]
  have hnb := nextBranch_iff hg hw he h cur x
  have hpb := prevBranch_iff hg hw he h cur x
  have hpn : PrevBranch graph w.git cur x → x ∈ graph.nodes := by
    rintro ⟨_, h2, h3, _⟩
    rcases anc_iff.1 h3 with rfl | ⟨p, hp, hbp⟩
    · exact absurd rfl h2
    · exact hbp.mem hg (hp.parent_mem hg)
  unfold candidateSet NavStep
  cases command <;> rcases distance with ⟨n, _ | _⟩ | (_ | _) <;> simp only
  · exact hchild
  · exact hnb
  · exact hchild
  · exact hnb
  · exact hpar
  · exact hpb
  · rw [mem_diff, hpar]
    exact and_congr_right fun hp => not_congr (hpub x (hp.parent_mem hg))
  · rw [mem_diff, hpb]
    exact and_congr_right fun hp => not_congr (hpub x (hpn hp))

/-! ### walking -/

/-- A step changes the age in one direction. -/
theorem navStep_nodes {graph : CommitGraph Oid} (hg : WFGraph graph) {main : Text} {git : GitState}
    {es : List Event} {command : NavCommand} {distance : Distance} {a b : Oid}
    (h : NavStep graph main git es command distance a b) :
    a ∈ graph.nodes ∧ b ∈ graph.nodes ∧ a ≠ b ∧
      (match command with | .next => Anc graph a b | .prev => Anc graph b a) := by
  have key : ∀ a b, IsParent graph a b → a ∈ graph.nodes ∧ b ∈ graph.nodes ∧ a ≠ b ∧ Anc graph a b := by
    intro a b hp
    refine ⟨hp.parent_mem hg, hp.child_mem, ?_, .of_parent hp⟩
    rintro rfl
    exact not_isParent_self hg hp
  have key2 : ∀ a b, a ≠ b → Anc graph a b → a ∈ graph.nodes ∧ b ∈ graph.nodes := by
    intro a b hne ha
    rcases anc_iff.1 ha with rfl | ⟨p, hp, hap⟩
    · exact absurd rfl hne
    · exact ⟨hap.mem hg (hp.parent_mem hg), hp.child_mem⟩
  have hprev : IsParent graph b a → a ∈ graph.nodes ∧ b ∈ graph.nodes ∧ a ≠ b ∧ Anc graph b a := by
    intro hp
    obtain ⟨h1, h2, h3, h4⟩ := key _ _ hp
    exact ⟨h2, h1, h3.symm, h4⟩
  have hprevb : PrevBranch graph git a b → a ∈ graph.nodes ∧ b ∈ graph.nodes ∧ a ≠ b ∧ Anc graph b a := by
    rintro ⟨_, h1, h2, _⟩
    obtain ⟨h3, h4⟩ := key2 _ _ h1.symm h2
    exact ⟨h4, h3, h1, h2⟩
  have hnextb : NextBranch graph git a b → a ∈ graph.nodes ∧ b ∈ graph.nodes ∧ a ≠ b ∧ Anc graph a b := by
    rintro ⟨_, h1, h2, _⟩
    obtain ⟨h3, h4⟩ := key2 _ _ h1 h2
    exact ⟨h3, h4, h1, h2⟩
  unfold NavStep at h
  cases command <;> rcases distance with ⟨n, _ | _⟩ | (_ | _) <;> simp only at h ⊢
  · exact key _ _ h.1
  · exact hnextb h
  · exact key _ _ h.1
  · exact hnextb h
  · exact hprev h
  · exact hprevb h
  · exact hprev h.1
  · exact hprevb h.1

/-- How far one can go. -/
def rankOf (graph : CommitGraph Oid) (command : NavCommand) (o : Oid) : Nat :=
  match command with
  | .next => graph.nodes.length - ageOf graph.entries o
  | .prev => ageOf graph.entries o

theorem ageOf_lt {graph : CommitGraph Oid} (hg : WFGraph graph) {a b : Oid} (h : Anc graph a b) (hne : a ≠ b) :
    ageOf graph.entries a < ageOf graph.entries b := by
  rcases anc_iff.1 h with rfl | ⟨p, hp, hap⟩
  · exact absurd rfl hne
  · exact Nat.lt_of_le_of_lt (age_le hg hap) (age_lt hg hp)

theorem rank_lt {graph : CommitGraph Oid} (hg : WFGraph graph) {main : Text} {git : GitState}
    {es : List Event} {command : NavCommand} {distance : Distance} {a b : Oid}
    (h : NavStep graph main git es command distance a b) :
    rankOf graph command b < rankOf graph command a ∧ rankOf graph command a ≤ graph.nodes.length := by
  obtain ⟨_, _, hne, ha⟩ := navStep_nodes hg h
  have hl : ∀ x, ageOf graph.entries x ≤ graph.nodes.length := by
    intro x
    have := ageOf_le graph.entries x
    unfold CommitGraph.nodes
    rwa [List.length_map]
  cases command with
  | next =>
    have := ageOf_lt hg ha hne
    have := hl b
    unfold rankOf
    simp only
    omega
  | prev =>
    have := ageOf_lt hg ha hne.symm
    exact ⟨this, hl a⟩

theorem navChoose_spec {env : NavEnv} {towards : Option Towards} {i : Nat} {l : List Oid} (hn : l.Nodup) :
    (navChoose env towards i l = .stuck ↔ l = []) ∧
    (∀ b, navChoose env towards i l = .go b → b ∈ l ∧ ((∀ b' ∈ l, b' = b) ∨
      match towards with
      | none => False
      | some .interactive => ∃ j, env.prompt i l = .ok (some j) ∧ l[j]? = some b
      | some .newest => ∀ r : Oid → Oid → Prop, l.Pairwise r → ∀ b' ∈ l, b' ≠ b → r b' b
      | some .oldest => ∀ r : Oid → Oid → Prop, l.Pairwise r → ∀ b' ∈ l, b' ≠ b → r b b')) ∧
    (navChoose env towards i l = .giveUp → (∃ a ∈ l, ∃ b ∈ l, a ≠ b) ∧
      (towards = none ∨ (towards = some .interactive ∧ env.prompt i l = .ok none))) ∧
    (navChoose env towards i l = .error → towards = some .interactive) := by
  rcases l with _ | ⟨a, _ | ⟨b, rest⟩⟩
  · rcases towards with _ | _ | _ | _ <;> simp [navChoose]
  · rcases towards with _ | _ | _ | _ <;> simp [navChoose]
  · have hab : a ≠ b := by
      intro h
      subst h
      simp at hn
    have htwo : ∃ x ∈ a :: b :: rest, ∃ y ∈ a :: b :: rest, x ≠ y := ⟨a, by simp, b, by simp, hab⟩
    rcases towards with _ | _ | _ | _
    · refine ⟨by simp [navChoose], ?_, fun _ => ⟨htwo, .inl rfl⟩, by simp [navChoose]⟩
      intro b' h
      simp [navChoose] at h
    · refine ⟨by simp [navChoose], ?_, by simp [navChoose], by simp [navChoose]⟩
      intro x h
      simp only [navChoose, NavChoice.go.injEq] at h
      subst h
      refine ⟨List.getLast_mem _, .inr fun r hp b' hb' hne => ?_⟩
      have hsplit := List.dropLast_append_getLast (l := a :: b :: rest) (by simp)
      rw [← hsplit] at hb' hp
      rw [List.mem_append, List.mem_singleton] at hb'
      rw [List.pairwise_append] at hp
      exact hp.2.2 b' (hb'.resolve_right hne) _ (by simp)
    · refine ⟨by simp [navChoose], ?_, by simp [navChoose], by simp [navChoose]⟩
      intro x h
      simp only [navChoose, NavChoice.go.injEq] at h
      subst h
      refine ⟨List.mem_cons_self, .inr fun r hp b' hb' hne => ?_⟩
      rw [List.pairwise_cons] at hp
      exact hp.1 b' ((List.mem_cons.1 hb').resolve_left hne)
    · refine ⟨?_, ?_, ?_, fun _ => rfl⟩
      · unfold navChoose
        simp only [reduceCtorEq, iff_false]
        split
        · simp
        · simp
        · split <;> simp
      · intro x h
        unfold navChoose at h
        simp only at h
        split at h
        · simp at h
        · simp at h
        · split at h
          · rename_i o ho
            simp only [NavChoice.go.injEq] at h
            subst h
            exact ⟨List.mem_of_getElem? ho, .inr ⟨_, by assumption, ho⟩⟩
          · simp at h
      · intro h
        refine ⟨htwo, .inr ⟨rfl, ?_⟩⟩
        unfold navChoose at h
        simp only at h
        split at h
        · simp at h
        · assumption
        · split at h <;> simp at h

/-- What `advance` is given, and what is true of it. -/
structure NavSetting (graph : CommitGraph Oid) (main : Text) (w : RepoWorld) (es : List Event)
    (env : NavEnv) (r : Replayer) (d : Dag) : Prop where
  hg : WFGraph graph
  hw : AMap.WF w.git.refs
  he : w.db.getEvents = some es
  opened : openRepoDag graph main w = some (r, d)
  sorting : SortContract env.sortBy
  toVec : ∀ l, (env.toVec l).Nodup ∧ ∀ x, x ∈ env.toVec l ↔ x ∈ l
  existing : ∀ x ∈ graph.nodes, env.existing x = true

theorem sorted_candidates {graph : CommitGraph Oid} {main : Text} {w : RepoWorld} {es : List Event}
    {env : NavEnv} {r : Replayer} {d : Dag} (hs : NavSetting graph main w es env r d)
    (command : NavCommand) (distance : Distance) (cur : Oid) :
    (sortedCommitSet env d (candidateSet d command distance cur)).Nodup ∧
    (∀ x, x ∈ sortedCommitSet env d (candidateSet d command distance cur) ↔
      NavStep graph main w.git es command distance cur x) ∧
    (Orderly graph env.time (NavStep graph main w.git es command distance cur) →
      (sortedCommitSet env d (candidateSet d command distance cur)).Pairwise (Earlier graph env.time)) := by
  obtain ⟨hgr, -⟩ := graph_opened hs.he hs.opened
  have hm := mem_candidateSet hs.hg hs.hw hs.he hs.opened command distance cur
  have hn : ∀ x ∈ candidateSet d command distance cur, x ∈ graph.nodes := by
    intro x hx
    exact (navStep_nodes hs.hg ((hm x).1 hx)).2.1
  obtain ⟨h1, h2, h3⟩ := sorted_commit_set_sorted env hs.sorting hs.toVec d (hgr ▸ hs.hg) (candidateSet d command distance cur)
    (by rw [hgr]; exact hn)
  rw [hgr] at h3
  have hiff : ∀ x, (x ∈ candidateSet d command distance cur ∧ env.existing x = true) ↔
      NavStep graph main w.git es command distance cur x := by
    intro x
    rw [← hm x]
    exact ⟨fun h => h.1, fun h => ⟨h, hs.existing x (hn x h)⟩⟩
  refine ⟨h1, fun x => (h2 x).trans (hiff x), fun ho => h3 ?_⟩
  intro a b c ha hb hc
  exact ho a b c ((hiff a).1 ha) ((hiff b).1 hb) ((hiff c).1 hc)

theorem advanceLoop_spec {graph : CommitGraph Oid} {main : Text} {w : RepoWorld} {es : List Event}
    {env : NavEnv} {r : Replayer} {d : Dag} (hs : NavSetting graph main w es env r d)
    (command : NavCommand) (distance : Distance) (towards : Option Towards) (start : Oid) :
    ∀ (fuel i : Nat) (cur : Oid),
    Walk (PreferredStep (Earlier graph env.time) (Orderly graph env.time) env.prompt
      (NavStep graph main w.git es command distance) towards) i start cur →
    (∀ n b, distance = .numCommits n b → i ≤ n) →
    (∀ res, advanceLoop env d command distance towards fuel i cur = .ok (some res) →
      ∃ k, Walk (PreferredStep (Earlier graph env.time) (Orderly graph env.time) env.prompt
        (NavStep graph main w.git es command distance) towards) k start res ∧
        match distance with
        | .numCommits n _ => k = n ∨ (0 < k ∧ k < n ∧ ∀ b, ¬ NavStep graph main w.git es command distance res b)
        | .allTheWay _ => ∀ b, ¬ NavStep graph main w.git es command distance res b) ∧
    (advanceLoop env d command distance towards fuel i cur = .ok none →
      ∃ k res, Walk (PreferredStep (Earlier graph env.time) (Orderly graph env.time) env.prompt
        (NavStep graph main w.git es command distance) towards) k start res ∧
        (∀ n b, distance = .numCommits n b → k < n) ∧
        ((k = 0 ∧ (∃ n b, distance = .numCommits n b) ∧
            ∀ b, ¬ NavStep graph main w.git es command distance res b) ∨
          NoWay (Earlier graph env.time) (Orderly graph env.time) env.prompt
            (NavStep graph main w.git es command distance) towards k res)) ∧
    (advanceLoop env d command distance towards fuel i cur = .error .error → towards = some .interactive) := by
  intro fuel
  induction fuel with
  | zero =>
    intro i cur _ _
    refine ⟨fun res h => ?_, fun h => ?_, fun h => ?_⟩ <;> simp [advanceLoop] at h
  | succ fuel ih =>
    intro i cur hwalk hin
    obtain ⟨hnd, hmem, hpair⟩ := sorted_candidates hs command distance cur
    unfold advanceLoop
    simp only
    generalize sortedCommitSet env d (candidateSet d command distance cur) = l at hnd hmem hpair
    have hempty : l = [] → ∀ b, ¬ NavStep graph main w.git es command distance cur b := by
      intro hl b hb
      have := (hmem b).2 hb
      simp [hl] at this
    split
    · rename_i ha
      refine ⟨fun res h => ?_, fun h => by simp at h, fun h => by simp at h⟩
      simp only [Except.ok.injEq, Option.some.injEq] at h
      subst h
      refine ⟨i, hwalk, ?_⟩
      unfold arrived at ha
      cases distance with
      | numCommits n b => exact .inl (by simpa using ha)
      | allTheWay b => exact hempty (by simpa using ha)
    · rename_i ha
      have hlt : ∀ n b, distance = .numCommits n b → i < n := by
        intro n b h
        have h1 := hin n b h
        subst h
        simp only [arrived, decide_eq_true_eq] at ha
        omega
      obtain ⟨c1, c2, c3, c4⟩ := navChoose_spec (env := env) (towards := towards) (i := i) hnd
      cases hc : navChoose env towards i l with
      | stuck =>
        have hl := c1.1 hc
        simp only
        refine ⟨fun res h => ?_, fun h => ?_, fun h => by simp at h⟩
        · split at h
          · simp at h
          · simp only [Except.ok.injEq, Option.some.injEq] at h
            subst h
            refine ⟨i, hwalk, ?_⟩
            cases distance with
            | numCommits n b => exact .inr ⟨by omega, hlt n b rfl, hempty hl⟩
            | allTheWay b => exact hempty hl
        · split at h
          · rename_i h0
            refine ⟨i, cur, hwalk, hlt, .inl ⟨h0, ?_, hempty hl⟩⟩
            cases distance with
            | numCommits n b => exact ⟨n, b, rfl⟩
            | allTheWay b => simp [arrived, hl] at ha
          · simp at h
      | giveUp =>
        simp only
        refine ⟨fun res h => by simp at h, fun _ => ?_, fun h => by simp at h⟩
        obtain ⟨⟨a, ha1, b, hb1, hab⟩, ht⟩ := c3 hc
        refine ⟨i, cur, hwalk, hlt, .inr ⟨a, b, (hmem a).1 ha1, (hmem b).1 hb1, hab, ?_⟩⟩
        rcases ht with ht | ⟨ht, hp⟩
        · exact .inl ht
        · exact .inr ⟨ht, l, hnd, hmem, hpair, hp⟩
      | error =>
        simp only
        exact ⟨fun res h => by simp at h, fun h => by simp at h, fun _ => c4 hc⟩
      | go x =>
        simp only
        obtain ⟨hx, hpref⟩ := c2 x hc
        refine ih (i + 1) x (.go hwalk ⟨(hmem x).1 hx, ?_⟩) (fun n b h => hlt n b h)
        rcases hpref with h | h
        · exact .inl fun b' hb' => h b' ((hmem b').2 hb')
        · right
          rcases towards with _ | _ | _ | _
          · exact h
          · exact fun ho b' hb' hne => h _ (hpair ho) b' ((hmem b').2 hb') hne
          · exact fun ho b' hb' hne => h _ (hpair ho) b' ((hmem b').2 hb') hne
          · obtain ⟨j, h1, h2⟩ := h
            exact ⟨l, j, hnd, hmem, hpair, h1, h2⟩

theorem prefers_effective {env : NavEnv} {towards pref : Option Towards}
    (h : Prefers env.nextInteractive towards pref) : effectiveTowards env towards = pref := by
  obtain ⟨h1, h2, h3⟩ := h
  unfold effectiveTowards
  cases towards with
  | some t => exact (h1 t rfl).symm
  | none =>
    cases hi : env.nextInteractive
    · simpa using (h3 rfl hi).symm
    · simpa using (h2 rfl hi).symm

theorem effective_prefers (env : NavEnv) (towards : Option Towards) :
    Prefers env.nextInteractive towards (effectiveTowards env towards) := by
  refine ⟨?_, ?_, ?_⟩
  · rintro t rfl
    rfl
  · rintro rfl h
    simp [effectiveTowards, h]
  · rintro rfl h
    simp [effectiveTowards, h]

/-- C45: where `git next` and `git prev` go. After the given number of steps, or as far as possible; each step
to the only commit there is to go to, or else to the one which the options prefer. If there is nothing to go
to at all, or it is ambiguous and the options don't decide, or the user cancels, they go nowhere. -/
theorem advance_exact {graph : CommitGraph Oid} {main : Text} {w : RepoWorld} {es : List Event}
    {env : NavEnv} {r : Replayer} {d : Dag} (hs : NavSetting graph main w es env r d)
    (command : NavCommand) (distance : Distance) (towards pref : Option Towards)
    (hp : Prefers env.nextInteractive towards pref) (cur : Oid) :
    (∀ res, advance env d cur command distance towards = .ok (some res) →
      ∃ k, Walk (PreferredStep (Earlier graph env.time) (Orderly graph env.time) env.prompt
        (NavStep graph main w.git es command distance) pref) k cur res ∧
        match distance with
        | .numCommits n _ => k = n ∨ (0 < k ∧ k < n ∧ ∀ b, ¬ NavStep graph main w.git es command distance res b)
        | .allTheWay _ => ∀ b, ¬ NavStep graph main w.git es command distance res b) ∧
    (advance env d cur command distance towards = .ok none →
      ∃ k res, Walk (PreferredStep (Earlier graph env.time) (Orderly graph env.time) env.prompt
        (NavStep graph main w.git es command distance) pref) k cur res ∧
        (∀ n b, distance = .numCommits n b → k < n) ∧
        ((k = 0 ∧ (∃ n b, distance = .numCommits n b) ∧
            ∀ b, ¬ NavStep graph main w.git es command distance res b) ∨
          NoWay (Earlier graph env.time) (Orderly graph env.time) env.prompt
            (NavStep graph main w.git es command distance) pref k res)) ∧
    (advance env d cur command distance towards = .error .error →
      pref = some .interactive) := by
  rw [← prefers_effective hp]
  exact advanceLoop_spec hs command distance _ cur _ 0 cur .stop (fun _ _ _ => Nat.zero_le _)

theorem advanceLoop_fuel {graph : CommitGraph Oid} {main : Text} {w : RepoWorld} {es : List Event}
    {env : NavEnv} {r : Replayer} {d : Dag} (hs : NavSetting graph main w es env r d)
    (command : NavCommand) (distance : Distance) (towards : Option Towards) :
    ∀ (fuel i : Nat) (cur : Oid), rankOf graph command cur < fuel →
    advanceLoop env d command distance towards fuel i cur ≠ .error .fuel := by
  intro fuel
  induction fuel with
  | zero => intro i cur h; omega
  | succ fuel ih =>
    intro i cur hr
    obtain ⟨hnd, hmem, -⟩ := sorted_candidates hs command distance cur
    unfold advanceLoop
    simp only
    generalize sortedCommitSet env d (candidateSet d command distance cur) = l at hnd hmem
    split
    · simp
    · cases hc : navChoose env towards i l with
      | stuck => simp only; split <;> simp
      | giveUp => simp
      | error => simp
      | go x =>
        simp only
        obtain ⟨hx, -⟩ := (navChoose_spec (env := env) (towards := towards) (i := i) hnd).2.1 x hc
        have := rank_lt hs.hg ((hmem x).1 hx)
        exact ih (i + 1) x (by omega)

/-- C45: walking comes to an end. -/
theorem advance_terminates {graph : CommitGraph Oid} {main : Text} {w : RepoWorld} {es : List Event}
    {env : NavEnv} {r : Replayer} {d : Dag} (hs : NavSetting graph main w es env r d)
    (command : NavCommand) (distance : Distance) (towards : Option Towards) (cur : Oid) :
    advance env d cur command distance towards ≠ .error .fuel := by
  obtain ⟨hgr, -⟩ := graph_opened hs.he hs.opened
  unfold advance
  apply advanceLoop_fuel hs
  rw [hgr]
  have h := ageOf_le graph.entries cur
  have hl : graph.nodes.length = graph.entries.length := by
    unfold CommitGraph.nodes
    rw [List.length_map]
  cases command <;> simp only [rankOf] <;> omega

/-! ### going there -/

theorem options_mean {o : TraverseOptions} {distance : Distance} {towards : Option Towards}
    (hd : o.distance = some distance) (ht : o.towards = some towards) : OptionsMean o distance towards := by
  obtain ⟨n, all, by', oldest, newest, interactive⟩ := o
  unfold TraverseOptions.distance at hd
  unfold TraverseOptions.towards at ht
  unfold OptionsMean
  simp only at hd ht ⊢
  cases all <;> cases n <;> simp only [Option.some.injEq, reduceCtorEq] at hd <;> subst hd <;>
    cases oldest <;> cases newest <;> cases interactive <;>
    simp only [Option.some.injEq, reduceCtorEq] at ht <;> subst ht <;> simp

/-- C45: after a successful `git next` or `git prev`, `HEAD` is at the commit where the walk from the previous
`HEAD` ends, and no branch was moved. With `--branch`, if exactly one branch is there, it is checked out.
(The hypotheses about names: no branch is named like an object id, or `refs/…`.) -/
theorem traverse_lands {graph : CommitGraph Oid} {w : RepoWorld} {es : List Event}
    {env : NavEnv} {checkout : CheckoutEnv} {r : Replayer} {d : Dag}
    (hs : NavSetting graph checkout.mainBranch w es env r d)
    (hhex : ∀ o : Oid, w.git.refs.get? (t!"refs/heads/" ++ o.toText) = none)
    (hshort : ∀ x, (w.git.refs.get? (t!"refs/heads/" ++ x)).isSome → ¬ IsBranch x ∧ ¬ t!"refs/remotes/" <+: x)
    (command : NavCommand) (options : TraverseOptions) {git : GitState}
    (h : traverseCommits env checkout graph w command options = (git, .done)) :
    ∃ distance towards pref cur res, OptionsMean options distance towards ∧
      Prefers env.nextInteractive towards pref ∧
      w.git.headInfo.oid = some cur ∧ git.headInfo.oid = some res ∧ git.refs = w.git.refs ∧
      (∃ k, Walk (PreferredStep (Earlier graph env.time) (Orderly graph env.time) env.prompt
        (NavStep graph checkout.mainBranch w.git es command distance) pref) k cur res ∧
        match distance with
        | .numCommits n _ => k = n ∨ (0 < k ∧ k < n ∧
            ∀ b, ¬ NavStep graph checkout.mainBranch w.git es command distance res b)
        | .allTheWay _ => ∀ b, ¬ NavStep graph checkout.mainBranch w.git es command distance res b) ∧
      (options.moveByBranches = true → ∀ name, IsBranch name → w.git.refs.get? name = some res →
        (∀ name', IsBranch name' → w.git.refs.get? name' = some res → name' = name) →
        git.head = .symbolic name) := by
  unfold traverseCommits at h
  cases hd : options.distance with
  | none => simp [hd] at h
  | some distance =>
  cases ht : options.towards with
  | none => simp [hd, ht] at h
  | some towards =>
  simp only [hd, ht, hs.opened] at h
  cases hh : w.git.headInfo.oid with
  | none => simp [hh] at h
  | some cur =>
  simp only [hh] at h
  cases ha : advance env d cur command distance towards with
  | error e => simp [ha] at h
  | ok x =>
  cases x with
  | none => simp [ha] at h
  | some res =>
  simp only [ha] at h
  cases hc : checkOutCommit checkout w.git (traverseTarget distance w.git.refs res) with
  | error e => simp [hc] at h
  | ok y =>
  obtain ⟨g, b⟩ := y
  cases b with
  | false => simp [hc] at h
  | true =>
  simp only [hc, Prod.mk.injEq, and_true] at h
  subst h
  have hwalk := (advance_exact hs command distance towards _ (effective_prefers env towards) cur).1 res ha
  -- the branch, if there is exactly one
  have hone : ∀ name, namesAt w.git.refs res = [name] →
      checkOutCommit checkout w.git (.reference name) = .ok (g, true) →
      w.git.refs.get? name = some res ∧ g = { w.git with head := .symbolic name } := by
    intro name hn hco
    have hm : name ∈ namesAt w.git.refs res := by rw [hn]; simp
    rw [mem_namesAt hs.hw] at hm
    obtain ⟨hb, hr⟩ := hm
    have hsuf := branch_suffix hb
    have hsome : (w.git.refs.get? (t!"refs/heads/" ++ (categorize name).renderSuffix)).isSome := by
      rw [hsuf, hr]; rfl
    obtain ⟨s1, s2⟩ := hshort _ hsome
    have hidem : (categorize (categorize name).renderSuffix).renderSuffix = (categorize name).renderSuffix := by
      generalize (categorize name).renderSuffix = x at s1 s2
      unfold categorize
      rw [if_neg (by rw [List.isPrefixOf_iff_prefix]; exact s1),
        if_neg (by rw [List.isPrefixOf_iff_prefix]; exact s2)]
      unfold RefCategory.renderSuffix
      simp only [RefCategory.pfx, RefCategory.renderFull]
      cases x <;> rfl
    have hco2 : checkOutCommit checkout w.git (.reference (categorize name).renderSuffix) = .ok (g, true) := by
      rw [← hco]
      unfold checkOutCommit
      simp only [hidem]
    have := checkOut_reference s1 s2 hsome hco2
    rw [hsuf] at this
    exact ⟨hr, this⟩
  have hoid : checkOutCommit checkout w.git (.oid res) = .ok (g, true) →
      g.refs = w.git.refs ∧ g.headInfo.oid = some res := fun hco => checkOut_oid hs.hw (hhex res) hco
  have hland : g.refs = w.git.refs ∧ g.headInfo.oid = some res := by
    unfold traverseTarget at hc
    rcases distance with ⟨n, _ | _⟩ | (_ | _) <;> simp only at hc
    · exact hoid hc
    · split at hc
      · rename_i name hn
        obtain ⟨h1, rfl⟩ := hone name hn hc
        exact ⟨rfl, by simp [GitState.headInfo, h1]⟩
      · exact hoid hc
    · exact hoid hc
    · split at hc
      · rename_i name hn
        obtain ⟨h1, rfl⟩ := hone name hn hc
        exact ⟨rfl, by simp [GitState.headInfo, h1]⟩
      · exact hoid hc
  refine ⟨distance, towards, _, cur, res, options_mean hd ht, effective_prefers env towards, rfl, hland.2, hland.1, hwalk, ?_⟩
  intro hby name hb hr huniq
  have hnames : namesAt w.git.refs res = [name] := by
    have hmem : ∀ x, x ∈ namesAt w.git.refs res ↔ x = name := by
      intro x
      rw [mem_namesAt hs.hw]
      constructor
      · rintro ⟨h1, h2⟩
        exact huniq x h1 h2
      · rintro rfl
        exact ⟨hb, hr⟩
    have hnd : (namesAt w.git.refs res).Nodup := nodup_namesAt hs.hw _
    generalize namesAt w.git.refs res = l at hmem hnd
    match l, hmem, hnd with
    | [], hmem, _ => simpa using hmem name
    | [x], hmem, _ => rw [(hmem x).1 (by simp)]
    | x :: y :: rest, hmem, hnd =>
      have h1 := (hmem x).1 (by simp)
      have h2 := (hmem y).1 (by simp)
      rw [h1, h2] at hnd
      simp at hnd
  have hdist : traverseTarget distance w.git.refs res = .reference name := by
    unfold TraverseOptions.distance at hd
    unfold traverseTarget
    rw [hby] at hd
    split at hd <;> simp only [Option.some.injEq, reduceCtorEq] at hd <;> subst hd <;> simp [hnames]
  rw [hdist] at hc
  rw [(hone name hnames hc).2]

/-- A stack which forks: `2` and `3` on top of `1`, which is on top of the main branch; `4` on top of `3`. -/
def exFork : CommitGraph Oid :=
  ⟨[(oidN 4, [oidN 3]), (oidN 3, [oidN 1]), (oidN 2, [oidN 1]), (oidN 1, [oidN 0]), (oidN 0, [])]⟩

def exForkEvents : List Event :=
  [.commit 1 (.id 1) (oidN 1), .commit 2 (.id 2) (oidN 2), .commit 3 (.id 3) (oidN 3),
    .commit 4 (.id 4) (oidN 4)]

def exForkEnv : NavEnv :=
  ⟨List.dedup, fun _ => true, fun o => o.val, insertionSortBy, fun _ _ => .ok (some 1), false⟩

def exForkCheckout : CheckoutEnv := ⟨t!"refs/heads/main", false, fun _ => true, true⟩

theorem exFork_setting : ∃ r d, NavSetting exFork t!"refs/heads/main" (exRestackWorld exForkEvents (oidN 4))
    exForkEvents exForkEnv r d := by
  refine ⟨_, _, ?_, ?_, ?_, rfl, insertionSortBy_contract, ?_, fun _ _ => rfl⟩
  · unfold WFGraph exFork
    repeat (first | exact .nil | refine .cons (by decide) (by decide) ?_)
  · unfold AMap.WF
    decide +kernel
  · decide +kernel
  · intro l
    exact ⟨List.nodup_dedup l, fun x => List.mem_dedup⟩

def exOptions (n : Option Nat) (all byBranch newest : Bool) : TraverseOptions :=
  ⟨n, all, byBranch, false, newest, false⟩

/-- Non-vacuity: one step; two steps are ambiguous; with `--newest` they are not; all the way; to the next
branch; and with the user selecting the second. -/
example :
    let go := fun o => traverseCommits exForkEnv exForkCheckout exFork (exRestackWorld exForkEvents (oidN 4)) .next o
    (go (exOptions none false false false)).1.head = .detached (oidN 1) ∧
    (go (exOptions none false false false)).2 = .done ∧
    (go (exOptions (some 2) false false false)).2 = .failed ∧
    (go (exOptions (some 2) false false true)).1.head = .detached (oidN 3) ∧
    (go (exOptions none true false true)).1.head = .detached (oidN 4) ∧
    (go { exOptions none true false false with oldest := true }).1.head = .detached (oidN 2) ∧
    (go { exOptions none true false false with interactive := true }).1.head = .detached (oidN 4) ∧
    (go (exOptions none false true false)).1.head = .symbolic t!"refs/heads/b" := by
  decide +kernel

/-- Non-vacuity: the names of the branches are as `traverse_lands` needs them. -/
example : (∀ o : Oid, (exRestackWorld exForkEvents (oidN 4)).git.refs.get? (t!"refs/heads/" ++ o.toText) = none) ∧
    (∀ x, ((exRestackWorld exForkEvents (oidN 4)).git.refs.get? (t!"refs/heads/" ++ x)).isSome →
      ¬ IsBranch x ∧ ¬ t!"refs/remotes/" <+: x) := by
  have key : ∀ x, ((exRestackWorld exForkEvents (oidN 4)).git.refs.get? (t!"refs/heads/" ++ x)).isSome →
      x = t!"main" ∨ x = t!"b" := by
    intro x h
    simp only [exRestackWorld, exWorld, AMap.get?_cons, AMap.get?_nil] at h
    split at h
    · rename_i h1
      exact .inl (List.append_cancel_left (as := t!"refs/heads/") h1.symm)
    · split at h
      · rename_i h1
        exact .inr (List.append_cancel_left (as := t!"refs/heads/") h1.symm)
      · simp at h
  constructor
  · intro o
    by_contra hne
    have hlen := Oid.length_toText o
    rcases key _ (Option.isSome_iff_ne_none.2 hne) with h | h <;> rw [h] at hlen <;> simp at hlen
  · intro x h
    rcases key x h with rfl | rfl <;> (unfold IsBranch; decide)

/-- Non-vacuity: `prev` goes down, and with `--all` stops above the main branch. -/
example :
    let w := { exRestackWorld exForkEvents (oidN 4) with
      git := ⟨(exRestackWorld exForkEvents (oidN 4)).git.refs, .detached (oidN 4)⟩ }
    let go := fun o => traverseCommits exForkEnv exForkCheckout exFork w .prev o
    (go (exOptions none false false false)).1.head = .detached (oidN 3) ∧
    (go (exOptions (some 7) false false false)).1.head = .detached (oidN 0) ∧
    (go (exOptions none true false false)).1.head = .detached (oidN 1) ∧
    (go (exOptions none false true false)).1.head = .symbolic t!"refs/heads/main" := by
  decide +kernel

end Verif.Props
