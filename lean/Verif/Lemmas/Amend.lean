import Verif.Lemmas.RewordCommand
import Verif.Lemmas.Move
import Verif.Model.Amend
import Verif.Spec.Amend

/-! Lemmas about the command `amend`. -/

namespace Verif.Spec

open Verif Verif.RebasePlanBuilder Verif.Constraints Verif.Props

/-! ### the graph with the amended commit -/

theorem addCommit_graph (d : Dag) (n : Oid) (ps : List Oid) :
    (d.addCommit n ps).graph = grown d.graph n ps := by
  unfold Dag.addCommit grown
  by_cases h : n ∈ d.graph.nodes
  · rw [if_pos (by simpa using h), if_pos h]
  · rw [if_neg (by simpa using h), if_neg h]

/-- The graph has one more commit, with the same parents as `head`. -/
structure Added (graph graph' : CommitGraph Oid) (head n : Oid) : Prop where
  wf : WFGraph graph'
  nodes : ∀ c ∈ graph.nodes, c ∈ graph'.nodes
  only : ∀ c ∈ graph'.nodes, c ∈ graph.nodes ∨ c = n
  parents : ∀ c ∈ graph.nodes, graph'.parentsOf c = graph.parentsOf c
  anc : ∀ c ∈ graph.nodes, ∀ a, Anc graph' a c ↔ Anc graph a c
  below : ∀ a, Anc graph' a n → a = n ∨ ∃ p, IsParent graph p head ∧ Anc graph a p

theorem added {graph : CommitGraph Oid} (hg : WFGraph graph) {head n : Oid}
    (hn : n ∈ graph.nodes → graph.parentsOf n = graph.parentsOf head) :
    Added graph (grown graph n (graph.parentsOf head)) head n := by
  unfold grown
  split
  · rename_i hmem
    refine ⟨hg, fun c h => h, fun c h => .inl h, fun c _ => rfl, fun c _ a => Iff.rfl, ?_⟩
    intro a ha
    rcases anc_iff.1 ha with h | ⟨p, hp, hap⟩
    · exact .inl h
    · right
      refine ⟨p, ?_, hap⟩
      rw [← mem_parentsOf hg, hn hmem, mem_parentsOf hg] at hp
      exact hp
  · rename_i hmem
    have hpm : ∀ p ∈ graph.parentsOf head, p ∈ graph.nodes := fun p hp =>
      ((mem_parentsOf hg).1 hp).parent_mem hg
    have hw : WFEntries ((n, graph.parentsOf head) :: graph.entries) := .cons hmem hpm hg
    refine ⟨hw, ?_, ?_, ?_, ?_, ?_⟩
    · intro c h; exact List.mem_cons_of_mem _ h
    · intro c h
      rcases List.mem_cons.1 h with h | h
      · exact .inr h
      · exact .inl h
    · intro c h
      have hc : n ≠ c := by rintro rfl; exact hmem h
      unfold CommitGraph.parentsOf
      simp [AMap.get?, hc]
    · intro c h a
      have hc : c ≠ n := by rintro rfl; exact hmem h
      exact anc_cons_of_ne hw hc
    · intro a ha
      rw [anc_cons_self hw] at ha
      refine ha.imp id ?_
      rintro ⟨p, hp, hap⟩
      exact ⟨p, (mem_parentsOf hg).1 hp, hap⟩

namespace Added

variable {graph graph' : CommitGraph Oid} {head n : Oid}

theorem isParent (A : Added graph graph' head n) (hg : WFGraph graph) {p c : Oid} (hc : c ∈ graph.nodes) :
    IsParent graph' p c ↔ IsParent graph p c := by
  rw [← mem_parentsOf A.wf, A.parents c hc, mem_parentsOf hg]

/-- The new commit is not on top of the original. -/
theorem not_above (A : Added graph graph' head n) (hg : WFGraph graph) (h : Anc graph' head n) :
    n = head := by
  rcases A.below head h with h | ⟨p, hp, h⟩
  · exact h.symm
  · have := h.antisymm hg (.of_parent hp)
    subst this
    exact absurd hp (not_isParent_self hg)

theorem above_mem (A : Added graph graph' head n) (hg : WFGraph graph) {c : Oid} (hc : c ≠ head)
    (hm : head ∈ graph.nodes) (h : Anc graph' head c) : c ∈ graph.nodes := by
  rcases A.only c (h.mem_up (A.nodes _ hm)) with h' | rfl
  · exact h'
  · exact absurd (A.not_above hg h) hc

end Added

/-- The commits on top of the one which is amended. -/
theorem mem_amendDescendants {d : Dag} (hg : WFGraph d.graph) {seen : Oid → Prop}
    (hs : ∀ o, seen o ↔ o ∈ d.graph.nodes ∧ ∃ x ∈ d.visibleHeads, Anc d.graph o x) {head n : Oid}
    (hh : head ∈ d.graph.nodes) {ps : List Oid} (A : Added d.graph (d.addCommit n ps).graph head n) {c : Oid} :
    c ∈ amendDescendants (d.addCommit n ps) head ↔ Above d.graph seen head c := by
  have hv : ∀ o, (∃ x ∈ (d.addCommit n ps).visibleHeads, Anc (d.addCommit n ps).graph o x) ∧
      o ∈ (d.addCommit n ps).graph.nodes ↔ o ∈ (d.addCommit n ps).graph.nodes ∧
        ∃ x ∈ CommitGraph.diff d.observedCommits d.obsoleteCommits ++ d.headCommit
          ++ d.mainBranchCommit ++ d.branchCommits, Anc (d.addCommit n ps).graph o x := by
    intro o
    rw [← mem_ancestors_heads A.wf, mem_ancestors A.wf, and_comm]
    refine and_congr Iff.rfl ?_
    have : (d.addCommit n ps).visibleHeads = (d.addCommit n ps).graph.heads
        (CommitGraph.diff d.observedCommits d.obsoleteCommits ++ d.headCommit
          ++ d.mainBranchCommit ++ d.branchCommits) := by
      unfold Dag.visibleHeads Dag.addCommit
      split <;> rfl
    rw [this]
  have hv' : ∀ o, seen o ↔ o ∈ d.graph.nodes ∧
        ∃ x ∈ CommitGraph.diff d.observedCommits d.obsoleteCommits ++ d.headCommit
          ++ d.mainBranchCommit ++ d.branchCommits, Anc d.graph o x := by
    intro o
    rw [hs]
    exact (mem_ancestors hg).symm.trans (mem_ancestors_heads hg)
  unfold amendDescendants
  rw [mem_filterVisible A.wf, mem_descendants A.wf]
  have hch : (∃ a ∈ (d.addCommit n ps).graph.children [head], Anc (d.addCommit n ps).graph a c) ↔
      c ≠ head ∧ Anc (d.addCommit n ps).graph head c := by
    simp only [mem_children A.wf, List.mem_singleton, exists_eq_left]
    constructor
    · rintro ⟨x, hx, hxc⟩
      refine ⟨?_, (Anc.of_parent hx).trans hxc⟩
      rintro rfl
      have := hxc.antisymm A.wf (.of_parent hx)
      subst this
      exact not_isParent_self A.wf hx
    · rintro ⟨h1, h2⟩
      rcases anc_iff_child.1 h2 with h | h
      · exact absurd h.symm h1
      · exact h
  rw [hch]
  unfold Above
  constructor
  · rintro ⟨⟨-, h1, h2⟩, h3⟩
    have hc := A.above_mem hg h1 hh h2
    have h2' := (A.anc c hc head).1 h2
    refine ⟨?_, h1, h2'⟩
    rw [hv']
    refine ⟨hc, ?_⟩
    obtain ⟨_, x, hx, hcx⟩ := (hv c).1 h3.symm
    refine ⟨x, hx, ?_⟩
    have hxh : x ≠ head := by
      rintro rfl
      exact h1 (hcx.antisymm A.wf h2)
    have hxm := A.above_mem hg hxh hh (h2.trans hcx)
    exact (A.anc x hxm c).1 hcx
  · rintro ⟨h1, h2, h3⟩
    obtain ⟨hc, x, hx, hcx⟩ := (hv' c).1 h1
    have hcn := A.nodes c hc
    have h3' := (A.anc c hc head).2 h3
    refine ⟨⟨hcn, h2, h3'⟩, ?_⟩
    exact ((hv c).2 ⟨hcn, x, hx, (A.anc x (hcx.mem_up hc) c).2 hcx⟩).symm

/-! ### the requests -/

theorem mem_amendedParents {head n p : Oid} {ps : List Oid} :
    p ∈ amendedParents head n ps ↔ ∃ x ∈ ps, p = if x = head then n else x := by
  unfold amendedParents
  simp [eq_comm]

/-- The requests which are made for the commits on top. -/
structure AmendRequested (env : AmendEnv) (head n : Oid) (made0 : List (Oid × CommitData))
    (s0 : RebasePlanBuilder) (X : List Oid)
    (b : RebasePlanBuilder) (made : List (Oid × CommitData)) : Prop where
  same : b.env = s0.env ∧ b.permissions = s0.permissions
  constraints : b.initialConstraints = X.map fun c =>
    .moveSubtree (amendedParents head n (((env.exec.commits c).map (·.parents)).getD [])) c
  parents : ∀ c ∈ X, ∃ d, env.exec.commits c = some d ∧ d.parents ≠ []
  made_ok : ∀ x ∈ made, env.exec.createCommit x.2 = some x.1
  replaced : ∀ c, (AMap.get? b.replacementCommits c).isSome ↔ env.reparent = true ∧ c ∈ X
  replacement : ∀ c r, AMap.get? b.replacementCommits c = some r → ∃ d, env.exec.commits c = some d ∧
    (r, { d with parents := amendedParents head n d.parents }) ∈ made
  made_eq : env.reparent = false → made = made0

theorem amendRequested {env : AmendEnv} {head n : Oid} {data : CommitData}
    (hd : env.exec.createCommit data = some n) {pe : PlanEnv} {perms : RebasePlanPermissions}
    {X : List Oid} {b : RebasePlanBuilder} {made : List (Oid × CommitData)}
    (h : X.foldlM (amendOne env head n) (⟨pe, perms, [], []⟩, [(n, data)]) = .ok (b, made)) :
    AmendRequested env head n [(n, data)] ⟨pe, perms, [], []⟩ X b made := by
  refine foldlM_except_inv (P := fun pre s => AmendRequested env head n [(n, data)] ⟨pe, perms, [], []⟩ pre s.1 s.2)
    ?_ ?_ h
  · exact ⟨⟨rfl, rfl⟩, rfl, by simp, by simpa using hd, by simp, by simp, fun _ => rfl⟩
  · rintro pre c post ⟨b, made⟩ s' hl ⟨h1, h2, h2', h3, h4, h5, h6⟩ hs
    unfold amendOne at hs
    split at hs
    · simp at hs
    rename_i d hd
    simp only at hs
    split at hs
    · simp at hs
    rename_i b1 hb1
    unfold RebasePlanBuilder.moveSubtree at hb1
    split at hb1
    · simp at hb1
    rename_i hne
    cases hb1
    have hcon : b.initialConstraints ++
        [Constraint.moveSubtree (amendedParents head n d.parents) c] = (pre ++ [c]).map fun c =>
        .moveSubtree (amendedParents head n (((env.exec.commits c).map (·.parents)).getD [])) c := by
      rw [List.map_append, ← h2]
      simp [hd]
    have hpar : ∀ x ∈ pre ++ [c], ∃ d, env.exec.commits x = some d ∧ d.parents ≠ [] := by
      intro x hx
      rcases List.mem_append.1 hx with hxp | hx
      · exact h2' x hxp
      · rw [List.mem_singleton] at hx
        subst hx
        refine ⟨d, hd, ?_⟩
        intro e
        apply hne
        simp [amendedParents, e]
    split at hs
    · rename_i hrep
      cases hs
      refine ⟨h1, hcon, hpar, h3, ?_, h5, h6⟩
      intro x
      have hrep : env.reparent = false := by simpa using hrep
      have := h4 x
      simp only [hrep, Bool.false_eq_true, false_and] at this ⊢
      exact this
    rename_i hrep
    have hrep : env.reparent = true := by simpa using hrep
    split at hs
    · simp at hs
    split at hs
    · simp at hs
    split at hs
    · simp at hs
    rename_i r hr
    split at hs
    · simp at hs
    rename_i b2 hb2
    cases hs
    unfold RebasePlanBuilder.replaceCommit at hb2
    split at hb2
    · simp at hb2
    rename_i hfresh
    cases hb2
    refine ⟨h1, hcon, hpar, ?_, ?_, ?_, by rw [hrep]; simp⟩
    · intro x hx
      rcases List.mem_cons.1 hx with rfl | hx
      · exact hr
      · exact h3 x hx
    · intro x
      simp only [AMap.get?_insert, List.mem_append, List.mem_singleton]
      by_cases hx : c = x
      · simp [hx, hrep]
      · rw [if_neg hx, h4]
        simp [Ne.symm hx]
    · intro x r' hx
      simp only [AMap.get?_insert] at hx
      split at hx
      · rename_i e
        subst e
        cases hx
        exact ⟨d, hd, by simp⟩
      · obtain ⟨d', h7, h8⟩ := h5 x r' hx
        exact ⟨d', h7, List.mem_cons_of_mem _ h8⟩

/-- A plan for the commits on top: what is known about it. -/
structure AmendSetup (env : AmendEnv) (graph : CommitGraph Oid) (seen : Oid → Prop) (head n : Oid)
    (b : RebasePlanBuilder) (made : List (Oid × CommitData)) (k : Constraints) : Prop where
  wf : WFGraph graph
  head_mem : head ∈ graph.nodes
  seen_mem : ∀ c, seen c → c ∈ graph.nodes
  graph_eq : b.env.dag.graph = grown graph n (graph.parentsOf head)
  added : Added graph (grown graph n (graph.parentsOf head)) head n
  agrees : Agrees graph env.exec
  noCollisions : NoCollisions env.exec
  made_ok : ∀ x ∈ made, env.exec.createCommit x.2 = some x.1
  graph_ok : b.constraintGraph = .ok k
  no_fixups : k.fixups = []
  moves : ∀ p c, Moves k p c ↔ OnAmended graph seen head n p c
  replaced : ∀ c, (AMap.get? b.replacementCommits c).isSome ↔ env.reparent = true ∧ Above graph seen head c
  replacement : ∀ c r, AMap.get? b.replacementCommits c = some r → ∃ d, env.exec.commits c = some d ∧
    (r, { d with parents := amendedParents head n d.parents }) ∈ made
  read : b.env.replacementParentOids = fun r => ((env.exec.find made r).map (·.parents)).getD []
  patch : b.env.patchId = env.patchId

theorem amendSetup {env : AmendEnv} {d : Dag} (hg : WFGraph d.graph) {seen : Oid → Prop}
    (hs : ∀ o, seen o ↔ o ∈ d.graph.nodes ∧ ∃ x ∈ d.visibleHeads, Anc d.graph o x)
    {head n : Oid} (hh : head ∈ d.graph.nodes) (hag : Agrees d.graph env.exec)
    (hnc : NoCollisions env.exec) {data : CommitData} (hdata : data.parents = d.graph.parentsOf head)
    (hn : env.exec.createCommit data = some n) (hvec : ∀ l x, x ∈ env.toVec l ↔ x ∈ l)
    {perms : RebasePlanPermissions} {b : RebasePlanBuilder} {made : List (Oid × CommitData)}
    (h : (env.toVec (amendDescendants (d.addCommit n (d.graph.parentsOf head)) head)).foldlM
      (amendOne env head n) (⟨env.planEnv (d.addCommit n (d.graph.parentsOf head)) [], perms, [], []⟩,
        [(n, data)]) = .ok (b, made)) :
    ∃ k, AmendSetup env d.graph seen head n
      { b with env := env.planEnv (d.addCommit n (d.graph.parentsOf head)) made } made k ∧
      b.permissions = perms ∧ (env.reparent = false → made = [(n, data)]) := by
  have A : Added d.graph (grown d.graph n (d.graph.parentsOf head)) head n := by
    refine added hg fun hm => ?_
    obtain ⟨dn, h1, h2⟩ := hag n hm
    rw [← h2, hnc.old _ _ _ hn h1, hdata]
  have A' := A
  rw [← addCommit_graph] at A'
  have hX : ∀ x, x ∈ env.toVec (amendDescendants (d.addCommit n (d.graph.parentsOf head)) head) ↔
      Above d.graph seen head x := by
    intro x
    rw [hvec, mem_amendDescendants hg hs hh A']
  have R := amendRequested hn h
  have hnode : ∀ c, Above d.graph seen head c → c ∈ d.graph.nodes := fun c hc => ((hs c).1 hc.1).1
  have hpar : ∀ c, Above d.graph seen head c →
      ((env.exec.commits c).map (·.parents)).getD [] = d.graph.parentsOf c := by
    intro c hc
    obtain ⟨dc, h1, h2⟩ := hag c (hnode c hc)
    rw [h1]
    exact h2
  obtain ⟨k, hk, hkf, hmv⟩ := constraintGraph_requests
    (b := { b with env := env.planEnv (d.addCommit n (d.graph.parentsOf head)) made }) A'.wf R.constraints (by
      intro c hc e
      obtain ⟨dc, h1, h2⟩ := R.parents c hc
      rw [h1] at e
      exact h2 (by simpa [amendedParents] using e))
  have hrest : ∀ c, ¬ ((c ∉ env.toVec (amendDescendants (d.addCommit n (d.graph.parentsOf head)) head)) ∧
      (∃ h ∈ (d.addCommit n (d.graph.parentsOf head)).visibleHeads,
        Anc (d.addCommit n (d.graph.parentsOf head)).graph c h) ∧
      ∃ x ∈ env.toVec (amendDescendants (d.addCommit n (d.graph.parentsOf head)) head),
        Anc (d.addCommit n (d.graph.parentsOf head)).graph x c) := by
    rintro c ⟨h1, h2, x, h3, h4⟩
    rw [hX] at h3
    rw [hvec, amendDescendants, mem_filterVisible A'.wf, mem_descendants A'.wf] at h1
    have hxm := A'.nodes x (hnode x h3)
    refine h1 ⟨⟨h4.mem_up hxm, ?_⟩, h4.mem_up hxm, h2⟩
    rcases anc_iff_child.1 ((A'.anc x (hnode x h3) head).2 h3.2.2) with h5 | ⟨y, h5, h6⟩
    · exact absurd h5.symm h3.2.1
    · exact ⟨y, (mem_children A'.wf).2 ⟨head, by simp, h5⟩, h6.trans h4⟩
  refine ⟨k, ⟨hg, hh, fun c hc => ((hs c).1 hc).1, addCommit_graph d n _, A, hag, hnc, R.made_ok, hk, hkf, ?_,
    ?_, R.replacement, rfl, rfl⟩, R.same.2, R.made_eq⟩
  · intro p c
    rw [hmv]
    constructor
    · rintro (⟨h1, h2⟩ | ⟨h1, h2, h3, _⟩)
      · rw [hX] at h1
        rw [hpar c h1, mem_amendedParents] at h2
        obtain ⟨x, hx, rfl⟩ := h2
        exact ⟨h1, x, (mem_parentsOf hg).1 hx, rfl⟩
      · exact absurd ⟨h1, h2, h3⟩ (hrest c)
    · rintro ⟨h1, x, hx, rfl⟩
      refine .inl ⟨(hX c).2 h1, ?_⟩
      rw [hpar c h1, mem_amendedParents]
      exact ⟨x, (mem_parentsOf hg).2 hx, rfl⟩
  · intro c
    rw [R.replaced, hX]

namespace AmendSetup

variable {env : AmendEnv} {graph : CommitGraph Oid} {seen : Oid → Prop} {head n : Oid}
  {b : RebasePlanBuilder} {made : List (Oid × CommitData)} {k : Constraints}

theorem above_mem (S : AmendSetup env graph seen head n b made k) {c : Oid} (h : Above graph seen head c) :
    c ∈ graph.nodes := S.seen_mem c h.1

/-- The amended commit stays. -/
theorem new_not_above (S : AmendSetup env graph seen head n b made k) : ¬ Above graph seen head n := by
  intro h
  exact h.2.1 (S.added.not_above S.wf ((S.added.anc n (S.above_mem h) head).2 h.2.2))

theorem parentOids (S : AmendSetup env graph seen head n b made k) {c : Oid} (h : Above graph seen head c) :
    b.env.parentOids c = graph.parentsOf c := by
  show b.env.dag.graph.parentsOf c = _
  rw [S.graph_eq, S.added.parents c (S.above_mem h)]

theorem moved_iff (S : AmendSetup env graph seen head n b made k) (c : Oid) :
    (∃ p, OnAmended graph seen head n p c) ↔ Above graph seen head c := by
  constructor
  · rintro ⟨p, h, _⟩; exact h
  · intro h
    rcases anc_iff.1 h.2.2 with h' | ⟨p, hp, _⟩
    · exact absurd h'.symm h.2.1
    · exact ⟨_, h, p, hp, rfl⟩

theorem rewritten (S : AmendSetup env graph seen head n b made k) {c : Oid} :
    Rewritten k c ↔ Above graph seen head c := by
  unfold Rewritten
  rw [S.no_fixups, ← S.moved_iff]
  simp [S.moves]

/-- A commit which gets a new version is put on those of its own parents which get new versions. -/
theorem own_parent (S : AmendSetup env graph seen head n b made k) {p c : Oid}
    (h : OnAmended graph seen head n p c) (hp : Above graph seen head p) : IsParent graph p c := by
  obtain ⟨_, x, hx, rfl⟩ := h
  split at hp
  · exact absurd hp S.new_not_above
  · rename_i h; rw [if_neg h]; exact hx

theorem regular (S : AmendSetup env graph seen head n b made k) : Regular b.env k := by
  refine ⟨?_, ?_, ?_⟩
  · intro c p q hm hp hq
    rw [S.moves] at hp hq
    unfold IsMerge at hm
    rw [S.parentOids hp.1] at hm
    obtain ⟨_, x, hx, rfl⟩ := hp
    obtain ⟨_, y, hy, rfl⟩ := hq
    rw [parentsOf_unique S.wf (Nat.not_lt.1 hm) hx hy]
  · intro c p _ hp hpr
    rw [S.moves] at hp
    rw [S.parentOids hp.1, mem_parentsOf S.wf]
    exact S.own_parent hp (S.rewritten.1 hpr)
  · intro c p _ hc hp hpr
    rw [S.rewritten] at hc hpr
    rw [S.parentOids hc, mem_parentsOf S.wf] at hp
    rw [S.moves]
    refine ⟨⟨hc, p, hp, by rw [if_neg hpr.2.1]⟩, ?_⟩
    obtain ⟨q, hq⟩ := (S.moved_iff p).2 hpr
    exact ⟨q, (S.moves q p).2 hq⟩

theorem acyclic (S : AmendSetup env graph seen head n b made k) : Acyclic k := by
  have : ∀ a c, Relation.TransGen (Moves k) a c → Above graph seen head c ∧
      (Above graph seen head a → ageOf graph.entries a < ageOf graph.entries c) := by
    intro a c h
    induction h with
    | single h =>
      rw [S.moves] at h
      exact ⟨h.1, fun ha => age_lt S.wf (S.own_parent h ha)⟩
    | tail _ h ih =>
      rw [S.moves] at h
      exact ⟨h.1, fun ha => (ih.2 ha).trans (age_lt S.wf (S.own_parent h ih.1))⟩
  intro c h
  obtain ⟨h1, h2⟩ := this c c h
  exact absurd (h2 h1) (Nat.lt_irrefl _)

theorem nc (S : AmendSetup env graph seen head n b made k) : NoCollisions (withMade env.exec made) :=
  withMade_noCollisions S.noCollisions S.made_ok

theorem find_old (S : AmendSetup env graph seen head n b made k) {c : Oid} {d : CommitData}
    (h : env.exec.commits c = some d) : (withMade env.exec made).commits c = some d :=
  find_original S.noCollisions S.made_ok h

theorem newParents_eq (S : AmendSetup env graph seen head n b made k) {c r : Oid}
    (hr : AMap.get? b.replacementCommits c = some r) :
    newParents b.env c r = if 1 < (graph.parentsOf c).length then graph.parentsOf c
      else amendedParents head n (graph.parentsOf c) := by
  have hc : Above graph seen head c := ((S.replaced c).1 (by rw [hr]; rfl)).2
  obtain ⟨d, h2, h3⟩ := S.replacement c r hr
  obtain ⟨d', h4, h5⟩ := S.agrees c (S.above_mem hc)
  rw [h2] at h4
  cases h4
  unfold newParents
  rw [S.parentOids hc, S.read]
  simp only
  rw [find_created S.noCollisions S.made_ok h3, ← h5]
  rfl

theorem replacedOnParents (S : AmendSetup env graph seen head n b made k) : ReplacedOnParents b k := by
  intro c r hr hc p hp hpr
  rw [S.newParents_eq hr] at hp
  rw [S.rewritten] at hc hpr
  rw [S.moves]
  split at hp
  · exact ⟨hc, p, (mem_parentsOf S.wf).1 hp, by rw [if_neg hpr.2.1]⟩
  · obtain ⟨x, hx, rfl⟩ := mem_amendedParents.1 hp
    exact ⟨hc, x, (mem_parentsOf S.wf).1 hx, rfl⟩

end AmendSetup

end Verif.Spec
