import Verif.Lemmas.Amend
import Verif.Lemmas.ReplaceFault
import Verif.Lemmas.TestCacheStarted
import Verif.Model.TestFix
import Verif.Spec.TestFix
import Verif.Props.Restack

/-! Lemmas about `git test fix`. -/

namespace Verif.Spec

open Verif Verif.RebasePlanBuilder Verif.Constraints Verif.Props Verif.TestRun Verif.TestFix

/-! ### the graph with the fixes -/

/-- The graph has more commits, none of them below the others. -/
structure MoreLeaves (graph graph' : CommitGraph Oid) : Prop where
  wf : WFGraph graph'
  nodes : ∀ c ∈ graph.nodes, c ∈ graph'.nodes
  parents : ∀ c ∈ graph.nodes, graph'.parentsOf c = graph.parentsOf c
  anc : ∀ c ∈ graph.nodes, ∀ a, Anc graph' a c ↔ Anc graph a c
  below : ∀ c, ∀ p ∈ graph'.parentsOf c, p ∈ graph.nodes

theorem moreLeaves_grown {graph graph' : CommitGraph Oid} (h : MoreLeaves graph graph') {n : Oid}
    {ps : List Oid} (hps : ∀ p ∈ ps, p ∈ graph.nodes) : MoreLeaves graph (grown graph' n ps) := by
  unfold grown
  split
  · exact h
  rename_i hmem
  have hw : WFEntries ((n, ps) :: graph'.entries) := .cons hmem (fun p hp => h.nodes p (hps p hp)) h.wf
  have hne : ∀ c ∈ graph.nodes, c ≠ n := by rintro c hc rfl; exact hmem (h.nodes _ hc)
  refine ⟨hw, fun c hc => List.mem_cons_of_mem _ (h.nodes c hc), ?_, ?_, ?_⟩
  · intro c hc
    rw [← h.parents c hc]
    unfold CommitGraph.parentsOf
    simp [AMap.get?, (hne c hc).symm]
  · intro c hc a
    rw [← h.anc c hc a]
    exact anc_cons_of_ne hw (hne c hc)
  · intro c p hp
    unfold CommitGraph.parentsOf at hp
    simp only [AMap.get?] at hp
    split at hp
    · exact hps p hp
    · exact h.below c p hp

theorem moreLeaves_addFixes {d : Dag} (hg : WFGraph d.graph) {fixes : List Fix}
    (hf : ∀ f ∈ fixes, ∀ p ∈ f.parents, p ∈ d.graph.nodes) :
    MoreLeaves d.graph (addFixes d fixes).graph := by
  have key : ∀ (l : List Fix) (d' : Dag), (∀ f ∈ l, ∀ p ∈ f.parents, p ∈ d.graph.nodes) →
      MoreLeaves d.graph d'.graph → MoreLeaves d.graph (addFixes d' l).graph := by
    intro l
    induction l with
    | nil => intro d' _ h; exact h
    | cons f l ih =>
      intro d' hl h
      refine ih _ (fun f hf => hl f (List.mem_cons_of_mem _ hf)) ?_
      rw [addCommit_graph]
      exact moreLeaves_grown h (hl f (by simp))
  exact key fixes d hf ⟨hg, fun c h => h, fun c _ => rfl, fun c _ a => Iff.rfl,
    fun c p hp => ((mem_parentsOf hg).1 hp).parent_mem hg⟩

/-- Only the graph changes. -/
theorem addFixes_eq (d : Dag) (fixes : List Fix) :
    addFixes d fixes = { d with graph := (addFixes d fixes).graph } := by
  have key : ∀ (l : List Fix) (d' : Dag), d' = { d with graph := d'.graph } →
      addFixes d' l = { d with graph := (addFixes d' l).graph } := by
    intro l
    induction l with
    | nil => intro d' h; exact h
    | cons f l ih =>
      intro d' h
      refine ih _ ?_
      obtain ⟨g, a1, a2, a3, a4, a5⟩ := d'
      simp only [Dag.mk.injEq, true_and] at h
      obtain ⟨rfl, rfl, rfl, rfl, rfl⟩ := h
      unfold Dag.addCommit
      beta_reduce
      split <;> rfl
  exact key fixes d rfl

/-- The graph with the fixes is opened in the same way. -/
theorem opened_addFixes {graph : CommitGraph Oid} {main : Text} {w : RepoWorld} {r : Replayer} {d : Dag}
    (h : openRepoDag graph main w = some (r, d)) (fixes : List Fix) :
    openRepoDag (addFixes d fixes).graph main w = some (r, addFixes d fixes) := by
  rw [addFixes_eq]
  unfold openRepoDag at h ⊢
  split at h
  · simp only [Option.some.injEq, Prod.mk.injEq] at h
    obtain ⟨rfl, rfl⟩ := h
    rfl
  · simp at h

namespace MoreLeaves

variable {graph graph' : CommitGraph Oid}

theorem isParent (A : MoreLeaves graph graph') (hg : WFGraph graph) {p c : Oid} (hc : c ∈ graph.nodes) :
    IsParent graph' p c ↔ IsParent graph p c := by
  rw [← mem_parentsOf A.wf, A.parents c hc, mem_parentsOf hg]

/-- The same commits are visible. -/
theorem seen (A : MoreLeaves graph graph') (hg : WFGraph graph) {main : Text} {git : GitState}
    {es : List Event} (hs : Synced graph main git es) (c : Oid) :
    Seen graph' main git es c ↔ Seen graph main git es c := by
  unfold Seen
  constructor
  · rintro ⟨_, h, h1, h2⟩
    have hm := hs h h2
    have := (A.anc h hm c).1 h1
    exact ⟨this.mem hg hm, h, this, h2⟩
  · rintro ⟨hc, h, h1, h2⟩
    exact ⟨A.nodes c hc, h, (A.anc h (hs h h2) c).2 h1, h2⟩

end MoreLeaves

/-! ### the fixes -/

theorem mem_fixedTrees {outputs : List (Oid × TestStatus)} {x : Oid × Oid} :
    x ∈ fixedTrees outputs ↔
      ∃ cached head interactive, (x.1, .passed cached ⟨head, some x.2⟩ interactive) ∈ outputs := by
  obtain ⟨c, o⟩ := x
  unfold fixedTrees
  rw [List.mem_filterMap]
  constructor
  · rintro ⟨⟨c', s⟩, h1, h2⟩
    simp only at h2
    split at h2
    · rename_i cached head tree interactive
      simp only [Option.some.injEq, Prod.mk.injEq] at h2
      obtain ⟨rfl, rfl⟩ := h2
      exact ⟨cached, head, interactive, h1⟩
    all_goals simp at h2
  · rintro ⟨cached, head, interactive, h⟩
    exact ⟨_, h, rfl⟩

/-- What is known about a fix. -/
structure FixOf (env : FixEnv) (c o : Oid) (f : Fix) (d : CommitData) (t : Nat) : Prop where
  original : f.original = c
  commit : env.exec.commits c = some d
  message : d.message ≠ none
  parents_exist : ∀ p ∈ d.parents, env.exec.commits p ≠ none
  tree : env.tree o = some t
  parents : f.parents = d.parents
  data : f.data = { d with tree := t }
  made : env.exec.createCommit { d with tree := t } = some f.fixed

theorem makeFix_some {env : FixEnv} {x : Oid × Oid} {f : Fix} :
    makeFix env x = some f ↔ ∃ d t, FixOf env x.1 x.2 f d t := by
  unfold makeFix
  constructor
  · intro h
    split at h
    · simp at h
    rename_i d hd
    split at h
    · simp at h
    rename_i m hm
    split at h
    · simp at h
    rename_i hp
    split at h
    · simp at h
    rename_i t ht
    split at h
    · simp at h
    rename_i n hn
    simp only [Option.some.injEq] at h
    subst h
    refine ⟨d, t, rfl, hd, by simp [hm], ?_, ht, rfl, rfl, hn⟩
    simpa [Option.isNone_iff_eq_none] using hp
  · rintro ⟨d, t, h1, h2, h3, h4, h5, h6, h7, h8⟩
    rw [h2]
    simp only
    split
    · rename_i h; exact absurd h h3
    rw [if_neg (by simpa [Option.isNone_iff_eq_none] using h4)]
    simp only [h5, h8]
    obtain ⟨a, b, c, e⟩ := f
    simp only at h1 h6 h7
    subst h1 h6 h7
    rfl

/-- The fixes which are made. -/
theorem mem_makeFixes {env : FixEnv} {trees : List (Oid × Oid)} {fixes : List Fix}
    (h : makeFixes env trees = some fixes) :
    (∀ x ∈ trees, ∃ f d t, FixOf env x.1 x.2 f d t ∧ (f.fixed ≠ x.1 → f ∈ fixes)) ∧
    ∀ f ∈ fixes, f.fixed ≠ f.original ∧ ∃ o d t, (f.original, o) ∈ trees ∧ FixOf env f.original o f d t := by
  unfold makeFixes at h
  rw [Option.map_eq_some_iff] at h
  obtain ⟨l, hl, rfl⟩ := h
  have key : ∀ (trees : List (Oid × Oid)) (l : List Fix), trees.mapM (makeFix env) = some l →
      (∀ x ∈ trees, ∃ f ∈ l, makeFix env x = some f) ∧ ∀ f ∈ l, ∃ x ∈ trees, makeFix env x = some f := by
    intro trees
    induction trees with
    | nil => intro l h; cases h; simp
    | cons x xs ih =>
      intro l h
      rw [List.mapM_cons] at h
      simp only [Option.bind_eq_bind, Option.pure_def, Option.bind_eq_some_iff, Option.some.injEq] at h
      obtain ⟨f, hf, l', hl', rfl⟩ := h
      obtain ⟨h1, h2⟩ := ih l' hl'
      constructor
      · intro y hy
        rcases List.mem_cons.1 hy with rfl | hy
        · exact ⟨f, by simp, hf⟩
        · obtain ⟨g, hg, h3⟩ := h1 y hy
          exact ⟨g, List.mem_cons_of_mem _ hg, h3⟩
      · intro g hg
        rcases List.mem_cons.1 hg with rfl | hg
        · exact ⟨x, by simp, hf⟩
        · obtain ⟨y, hy, h3⟩ := h2 g hg
          exact ⟨y, List.mem_cons_of_mem _ hy, h3⟩
  obtain ⟨h1, h2⟩ := key trees l hl
  constructor
  · intro x hx
    obtain ⟨f, hf, h3⟩ := h1 x hx
    obtain ⟨d, t, h4⟩ := makeFix_some.1 h3
    refine ⟨f, d, t, h4, fun hne => List.mem_filter.2 ⟨hf, ?_⟩⟩
    rw [h4.original]
    exact decide_eq_true fun e => hne e.symm
  · intro f hf
    obtain ⟨hf, hne⟩ := List.mem_filter.1 hf
    obtain ⟨⟨c, o⟩, hx, h3⟩ := h2 f hf
    obtain ⟨d, t, h4⟩ := makeFix_some.1 h3
    refine ⟨fun e => of_decide_eq_true hne e.symm, o, d, t, ?_, ?_⟩
    · rw [h4.original]; exact hx
    · rw [h4.original]; exact h4

/-! ### the requests -/

/-- The requests which are made for the fixes and the commits above. -/
structure FixRequested (env : FixEnv) (s0 : RebasePlanBuilder) (fixes : List Fix) (Y : List Oid)
    (b : RebasePlanBuilder) : Prop where
  same : b.env = s0.env ∧ b.permissions = s0.permissions
  constraints : b.initialConstraints = fixes.map (fun f => .moveSubtree f.parents f.original) ++
    Y.map fun c => .moveSubtree (((env.exec.commits c).map (·.parents)).getD []) c
  parents : (∀ f ∈ fixes, f.parents ≠ []) ∧ ∀ c ∈ Y, ∃ d, env.exec.commits c = some d ∧ d.parents ≠ []
  fixed : ∀ f ∈ fixes, AMap.get? b.replacementCommits f.original = some f.fixed
  kept : ∀ c ∈ Y, AMap.get? b.replacementCommits c = some c
  only : ∀ c, AMap.get? b.replacementCommits c ≠ none → c ∈ Y ∨ ∃ f ∈ fixes, f.original = c

theorem replaceCommit_ok {b b' : RebasePlanBuilder} {c r : Oid} (h : b.replaceCommit c r = .ok b') :
    AMap.get? b.replacementCommits c = none ∧
      b' = { b with replacementCommits := AMap.insert b.replacementCommits c r } := by
  unfold RebasePlanBuilder.replaceCommit at h
  split at h
  · simp at h
  · rename_i hf
    cases h
    exact ⟨by simpa [Option.not_isSome_iff_eq_none] using hf, rfl⟩

theorem moveSubtree_ok {b b' : RebasePlanBuilder} {c : Oid} {ps : List Oid} (h : b.moveSubtree c ps = .ok b') :
    ps ≠ [] ∧ b' = { b with initialConstraints := b.initialConstraints ++ [.moveSubtree ps c] } := by
  unfold RebasePlanBuilder.moveSubtree at h
  split at h
  · simp at h
  · rename_i hf
    cases h
    exact ⟨by simpa using hf, rfl⟩

theorem fixRequested {env : FixEnv} {pe : PlanEnv} {perms : RebasePlanPermissions} {fixes : List Fix}
    {b1 : RebasePlanBuilder} (h : fixes.foldlM requestFix ⟨pe, perms, [], []⟩ = .ok b1) {Y : List Oid}
    {b : RebasePlanBuilder} (h' : Y.foldlM (requestKept env) b1 = .ok b) :
    FixRequested env ⟨pe, perms, [], []⟩ fixes Y b := by
  have h1 : FixRequested env ⟨pe, perms, [], []⟩ fixes [] b1 := by
    refine foldlM_except_inv (P := fun pre s => FixRequested env ⟨pe, perms, [], []⟩ pre [] s) ?_ ?_ h
    · exact ⟨⟨rfl, rfl⟩, rfl, by simp, by simp, by simp, by simp⟩
    · rintro pre f post b b' hl ⟨h1, h2, h3, h4, h5, h6⟩ hs
      unfold requestFix at hs
      split at hs
      · simp at hs
      rename_i b2 hb2
      obtain ⟨h7, rfl⟩ := replaceCommit_ok hb2
      obtain ⟨h8, rfl⟩ := moveSubtree_ok hs
      refine ⟨h1, ?_, ?_, ?_, by simp, ?_⟩
      · simp only [List.map_nil, List.append_nil] at h2 ⊢
        rw [h2]; simp
      · refine ⟨?_, by simp⟩
        intro g hg
        rcases List.mem_append.1 hg with hg | hg
        · exact h3.1 g hg
        · rw [List.mem_singleton] at hg; rw [hg]; exact h8
      · intro g hg
        simp only [AMap.get?_insert]
        rcases List.mem_append.1 hg with hg | hg
        · have := h4 g hg
          rw [if_neg]
          · exact this
          · intro e
            rw [← e, h7] at this
            simp at this
        · rw [List.mem_singleton] at hg; subst hg; simp
      · intro c hc
        simp only [AMap.get?_insert] at hc
        right
        split at hc
        · rename_i e; exact ⟨f, by simp, e⟩
        · rcases h6 c hc with h9 | ⟨g, hg, h9⟩
          · simp at h9
          · exact ⟨g, by simp [hg], h9⟩
  refine foldlM_except_inv (P := fun pre s => FixRequested env ⟨pe, perms, [], []⟩ fixes pre s) h1 ?_ h'
  rintro pre c post b b' hl ⟨h1, h2, h3, h4, h5, h6⟩ hs
  unfold requestKept at hs
  split at hs
  · simp at hs
  rename_i d hd
  split at hs
  · simp at hs
  rename_i b2 hb2
  obtain ⟨h7, rfl⟩ := replaceCommit_ok hb2
  obtain ⟨h8, rfl⟩ := moveSubtree_ok hs
  have hins : ∀ x y, AMap.get? b.replacementCommits x = some y →
      AMap.get? (AMap.insert b.replacementCommits c c) x = some y := by
    intro x y hxy
    rw [AMap.get?_insert, if_neg]
    · exact hxy
    · rintro rfl
      rw [h7] at hxy
      simp at hxy
  refine ⟨h1, ?_, ⟨h3.1, ?_⟩, ?_, ?_, ?_⟩
  · simp only
    rw [h2]
    simp [hd]
  · intro x hx
    rcases List.mem_append.1 hx with hx | hx
    · exact h3.2 x hx
    · rw [List.mem_singleton] at hx; subst hx; exact ⟨d, hd, h8⟩
  · intro f hf
    exact hins _ _ (h4 f hf)
  · intro x hx
    rcases List.mem_append.1 hx with hx | hx
    · exact hins _ _ (h5 x hx)
    · rw [List.mem_singleton] at hx; subst hx
      simp [AMap.get?_insert]
  · intro x hx
    simp only [AMap.get?_insert] at hx
    split at hx
    · rename_i e; left; simp [e]
    · rcases h6 x hx with h9 | h9
      · left; simp [h9]
      · exact .inr h9

/-! ### the plan -/

/-- The commits which are fixed. -/
def isFixed (fixes : List Fix) (c : Oid) : Prop := ∃ f ∈ fixes, f.original = c

/-- A plan for the fixes: what is known about it. -/
structure FixSetup (env : FixEnv) (graph graph' : CommitGraph Oid) (seen : Oid → Prop) (fixes : List Fix)
    (b : RebasePlanBuilder) (k : Constraints) : Prop where
  wf : WFGraph graph
  leaves : MoreLeaves graph graph'
  graph_eq : b.env.dag.graph = graph'
  seen_mem : ∀ c, seen c → c ∈ graph.nodes
  agrees : Agrees graph env.exec
  noCollisions : NoCollisions env.exec
  fixes_ok : ∀ f ∈ fixes, f.original ∈ graph.nodes ∧ ∃ o d t, FixOf env f.original o f d t
  graph_ok : b.constraintGraph = .ok k
  no_fixups : k.fixups = []
  moves : ∀ p c, Moves k p c ↔ InPlace graph (AffectedBy graph seen (isFixed fixes)) p c
  fixed : ∀ f ∈ fixes, AMap.get? b.replacementCommits f.original = some f.fixed
  kept : ∀ c, AffectedBy graph seen (isFixed fixes) c → ¬ isFixed fixes c →
    AMap.get? b.replacementCommits c = some c
  only : ∀ c, AMap.get? b.replacementCommits c ≠ none → AffectedBy graph seen (isFixed fixes) c
  has_parent : ∀ f ∈ fixes, graph.parentsOf f.original ≠ []
  read : b.env.replacementParentOids = fun r => ((env.exec.find (madeBy fixes) r).map (·.parents)).getD []
  patch : b.env.patchId = env.patchId
  sorted : b.env.sortedCommitSet = env.sortedCommitSet

/-- The graph with the fixes, and the commits above. -/
theorem fixGraph {env : FixEnv} {graph : CommitGraph Oid} (hg : WFGraph graph) {main : Text} {w : RepoWorld}
    (hw : AMap.WF w.git.refs) {es : List Event} (he : w.db.getEvents = some es)
    (hsync : Synced graph main w.git es) {r : Replayer} {d : Dag}
    (hd : openRepoDag graph main w = some (r, d)) (hag : Agrees graph env.exec) {fixes : List Fix}
    (hf : ∀ f ∈ fixes, f.original ∈ graph.nodes ∧ ∃ o d t, FixOf env f.original o f d t) :
    (∀ f ∈ fixes, f.parents = graph.parentsOf f.original) ∧ MoreLeaves graph (addFixes d fixes).graph ∧
    (∀ c, Seen graph main w.git es c ↔ c ∈ (addFixes d fixes).graph.nodes ∧
      ∃ x ∈ (addFixes d fixes).visibleHeads, Anc (addFixes d fixes).graph c x) ∧
    ∀ c, c ∈ commitsAbove (addFixes d fixes) fixes ↔
      AffectedBy graph (Seen graph main w.git es) (isFixed fixes) c ∧ ¬ isFixed fixes c := by
  obtain ⟨hgr, -⟩ := graph_opened he hd
  have hpar : ∀ f ∈ fixes, f.parents = graph.parentsOf f.original := by
    intro f hm
    obtain ⟨h1, o, d1, t, F⟩ := hf f hm
    obtain ⟨d2, h2, h3⟩ := hag _ h1
    have := F.commit
    rw [h2] at this
    cases this
    rw [F.parents, h3]
  have L : MoreLeaves graph (addFixes d fixes).graph := by
    rw [← hgr] at hg hpar ⊢
    refine moreLeaves_addFixes hg fun f hm p hp => ?_
    rw [hpar f hm] at hp
    exact ((mem_parentsOf hg).1 hp).parent_mem hg
  have hseen : ∀ c, Seen graph main w.git es c ↔ c ∈ (addFixes d fixes).graph.nodes ∧
      ∃ x ∈ (addFixes d fixes).visibleHeads, Anc (addFixes d fixes).graph c x := by
    intro c
    rw [← L.seen hg hsync c]
    exact seen_opened L.wf hw he (opened_addFixes hd fixes) c
  have habove : ∀ c, c ∈ commitsAbove (addFixes d fixes) fixes ↔
      AffectedBy graph (Seen graph main w.git es) (isFixed fixes) c ∧ ¬ isFixed fixes c := by
    intro c
    unfold commitsAbove
    simp only
    rw [mem_diff, mem_filterVisible L.wf, mem_descendants L.wf, ← hseen]
    have horig : ∀ x, x ∈ fixes.map (·.original) ↔ isFixed fixes x := by
      intro x; simp [isFixed]
    simp only [horig]
    unfold AffectedBy
    constructor
    · rintro ⟨⟨⟨_, x, h1, h2⟩, h3⟩, h4⟩
      exact ⟨.inr ⟨h3, x, h1, (L.anc c h3.1 x).1 h2⟩, h4⟩
    · rintro ⟨h1 | ⟨h3, x, h1, h2⟩, h4⟩
      · exact absurd h1 h4
      · exact ⟨⟨⟨L.nodes c h3.1, x, h1, (L.anc c h3.1 x).2 h2⟩, h3⟩, h4⟩
  exact ⟨hpar, L, hseen, habove⟩

theorem fixSetup {env : FixEnv} {graph : CommitGraph Oid} (hg : WFGraph graph) {main : Text} {w : RepoWorld}
    (hw : AMap.WF w.git.refs) {es : List Event} (he : w.db.getEvents = some es)
    (hsync : Synced graph main w.git es) {r : Replayer} {d : Dag}
    (hd : openRepoDag graph main w = some (r, d)) (hag : Agrees graph env.exec)
    (hnc : NoCollisions env.exec) (hvec : ∀ l x, x ∈ env.toVec l ↔ x ∈ l) {fixes : List Fix}
    (hf : ∀ f ∈ fixes, f.original ∈ graph.nodes ∧ ∃ o d t, FixOf env f.original o f d t)
    {perms : RebasePlanPermissions} {b1 b : RebasePlanBuilder}
    (h : fixes.foldlM requestFix ⟨env.planEnv (addFixes d fixes) (madeBy fixes), perms, [], []⟩ = .ok b1)
    (h' : (env.toVec (commitsAbove (addFixes d fixes) fixes)).foldlM (requestKept env) b1 = .ok b) :
    (∃ k, FixSetup env graph (addFixes d fixes).graph (Seen graph main w.git es) fixes b k) ∧
      b.permissions = perms := by
  obtain ⟨hpar, L, hseen, habove⟩ := fixGraph hg hw he hsync hd hag hf
  have R := fixRequested h h'
  have hmem : ∀ c, AffectedBy graph (Seen graph main w.git es) (isFixed fixes) c → c ∈ graph.nodes := by
    rintro c (⟨f, hm, rfl⟩ | ⟨h1, _⟩)
    · exact (hf f hm).1
    · exact h1.1
  have hX : ∀ c, c ∈ fixes.map (·.original) ++ env.toVec (commitsAbove (addFixes d fixes) fixes) ↔
      AffectedBy graph (Seen graph main w.git es) (isFixed fixes) c := by
    intro c
    rw [List.mem_append, hvec, habove]
    have horig : c ∈ fixes.map (·.original) ↔ isFixed fixes c := by simp [isFixed]
    rw [horig]
    constructor
    · rintro (h | h)
      · exact .inl h
      · exact h.1
    · intro h
      by_cases hc : isFixed fixes c
      · exact .inl hc
      · exact .inr ⟨h, hc⟩
  have hcs : b.initialConstraints = (fixes.map (·.original) ++
      env.toVec (commitsAbove (addFixes d fixes) fixes)).map fun c => .moveSubtree (graph.parentsOf c) c := by
    rw [R.constraints, List.map_append, List.map_map]
    congr 1
    · exact List.map_congr_left fun f hm => by rw [hpar f hm]; rfl
    · refine List.map_congr_left fun c hc => ?_
      rw [hvec, habove] at hc
      obtain ⟨d1, h1, h2⟩ := hag c (hmem c hc.1)
      rw [h1, ← h2]
      rfl
  have hne : ∀ c ∈ fixes.map (·.original) ++ env.toVec (commitsAbove (addFixes d fixes) fixes),
      graph.parentsOf c ≠ [] := by
    intro c hc
    rcases List.mem_append.1 hc with hc | hc
    · obtain ⟨f, hm, rfl⟩ := List.mem_map.1 hc
      rw [← hpar f hm]
      exact R.parents.1 f hm
    · obtain ⟨d1, h1, h2⟩ := R.parents.2 c hc
      rw [hvec, habove] at hc
      obtain ⟨d2, h3, h4⟩ := hag c (hmem c hc.1)
      rw [h1] at h3
      cases h3
      rw [← h4]
      exact h2
  have hbd : b.env.dag = addFixes d fixes := by rw [R.same.1]; rfl
  obtain ⟨k, hk, hkf, hmv⟩ := constraintGraph_requests (b := b) (by rw [hbd]; exact L.wf) hcs hne
  refine ⟨⟨k, hg, L, by rw [hbd], fun c hc => hc.1, hag, hnc, hf, hk, hkf, ?_, R.fixed, ?_, ?_, ?_,
    by rw [R.same.1]; rfl, by rw [R.same.1]; rfl, by rw [R.same.1]; rfl⟩, R.same.2⟩
  · intro p c
    rw [hmv, hX, mem_parentsOf hg, hbd]
    unfold InPlace
    constructor
    · rintro (h1 | ⟨h1, h2, ⟨x, h3, h4⟩, h5⟩)
      · exact h1
      · exfalso
        rw [hX] at h3
        have hs := (hseen c).2 ⟨h5.child_mem, h2⟩
        refine h1 (.inr ⟨hs, ?_⟩)
        rw [L.anc c hs.1] at h4
        rcases h3 with h3 | ⟨_, y, h6, h7⟩
        · exact ⟨x, h3, h4⟩
        · exact ⟨y, h6, h7.trans h4⟩
    · exact .inl
  · intro c h1 h2
    exact R.kept c ((hvec _ _).2 ((habove c).2 ⟨h1, h2⟩))
  · intro c hc
    rcases R.only c hc with h1 | h1
    · rw [hvec, habove] at h1; exact h1.1
    · exact .inl h1
  · intro f hm
    exact hne _ (List.mem_append_left _ (List.mem_map.2 ⟨f, hm, rfl⟩))

namespace FixSetup

variable {env : FixEnv} {graph graph' : CommitGraph Oid} {seen : Oid → Prop} {fixes : List Fix}
  {b : RebasePlanBuilder} {k : Constraints}

theorem affected_mem (S : FixSetup env graph graph' seen fixes b k) {c : Oid}
    (h : AffectedBy graph seen (isFixed fixes) c) : c ∈ graph.nodes := by
  rcases h with ⟨f, hm, rfl⟩ | ⟨h1, _⟩
  · exact (S.fixes_ok f hm).1
  · exact S.seen_mem c h1

theorem moves' (S : FixSetup env graph graph' seen fixes b k) (p c : Oid) :
    Moves k p c ↔ InPlace b.env.dag.graph (AffectedBy graph seen (isFixed fixes)) p c := by
  rw [S.moves, S.graph_eq]
  unfold InPlace
  refine and_congr_right fun h => ?_
  rw [S.leaves.isParent S.wf (S.affected_mem h)]

theorem moved_iff (S : FixSetup env graph graph' seen fixes b k) (c : Oid) :
    (∃ p, InPlace graph (AffectedBy graph seen (isFixed fixes)) p c) ↔
      AffectedBy graph seen (isFixed fixes) c := by
  constructor
  · rintro ⟨p, h, _⟩; exact h
  · intro h
    have hx : ∀ {x}, isFixed fixes x → ∃ p, IsParent graph p x := by
      rintro x ⟨f, hm, rfl⟩
      obtain ⟨p, l, hp⟩ := List.exists_cons_of_ne_nil (S.has_parent f hm)
      exact ⟨p, (mem_parentsOf S.wf).1 (by rw [hp]; simp)⟩
    have : ∃ p, IsParent graph p c := by
      rcases h with h | ⟨_, x, hxX, hxc⟩
      · exact hx h
      · cases hxc with
        | refl => exact hx hxX
        | step _ hp => exact ⟨_, hp⟩
    obtain ⟨p, hp⟩ := this
    exact ⟨p, h, hp⟩

theorem regular (S : FixSetup env graph graph' seen fixes b k) : Regular b.env k :=
  regular_inPlace (by rw [S.graph_eq]; exact S.leaves.wf) S.no_fixups S.moves'

theorem acyclic (S : FixSetup env graph graph' seen fixes b k) : Acyclic k :=
  acyclic_inPlace S.wf S.moves

theorem made_ok (S : FixSetup env graph graph' seen fixes b k) :
    ∀ x ∈ madeBy fixes, env.exec.createCommit x.2 = some x.1 := by
  intro x hx
  obtain ⟨f, hm, rfl⟩ := List.mem_map.1 hx
  obtain ⟨_, o, d, t, F⟩ := S.fixes_ok f hm
  show env.exec.createCommit f.data = _
  rw [F.data, F.made]

theorem nc (S : FixSetup env graph graph' seen fixes b k) : NoCollisions (withMade env.exec (madeBy fixes)) :=
  withMade_noCollisions S.noCollisions S.made_ok

theorem find_old (S : FixSetup env graph graph' seen fixes b k) {c : Oid} {d : CommitData}
    (h : env.exec.commits c = some d) : (withMade env.exec (madeBy fixes)).commits c = some d :=
  find_original S.noCollisions S.made_ok h

theorem find_fixed (S : FixSetup env graph graph' seen fixes b k) {f : Fix} (hm : f ∈ fixes) :
    (withMade env.exec (madeBy fixes)).commits f.fixed = some f.data :=
  find_created S.noCollisions S.made_ok (List.mem_map.2 ⟨f, hm, rfl⟩)

/-- The commit by which a commit is replaced. -/
theorem replacement (S : FixSetup env graph graph' seen fixes b k) {c : Oid}
    (hc : AffectedBy graph seen (isFixed fixes) c) : ∃ d rep r, env.exec.commits c = some d ∧
      AMap.get? b.replacementCommits c = some r ∧
      (withMade env.exec (madeBy fixes)).commits r = some rep ∧ rep = { d with tree := rep.tree } ∧
      ((∃ f ∈ fixes, f.original = c ∧ rep.tree = f.data.tree) ∨ (¬ isFixed fixes c ∧ rep.tree = d.tree)) := by
  by_cases h : isFixed fixes c
  · obtain ⟨f, hm, rfl⟩ := h
    obtain ⟨_, o, d, t, F⟩ := S.fixes_ok f hm
    exact ⟨d, f.data, f.fixed, F.commit, S.fixed f hm, S.find_fixed hm, by rw [F.data],
      .inl ⟨f, hm, rfl, rfl⟩⟩
  · obtain ⟨d, h1, _⟩ := S.agrees c (S.affected_mem hc)
    exact ⟨d, d, c, h1, S.kept c hc h, S.find_old h1, rfl, .inr ⟨h, rfl⟩⟩

theorem newParents_eq (S : FixSetup env graph graph' seen fixes b k) {c r : Oid}
    (hr : AMap.get? b.replacementCommits c = some r) : newParents b.env c r = graph.parentsOf c := by
  have hc := S.only c (by rw [hr]; simp)
  obtain ⟨d, rep, r', h1, h2, h3, h4, _⟩ := S.replacement hc
  rw [hr] at h2
  cases h2
  obtain ⟨d', h5, h6⟩ := S.agrees c (S.affected_mem hc)
  rw [h1] at h5
  cases h5
  have h7 : b.env.parentOids c = graph.parentsOf c := by
    show b.env.dag.graph.parentsOf c = _
    rw [S.graph_eq, S.leaves.parents c (S.affected_mem hc)]
  unfold newParents
  split
  · exact h7
  · rw [S.read]
    have h3 : env.exec.find (madeBy fixes) r = some rep := h3
    simp only
    rw [h3]
    show rep.parents = _
    rw [h4]
    exact h6

theorem replacedOnParents (S : FixSetup env graph graph' seen fixes b k) : ReplacedOnParents b k := by
  intro c r hr _ p hp _
  rw [S.newParents_eq hr] at hp
  rw [S.moves]
  exact ⟨S.only c (by rw [hr]; simp), (mem_parentsOf S.wf).1 hp⟩

end FixSetup

/-! ### why there is no plan -/

/-- The commits above have parents. -/
theorem parentsOf_above {graph : CommitGraph Oid} (hg : WFGraph graph) {seen X : Oid → Prop} {c : Oid}
    (h : AffectedBy graph seen X c) (hX : ¬ X c) : graph.parentsOf c ≠ [] := by
  rcases h with h | ⟨_, x, h1, h2⟩
  · exact absurd h hX
  · cases h2 with
    | refl => exact absurd h1 hX
    | step _ hp =>
      have := (mem_parentsOf hg).2 hp
      intro e
      rw [e] at this
      simp at this

/-- If something fails before the plan is made, it is that a commit without parents is to be fixed. -/
theorem fixes_error {env : FixEnv} {pe : PlanEnv} {perms : RebasePlanPermissions} {fixes : List Fix}
    (hn : (fixes.map (·.original)).Nodup) {e : PlanFail}
    (h : fixes.foldlM requestFix ⟨pe, perms, [], []⟩ = .error e) : ∃ f ∈ fixes, f.parents = [] := by
  obtain ⟨pre, f, post, b, rfl, h1, h2⟩ := foldlM_except_error h
  refine ⟨f, by simp, ?_⟩
  have R := fixRequested (env := env) (Y := []) h1 rfl
  have hnone : AMap.get? b.replacementCommits f.original = none := by
    by_contra hne
    rcases R.only f.original hne with h3 | ⟨g, h3, h4⟩
    · simp at h3
    · rw [List.map_append, List.nodup_append] at hn
      exact hn.2.2 _ (List.mem_map.2 ⟨g, h3, h4⟩) _ (by simp) rfl
  unfold requestFix RebasePlanBuilder.replaceCommit at h2
  rw [if_neg (by simp [hnone])] at h2
  simp only [RebasePlanBuilder.moveSubtree] at h2
  split at h2
  · rename_i h3; simpa using h3
  · cases h2

/-- Nothing fails for the commits above. -/
theorem above_error {env : FixEnv} {pe : PlanEnv} {perms : RebasePlanPermissions} {fixes : List Fix}
    {b1 : RebasePlanBuilder} (h : fixes.foldlM requestFix ⟨pe, perms, [], []⟩ = .ok b1) {Y : List Oid}
    (hn : Y.Nodup) (hY : ∀ c ∈ Y, (¬ isFixed fixes c) ∧ ∃ d, env.exec.commits c = some d ∧ d.parents ≠ [])
    {e : PlanFail} : Y.foldlM (requestKept env) b1 ≠ .error e := by
  intro h'
  obtain ⟨pre, c, post, b, rfl, h1, h2⟩ := foldlM_except_error h'
  have R := fixRequested h h1
  obtain ⟨h3, d, h4, h5⟩ := hY c (by simp)
  have hnone : AMap.get? b.replacementCommits c = none := by
    by_contra hne
    rcases R.only c hne with h6 | h6
    · rw [List.nodup_append] at hn
      exact hn.2.2 _ h6 _ (by simp) rfl
    · exact h3 h6
  unfold requestKept RebasePlanBuilder.replaceCommit at h2
  simp only [h4] at h2
  rw [if_neg (by simp [hnone])] at h2
  simp only [RebasePlanBuilder.moveSubtree] at h2
  split at h2
  · rename_i h6; exact h5 (by simpa using h6)
  · cases h2

/-- There is one fix for each commit. -/
theorem makeFixes_nodup {env : FixEnv} {outputs : List (Oid × TestStatus)} (h : (outputs.map (·.1)).Nodup)
    {fixes : List Fix} (hf : makeFixes env (fixedTrees outputs) = some fixes) :
    (fixes.map (·.original)).Nodup := by
  have h1 : ((fixedTrees outputs).map (·.1)).Nodup := by
    have key : ((fixedTrees outputs).map (·.1)).Sublist (outputs.map (·.1)) := by
      clear h hf
      induction outputs with
      | nil => exact .slnil
      | cons x xs ih =>
        unfold fixedTrees at ih ⊢
        rw [List.filterMap_cons]
        split
        · rw [List.map_cons]; exact ih.cons _
        · rename_i y hy
          have : y.1 = x.1 := by
            simp only at hy
            split at hy
            · cases hy; rfl
            all_goals simp at hy
          rw [List.map_cons, List.map_cons, this]
          exact ih.cons_cons _
    exact h.sublist key
  unfold makeFixes at hf
  rw [Option.map_eq_some_iff] at hf
  obtain ⟨l, hl, rfl⟩ := hf
  have h2 : l.map (·.original) = (fixedTrees outputs).map (·.1) := by
    generalize fixedTrees outputs = trees at hl
    clear h1
    induction trees generalizing l with
    | nil => cases hl; rfl
    | cons x xs ih =>
      rw [List.mapM_cons] at hl
      simp only [Option.bind_eq_bind, Option.pure_def, Option.bind_eq_some_iff, Option.some.injEq] at hl
      obtain ⟨f, hf, l', hl', rfl⟩ := hl
      obtain ⟨d, t, F⟩ := makeFix_some.1 hf
      rw [List.map_cons, List.map_cons, ih l' hl', F.original]
  rw [← h2] at h1
  exact h1.sublist (List.filter_sublist.map _)

/-- Why the fixes cannot be made. -/
theorem makeFixes_none {env : FixEnv} {outputs : List (Oid × TestStatus)}
    (h : makeFixes env (fixedTrees outputs) = none) :
    ∃ c o, (c, o) ∈ fixedTrees outputs ∧ (env.tree o = none ∨ env.exec.commits c = none ∨
      ∃ d, env.exec.commits c = some d ∧ (d.message = none ∨ (∃ p ∈ d.parents, env.exec.commits p = none) ∨
        ∃ t, env.tree o = some t ∧ env.exec.createCommit { d with tree := t } = none)) := by
  unfold makeFixes at h
  rw [Option.map_eq_none_iff] at h
  obtain ⟨⟨c, o⟩, h1, h2⟩ := TestCache.mapM_option_none.1 h
  refine ⟨c, o, h1, ?_⟩
  unfold makeFix at h2
  simp only at h2
  split at h2
  · rename_i h3; exact .inr (.inl h3)
  rename_i d hd
  split at h2
  · rename_i h3; exact .inr (.inr ⟨d, hd, .inl h3⟩)
  split at h2
  · rename_i h3
    simp only [List.any_eq_true, Option.isNone_iff_eq_none] at h3
    exact .inr (.inr ⟨d, hd, .inr (.inl h3)⟩)
  split at h2
  · rename_i h3; exact .inl h3
  rename_i t ht
  split at h2
  · rename_i h3; exact .inr (.inr ⟨d, hd, .inr (.inr ⟨t, ht, h3⟩)⟩)
  · cases h2

end Verif.Spec
