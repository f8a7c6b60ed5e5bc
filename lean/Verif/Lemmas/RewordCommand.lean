import Verif.Lemmas.InPlaceRun
import Verif.Model.RewordCommand
import Verif.Lemmas.Tree

/-! Lemmas about the command `reword`. -/

namespace Verif.Spec

open Verif Verif.RebasePlanBuilder Verif.Constraints Verif.Props

/-- The repository with the commits which were made. -/
def withMade (ee : ExecEnv) (made : List (Oid × CommitData)) : ExecEnv := { ee with commits := ee.find made }

theorem withMade_find (ee : ExecEnv) (made created : List (Oid × CommitData)) (o : Oid) :
    (withMade ee made).find created o = ee.find (created ++ made) o := by
  unfold withMade ExecEnv.find
  rw [get?_append]
  cases AMap.get? created o <;> rfl

theorem withMade_noCollisions {ee : ExecEnv} (hn : NoCollisions ee) {made : List (Oid × CommitData)}
    (hm : ∀ x ∈ made, ee.createCommit x.2 = some x.1) : NoCollisions (withMade ee made) := by
  refine ⟨?_, hn.new⟩
  intro d d' o h1 h2
  rcases find_cases (ee := ee) (cr := made) h2 with h3 | h3
  · exact hn.new _ _ _ h1 (hm _ h3)
  · exact hn.old _ _ _ h1 h3

/-- The requests which are made for the messages. -/
structure Requested (env : RewordEnv) (messages : AMap Oid Text) (s0 : RebasePlanBuilder) (X : List Oid)
    (b : RebasePlanBuilder) (made : List (Oid × CommitData)) : Prop where
  same : b.env = s0.env ∧ b.permissions = s0.permissions
  constraints : ∃ f : Oid → List Oid, b.initialConstraints = X.map (fun c => .moveSubtree (f c) c) ∧
    ∀ c ∈ X, f c ≠ [] ∧ ∃ d, env.exec.commits c = some d ∧ d.parents = f c
  made_ok : ∀ x ∈ made, env.exec.createCommit x.2 = some x.1
  replaced : ∀ c, (AMap.get? b.replacementCommits c).isSome ↔ c ∈ X
  replacement : ∀ c r, AMap.get? b.replacementCommits c = some r → ∃ m d, AMap.get? messages c = some m ∧
    env.exec.commits c = some d ∧ (r, { d with message := some m }) ∈ made

theorem requested {env : RewordEnv} {messages : AMap Oid Text} {pe : PlanEnv} {perms : RebasePlanPermissions}
    {X : List Oid} {b : RebasePlanBuilder} {made : List (Oid × CommitData)}
    (h : X.foldlM (rewordOne env messages) (⟨pe, perms, [], []⟩, []) = .ok (b, made)) :
    Requested env messages ⟨pe, perms, [], []⟩ X b made := by
  refine foldlM_except_inv (P := fun pre s => Requested env messages ⟨pe, perms, [], []⟩ pre s.1 s.2) ?_ ?_ h
  · exact ⟨⟨rfl, rfl⟩, ⟨fun _ => [], rfl, by simp⟩, by simp, by simp, by simp⟩
  · rintro pre c post ⟨b, made⟩ s' hl ⟨h1, ⟨f, h2, h2'⟩, h3, h4, h5⟩ hs
    unfold rewordOne at hs
    split at hs
    · simp at hs
    rename_i m hm
    split at hs
    · simp at hs
    rename_i d hd
    split at hs
    · simp at hs
    rename_i r hr
    split at hs
    · simp at hs
    rename_i b1 hb1
    split at hs
    · simp at hs
    rename_i b2 hb2
    cases hs
    unfold RebasePlanBuilder.moveSubtree at hb1
    split at hb1
    · simp at hb1
    rename_i hne
    cases hb1
    unfold RebasePlanBuilder.replaceCommit at hb2
    split at hb2
    · simp at hb2
    rename_i hfresh
    cases hb2
    have hcn : c ∉ pre := fun hc => hfresh ((h4 c).2 hc)
    refine ⟨h1, ⟨fun x => if x = c then d.parents else f x, ?_, ?_⟩, ?_, ?_, ?_⟩
    · simp only [List.map_append, List.map_cons, List.map_nil, if_true]
      rw [h2]
      congr 1
      refine List.map_congr_left fun x hx => ?_
      have hxc : x ≠ c := by rintro rfl; exact hcn hx
      simp only [if_neg hxc]
    · intro x hx
      rcases List.mem_append.1 hx with hxp | hx
      · have hxc : x ≠ c := by rintro rfl; exact hcn hxp
        simp only [if_neg hxc]
        exact h2' x hxp
      · rw [List.mem_singleton] at hx
        subst hx
        simp only [if_true]
        exact ⟨by simpa using hne, d, hd, rfl⟩
    · intro x hx
      rcases List.mem_cons.1 hx with rfl | hx
      · exact hr
      · exact h3 x hx
    · intro x
      simp only [AMap.get?_insert, List.mem_append, List.mem_singleton]
      by_cases hx : c = x
      · simp [hx]
      · rw [if_neg hx, h4]
        simp [Ne.symm hx]
    · intro x r' hx
      simp only [AMap.get?_insert] at hx
      split at hx
      · rename_i e
        subst e
        cases hx
        exact ⟨m, d, hm, hd, by simp⟩
      · obtain ⟨m', d', h6, h7, h8⟩ := h5 x r' hx
        exact ⟨m', d', h6, h7, List.mem_cons_of_mem _ h8⟩

/-- A plan to reword commits: what is known about it. -/
structure RewordSetup (env : RewordEnv) (graph : CommitGraph Oid) (seen : Oid → Prop) (X : List Oid)
    (messages : AMap Oid Text) (b : RebasePlanBuilder) (made : List (Oid × CommitData)) (k : Constraints) :
    Prop where
  graph_eq : b.env.dag.graph = graph
  wf : WFGraph graph
  agrees : Agrees graph env.exec
  noCollisions : NoCollisions env.exec
  made_ok : ∀ x ∈ made, env.exec.createCommit x.2 = some x.1
  graph_ok : b.constraintGraph = .ok k
  no_fixups : k.fixups = []
  moves : ∀ p c, Moves k p c ↔ InPlace graph (Affected graph seen X) p c
  replaced : ∀ c, (AMap.get? b.replacementCommits c).isSome ↔ c ∈ X
  replacement : ∀ c r, AMap.get? b.replacementCommits c = some r → ∃ m d, AMap.get? messages c = some m ∧
    env.exec.commits c = some d ∧ (r, { d with message := some m }) ∈ made
  read : b.env.replacementParentOids = fun r => ((env.exec.find made r).map (·.parents)).getD []
  has_parent : ∀ c ∈ X, graph.parentsOf c ≠ []
  nodes : ∀ c ∈ X, c ∈ graph.nodes
  no_detect : b.permissions.detectDuplicateCommitsViaPatchId = false

theorem rewordSetup {env : RewordEnv} {d : Dag} (hg : WFGraph d.graph) {seen : Oid → Prop}
    (hs : ∀ o, seen o ↔ o ∈ d.graph.nodes ∧ ∃ x ∈ d.visibleHeads, Anc d.graph o x)
    {X : List Oid} (hX : ∀ x ∈ X, x ∈ d.graph.nodes) (hag : Agrees d.graph env.exec)
    (hn : NoCollisions env.exec) {perms : RebasePlanPermissions}
    (hp : perms.detectDuplicateCommitsViaPatchId = false) {messages : AMap Oid Text}
    {b : RebasePlanBuilder} {made : List (Oid × CommitData)}
    (h : X.foldlM (rewordOne env messages) (⟨env.planEnv d [], perms, [], []⟩, []) = .ok (b, made)) :
    ∃ k, RewordSetup env d.graph seen X messages { b with env := env.planEnv d made } made k := by
  obtain ⟨⟨h1, h1'⟩, ⟨f, h2, h2'⟩, h3, h4, h5⟩ := requested h
  have hf : ∀ c ∈ X, f c = d.graph.parentsOf c := by
    intro c hc
    obtain ⟨_, d1, h6, h7⟩ := h2' c hc
    obtain ⟨d2, h8, h9⟩ := hag c (hX c hc)
    rw [h6] at h8
    cases h8
    rw [← h7, h9]
  have hcs : b.initialConstraints = X.map fun c => .moveSubtree (d.graph.parentsOf c) c := by
    rw [h2]
    exact List.map_congr_left fun c hc => by rw [hf c hc]
  have hpar : ∀ c ∈ X, d.graph.parentsOf c ≠ [] := by
    intro c hc
    rw [← hf c hc]
    exact (h2' c hc).1
  obtain ⟨k, hk, hkf, hmv⟩ := constraintGraph_inPlace (b := { b with env := env.planEnv d made }) hg hcs hpar
  refine ⟨k, rfl, hg, hag, hn, h3, hk, hkf, ?_, h4, h5, rfl, hpar, hX, by rw [h1']; exact hp⟩
  intro p c
  rw [hmv]
  refine and_congr_left fun hpc => ?_
  unfold Affected
  refine or_congr_right (and_congr_left fun _ => ?_)
  rw [hs]
  constructor
  · intro h; exact ⟨hpc.child_mem, h⟩
  · exact fun h => h.2

namespace RewordSetup

variable {env : RewordEnv} {graph : CommitGraph Oid} {seen : Oid → Prop} {X : List Oid}
  {messages : AMap Oid Text} {b : RebasePlanBuilder} {made : List (Oid × CommitData)} {k : Constraints}

theorem regular (S : RewordSetup env graph seen X messages b made k) : Regular b.env k :=
  regular_inPlace (by rw [S.graph_eq]; exact S.wf) S.no_fixups (by rw [S.graph_eq]; exact S.moves)

theorem acyclic (S : RewordSetup env graph seen X messages b made k) : Acyclic k :=
  acyclic_inPlace S.wf S.moves

theorem nc (S : RewordSetup env graph seen X messages b made k) : NoCollisions (withMade env.exec made) :=
  withMade_noCollisions S.noCollisions S.made_ok

theorem find_old (S : RewordSetup env graph seen X messages b made k) {c : Oid} {d : CommitData}
    (h : env.exec.commits c = some d) : (withMade env.exec made).commits c = some d :=
  find_original S.noCollisions S.made_ok h

theorem moved_iff (S : RewordSetup env graph seen X messages b made k) (c : Oid) :
    (∃ p, InPlace graph (Affected graph seen X) p c) ↔ Affected graph seen X c := by
  constructor
  · rintro ⟨p, h, _⟩; exact h
  · intro h
    have hx : ∀ {x}, x ∈ X → ∃ p, IsParent graph p x := by
      intro x hx
      obtain ⟨p, l, hp⟩ := List.exists_cons_of_ne_nil (S.has_parent x hx)
      exact ⟨p, (mem_parentsOf S.wf).1 (by rw [hp]; simp)⟩
    have : ∃ p, IsParent graph p c := by
      rcases h with h | ⟨_, x, hxX, hxc⟩
      · exact hx h
      · cases hxc with
        | refl => exact hx hxX
        | step _ hp => exact ⟨_, hp⟩
    obtain ⟨p, hp⟩ := this
    exact ⟨p, h, hp⟩

theorem affected_mem (S : RewordSetup env graph seen X messages b made k) {c : Oid}
    (h : Affected graph seen X c) : c ∈ graph.nodes := by
  obtain ⟨p, _, hp⟩ := (S.moved_iff c).2 h
  exact hp.child_mem

theorem newParents_eq (S : RewordSetup env graph seen X messages b made k) {c r : Oid}
    (hr : AMap.get? b.replacementCommits c = some r) : newParents b.env c r = graph.parentsOf c := by
  obtain ⟨m, d, h1, h2, h3⟩ := S.replacement c r hr
  have hcX : c ∈ X := (S.replaced c).1 (by rw [hr]; rfl)
  obtain ⟨d', h4, h5⟩ := S.agrees c (S.nodes c hcX)
  rw [h2] at h4
  cases h4
  have h6 : b.env.parentOids c = graph.parentsOf c := by
    show b.env.dag.graph.parentsOf c = _
    rw [S.graph_eq]
  unfold newParents
  split
  · exact h6
  · rw [S.read]
    simp only
    rw [find_created S.noCollisions S.made_ok h3]
    exact h5

theorem replacedOnParents (S : RewordSetup env graph seen X messages b made k) : ReplacedOnParents b k := by
  intro c r hr hrw p hp _
  rw [S.newParents_eq hr] at hp
  rw [S.moves]
  exact ⟨.inl ((S.replaced c).1 (by rw [hr]; rfl)), (mem_parentsOf S.wf).1 hp⟩

/-- The commands of the plan do not change files. -/
theorem harmless (S : RewordSetup env graph seen X messages b made k) (hcp : CleanPicks env.exec)
    {plan : RebasePlan} (h : b.build = .ok (.ok (some plan))) {pre post : List RebaseCommand}
    {cmd : RebaseCommand} (hs : plan.commands = pre ++ cmd :: post) (hm : ∀ c ps, cmd ≠ .merge c ps)
    (init : SymState) : Harmless (withMade env.exec made) (symRun init pre) cmd := by
  have hmem : cmd ∈ plan.commands := by rw [hs]; simp
  obtain ⟨hpk, hpr, hps⟩ := picks_apply b k S.graph_ok plan h
  obtain ⟨-, -, hsk⟩ := plan_kinds b k S.graph_ok plan h
  cases cmd with
  | pick c l =>
    obtain ⟨h1, h2⟩ := hpk c l hmem
    have hl : l = [c] := by
      rw [h1]; unfold commitsToApply; rw [S.no_fixups]; rfl
    have hplaced := plan_placed S.graph_ok S.no_fixups h init pre c l post hs
    rw [S.moves] at hplaced
    obtain ⟨d, hd, hdp⟩ := S.agrees c hplaced.2.child_mem
    have hlen : (graph.parentsOf c).length ≤ 1 := by
      have : ¬ 1 < (b.env.dag.graph.parentsOf c).length := h2
      rw [S.graph_eq] at this
      omega
    have hone : graph.parentsOf c = [(symRun init pre).current] := by
      have hmem := (mem_parentsOf S.wf).2 hplaced.2
      generalize graph.parentsOf c = ps at hlen hmem
      match ps, hlen, hmem with
      | [x], _, hmem => rw [List.mem_singleton] at hmem; rw [hmem]
      | _ :: _ :: _, hlen, _ => simp at hlen
    refine ⟨hl, d, S.find_old hd, by rw [hdp]; exact hlen, ?_⟩
    rintro cr hcr q ⟨x, dp, h3, h4, h5⟩
    obtain ⟨dp', h6, _⟩ := S.agrees _ (hplaced.2.parent_mem S.wf)
    rw [S.find_old h6] at h4
    cases h4
    refine hcp c d _ dp q x hd (hdp.trans hone) h6 ?_ h5
    rcases find_cases h3 with h7 | h7
    · exact .inr (hcr _ h7)
    · rcases find_cases (ee := env.exec) (cr := made) h7 with h8 | h8
      · exact .inr (S.made_ok _ h8)
      · exact .inl h8
  | merge c ps => exact hm c ps rfl
  | skipUpstreamAppliedCommit c =>
    have := hsk c hmem
    rw [S.no_detect] at this
    simp at this
  | replace c r ps =>
    obtain ⟨m, d, h1, h2, h3⟩ := S.replacement c r (hpr c r ps hmem)
    exact ⟨d, { d with message := some m }, S.find_old h2, find_created S.noCollisions S.made_ok h3, rfl⟩
  | reset t =>
    cases t with
    | label l => trivial
    | oid p =>
      obtain ⟨c, hc⟩ := plan_resets S.graph_ok S.no_fixups h hmem
      have hpc : IsParent graph p c := by
        rcases hc with hc | hc
        · have hc : p ∈ b.env.dag.graph.parentsOf c := hc
          rw [S.graph_eq] at hc
          exact (mem_parentsOf S.wf).1 hc
        · rw [S.moves] at hc
          exact hc.2
      obtain ⟨d, hd, _⟩ := S.agrees p (hpc.parent_mem S.wf)
      exact ⟨d, S.find_old hd⟩
  | createLabel l => trivial
  | «break» => trivial
  | registerExtraPostRewriteHook => trivial
  | detectEmptyCommit c => trivial

theorem tracks_initial (S : RewordSetup env graph seen X messages b made k) {plan : RebasePlan}
    (h : b.build = .ok (.ok (some plan))) :
    Tracks (withMade env.exec made) (ExecEnv.initialState plan) ⟨plan.firstDestOid, []⟩ := by
  obtain ⟨k', st, h1, h2, h3, h4, h5, h6⟩ := build_ok h
  have hdest := firstDest_reset h4 _ h5
  obtain ⟨c, hc⟩ := plan_resets S.graph_ok S.no_fixups h
    (show .reset (.oid plan.firstDestOid) ∈ plan.commands by rw [h6]; exact List.mem_append_left _ hdest)
  have hpc : IsParent graph plan.firstDestOid c := by
    rcases hc with hc | hc
    · have hc : plan.firstDestOid ∈ b.env.dag.graph.parentsOf c := hc
      rw [S.graph_eq] at hc
      exact (mem_parentsOf S.wf).1 hc
    · rw [S.moves] at hc
      exact hc.2
  obtain ⟨d, hd, _⟩ := S.agrees _ (hpc.parent_mem S.wf)
  refine ⟨by simp [ExecEnv.initialState], ?_, ?_, ?_⟩
  · exact SameFiles.self S.nc (by simp [ExecEnv.initialState]) (S.find_old hd)
  · intro l; exact .inl ⟨rfl, rfl⟩
  · intro c n hc; simp [ExecEnv.initialState] at hc

/-- No files change. -/
theorem tracked (S : RewordSetup env graph seen X messages b made k) (hcp : CleanPicks env.exec)
    {plan : RebasePlan} (h : b.build = .ok (.ok (some plan))) (hm : ∀ c ps, .merge c ps ∉ plan.commands)
    (head : Option Oid) :
    (∀ info, (withMade env.exec made).rebaseInMemory head plan ≠ .error (.mergeFailed info)) ∧
    ∀ s newHead, (withMade env.exec made).rebaseInMemory head plan = .ok (s, newHead) →
      ∃ y, Tracks (withMade env.exec made) s y := by
  obtain ⟨h1, h2⟩ := (S.tracks_initial h).run S.nc (head := head) (cmds := plan.commands)
    fun pre cmd post hs => S.harmless hcp h hs (by
      rintro c ps rfl
      exact hm c ps (by rw [hs]; simp)) _
  constructor
  · intro info he
    unfold ExecEnv.rebaseInMemory at he
    have : ExecEnv.findMerge plan.commands = none := by
      unfold ExecEnv.findMerge
      rw [List.findSome?_eq_none_iff]
      intro cmd hcmd
      split
      · rename_i c ps
        exact absurd hcmd (hm c ps)
      · rfl
    rw [this] at he
    simp only at he
    split at he
    · rename_i e he2
      cases he
      exact h1 info he2
    · simp at he
  · intro s newHead hx
    exact ⟨_, h2 s (rebaseInMemory_ok hx).1⟩

end RewordSetup

end Verif.Spec
