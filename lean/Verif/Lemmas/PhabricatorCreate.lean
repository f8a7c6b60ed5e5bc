import Verif.Lemmas.RewordCommand
import Verif.Lemmas.Phabricator

/-! Lemmas about plans which replace commits by others with the same parents and files. -/

namespace Verif.Spec

open Verif Verif.RebasePlanBuilder Verif.Constraints Verif.Props Verif.Phabricator Verif.TestRun

/-- A plan to replace commits by others which differ in the message: what is known about it. -/
structure ReplaceSetup (ee : ExecEnv) (graph : CommitGraph Oid) (seen : Oid → Prop) (X : List Oid)
    (made : Oid → Oid → Prop) (b : RebasePlanBuilder) (k : Constraints) : Prop where
  graph_eq : b.env.dag.graph = graph
  wf : WFGraph graph
  agrees : Agrees graph ee
  nc : NoCollisions ee
  graph_ok : b.constraintGraph = .ok k
  no_fixups : k.fixups = []
  moves : ∀ p c, Moves k p c ↔ InPlace graph (Affected graph seen X) p c
  replaced : ∀ c, (AMap.get? b.replacementCommits c).isSome ↔ c ∈ X
  replacement : ∀ c r, AMap.get? b.replacementCommits c = some r → made c r ∧ ∃ d dr, ee.commits c = some d ∧
    ee.commits r = some dr ∧ dr.parents = d.parents ∧ dr.tree = d.tree
  read : b.env.replacementParentOids = fun r => ((ee.commits r).map (·.parents)).getD []
  has_parent : ∀ c ∈ X, graph.parentsOf c ≠ []
  nodes : ∀ c ∈ X, c ∈ graph.nodes
  no_detect : b.permissions.detectDuplicateCommitsViaPatchId = false

namespace ReplaceSetup

variable {ee : ExecEnv} {graph : CommitGraph Oid} {seen : Oid → Prop} {X : List Oid}
  {made : Oid → Oid → Prop} {b : RebasePlanBuilder} {k : Constraints}

theorem regular (S : ReplaceSetup ee graph seen X made b k) : Regular b.env k :=
  regular_inPlace (by rw [S.graph_eq]; exact S.wf) S.no_fixups (by rw [S.graph_eq]; exact S.moves)

theorem acyclic (S : ReplaceSetup ee graph seen X made b k) : Acyclic k :=
  acyclic_inPlace S.wf S.moves

theorem moved_iff (S : ReplaceSetup ee graph seen X made b k) (c : Oid) :
    (∃ p, InPlace graph (Affected graph seen X) p c) ↔ Affected graph seen X c := by
  constructor
  · rintro ⟨p, h, _⟩; exact h
  · intro h
    have hx : ∀ {x}, x ∈ X → ∃ p, IsParent graph p x := by
      intro x hx
      obtain ⟨p, l, hp⟩ := List.exists_cons_of_ne_nil (S.has_parent x hx)
      exact ⟨p, (mem_parentsOf S.wf).1 (by rw [hp]; simp)⟩
    have : ∃ p, IsParent graph p c := by
      rcases h with h | ⟨_, x, hxX, hxc⟩
      · exact hx h
      · cases hxc with
        | refl => exact hx hxX
        | step _ hp => exact ⟨_, hp⟩
    obtain ⟨p, hp⟩ := this
    exact ⟨p, h, hp⟩

theorem newParents_eq (S : ReplaceSetup ee graph seen X made b k) {c r : Oid}
    (hr : AMap.get? b.replacementCommits c = some r) : newParents b.env c r = graph.parentsOf c := by
  obtain ⟨-, d, dr, h2, h3, h4, -⟩ := S.replacement c r hr
  have hcX : c ∈ X := (S.replaced c).1 (by rw [hr]; rfl)
  obtain ⟨d', h5, h6⟩ := S.agrees c (S.nodes c hcX)
  rw [h2] at h5
  cases h5
  have h7 : b.env.parentOids c = graph.parentsOf c := by
    show b.env.dag.graph.parentsOf c = _
    rw [S.graph_eq]
  unfold newParents
  split
  · exact h7
  · rw [S.read]
    simp only
    rw [h3]
    exact h4.trans h6

theorem replacedOnParents (S : ReplaceSetup ee graph seen X made b k) : ReplacedOnParents b k := by
  intro c r hr hrw p hp _
  rw [S.newParents_eq hr] at hp
  rw [S.moves]
  exact ⟨.inl ((S.replaced c).1 (by rw [hr]; rfl)), (mem_parentsOf S.wf).1 hp⟩

/-- The commands of the plan do not change files. -/
theorem harmless (S : ReplaceSetup ee graph seen X made b k) (hcp : CleanPicks ee)
    {plan : RebasePlan} (h : b.build = .ok (.ok (some plan))) {pre post : List RebaseCommand}
    {cmd : RebaseCommand} (hs : plan.commands = pre ++ cmd :: post) (hm : ∀ c ps, cmd ≠ .merge c ps)
    (init : SymState) : Harmless ee (symRun init pre) cmd := by
  have hmem : cmd ∈ plan.commands := by rw [hs]; simp
  obtain ⟨hpk, hpr, hps⟩ := picks_apply b k S.graph_ok plan h
  obtain ⟨-, -, hsk⟩ := plan_kinds b k S.graph_ok plan h
  cases cmd with
  | pick c l =>
    obtain ⟨h1, h2⟩ := hpk c l hmem
    have hl : l = [c] := by
      rw [h1]; unfold commitsToApply; rw [S.no_fixups]; rfl
    have hplaced := plan_placed S.graph_ok S.no_fixups h init pre c l post hs
    rw [S.moves] at hplaced
    obtain ⟨d, hd, hdp⟩ := S.agrees c hplaced.2.child_mem
    have hlen : (graph.parentsOf c).length ≤ 1 := by
      have : ¬ 1 < (b.env.dag.graph.parentsOf c).length := h2
      rw [S.graph_eq] at this
      omega
    have hone : graph.parentsOf c = [(symRun init pre).current] := by
      have hmem := (mem_parentsOf S.wf).2 hplaced.2
      generalize graph.parentsOf c = ps at hlen hmem
      match ps, hlen, hmem with
      | [x], _, hmem => rw [List.mem_singleton] at hmem; rw [hmem]
      | _ :: _ :: _, hlen, _ => simp at hlen
    refine ⟨hl, d, hd, by rw [hdp]; exact hlen, ?_⟩
    rintro cr hcr q ⟨x, dp, h3, h4, h5⟩
    obtain ⟨dp', h6, _⟩ := S.agrees _ (hplaced.2.parent_mem S.wf)
    rw [h6] at h4
    cases h4
    refine hcp c d _ dp q x hd (hdp.trans hone) h6 ?_ h5
    rcases find_cases h3 with h7 | h7
    · exact .inr (hcr _ h7)
    · exact .inl h7
  | merge c ps => exact hm c ps rfl
  | skipUpstreamAppliedCommit c =>
    have := hsk c hmem
    rw [S.no_detect] at this
    simp at this
  | replace c r ps =>
    obtain ⟨-, d, dr, h2, h3, -, h4⟩ := S.replacement c r (hpr c r ps hmem)
    exact ⟨d, dr, h2, h3, h4⟩
  | reset t =>
    cases t with
    | label l => trivial
    | oid p =>
      obtain ⟨c, hc⟩ := plan_resets S.graph_ok S.no_fixups h hmem
      have hpc : IsParent graph p c := by
        rcases hc with hc | hc
        · have hc : p ∈ b.env.dag.graph.parentsOf c := hc
          rw [S.graph_eq] at hc
          exact (mem_parentsOf S.wf).1 hc
        · rw [S.moves] at hc
          exact hc.2
      obtain ⟨d, hd, _⟩ := S.agrees p (hpc.parent_mem S.wf)
      exact ⟨d, hd⟩
  | createLabel l => trivial
  | «break» => trivial
  | registerExtraPostRewriteHook => trivial
  | detectEmptyCommit c => trivial

theorem tracks_initial (S : ReplaceSetup ee graph seen X made b k) {plan : RebasePlan}
    (h : b.build = .ok (.ok (some plan))) :
    Tracks ee (ExecEnv.initialState plan) ⟨plan.firstDestOid, []⟩ := by
  obtain ⟨k', st, h1, h2, h3, h4, h5, h6⟩ := build_ok h
  have hdest := firstDest_reset h4 _ h5
  obtain ⟨c, hc⟩ := plan_resets S.graph_ok S.no_fixups h
    (show .reset (.oid plan.firstDestOid) ∈ plan.commands by rw [h6]; exact List.mem_append_left _ hdest)
  have hpc : IsParent graph plan.firstDestOid c := by
    rcases hc with hc | hc
    · have hc : plan.firstDestOid ∈ b.env.dag.graph.parentsOf c := hc
      rw [S.graph_eq] at hc
      exact (mem_parentsOf S.wf).1 hc
    · rw [S.moves] at hc
      exact hc.2
  obtain ⟨d, hd, _⟩ := S.agrees _ (hpc.parent_mem S.wf)
  refine ⟨by simp [ExecEnv.initialState], ?_, ?_, ?_⟩
  · exact SameFiles.self S.nc (by simp [ExecEnv.initialState]) hd
  · intro l; exact .inl ⟨rfl, rfl⟩
  · intro c n hc; simp [ExecEnv.initialState] at hc

/-- No files change. -/
theorem tracked (S : ReplaceSetup ee graph seen X made b k) (hcp : CleanPicks ee)
    {plan : RebasePlan} (h : b.build = .ok (.ok (some plan))) (hm : ∀ c ps, .merge c ps ∉ plan.commands)
    (head : Option Oid) :
    (∀ info, ee.rebaseInMemory head plan ≠ .error (.mergeFailed info)) ∧
    ∀ s newHead, ee.rebaseInMemory head plan = .ok (s, newHead) → ∃ y, Tracks ee s y := by
  obtain ⟨h1, h2⟩ := (S.tracks_initial h).run S.nc (head := head) (cmds := plan.commands)
    fun pre cmd post hs => S.harmless hcp h hs (by
      rintro c ps rfl
      exact hm c ps (by rw [hs]; simp)) _
  constructor
  · intro info he
    unfold ExecEnv.rebaseInMemory at he
    have : ExecEnv.findMerge plan.commands = none := by
      unfold ExecEnv.findMerge
      rw [List.findSome?_eq_none_iff]
      intro cmd hcmd
      split
      · rename_i c ps
        exact absurd hcmd (hm c ps)
      · rfl
    rw [this] at he
    simp only at he
    split at he
    · rename_i e he2
      cases he
      exact h1 info he2
    · simp at he
  · intro s newHead hx
    exact ⟨_, h2 s (rebaseInMemory_ok hx).1⟩

/-- What becomes of the commits. -/
theorem uploaded_of_run (S : ReplaceSetup ee graph seen X made b k) (hcp : CleanPicks ee)
    {plan : RebasePlan} (h : b.build = .ok (.ok (some plan))) {head : Option Oid} {s : ExecState}
    {newHead : Option Oid} (hx : ee.rebaseInMemory head plan = .ok (s, newHead)) :
    Uploaded graph seen X made ee s.created s.rewritten head newHead := by
  obtain ⟨h1, h2, h3, h4⟩ := replaced_rebase_in_memory b _ k S.graph_ok S.no_fixups S.moves S.regular
    S.replacedOnParents plan h ee S.nc head s newHead hx
  obtain ⟨-, -, hsk⟩ := plan_kinds b k S.graph_ok plan h
  have hrun := (rebaseInMemory_ok hx).1
  obtain ⟨y, T⟩ := (S.tracked hcp h (runs_no_merge hrun) head).2 s newHead hx
  have hsk' : ∀ c, .skipUpstreamAppliedCommit c ∉ plan.commands := by
    intro c hc
    have := hsk c hc
    rw [S.no_detect] at this
    simp at this
  have hsel : ∀ c ∈ X, ∃ r d ps n, made c r ∧ ee.commits r = some d ∧
      List.Forall₂ (Lands (InPlace graph (Affected graph seen X)) s.rewritten) (graph.parentsOf c) ps ∧
      AMap.get? s.rewritten c = some (.nonZero n) ∧
      ee.find s.created n = some ⟨ps, d.tree, d.message, d.author, d.committer, ee.newTime d.time⟩ := by
    intro c hc
    obtain ⟨p, hp⟩ := (S.moved_iff c).2 (.inl hc)
    obtain ⟨r, hr⟩ := Option.isSome_iff_exists.1 ((S.replaced c).2 hc)
    obtain ⟨h5, d, dr, h6, h7, -, -⟩ := S.replacement c r hr
    rcases h2 p c r hp hr with ⟨h8, _⟩ | ⟨n, ps, rep, h8, h9, h10, h11⟩
    · exact absurd h8 (hsk' c)
    · rw [S.newParents_eq hr] at h8
      have hrep : rep = dr := by
        have := find_original S.nc T.created h7
        rw [this] at h9
        exact (Option.some.inj h9).symm
      subst hrep
      exact ⟨r, rep, ps, n, h5, h7, h8, h10, h11⟩
  have hpicked : ∀ p c, c ∉ X → InPlace graph (Affected graph seen X) p c → ∃ d dp q tree base,
      ee.commits c = some d ∧ graph.parentsOf c = [p] ∧ ee.commits p = some dp ∧
      Lands (InPlace graph (Affected graph seen X)) s.rewritten p q ∧
      ee.cherryPickFast c q = .ok tree ∧ ee.find s.created q = some base ∧
      if tree = base.tree then AMap.get? s.rewritten c = some .zero
      else ∃ n, AMap.get? s.rewritten c = some (.nonZero n) ∧
        ee.find s.created n = some ⟨[q], tree, d.message, d.author, d.committer, ee.newTime d.time⟩ := by
    intro p c hc hp
    have hnone : AMap.get? b.replacementCommits c = none := by
      rw [← Option.not_isSome_iff_eq_none, S.replaced c]
      exact hc
    obtain ⟨q, h5, h6, h7⟩ := h1 p c hp hnone
    obtain ⟨d, hd, hdp⟩ := S.agrees c hp.2.child_mem
    obtain ⟨dp, hdp', _⟩ := S.agrees p (hp.2.parent_mem S.wf)
    have hone : graph.parentsOf c = [p] := by
      have hlen : ¬ 1 < (b.env.dag.graph.parentsOf c).length := h6
      rw [S.graph_eq] at hlen
      have hmem := (mem_parentsOf S.wf).2 hp.2
      generalize graph.parentsOf c = ps at hlen hmem
      match ps, hlen, hmem with
      | [x], _, hmem => rw [List.mem_singleton] at hmem; rw [hmem]
      | _ :: _ :: _, hlen, _ => simp at hlen
    rcases h7 with ⟨h7, _⟩ | ⟨tree, base, orig, h8, h9, h10, h11⟩
    · exact absurd h7 (hsk' c)
    · rw [find_original S.nc T.created hd] at h10
      cases h10
      exact ⟨d, dp, q, tree, base, hd, hone, hdp', h5, h8, h9, h11⟩
  have hpick : ∀ {c d p dp q base}, ee.commits c = some d → graph.parentsOf c = [p] →
      ee.commits p = some dp → ee.find s.created q = some base →
      base.tree = dp.tree → ee.cherryPickFast c q = .ok d.tree := by
    intro c d p dp q base h5 h6 h7 h8 h9
    have hc : c ∈ graph.nodes := by
      have : IsParent graph p c := (mem_parentsOf S.wf).1 (by rw [h6]; simp)
      exact this.child_mem
    obtain ⟨d', h10, h11⟩ := S.agrees c hc
    rw [h5] at h10
    cases h10
    refine hcp c d p dp q base h5 (h11.trans h6) h7 ?_ h9
    rcases find_cases h8 with h12 | h12
    · exact .inr (T.created _ h12)
    · exact .inl h12
  have htree : ∀ n c, ageOf graph.entries c = n → c ∈ graph.nodes → ∀ q,
      Lands (InPlace graph (Affected graph seen X)) s.rewritten c q → SameFiles ee s.created q c := by
    intro n
    induction n using Nat.strongRecOn with
    | _ n ih =>
      intro c hn hc q hq
      obtain ⟨d, hd, _⟩ := S.agrees c hc
      cases hq with
      | stays _ _ => exact SameFiles.self S.nc T.created hd
      | new p _ _ _ hz => exact T.rewritten c q hz
      | dropped p _ _ hp hz hpq =>
        have hcX : c ∉ X := by
          intro hcX
          obtain ⟨_, _, _, _, _, _, _, h5, _⟩ := hsel c hcX
          rw [hz] at h5
          simp at h5
        obtain ⟨d', dp, q', tree, base, h5, h6, h7, h8, h9, h10, h11⟩ := hpicked p c hcX hp
        rw [hd] at h5
        cases h5
        have hlt := age_lt S.wf hp.2
        have hpm := hp.2.parent_mem S.wf
        obtain ⟨x, dx, h12, h13, h14⟩ := ih _ (hn ▸ hlt) p rfl hpm q' h8
        rw [h10] at h12
        cases h12
        rw [h7] at h13
        cases h13
        have hp' := hpick hd h6 h7 h10 h14
        rw [h9] at hp'
        cases hp'
        have heq : d.tree = base.tree := by
          by_contra hne
          rw [if_neg hne] at h11
          obtain ⟨n', h15, _⟩ := h11
          rw [hz] at h15
          simp at h15
        obtain ⟨x, dx, h15, h16, h17⟩ := ih _ (hn ▸ hlt) p rfl hpm q hpq
        rw [h7] at h16
        cases h16
        exact ⟨x, d, h15, hd, by rw [h17, heq, h14]⟩
  refine ⟨hsel, ?_, ?_, h4⟩
  · intro c hcX hA
    obtain ⟨p, hp⟩ := (S.moved_iff c).2 hA
    obtain ⟨d, dp, q, tree, base, h5, h6, h7, h8, h9, h10, h11⟩ := hpicked p c hcX hp
    obtain ⟨x, dx, h12, h13, h14⟩ := htree _ p rfl (hp.2.parent_mem S.wf) q h8
    rw [h10] at h12
    cases h12
    rw [h7] at h13
    cases h13
    have hp' := hpick h5 h6 h7 h10 h14
    rw [h9] at hp'
    cases hp'
    rw [h14] at h11
    exact ⟨d, p, dp, q, h5, h6, h7, h8, h11⟩
  · intro c hc
    exact h3 c fun hp => hc ((S.moved_iff c).1 hp)

end ReplaceSetup

/-- The requests for what `arc` made. -/
structure RequestedUploads (env : PhabEnv) (s0 : RebasePlanBuilder) (outputs : List (Oid × TestStatus))
    (b : RebasePlanBuilder) : Prop where
  same : b.env = s0.env ∧ b.permissions = s0.permissions
  constraints : ∃ f : Oid → List Oid,
    b.initialConstraints = (outputs.map Prod.fst).map (fun c => .moveSubtree (f c) c) ∧
    ∀ c ∈ outputs.map Prod.fst, f c ≠ [] ∧ ∃ d, env.exec.commits c = some d ∧ d.parents = f c
  replaced : ∀ c, (AMap.get? b.replacementCommits c).isSome ↔ c ∈ outputs.map Prod.fst
  replacement : ∀ c r, AMap.get? b.replacementCommits c = some r → UploadedAs outputs c r

theorem uploaded_some {c r : Oid} {st : TestStatus} (h : uploaded c st = some r) :
    ∃ cached info interactive, st = .passed cached info interactive ∧ r = info.headCommitOid.getD c := by
  unfold uploaded at h
  cases st with
  | passed cached info interactive =>
    simp only [Option.some.injEq] at h
    exact ⟨cached, info, interactive, rfl, h.symm⟩
  | _ => exact nomatch h

theorem requestedUploads {env : PhabEnv} {pe : PlanEnv} {perms : RebasePlanPermissions}
    {outputs : List (Oid × TestStatus)} {b : RebasePlanBuilder}
    (h : outputs.foldlM (requestUploaded env) ⟨pe, perms, [], []⟩ = .ok b) :
    RequestedUploads env ⟨pe, perms, [], []⟩ outputs b := by
  refine foldlM_except_inv (P := fun pre s => RequestedUploads env ⟨pe, perms, [], []⟩ pre s) ?_ ?_ h
  · exact ⟨⟨rfl, rfl⟩, ⟨fun _ => [], rfl, by simp⟩, by simp, by simp⟩
  · rintro pre ⟨c, st⟩ post b s' hl ⟨h1, ⟨f, h2, h2'⟩, h4, h5⟩ hs
    unfold requestUploaded at hs
    simp only at hs
    split at hs
    · simp at hs
    rename_i r hr
    split at hs
    · simp at hs
    rename_i d hd
    split at hs
    · simp at hs
    rename_i b1 hb1
    split at hs
    · simp at hs
    rename_i b2 hb2
    cases hs
    unfold RebasePlanBuilder.moveSubtree at hb1
    split at hb1
    · simp at hb1
    rename_i hne
    cases hb1
    unfold RebasePlanBuilder.replaceCommit at hb2
    split at hb2
    · simp at hb2
    rename_i hfresh
    cases hb2
    have hcn : c ∉ pre.map Prod.fst := fun hc => hfresh ((h4 c).2 hc)
    refine ⟨h1, ⟨fun x => if x = c then d.parents else f x, ?_, ?_⟩, ?_, ?_⟩
    · simp only [List.map_append, List.map_cons, List.map_nil, if_true]
      rw [h2]
      congr 1
      refine List.map_congr_left fun x hx => ?_
      have hxc : x ≠ c := by rintro rfl; exact hcn hx
      simp only [if_neg hxc]
    · intro x hx
      rw [List.map_append] at hx
      rcases List.mem_append.1 hx with hxp | hx
      · have hxc : x ≠ c := by rintro rfl; exact hcn hxp
        simp only [if_neg hxc]
        exact h2' x hxp
      · rw [List.map_cons, List.map_nil, List.mem_singleton] at hx
        subst hx
        simp only [if_true]
        exact ⟨by simpa using hne, d, hd, rfl⟩
    · intro x
      simp only [AMap.get?_insert, List.map_append, List.mem_append, List.map_cons, List.map_nil,
        List.mem_singleton]
      by_cases hx : c = x
      · simp [hx]
      · rw [if_neg hx, h4]
        simp [Ne.symm hx]
    · intro x r' hx
      simp only [AMap.get?_insert] at hx
      split at hx
      · rename_i e
        subst e
        cases hx
        obtain ⟨cached, info, interactive, rfl, rfl⟩ := uploaded_some hr
        exact ⟨cached, info, interactive, by simp, rfl⟩
      · obtain ⟨a1, a2, a3, h6, h7⟩ := h5 x r' hx
        exact ⟨a1, a2, a3, List.mem_append_left _ h6, h7⟩

theorem uploadSetup {env : PhabEnv} {d : Dag} (hg : WFGraph d.graph) {seen : Oid → Prop}
    (hs : ∀ o, seen o ↔ o ∈ d.graph.nodes ∧ ∃ x ∈ d.visibleHeads, Anc d.graph o x)
    {outputs : List (Oid × TestStatus)} (hX : ∀ x ∈ outputs.map Prod.fst, x ∈ d.graph.nodes)
    (hag : Agrees d.graph env.exec) (hn : NoCollisions env.exec) (ha : ArcAmends env.exec outputs)
    {perms : RebasePlanPermissions} (hp : perms.detectDuplicateCommitsViaPatchId = false)
    {b : RebasePlanBuilder}
    (h : outputs.foldlM (requestUploaded env) ⟨env.planEnv d, perms, [], []⟩ = .ok b) :
    ∃ k, ReplaceSetup env.exec d.graph seen (outputs.map Prod.fst) (UploadedAs outputs) b k := by
  obtain ⟨⟨h1, h1'⟩, ⟨f, h2, h2'⟩, h4, h5⟩ := requestedUploads h
  simp only at h1 h1'
  have hf : ∀ c ∈ outputs.map Prod.fst, f c = d.graph.parentsOf c := by
    intro c hc
    obtain ⟨_, d1, h6, h7⟩ := h2' c hc
    obtain ⟨d2, h8, h9⟩ := hag c (hX c hc)
    rw [h6] at h8
    cases h8
    rw [← h7, h9]
  have hcs : b.initialConstraints =
      (outputs.map Prod.fst).map fun c => .moveSubtree (d.graph.parentsOf c) c := by
    rw [h2]
    exact List.map_congr_left fun c hc => by rw [hf c hc]
  have hpar : ∀ c ∈ outputs.map Prod.fst, d.graph.parentsOf c ≠ [] := by
    intro c hc
    rw [← hf c hc]
    exact (h2' c hc).1
  have hdag : b.env.dag = d := by rw [h1]; rfl
  obtain ⟨k, hk, hkf, hmv⟩ := constraintGraph_inPlace (b := b) (by rw [hdag]; exact hg)
    (by rw [hdag]; exact hcs) (by rw [hdag]; exact hpar)
  rw [hdag] at hmv
  refine ⟨k, by rw [hdag], hg, hag, hn, hk, hkf, ?_, h4, ?_, by rw [h1]; rfl, hpar, hX, by rw [h1']; exact hp⟩
  · intro p c
    rw [hmv]
    refine and_congr_left fun hpc => ?_
    unfold Affected
    refine or_congr_right (and_congr_left fun _ => ?_)
    rw [hs]
    constructor
    · intro h; exact ⟨hpc.child_mem, h⟩
    · exact fun h => h.2
  · intro c r hr
    exact ⟨h5 c r hr, ha c r (h5 c r hr)⟩

end Verif.Spec
