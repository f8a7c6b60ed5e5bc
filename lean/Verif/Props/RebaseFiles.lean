import Verif.Lemmas.RebaseFiles
import Verif.Props.Move

/-! C90: the files of commits which are moved. -/

namespace Verif.Props

open Verif Verif.Spec Verif.RebasePlanBuilder Verif.Constraints

/-- C90: a cherry-pick onto a commit with the same tree as the original parent gives the tree of the original, because it is
computed from the trees. This is what C65, C73 and C84 suppose about cherry-picks. -/
theorem clean_picks_from_trees (content : Option File → File → File → Option File) (treeOf : Nat → Tree) (ee : ExecEnv)
    (h : FromTrees content treeOf ee) : CleanPicks ee := h.clean

/-- C90: requests to move subtrees. If the files can be merged path by path (see `FilesMerge`), then there is no conflict,
and each commit ends as a commit which has exactly the merged files. A commit is dropped only if it then has the same files
as the commit below. -/
theorem moved_files_merged (b : RebasePlanBuilder) (hg : WFGraph b.env.dag.graph) (rs : List (Oid × Oid))
    (hb : b.initialConstraints = rs.map fun r => .moveSubtree [r.2] r.1) (hrep : b.replacementCommits = [])
    (plan : RebasePlan) (h : b.build = .ok (.ok (some plan))) (ee : ExecEnv) (hn : NoCollisions ee)
    (ha : Agrees b.env.dag.graph ee) (hdest : ∀ r ∈ rs, r.2 ∈ b.env.dag.graph.nodes)
    (hone : ∀ p c, ShouldMove b.env.dag rs p c → ∃ o, b.env.dag.graph.parentsOf c = [o])
    (hnew : ∀ p c, ShouldMove b.env.dag rs p c → b.permissions.detectDuplicateCommitsViaPatchId = true →
      ¬ AppliedUpstream b.env.dag.graph b.env.patchId (ShouldMove b.env.dag rs) c)
    (content : Option File → File → File → Option File) (hcm : KeepsModes content) (treeOf : Nat → Tree)
    (ht : FromTrees content treeOf ee) (hplain : ∀ c d, ee.commits c = some d → Plain (treeOf d.tree))
    (files : Oid → TreePath → Option File) (hfiles : FilesMerge content treeOf ee (ShouldMove b.env.dag rs) files)
    (head : Option Oid) :
    (∀ info, ee.rebaseInMemory head plan ≠ .error (.mergeFailed info)) ∧
    ∀ s newHead, ee.rebaseInMemory head plan = .ok (s, newHead) →
      ∀ p c, ShouldMove b.env.dag rs p c → ∃ q x, Lands (ShouldMove b.env.dag rs) s.rewritten c q ∧
        ee.find s.created q = some x ∧ (∀ path, fileAt (treeOf x.tree) path = files c path) ∧
        (AMap.get? s.rewritten c = some .zero → files c = files p) := by
  obtain ⟨k, hk, hf, hmv⟩ := constraintGraph_subtrees hg hb
  have hm : ∀ r ∈ rs, ¬ IsMerge b.env r.1 := by
    intro r hr hmerge
    obtain ⟨p, hp⟩ := LastRequest.exists (List.mem_map_of_mem (f := Prod.fst) hr)
    obtain ⟨o, ho⟩ := hone p r.1 (.inl hp)
    have : 1 < (b.env.dag.graph.parentsOf r.1).length := hmerge
    rw [ho] at this
    simp at this
  have hnode : ∀ p c, ShouldMove b.env.dag rs p c → p ∈ b.env.dag.graph.nodes := by
    rintro p c (⟨pre, post, h1, -⟩ | ⟨-, -, -, h1⟩)
    · exact hdest (c, p) (by rw [h1]; simp)
    · exact h1.parent_mem hg
  obtain ⟨h1, h2⟩ := moved_files hg hk hf hmv (regular_subtrees hg hm hf hmv) hrep h hn ha
    (fun p c hp => ⟨hnode p c hp, hone p c hp⟩) hnew hcm ht hplain hfiles head
  refine ⟨h1, ?_⟩
  intro s newHead hx p c hp
  obtain ⟨hr, h3⟩ := h2 s newHead hx
  obtain ⟨q, hq, hz⟩ := lands_moved hr hp
  obtain ⟨x, hx1, hx2⟩ := h3 c q hq (.inl ⟨p, hp⟩)
  refine ⟨q, x, hq, hx1, hx2, ?_⟩
  intro hzero
  obtain ⟨y, hy1, hy2⟩ := h3 p q (hz hzero) (.inr ⟨c, hp⟩)
  rw [hx1] at hy1
  cases hy1
  funext path
  rw [← hx2, ← hy2]

/-- Disjoint changes can be merged path by path. -/
theorem filesMerge_disjoint {content : Option File → File → File → Option File} {treeOf : Nat → Tree} {ee : ExecEnv}
    {graph : CommitGraph Oid} (hg : WFGraph graph) (ha : Agrees graph ee) {seen : Oid → Prop} {root dest base : Oid}
    (hsp : ∀ p c, IsParent graph p c → seen c → seen p) (hbase : graph.parentsOf root = [base])
    (hone : ∀ p c, SubtreeMoves graph seen root dest p c → ∃ o, graph.parentsOf c = [o])
    (hd : DisjointChanges treeOf ee graph (SubtreeMoves graph seen root dest) base dest) :
    FilesMerge content treeOf ee (SubtreeMoves graph seen root dest) (carriedFile treeOf ee base dest) := by
  have hfile : ∀ c d, ee.commits c = some d → ∀ path, commitFile treeOf ee c path = fileAt (treeOf d.tree) path := by
    intro c d h path
    unfold commitFile
    rw [h]; rfl
  have hdestf : ∀ path, carriedFile treeOf ee base dest dest path = commitFile treeOf ee dest path := by
    intro path
    unfold carriedFile
    split <;> rfl
  -- the parent of a moved commit
  have hpar : ∀ p c o, SubtreeMoves graph seen root dest p c → graph.parentsOf c = [o] →
      (c = root ∧ p = dest ∧ o = base) ∨ p = o := by
    intro p c o hp ho
    rcases hp with ⟨rfl, rfl⟩ | ⟨-, -, -, hp⟩
    · rw [hbase] at ho
      cases ho
      exact .inl ⟨rfl, rfl, rfl⟩
    · have := (mem_parentsOf hg).2 hp
      rw [ho, List.mem_singleton] at this
      exact .inr this
  have hchg : ∀ c o, graph.parentsOf c = [o] → ∀ path,
      Changes treeOf ee graph c path ↔ commitFile treeOf ee o path ≠ commitFile treeOf ee c path := by
    intro c o ho path
    unfold Changes
    constructor
    · rintro ⟨o', h1, h2⟩
      have := (mem_parentsOf hg).2 h1
      rw [ho, List.mem_singleton] at this
      exact this ▸ h2
    · intro h
      exact ⟨o, (mem_parentsOf hg).1 (by rw [ho]; simp), h⟩
  have hparents : ∀ c d o, ee.commits c = some d → d.parents = [o] →
      (∃ p, SubtreeMoves graph seen root dest p c) → graph.parentsOf c = [o] := by
    rintro c d o hc hdo ⟨p, hp⟩
    obtain ⟨o', ho'⟩ := hone p c hp
    have hmem : c ∈ graph.nodes := ((mem_parentsOf hg).1 (show o' ∈ graph.parentsOf c by rw [ho']; simp)).child_mem
    obtain ⟨d', h1, h2⟩ := ha c hmem
    rw [hc] at h1
    cases h1
    rw [← h2, hdo]
  constructor
  · intro p c d hp hs hpd path
    by_cases hpdest : p = dest
    · subst hpdest
      rw [hdestf, hfile _ _ hpd]
    · rcases hp with ⟨-, h1⟩ | ⟨h0, ⟨s, q, ⟨rfl, rfl⟩, hanc⟩, hseen, hpc⟩
      · exact absurd h1 hpdest
      · exfalso
        obtain ⟨o, ho⟩ := hone p c (.inr ⟨h0, ⟨_, _, ⟨rfl, rfl⟩, hanc⟩, hseen, hpc⟩)
        have hcr : s ≠ c := fun e => h0 ⟨q, e.symm, rfl⟩
        obtain ⟨p', hp', hanc'⟩ := (anc_iff.1 hanc).resolve_left hcr
        have hpp : p' = p := by
          have h1 := (mem_parentsOf hg).2 hp'
          have h2 := (mem_parentsOf hg).2 hpc
          rw [ho, List.mem_singleton] at h1 h2
          rw [h1, h2]
        subst hpp
        by_cases hps : p' = s
        · exact hs ⟨q, .inl ⟨hps, rfl⟩⟩
        · obtain ⟨p2, hp2, -⟩ := (anc_iff.1 hanc').resolve_left (Ne.symm hps)
          exact hs ⟨p2, .inr ⟨fun ⟨_, h1, _⟩ => hps h1, ⟨s, q, ⟨rfl, rfl⟩, hanc'⟩, hsp _ _ hpc hseen, hp2⟩⟩
  · intro p c d o bd hp hcd hdo hob path
    have hpo := hparents c d o hcd hdo ⟨p, hp⟩
    rw [← hfile _ _ hcd, ← hfile _ _ hob]
    by_cases hb : commitFile treeOf ee base path = commitFile treeOf ee dest path
    · have : carriedFile treeOf ee base dest c path = commitFile treeOf ee c path := by
        unfold carriedFile; rw [if_pos hb]
      rw [this]
      have : carriedFile treeOf ee base dest p path = commitFile treeOf ee o path := by
        unfold carriedFile
        rw [if_pos hb]
        rcases hpar p c o hp hpo with ⟨-, rfl, rfl⟩ | rfl
        · exact hb.symm
        · rfl
      rw [this]
      exact .theirs _ _
    · have hsame : commitFile treeOf ee o path = commitFile treeOf ee c path := by
        by_contra hne
        exact hb (hd.disjoint p c path hp ((hchg c o hpo path).2 hne))
      rw [hsame]
      unfold carriedFile
      rw [if_neg hb, if_neg hb]
      exact .ours _ _
  · intro p c d o bd hp hcd hdo hob
    have hpo := hparents c d o hcd hdo ⟨p, hp⟩
    have hC : (fun path => fileAt (treeOf bd.tree) path ≠ fileAt (treeOf d.tree) path) = Changes treeOf ee graph c := by
      funext path
      rw [← hfile _ _ hcd, ← hfile _ _ hob]
      exact propext (hchg c o hpo path).symm
    rw [hC]
    have h1 := hd.apart p c dest hp (.inl rfl)
    have h2 := hd.apart p c o hp (.inr ((mem_parentsOf hg).1 (by rw [hpo]; simp)))
    have hor : ∀ path, carriedFile treeOf ee base dest p path = commitFile treeOf ee dest path ∨
        carriedFile treeOf ee base dest p path = commitFile treeOf ee o path := by
      intro path
      rcases hpar p c o hp hpo with ⟨-, rfl, rfl⟩ | rfl
      · exact .inl (hdestf path)
      · unfold carriedFile
        split
        · exact .inr rfl
        · exact .inl rfl
    refine ⟨h1.paths, ?_, ?_⟩
    · intro a b' ha' hb'
      rcases hor b' with h | h <;> rw [h]
      · exact h1.above a b' ha' hb'
      · exact h2.above a b' ha' hb'
    · intro a b' ha' hb'
      rcases hor b' with h | h <;> rw [h]
      · exact h1.below a b' ha' hb'
      · exact h2.below a b' ha' hb'

theorem sourceRequest_one {graph : CommitGraph Oid} (hg : WFGraph graph) (root dest : Oid) :
    SourceRequest graph (· ∈ [root]) dest = fun p c => c = root ∧ p = dest := by
  funext p c
  unfold SourceRequest Topmost
  simp only [List.mem_singleton, eq_iff_iff]
  constructor
  · rintro ⟨⟨h1, -⟩, h2⟩
    exact ⟨h1, h2⟩
  · rintro ⟨rfl, rfl⟩
    refine ⟨⟨rfl, ?_⟩, rfl⟩
    rintro q hq rfl
    exact not_isParent_self hg hq

/-- C90: the command `move --source root --dest dest`, if the commits which are moved change other files than were changed
between the parent of `root` and `dest`. Unless it is refused (C61) or the repository does not work, it succeeds: it never
stops because of a conflict, and nothing is left to be done on disk. Each commit ends as a commit whose files are as at
`dest` where these are not as at the parent of `root`, and otherwise as they were. A commit is dropped only if it then has
the same files as the commit below.

Merge commits are not covered, nor are commits whose change is found among those of the destination (C61). -/
theorem disjoint_move_command (graph : CommitGraph Oid) (hg : WFGraph graph) (main : Text)
    (w : RepoWorld) (hw : AMap.WF w.git.refs) (es : List Event) (he : w.db.getEvents = some es)
    (env : MoveCmdEnv) (hc : SetContract env) (ho : env.options.forceOnDisk = false) (hn : NoCollisions env.exec)
    (ha : Agrees graph env.exec) (tx : Option Text) (args : MoveArgs) (root dest base : Oid) (hs : args.sources = [root])
    (hb : args.bases = []) (hex : args.exacts = []) (hprov : args.provided = true) (hfix : args.fixup = false)
    (hins : args.insert = false) (hdest : IsDest args dest) (hdn : dest ∈ graph.nodes)
    (hbase : graph.parentsOf root = [base])
    (content : Option File → File → File → Option File) (hcm : KeepsModes content) (treeOf : Nat → Tree)
    (ht : FromTrees content treeOf env.exec)
    (hplain : ∀ c d, env.exec.commits c = some d → Plain (treeOf d.tree)) :
    let moves := SubtreeMoves graph (Seen graph main w.git es) root dest
    let w0 := { w with db := (w.db.makeTransactionId tx t!"move").2 }
    (∀ p c, moves p c → ∃ o, graph.parentsOf c = [o]) →
    (∀ p c, moves p c → env.detectDuplicateCommitsViaPatchId = true → ¬ AppliedUpstream graph env.patchId moves c) →
    DisjointChanges treeOf env.exec graph moves base dest →
    (∀ w' info, moveCommits env main graph tx w args ≠ (w', .declined info)) ∧
    (∀ w' code, moveCommits env main graph tx w args ≠ (w', .failed code)) ∧
    ∀ w', moveCommits env main graph tx w args = (w', .done) →
      ∃ s newHead ok, Relocated env.exec moves (fun _ => False) s w.git.headInfo.oid newHead ∧
        postRebaseInMemory (env.finish s.created) w0 s.rewritten newHead = (w', .ok ok) ∧
        ∀ p c, moves p c → ∃ q x, Lands moves s.rewritten c q ∧ env.exec.find s.created q = some x ∧
          (∀ path, fileAt (treeOf x.tree) path = carriedFile treeOf env.exec base dest c path) ∧
          (AMap.get? s.rewritten c = some .zero →
            carriedFile treeOf env.exec base dest c = carriedFile treeOf env.exec base dest p) := by
  intro moves w0 hone hnew hdis
  -- the plan and its execution in memory
  have key : ∀ w' o, moveCommits env main graph tx w args = (w', o) → o ≠ .error → (∀ e, o ≠ .refused e) →
      ∃ plan, executeMove env w0 (.ok (.ok (some plan))) = (w', o) ∧
        (∀ info, env.exec.rebaseInMemory w.git.headInfo.oid plan ≠ .error (.mergeFailed info)) ∧
        ∀ s newHead, env.exec.rebaseInMemory w.git.headInfo.oid plan = .ok (s, newHead) →
          Relocated env.exec moves (fun _ => False) s w.git.headInfo.oid newHead ∧
          ∀ c q, Lands moves s.rewritten c q → ((∃ p, moves p c) ∨ ∃ x, moves c x) →
            ∃ x, env.exec.find s.created q = some x ∧
              ∀ path, fileAt (treeOf x.tree) path = carriedFile treeOf env.exec base dest c path := by
    intro w' o hx hne hnr
    unfold moveCommits at hx
    split at hx
    · cases hx; exact absurd rfl (hnr _)
    cases hd : openRepoDag graph main w with
    | none => rw [hd] at hx; cases hx; exact absurd rfl hne
    | some rd =>
      obtain ⟨r, d⟩ := rd
      rw [hd] at hx
      simp only at hx
      cases hi : moveInputs env d args with
      | error e => rw [hi] at hx; cases hx; exact absurd rfl hne
      | ok x =>
        rw [hi] at hx
        rcases x with e | ⟨sources, comps, dest'⟩
        · cases hx; exact absurd rfl (hnr _)
        simp only [hfix, hins] at hx
        obtain ⟨hgr, -⟩ := graph_opened he hd
        obtain ⟨rfl, hdest', basef, h2, h3⟩ := move_inputs_exact env hc d (hgr ▸ hg) args hex (by
          rintro x (⟨_, hx⟩ | ⟨hx, _⟩)
          · rw [hb] at hx; simp at hx
          · rw [hprov] at hx; simp at hx) sources comps dest' hi
        have hde : dest' = dest := by
          rcases hdest with ⟨l, h4, h5⟩ | ⟨h4, h5⟩ <;> rcases hdest' with ⟨l', h6, h7⟩ | ⟨h6, h7⟩
          · rw [h4] at h6
            cases h6
            exact (h5 dest').1 ((h7 dest').2 rfl)
          · rw [h4] at h6; cases h6
          · rw [h4] at h6; cases h6
          · rw [h5] at h7; cases h7; rfl
        subst hde
        have hsrc : ∀ x, x ∈ sources ↔ x = root := by
          intro x
          rw [h3, hs, List.mem_singleton]
          constructor
          · rintro (h | ⟨y, ⟨_, hy⟩ | ⟨hy, _⟩, _⟩)
            · exact h
            · rw [hb] at hy; simp at hy
            · rw [hprov] at hy; simp at hy
          · exact .inl
        have hSe : (fun x => x ∈ sources) = (· ∈ [root]) := by
          funext x; simp [hsrc]
        have hroot : root ∈ graph.nodes :=
          ((mem_parentsOf hg).1 (show base ∈ graph.parentsOf root by rw [hbase]; simp)).child_mem
        obtain ⟨hp1, hp2, hp3⟩ := move_sources_plan graph hg main w hw es he r d hd env hc sources
          (fun x hx => (hsrc x).1 hx ▸ hroot) dest'
        by_cases hon : env.forceRewritePublicCommits = false ∧
            ∃ s ∈ sources, ∃ c, Anc graph s c ∧ OnMain graph main w.git c
        · obtain ⟨l, hl⟩ := hp1 hon
          rw [hl] at hx
          cases hx
          exact absurd rfl (hnr _)
        by_cases hcy : (∃ s ∈ sources, Anc graph s dest') ∧
            (Seen graph main w.git es dest' ∨ Topmost graph (· ∈ sources) dest')
        · obtain ⟨l, hl⟩ := hp2 hon hcy
          rw [hl] at hx
          cases hx
          exact absurd rfl (hnr _)
        obtain ⟨plan, hpl, hnone⟩ := hp3 hon hcy
        cases plan with
        | none =>
          have := hnone.1 rfl
          rw [this] at hsrc
          simpa using (hsrc root).2 rfl
        | some plan =>
          rw [hpl] at hx
          refine ⟨plan, hx, ?_⟩
          have hseen : ∀ o, Seen graph main w.git es o ↔ o ∈ d.graph.nodes ∧
              ∃ x ∈ d.visibleHeads, Anc d.graph o x := by rw [hgr]; exact seen_opened hg hw he hd
          subst hgr
          have hsp : ∀ p c, IsParent d.graph p c → Seen d.graph main w.git es c → Seen d.graph main w.git es p := by
            intro p c hp hv
            rw [hseen] at hv ⊢
            obtain ⟨_, x, hx, hcx⟩ := hv
            exact ⟨hp.parent_mem hg, x, hx, (Anc.of_parent hp).trans hcx⟩
          rw [movePlan_sources hc] at hpl
          cases hv' : verifyRewriteSet d env.forceRewritePublicCommits env.detectDuplicateCommitsViaPatchId sources with
          | error e => rw [hv'] at hpl; simp at hpl
          | ok perms =>
            rw [hv'] at hpl
            simp only at hpl
            have hdet : perms.detectDuplicateCommitsViaPatchId = env.detectDuplicateCommitsViaPatchId := by
              unfold verifyRewriteSet at hv'
              simp only at hv'
              split at hv'
              · simp at hv'
              · cases hv'; rfl
            generalize hbd : RebasePlanBuilder.mk (env.planEnv d) perms
              (((env.nav.toVec (d.graph.roots sources)).map fun r => (r, dest')).map fun r => .moveSubtree [r.2] r.1) [] = b
              at hpl
            have hbld : b.build = .ok (.ok (some plan)) := by
              cases hbb : b.build with
              | error e => rw [hbb] at hpl; simp at hpl
              | ok x =>
                rw [hbb] at hpl
                cases x with
                | error e => simp at hpl
                | ok x => simp only [Except.ok.injEq] at hpl; rw [hpl]
            obtain ⟨k, hk, hf, hmv⟩ := constraintGraph_subtrees (b := b) (by rw [← hbd]; exact hg)
              (rs := (env.nav.toVec (d.graph.roots sources)).map fun r => (r, dest')) (by rw [← hbd]; rfl)
            have hreg := regular_subtrees (by rw [← hbd]; exact hg) (by
              rintro ⟨c, q⟩ hcq
              rw [sourceRequest_mem hc hg] at hcq
              rw [← hbd, (hsrc c).1 hcq.1.1]
              have : (d.graph.parentsOf root).length ≤ 1 := by rw [hbase]; simp
              exact Nat.not_lt.2 this) hf hmv
            have henv : b.env.dag = d := by rw [← hbd]; rfl
            rw [henv, shouldMove_carried hseen (sourceRequest_mem hc hg)
              (fun p q c => sourceRequest_unique), hSe, sourceRequest_one hg] at hmv
            have hfm := filesMerge_disjoint (content := content) hg ha hsp hbase hone hdis
            refine moved_files (b := b) (M := moves) (by rw [henv]; exact hg) hk hf hmv hreg (by rw [← hbd]) hbld hn
              (by rw [henv]; exact ha) ?_ ?_ hcm ht hplain hfm _
            · intro p c hp
              rw [henv]
              refine ⟨?_, hone p c hp⟩
              rcases hp with ⟨-, rfl⟩ | ⟨-, -, -, hp⟩
              · exact hdn
              · exact hp.parent_mem hg
            · intro p c hp hdt
              have := hnew p c hp (hdet ▸ by rw [← hbd] at hdt; exact hdt)
              rw [henv, ← hbd]
              exact this
  have hexec : ∀ plan w' o, executeMove env w0 (.ok (.ok (some plan))) = (w', o) →
      (∀ info, env.exec.rebaseInMemory w.git.headInfo.oid plan ≠ .error (.mergeFailed info)) →
      o = .error ∨ (o = .done ∧ ∃ s newHead ok, env.exec.rebaseInMemory w.git.headInfo.oid plan = .ok (s, newHead) ∧
        postRebaseInMemory (env.finish s.created) w0 s.rewritten newHead = (w', .ok ok)) := by
    intro plan w' o hx hnm
    have hhead : w0.git.headInfo.oid = w.git.headInfo.oid := rfl
    unfold executeMove executeRebasePlan at hx
    simp only [ho, Bool.false_eq_true, if_false, hhead] at hx
    cases hr : env.exec.rebaseInMemory w.git.headInfo.oid plan with
    | error e =>
      rw [hr] at hx
      cases e with
      | mergeFailed info => exact absurd hr (hnm info)
      | panic => cases hx; exact .inl rfl
      | error => cases hx; exact .inl rfl
    | ok x =>
      obtain ⟨s, newHead⟩ := x
      rw [hr] at hx
      simp only at hx
      rcases hp : postRebaseInMemory (env.finish s.created) w0 s.rewritten newHead with ⟨w2, e | ok⟩
      · rw [hp] at hx; cases hx; exact .inl rfl
      · rw [hp] at hx; cases hx; exact .inr ⟨rfl, s, newHead, ok, rfl, hp⟩
  refine ⟨?_, ?_, ?_⟩
  · intro w' info hx
    obtain ⟨plan, h1, h2, -⟩ := key w' _ hx (by simp) (by simp)
    rcases hexec plan w' _ h1 h2 with h | ⟨h, -⟩ <;> cases h
  · intro w' code hx
    obtain ⟨plan, h1, h2, -⟩ := key w' _ hx (by simp) (by simp)
    rcases hexec plan w' _ h1 h2 with h | ⟨h, -⟩ <;> cases h
  · intro w' hx
    obtain ⟨plan, h1, h2, h3⟩ := key w' _ hx (by simp) (by simp)
    rcases hexec plan w' _ h1 h2 with h | ⟨-, s, newHead, ok, h4, h5⟩
    · cases h
    obtain ⟨hr, h6⟩ := h3 s newHead h4
    refine ⟨s, newHead, ok, hr, h5, ?_⟩
    intro p c hp
    obtain ⟨q, hq, hz⟩ := lands_moved hr hp
    obtain ⟨x, hx1, hx2⟩ := h6 c q hq (.inl ⟨p, hp⟩)
    refine ⟨q, x, hq, hx1, hx2, ?_⟩
    intro hzero
    obtain ⟨y, hy1, hy2⟩ := h6 p q (hz hzero) (.inr ⟨c, hp⟩)
    rw [hx1] at hy1
    cases hy1
    funext path
    rw [← hx2, ← hy2]

end Verif.Props
