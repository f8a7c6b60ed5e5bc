import Verif.Spec.Sync
import Verif.Props.Move
import Verif.Lemmas.InPlaceRun

/-! Lemmas about moving one stack, for `sync`. -/

namespace Verif.Spec

open Verif Verif.RebasePlanBuilder Verif.Constraints Verif.Props

/-- A merge commit which is to be moved, though its parents are not, is merged by the plan. -/
theorem merge_in_plan {b : RebasePlanBuilder} {k : Constraints} (hk : b.constraintGraph = .ok k)
    (hf : k.fixups = []) {root dest : Oid} (hmv : Moves k dest root) (hd : ¬ ∃ p, Moves k p dest)
    (hm : IsMerge b.env root) (hps : ∀ p ∈ b.env.parentOids root, ¬ ∃ q, Moves k q p)
    (hrep : b.replacementCommits = []) {plan : RebasePlan} (h : b.build = .ok (.ok (some plan))) :
    ∃ ps, .merge root ps ∈ plan.commands := by
  obtain ⟨k', st, h1, h2, h3, h4, h5, h6⟩ := build_ok h
  rw [hk] at h1
  cases h1
  have hw := kwf_constraintGraph hk
  have hroot : .moveSubtree [dest] root ∈ k.findRoots := by
    refine findRoots_move ((mem_unconstrainedNodes hw).2 ⟨hmv.mem_parents, ?_⟩) hmv
    rintro (h | ⟨fs, h⟩)
    · exact hd h
    · rw [hf] at h; simp at h
  have hno : ∀ c ∈ st.2.acc, ∀ x r ps, c ≠ .replace x r ps := by
    refine plan_commands hw (Q := fun c => ∀ x r ps, c ≠ .replace x r ps) ?_ (by simp) (by simp) (by simp) h4
    intro up cur s cs _ _ hcs c hc x r ps hcr
    subst hcr
    rcases commandsFor_cases hcs with ⟨rfl, _⟩ | ⟨rfl, _⟩ | ⟨_, rfl⟩ | ⟨r', hr, _⟩ |
      ⟨r', first, rest, hr, _⟩ | ⟨first, rest, rfl⟩
    · simp at hc
    · simp at hc
    · simp at hc
    · rw [hrep] at hr; simp at hr
    · rw [hrep] at hr; simp at hr
    · simp at hc
  have hfin := foldlM_except_inv (P := fun pre (s : Option Oid × BuildState) => LInv s.2 ∧
    (.moveSubtree [dest] root ∈ pre → (∃ ps, .merge root ps ∈ s.2.acc) ∨
      ∃ r ps, .replace root r ps ∈ s.2.acc)) ⟨linv_nil, by simp⟩ ?_ h4
  · rw [h6]
    rcases hfin.2 hroot with ⟨ps, h⟩ | ⟨r, ps, h⟩
    · exact ⟨ps, List.mem_append_left _ h⟩
    · exact absurd rfl (hno _ h _ _ _)
  · rintro pre r post st st' hsplit ⟨hl, hi⟩ hr
    obtain ⟨p, ps, c, up, e1, e0, e2, -⟩ := buildRoot_ok hr
    have hl' : LInv (push st.2 [.reset (.oid p)]) :=
      hl.push (by simp [labelCreated]) (by simp [labelsUsed, labelOf])
    obtain ⟨l1, l2⟩ := linv_visit _ _ _ _ e2 hl'
    have hpre : st.2.acc <+: st'.2.acc := (List.prefix_append _ _).trans l2
    refine ⟨l1, fun hin => ?_⟩
    rcases List.mem_append.1 hin with hin | hin
    · exact (hi hin).imp (fun ⟨ps, h⟩ => ⟨ps, hpre.subset h⟩) fun ⟨r, ps, h⟩ => ⟨r, ps, hpre.subset h⟩
    · simp only [List.mem_singleton] at hin
      subst hin
      simp only [rootEdge, Except.ok.injEq, Prod.mk.injEq] at e1
      obtain ⟨_, rfl⟩ := e1
      rw [makeRebasePlanForCurrentCommit] at e2
      have hcm : ∃ ms, commitsToMerge b.env k (push st.2 [.reset (.oid p)]).parentLabels root = some ms ∧
          ms ≠ [] := by
        unfold commitsToMerge
        unfold IsMerge at hm
        have : ∀ l : List Oid, (∀ p ∈ l, ¬ ∃ q, Moves k q p) → l.mapM (fun p =>
            if k.commitsToMove.contains p then (AMap.get? (push st.2 [.reset (.oid p)]).parentLabels p).map
              OidOrLabel.label else some (.oid p)) = some (l.map .oid) := by
          intro l hl
          induction l with
          | nil => rfl
          | cons a l ih =>
            have ha : k.commitsToMove.contains a = false := by
              rw [Bool.eq_false_iff]
              intro hc
              exact hl a (by simp) ((mem_commitsToMove hw.1.1).1 (by simpa using hc))
            rw [List.mapM_cons, ih (fun p hp => hl p (List.mem_cons_of_mem _ hp)), ha]
            rfl
        refine ⟨_, this _ hps, ?_⟩
        intro hnil
        rw [List.map_eq_nil_iff] at hnil
        rw [hnil] at hm
        simp at hm
      obtain ⟨ms, hcm, hne⟩ := hcm
      cases hcs : commandsFor b k up root (push st.2 [.reset (.oid p)]) with
      | none =>
        rw [hcs] at e2
        simp only [Option.some.injEq] at e2
        unfold commandsFor at hcs
        rw [not_patchApplied_of_merge hm] at hcs
        simp only [Bool.false_eq_true, if_false] at hcs
        rw [if_pos (show (b.env.parentOids root).length > 1 from hm), hcm] at hcs
        simp only at hcs
        split at hcs
        · rename_i hap
          unfold commitAlreadyApplied at hap
          rw [List.any_eq_true] at hap
          obtain ⟨x, hx, hx'⟩ := hap
          rw [← e2]
          split at hx'
          · simp only [decide_eq_true_eq] at hx'; subst hx'; exact .inl ⟨_, hx⟩
          · simp only [decide_eq_true_eq] at hx'; subst hx'; exact .inr ⟨_, _, hx⟩
          · simp at hx'
        · cases ms with
          | nil => exact absurd rfl hne
          | cons a ms => rw [hrep] at hcs; simp at hcs
      | some cs =>
        rw [hcs] at e2
        simp only at e2
        have hmem : ∃ ps, .merge root ps ∈ cs := by
          rcases commandsFor_cases hcs with ⟨_, hnm⟩ | ⟨_, hfx⟩ | ⟨hfx, rfl⟩ | ⟨r', hr, _⟩ |
            ⟨r', first, rest, hr, _⟩ | ⟨first, rest, rfl⟩
          · exact absurd hm hnm
          · exfalso
            unfold Constraints.fixupCommits at hfx
            rw [hf] at hfx
            simp at hfx
          · exfalso
            unfold commandsFor at hcs
            rw [not_patchApplied_of_merge hm] at hcs
            simp only [Bool.false_eq_true, if_false] at hcs
            rw [if_pos (show (b.env.parentOids root).length > 1 from hm), hcm] at hcs
            simp only at hcs
            split at hcs
            · simp at hcs
            · cases ms with
              | nil => exact absurd rfl hne
              | cons a ms => rw [hrep] at hcs; simp at hcs
          · rw [hrep] at hr; simp at hr
          · rw [hrep] at hr; simp at hr
          · exact ⟨rest, by simp⟩
        obtain ⟨ps', hmem⟩ := hmem
        split at e2
        · simp at e2
        · rename_i s1 hs1
          obtain ⟨q1, q2⟩ := commandsFor_labels hcs
          have hp : LInv (push (push st.2 [.reset (.oid p)]) cs) := hl'.push q1 fun c hc l hl => by
            obtain ⟨p, hp⟩ := q2 c hc l hl
            exact hl'.parents p l hp
          obtain ⟨q3, q4⟩ := hp.createParentLabel hs1
          obtain ⟨_, q6⟩ := q3.visitChildren (fun c s s' => linv_visit _ c s s') e2
          exact .inl ⟨ps', q6.subset (q4.subset (List.mem_append_right _ hmem))⟩

/-! ### why a rebase is declined -/

theorem foldlM_except_error {σ α ε : Type} {f : σ → α → Except ε σ} {l : List α} {s : σ} {e : ε}
    (h : l.foldlM f s = .error e) :
    ∃ pre a post s', l = pre ++ a :: post ∧ pre.foldlM f s = .ok s' ∧ f s' a = .error e := by
  induction l generalizing s with
  | nil => cases h
  | cons a l ih =>
    rw [List.foldlM_cons] at h
    cases ha : f s a with
    | error e' =>
      rw [ha] at h
      cases h
      exact ⟨[], a, l, s, rfl, rfl, ha⟩
    | ok s1 =>
      rw [ha] at h
      obtain ⟨pre, b, post, s', h1, h2, h3⟩ := ih h
      refine ⟨a :: pre, b, post, s', by rw [h1]; rfl, ?_, h3⟩
      rw [List.foldlM_cons, ha]
      exact h2

/-- If a rebase which only moves commits is declined, there is a reason. -/
theorem declined_reason {b : RebasePlanBuilder} {k : Constraints} (hk : b.constraintGraph = .ok k)
    (hf : k.fixups = []) (hrep : b.replacementCommits = []) {plan : RebasePlan}
    (h : b.build = .ok (.ok (some plan))) {ee : ExecEnv} (hn : NoCollisions ee)
    (ha : ∀ p c, Moves k p c → ∃ d, ee.commits c = some d ∧ d.parents = b.env.dag.graph.parentsOf c)
    {head : Option Oid} {info : FailedMergeInfo} (hx : ee.rebaseInMemory head plan = .error (.mergeFailed info)) :
    ∃ p c, Moves k p c ∧ Stuck b.env.dag.graph ee c := by
  have hpk := (picks_apply b k hk plan h).1
  have hmg := (plan_kinds b k hk plan h).2.1
  have hrp := (picks_apply b k hk plan h).2.1
  obtain ⟨k', st, h1, h2, h3, h4, h5, h6⟩ := build_ok h
  rw [hk] at h1
  cases h1
  have hw := kwf_constraintGraph hk
  have hmoved : ∀ c, Rewritten k c → ∃ p, Moves k p c := by
    rintro c (h | ⟨fs, h⟩)
    · exact h
    · rw [hf] at h; simp at h
  have hrw : ∀ cmd ∈ plan.commands, (∀ c l, cmd = .pick c l → ∃ p, Moves k p c) ∧
      ∀ c ps, cmd = .merge c ps → ∃ p, Moves k p c := by
    have hQ := plan_commands hw (Q := fun cmd => (∀ c l, cmd = .pick c l → ∃ p, Moves k p c) ∧
      ∀ c ps, cmd = .merge c ps → ∃ p, Moves k p c) ?_ (by simp) (by simp) (by simp) h4
    · intro cmd hc
      rw [h6] at hc
      rcases List.mem_append.1 hc with hc | hc
      · exact hQ _ hc
      · simp only [List.mem_singleton] at hc
        subst hc
        simp
    · intro up cur s cs _ hcur hcs cmd hcmd
      have := hmoved cur hcur
      rcases commandsFor_cases hcs with ⟨rfl, _⟩ | ⟨rfl, _⟩ | ⟨_, rfl⟩ | ⟨r, _, _, _, rfl⟩ |
        ⟨r, first, rest, _, _, _, rfl⟩ | ⟨first, rest, rfl⟩
      · simp only [List.mem_singleton] at hcmd; subst hcmd; simp
      · simp at hcmd
      · simp only [List.mem_cons, List.not_mem_nil, or_false] at hcmd
        rcases hcmd with rfl | rfl
        · exact ⟨by rintro c l ⟨⟩; exact this, by simp⟩
        · simp
      · simp only [List.mem_singleton] at hcmd; subst hcmd; simp
      · simp only [List.mem_cons, List.not_mem_nil, or_false] at hcmd
        rcases hcmd with rfl | rfl <;> simp
      · simp only [List.mem_cons, List.not_mem_nil, or_false] at hcmd
        rcases hcmd with rfl | rfl
        · simp
        · exact ⟨by simp, by rintro c l ⟨⟩; exact this⟩
  unfold ExecEnv.rebaseInMemory at hx
  have hmerge : ∀ c ps, .merge c ps ∈ plan.commands → ∃ p c, Moves k p c ∧ Stuck b.env.dag.graph ee c := by
    intro c ps hc
    obtain ⟨p, hp⟩ := (hrw _ hc).2 c ps rfl
    exact ⟨p, c, hp, .inl (hmg c ps hc).2⟩
  cases hm : ExecEnv.findMerge plan.commands with
  | some c =>
    unfold ExecEnv.findMerge at hm
    obtain ⟨cmd, hcmd, hc⟩ := List.exists_of_findSome?_eq_some hm
    split at hc
    · exact hmerge _ _ hcmd
    · simp at hc
  | none =>
    rw [hm] at hx
    simp only at hx
    cases hfold : plan.commands.foldlM (ee.runCommand head) (ExecEnv.initialState plan) with
    | ok s => rw [hfold] at hx; simp at hx
    | error e =>
      rw [hfold] at hx
      simp only [Except.error.injEq] at hx
      subst hx
      obtain ⟨pre, cmd, post, s, e1, e2, e3⟩ := foldlM_except_error hfold
      have hcmd : cmd ∈ plan.commands := by rw [e1]; simp
      obtain ⟨new, hnew, hcr⟩ := (runs_frame e2).2.2.1
      have hcr : ∀ x ∈ s.created, ee.createCommit x.2 = some x.1 := by
        rw [hnew]
        simpa [ExecEnv.initialState] using hcr
      cases cmd with
      | pick c l =>
        obtain ⟨p, hp⟩ := (hrw _ hcmd).1 c l rfl
        refine ⟨p, c, hp, ?_⟩
        obtain ⟨rfl, hnm⟩ := hpk c l hcmd
        have happ : commitsToApply b.env k c = [c] := by
          unfold commitsToApply; rw [hf]; rfl
        rw [happ] at e3
        obtain ⟨d, hd1, hd2⟩ := ha p c hp
        have hfind := find_original hn hcr hd1
        unfold ExecEnv.runCommand ExecEnv.runPick at e3
        simp only at e3
        split at e3
        · split at e3
          · simp at e3
          · rw [List.foldlM_cons] at e3
            unfold ExecEnv.pickOne at e3
            simp only [hfind] at e3
            rw [if_neg (by rw [hd2]; exact hnm)] at e3
            cases hpick : ee.cherryPickFast c s.current with
            | error er =>
              cases er with
              | conflict paths => exact .inr ⟨_, _, hpick⟩
              | other => rw [hpick] at e3; simp [bind, Except.bind] at e3
            | ok tree =>
              exfalso
              rw [hpick] at e3
              simp only at e3
              split at e3
              · rename_i hb
                simp only [List.foldlM_nil] at hb
                cases hcc : ee.createCommit _ with
                | none => rw [hcc] at hb; cases hb; simp at e3
                | some o => rw [hcc] at hb; cases hb
              · simp at e3
              · split at e3 <;> simp at e3
        · simp at e3
      | merge c ps => exact hmerge _ _ hcmd
      | replace c r ps =>
        have := hrp c r ps hcmd
        rw [hrep] at this
        simp at this
      | reset t =>
        cases t with
        | label l => simp only [ExecEnv.runCommand] at e3; split at e3 <;> simp at e3
        | oid o => simp only [ExecEnv.runCommand] at e3; split at e3 <;> simp at e3
      | skipUpstreamAppliedCommit c => simp only [ExecEnv.runCommand] at e3; split at e3 <;> simp at e3
      | createLabel l => simp [ExecEnv.runCommand] at e3
      | «break» => simp [ExecEnv.runCommand] at e3
      | registerExtraPostRewriteHook => simp [ExecEnv.runCommand] at e3
      | detectEmptyCommit c => simp [ExecEnv.runCommand] at e3

/-! ### one stack -/

theorem subtree_request {g : CommitGraph Oid} (hg : WFGraph g) (root dest : Oid) :
    SourceRequest g (· ∈ [root]) dest = fun p c => c = root ∧ p = dest := by
  funext p c
  apply propext
  unfold SourceRequest Topmost
  simp only [List.mem_singleton]
  constructor
  · rintro ⟨⟨h, _⟩, h'⟩; exact ⟨h, h'⟩
  · rintro ⟨rfl, h'⟩
    exact ⟨⟨rfl, fun q hq h => not_isParent_self hg (h ▸ hq)⟩, h'⟩

/-- What the planner is asked for one stack. -/
theorem subtree_moves {b : RebasePlanBuilder} (hg : WFGraph b.env.dag.graph) {seen : Oid → Prop}
    (hs : ∀ o, seen o ↔ o ∈ b.env.dag.graph.nodes ∧ ∃ x ∈ b.env.dag.visibleHeads, Anc b.env.dag.graph o x)
    {root dest : Oid} (hb : b.initialConstraints = [.moveSubtree [dest] root]) :
    ∃ k, b.constraintGraph = .ok k ∧ k.fixups = [] ∧
      (∀ p c, Moves k p c ↔ ShouldMove b.env.dag [(root, dest)] p c) ∧
      ∀ p c, Moves k p c ↔ SubtreeMoves b.env.dag.graph seen root dest p c := by
  obtain ⟨k, hk, hf, hmv⟩ := constraintGraph_subtrees (b := b) hg (rs := [(root, dest)]) hb
  refine ⟨k, hk, hf, hmv, ?_⟩
  rw [shouldMove_carried hs (req := fun p c => c = root ∧ p = dest) (by simp)
    (by rintro p q c ⟨_, rfl⟩ ⟨_, rfl⟩; rfl)] at hmv
  exact hmv

theorem subtreeMoves_iff {g : CommitGraph Oid} (hg : WFGraph g) {seen : Oid → Prop} {root dest c : Oid} :
    (∃ p, SubtreeMoves g seen root dest p c) ↔ Anc g root c ∧ (seen c ∨ c = root) := by
  unfold SubtreeMoves
  rw [← subtree_request hg, dest_moved_iff hg]
  unfold Topmost
  simp only [List.mem_singleton, exists_eq_left]
  refine and_congr_right fun _ => or_congr_right ⟨And.left, ?_⟩
  rintro rfl
  exact ⟨rfl, fun q hq h => not_isParent_self hg (h ▸ hq)⟩

/-- There is a plan unless the destination is in the stack. -/
theorem subtree_plan {b : RebasePlanBuilder} (hg : WFGraph b.env.dag.graph) {seen : Oid → Prop}
    (hs : ∀ o, seen o ↔ o ∈ b.env.dag.graph.nodes ∧ ∃ x ∈ b.env.dag.visibleHeads, Anc b.env.dag.graph o x)
    {root dest : Oid} (hb : b.initialConstraints = [.moveSubtree [dest] root])
    (hroot : root ∈ b.env.dag.graph.nodes) (hd : ¬ Anc b.env.dag.graph root dest)
    (hp : ∀ c ∈ b.env.dag.graph.nodes, Anc b.env.dag.graph root c → c ∈ b.permissions.allowedCommits) :
    ∃ plan, b.build = .ok (.ok (some plan)) := by
  obtain ⟨k, hk, hf, -, hmv⟩ := subtree_moves hg hs hb
  have hsp : ∀ p c, IsParent b.env.dag.graph p c → seen c → seen p := by
    intro p c hp hv
    rw [hs] at hv ⊢
    obtain ⟨_, x, hx, hcx⟩ := hv
    exact ⟨hp.parent_mem hg, x, hx, (Anc.of_parent hp).trans hcx⟩
  have hM : Moves k = SubtreeMoves b.env.dag.graph seen root dest := by
    funext p c; exact propext (hmv p c)
  obtain ⟨plan, h1, h2⟩ := build_moves hk hf (by
    intro c hcc
    rw [hM] at hcc
    unfold SubtreeMoves at hcc
    rw [← subtree_request hg] at hcc
    have := (source_cycle_iff hg hsp).1 ⟨c, hcc⟩
    rw [subtree_request hg] at this
    exact hd ((subtreeMoves_iff hg).1 this).1) (by
    intro p c hpc
    have := (subtreeMoves_iff hg).1 ⟨p, (hmv p c).1 hpc⟩
    exact hp c (this.1.mem_up hroot) this.1)
  cases plan with
  | some plan => exact ⟨plan, h1⟩
  | none =>
    refine absurd ⟨dest, root, ?_⟩ (h2.1 rfl)
    rw [hmv]
    exact .inl ⟨rfl, rfl⟩

/-- What a rebase in memory does with one stack. Its first commit was not a merge commit. -/
theorem subtree_relocated {b : RebasePlanBuilder} (hg : WFGraph b.env.dag.graph) {seen : Oid → Prop}
    (hs : ∀ o, seen o ↔ o ∈ b.env.dag.graph.nodes ∧ ∃ x ∈ b.env.dag.visibleHeads, Anc b.env.dag.graph o x)
    {root dest : Oid} (hb : b.initialConstraints = [.moveSubtree [dest] root])
    (hd : ¬ Anc b.env.dag.graph root dest) (hrep : b.replacementCommits = []) {plan : RebasePlan}
    (h : b.build = .ok (.ok (some plan))) {ee : ExecEnv} (hn : NoCollisions ee) {head : Option Oid}
    {s : ExecState} {newHead : Option Oid} (hx : ee.rebaseInMemory head plan = .ok (s, newHead)) :
    (b.env.dag.graph.parentsOf root).length ≤ 1 ∧
    Relocated ee (SubtreeMoves b.env.dag.graph seen root dest)
      (fun c => b.permissions.detectDuplicateCommitsViaPatchId = true ∧
        AppliedUpstream b.env.dag.graph b.env.patchId (SubtreeMoves b.env.dag.graph seen root dest) c)
      s head newHead := by
  obtain ⟨k, hk, hf, hsm, hmv⟩ := subtree_moves hg hs hb
  have hlen : (b.env.dag.graph.parentsOf root).length ≤ 1 := by
    by_contra hlen
    obtain ⟨ps, hps⟩ := merge_in_plan hk hf (root := root) (dest := dest) ((hmv _ _).2 (.inl ⟨rfl, rfl⟩))
      (by
        rintro ⟨p, hp⟩
        exact hd ((subtreeMoves_iff hg).1 ⟨p, (hmv _ _).1 hp⟩).1) (Nat.lt_of_not_le hlen)
      (by
        rintro p hp ⟨q, hq⟩
        have hpar : IsParent b.env.dag.graph p root := (mem_parentsOf hg).1 hp
        have := ((subtreeMoves_iff hg).1 ⟨q, (hmv _ _).1 hq⟩).1.antisymm hg (.of_parent hpar)
        subst this
        exact not_isParent_self hg hpar) hrep h
    exact runs_no_merge (rebaseInMemory_ok hx).1 _ _ hps
  refine ⟨hlen, relocated hg hk hf hmv (regular_subtrees hg ?_ hf hsm) hrep h hn hx⟩
  simp only [List.mem_singleton, forall_eq]
  exact Nat.not_lt.2 hlen

/-! ### the stacks -/

theorem onMain_below {graph : CommitGraph Oid} {main : Text} {git : GitState} {a b : Oid} (h : Anc graph a b)
    (hb : OnMain graph main git b) : OnMain graph main git a := by
  obtain ⟨m, h1, h2⟩ := hb
  exact ⟨m, h1, h.trans h2⟩

theorem mem_draftCommits {graph : CommitGraph Oid} (hg : WFGraph graph) {main : Text} {w : RepoWorld}
    (hw : AMap.WF w.git.refs) {es : List Event} (he : w.db.getEvents = some es) {r : Replayer} {d : Dag}
    (h : openRepoDag graph main w = some (r, d)) (c : Oid) :
    c ∈ d.draftCommits ↔ Draft graph main w.git es c := by
  obtain ⟨hgr, -⟩ := graph_opened he h
  have hs := seen_opened hg hw he h c
  have hp := public_opened hw he h c
  subst hgr
  unfold Draft
  rw [hs, ← hp]
  unfold Dag.draftCommits Public
  rw [mem_only hg]
  simp only [not_exists, not_and, and_assoc]

theorem mem_stackRoots {graph : CommitGraph Oid} (hg : WFGraph graph) {main : Text} {w : RepoWorld}
    (hw : AMap.WF w.git.refs) {es : List Event} (he : w.db.getEvents = some es) {r : Replayer} {d : Dag}
    (h : openRepoDag graph main w = some (r, d)) (sets : List (List Oid)) (c : Oid) :
    c ∈ stackRoots d sets ↔ StackRoot graph main w.git es sets c := by
  obtain ⟨hgr, -⟩ := graph_opened he h
  have hs := seen_opened hg hw he h
  have hdr := mem_draftCommits hg hw he h
  subst hgr
  have hroot : ∀ c, c ∈ d.graph.roots d.draftCommits ↔ Draft d.graph main w.git es c ∧
      ∀ p, IsParent d.graph p c → OnMain d.graph main w.git p := by
    intro c
    rw [mem_roots hg]
    unfold Topmost
    simp only [hdr]
    refine and_congr_right fun hd => forall₂_congr fun p hp => ?_
    have : Seen d.graph main w.git es p := by
      have := hd.1
      rw [hs] at this ⊢
      obtain ⟨_, x, hx, hcx⟩ := this
      exact ⟨hp.parent_mem hg, x, hx, (Anc.of_parent hp).trans hcx⟩
    unfold Draft
    tauto
  unfold stackRoots StackRoot
  simp only
  cases sets with
  | nil => simp [hroot]
  | cons s0 sets =>
    simp only [List.isEmpty_cons, Bool.false_eq_true, if_false, reduceCtorEq, false_or]
    generalize hS : s0 :: sets = S
    have hmem : ∀ x, x ∈ S.flatten ↔ ∃ s ∈ S, x ∈ s := by simp
    rw [mem_roots hg]
    unfold Topmost
    simp only [mem_range hg, hroot, hmem]
    constructor
    · rintro ⟨⟨hc, ⟨q, ⟨hq1, hq2⟩, hqc⟩, x, ⟨s, hs1, hx⟩, hcx⟩, hno⟩
      have : q = c := by
        rcases anc_iff.1 hqc with h | ⟨p, hp, hqp⟩
        · exact h
        · exact absurd ⟨hp.parent_mem hg, ⟨q, ⟨hq1, hq2⟩, hqp⟩, x, ⟨s, hs1, hx⟩,
            (Anc.of_parent hp).trans hcx⟩ (hno p hp)
      subst this
      exact ⟨hq1, hq2, s, hs1, x, hx, hcx⟩
    · rintro ⟨h1, h2, s, hs1, x, hx, hcx⟩
      refine ⟨⟨h1.1.1, ⟨c, ⟨h1, h2⟩, .refl⟩, x, ⟨s, hs1, hx⟩, hcx⟩, ?_⟩
      rintro p hp ⟨_, ⟨q, ⟨hq1, _⟩, hqp⟩, _⟩
      exact hq1.2 (onMain_below hqp (h2 p hp))

end Verif.Spec
