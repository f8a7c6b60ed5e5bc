import Verif.Lemmas.PlanRequests
import Verif.Props.Dag

/-! C16 (cycles), C17 (permissions), C18 (every commit once), C19 (labels), C52 (duplicates). -/

namespace Verif.Props

open Verif Spec Constraints RebasePlanBuilder

/-! ## Small repositories for the examples -/

/-- A commit with a small number. -/
def oidN (n : Fin 16) : Oid :=
  ⟨n.val + 1, Nat.succ_pos _, Nat.lt_of_lt_of_le (Nat.succ_lt_succ n.isLt) (by decide)⟩

/-- A repository where commits are only read for their parents: no two commits have the same patch
id, and sets of commits are put in topological order. All commits are on branches. -/
def exEnv (entries : List (Oid × List Oid)) (main : Oid) : PlanEnv where
  dag := ⟨⟨entries⟩, [main], [main], entries.map Prod.fst, [], []⟩
  patchId := fun c => c.val
  touchedPaths := fun c => c.val
  sortedCommitSet := fun s => CommitGraph.sort ⟨entries⟩ s
  replacementParentOids := CommitGraph.parentsOf ⟨entries⟩

/-- A builder for such a repository, in which everything but the first commit may be moved. -/
def exBuilder (entries : List (Oid × List Oid)) (cs : List Constraint) : RebasePlanBuilder where
  env := exEnv entries (oidN 0)
  permissions := ⟨false, (entries.map Prod.fst).filter fun c => c ≠ oidN 0⟩
  initialConstraints := cs
  replacementCommits := []

/-! ## C16 -/

/-- C16: the check always ends, on every constraint graph. -/
theorem cycle_check_terminates (k : Constraints) : (k.checkForCycles).isSome := by
  refine tryEach_isSome fun c _ => helper_isSome k _ _ _ (pathTo_nil k c) (by simp)

/-- C16: the check accepts exactly the constraint graphs without a cycle. -/
theorem cycle_check_iff (k : Constraints) :
    k.checkForCycles = some (.ok ()) ↔ ∀ c, ¬ Relation.TransGen (Moves k) c c := by
  constructor
  · intro h c hc
    unfold checkForCycles at h
    rw [tryEach_ok] at h
    have := h c (by rw [mem_sortOids]; exact transGen_left_mem hc)
    obtain ⟨f, path, h1, h2⟩ := helper_ok_reach this hc
    exact (helper_ok_step h2).1 h1
  · intro h
    cases hk : k.checkForCycles with
    | none => have := cycle_check_terminates k; simp [hk] at this
    | some r =>
      cases r with
      | ok u => rfl
      | error e =>
        obtain ⟨c, _, hc⟩ := tryEach_error hk
        obtain ⟨path, d, _, h2, h3, _⟩ := helper_error _ _ _ (pathTo_nil k c) hc
        exact absurd (h3.cyclic h2) (h d)

/-- C16: what is reported is a walk along the requested edges, and its last commit occurs on it
before, so its end is a cycle; up to there no commit repeats. -/
theorem cycle_reported_real (k : Constraints) (e : BuildRebasePlanError)
    (h : k.checkForCycles = some (.error e)) :
    ∃ path c, e = .constraintCycle (path ++ [c]) ∧ c ∈ path ∧ path.Nodup ∧
      List.IsChain (Moves k) (path ++ [c]) := by
  obtain ⟨c, _, hc⟩ := tryEach_error h
  obtain ⟨path, d, h1, h2, h3, _⟩ := helper_error _ _ _ (pathTo_nil k c) hc
  exact ⟨path, d, h1, h2, h3.1, h3.2⟩

/-- What the documentation of the error says (plan.rs:624): "The first and the last OIDs are the
same". -/
def FirstIsLast (l : List Oid) : Prop := l.head? = l.getLast?

/-- C16: the first and the last commit of the report are the same if no commit is put on top of two
others. This is false in general, see `cycle_report_has_lead`; missing is the case of merges. -/
theorem cycle_first_is_last_partial (k : Constraints) (cycle : List Oid)
    (hone : ∀ c p q, Moves k p c → Moves k q c → p = q)
    (h : k.checkForCycles = some (.error (.constraintCycle cycle))) : FirstIsLast cycle := by
  obtain ⟨path, c, h1, h2, h3, h4⟩ := cycle_reported_real k _ h
  cases h1
  unfold FirstIsLast
  rw [List.getLast?_append]
  obtain ⟨l1, l2, rfl⟩ := List.append_of_mem h2
  rcases List.eq_nil_or_concat l1 with rfl | ⟨l1, p, rfl⟩
  · simp
  · exfalso
    -- `p` is before the first occurrence of `c`, and another commit `q` before the last
    have hp : Moves k p c := by
      simp only [List.concat_eq_append, List.append_assoc, List.cons_append, List.nil_append] at h4
      have := h4.right_of_append
      rw [List.isChain_cons_cons] at this
      exact this.1
    rcases List.eq_nil_or_concat (c :: l2) with h0 | ⟨l3, q, hq⟩
    · simp at h0
    have hq' : Moves k q c := by
      rw [hq] at h4
      simp only [List.concat_eq_append, List.append_assoc, List.cons_append, List.nil_append] at h4
      have := h4.right_of_append
      have := (show List.IsChain (Moves k) ([p] ++ (l3 ++ ([q] ++ [c]))) by simpa using this).right_of_append
      have := this.right_of_append
      simpa using this
    have := hone c p q hp hq'
    subst this
    rw [hq] at h3
    simp only [List.concat_eq_append, List.append_assoc] at h3
    rw [List.nodup_append] at h3
    have := (List.nodup_append.1 h3.2.1).2.2 p (by simp) p (by simp)
    exact this rfl

/-- C16: with a merge commit, the report may start with a commit which is not on the cycle. Here `3`
is to be moved onto its descendant `5`, over the merge commit `4` of `2` and `3`; the report starts
with the innocent `2`. -/
theorem cycle_report_has_lead :
    ∃ cycle, (exBuilder [(oidN 5, [oidN 4]), (oidN 4, [oidN 3, oidN 2]), (oidN 3, [oidN 0]),
        (oidN 2, [oidN 0]), (oidN 0, [])] [.moveSubtree [oidN 5] (oidN 3)]).build =
      .ok (.error (.constraintCycle cycle)) ∧ ¬ FirstIsLast cycle ∧
      cycle = [oidN 2, oidN 4, oidN 5, oidN 3, oidN 4] := by
  refine ⟨_, ?_, ?_, rfl⟩
  · decide +kernel
  · unfold FirstIsLast; decide

/-- C16: building a plan never goes on for ever. -/
theorem build_terminates (b : RebasePlanBuilder) (hg : WFGraph b.env.dag.graph) :
    b.build ≠ .error .fuel := by
  intro h
  unfold build at h
  split at h
  · rename_i e he
    simp only [Except.error.injEq] at h
    exact constraintGraph_no_fuel hg (h ▸ he)
  · rename_i k _
    split at h
    · rename_i hn
      have := cycle_check_terminates k
      rw [hn] at this
      simp at this
    · simp at h
    · rename_i hc
      split at h
      · simp at h
      · split at h
        · rename_i e he
          simp only [Except.error.injEq] at h
          subst h
          unfold buildCommands at he
          split at he
          · rename_i e' he'
            simp only [Except.error.injEq] at he
            exact buildRoots_no_fuel ((cycle_check_iff k).1 hc) _ (he ▸ he')
          · simp at he
        · simp at h

/-- C16: a plan is refused for a cycle exactly when the constraint graph has one. -/
theorem build_cycle_iff (b : RebasePlanBuilder) (k : Constraints) (hk : b.constraintGraph = .ok k) :
    (∃ cycle, b.build = .ok (.error (.constraintCycle cycle))) ↔
      ∃ c, Relation.TransGen (Moves k) c c := by
  have hb : b.build = match k.checkForCycles with
    | none => .error .fuel
    | some (.error e) => .ok (.error e)
    | some (.ok ()) =>
      match k.checkPermissions b.permissions with
      | .error e => .ok (.error e)
      | .ok () =>
        match buildCommands b k with
        | .error e => .error e
        | .ok plan => .ok (.ok plan) := by
    unfold build
    rw [hk]
    rfl
  rw [hb]
  cases hc : k.checkForCycles with
  | none => have := cycle_check_terminates k; simp [hc] at this
  | some r =>
    cases r with
    | error e =>
      obtain ⟨path, c, rfl, h1, h2, h3⟩ := cycle_reported_real k e hc
      refine ⟨fun _ => ?_, fun _ => ⟨_, rfl⟩⟩
      by_contra hn
      rw [not_exists] at hn
      rw [(cycle_check_iff k).2 hn] at hc
      simp at hc
    | ok u =>
      have := (cycle_check_iff k).1 hc
      constructor
      · rintro ⟨cycle, h⟩
        exfalso
        simp only at h
        split at h
        · rename_i e he
          simp only [Except.ok.injEq, Except.error.injEq] at h
          subst h
          unfold checkPermissions at he
          simp only at he
          split at he <;> simp at he
        · split at h <;> simp at h
      · rintro ⟨c, h⟩
        exact absurd h (this c)

/-- C16: requests to move subtrees are refused for a cycle exactly when following the requests (each
visible descendant of a requested commit goes along on top of its own parents) puts a commit on top
of itself. -/
theorem subtree_cycle_iff (b : RebasePlanBuilder) (hg : WFGraph b.env.dag.graph)
    (rs : List (Oid × Oid)) (hb : b.initialConstraints = rs.map fun r => .moveSubtree [r.2] r.1) :
    (∃ cycle, b.build = .ok (.error (.constraintCycle cycle))) ↔
      ∃ c, Relation.TransGen (ShouldMove b.env.dag rs) c c := by
  obtain ⟨k, hk, _, hm⟩ := constraintGraph_subtrees hg hb
  rw [build_cycle_iff b k hk]
  have : Moves k = ShouldMove b.env.dag rs := by
    funext p c
    exact propext (hm p c)
  rw [this]

/-- A cycle without merges, and its report. -/
example : (exBuilder [(oidN 2, [oidN 1]), (oidN 1, [oidN 0]), (oidN 0, [])]
      [.moveSubtree [oidN 2] (oidN 1)]).build =
    .ok (.error (.constraintCycle [oidN 1, oidN 2, oidN 1])) := by decide +kernel

/-! ## C17 -/

/-- C17: a set of commits may be rewritten without force exactly when none of the commits and of
their descendants is public. -/
theorem verify_rewrite_set_iff (dag : Dag) (hg : WFGraph dag.graph) (force detect : Bool)
    (cs : List Oid) :
    (∃ p, verifyRewriteSet dag force detect cs = .ok p) ↔
      (force = true ∨ ∀ s ∈ cs, ∀ c ∈ dag.graph.nodes, Anc dag.graph s c → ¬ Public dag c) := by
  unfold verifyRewriteSet
  simp only [Bool.and_eq_true, Bool.not_eq_true', List.isEmpty_eq_false_iff]
  have hpub : (∃ c, c ∈ CommitGraph.inter dag.publicCommits (dag.graph.descendants cs)) ↔
      ∃ s ∈ cs, ∃ c ∈ dag.graph.nodes, Anc dag.graph s c ∧ Public dag c := by
    simp only [mem_inter, Dag.publicCommits, mem_ancestors hg, mem_descendants hg, Public]
    constructor
    · rintro ⟨c, ⟨h1, h2⟩, _, s, h3, h4⟩
      exact ⟨s, h3, c, h1, h4, h2⟩
    · rintro ⟨s, h3, c, h1, h4, h2⟩
      exact ⟨c, ⟨h1, h2⟩, h1, s, h3, h4⟩
  have hne : (CommitGraph.inter dag.publicCommits (dag.graph.descendants cs) ≠ []) ↔
      ∃ c, c ∈ CommitGraph.inter dag.publicCommits (dag.graph.descendants cs) := by
    rw [Ne, List.eq_nil_iff_forall_not_mem]; push Not; rfl
  rw [hpub] at hne
  cases force with
  | true => simp
  | false =>
    simp only [true_and, Bool.false_eq_true, false_or]
    constructor
    · rintro ⟨p, h⟩ s hs c hc h1 h2
      rw [if_pos (hne.2 ⟨s, hs, c, hc, h1, h2⟩)] at h
      simp at h
    · intro h
      rw [if_neg fun hn => by
        obtain ⟨s, hs, c, hc, h1, h2⟩ := hne.1 hn
        exact h s hs c hc h1 h2]
      exact ⟨_, rfl⟩

/-- C17: the permission covers the commits and their descendants, nothing else. -/
theorem verify_rewrite_set_allows (dag : Dag) (hg : WFGraph dag.graph) (force detect : Bool)
    (cs : List Oid) (p : RebasePlanPermissions)
    (h : verifyRewriteSet dag force detect cs = .ok p) (c : Oid) :
    c ∈ p.allowedCommits ↔ c ∈ dag.graph.nodes ∧ ∃ s ∈ cs, Anc dag.graph s c := by
  unfold verifyRewriteSet at h
  simp only at h
  split at h
  · simp at h
  · simp only [Except.ok.injEq] at h
    rw [← h]
    exact mem_descendants hg

/-- The commits of the second example of C17: `0` is the main branch. -/
example : ∃ p, verifyRewriteSet (exEnv [(oidN 2, [oidN 1]), (oidN 1, [oidN 0]), (oidN 0, [])]
    (oidN 0)).dag false false [oidN 1] = .ok p ∧ p.allowedCommits = [oidN 2, oidN 1] :=
  ⟨_, rfl, by decide⟩

example : verifyRewriteSet (exEnv [(oidN 2, [oidN 1]), (oidN 1, [oidN 0]), (oidN 0, [])]
    (oidN 0)).dag false false [oidN 0] = .error (.movePublicCommits [oidN 0]) := by
  decide

theorem commitsToMove_allowed {k : Constraints} {p : RebasePlanPermissions}
    (h : k.checkPermissions p = .ok ()) {c : Oid} (hc : c ∈ k.commitsToMove) :
    c ∈ p.allowedCommits := by
  unfold checkPermissions at h
  simp only at h
  split at h
  · simp at h
  · rename_i hn
    by_contra hcn
    apply hn
    simp only [Bool.not_eq_true', List.isEmpty_eq_false_iff]
    exact List.ne_nil_of_mem (mem_diff.2 ⟨hc, hcn⟩)

/-- C17: if a commit which is not allowed would have to move, there is no plan. -/
theorem illegal_move_no_plan (b : RebasePlanBuilder) (k : Constraints)
    (hk : b.constraintGraph = .ok k) (p c : Oid) (hc : Moves k p c)
    (hn : c ∉ b.permissions.allowedCommits) (plan : Option RebasePlan) :
    b.build ≠ .ok (.ok plan) := by
  intro h
  unfold build at h
  rw [hk] at h
  simp only at h
  split at h
  · simp at h
  · simp at h
  · split at h
    · simp at h
    · rename_i hp
      exact hn (commitsToMove_allowed hp ((mem_commitsToMove (kwf_constraintGraph hk).1.1).2 ⟨p, hc⟩))

/-- The commits which a plan handles are rewritten ones. -/
theorem handled_rewritten (b : RebasePlanBuilder) (k : Constraints) (hk : b.constraintGraph = .ok k)
    (plan : RebasePlan) (h : b.build = .ok (.ok (some plan))) :
    ∀ c ∈ handledCommits plan.commands, Rewritten k c := by
  obtain ⟨k', st, h1, _, _, h4, _, h6⟩ := build_ok h
  rw [hk] at h1
  cases h1
  have := plan_commands (kwf_constraintGraph hk) (Q := fun cmd => ∀ c, handled cmd = some c → Rewritten k c)
    ?_ (by simp [handled]) (by simp [handled]) (by simp [handled]) h4
  · intro c hc
    obtain ⟨cmd, hcmd, hh⟩ := List.mem_filterMap.1 hc
    rw [h6] at hcmd
    rcases List.mem_append.1 hcmd with hcmd | hcmd
    · exact this cmd hcmd c hh
    · simp only [List.mem_singleton] at hcmd
      subst hcmd
      simp [handled] at hh
  · intro up cur s cs _ hcur hcs cmd hcmd c hh
    have : c ∈ handledCommits cs := List.mem_filterMap.2 ⟨cmd, hcmd, hh⟩
    rcases (commandsFor_some hcs).1 with h | ⟨h, _⟩
    · rw [h, List.mem_singleton] at this
      exact this ▸ hcur
    · rw [h] at this; simp [handledCommits] at this

/-- C17: with permissions which were given without force, the plan handles no public commit, except
for commits into which other commits are to be squashed. Missing are the latter: the planner does
not check them, see `fixup_rewrites_public`. -/
theorem public_not_rewritten_partial (b : RebasePlanBuilder) (hg : WFGraph b.env.dag.graph)
    (detect : Bool) (cs : List Oid)
    (hp : verifyRewriteSet b.env.dag false detect cs = .ok b.permissions)
    (plan : RebasePlan) (h : b.build = .ok (.ok (some plan))) (c : Oid)
    (hc : c ∈ handledCommits plan.commands) :
    ¬ Public b.env.dag c ∨ ∃ f, .fixUpCommit c f ∈ b.initialConstraints := by
  obtain ⟨k, st, h1, _, h3, _, _, _⟩ := build_ok h
  rcases handled_rewritten b k h1 plan h c hc with ⟨p, hm⟩ | ⟨fs, hf⟩
  · left
    have ha := commitsToMove_allowed h3 ((mem_commitsToMove (kwf_constraintGraph h1).1.1).2 ⟨p, hm⟩)
    obtain ⟨h4, s, h5, h6⟩ := (verify_rewrite_set_allows _ hg _ _ _ _ hp c).1 ha
    have := (verify_rewrite_set_iff _ hg false detect cs).1 ⟨_, hp⟩
    exact (this.resolve_left (by simp)) s h5 c h4 h6
  · exact .inr (fixup_target h1 hf)

/-- C17: so moves never rewrite a public commit without force. -/
theorem moves_never_rewrite_public (b : RebasePlanBuilder) (hg : WFGraph b.env.dag.graph)
    (detect : Bool) (cs : List Oid)
    (hp : verifyRewriteSet b.env.dag false detect cs = .ok b.permissions)
    (hf : ∀ t f, .fixUpCommit t f ∉ b.initialConstraints)
    (plan : RebasePlan) (h : b.build = .ok (.ok (some plan))) (c : Oid)
    (hc : c ∈ handledCommits plan.commands) : ¬ Public b.env.dag c :=
  (public_not_rewritten_partial b hg detect cs hp plan h c hc).resolve_right
    fun ⟨f, h⟩ => hf c f h

/-- C17: a public commit is rewritten without force if another one is squashed into it. The main
branch is at `0`, the draft commits `1`, `2` and `3` are on top of it, and `1` is squashed into `0`.
The permission is the one which `git move --fixup -x 1 -d 0` asks for: for `1` and for the children of
`0` (move/src/lib.rs:277-295). -/
theorem fixup_rewrites_public :
    let env := exEnv [(oidN 3, [oidN 2]), (oidN 2, [oidN 1]), (oidN 1, [oidN 0]), (oidN 0, [oidN 4]),
      (oidN 4, [])] (oidN 0)
    ∃ p plan, verifyRewriteSet env.dag false false [oidN 1] = .ok p ∧
      (⟨env, p, [.fixUpCommit (oidN 0) (oidN 1)], []⟩ : RebasePlanBuilder).build =
        .ok (.ok (some plan)) ∧
      oidN 0 ∈ handledCommits plan.commands ∧ Public env.dag (oidN 0) := by
  refine ⟨⟨false, [oidN 3, oidN 2, oidN 1]⟩, ⟨oidN 4, [.reset (.oid (oidN 4)),
    .pick (oidN 0) [oidN 0, oidN 1], .detectEmptyCommit (oidN 0), .createLabel t!"label-3",
    .reset (.label t!"label-3"), .pick (oidN 2) [oidN 2], .detectEmptyCommit (oidN 2),
    .pick (oidN 3) [oidN 3], .detectEmptyCommit (oidN 3), .reset (.label t!"label-3"),
    .registerExtraPostRewriteHook]⟩, ?_, ?_, ?_, ?_⟩
  · decide
  · decide +kernel
  · decide
  · exact ⟨oidN 0, by decide, .refl⟩

/-! ## C18 -/

/-- What C18 demands of a list of commands, for the requested edges `moves`, the commits `all` to be
rewritten and those of them, `squashed`, which vanish in others. -/
structure EachOnce (cmds : List RebaseCommand) (moves : Oid → Oid → Prop) (all squashed : Oid → Prop) :
    Prop where
  once : (handledCommits cmds).Nodup
  complete : ∀ c, all c → ¬ squashed c → c ∈ handledCommits cmds
  only : ∀ c ∈ handledCommits cmds, all c
  parents_first : ∀ pre cmd post c, cmds = pre ++ cmd :: post → handled cmd = some c →
    ∀ p, moves p c → all p → ¬ squashed p → p ∈ handledCommits pre

/-- C18: for a regular request, every commit to be rewritten is handled exactly once, after those it
is put on top of; nothing else is handled. Missing: requests which are not regular, for which this is
false (`merge_dropped`, `merge_on_old_parent`). -/
theorem plan_each_once_partial (b : RebasePlanBuilder) (k : Constraints)
    (hk : b.constraintGraph = .ok k) (hr : Regular b.env k) (plan : RebasePlan)
    (h : b.build = .ok (.ok (some plan))) :
    EachOnce plan.commands (Moves k) (Rewritten k) (Squashed k) := by
  obtain ⟨k', st, h1, h2, h3, h4, h5, h6⟩ := build_ok h
  rw [hk] at h1
  cases h1
  have hw := kwf_constraintGraph hk
  obtain ⟨D, W, hi, hg⟩ := buildRoots_spec hw hr h4
  have hd := all_done hw hr ((cycle_check_iff k).1 h2) hi hg
  have he : handledCommits plan.commands = handledCommits st.2.acc := by
    rw [h6, handledCommits_append]
    simp [handledCommits, handled]
  refine ⟨by rw [he]; exact hi.nodup, ?_, ?_, ?_⟩
  · intro c hc hs
    rw [squashed_iff hw] at hs
    rw [he]
    exact hi.count1 c (hd c hc) hs
  · intro c hc
    rw [he] at hc
    haveI := Classical.propDecidable
    by_contra hn
    refine hi.count0 c (fun hD => hn (hi.done_rewritten hw hD)) hc
  · intro pre cmd post c hs hh p hp hpr hps
    rw [squashed_iff hw] at hps
    rw [h6] at hs
    rcases List.eq_nil_or_concat post with rfl | ⟨post', x, rfl⟩
    · have := List.append_inj_right' hs (by simp)
      simp only [List.cons.injEq, and_true] at this
      rw [← this] at hh
      simp [handled] at hh
    · rw [List.concat_eq_append, ← List.cons_append, ← List.append_assoc] at hs
      have := List.append_inj_left' hs (by simp)
      exact hi.order pre cmd post' this c hh p hp hpr hps

/-- C18, in terms of the requests: for requests to move subtrees whose roots are no merge commits
(their descendants may be), exactly the requested commits and their visible descendants are handled,
once each, parents first. -/
theorem subtree_plan_each_once (b : RebasePlanBuilder) (hg : WFGraph b.env.dag.graph)
    (rs : List (Oid × Oid)) (hb : b.initialConstraints = rs.map fun r => .moveSubtree [r.2] r.1)
    (hm : ∀ r ∈ rs, ¬ IsMerge b.env r.1) (plan : RebasePlan)
    (h : b.build = .ok (.ok (some plan))) :
    EachOnce plan.commands (ShouldMove b.env.dag rs) (fun c => ∃ p, ShouldMove b.env.dag rs p c)
      (fun _ => False) := by
  obtain ⟨k, hk, hf, hmv⟩ := constraintGraph_subtrees hg hb
  have hh := plan_each_once_partial b k hk (regular_subtrees hg hm hf hmv) plan h
  have e1 : Moves k = ShouldMove b.env.dag rs := by funext p c; exact propext (hmv p c)
  have e2 : Rewritten k = fun c => ∃ p, ShouldMove b.env.dag rs p c := by
    funext c
    unfold Rewritten
    rw [hf, e1]
    simp
  have e3 : Squashed k = fun _ => False := by
    funext c
    unfold Squashed
    rw [hf]
    simp
  rw [e1, e2, e3] at hh
  exact hh

/-- C18: in a repository without merge commits, this holds for all requests (moves of commits,
ranges and subtrees, inserts and fixups, in any combination) with one destination each. -/
theorem linear_plan_each_once (b : RebasePlanBuilder) (k : Constraints)
    (hk : b.constraintGraph = .ok k) (hm : ∀ c, ¬ IsMerge b.env c)
    (hcs : ∀ ps c, .moveSubtree ps c ∈ b.initialConstraints → ps.length ≤ 1) (plan : RebasePlan)
    (h : b.build = .ok (.ok (some plan))) :
    EachOnce plan.commands (Moves k) (Rewritten k) (Squashed k) :=
  plan_each_once_partial b k hk (regular_of_no_merges hm hcs hk) plan h

/-- The picks of a plan; replaced commits have a replacement. -/
theorem picks_apply (b : RebasePlanBuilder) (k : Constraints) (hk : b.constraintGraph = .ok k)
    (plan : RebasePlan) (h : b.build = .ok (.ok (some plan))) :
    (∀ c l, .pick c l ∈ plan.commands → l = commitsToApply b.env k c ∧ ¬ IsMerge b.env c) ∧
    (∀ c r ps, .replace c r ps ∈ plan.commands → AMap.get? b.replacementCommits c = some r) ∧
    (∀ c, .skipUpstreamAppliedCommit c ∈ plan.commands → ¬ IsMerge b.env c) := by
  obtain ⟨k', st, h1, h2, h3, h4, h5, h6⟩ := build_ok h
  rw [hk] at h1
  cases h1
  have hQ := plan_commands (kwf_constraintGraph hk)
    (Q := fun cmd => (∀ c l, cmd = .pick c l → l = commitsToApply b.env k c ∧ ¬ IsMerge b.env c) ∧
      (∀ c r ps, cmd = .replace c r ps → AMap.get? b.replacementCommits c = some r) ∧
      ∀ c, cmd = .skipUpstreamAppliedCommit c → ¬ IsMerge b.env c)
    ?_ (by simp) (by simp) (by simp) h4
  · refine ⟨fun c l hc => ?_, fun c r ps hc => ?_, fun c hc => ?_⟩
    all_goals
      rw [h6] at hc
      rcases List.mem_append.1 hc with hc | hc
    · exact (hQ _ hc).1 c l rfl
    · simp at hc
    · exact (hQ _ hc).2.1 c r ps rfl
    · simp at hc
    · exact (hQ _ hc).2.2 c rfl
    · simp at hc
  · intro up cur s cs _ _ hcs cmd hcmd
    unfold commandsFor at hcs
    split at hcs
    · rename_i hp
      cases hcs
      simp only [List.mem_singleton] at hcmd
      subst hcmd
      refine ⟨by simp, by simp, ?_⟩
      intro c hc hm
      cases hc
      rw [not_patchApplied_of_merge hm] at hp
      simp at hp
    split at hcs
    · split at hcs
      · simp at hcs
      split at hcs
      · simp at hcs
      split at hcs
      · simp at hcs
      split at hcs
      · cases hcs
        simp only [List.mem_cons, List.not_mem_nil, or_false] at hcmd
        rcases hcmd with rfl | rfl <;> simp
      · rename_i r hr
        cases hcs
        simp only [List.mem_cons, List.not_mem_nil, or_false] at hcmd
        rcases hcmd with rfl | rfl
        · simp
        · simp only [reduceCtorEq, RebaseCommand.replace.injEq, false_imp_iff, implies_true, true_and,
            and_true]
          rintro c r' ps ⟨rfl, rfl, _⟩
          exact hr
    rename_i hm
    split at hcs
    · cases hcs; simp at hcmd
    split at hcs
    · rename_i r hr
      cases hcs
      simp only [List.mem_singleton] at hcmd
      subst hcmd
      simp only [reduceCtorEq, RebaseCommand.replace.injEq, false_imp_iff, implies_true, true_and,
        and_true]
      rintro c r' ps ⟨rfl, rfl, _⟩
      exact hr
    · cases hcs
      simp only [List.mem_cons, List.not_mem_nil, or_false] at hcmd
      rcases hcmd with rfl | rfl
      · simp only [reduceCtorEq, RebaseCommand.pick.injEq, false_imp_iff, implies_true, and_true]
        rintro c l ⟨rfl, rfl⟩
        exact ⟨rfl, hm⟩
      · simp

/-- C18: a pick applies the commit together with exactly those which are to be squashed into it. -/
theorem pick_applies_squashed (b : RebasePlanBuilder) (plan : RebasePlan)
    (hs : ∀ s x, x ∈ b.env.sortedCommitSet s ↔ x ∈ s)
    (h : b.build = .ok (.ok (some plan))) (c : Oid) (l : List Oid)
    (hc : .pick c l ∈ plan.commands) (x : Oid) :
    x ∈ l ↔ x = c ∨ .fixUpCommit c x ∈ b.initialConstraints := by
  obtain ⟨k, st, h1, -⟩ := build_ok h
  rw [((picks_apply b k h1 plan h).1 c l hc).1, ← inMap_fixups h1]
  unfold commitsToApply InMap
  cases AMap.get? k.fixups c with
  | none => simp
  | some fs => simp [hs]

/-- C18: and it applies them in the order of `sorted_commit_set`: if that puts commits before their
descendants, no commit is applied after one of its descendants. -/
theorem pick_applies_in_order (b : RebasePlanBuilder) (plan : RebasePlan)
    (hs : ∀ s, (b.env.sortedCommitSet s).Pairwise fun x y => ¬ Anc b.env.dag.graph y x)
    (h : b.build = .ok (.ok (some plan))) (c : Oid) (l : List Oid)
    (hc : .pick c l ∈ plan.commands) : l.Pairwise fun x y => ¬ Anc b.env.dag.graph y x := by
  obtain ⟨k, st, h1, -⟩ := build_ok h
  rw [((picks_apply b k h1 plan h).1 c l hc).1]
  unfold commitsToApply
  cases AMap.get? k.fixups c with
  | none => simp
  | some fs => exact hs _

/-- A subtree with a merge commit in it: `1` moves on top of `5`, with the merge `4` of its
descendants `2` and `3`. -/
example : ∃ plan, (exBuilder [(oidN 5, [oidN 0]), (oidN 4, [oidN 2, oidN 3]), (oidN 3, [oidN 1]),
      (oidN 2, [oidN 1]), (oidN 1, [oidN 0]), (oidN 0, [])]
      [.moveSubtree [oidN 5] (oidN 1)]).build = .ok (.ok (some plan)) ∧
    handledCommits plan.commands = [oidN 1, oidN 2, oidN 3, oidN 4] := by
  refine ⟨⟨oidN 5, [.reset (.oid (oidN 5)), .pick (oidN 1) [oidN 1], .detectEmptyCommit (oidN 1),
    .createLabel t!"label-3", .pick (oidN 2) [oidN 2], .detectEmptyCommit (oidN 2),
    .createLabel t!"parent-6", .reset (.label t!"label-3"), .pick (oidN 3) [oidN 3],
    .detectEmptyCommit (oidN 3), .createLabel t!"parent-10", .reset (.label t!"parent-6"),
    .merge (oidN 4) [.label t!"parent-10"], .reset (.label t!"label-3"),
    .registerExtraPostRewriteHook]⟩, ?_, ?_⟩
  · decide +kernel
  · decide

/-- Two commits squashed into a third one, which has another child. -/
example : ∃ plan, (exBuilder [(oidN 4, [oidN 3]), (oidN 3, [oidN 2]), (oidN 2, [oidN 1]),
      (oidN 1, [oidN 0]), (oidN 0, [])]
      [.fixUpCommit (oidN 1) (oidN 3)]).build = .ok (.ok (some plan)) ∧
    .pick (oidN 1) [oidN 1, oidN 3] ∈ plan.commands ∧
    handledCommits plan.commands = [oidN 1, oidN 2, oidN 4] := by
  refine ⟨⟨oidN 0, [.reset (.oid (oidN 0)), .pick (oidN 1) [oidN 1, oidN 3],
    .detectEmptyCommit (oidN 1), .pick (oidN 2) [oidN 2], .detectEmptyCommit (oidN 2),
    .createLabel t!"label-5", .reset (.label t!"label-5"), .pick (oidN 4) [oidN 4],
    .detectEmptyCommit (oidN 4), .reset (.label t!"label-5"), .registerExtraPostRewriteHook]⟩, ?_, ?_, ?_⟩
  · decide +kernel
  · decide
  · decide

/-- C18 fails for merge commits which are requested to be moved themselves: `4` is a merge of `5`, a
child of `2`, and `3`; both `2` and `4` are to be moved, with their descendants, on top of `6`
(`git move -s 2 -s 4 -d 6`). The plan does not contain `4`. -/
theorem merge_dropped :
    let b := exBuilder [(oidN 6, [oidN 0]), (oidN 4, [oidN 5, oidN 3]), (oidN 3, [oidN 0]),
      (oidN 5, [oidN 2]), (oidN 2, [oidN 0]), (oidN 0, [])]
      [.moveSubtree [oidN 6] (oidN 2), .moveSubtree [oidN 6] (oidN 4)]
    ∃ k plan, b.constraintGraph = .ok k ∧ b.build = .ok (.ok (some plan)) ∧
      Moves k (oidN 6) (oidN 4) ∧ k.fixups = [] ∧ oidN 4 ∉ handledCommits plan.commands := by
  refine ⟨⟨[(oidN 2, [oidN 5]), (oidN 6, [oidN 2, oidN 4])], []⟩, ⟨oidN 6, [.reset (.oid (oidN 6)),
    .pick (oidN 2) [oidN 2], .detectEmptyCommit (oidN 2), .pick (oidN 5) [oidN 5],
    .detectEmptyCommit (oidN 5), .reset (.oid (oidN 6)), .registerExtraPostRewriteHook]⟩, ?_, ?_,
    ⟨_, rfl, ?_⟩, rfl, ?_⟩
  · decide +kernel
  · decide +kernel
  · decide
  · decide

/-- C18 fails for merge commits on top of a commit into which another one is squashed: `5` is squashed
into `2`, of which and `3` commit `4` is a merge. The merge is made before the new version of `2`, from
the old one. -/
theorem merge_on_old_parent :
    let b := exBuilder [(oidN 4, [oidN 2, oidN 3]), (oidN 3, [oidN 0]), (oidN 5, [oidN 2]),
      (oidN 2, [oidN 0]), (oidN 0, [])] [.fixUpCommit (oidN 2) (oidN 5)]
    ∃ k plan, b.constraintGraph = .ok k ∧ b.build = .ok (.ok (some plan)) ∧
      Moves k (oidN 2) (oidN 4) ∧ Rewritten k (oidN 2) ∧
      handledCommits plan.commands = [oidN 4, oidN 2] ∧
      [.reset (.oid (oidN 2)), .merge (oidN 4) [.oid (oidN 3)]] <:+: plan.commands := by
  refine ⟨⟨[(oidN 2, [oidN 4, oidN 5]), (oidN 3, [oidN 4])], [(oidN 2, [oidN 5])]⟩, ⟨oidN 3,
    [.reset (.oid (oidN 3)), .reset (.oid (oidN 2)), .merge (oidN 4) [.oid (oidN 3)],
    .reset (.oid (oidN 0)), .pick (oidN 2) [oidN 2, oidN 5], .detectEmptyCommit (oidN 2),
    .createLabel t!"parent-6", .createLabel t!"label-7", .reset (.label t!"label-7"),
    .reset (.label t!"label-7"), .registerExtraPostRewriteHook]⟩, ?_, ?_, ⟨_, rfl, ?_⟩,
    .inr ⟨_, rfl⟩, ?_, ?_⟩
  · decide +kernel
  · decide +kernel
  · decide
  · decide
  · exact ⟨[.reset (.oid (oidN 3))], _, rfl⟩

/-- C18: a commit squashed into itself is lost. Here the commits `1` and its child `2` are squashed into
`2` (`git move --fixup -s 1 -d 2`), and the plan has neither of them. -/
theorem self_fixup_lost :
    let b := exBuilder [(oidN 2, [oidN 1]), (oidN 1, [oidN 0]), (oidN 0, [])]
      [.fixUpCommit (oidN 2) (oidN 1), .fixUpCommit (oidN 2) (oidN 2)]
    ∃ plan, b.build = .ok (.ok (some plan)) ∧
      ∀ l, .pick (oidN 2) l ∉ plan.commands ∧ handledCommits plan.commands = [] := by
  refine ⟨⟨oidN 0, [.reset (.oid (oidN 0)), .registerExtraPostRewriteHook]⟩, ?_, fun l => ⟨by simp, by decide⟩⟩
  decide +kernel

/-- Squashing into a commit without parents is a panic. -/
theorem fixup_into_root_panics :
    (exBuilder [(oidN 1, [oidN 0]), (oidN 0, [])] [.fixUpCommit (oidN 0) (oidN 1)]).build =
      .error .panic := by decide +kernel

/-! ## C19 -/

/-- C19: every label which a command refers to has been registered by an earlier command. -/
theorem labels_defined (b : RebasePlanBuilder) (plan : RebasePlan)
    (h : b.build = .ok (.ok (some plan))) (pre post : List RebaseCommand) (cmd : RebaseCommand)
    (hs : plan.commands = pre ++ cmd :: post) (l : Text) (hl : l ∈ labelsUsed cmd) :
    .createLabel l ∈ pre := by
  obtain ⟨k, st, _, _, _, h4, _, h6⟩ := build_ok h
  have hi := buildRoots_linv h4
  have hb : Before LabelsBefore plan.commands := by
    rw [h6]
    refine before_append labelsBefore_mono hi.before ?_
    intro x hx l hl
    simp only [List.mem_singleton] at hx
    subst hx
    simp [labelsUsed] at hl
  have := hb pre cmd post hs l hl
  obtain ⟨c, hc, hcl⟩ := List.mem_filterMap.1 this
  cases c <;> simp [labelCreated] at hcl
  subst hcl
  exact hc

/-- C19: no label is registered twice. -/
theorem labels_distinct (b : RebasePlanBuilder) (plan : RebasePlan)
    (h : b.build = .ok (.ok (some plan))) : (labelsCreated plan.commands).Nodup := by
  obtain ⟨k, st, _, _, _, h4, _, h6⟩ := build_ok h
  have hi := (buildRoots_linv h4).nodup
  have : labelsCreated plan.commands = labelsCreated st.2.acc := by
    rw [h6]
    simp [labelsCreated, labelCreated, List.filterMap_append]
  rw [this]
  exact hi

/-- The plan of the example of C18 with its three labels. -/
example : labelsCreated [.createLabel t!"label-3", .pick (oidN 2) [oidN 2], .createLabel t!"parent-6",
      .reset (.label t!"label-3"), .createLabel t!"parent-10", .merge (oidN 4) [.label t!"parent-10"]] =
    [t!"label-3", t!"parent-6", t!"parent-10"] := by decide

/-! ## C52 -/

/-- C52: a commit is only skipped if duplicates are looked for, and a commit with the same change is on
the way to a destination. -/
theorem skipped_has_twin (b : RebasePlanBuilder) (hg : WFGraph b.env.dag.graph) (k : Constraints)
    (hk : b.constraintGraph = .ok k) (plan : RebasePlan) (h : b.build = .ok (.ok (some plan)))
    (c : Oid) (hc : .skipUpstreamAppliedCommit c ∈ plan.commands) :
    b.permissions.detectDuplicateCommitsViaPatchId = true ∧
      ∃ root dests u, RootEdge b.env k root dests ∧ Twin b.env root dests c u := by
  obtain ⟨k', st, h1, h2, h3, h4, h5, h6⟩ := build_ok h
  rw [hk] at h1
  cases h1
  have hw := kwf_constraintGraph hk
  have hQ := plan_commands hw (Q := SkipRight b k)
    (fun up cur s cs hu _ hcs => commandsFor_skipRight hu hcs) (by simp [SkipRight])
    (by simp [SkipRight]) (by simp [SkipRight]) h4
  rw [h6] at hc
  rcases List.mem_append.1 hc with hc | hc
  · obtain ⟨up, hu, hp⟩ := hQ _ hc
    obtain ⟨root, ps, hr, rfl⟩ := upstreamOf_cases hw hu
    split at hp
    · rename_i hd
      obtain ⟨u, hu, _⟩ := (patchApplied_iff hg).1 hp
      exact ⟨hd, root, _, u, hr, hu⟩
    · unfold patchAlreadyAppliedUpstream at hp
      split at hp <;> simp at hp
  · simp at hc

/-- Equal changes touch equal paths (which is how patch ids are made). -/
def SamePaths (env : PlanEnv) : Prop :=
  ∀ a b, env.patchId a = env.patchId b → env.touchedPaths a = env.touchedPaths b

/-- C52: if one subtree is moved in a repository without merges, a moved commit is skipped exactly when
a commit with the same change is on the way from the merge base to the destination; the others are
picked (or replaced). Missing: several requests, and merge commits, where one has to say which
destination belongs to which commit. -/
theorem skipped_iff_twin_partial (b : RebasePlanBuilder) (hg : WFGraph b.env.dag.graph)
    (hd : b.permissions.detectDuplicateCommitsViaPatchId = true) (src dest : Oid)
    (hb : b.initialConstraints = [.moveSubtree [dest] src]) (hm : ∀ c, ¬ IsMerge b.env c)
    (hsp : SamePaths b.env) (plan : RebasePlan) (h : b.build = .ok (.ok (some plan))) (c : Oid)
    (hc : ∃ p, ShouldMove b.env.dag [(src, dest)] p c) :
    .skipUpstreamAppliedCommit c ∈ plan.commands ↔ ∃ u, Twin b.env src (· = dest) c u := by
  obtain ⟨k, hk, hf, hmv⟩ := constraintGraph_subtrees (rs := [(src, dest)]) hg hb
  obtain ⟨k', st, h1, h2, h3, h4, h5, h6⟩ := build_ok h
  rw [hk] at h1
  cases h1
  have hw := kwf_constraintGraph hk
  have hQ := plan_commands hw (Q := SkipRight b k)
    (fun up cur s cs hu _ hcs => commandsFor_skipRight hu hcs) (by simp [SkipRight])
    (by simp [SkipRight]) (by simp [SkipRight]) h4
  have hone : ∀ p c, LastRequest [(src, dest)] c p ↔ c = src ∧ p = dest := by
    intro p c
    rw [lastRequest_cons]
    have : ¬ LastRequest [] c p := by rintro ⟨pre, post, h, _⟩; simp at h
    simp [this]
  have hpar : ∀ c p q, IsParent b.env.dag.graph p c → IsParent b.env.dag.graph q c → p = q := by
    intro c p q hp hq
    rw [← mem_parentsOf hg] at hp hq
    have hn := hm c
    unfold IsMerge PlanEnv.parentOids at hn
    generalize b.env.dag.graph.parentsOf c = l at hn hp hq
    match l, hn with
    | [], _ => simp at hp
    | [x], _ => rw [List.mem_singleton] at hp hq; rw [hp, hq]
    | _ :: _ :: _, hn => simp at hn
  have hup : ∀ up, UpstreamOf b k up → up = getUpstreamPatchIds b.env k src [dest] := by
    intro up hu
    obtain ⟨r, hr, ps, c, h1, h2⟩ := hu
    rw [if_pos hd] at h2
    rcases mem_findRoots hr with ⟨q, d, rfl, hq, hm'⟩ | ⟨t, rfl, ht⟩
    · simp only [rootEdge, Except.ok.injEq, Prod.mk.injEq] at h1
      obtain ⟨rfl, rfl⟩ := h1
      have hnr := ((mem_unconstrainedNodes hw).1 hq).2
      rw [hmv] at hm'
      rcases hm' with hm' | ⟨h7, ⟨s, hs, h8⟩, h9, h10⟩
      · obtain ⟨rfl, rfl⟩ := (hone _ _).1 hm'
        exact h2
      · exfalso
        simp only [List.map_cons, List.map_nil, List.mem_singleton] at hs h7
        rw [hs] at h8
        apply hnr
        cases h8 with
        | refl => exact absurd rfl h7
        | step h11 h12 =>
          have hqq := hpar _ _ _ h12 h10
          rw [hqq] at h11
          left
          by_cases hqs : q = src
          · exact ⟨dest, (hmv _ _).2 (.inl ((hone _ _).2 ⟨hqs, rfl⟩))⟩
          · cases h11 with
            | refl => exact absurd rfl hqs
            | @step q' _ h13 h14 =>
              refine ⟨q', (hmv _ _).2 (.inr ⟨by simpa using hqs, ⟨src, by simp, .step h13 h14⟩, ?_, h14⟩)⟩
              obtain ⟨hh, hh1, hh2⟩ := h9
              exact ⟨hh, hh1, (Anc.of_parent h10).trans hh2⟩
    · have := ((mem_unconstrainedFixup hw).1 ht).1
      rw [hf] at this
      simp at this
  have htwin : patchAlreadyAppliedUpstream b.env (getUpstreamPatchIds b.env k src [dest]) c = true ↔
      ∃ u, Twin b.env src (· = dest) c u := by
    rw [patchApplied_iff hg]
    have e : (fun x => x ∈ [dest]) = (· = dest) := by funext x; simp
    rw [e]
    constructor
    · rintro ⟨u, hu, _⟩
      exact ⟨u, hu⟩
    · rintro ⟨u, hu⟩
      refine ⟨u, hu, List.mem_map.2 ⟨c, ?_, (hsp _ _ hu.same).symm⟩⟩
      obtain ⟨p, hp⟩ := hc
      exact (mem_commitsToMove hw.1.1).2 ⟨p, (hmv p c).2 hp⟩
  rw [← htwin]
  constructor
  · intro hcm
    rw [h6] at hcm
    rcases List.mem_append.1 hcm with hcm | hcm
    · obtain ⟨up, hu, hp⟩ := hQ _ hcm
      rwa [hup up hu] at hp
    · simp at hcm
  · intro ht
    obtain ⟨p, hp⟩ := hc
    have hmem : c ∈ handledCommits plan.commands :=
      (linear_plan_each_once b k hk hm (by rw [hb]; simp) plan h).complete c
        (.inl ⟨p, (hmv p c).2 hp⟩) (by unfold Squashed; rw [hf]; simp)
    obtain ⟨cmd, hcmd, hh⟩ := List.mem_filterMap.1 hmem
    rw [h6] at hcmd
    rcases List.mem_append.1 hcmd with hcm | hcm
    · have hq := hQ _ hcm
      cases cmd with
      | skipUpstreamAppliedCommit x =>
        simp only [handled, Option.some.injEq] at hh
        subst hh
        rw [h6]
        exact List.mem_append_left _ hcm
      | pick x l =>
        simp only [handled, Option.some.injEq] at hh
        subst hh
        obtain ⟨up, hu, hp⟩ := hq
        rw [hup up hu, ht] at hp
        simp at hp
      | merge x l =>
        simp only [handled, Option.some.injEq] at hh
        subst hh
        obtain ⟨up, hu, hp⟩ := hq
        rw [hup up hu, ht] at hp
        simp at hp
      | replace x l l' =>
        simp only [handled, Option.some.injEq] at hh
        subst hh
        obtain ⟨up, hu, hp⟩ := hq
        rw [hup up hu, ht] at hp
        simp at hp
      | _ => simp [handled] at hh
    · simp only [List.mem_singleton] at hcm
      subst hcm
      simp [handled] at hh

/-- C52: the merge base itself counts, though it is below both sides: a commit which makes the same
change as the merge base again, after it was undone, is dropped. Here `1` is the merge base, `2` undoes it
and `3` makes the change of `1` again; `2` is moved on top of `0`, and `3` is skipped. No commit above the
merge base has the change of `3`. -/
theorem twin_at_merge_base :
    let env : PlanEnv := { exEnv [(oidN 3, [oidN 2]), (oidN 2, [oidN 1]), (oidN 0, [oidN 1]), (oidN 1, [])]
      (oidN 0) with
      patchId := fun c => if c = oidN 3 then (oidN 1).val else c.val
      touchedPaths := fun _ => 0 }
    ∃ plan, (⟨env, ⟨true, [oidN 2, oidN 3]⟩, [.moveSubtree [oidN 0] (oidN 2)], []⟩ :
        RebasePlanBuilder).build = .ok (.ok (some plan)) ∧
      .skipUpstreamAppliedCommit (oidN 3) ∈ plan.commands ∧ env.patchId (oidN 0) ≠ env.patchId (oidN 3) := by
  refine ⟨⟨oidN 0, [.reset (.oid (oidN 0)), .pick (oidN 2) [oidN 2], .detectEmptyCommit (oidN 2),
    .skipUpstreamAppliedCommit (oidN 3), .registerExtraPostRewriteHook]⟩, ?_, ?_, ?_⟩
  · decide +kernel
  · decide
  · decide

end Verif.Props
