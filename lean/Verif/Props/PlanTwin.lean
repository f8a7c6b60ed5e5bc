import Verif.Props.Plan

/-! C52 (duplicates) for any number of requests: which destination belongs to which commit. -/

namespace Verif.Spec

open Verif Constraints RebasePlanBuilder

/-- What the commands say about the commits they are for, when the patch ids which they were compared with
are those for a root below them. -/
def SkipRooted (b : RebasePlanBuilder) (k : Constraints) (up : List Nat) (cur : Oid) : RebaseCommand → Prop
  | .skipUpstreamAppliedCommit c => c = cur ∧ patchAlreadyAppliedUpstream b.env up c = true
  | .pick c _ | .merge c _ | .replace c _ _ => c = cur ∧ patchAlreadyAppliedUpstream b.env up c = false
  | _ => True

theorem commandsFor_skipRooted {b : RebasePlanBuilder} {k : Constraints} {up : List Nat}
    {cur : Oid} {s : BuildState} {cs : List RebaseCommand}
    (h : commandsFor b k up cur s = some cs) : ∀ c ∈ cs, SkipRooted b k up cur c := by
  unfold commandsFor at h
  split at h
  · rename_i hp
    cases h
    intro c hc
    simp only [List.mem_singleton] at hc
    subst hc
    exact ⟨rfl, hp⟩
  rename_i hp
  rw [Bool.not_eq_true] at hp
  split at h
  · split at h
    · simp at h
    split at h
    · simp at h
    split at h
    · simp at h
    split at h
    all_goals
      cases h
      simp only [List.mem_cons, List.not_mem_nil, or_false]
      rintro c (rfl | rfl)
      · trivial
      · exact ⟨rfl, hp⟩
  split at h
  · cases h; simp
  split at h
  · cases h
    simp only [List.mem_cons, List.not_mem_nil, or_false]
    rintro c rfl
    exact ⟨rfl, hp⟩
  · cases h
    simp only [List.mem_cons, List.not_mem_nil, or_false]
    rintro c (rfl | rfl)
    · exact ⟨rfl, hp⟩
    · trivial

/-- A property of the commands for the commits above `r`: they are visited from `r`. -/
theorem visit_commands_above {b : RebasePlanBuilder} {k : Constraints} {up : List Nat}
    {Q : RebaseCommand → Prop} {r : Oid}
    (hQ : ∀ cur s cs, Relation.ReflTransGen (Moves k) r cur → commandsFor b k up cur s = some cs → ∀ c ∈ cs, Q c)
    (hl : ∀ l, Q (.createLabel l)) (hreset : ∀ l, Q (.reset (.label l))) (fuel : Nat) (cur : Oid)
    (s s' : BuildState) (h : makeRebasePlanForCurrentCommit b k up fuel cur s = some s')
    (hcur : Relation.ReflTransGen (Moves k) r cur) (hs : ∀ c ∈ s.acc, Q c) : ∀ c ∈ s'.acc, Q c := by
  induction fuel generalizing cur s s' with
  | zero => simp [makeRebasePlanForCurrentCommit] at h
  | succ n ih =>
    rw [makeRebasePlanForCurrentCommit] at h
    cases hc : commandsFor b k up cur s with
    | none => rw [hc] at h; cases h; exact hs
    | some cs =>
      rw [hc] at h
      simp only at h
      have hp : ∀ c ∈ (push s cs).acc, Q c := by
        intro c hc'
        rcases List.mem_append.1 hc' with hc' | hc'
        · exact hs c hc'
        · exact hQ _ _ _ hcur hc c hc'
      cases hcp : createParentLabel b cur (sortOids (k.commitsToMoveTo cur)) (push s cs) with
      | none => rw [hcp] at h; simp at h
      | some s1 =>
        rw [hcp] at h
        simp only at h
        have h1 : ∀ c ∈ s1.acc, Q c := by
          rcases createParentLabel_some hcp with ⟨rfl, _⟩ | ⟨l, s2, h2, rfl⟩
          · exact hp
          · have := createLabel_acc (fun l _ => hl l) h2 (.inl rfl) hp
            exact this
        have hch : ∀ c ∈ sortOids (k.commitsToMoveTo cur), Relation.ReflTransGen (Moves k) r c := by
          intro c hc
          rw [mem_sortOids, mem_commitsToMoveTo] at hc
          exact hcur.tail hc
        unfold visitChildren at h
        split at h
        · cases h; exact h1
        · rename_i c hcc
          exact ih _ _ _ h (hch c (by rw [hcc]; simp)) h1
        · cases hcl : createLabel s1 t!"label-" with
          | none => rw [hcl] at h; simp at h
          | some x =>
            obtain ⟨l, s2⟩ := x
            rw [hcl] at h
            simp only at h
            refine foldlM_option_inv (P := fun _ t => ∀ c ∈ t.acc, Q c)
              (createLabel_acc (fun l _ => hl l) hcl (.inr rfl) h1) ?_ h
            intro pre a post t t' hsplit ht hst
            unfold visitThenReset at hst
            cases hva : makeRebasePlanForCurrentCommit b k up n a t with
            | none => rw [hva] at hst; simp at hst
            | some t1 =>
              rw [hva] at hst
              simp only [Option.map_some, Option.some.injEq] at hst
              subst hst
              have := ih _ _ _ hva (hch a (by rw [hsplit]; simp)) ht
              intro c hc
              rcases List.mem_append.1 hc with hc | hc
              · exact this c hc
              · simp only [List.mem_singleton] at hc; exact hc ▸ hreset _

/-- Every command of a plan is made for a commit above a root, and compared with what is upstream of this
root. -/
theorem plan_commands_rooted {b : RebasePlanBuilder} {k : Constraints} (hw : KWF k)
    {st : Option Oid × BuildState}
    (h : k.findRoots.foldlM (buildRoot b k) (none, ⟨[], [], []⟩) = .ok st) :
    ∀ c ∈ st.2.acc, handled c = none ∨ ∃ root ps cur, RootEdge b.env k root (· ∈ ps) ∧
      Relation.ReflTransGen (Moves k) root cur ∧
      SkipRooted b k (if b.permissions.detectDuplicateCommitsViaPatchId
        then getUpstreamPatchIds b.env k root ps else []) cur c := by
  refine foldlM_except_inv (P := fun _ st => ∀ c ∈ st.2.acc, handled c = none ∨ ∃ root ps cur,
      RootEdge b.env k root (· ∈ ps) ∧ Relation.ReflTransGen (Moves k) root cur ∧
      SkipRooted b k (if b.permissions.detectDuplicateCommitsViaPatchId
        then getUpstreamPatchIds b.env k root ps else []) cur c) (by simp) ?_ h
  intro pre r post st st' hsplit hs hr
  obtain ⟨p, ps, c, up, h1, h0, h2, -⟩ := buildRoot_ok hr
  have hmem : r ∈ k.findRoots := by rw [hsplit]; simp
  have hc : RootEdge b.env k c (· ∈ p :: ps) := by
    rcases mem_findRoots hmem with ⟨q, d, rfl, hq, hm⟩ | ⟨t, rfl, ht⟩
    · simp only [rootEdge, Except.ok.injEq, Prod.mk.injEq] at h1
      obtain ⟨h1, rfl⟩ := h1
      refine .inl ⟨q, hm, ((mem_unconstrainedNodes hw).1 hq).2, ?_⟩
      rw [← h1]
      simp
    · simp only [rootEdge, Except.ok.injEq, Prod.mk.injEq] at h1
      obtain ⟨h1, rfl⟩ := h1
      have := (mem_unconstrainedFixup hw).1 ht
      exact .inr ⟨this.1, this.2, fun d => by rw [h1]⟩
  refine visit_commands_above (r := c) (fun cur s cs hcur hcs x hx => .inr ⟨c, p :: ps, cur, hc, hcur, ?_⟩)
    (fun l => .inl rfl) (fun l => .inl rfl) _ _ _ _ h2 .refl ?_
  · intro x hx
    rcases List.mem_append.1 hx with hx | hx
    · exact hs x hx
    · simp only [List.mem_singleton] at hx; exact .inl (hx ▸ rfl)
  · rw [← h0]
    exact commandsFor_skipRooted hcs x hx

theorem rootEdge_rewritten {env : PlanEnv} {k : Constraints} {r : Oid} {ds : Oid → Prop}
    (h : RootEdge env k r ds) : Rewritten k r := by
  rcases h with ⟨d, h1, _⟩ | ⟨h1, _⟩
  · exact .inl ⟨d, h1⟩
  · exact .inr h1

theorem above_root_rewritten {env : PlanEnv} {k : Constraints} {r : Oid} {ds : Oid → Prop}
    (h : RootEdge env k r ds) {c : Oid} (hc : Relation.ReflTransGen (Moves k) r c) : Rewritten k c := by
  cases hc with
  | refl => exact rootEdge_rewritten h
  | tail _ h2 => exact .inl ⟨_, h2⟩

/-- A root is not above another root. -/
theorem root_not_above {env : PlanEnv} {k : Constraints} {r r' p : Oid} {ds ds' : Oid → Prop}
    (h : RootEdge env k r ds) (h' : RootEdge env k r' ds')
    (one : ∀ p q, Moves k p r → Moves k q r → p = q)
    (hp : Relation.ReflTransGen (Moves k) r' p) (hm : Moves k p r) : False := by
  rcases h with ⟨d, h1, h2, _⟩ | ⟨_, h2, _⟩
  · rw [← one _ _ hm h1] at h2
    exact h2 (above_root_rewritten h' hp)
  · exact h2 ⟨p, hm⟩

/-- A commit without merges on the way down is above one root only. -/
theorem root_unique {env : PlanEnv} {k : Constraints} {r r' c : Oid} {ds ds' : Oid → Prop}
    (h : RootEdge env k r ds) (h' : RootEdge env k r' ds')
    (one : ∀ x p q, Relation.ReflTransGen (Moves k) x c → Moves k p x → Moves k q x → p = q)
    (hc : Relation.ReflTransGen (Moves k) r c) (hc' : Relation.ReflTransGen (Moves k) r' c) : r = r' := by
  induction hc with
  | refl =>
    cases hc' with
    | refl => rfl
    | tail h1 h2 => exact (root_not_above h h' (fun p q => one r p q .refl) h1 h2).elim
  | @tail p c h1 h2 ih =>
    cases hc' with
    | refl => exact (root_not_above h' h (fun p q => one _ p q .refl) h1 h2).elim
    | @tail p' _ h3 h4 =>
      obtain rfl := one c p p' .refl h2 h4
      exact ih (fun x p q hx => one x p q (hx.tail h2)) h3

theorem rootEdge_unique {env : PlanEnv} {k : Constraints} {r : Oid} {ds ds' : Oid → Prop}
    (h : RootEdge env k r ds) (h' : RootEdge env k r ds')
    (one : ∀ p q, Moves k p r → Moves k q r → p = q) : ds = ds' := by
  funext d
  rcases h with ⟨x, h1, h2, h3⟩ | ⟨_, h2, h3⟩ <;> rcases h' with ⟨x', h1', h2', h3'⟩ | ⟨_, h2', h3'⟩
  · rw [h3, h3', one _ _ h1 h1']
  · exact absurd ⟨_, h1⟩ h2'
  · exact absurd ⟨_, h1'⟩ h2
  · rw [h3, h3']

end Verif.Spec

namespace Verif.Props

open Verif Spec Constraints RebasePlanBuilder

/-- C52: a commit is only skipped if the same change is upstream of the place where its own root goes; what is
upstream of other places does not matter. For all requests, and with merges. -/
theorem skipped_has_twin_below (b : RebasePlanBuilder) (hg : WFGraph b.env.dag.graph) (k : Constraints)
    (hk : b.constraintGraph = .ok k) (plan : RebasePlan) (h : b.build = .ok (.ok (some plan)))
    (c : Oid) (hc : .skipUpstreamAppliedCommit c ∈ plan.commands) :
    b.permissions.detectDuplicateCommitsViaPatchId = true ∧
      ∃ root dests u, RootEdge b.env k root dests ∧ Relation.ReflTransGen (Moves k) root c ∧
        Twin b.env root dests c u := by
  obtain ⟨k', st, h1, h2, h3, h4, h5, h6⟩ := build_ok h
  rw [hk] at h1
  cases h1
  have hw := kwf_constraintGraph hk
  rw [h6] at hc
  rcases List.mem_append.1 hc with hc | hc
  · rcases plan_commands_rooted hw h4 _ hc with hn | ⟨root, ps, cur, hr, hcur, rfl, hp⟩
    · simp [handled] at hn
    split at hp
    · rename_i hd
      obtain ⟨u, hu, _⟩ := (patchApplied_iff hg).1 hp
      exact ⟨hd, root, _, u, hr, hcur, hu⟩
    · unfold patchAlreadyAppliedUpstream at hp
      split at hp <;> simp at hp
  · simp at hc

/-- C52: for all requests which the planner is made for: a moved commit which is not squashed, and on whose way
down to its root there are no merges, is skipped exactly when a commit with the same change is upstream of the
place where the root of this commit goes. Missing: commits above a merge which is itself moved, for which it is false, see
`twin_on_other_side`. -/
theorem skipped_iff_twin_below_partial (b : RebasePlanBuilder) (hg : WFGraph b.env.dag.graph) (k : Constraints)
    (hk : b.constraintGraph = .ok k) (hreg : Regular b.env k)
    (hd : b.permissions.detectDuplicateCommitsViaPatchId = true) (hsp : SamePaths b.env)
    (plan : RebasePlan) (h : b.build = .ok (.ok (some plan))) (c : Oid) (hc : ∃ p, Moves k p c)
    (hsq : ¬ Squashed k c) (hm : ∀ x, Relation.ReflTransGen (Moves k) x c → (∃ p, Moves k p x) →
      ¬ IsMerge b.env x) :
    .skipUpstreamAppliedCommit c ∈ plan.commands ↔
      ∃ root dests u, RootEdge b.env k root dests ∧ Relation.ReflTransGen (Moves k) root c ∧
        Twin b.env root dests c u := by
  refine ⟨fun hs => (skipped_has_twin_below b hg k hk plan h c hs).2, ?_⟩
  rintro ⟨root, dests, u, hr, hrc, hu⟩
  have one : ∀ x p q, Relation.ReflTransGen (Moves k) x c → Moves k p x → Moves k q x → p = q :=
    fun x p q hx hp hq => hreg.one_parent x p q (hm x hx ⟨p, hp⟩) hp hq
  have hmem : c ∈ handledCommits plan.commands :=
    (plan_each_once_partial b k hk hreg plan h).complete c (.inl hc) hsq
  obtain ⟨k', st, h1, h2, h3, h4, h5, h6⟩ := build_ok h
  rw [hk] at h1
  cases h1
  have hw := kwf_constraintGraph hk
  obtain ⟨cmd, hcmd, hh⟩ := List.mem_filterMap.1 hmem
  rw [h6] at hcmd
  rcases List.mem_append.1 hcmd with hcm | hcm
  · have key : ∀ root' ps, RootEdge b.env k root' (· ∈ ps) → Relation.ReflTransGen (Moves k) root' c →
        patchAlreadyAppliedUpstream b.env (if b.permissions.detectDuplicateCommitsViaPatchId
          then getUpstreamPatchIds b.env k root' ps else []) c = true := by
      intro root' ps hr' hc'
      obtain rfl := root_unique hr hr' one hrc hc'
      have hds := rootEdge_unique hr hr' (fun p q => one root p q hrc)
      rw [if_pos hd, patchApplied_iff hg, ← hds]
      exact ⟨u, hu, List.mem_map.2 ⟨c, (mem_commitsToMove hw.1.1).2 hc, (hsp _ _ hu.same).symm⟩⟩
    rcases plan_commands_rooted hw h4 _ hcm with hn | ⟨root', ps, cur, hr', hcur, hq⟩
    · rw [hn] at hh; simp at hh
    cases cmd with
    | skipUpstreamAppliedCommit x =>
      simp only [handled, Option.some.injEq] at hh
      subst hh
      rw [h6]
      exact List.mem_append_left _ hcm
    | pick x l =>
      simp only [handled, Option.some.injEq] at hh
      obtain ⟨rfl, hp⟩ := hq
      subst hh
      rw [key _ _ hr' hcur] at hp
      simp at hp
    | merge x l =>
      simp only [handled, Option.some.injEq] at hh
      obtain ⟨rfl, hp⟩ := hq
      subst hh
      rw [key _ _ hr' hcur] at hp
      simp at hp
    | replace x l l' =>
      simp only [handled, Option.some.injEq] at hh
      obtain ⟨rfl, hp⟩ := hq
      subst hh
      rw [key _ _ hr' hcur] at hp
      simp at hp
    | _ => simp [handled] at hh
  · simp only [List.mem_singleton] at hcm
    subst hcm
    simp [handled] at hh

/-- C52: for any number of subtrees which are moved in a repository without merges: a moved commit is skipped
exactly when, for the commit `root` at the bottom of what moves along with it, which goes on top of `dest` (a
commit which stays), a commit with the same change is on the way from the merge base of `root` and `dest` to
`dest`. -/
theorem skipped_iff_twin_subtrees (b : RebasePlanBuilder) (hg : WFGraph b.env.dag.graph)
    (hd : b.permissions.detectDuplicateCommitsViaPatchId = true) (rs : List (Oid × Oid))
    (hb : b.initialConstraints = rs.map fun r => .moveSubtree [r.2] r.1) (hm : ∀ c, ¬ IsMerge b.env c)
    (hsp : SamePaths b.env) (plan : RebasePlan) (h : b.build = .ok (.ok (some plan))) (c : Oid)
    (hc : ∃ p, ShouldMove b.env.dag rs p c) :
    .skipUpstreamAppliedCommit c ∈ plan.commands ↔
      ∃ root dest u, ShouldMove b.env.dag rs dest root ∧ (¬ ∃ p, ShouldMove b.env.dag rs p dest) ∧
        Relation.ReflTransGen (ShouldMove b.env.dag rs) root c ∧ Twin b.env root (· = dest) c u := by
  obtain ⟨k, hk, hf, hmv⟩ := constraintGraph_subtrees (rs := rs) hg hb
  have hmv' : Moves k = ShouldMove b.env.dag rs := by
    funext p c
    exact propext (hmv p c)
  have hreg : Regular b.env k := by
    refine regular_of_no_merges hm ?_ hk
    intro ps c hpc
    rw [hb] at hpc
    obtain ⟨r, _, hr⟩ := List.mem_map.1 hpc
    cases hr
    simp
  rw [skipped_iff_twin_below_partial b hg k hk hreg hd hsp plan h c (by rw [hmv']; exact hc)
    (by unfold Squashed; rw [hf]; simp) (fun x _ _ => hm x), hmv']
  constructor
  · rintro ⟨root, ds, u, ⟨dest, h1, h2, h3⟩ | ⟨⟨fs, h1⟩, _⟩, h4, h5⟩
    · have : ds = (· = dest) := by funext d; exact propext (h3 d)
      subst this
      rw [hmv'] at h1
      refine ⟨root, dest, u, h1, ?_, h4, h5⟩
      rintro ⟨p, hp⟩
      exact h2 (.inl ⟨p, by rw [hmv']; exact hp⟩)
    · rw [hf] at h1
      simp at h1
  · rintro ⟨root, dest, u, h1, h2, h4, h5⟩
    refine ⟨root, _, u, .inl ⟨dest, by rw [hmv']; exact h1, ?_, fun d => Iff.rfl⟩, h4, h5⟩
    rintro (⟨p, hp⟩ | ⟨fs, hfs⟩)
    · exact h2 ⟨p, by rw [← hmv']; exact hp⟩
    · rw [hf] at hfs
      simp at hfs

/-- Two commits with the same change, `3` and `4`, both on top of `0`. `3` goes on top of `1`, which has the same
change too, and is skipped. `4` goes on top of `2`, and is picked: that `1` has the same change does not
matter. -/
example :
    let env : PlanEnv := { exEnv [(oidN 4, [oidN 0]), (oidN 3, [oidN 0]), (oidN 2, [oidN 0]),
        (oidN 1, [oidN 0]), (oidN 0, [])] (oidN 0) with
      patchId := fun c => if c = oidN 3 ∨ c = oidN 4 then (oidN 1).val else c.val
      touchedPaths := fun _ => 0 }
    SamePaths env ∧ (∀ c, ¬ IsMerge env c) ∧
    ∃ plan, (⟨env, ⟨true, [oidN 3, oidN 4]⟩,
        [(oidN 3, oidN 1), (oidN 4, oidN 2)].map fun r => .moveSubtree [r.2] r.1, []⟩ :
        RebasePlanBuilder).build = .ok (.ok (some plan)) ∧
      .skipUpstreamAppliedCommit (oidN 3) ∈ plan.commands ∧ .pick (oidN 4) [oidN 4] ∈ plan.commands := by
  refine ⟨fun _ _ _ => rfl, ?_, ⟨oidN 1, [.reset (.oid (oidN 1)), .skipUpstreamAppliedCommit (oidN 3),
    .reset (.oid (oidN 2)), .pick (oidN 4) [oidN 4], .detectEmptyCommit (oidN 4),
    .registerExtraPostRewriteHook]⟩, ?_, ?_, ?_⟩
  · intro c
    simp only [IsMerge, PlanEnv.parentOids, exEnv, CommitGraph.parentsOf, AMap.get?]
    repeat' split
    all_goals simp
  · decide +kernel
  · decide
  · decide

/-- A repository with a merge `5` of `3` and `4`, all on top of `0`, like `1` and `2`; `6` is on top of `5`, and makes
the same change as `twin`. -/
def exTwinEnv (twin : Oid) : PlanEnv :=
  { exEnv [(oidN 6, [oidN 5]), (oidN 5, [oidN 3, oidN 4]), (oidN 4, [oidN 0]), (oidN 3, [oidN 0]), (oidN 2, [oidN 0]),
      (oidN 1, [oidN 0]), (oidN 0, [])] (oidN 0) with
    patchId := fun c => if c = oidN 6 then twin.val else c.val
    touchedPaths := fun _ => 0 }

theorem exTwinEnv_wf (twin : Oid) : WFGraph (exTwinEnv twin).dag.graph := by
  show WFGraph (⟨[(oidN 6, [oidN 5]), (oidN 5, [oidN 3, oidN 4]), (oidN 4, [oidN 0]), (oidN 3, [oidN 0]),
    (oidN 2, [oidN 0]), (oidN 1, [oidN 0]), (oidN 0, [])]⟩ : CommitGraph Oid)
  unfold WFGraph
  repeat (first | exact .nil | refine .cons (by decide) (by decide) ?_)

/-- C52: above a merge which is moved, only one side counts. The two sides `3` and `4` of the merge go on top of `1`
and `2`, so that both are ancestors of the new version of `6`. If `2` has the change of `6` then `6` is skipped; if `1`
has it then it is not, though it has a twin upstream of the place where `3` goes. -/
theorem twin_on_other_side :
    let b (twin : Oid) : RebasePlanBuilder := ⟨exTwinEnv twin, ⟨true, [oidN 3, oidN 4, oidN 5, oidN 6]⟩,
      [(oidN 3, oidN 1), (oidN 4, oidN 2)].map fun r => .moveSubtree [r.2] r.1, []⟩
    (∃ plan, (b (oidN 2)).build = .ok (.ok (some plan)) ∧ .skipUpstreamAppliedCommit (oidN 6) ∈ plan.commands) ∧
    (∃ plan, (b (oidN 1)).build = .ok (.ok (some plan)) ∧ .skipUpstreamAppliedCommit (oidN 6) ∉ plan.commands ∧
      .pick (oidN 6) [oidN 6] ∈ plan.commands) ∧
    ∃ u, Twin (exTwinEnv (oidN 1)) (oidN 3) (· ∈ [oidN 1]) (oidN 6) u := by
  refine ⟨⟨⟨oidN 1, [.reset (.oid (oidN 1)), .pick (oidN 3) [oidN 3], .detectEmptyCommit (oidN 3),
    .createLabel t!"parent-3", .reset (.oid (oidN 2)), .pick (oidN 4) [oidN 4], .detectEmptyCommit (oidN 4),
    .createLabel t!"parent-7", .reset (.label t!"parent-3"),
    .merge (oidN 5) [.label t!"parent-7"],
    .skipUpstreamAppliedCommit (oidN 6), .registerExtraPostRewriteHook]⟩, ?_, ?_⟩,
    ⟨⟨oidN 1, [.reset (.oid (oidN 1)), .pick (oidN 3) [oidN 3], .detectEmptyCommit (oidN 3),
    .createLabel t!"parent-3", .reset (.oid (oidN 2)), .pick (oidN 4) [oidN 4], .detectEmptyCommit (oidN 4),
    .createLabel t!"parent-7", .reset (.label t!"parent-3"),
    .merge (oidN 5) [.label t!"parent-7"],
    .pick (oidN 6) [oidN 6], .detectEmptyCommit (oidN 6), .registerExtraPostRewriteHook]⟩, ?_, ?_, ?_⟩, ?_⟩
  · decide +kernel
  · decide
  · decide +kernel
  · decide
  · decide
  · obtain ⟨u, hu, _⟩ := (patchApplied_iff (k := ⟨[(oidN 1, [oidN 6])], []⟩) (exTwinEnv_wf (oidN 1))
      (root := oidN 3) (ps := [oidN 1]) (c := oidN 6)).1 (by decide +kernel)
    exact ⟨u, hu⟩

end Verif.Props
