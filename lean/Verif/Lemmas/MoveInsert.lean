import Verif.Lemmas.MoveExact

/-! Lemmas about `move --exact --insert`. -/

namespace Verif.Spec

open Verif Verif.Props Verif.Constraints

/-! ### `moveChildren` without an effect -/

/-- A request to move a subtree. -/
def isSubtreeRequest : Constraint → Bool
  | .moveSubtree _ _ => true
  | _ => false

theorem foldl_addFirst_filter {cs : List Constraint}
    (h : ∀ x ∈ cs, isSubtreeRequest x = true ∨ ∃ a b, x = .moveChildren a b) (k : Constraints) :
    cs.foldl addFirst k = (cs.filter isSubtreeRequest).foldl addFirst k := by
  induction cs generalizing k with
  | nil => rfl
  | cons x cs ih =>
    have ih := ih fun y hy => h y (List.mem_cons_of_mem _ hy)
    rcases h x (by simp) with hx | ⟨a, b, rfl⟩
    · rw [List.filter_cons_of_pos hx]
      simp only [List.foldl_cons, ih]
    · rw [List.filter_cons_of_neg (by simp [isSubtreeRequest])]
      simp only [List.foldl_cons, addFirst, ih]

/-- If all visible children of a commit are moved anyway, it is of no effect to move its children. -/
theorem addConstraints_children {dag : Dag} (hg : WFGraph dag.graph) {cs : List Constraint}
    {rs : List (Oid × Oid)} (hrs : cs.filter isSubtreeRequest = subtreeConstraints rs)
    (h : ∀ x ∈ cs, isSubtreeRequest x = true ∨ ∃ a b, x = .moveChildren a b ∧
      (∃ p, dag.getOnlyParentOid a = some p ∧ p ∉ rangeHeads cs) ∧
      ∀ c ∈ dag.filterVisibleCommits (dag.graph.children [b]), c ∈ rs.map Prod.fst) :
    addConstraints dag ⟨[], []⟩ cs = addConstraints dag ⟨[], []⟩ (subtreeConstraints rs) := by
  have hsub : ∀ c ∈ subtreeConstraints rs, ∃ ps o, c = Constraint.moveSubtree ps o := by
    intro c hc
    obtain ⟨r, _, rfl⟩ := List.mem_map.1 hc
    exact ⟨_, _, rfl⟩
  rw [addConstraints_subtrees hsub]
  unfold addConstraints
  rw [foldl_addFirst_filter (fun x hx => (h x hx).imp id fun ⟨a, b, e, _⟩ => ⟨a, b, e⟩), hrs]
  have hmv : ∀ c ∈ rs.map Prod.fst, c ∈ ((subtreeConstraints rs).foldl addFirst ⟨[], []⟩).commitsToMove := by
    intro c hc
    rw [mem_commitsToMove (kwf_foldl_addFirst kwf_nil _).1.1]
    obtain ⟨p, hp⟩ := LastRequest.exists hc
    exact ⟨p, moves_subtrees.2 (.inl hp)⟩
  generalize (subtreeConstraints rs).foldl addFirst ⟨[], []⟩ = k at hmv
  generalize rangeHeads cs = heads at h
  have hstep : ∀ x ∈ cs, addSecond dag heads k x = .ok k := by
    intro x hx
    rcases h x hx with hx | ⟨a, b, rfl, ⟨p, hp, hph⟩, hall⟩
    · cases x with
      | moveSubtree ps c => rfl
      | moveChildren a b => simp [isSubtreeRequest] at hx
      | fixUpCommit a b => simp [isSubtreeRequest] at hx
    · have hun : unconstrainedAncestor dag heads k.commitsToMove (dag.graph.entries.length + 1) p = .ok p := by
        unfold unconstrainedAncestor
        rw [if_neg]
        simp [hph]
      have hno : dag.filterVisibleCommits (CommitGraph.diff (dag.graph.children [b]) k.commitsToMove) = [] := by
        rw [List.eq_nil_iff_forall_not_mem]
        intro c hc
        rw [mem_filterVisible hg, mem_diff] at hc
        refine hc.1.2 (hmv c (hall c ?_))
        rw [mem_filterVisible hg]
        exact ⟨hc.1.1, hc.2⟩
      simp only [addSecond, moveChildren, hp, hun, hno, List.foldl_nil]
  clear h hrs
  induction cs with
  | nil => rfl
  | cons x cs ih =>
    rw [List.foldlM_cons, hstep x (by simp)]
    exact ih fun y hy => hstep y (List.mem_cons_of_mem _ hy)

theorem constraintGraph_children {env : PlanEnv} {perms : RebasePlanPermissions} (hg : WFGraph env.dag.graph)
    {cs : List Constraint} {rs : List (Oid × Oid)} (hrs : cs.filter isSubtreeRequest = subtreeConstraints rs)
    (h : ∀ x ∈ cs, isSubtreeRequest x = true ∨ ∃ a b, x = .moveChildren a b ∧
      (∃ p, env.dag.getOnlyParentOid a = some p ∧ p ∉ rangeHeads cs) ∧
      ∀ c ∈ env.dag.filterVisibleCommits (env.dag.graph.children [b]), c ∈ rs.map Prod.fst) :
    (RebasePlanBuilder.mk env perms cs []).constraintGraph =
      (RebasePlanBuilder.mk env perms (subtreeConstraints rs) []).constraintGraph := by
  unfold RebasePlanBuilder.constraintGraph
  rw [addConstraints_children hg hrs h]

/-! ### the requests with `--insert` -/

/-- Keep only the requests to move subtrees. -/
def onlySubtrees : Except PlanFail (Except MoveRefusal (List Constraint)) →
    Except PlanFail (Except MoveRefusal (List Constraint))
  | .ok (.ok cs) => .ok (.ok (cs.filter isSubtreeRequest))
  | x => x

theorem componentsRequests_subtrees {f g : Oid → Except PlanFail (Except MoveRefusal (List Constraint))}
    {l : List Oid} (h : ∀ a ∈ l, g a = onlySubtrees (f a)) :
    componentsRequests g l = onlySubtrees (componentsRequests f l) := by
  induction l with
  | nil => rfl
  | cons a l ih =>
    have ih := ih fun b hb => h b (List.mem_cons_of_mem _ hb)
    unfold componentsRequests
    rw [h a (by simp), ih]
    cases f a with
    | error e => rfl
    | ok x =>
      cases x with
      | error e => rfl
      | ok cs =>
        cases componentsRequests f l with
        | error e => rfl
        | ok y =>
          cases y with
          | error e => rfl
          | ok cs' => simp [onlySubtrees]

section
variable {env : MoveCmdEnv} {d : Dag} {X : List Oid} {comps : AMap Oid (List Oid)}

theorem componentRequests_subtrees (roots : List Oid) (dest r : Oid) :
    componentRequests env d false false comps roots dest r =
      onlySubtrees (componentRequests env d false true comps roots dest r) := by
  unfold componentRequests
  cases AMap.get? comps r with
  | none => rfl
  | some K =>
    simp only
    cases componentDest env d comps roots dest r with
    | error e => rfl
    | ok cd =>
      simp only
      cases env.first (d.graph.parents [r]) with
      | none => rfl
      | some p =>
        simp only [Bool.false_eq_true, if_false, onlySubtrees, Except.ok.injEq, List.filter_append]
        congr 1
        rw [List.filter_flatMap]
        refine List.flatMap_congr fun c _ => ?_
        unfold childRequests
        by_cases ha : d.graph.isAncestor c cd = true
        · simp [ha]
          rfl
        · simp [ha]
          rfl

theorem sourceRequests_nil (hc : SetContract env) (hg : WFGraph d.graph) (fixup : Bool) (dest : Oid) :
    sourceRequests env d fixup [] dest = [] := by
  unfold sourceRequests
  have : env.nav.toVec (d.graph.roots []) = [] := by
    rw [List.eq_nil_iff_forall_not_mem]
    intro x hx
    rw [hc.mem, mem_roots hg] at hx
    exact absurd hx.1 (by simp)
  rw [this]; rfl

/-- The requests with `--insert`, in terms of those without. -/
theorem moveRequests_exact_insert (hc : SetContract env) (hg : WFGraph d.graph)
    (hC : Components d.graph X comps) {seen : Oid → Prop}
    (hv : ∀ s o, o ∈ d.filterVisibleCommits s ↔ o ∈ s ∧ seen o) (dest : Oid) :
    (∀ e, moveRequests env d false false [] comps dest = .error e →
      moveRequests env d false true [] comps dest = .error e) ∧
    (∀ e, moveRequests env d false false [] comps dest = .ok (.error e) →
      moveRequests env d false true [] comps dest = .ok (.error e)) ∧
    ∀ cs0, moveRequests env d false false [] comps dest = .ok (.ok cs0) →
      (∀ e, sourceHead env d comps (sortedCommitSet env.nav d comps.keys) [] = .error e →
        moveRequests env d false true [] comps dest = .ok (.error e)) ∧
      ∀ head, sourceHead env d comps (sortedCommitSet env.nav d comps.keys) [] = .ok head → ∃ cs1,
        moveRequests env d false true [] comps dest = .ok (.ok (cs1 ++ insertRequests env d comps [] dest head)) ∧
        cs1.filter isSubtreeRequest = cs0 ∧
        ∀ x ∈ cs1, isSubtreeRequest x = true ∨ ∃ a b r K, x = .moveChildren a b ∧ (r, K) ∈ comps ∧
          componentDest env d comps (sortedCommitSet env.nav d comps.keys) dest r = .ok b ∧
          a ∉ K ∧ seen a ∧ (∃ y ∈ K, IsParent d.graph y a) ∧ Anc d.graph a b := by
  unfold moveRequests
  simp only [sourceRequests_nil hc hg, List.nil_append]
  have hr : ∀ x, x ∈ sortedCommitSet env.nav d comps.keys ↔ x ∈ comps.keys := fun x => mem_sortedCommitSet hc
  generalize sortedCommitSet env.nav d comps.keys = roots at hr
  have hmap := componentsRequests_subtrees (l := roots)
    (fun r _ => componentRequests_subtrees (env := env) (d := d) (comps := comps) roots dest r)
  rw [hmap]
  cases hcs : componentsRequests (componentRequests env d false true comps roots dest) roots with
  | error e => simp [onlySubtrees]
  | ok x =>
    cases x with
    | error e => simp [onlySubtrees]
    | ok cs1 =>
      simp only [onlySubtrees, Bool.false_eq_true, if_false, if_true, Except.ok.injEq, reduceCtorEq,
        IsEmpty.forall_iff, implies_true, true_and]
      rintro cs0 rfl
      constructor
      · intro e he
        rw [he]
      · intro head hh
        rw [hh]
        refine ⟨cs1, rfl, rfl, ?_⟩
        intro x hx
        obtain ⟨r, hrr, ca, hca, hxa⟩ := ((componentsRequests_ok hcs).2 x).1 hx
        obtain ⟨K, hK⟩ : ∃ K, (r, K) ∈ comps := by
          have := (hr r).1 hrr
          simpa [AMap.keys] using this
        unfold componentRequests at hca
        rw [hC.get? hK] at hca
        simp only at hca
        obtain ⟨p, hp, -, -⟩ := component_parent hc hg hC hK
        split at hca
        · simp at hca
        · rename_i cd hcd
          rw [hp] at hca
          simp only [Bool.false_eq_true, if_false, Except.ok.injEq] at hca
          subst hca
          simp only [List.mem_append, List.mem_flatMap, hc.mem, hv, mem_diff, mem_children hg,
            List.mem_singleton] at hxa
          rcases hxa with ⟨c, ⟨⟨hyc, hcK⟩, hsc⟩, hxc⟩ | rfl
          · unfold childRequests at hxc
            split at hxc
            · rename_i ha
              simp only [Bool.true_and, isAncestor_iff hg] at ha
              simp only [List.mem_cons, List.not_mem_nil, or_false] at hxc
              rcases hxc with rfl | rfl
              · exact .inl rfl
              · exact .inr ⟨c, cd, r, K, rfl, hK, hcd, hcK, hsc, hyc, ha.2⟩
            · simp only [List.mem_cons, List.not_mem_nil, or_false] at hxc
              subst hxc
              exact .inl rfl
          · exact .inl rfl

/-! ### the head of the selected commits -/

theorem sourceHead_exact (hc : SetContract env) (hg : WFGraph d.graph) (hC : Components d.graph X comps)
    (hn : ∀ x ∈ X, x ∈ d.graph.nodes) (hX : ∀ x ∈ X, (d.graph.parentsOf x).length ≤ 1) {roots : List Oid}
    (hr : ∀ x, x ∈ roots ↔ x ∈ comps.keys) :
    (∀ h, sourceHead env d comps roots [] = .ok h ↔ lineageBreak d roots = none ∧ ExactHead d.graph (· ∈ X) h) ∧
    ∀ e, sourceHead env d comps roots [] = .error e →
      (∃ a b, lineageBreak d roots = some (a, b) ∧ e = .noLineage a b) ∨
      (lineageBreak d roots = none ∧ e = .severalHeads) := by
  have hkeys : ∀ x, x ∈ roots ↔ Topmost d.graph (· ∈ X) x := by
    intro x
    rw [hC.topmost_iff, hr]
    simp [AMap.keys]
  unfold sourceHead
  cases hlb : lineageBreak d roots with
  | some ab => simp
  | none =>
    simp only [true_and, reduceCtorEq, false_and, exists_false, false_or]
    constructor
    · intro h
      have hlist : ∀ y, y ∈ d.graph.heads (d.graph.descendants []) ++ (match roots.getLast? with
          | none => []
          | some last => d.graph.heads ((AMap.get? comps last).getD [])) ↔
          y ∈ X ∧ (∀ c, IsParent d.graph y c → c ∉ X) ∧ ∀ t, Topmost d.graph (· ∈ X) t → Anc d.graph t y := by
        intro y
        have hno : y ∉ d.graph.heads (d.graph.descendants []) := by
          rw [mem_heads hg, mem_descendants hg]
          simp
        rw [List.mem_append, or_iff_right hno]
        cases hl : roots.getLast? with
        | none =>
          rw [List.getLast?_eq_none_iff] at hl
          simp only [List.not_mem_nil, false_iff, not_and]
          intro hy
          obtain ⟨r, hr', _⟩ := topmost_below hg hy (c := y) .refl
          rw [← hkeys, hl] at hr'
          simp at hr'
        | some last =>
          simp only
          have hlm : last ∈ roots := List.mem_of_getLast? hl
          obtain ⟨K, hK⟩ := hC.topmost_iff.1 ((hkeys last).1 hlm)
          rw [hC.get? hK, Option.getD_some, mem_heads hg]
          have hline : ∀ t, Topmost d.graph (· ∈ X) t → Anc d.graph t last := by
            intro t ht
            have hpw := (lineageBreak_none_iff hg (fun x hx => hn x ((hkeys x).1 hx).1)).1 hlb
            rw [← hkeys] at ht
            obtain ⟨pre, rfl⟩ := List.getLast?_eq_some_iff.1 hl
            rw [List.pairwise_append] at hpw
            rcases List.mem_append.1 ht with ht | ht
            · exact hpw.2.2 t ht last (by simp)
            · rw [List.mem_singleton.1 ht]; exact .refl
          constructor
          · rintro ⟨h1, h2⟩
            refine ⟨hC.sub hK h1, fun c hp hcX => ?_, fun t ht => (hline t ht).trans (hC.anc_root hg hK h1)⟩
            exact h2 c hp (hC.edge last K y c hK h1 hcX (.inl hp))
          · rintro ⟨h1, h2, h3⟩
            obtain ⟨r, K', hK', hyK'⟩ := (hC.cover y).1 h1
            have hlast : Anc d.graph last y := h3 last ((hkeys last).1 hlm)
            have := hC.convex hg hX hK' hyK' (hline r (hC.topmost_iff.2 ⟨K', hK'⟩)) hlast
            have := hC.disj _ _ _ _ last hK hK' (hC.root_mem hK) this
            subst this
            rw [hC.same hK' hK] at hyK'
            exact ⟨hyK', fun c hp hcK => h2 c hp (hC.sub hK hcK)⟩
      have hiff := toVec_singleton hc (x := h) (l := d.graph.heads (d.graph.descendants []) ++
        (match roots.getLast? with
          | none => []
          | some last => d.graph.heads ((AMap.get? comps last).getD [])))
      simp only [hlist] at hiff
      have hE : ExactHead d.graph (· ∈ X) h ↔ ∀ y, (y ∈ X ∧ (∀ c, IsParent d.graph y c → c ∉ X) ∧
          ∀ t, Topmost d.graph (· ∈ X) t → Anc d.graph t y) ↔ y = h :=
        forall_congr' fun x => iff_comm
      rw [hE, ← hiff]
      split
      · rename_i head hh
        refine ⟨fun e => by cases e; exact hh, fun e => ?_⟩
        have e' := hh.symm.trans e
        simp only [List.cons.injEq, and_true] at e'
        rw [e']
      · rename_i hno
        simp only [reduceCtorEq, false_iff]
        exact hno h
    · intro e he
      split at he
      · simp at he
      · simpa using he.symm

end

/-! ### from the requests to the plan -/

section
variable {env : MoveCmdEnv} {d : Dag} {fixup insert : Bool} {S : List Oid} {comps : AMap Oid (List Oid)}
  {dest : Oid} {cs : List Constraint} {rs : List (Oid × Oid)}

/-- Requests which have the same effect as some requests to move subtrees. -/
def SameAs (env : MoveCmdEnv) (d : Dag) (cs : List Constraint) (rs : List (Oid × Oid)) : Prop :=
  ∀ perms, (RebasePlanBuilder.mk (env.planEnv d) perms cs []).constraintGraph =
    (RebasePlanBuilder.mk (env.planEnv d) perms (subtreeConstraints rs) []).constraintGraph

theorem amountTo_sameAs (hg : WFGraph d.graph) (hsame : SameAs env d cs rs) {seen : Oid → Prop}
    (hs : ∀ o, seen o ↔ o ∈ d.graph.nodes ∧ ∃ x ∈ d.visibleHeads, Anc d.graph o x)
    {req : Oid → Oid → Prop} (hr : ∀ p c, (c, p) ∈ rs ↔ req p c) (hu : ∀ p q c, req p c → req q c → p = q) :
    AmountTo env d cs (Carried d.graph seen req) := by
  intro perms
  rw [hsame perms]
  exact amountTo_subtrees hg hs hr hu perms

/-- What a rebase in memory does, when the effect of the requests is to move subtrees. -/
theorem movePlan_relocated_sameAs (hg : WFGraph d.graph) {plan : RebasePlan}
    (h : movePlan env d fixup insert S comps dest = .ok (.ok (some plan)))
    (hcs : moveRequests env d fixup insert S comps dest = .ok (.ok cs)) (hsame : SameAs env d cs rs)
    (hm : ∀ p c, (c, p) ∈ rs → (d.graph.parentsOf c).length ≤ 1)
    {seen : Oid → Prop} (hs : ∀ o, seen o ↔ o ∈ d.graph.nodes ∧ ∃ x ∈ d.visibleHeads, Anc d.graph o x)
    {req : Oid → Oid → Prop} (hr : ∀ p c, (c, p) ∈ rs ↔ req p c) (hu : ∀ p q c, req p c → req q c → p = q)
    (hn : NoCollisions env.exec) {head : Option Oid} {s : ExecState} {newHead : Option Oid}
    (hx : env.exec.rebaseInMemory head plan = .ok (s, newHead)) :
    Relocated env.exec (Carried d.graph seen req) (fun c => env.detectDuplicateCommitsViaPatchId = true ∧
      AppliedUpstream d.graph env.patchId (Carried d.graph seen req) c) s head newHead := by
  obtain ⟨perms, cs', _, hdet, hcs', hb⟩ := movePlan_some h
  rw [hcs] at hcs'
  simp only [Except.ok.injEq] at hcs'
  subst hcs'
  rw [← hdet]
  obtain ⟨k, hk, hf, hmv⟩ := constraintGraph_subtrees
    (b := RebasePlanBuilder.mk (env.planEnv d) perms (subtreeConstraints rs) []) hg (rs := rs) rfl
  have hreg := regular_subtrees (b := RebasePlanBuilder.mk (env.planEnv d) perms (subtreeConstraints rs) []) hg
    (rs := rs) (by
      rintro ⟨c, q⟩ hcq
      exact Nat.not_lt.2 (hm q c hcq)) hf hmv
  have hmv' : ∀ p c, Moves k p c ↔ Carried d.graph seen req p c := by
    intro p c
    rw [hmv, ← shouldMove_carried hs hr hu]
    rfl
  rw [← hsame perms] at hk
  exact relocated (b := RebasePlanBuilder.mk (env.planEnv d) perms cs []) hg hk hf hmv' hreg
    rfl hb hn hx

end

section
variable {env : MoveCmdEnv} {d : Dag} {X : List Oid} {comps : AMap Oid (List Oid)}

/-- The requests for the selected commits and the children of the destination are right. -/
theorem exact_insert_right (hc : SetContract env) (hg : WFGraph d.graph) (hC : Components d.graph X comps)
    (hn : ∀ x ∈ X, x ∈ d.graph.nodes) (hX : ∀ x ∈ X, (d.graph.parentsOf x).length ≤ 1)
    {seen : Oid → Prop} (hv : ∀ s o, o ∈ d.filterVisibleCommits s ↔ o ∈ s ∧ seen o)
    (hch : ∀ c x, c ∉ X → seen c → x ∈ X → IsParent d.graph x c → (d.graph.parentsOf c).length ≤ 1)
    {dest : Oid} (hd : dest ∉ X)
    (hdc : ∀ c, c ∉ X → seen c → IsParent d.graph dest c → (d.graph.parentsOf c).length ≤ 1)
    {cs : List Constraint} (h : moveRequests env d false true [] comps dest = .ok (.ok cs)) :
    ∃ rs0 rs head, moveRequests env d false false [] comps dest = .ok (.ok (subtreeConstraints rs0)) ∧
      SameAs env d cs rs ∧ ExactHead d.graph (· ∈ X) head ∧
      (∀ p c, (c, p) ∈ rs ↔ (c, p) ∈ rs0 ∨ InsertRequest d.graph seen (· ∈ X) dest head p c) ∧
      (∀ p c, (c, p) ∈ rs0 → ExactRequest d.graph seen (· ∈ X) dest p c) ∧
      (∀ p q c, (c, p) ∈ rs → (c, q) ∈ rs → p = q) ∧
      (∀ c, Topmost d.graph (· ∈ X) c → ∃ q, (c, q) ∈ rs0) ∧
      ∀ c x, c ∉ X → seen c → x ∈ X → IsParent d.graph x c → ∃ q, (c, q) ∈ rs0 := by
  have hroots : ∀ x, x ∈ sortedCommitSet env.nav d comps.keys ↔ x ∈ comps.keys := fun x => mem_sortedCommitSet hc
  obtain ⟨k1, k2, k3⟩ := moveRequests_exact_insert hc hg hC hv dest
  cases h0 : moveRequests env d false false [] comps dest with
  | error e => rw [k1 e h0] at h; simp at h
  | ok x =>
    cases x with
    | error e => rw [k2 e h0] at h; simp at h
    | ok cs0 =>
      obtain ⟨k4, k5⟩ := k3 cs0 h0
      cases hh : sourceHead env d comps (sortedCommitSet env.nav d comps.keys) [] with
      | error e => rw [k4 e hh] at h; simp at h
      | ok head =>
        obtain ⟨cs1, k6, k7, k8⟩ := k5 head hh
        obtain ⟨rs0, rfl, h1, h2, h3, h4⟩ := exact_requests_right hc hg hC hn hX hv hch h0
        rw [k6] at h
        simp only [Except.ok.injEq] at h
        subst h
        obtain ⟨hhead, -⟩ := sourceHead_exact hc hg hC hn hX hroots
        obtain ⟨-, hEH⟩ := (hhead head).1 hh
        have hins : ∃ rs1, insertRequests env d comps [] dest head = subtreeConstraints rs1 ∧
            ∀ p c, (c, p) ∈ rs1 ↔ InsertRequest d.graph seen (· ∈ X) dest head p c := by
          refine ⟨(env.nav.toVec (d.filterVisibleCommits (CommitGraph.diff (CommitGraph.diff
            (d.graph.children [dest]) []) (comps.flatMap Prod.snd)))).map fun c => (c, head), ?_, ?_⟩
          · unfold insertRequests subtreeConstraints
            simp [Function.comp_def]
          · intro p c
            have hcov : c ∈ comps.flatMap Prod.snd ↔ c ∈ X := by
              rw [hC.cover]
              simp
            simp only [List.mem_map, Prod.mk.injEq, hc.mem, hv, mem_diff, mem_children hg, List.mem_singleton,
              exists_eq_left, List.not_mem_nil, not_false_eq_true, and_true, InsertRequest]
            constructor
            · rintro ⟨x, ⟨⟨h5, h6⟩, h7⟩, rfl, rfl⟩; exact ⟨fun hx => h6 (hcov.2 hx), h7, h5, rfl⟩
            · rintro ⟨h5, h6, h7, rfl⟩; exact ⟨c, ⟨⟨h7, fun hx => h5 (hcov.1 hx)⟩, h6⟩, rfl, rfl⟩
        obtain ⟨rs1, hi1, hi2⟩ := hins
        rw [hi1]
        refine ⟨rs0, rs0 ++ rs1, head, rfl, ?_, hEH, ?_, h1, ?_, h3, h4⟩
        · intro perms
          have hb : ∀ a b r K, (r, K) ∈ comps → componentDest env d comps
              (sortedCommitSet env.nav d comps.keys) dest r = .ok b → (∃ y ∈ K, IsParent d.graph y a) →
              Anc d.graph a b → b = dest := by
            rintro a b r K hK hcd ⟨y, hy, hya⟩ hab
            rcases componentDest_ok hc hg hC hn hX hroots hK hcd with ⟨_, _, h6, _⟩ | ⟨h5, _⟩
            · have h7 := (hab.trans h6).trans (hC.anc_root hg hK hy)
              have := h7.antisymm hg (.of_parent hya)
              subst this
              exact absurd hya (not_isParent_self hg)
            · exact h5
          have hfil : (subtreeConstraints rs1).filter isSubtreeRequest = subtreeConstraints rs1 := by
            rw [List.filter_eq_self]
            intro x hx
            obtain ⟨r, _, rfl⟩ := List.mem_map.1 hx
            rfl
          refine constraintGraph_children (env := env.planEnv d) hg ?_ ?_
          · rw [List.filter_append, k7, hfil]
            unfold subtreeConstraints
            rw [List.map_append]
          · intro x hx
            rcases List.mem_append.1 hx with hx | hx
            · rcases k8 x hx with hx | ⟨a, b, r, K, rfl, hK, hcd, haK, hsa, ⟨y, hy, hya⟩, hab⟩
              · exact .inl hx
              · right
                have hbd := hb a b r K hK hcd ⟨y, hy, hya⟩ hab
                subst hbd
                have hyX := hC.sub hK hy
                have haX : a ∉ X := fun haX => haK (hC.edge r K y a hK hy haX (.inl hya))
                refine ⟨a, b, rfl, ⟨y, ?_, ?_⟩, ?_⟩
                · have hone : ∀ q, q ∈ (d.graph.parents [a]).dedup ↔ q = y := by
                    intro q
                    rw [List.mem_dedup, mem_parents hg]
                    simp only [List.mem_singleton, exists_eq_left]
                    exact ⟨fun hq => parent_unique hg (hch a y haX hsa hyX hya) hq hya, fun e => e ▸ hya⟩
                  have hnd := List.nodup_dedup (d.graph.parents [a])
                  change d.getOnlyParentOid a = some y
                  unfold Dag.getOnlyParentOid
                  generalize (d.graph.parents [a]).dedup = l at hone hnd
                  match l, hone, hnd with
                  | [], hone, _ => exact absurd ((hone y).2 rfl) (by simp)
                  | [q], hone, _ => rw [(hone q).1 (by simp)]
                  | q :: q' :: l, hone, hnd =>
                    have e1 := (hone q).1 (by simp)
                    have e2 := (hone q').1 (by simp)
                    rw [e1, e2] at hnd
                    simp at hnd
                · intro hyh
                  unfold rangeHeads at hyh
                  obtain ⟨z, hz, hzy⟩ := List.mem_filterMap.1 hyh
                  rcases List.mem_append.1 hz with hz | hz
                  · rcases k8 z hz with hz' | ⟨a', b', r', K', rfl, hK', hcd', _, _, hy', hab'⟩
                    · cases z with
                      | moveSubtree ps c => simp at hzy
                      | moveChildren a b => simp [isSubtreeRequest] at hz'
                      | fixUpCommit a b => simp [isSubtreeRequest] at hz'
                    · have := hb a' b' r' K' hK' hcd' hy' hab'
                      simp only [Option.some.injEq] at hzy
                      rw [← hzy, this] at hyX
                      exact hd hyX
                  · obtain ⟨r', _, rfl⟩ := List.mem_map.1 hz
                    simp at hzy
                · intro c hcc
                  have hcc : c ∈ d.filterVisibleCommits (d.graph.children [b]) := hcc
                  rw [hv, mem_children hg] at hcc
                  simp only [List.mem_singleton, exists_eq_left] at hcc
                  by_cases hcX : c ∈ X
                  · obtain ⟨q, hq⟩ := h3 c ⟨hcX, fun p hp hpX => by
                      rw [parent_unique hg (hX c hcX) hp hcc.1] at hpX
                      exact hd hpX⟩
                    exact List.mem_map.2 ⟨(c, q), List.mem_append_left _ hq, rfl⟩
                  · exact List.mem_map.2 ⟨(c, head), List.mem_append_right _
                      ((hi2 head c).2 ⟨hcX, hcc.2, hcc.1, rfl⟩), rfl⟩
            · obtain ⟨r, _, rfl⟩ := List.mem_map.1 hx
              exact .inl rfl
        · intro p c
          rw [List.mem_append, hi2]
        · have hdis : ∀ p q c, (c, p) ∈ rs0 → InsertRequest d.graph seen (· ∈ X) dest head q c → False := by
            rintro p q c hp ⟨h5, h6, h7, _⟩
            rcases h1 p c hp with ⟨ht, _⟩ | ⟨_, _, ⟨x, hx, hxc⟩, _⟩
            · exact h5 ht.1
            · rw [parent_unique hg (hdc c h5 h6 h7) hxc h7] at hx
              exact hd hx
          intro p q c hp hq
          rw [List.mem_append, hi2] at hp hq
          rcases hp with hp | hp <;> rcases hq with hq | hq
          · exact h2 p q c hp hq
          · exact (hdis p q c hp hq).elim
          · exact (hdis q p c hq hp).elim
          · exact hp.2.2.2.trans hq.2.2.2.symm

end

end Verif.Spec
