import Verif.Lemmas.PlanBuild

/-! The constraint graph for a list of requests. -/

namespace Verif.Spec

open Verif Verif.Constraints Verif.RebasePlanBuilder

/-! ### requests to move subtrees -/

/-- The constraints which `move_subtree` adds (plan.rs:1020-1031). -/
def subtreeConstraints (rs : List (Oid × Oid)) : List Constraint :=
  rs.map fun r => .moveSubtree [r.2] r.1

theorem lastRequest_cons {v d : Oid} {rs : List (Oid × Oid)} {c p : Oid} :
    LastRequest ((v, d) :: rs) c p ↔
      LastRequest rs c p ∨ (c ∉ rs.map Prod.fst ∧ c = v ∧ p = d) := by
  constructor
  · rintro ⟨pre, post, h, hn⟩
    cases pre with
    | nil =>
      simp only [List.nil_append, List.cons.injEq, Prod.mk.injEq] at h
      obtain ⟨⟨rfl, rfl⟩, rfl⟩ := h
      exact .inr ⟨hn, rfl, rfl⟩
    | cons x pre =>
      simp only [List.cons_append, List.cons.injEq] at h
      exact .inl ⟨pre, post, h.2, hn⟩
  · rintro (⟨pre, post, h, hn⟩ | ⟨hn, rfl, rfl⟩)
    · exact ⟨(v, d) :: pre, post, by rw [h]; rfl, hn⟩
    · exact ⟨[], rs, rfl, hn⟩

theorem LastRequest.mem {rs : List (Oid × Oid)} {c p : Oid} (h : LastRequest rs c p) :
    c ∈ rs.map Prod.fst := by
  obtain ⟨pre, post, rfl, _⟩ := h
  simp

theorem LastRequest.exists {rs : List (Oid × Oid)} {c : Oid} (h : c ∈ rs.map Prod.fst) :
    ∃ p, LastRequest rs c p := by
  induction rs with
  | nil => simp at h
  | cons r rs ih =>
    obtain ⟨v, d⟩ := r
    by_cases hc : c ∈ rs.map Prod.fst
    · obtain ⟨p, hp⟩ := ih hc
      exact ⟨p, lastRequest_cons.2 (.inl hp)⟩
    · refine ⟨d, lastRequest_cons.2 (.inr ⟨hc, ?_, rfl⟩)⟩
      rw [List.map_cons, List.mem_cons] at h
      exact h.resolve_right hc

theorem LastRequest.unique {rs : List (Oid × Oid)} {c p q : Oid} (h : LastRequest rs c p)
    (h' : LastRequest rs c q) : p = q := by
  induction rs with
  | nil => obtain ⟨pre, post, h, _⟩ := h; simp at h
  | cons r rs ih =>
    obtain ⟨v, d⟩ := r
    rcases lastRequest_cons.1 h with h1 | ⟨h1, _, rfl⟩ <;>
      rcases lastRequest_cons.1 h' with h2 | ⟨h2, _, rfl⟩
    · exact ih h1 h2
    · exact absurd h1.mem h2
    · exact absurd h2.mem h1
    · rfl

theorem moves_subtrees {rs : List (Oid × Oid)} {k : Constraints} {p c : Oid} :
    Moves ((subtreeConstraints rs).foldl addFirst k) p c ↔
      LastRequest rs c p ∨ (c ∉ rs.map Prod.fst ∧ Moves k p c) := by
  induction rs generalizing k with
  | nil =>
    have : ¬ LastRequest [] c p := by rintro ⟨pre, post, h, _⟩; simp at h
    simp [subtreeConstraints, this]
  | cons r rs ih =>
    obtain ⟨v, d⟩ := r
    have e : subtreeConstraints ((v, d) :: rs) = .moveSubtree [d] v :: subtreeConstraints rs := rfl
    rw [e, List.foldl_cons, ih, moves_addFirst_subtree, lastRequest_cons]
    simp only [List.map_cons, List.mem_cons]
    by_cases h : c = v
    · simp [h]
    · simp [h]

theorem mem_filterVisible {d : Dag} (hg : WFGraph d.graph) {s : List Oid} {c : Oid} :
    c ∈ d.filterVisibleCommits s ↔ c ∈ s ∧ c ∈ d.graph.nodes ∧ ∃ h ∈ d.visibleHeads, Anc d.graph c h := by
  unfold Dag.filterVisibleCommits
  rw [mem_inter, mem_range hg]
  constructor
  · rintro ⟨h1, h2⟩
    grind
  · rintro ⟨h1, h2, h3⟩
    refine ⟨h1, ?_⟩
    exact ⟨h2, ⟨c, h1, .refl⟩, h3⟩

theorem fixups_addDescendants {dag : Dag} {k k' : Constraints}
    (h : addDescendantConstraints dag k = .ok k') : k'.fixups = k.fixups := by
  obtain ⟨ds, h1, h2⟩ := addDescendantConstraints_eq dag k
  rw [h2] at h
  cases h
  apply fixups_foldl_subtree
  intro c hc
  obtain ⟨d, _, rfl⟩ := List.mem_map.1 hc
  exact ⟨_, _, rfl⟩

/-- The constraint graph for requests to move subtrees. -/
theorem constraintGraph_subtrees {b : RebasePlanBuilder} (hg : WFGraph b.env.dag.graph)
    {rs : List (Oid × Oid)} (hb : b.initialConstraints = subtreeConstraints rs) :
    ∃ k, b.constraintGraph = .ok k ∧ k.fixups = [] ∧
      ∀ p c, Moves k p c ↔ ShouldMove b.env.dag rs p c := by
  have hsub : ∀ c ∈ subtreeConstraints rs, ∃ ps o, c = Constraint.moveSubtree ps o := by
    intro c hc
    obtain ⟨r, _, rfl⟩ := List.mem_map.1 hc
    exact ⟨_, _, rfl⟩
  have h1 := addConstraints_subtrees (dag := b.env.dag) (k := ⟨[], []⟩) hsub
  obtain ⟨ds, _, h2⟩ := addDescendantConstraints_eq b.env.dag
    ((subtreeConstraints rs).foldl addFirst ⟨[], []⟩)
  generalize hk : (ds.map fun d => Constraint.moveSubtree (b.env.dag.graph.parentsOf d) d).foldl
    addFirst ((subtreeConstraints rs).foldl addFirst ⟨[], []⟩) = k at h2
  have h3 : b.constraintGraph = .ok k := by
    unfold constraintGraph
    rw [hb, h1]
    exact h2
  refine ⟨k, h3, ?_⟩
  have hf : ((subtreeConstraints rs).foldl addFirst ⟨[], []⟩).fixups = [] := fixups_foldl_subtree hsub
  refine ⟨by rw [fixups_addDescendants h2, hf], ?_⟩
  intro p c
  rw [(moves_addDescendants h2 p c).1]
  have hnil : ∀ p c, ¬ Moves ⟨[], []⟩ p c := by rintro p c ⟨cs, h, _⟩; simp at h
  have hw : AMap.WF ((subtreeConstraints rs).foldl addFirst ⟨[], []⟩).inner :=
    (kwf_foldl_addFirst kwf_nil _).1.1
  have hmv : ∀ x, x ∈ ((subtreeConstraints rs).foldl addFirst ⟨[], []⟩).commitsToMove ++
      ((subtreeConstraints rs).foldl addFirst ⟨[], []⟩).commitsToFixup ↔ x ∈ rs.map Prod.fst := by
    intro x
    rw [List.mem_append]
    have : ((subtreeConstraints rs).foldl addFirst ⟨[], []⟩).commitsToFixup = [] := by
      unfold commitsToFixup; rw [hf]; rfl
    rw [this, mem_commitsToMove hw]
    simp only [moves_subtrees, hnil, and_false, or_false, List.not_mem_nil]
    exact ⟨fun ⟨p, h⟩ => h.mem, fun h => LastRequest.exists h⟩
  simp only [moves_subtrees, hnil, and_false, or_false, mem_parentsOf hg]
  unfold ShouldMove
  split
  · rename_i h
    simp only [mem_filterVisible hg, mem_diff, mem_descendants hg, hmv] at h
    constructor
    · intro hp
      exact .inr ⟨h.1.2, h.1.1.2, h.2.2, hp⟩
    · rintro (hp | hp)
      · exact absurd hp.mem h.1.2
      · exact hp.2.2.2
  · rename_i h
    simp only [mem_filterVisible hg, mem_diff, mem_descendants hg, hmv] at h
    constructor
    · exact .inl
    · rintro (hp | ⟨h1, h2, h3, h4⟩)
      · exact hp
      · exact absurd ⟨⟨⟨h4.child_mem, h2⟩, h1⟩, h4.child_mem, h3⟩ h

/-- Requests to move subtrees are regular if no merge commit is requested to be moved itself. -/
theorem regular_subtrees {b : RebasePlanBuilder} (hg : WFGraph b.env.dag.graph)
    {rs : List (Oid × Oid)} (hm : ∀ r ∈ rs, ¬ IsMerge b.env r.1) {k : Constraints}
    (hf : k.fixups = []) (hk : ∀ p c, Moves k p c ↔ ShouldMove b.env.dag rs p c) :
    Regular b.env k := by
  have hreq : ∀ c p, LastRequest rs c p → ¬ IsMerge b.env c := by
    intro c p h
    obtain ⟨r, hr, rfl⟩ := List.mem_map.1 h.mem
    exact hm r hr
  have hrw : ∀ c, Rewritten k c → ∃ p, Moves k p c := by
    rintro c (h | ⟨fs, h⟩)
    · exact h
    · rw [hf] at h; simp at h
  refine ⟨?_, ?_, ?_⟩
  · intro c p q hn hp hq
    rw [hk] at hp hq
    rcases hp with hp | ⟨hp, _, _, hp'⟩ <;> rcases hq with hq | ⟨hq, _, _, hq'⟩
    · exact hp.unique hq
    · exact absurd hp.mem hq
    · exact absurd hq.mem hp
    · rw [← mem_parentsOf hg] at hp' hq'
      unfold IsMerge PlanEnv.parentOids at hn
      generalize b.env.dag.graph.parentsOf c = l at hn hp' hq'
      match l, hn with
      | [], _ => simp at hp'
      | [x], _ =>
        rw [List.mem_singleton] at hp' hq'
        rw [hp', hq']
      | _ :: _ :: _, hn => simp at hn
  · intro c p hc hp _
    rw [hk] at hp
    rcases hp with hp | ⟨_, _, _, hp⟩
    · exact absurd hc (hreq _ _ hp)
    · exact (mem_parentsOf hg).2 hp
  · intro c p hc hcr hp hpr
    refine ⟨?_, hrw p hpr⟩
    obtain ⟨q, hq⟩ := hrw c hcr
    rw [hk] at hq ⊢
    rcases hq with hq | ⟨h1, h2, h3, _⟩
    · exact absurd hc (hreq _ _ hq)
    · exact .inr ⟨h1, h2, h3, (mem_parentsOf hg).1 hp⟩

/-! ### any requests, without merge commits -/

/-- Every commit is put on top of at most one. -/
def OneParent (k : Constraints) : Prop := ∀ c p q, Moves k p c → Moves k q c → p = q

theorem moves_addFirst_fixup {k : Constraints} {t f p c : Oid} :
    Moves (addFirst k (.fixUpCommit t f)) p c ↔ c ≠ f ∧ Moves k p c := by
  rw [moves_iff, moves_iff]
  simp only [addFirst, inMap_removeFromAll]
  tauto

theorem oneParent_addFirst {k : Constraints} (h : OneParent k) {x : Constraint}
    (hx : ∀ ps c, x = .moveSubtree ps c → ps.length ≤ 1) : OneParent (addFirst k x) := by
  cases x with
  | moveChildren a b => exact h
  | fixUpCommit t f =>
    intro c p q hp hq
    rw [moves_addFirst_fixup] at hp hq
    exact h c p q hp.2 hq.2
  | moveSubtree ps v =>
    intro c p q hp hq
    rw [moves_addFirst_subtree] at hp hq
    split at hp
    · simp only [*] at hq
      have := hx ps v rfl
      match ps, this with
      | [], _ => simp at hp
      | [x], _ => grind
      | _ :: _ :: _, h => simp at h
    · simp only [*] at hq
      exact h c p q hp hq

theorem oneParent_addSecond {dag : Dag} {heads : List Oid} {k k' : Constraints} {x : Constraint}
    (hw : KWF k) (hk : OneParent k) (h : addSecond dag heads k x = .ok k') : OneParent k' := by
  obtain ⟨_, a, cs, h1, h2⟩ := addSecond_ok h
  intro c p q hp hq
  rw [moves_iff, h1, inMap_addChildren] at hp hq
  have hn : c ∈ cs → ∀ r, ¬ Moves k r c := fun hc r hr => h2 c hc ((mem_commitsToMove hw.1.1).2 ⟨r, hr⟩)
  rcases hp with hp | ⟨hp, hpc⟩ <;> rcases hq with hq | ⟨hq, hqc⟩
  · exact hk c p q hp hq
  · exact absurd hp (hn hqc p)
  · exact absurd hq (hn hpc q)
  · rw [hp, hq]

theorem oneParent_addConstraints {dag : Dag} {k k' : Constraints} {cs : List Constraint}
    (hw : KWF k) (hk : OneParent k) (hcs : ∀ ps c, .moveSubtree ps c ∈ cs → ps.length ≤ 1)
    (h : addConstraints dag k cs = .ok k') : OneParent k' := by
  have h1 : OneParent (cs.foldl addFirst k) ∧ KWF (cs.foldl addFirst k) := by
    refine ⟨?_, kwf_foldl_addFirst hw cs⟩
    clear h
    induction cs generalizing k with
    | nil => exact hk
    | cons c cs ih =>
      refine ih (kwf_addFirst hw c) (oneParent_addFirst hk ?_) fun ps x hx => hcs ps x (List.mem_cons_of_mem _ hx)
      intro ps x hx
      exact hcs ps x (hx ▸ List.mem_cons_self)
  refine (foldlM_addSecond (fun k => OneParent k ∧ KWF k) ?_ h1 h).1
  rintro k k' c ⟨h1, h2⟩ h3
  refine ⟨oneParent_addSecond h2 h1 h3, ?_⟩
  obtain ⟨h1, p, l, h2', _⟩ := addSecond_ok h3
  refine ⟨?_, h1 ▸ h2.2⟩
  rw [h2']; exact mapWF_addChildren h2.1 _ _

/-- Without merge commits and multiple destinations, all requests are regular. -/
theorem regular_of_no_merges {b : RebasePlanBuilder} {k : Constraints}
    (hm : ∀ c, ¬ IsMerge b.env c)
    (hcs : ∀ ps c, .moveSubtree ps c ∈ b.initialConstraints → ps.length ≤ 1)
    (h : b.constraintGraph = .ok k) : Regular b.env k := by
  have ho : OneParent k := by
    obtain ⟨k1, h1, h2⟩ := constraintGraph_ok h
    have hnil : OneParent ⟨[], []⟩ := by rintro c p q ⟨cs, h, _⟩; simp at h
    refine oneParent_addConstraints (kwf_addConstraints kwf_nil h1)
      (oneParent_addConstraints kwf_nil hnil hcs h1) ?_ h2
    intro ps c hc
    obtain ⟨d, _, hd⟩ := List.mem_map.1 hc
    simp only [Constraint.moveSubtree.injEq] at hd
    rw [← hd.1]
    have := hm d
    unfold IsMerge PlanEnv.parentOids at this
    omega
  exact ⟨fun c p q _ => ho c p q, fun c _ hc => absurd hc (hm c), fun c _ hc => absurd hc (hm c)⟩

/-! ### what is squashed -/

theorem get?_addTo (m : AMap Oid (List Oid)) (a v p : Oid) :
    AMap.get? (addTo m a v) p = if a = p then
      some (if ((AMap.get? m a).getD []).contains v then (AMap.get? m a).getD []
        else (AMap.get? m a).getD [] ++ [v]) else AMap.get? m p := by
  unfold addTo
  simp only [AMap.get?_insert]

theorem fixups_foldl_addFirst {k : Constraints} {cs : List Constraint} {t f : Oid} :
    InMap (cs.foldl addFirst k).fixups t f ↔ InMap k.fixups t f ∨ .fixUpCommit t f ∈ cs := by
  induction cs generalizing k with
  | nil => simp
  | cons c cs ih =>
    rw [List.foldl_cons, ih]
    cases c with
    | moveChildren a b => simp [addFirst]
    | moveSubtree a b => simp [addFirst]
    | fixUpCommit a b =>
      simp only [addFirst, inMap_addTo, List.mem_cons, Constraint.fixUpCommit.injEq]
      tauto

theorem fixups_nonempty_foldl {k : Constraints} {cs : List Constraint}
    (hk : ∀ t fs, AMap.get? k.fixups t = some fs → fs ≠ []) :
    ∀ t fs, AMap.get? (cs.foldl addFirst k).fixups t = some fs → fs ≠ [] := by
  induction cs generalizing k with
  | nil => exact hk
  | cons c cs ih =>
    rw [List.foldl_cons]
    refine ih ?_
    cases c with
    | moveChildren a b => exact hk
    | moveSubtree a b => exact hk
    | fixUpCommit a b =>
      intro t fs h
      simp only [addFirst, get?_addTo] at h
      split at h
      · simp only [Option.some.injEq] at h
        subst h
        split
        · rename_i h1
          intro h2
          rw [h2] at h1
          simp at h1
        · simp
      · exact hk t fs h

theorem fixups_addConstraints {dag : Dag} {k k' : Constraints} {cs : List Constraint}
    (h : addConstraints dag k cs = .ok k') : k'.fixups = (cs.foldl addFirst k).fixups := by
  refine foldlM_addSecond (fun x => x.fixups = (cs.foldl addFirst k).fixups) ?_ rfl h
  intro k k' c h1 h2
  rw [(addSecond_ok h2).1, h1]

/-- The squashed commits are exactly the requested ones. -/
theorem inMap_fixups {b : RebasePlanBuilder} {k : Constraints} (h : b.constraintGraph = .ok k)
    {t f : Oid} : InMap k.fixups t f ↔ .fixUpCommit t f ∈ b.initialConstraints := by
  obtain ⟨k1, h1, h2⟩ := constraintGraph_ok h
  rw [fixups_addDescendants h2, fixups_addConstraints h1, fixups_foldl_addFirst]
  simp [InMap]

theorem fixups_nonempty {b : RebasePlanBuilder} {k : Constraints} (h : b.constraintGraph = .ok k)
    {t : Oid} {fs : List Oid} (hf : AMap.get? k.fixups t = some fs) : fs ≠ [] := by
  obtain ⟨k1, h1, h2⟩ := constraintGraph_ok h
  rw [fixups_addDescendants h2, fixups_addConstraints h1] at hf
  exact fixups_nonempty_foldl (by simp) t fs hf

theorem fixup_target {b : RebasePlanBuilder} {k : Constraints} (h : b.constraintGraph = .ok k)
    {t : Oid} {fs : List Oid} (hf : AMap.get? k.fixups t = some fs) :
    ∃ f, .fixUpCommit t f ∈ b.initialConstraints := by
  obtain ⟨f, l, rfl⟩ := List.exists_cons_of_ne_nil (fixups_nonempty h hf)
  exact ⟨f, (inMap_fixups h).1 ⟨_, hf, List.mem_cons_self⟩⟩

theorem squashed_iff {k : Constraints} (hw : KWF k) {c : Oid} :
    Squashed k c ↔ c ∈ k.fixupCommits := by
  have := mem_commitsToMove (k := ⟨k.fixups, []⟩) hw.2.1 (c := c)
  exact this.symm

/-! ### the search for an unconstrained ancestor ends -/

theorem getOnlyParentOid_isParent {d : Dag} (hg : WFGraph d.graph) {o p : Oid}
    (h : d.getOnlyParentOid o = some p) : IsParent d.graph p o := by
  unfold Dag.getOnlyParentOid at h
  split at h
  · rename_i q hq
    cases h
    have : p ∈ (d.graph.parents [o]).dedup := by rw [hq]; simp
    rw [List.mem_dedup, mem_parents hg] at this
    simpa using this
  · simp at h

theorem unconstrainedAncestor_no_fuel {d : Dag} (hg : WFGraph d.graph) {heads toMove : List Oid}
    (fuel : Nat) (p : Oid) (hf : ageOf d.graph.entries p < fuel) :
    unconstrainedAncestor d heads toMove fuel p ≠ .error .fuel := by
  induction fuel generalizing p with
  | zero => omega
  | succ n ih =>
    unfold unconstrainedAncestor
    split
    · split
      · simp
      · rename_i p' hp
        have := age_lt hg (getOnlyParentOid_isParent hg hp)
        exact ih p' (by omega)
    · simp

theorem addSecond_no_fuel {d : Dag} (hg : WFGraph d.graph) {heads : List Oid} {k : Constraints}
    {c : Constraint} : addSecond d heads k c ≠ .error .fuel := by
  have h : ∀ a b, moveChildren d heads k a b ≠ .error .fuel := by
    intro a b
    unfold moveChildren
    split
    · simp
    · rename_i p _
      have := unconstrainedAncestor_no_fuel hg (heads := heads) (toMove := k.commitsToMove)
        (d.graph.entries.length + 1) p (by have := ageOf_le d.graph.entries p; omega)
      split
      · rename_i e he
        rw [he] at this
        simpa using this
      · simp
  cases c with
  | moveChildren a b => exact h a b
  | fixUpCommit t f => exact h f f
  | moveSubtree ps c => simp [addSecond]

theorem foldlM_except_ne {σ α ε : Type} {f : σ → α → Except ε σ} {l : List α} {e : ε}
    (h : ∀ s a, f s a ≠ .error e) (s : σ) : l.foldlM f s ≠ .error e := by
  induction l generalizing s with
  | nil => intro h; cases h
  | cons a l ih =>
    rw [List.foldlM_cons]
    cases ha : f s a with
    | error e' =>
      intro h'
      have : e' = e := by
        have h2 : (Except.error e' : Except ε σ) = .error e := h'
        simpa using h2
      exact h s a (this ▸ ha)
    | ok s1 => exact ih s1

theorem addConstraints_no_fuel {d : Dag} (hg : WFGraph d.graph) {k : Constraints}
    {cs : List Constraint} : addConstraints d k cs ≠ .error .fuel :=
  foldlM_except_ne (fun _ _ => addSecond_no_fuel hg) _

theorem constraintGraph_no_fuel {b : RebasePlanBuilder} (hg : WFGraph b.env.dag.graph) :
    b.constraintGraph ≠ .error .fuel := by
  unfold constraintGraph
  split
  · rename_i e he
    intro h
    exact addConstraints_no_fuel hg (by rw [he]; simpa using h)
  · exact addConstraints_no_fuel hg

/-! ### commits which have been applied upstream -/

theorem mem_gcaAll {g : CommitGraph Oid} (hg : WFGraph g) {a b m : Oid} :
    m ∈ g.gcaAll [a, b] ↔ IsMergeBase g a b m := by
  unfold CommitGraph.gcaAll CommitGraph.headsAncestors CommitGraph.commonAncestors IsMergeBase
  simp only [List.isEmpty_cons, Bool.false_eq_true, if_false, List.mem_filter, List.all_cons,
    List.all_nil, Bool.and_true, Bool.and_eq_true, isAncestor_iff hg, List.all_eq_true,
    Bool.or_eq_true, decide_eq_true_eq, Bool.not_eq_true']
  constructor
  · rintro ⟨⟨h1, ⟨_, h2⟩, _, h3⟩, h4⟩
    refine ⟨h1, h2, h3, fun x hx h5 h6 h7 => ?_⟩
    rcases h4 x ⟨hx, ⟨hx, h5⟩, hx, h6⟩ with h | h
    · exact h
    · rw [(isAncestor_iff hg).2 ⟨h1, h7⟩] at h; simp at h
  · rintro ⟨h1, h2, h3, h4⟩
    refine ⟨⟨h1, ⟨h1, h2⟩, h1, h3⟩, ?_⟩
    rintro x ⟨hx, ⟨_, h5⟩, _, h6⟩
    by_cases h7 : Anc g m x
    · exact .inl (h4 x hx h5 h6 h7)
    · right
      by_contra hn
      rw [Bool.not_eq_false, isAncestor_iff hg] at hn
      exact h7 hn.2

theorem getPatchId_some {env : PlanEnv} {c : Oid} {x : Nat} :
    env.getPatchId c = some x ↔ ¬ IsMerge env c ∧ env.patchId c = x := by
  unfold PlanEnv.getPatchId IsMerge
  split
  · rename_i h; simp; intro h1; omega
  · rename_i h; simp; intro _; omega

theorem patchApplied_iff {env : PlanEnv} (hg : WFGraph env.dag.graph) {k : Constraints} {root : Oid}
    {ps : List Oid} {c : Oid} :
    patchAlreadyAppliedUpstream env (getUpstreamPatchIds env k root ps) c = true ↔
      ∃ u, Twin env root (· ∈ ps) c u ∧ env.touchedPaths u ∈ k.commitsToMove.map env.touchedPaths := by
  unfold patchAlreadyAppliedUpstream
  have key : ∀ x, x ∈ getUpstreamPatchIds env k root ps ↔ ∃ u,
      ((∃ d m, d ∈ ps ∧ IsMergeBase env.dag.graph root d m ∧ Anc env.dag.graph m u) ∧
      ∃ d, d ∈ ps ∧ Anc env.dag.graph u d) ∧ ¬ IsMerge env u ∧ env.patchId u = x ∧
      env.touchedPaths u ∈ k.commitsToMove.map env.touchedPaths := by
    intro x
    unfold getUpstreamPatchIds
    simp only [List.mem_filterMap, List.mem_filter, getPatchId_some, shouldCheckPatchId,
      List.contains_iff_mem, mem_range hg, List.mem_flatMap, mem_gcaAll hg]
    constructor
    · rintro ⟨u, ⟨⟨h1, ⟨m, ⟨d, h2, h3⟩, h4⟩, d', h5, h6⟩, h7⟩, h8, h9⟩
      exact ⟨u, ⟨⟨d, m, h2, h3, h4⟩, d', h5, h6⟩, h8, h9, h7⟩
    · rintro ⟨u, ⟨⟨d, m, h2, h3, h4⟩, d', h5, h6⟩, h8, h9, h7⟩
      exact ⟨u, ⟨⟨h4.mem_up h3.1, ⟨m, ⟨d, h2, h3⟩, h4⟩, d', h5, h6⟩, h7⟩, h8, h9⟩
  cases hc : env.getPatchId c with
  | none =>
    simp only [Bool.false_eq_true, false_iff]
    rintro ⟨u, hu, _⟩
    rw [getPatchId_some.2 ⟨hu.no_merge.2, rfl⟩] at hc
    simp at hc
  | some x =>
    obtain ⟨h1, rfl⟩ := getPatchId_some.1 hc
    simp only [List.contains_iff_mem, key]
    constructor
    · rintro ⟨u, ⟨h2, h3⟩, h4, h5, h6⟩
      exact ⟨u, ⟨h2, h3, ⟨h4, h1⟩, h5⟩, h6⟩
    · rintro ⟨u, ⟨h2, h3, h4, h5⟩, h6⟩
      exact ⟨u, ⟨h2, h3⟩, h4.1, h5, h6⟩

/-- The commands say whether the commit was found upstream. -/
def SkipRight (b : RebasePlanBuilder) (k : Constraints) : RebaseCommand → Prop
  | .skipUpstreamAppliedCommit c => ∃ up, UpstreamOf b k up ∧
      patchAlreadyAppliedUpstream b.env up c = true
  | .pick c _ | .merge c _ | .replace c _ _ => ∃ up, UpstreamOf b k up ∧
      patchAlreadyAppliedUpstream b.env up c = false
  | _ => True

theorem commandsFor_skipRight {b : RebasePlanBuilder} {k : Constraints} {up : List Nat}
    {cur : Oid} {s : BuildState} {cs : List RebaseCommand} (hu : UpstreamOf b k up)
    (h : commandsFor b k up cur s = some cs) : ∀ c ∈ cs, SkipRight b k c := by
  unfold commandsFor at h
  split at h
  · rename_i hp
    cases h
    intro c hc
    simp only [List.mem_singleton] at hc
    subst hc
    exact ⟨up, hu, hp⟩
  rename_i hp
  rw [Bool.not_eq_true] at hp
  split at h
  · split at h
    · simp at h
    split at h
    · simp at h
    split at h
    · simp at h
    split at h
    all_goals
      cases h
      simp only [List.mem_cons, List.not_mem_nil, or_false]
      rintro c (rfl | rfl)
      · trivial
      · exact ⟨up, hu, hp⟩
  split at h
  · cases h; simp
  split at h
  · cases h
    simp only [List.mem_cons, List.not_mem_nil, or_false]
    rintro c rfl
    exact ⟨up, hu, hp⟩
  · cases h
    simp only [List.mem_cons, List.not_mem_nil, or_false]
    rintro c (rfl | rfl)
    · exact ⟨up, hu, hp⟩
    · trivial

theorem upstreamOf_cases {b : RebasePlanBuilder} {k : Constraints} (hw : KWF k) {up : List Nat}
    (h : UpstreamOf b k up) : ∃ root ps, RootEdge b.env k root (· ∈ ps) ∧
      up = if b.permissions.detectDuplicateCommitsViaPatchId
        then getUpstreamPatchIds b.env k root ps else [] := by
  obtain ⟨r, hr, ps, c, h1, h2⟩ := h
  rcases mem_findRoots hr with ⟨q, d, rfl, hq, hm⟩ | ⟨t, rfl, ht⟩
  · simp only [rootEdge, Except.ok.injEq, Prod.mk.injEq] at h1
    obtain ⟨rfl, rfl⟩ := h1
    refine ⟨d, [q], .inl ⟨q, hm, ((mem_unconstrainedNodes hw).1 hq).2, ?_⟩, h2⟩
    simp
  · simp only [rootEdge, Except.ok.injEq, Prod.mk.injEq] at h1
    obtain ⟨rfl, rfl⟩ := h1
    have := (mem_unconstrainedFixup hw).1 ht
    exact ⟨t, _, .inr ⟨this.1, this.2, fun d => Iff.rfl⟩, h2⟩

end Verif.Spec
