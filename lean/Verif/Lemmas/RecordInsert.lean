import Verif.Lemmas.Record

/-! Lemmas about `record --insert`. -/

namespace Verif.Spec

open Verif Verif.RebasePlanBuilder Verif.Constraints Verif.Props

/-- A rebase in memory succeeds only without merge commits. -/
theorem no_merge_moved {b : RebasePlanBuilder} {k : Constraints} (hk : b.constraintGraph = .ok k)
    (hf : k.fixups = []) (hreg : Regular b.env k) (hrep : b.replacementCommits = []) {plan : RebasePlan}
    (h : b.build = .ok (.ok (some plan))) {ee : ExecEnv} {head : Option Oid} {s : ExecState}
    {newHead : Option Oid} (hx : ee.rebaseInMemory head plan = .ok (s, newHead)) {p c : Oid}
    (hpc : Moves k p c) : ¬ IsMerge b.env c := by
  intro hm
  have he := plan_each_once_partial b k hk hreg plan h
  have hin : c ∈ handledCommits plan.commands :=
    he.complete c (.inl ⟨p, hpc⟩) (by unfold Squashed; rw [hf]; simp)
  obtain ⟨cmd, hcmd, hc⟩ := List.mem_filterMap.1 hin
  have hpk := picks_apply b k hk plan h
  cases cmd with
  | pick x l => simp only [handled, Option.some.injEq] at hc; subst hc; exact (hpk.1 _ _ hcmd).2 hm
  | merge x ps => exact runs_no_merge (rebaseInMemory_ok hx).1 _ _ hcmd
  | replace x r ps => have := hpk.2.1 _ _ _ hcmd; rw [hrep] at this; simp at this
  | skipUpstreamAppliedCommit x =>
    simp only [handled, Option.some.injEq] at hc; subst hc; exact hpk.2.2 _ hcmd hm
  | _ => simp [handled] at hc

theorem mem_siblingsOf {d : Dag} (hg : WFGraph d.graph) {seen : Oid → Prop}
    (hs : ∀ o, seen o ↔ o ∈ d.graph.nodes ∧ ∃ x ∈ d.visibleHeads, Anc d.graph o x) {head c : Oid} :
    c ∈ siblingsOf d head ↔ Sibling d.graph seen head c := by
  unfold siblingsOf Sibling
  simp only
  rw [mem_filterVisible hg, mem_diff, mem_children hg]
  simp only [mem_parents hg, List.mem_singleton, exists_eq_left]
  rw [hs]
  tauto

theorem mem_insertedParents {head p : Oid} {hps ps : List Oid} :
    p ∈ insertedParents head hps ps ↔ ∃ x ∈ ps, (x ∈ hps ∧ p = head) ∨ (x ∉ hps ∧ p = x) := by
  unfold insertedParents
  simp only [List.mem_map]
  refine exists_congr fun x => and_congr_right fun _ => ?_
  by_cases hx : x ∈ hps
  · rw [if_pos (by simpa using hx)]; simp [hx, eq_comm]
  · rw [if_neg (by simpa using hx)]; simp [hx, eq_comm]

/-- The requests for the siblings. -/
theorem insertOne_requests {commits : Oid → Option CommitData} {head : Oid} {hps : List Oid}
    {parents : Oid → List Oid} {X : List Oid}
    (hX : ∀ c ∈ X, parents c ≠ [] ∧ ∃ d, commits c = some d ∧ d.parents = parents c) (b : RebasePlanBuilder) :
    X.foldlM (insertOne commits head hps) b = .ok { b with
      initialConstraints := b.initialConstraints ++
        X.map fun c => .moveSubtree (insertedParents head hps (parents c)) c } := by
  induction X generalizing b with
  | nil => simp [pure, Except.pure]
  | cons c X ih =>
    obtain ⟨h1, d, h2, h3⟩ := hX c (by simp)
    have : insertOne commits head hps b c = .ok { b with initialConstraints := b.initialConstraints ++
        [.moveSubtree (insertedParents head hps (parents c)) c] } := by
      unfold insertOne RebasePlanBuilder.moveSubtree
      rw [h2]
      simp only
      rw [h3, if_neg]
      simpa [insertedParents] using h1
    rw [List.foldlM_cons, this]
    simp only [bind, Except.bind]
    rw [ih fun x hx => hX x (List.mem_cons_of_mem _ hx)]
    simp

/-- The plan for the siblings: what is known about it. -/
theorem insert_moves {b : RebasePlanBuilder} (hg : WFGraph b.env.dag.graph) {seen : Oid → Prop}
    (hs : ∀ o, seen o ↔ o ∈ b.env.dag.graph.nodes ∧ ∃ x ∈ b.env.dag.visibleHeads, Anc b.env.dag.graph o x)
    {head : Oid} {X : List Oid} (hX : ∀ c, c ∈ X ↔ Sibling b.env.dag.graph seen head c)
    (hb : b.initialConstraints = X.map fun c => .moveSubtree
      (insertedParents head (b.env.dag.graph.parentsOf head) (b.env.dag.graph.parentsOf c)) c) :
    ∃ k, b.constraintGraph = .ok k ∧ k.fixups = [] ∧
      (∀ p c, Moves k p c → ∃ s, Sibling b.env.dag.graph seen head s ∧ Anc b.env.dag.graph s c) ∧
      (∀ s, Sibling b.env.dag.graph seen head s → Moves k head s) ∧
      (∀ x c, seen c → ¬ Sibling b.env.dag.graph seen head c → IsParent b.env.dag.graph x c →
        (∃ s, Sibling b.env.dag.graph seen head s ∧ Anc b.env.dag.graph s c) → Moves k x c) ∧
      ((∀ s, Sibling b.env.dag.graph seen head s → ¬ Anc b.env.dag.graph s head) →
        ∀ p c, Moves k p c ↔ OnSibling b.env.dag.graph seen head p c) := by
  obtain ⟨k, hk, hf, hmv⟩ := constraintGraph_requests (b := b) hg (X := X) hb (by
    intro c hc
    obtain ⟨_, _, p, _, hp⟩ := (hX c).1 hc
    rw [← mem_parentsOf hg] at hp
    intro e
    unfold insertedParents at e
    rw [List.map_eq_nil_iff] at e
    rw [e] at hp
    simp at hp)
  have hseen : ∀ c s, Sibling b.env.dag.graph seen head s → Anc b.env.dag.graph s c →
      ((∃ h ∈ b.env.dag.visibleHeads, Anc b.env.dag.graph c h) ↔ seen c) := by
    intro c s h1 h2
    rw [hs]
    have := h2.mem_up ((hs s).1 h1.1).1
    tauto
  have hmv' : ∀ p c, Moves k p c ↔
      (Sibling b.env.dag.graph seen head c ∧ ∃ x, IsParent b.env.dag.graph x c ∧
        ((IsParent b.env.dag.graph x head ∧ p = head) ∨ (¬ IsParent b.env.dag.graph x head ∧ p = x))) ∨
      (¬ Sibling b.env.dag.graph seen head c ∧ seen c ∧
        (∃ s, Sibling b.env.dag.graph seen head s ∧ Anc b.env.dag.graph s c) ∧
        IsParent b.env.dag.graph p c) := by
    intro p c
    rw [hmv]
    simp only [hX, mem_insertedParents, mem_parentsOf hg]
    refine or_congr Iff.rfl (and_congr_right fun _ => ?_)
    constructor
    · rintro ⟨h1, ⟨s, h2, h3⟩, h4⟩; exact ⟨(hseen c s h2 h3).1 h1, ⟨s, h2, h3⟩, h4⟩
    · rintro ⟨h1, ⟨s, h2, h3⟩, h4⟩; exact ⟨(hseen c s h2 h3).2 h1, ⟨s, h2, h3⟩, h4⟩
  refine ⟨k, hk, hf, ?_, ?_, ?_, ?_⟩
  · intro p c h
    rcases (hmv' p c).1 h with ⟨h, _⟩ | ⟨_, _, h, _⟩
    · exact ⟨c, h, .refl⟩
    · exact h
  · intro s h
    obtain ⟨_, _, p, h1, h2⟩ := id h
    exact (hmv' _ _).2 (.inl ⟨h, p, h2, .inl ⟨h1, rfl⟩⟩)
  · intro x c h1 h2 h3 h4
    exact (hmv' _ _).2 (.inr ⟨h2, h1, h4, h3⟩)
  · intro hno p c
    rw [hmv']
    unfold OnSibling
    constructor
    · rintro (⟨h1, h2⟩ | ⟨h1, h2, ⟨s, h3, h4⟩, h5⟩)
      · exact ⟨⟨h1.1, c, h1, .refl⟩, h2⟩
      · refine ⟨⟨h2, s, h3, h4⟩, p, h5, .inr ⟨fun hp => h1 ⟨h2, ?_, p, hp, h5⟩, rfl⟩⟩
        rintro rfl
        exact hno s h3 h4
    · rintro ⟨⟨h1, s, h2, h3⟩, x, h4, h5⟩
      by_cases hc : Sibling b.env.dag.graph seen head c
      · exact .inl ⟨hc, x, h4, h5⟩
      · rcases h5 with ⟨h5, _⟩ | ⟨_, rfl⟩
        · refine absurd ⟨h1, ?_, x, h5, h4⟩ hc
          rintro rfl
          exact hno s h2 h3
        · exact .inr ⟨hc, h1, ⟨s, h2, h3⟩, h4⟩

/-- If a sibling is an ancestor, there is a cycle. -/
theorem insert_cycle {b : RebasePlanBuilder} (hg : WFGraph b.env.dag.graph) {seen : Oid → Prop}
    (hsp : ∀ a c, Anc b.env.dag.graph a c → seen c → seen a)
    {head : Oid} (hh : seen head) {k : Constraints}
    (h1 : ∀ s, Sibling b.env.dag.graph seen head s → Moves k head s)
    (h2 : ∀ x c, seen c → ¬ Sibling b.env.dag.graph seen head c → IsParent b.env.dag.graph x c →
        (∃ s, Sibling b.env.dag.graph seen head s ∧ Anc b.env.dag.graph s c) → Moves k x c)
    {s : Oid} (hs : Sibling b.env.dag.graph seen head s) (ha : Anc b.env.dag.graph s head) :
    ∃ c, Relation.TransGen (Moves k) c c := by
  have : ∀ c, Anc b.env.dag.graph s c → Anc b.env.dag.graph c head →
      ∃ s', Sibling b.env.dag.graph seen head s' ∧ Relation.ReflTransGen (Moves k) s' c := by
    intro c hc
    induction hc with
    | refl => intro _; exact ⟨s, hs, .refl⟩
    | @step x c hx hp ih =>
      intro hch
      obtain ⟨s', h3, h4⟩ := ih ((Anc.of_parent hp).trans hch)
      by_cases hsc : Sibling b.env.dag.graph seen head c
      · exact ⟨c, hsc, .refl⟩
      · exact ⟨s', h3, h4.tail (h2 x c (hsp c head hch hh) hsc hp ⟨s, hs, hx.trans (.of_parent hp)⟩)⟩
  obtain ⟨s', h3, h4⟩ := this head ha .refl
  exact ⟨head, Relation.TransGen.head' (h1 s' h3) h4⟩

section

variable {g : CommitGraph Oid} {seen : Oid → Prop} {head : Oid}

theorem onSibling_not_head (hno : ∀ s, Sibling g seen head s → ¬ Anc g s head) {p : Oid} :
    ¬ OnSibling g seen head p head := by
  rintro ⟨⟨_, s, h1, h2⟩, _⟩
  exact hno s h1 h2

/-- A commit which is moved is put on those of its own parents which are moved. -/
theorem onSibling_own_parent (hno : ∀ s, Sibling g seen head s → ¬ Anc g s head) {p q c : Oid}
    (h : OnSibling g seen head p c) (hp : OnSibling g seen head q p) : IsParent g p c := by
  obtain ⟨_, x, hx, ⟨_, rfl⟩ | ⟨_, rfl⟩⟩ := h
  · exact absurd hp (onSibling_not_head hno)
  · exact hx

theorem onSibling_acyclic (hg : WFGraph g) (hno : ∀ s, Sibling g seen head s → ¬ Anc g s head) (c : Oid) :
    ¬ Relation.TransGen (OnSibling g seen head) c c := by
  have : ∀ a c, Relation.TransGen (OnSibling g seen head) a c → (∃ p, OnSibling g seen head p c) ∧
      ((∃ p, OnSibling g seen head p a) → ageOf g.entries a < ageOf g.entries c) := by
    intro a c h
    induction h with
    | single h => exact ⟨⟨_, h⟩, fun ⟨p, ha⟩ => age_lt hg (onSibling_own_parent hno h ha)⟩
    | tail _ h ih =>
      obtain ⟨⟨q, hq⟩, ih⟩ := ih
      exact ⟨⟨_, h⟩, fun ha => (ih ha).trans (age_lt hg (onSibling_own_parent hno h hq))⟩
  intro h
  obtain ⟨h1, h2⟩ := this c c h
  exact absurd (h2 h1) (Nat.lt_irrefl _)

end

theorem insert_regular {b : RebasePlanBuilder} (hg : WFGraph b.env.dag.graph) {seen : Oid → Prop} {head : Oid}
    (hno : ∀ s, Sibling b.env.dag.graph seen head s → ¬ Anc b.env.dag.graph s head) {k : Constraints}
    (hf : k.fixups = []) (hmv : ∀ p c, Moves k p c ↔ OnSibling b.env.dag.graph seen head p c) :
    Regular b.env k := by
  have hrw : ∀ c, Rewritten k c ↔ ∃ p, OnSibling b.env.dag.graph seen head p c := by
    intro c
    unfold Rewritten
    rw [hf]
    simp [hmv]
  refine ⟨?_, ?_, ?_⟩
  · intro c p q hm hp hq
    rw [hmv] at hp hq
    obtain ⟨_, x, hx, hp⟩ := hp
    obtain ⟨_, y, hy, hq⟩ := hq
    have := parentsOf_unique hg (Nat.not_lt.1 hm) hx hy
    subst this
    rcases hp with ⟨h1, rfl⟩ | ⟨h1, rfl⟩ <;> rcases hq with ⟨h2, rfl⟩ | ⟨h2, rfl⟩
    · rfl
    · exact absurd h1 h2
    · exact absurd h2 h1
    · rfl
  · intro c p _ hp hpr
    rw [hmv] at hp
    obtain ⟨q, hq⟩ := (hrw p).1 hpr
    exact (mem_parentsOf hg).2 (onSibling_own_parent hno hp hq)
  · intro c p _ hc hp hpr
    obtain ⟨q, hq⟩ := (hrw p).1 hpr
    obtain ⟨q', hq'⟩ := (hrw c).1 hc
    refine ⟨(hmv _ _).2 ⟨hq'.1, p, (mem_parentsOf hg).1 hp, .inr ⟨fun hph => ?_, rfl⟩⟩, q, (hmv _ _).2 hq⟩
    obtain ⟨⟨_, s, h1, h2⟩, _⟩ := hq
    exact hno s h1 (h2.trans (.of_parent hph))

end Verif.Spec

namespace Verif.Spec

open Verif

/-! ### the graph with the new commit -/

section

variable {graph : CommitGraph Oid} {h new : Oid}

/-- The graph has one more commit, on top of `h`. -/
structure OnTop (graph graph' : CommitGraph Oid) (h new : Oid) : Prop where
  wf : WFGraph graph'
  nodes : ∀ c, c ∈ graph'.nodes ↔ c ∈ graph.nodes ∨ c = new
  parents : ∀ c ∈ graph.nodes, graph'.parentsOf c = graph.parentsOf c
  parent : ∀ p c, c ∈ graph.nodes → (IsParent graph' p c ↔ IsParent graph p c)
  parent_new : ∀ p, IsParent graph' p new ↔ p = h
  anc_old : ∀ a c, c ≠ new → (Anc graph' a c ↔ Anc graph a c)
  anc_new : ∀ a, Anc graph' a new ↔ a = new ∨ Anc graph a h

theorem onTop (hg : WFGraph graph) (hh : h ∈ graph.nodes) (hn : new ∉ graph.nodes) :
    OnTop graph (grown graph new [h]) h new := by
  have hw : WFEntries ((new, [h]) :: graph.entries) := .cons hn (by
    intro p hp
    rw [List.mem_singleton.1 hp]
    exact hh) hg
  unfold grown
  rw [if_neg hn]
  have hpar : ∀ c ∈ graph.nodes, CommitGraph.parentsOf ⟨(new, [h]) :: graph.entries⟩ c = graph.parentsOf c := by
    intro c hc
    have hc : new ≠ c := by rintro rfl; exact hn hc
    unfold CommitGraph.parentsOf
    simp [AMap.get?, hc]
  refine ⟨hw, ?_, hpar, ?_, ?_, ?_, ?_⟩
  · intro c
    show c ∈ new :: graph.nodes ↔ _
    rw [List.mem_cons, or_comm]
  · intro p c hc
    rw [← mem_parentsOf (g := ⟨(new, [h]) :: graph.entries⟩) hw, hpar c hc, mem_parentsOf hg]
  · intro p
    rw [← mem_parentsOf (g := ⟨(new, [h]) :: graph.entries⟩) hw]
    unfold CommitGraph.parentsOf
    simp [AMap.get?]
  · intro a c hc
    exact anc_cons_of_ne hw hc
  · intro a
    rw [anc_cons_self hw]
    simp

namespace OnTop

variable {graph' : CommitGraph Oid} {seen seen' : Oid → Prop}

theorem anc (T : OnTop graph graph' h new) (hn : new ∉ graph.nodes) (a c : Oid) (hc : c ∈ graph.nodes) :
    Anc graph' a c ↔ Anc graph a c :=
  T.anc_old a c (by rintro rfl; exact hn hc)

/-- Nothing which is strictly above `h` is below the new commit. -/
theorem not_below (T : OnTop graph graph' h new) (hg : WFGraph graph) (hn : new ∉ graph.nodes) {c : Oid}
    (hc : c ∈ graph.nodes) (hne : c ≠ h) (ha : Anc graph h c) : ¬ Anc graph' c new := by
  rw [T.anc_new]
  rintro (rfl | h1)
  · exact hn hc
  · exact hne (h1.antisymm hg ha)

theorem sibling (T : OnTop graph graph' h new) (hg : WFGraph graph) (hn : new ∉ graph.nodes)
    (h1 : ∀ c, seen c → c ∈ graph.nodes) (h2 : ∀ c, seen' c → c ∈ graph'.nodes)
    (hs : ∀ c ∈ graph.nodes, c ≠ h → Anc graph h c → (seen' c ↔ seen c)) {c : Oid} :
    Sibling graph' seen' new c ↔ seen c ∧ IsParent graph h c := by
  unfold Sibling
  simp only [T.parent_new, exists_eq_left]
  constructor
  · rintro ⟨h3, h4, h5⟩
    have hc : c ∈ graph.nodes := ((T.nodes c).1 (h2 c h3)).resolve_right h4
    rw [T.parent h c hc] at h5
    refine ⟨(hs c hc ?_ (.of_parent h5)).1 h3, h5⟩
    rintro rfl
    exact not_isParent_self hg h5
  · rintro ⟨h3, h4⟩
    have hc := h1 c h3
    refine ⟨(hs c hc ?_ (.of_parent h4)).2 h3, ?_, (T.parent h c hc).2 h4⟩
    · rintro rfl
      exact not_isParent_self hg h4
    · rintro rfl
      exact hn hc

/-- The commits on top of the siblings of the new commit are those on top of `h`. -/
theorem above (T : OnTop graph graph' h new) (hg : WFGraph graph) (hn : new ∉ graph.nodes)
    (h1 : ∀ c, seen c → c ∈ graph.nodes) (h2 : ∀ c, seen' c → c ∈ graph'.nodes)
    (hp : ∀ a c, Anc graph a c → seen c → seen a)
    (hs : ∀ c ∈ graph.nodes, c ≠ h → Anc graph h c → (seen' c ↔ seen c)) {c : Oid} :
    (∃ s, Sibling graph' seen' new s ∧ Anc graph' s c) ∧ seen' c ↔ Above graph seen h c := by
  simp only [T.sibling hg hn h1 h2 hs]
  unfold Above
  have key : ∀ s, seen s → IsParent graph h s → Anc graph s c → c ≠ h ∧ Anc graph h c := by
    intro s _ h4 h5
    refine ⟨?_, (Anc.of_parent h4).trans h5⟩
    rintro rfl
    have := h5.antisymm hg (.of_parent h4)
    subst this
    exact not_isParent_self hg h4
  constructor
  · rintro ⟨⟨s, ⟨h3, h4⟩, h5⟩, h6⟩
    have hc : c ∈ graph.nodes := by
      rcases (T.nodes c).1 (h2 c h6) with hc | rfl
      · exact hc
      · refine absurd h5 (T.not_below hg hn (h1 s h3) ?_ (.of_parent h4))
        rintro rfl
        exact not_isParent_self hg h4
    obtain ⟨k1, k2⟩ := key s h3 h4 ((T.anc hn s c hc).1 h5)
    exact ⟨(hs c hc k1 k2).1 h6, k1, k2⟩
  · rintro ⟨h3, h4, h5⟩
    have hc := h1 c h3
    rcases anc_iff_child.1 h5 with h6 | ⟨s, h6, h7⟩
    · exact absurd h6.symm h4
    · exact ⟨⟨s, ⟨hp s c h7 h3, h6⟩, (T.anc hn s c hc).2 h7⟩, (hs c hc h4 h5).2 h3⟩

theorem onSibling (T : OnTop graph graph' h new) (hg : WFGraph graph) (hn : new ∉ graph.nodes)
    (h1 : ∀ c, seen c → c ∈ graph.nodes) (h2 : ∀ c, seen' c → c ∈ graph'.nodes)
    (hp : ∀ a c, Anc graph a c → seen c → seen a)
    (hs : ∀ c ∈ graph.nodes, c ≠ h → Anc graph h c → (seen' c ↔ seen c)) :
    OnSibling graph' seen' new = OnAmended graph seen h new := by
  funext p c
  refine propext ?_
  unfold OnSibling OnAmended
  rw [and_comm (a := seen' c), T.above hg hn h1 h2 hp hs]
  refine and_congr_right fun hc => exists_congr fun x => ?_
  rw [T.parent x c (h1 c hc.1), T.parent_new]
  refine and_congr_right fun _ => ?_
  by_cases hx : x = h
  · simp [hx]
  · simp [hx]

end OnTop

/-- What is visible on top of `h` is the same before and after. -/
theorem seen_recorded {graph' : CommitGraph Oid} (T : OnTop graph graph' h new) (hg : WFGraph graph)
    (hn : new ∉ graph.nodes) {main : Text} {git git' : GitState} {es es' : List Event}
    (hh : git.headInfo.oid = some h) (hh' : git'.headInfo.oid = some new) {moved : Option Text}
    (hbr : ∀ name, moved = some name → git.refs.get? name = some h ∨ git.refs.get? name = none)
    (hR : RecordedRefs git git' new git'.head moved) (hmk : main ≠ t!"refs/branchless/" ++ new.toText)
    (hE : RecordedEvents es es' new) {c : Oid} (hc : c ∈ graph.nodes) (hne : c ≠ h) (ha : Anc graph h c) :
    (Seen graph' main git' es' c ↔ Seen graph main git es c) ∧
      (OnMain graph' main git' c ↔ OnMain graph main git c) := by
  have hnb := T.not_below hg hn hc hne ha
  have hno : ¬ Anc graph c h := fun h1 => hne (h1.antisymm hg ha)
  have hnn : ¬ Anc graph c new := by
    intro h1
    rcases anc_iff.1 h1 with rfl | ⟨p, hp, _⟩
    · exact hn hc
    · exact hn hp.child_mem
  have hx : ∀ x, Anc graph' c x ↔ Anc graph c x := by
    intro x
    by_cases hxn : x = new
    · subst hxn; exact iff_of_false hnb hnn
    · exact T.anc_old c x hxn
  have href : ∀ b, b ≠ t!"refs/branchless/" ++ new.toText →
      ((∃ x, git'.refs.get? b = some x ∧ Anc graph' c x) ↔
        ∃ x, git.refs.get? b = some x ∧ Anc graph c x) := by
    intro b hb
    by_cases hm : moved = some b
    · refine iff_of_false ?_ ?_
      · rintro ⟨x, h1, h2⟩
        rw [hR.moved b hm] at h1
        cases h1
        exact hnb h2
      · rintro ⟨x, h1, h2⟩
        rcases hbr b hm with h3 | h3
        · rw [h3] at h1
          cases h1
          exact hno h2
        · rw [h3] at h1
          cases h1
    · rw [hR.others b hm hb]
      simp only [hx]
  refine ⟨?_, href main hmk⟩
  have hseen : ∀ (g : CommitGraph Oid) (git : GitState) (es : List Event), c ∈ g.nodes →
      (Seen g main git es c ↔ (∃ x, git.headInfo.oid = some x ∧ Anc g c x) ∨
        (∃ x, git.refs.get? main = some x ∧ Anc g c x) ∨
        (∃ b, IsBranch b ∧ ∃ x, git.refs.get? b = some x ∧ Anc g c x) ∨
        ∃ x, statusIn es x = some true ∧ Anc g c x) := by
    intro g git es hc
    unfold Seen
    constructor
    · rintro ⟨_, x, h1, h2 | h2 | ⟨b, h2, h3⟩ | h2⟩
      · exact .inl ⟨x, h2, h1⟩
      · exact .inr (.inl ⟨x, h2, h1⟩)
      · exact .inr (.inr (.inl ⟨b, h2, x, h3, h1⟩))
      · exact .inr (.inr (.inr ⟨x, h2, h1⟩))
    · rintro (⟨x, h2, h1⟩ | ⟨x, h2, h1⟩ | ⟨b, h2, x, h3, h1⟩ | ⟨x, h2, h1⟩)
      · exact ⟨hc, x, h1, .inl h2⟩
      · exact ⟨hc, x, h1, .inr (.inl h2)⟩
      · exact ⟨hc, x, h1, .inr (.inr (.inl ⟨b, h2, h3⟩))⟩
      · exact ⟨hc, x, h1, .inr (.inr (.inr h2))⟩
  rw [hseen _ _ _ ((T.nodes c).2 (.inl hc)), hseen _ _ _ hc]
  refine or_congr ?_ (or_congr (href main hmk) (or_congr ?_ ?_))
  · rw [hh, hh']
    simp [hnb, hno]
  · exact exists_congr fun b => and_congr_right fun hb => href b (keepAlive_branch hb).2
  · refine exists_congr fun x => ?_
    rw [hE x, hx]
    by_cases hxn : x = new
    · subst hxn
      exact iff_of_false (fun h => hnn h.2) (fun h => hnn h.2)
    · rw [if_neg hxn]

end

end Verif.Spec
