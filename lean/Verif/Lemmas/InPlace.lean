import Verif.Lemmas.Move
import Verif.Spec.RewordCommand

/-! Plans which make new versions of commits in the places where they are. -/

namespace Verif.Spec

open Verif Verif.RebasePlanBuilder Verif.Constraints Verif.Props

/-! ### the constraint graph -/

theorem moves_foldl_requests {f : Oid → List Oid} {X : List Oid} {k : Constraints} {p c : Oid} :
    Moves ((X.map fun c => Constraint.moveSubtree (f c) c).foldl addFirst k) p c ↔
      if c ∈ X then p ∈ f c else Moves k p c := by
  induction X generalizing k with
  | nil => simp
  | cons x X ih =>
    rw [List.map_cons, List.foldl_cons, ih, moves_addFirst_subtree]
    by_cases h1 : c ∈ X
    · simp [h1]
    · by_cases h2 : c = x
      · simp [h1, h2]
      · simp [h1, h2]

/-- The constraint graph for commits which are put on top of others: their visible descendants stay on their
parents. -/
theorem constraintGraph_requests {b : RebasePlanBuilder} (hg : WFGraph b.env.dag.graph) {X : List Oid}
    {f : Oid → List Oid} (hb : b.initialConstraints = X.map fun c => .moveSubtree (f c) c)
    (hX : ∀ c ∈ X, f c ≠ []) :
    ∃ k, b.constraintGraph = .ok k ∧ k.fixups = [] ∧ ∀ p c, Moves k p c ↔
      (c ∈ X ∧ p ∈ f c) ∨ (c ∉ X ∧ (∃ h ∈ b.env.dag.visibleHeads, Anc b.env.dag.graph c h) ∧
        (∃ x ∈ X, Anc b.env.dag.graph x c) ∧ IsParent b.env.dag.graph p c) := by
  have hsub : ∀ c ∈ b.initialConstraints, ∃ ps o, c = Constraint.moveSubtree ps o := by
    intro c hc
    rw [hb] at hc
    obtain ⟨r, _, rfl⟩ := List.mem_map.1 hc
    exact ⟨_, _, rfl⟩
  have h1 := addConstraints_subtrees (dag := b.env.dag) (k := ⟨[], []⟩) hsub
  obtain ⟨ds, _, h2⟩ := addDescendantConstraints_eq b.env.dag
    (b.initialConstraints.foldl addFirst ⟨[], []⟩)
  generalize hk : (ds.map fun d => Constraint.moveSubtree (b.env.dag.graph.parentsOf d) d).foldl
    addFirst (b.initialConstraints.foldl addFirst ⟨[], []⟩) = k at h2
  have h3 : b.constraintGraph = .ok k := by
    unfold constraintGraph
    rw [h1]
    exact h2
  refine ⟨k, h3, ?_⟩
  have hf : (b.initialConstraints.foldl addFirst ⟨[], []⟩).fixups = [] := fixups_foldl_subtree hsub
  refine ⟨by rw [fixups_addDescendants h2, hf], ?_⟩
  intro p c
  rw [(moves_addDescendants h2 p c).1]
  have hnil : ∀ p c, ¬ Moves ⟨[], []⟩ p c := by rintro p c ⟨cs, h, _⟩; simp at h
  have hw : AMap.WF (b.initialConstraints.foldl addFirst ⟨[], []⟩).inner :=
    (kwf_foldl_addFirst kwf_nil _).1.1
  have hmv : ∀ x, x ∈ (b.initialConstraints.foldl addFirst ⟨[], []⟩).commitsToMove ++
      (b.initialConstraints.foldl addFirst ⟨[], []⟩).commitsToFixup ↔ x ∈ X := by
    intro x
    rw [List.mem_append]
    have : (b.initialConstraints.foldl addFirst ⟨[], []⟩).commitsToFixup = [] := by
      unfold commitsToFixup; rw [hf]; rfl
    rw [this, mem_commitsToMove hw, hb]
    simp only [moves_foldl_requests, List.not_mem_nil, or_false]
    constructor
    · rintro ⟨p, h⟩
      split at h
      · assumption
      · exact absurd h (hnil _ _)
    · intro h
      obtain ⟨p, l, hp⟩ := List.exists_cons_of_ne_nil (hX x h)
      refine ⟨p, ?_⟩
      rw [if_pos h, hp]
      simp
  have hds : c ∈ b.env.dag.filterVisibleCommits
      (CommitGraph.diff (b.env.dag.graph.descendants
        ((b.initialConstraints.foldl addFirst ⟨[], []⟩).commitsToMove ++
          (b.initialConstraints.foldl addFirst ⟨[], []⟩).commitsToFixup))
        ((b.initialConstraints.foldl addFirst ⟨[], []⟩).commitsToMove ++
          (b.initialConstraints.foldl addFirst ⟨[], []⟩).commitsToFixup)) ↔
      ((c ∈ b.env.dag.graph.nodes ∧ ∃ x ∈ X, Anc b.env.dag.graph x c) ∧ c ∉ X) ∧
        ∃ h ∈ b.env.dag.visibleHeads, Anc b.env.dag.graph c h := by
    simp only [mem_filterVisible hg, mem_diff, mem_descendants hg, hmv]
    grind
  have hfold : Moves (b.initialConstraints.foldl addFirst ⟨[], []⟩) p c ↔ c ∈ X ∧ p ∈ f c := by
    rw [hb, moves_foldl_requests]
    by_cases hx : c ∈ X
    · rw [if_pos hx]; simp [hx]
    · rw [if_neg hx]; simp [hx, hnil]
  split
  · rename_i h
    have h := hds.1 h
    rw [mem_parentsOf hg]
    constructor
    · intro hp; exact .inr ⟨h.1.2, h.2, h.1.1.2, hp⟩
    · rintro (⟨hx, _⟩ | ⟨_, _, _, hp⟩)
      · exact absurd hx h.1.2
      · exact hp
  · rename_i h
    rw [hfold]
    constructor
    · exact .inl
    · rintro (h1 | ⟨hx, h1, h2, hp⟩)
      · exact h1
      · exact absurd (hds.2 ⟨⟨⟨hp.child_mem, h2⟩, hx⟩, h1⟩) h

/-- The constraint graph for commits which stay on their parents. -/
theorem constraintGraph_inPlace {b : RebasePlanBuilder} (hg : WFGraph b.env.dag.graph) {X : List Oid}
    (hb : b.initialConstraints = X.map fun c => .moveSubtree (b.env.dag.graph.parentsOf c) c)
    (hX : ∀ c ∈ X, b.env.dag.graph.parentsOf c ≠ []) :
    ∃ k, b.constraintGraph = .ok k ∧ k.fixups = [] ∧ ∀ p c, Moves k p c ↔
      InPlace b.env.dag.graph (Affected b.env.dag.graph
        (fun c => ∃ h ∈ b.env.dag.visibleHeads, Anc b.env.dag.graph c h) X) p c := by
  obtain ⟨k, h1, h2, h3⟩ := constraintGraph_requests hg hb hX
  refine ⟨k, h1, h2, fun p c => ?_⟩
  rw [h3, mem_parentsOf hg]
  unfold InPlace Affected
  tauto

theorem parentsOf_unique {g : CommitGraph Oid} (hg : WFGraph g) {c p q : Oid}
    (hn : (g.parentsOf c).length ≤ 1) (hp : IsParent g p c) (hq : IsParent g q c) : p = q := by
  rw [← mem_parentsOf hg] at hp hq
  generalize g.parentsOf c = l at hn hp hq
  match l, hn with
  | [], _ => simp at hp
  | [x], _ =>
    rw [List.mem_singleton] at hp hq
    rw [hp, hq]
  | _ :: _ :: _, hn => simp at hn

theorem regular_inPlace {b : RebasePlanBuilder} (hg : WFGraph b.env.dag.graph) {A : Oid → Prop}
    {k : Constraints} (hf : k.fixups = []) (hk : ∀ p c, Moves k p c ↔ InPlace b.env.dag.graph A p c) :
    Regular b.env k := by
  have hrw : ∀ c, Rewritten k c → ∃ p, Moves k p c := by
    rintro c (h | ⟨fs, h⟩)
    · exact h
    · rw [hf] at h; simp at h
  refine ⟨?_, ?_, ?_⟩
  · intro c p q hn hp hq
    rw [hk] at hp hq
    exact parentsOf_unique hg (Nat.not_lt.1 hn) hp.2 hq.2
  · intro c p _ hp _
    rw [hk] at hp
    exact (mem_parentsOf hg).2 hp.2
  · intro c p _ hcr hp hpr
    refine ⟨?_, hrw p hpr⟩
    obtain ⟨q, hq⟩ := hrw c hcr
    rw [hk] at hq ⊢
    exact ⟨hq.1, (mem_parentsOf hg).1 hp⟩

theorem acyclic_inPlace {g : CommitGraph Oid} (hg : WFGraph g) {A : Oid → Prop}
    {k : Constraints} (hk : ∀ p c, Moves k p c ↔ InPlace g A p c) : Acyclic k := by
  have : ∀ a c, Relation.TransGen (Moves k) a c → ageOf g.entries a < ageOf g.entries c := by
    intro a c h
    induction h with
    | single h => exact age_lt hg ((hk _ _).1 h).2
    | tail _ h ih => exact ih.trans (age_lt hg ((hk _ _).1 h).2)
  intro c h
  exact absurd (this c c h) (Nat.lt_irrefl _)

/-! ### the plan, read with the original commits -/

/-- The commit on top of which the next one is put, and the labels, in terms of the original commits. -/
structure SymState where
  current : Oid
  labels : AMap Text Oid

/-- What a command does, in terms of the original commits. -/
def symStep (s : SymState) : RebaseCommand → SymState
  | .createLabel l => { s with labels := AMap.insert s.labels l s.current }
  | .reset (.label l) => { s with current := (AMap.get? s.labels l).getD s.current }
  | .reset (.oid o) => { s with current := o }
  | .pick c _ | .replace c _ _ | .merge c _ | .skipUpstreamAppliedCommit c => { s with current := c }
  | _ => s

def symRun (s : SymState) (cmds : List RebaseCommand) : SymState := cmds.foldl symStep s

theorem symRun_append (s : SymState) (a b : List RebaseCommand) :
    symRun s (a ++ b) = symRun (symRun s a) b := by
  unfold symRun; rw [List.foldl_append]

theorem symRun_labels {s : SymState} {cmds : List RebaseCommand} {l : Text}
    (h : l ∉ labelsCreated cmds) : AMap.get? (symRun s cmds).labels l = AMap.get? s.labels l := by
  induction cmds generalizing s with
  | nil => rfl
  | cons c cmds ih =>
    have h1 : labelCreated c ≠ some l ∧ l ∉ labelsCreated cmds := by
      unfold labelsCreated at h ⊢
      rw [List.filterMap_cons] at h
      cases hc : labelCreated c with
      | none => rw [hc] at h; exact ⟨by simp, h⟩
      | some l' =>
        rw [hc] at h
        simp only [List.mem_cons, not_or] at h
        exact ⟨fun e => h.1 (by simpa using e.symm), h.2⟩
    have h2 : AMap.get? (symStep s c).labels l = AMap.get? s.labels l := by
      cases c with
      | createLabel l' =>
        have : l' ≠ l := fun e => h1.1 (by simp [labelCreated, e])
        simp [symStep, AMap.get?_insert, this]
      | reset t => cases t <;> rfl
      | _ => rfl
    exact (ih h1.2).trans h2

/-- Each commit which is picked is put on top of the commit on which it was requested to be. -/
def Placed (k : Constraints) (init : SymState) (cmds : List RebaseCommand) : Prop :=
  ∀ pre c l post, cmds = pre ++ .pick c l :: post → Moves k (symRun init pre).current c

theorem placed_append {k : Constraints} {init : SymState} {a b : List RebaseCommand}
    (ha : Placed k init a) (hb : Placed k (symRun init a) b) : Placed k init (a ++ b) := by
  intro pre c l post h
  rcases List.append_eq_append_iff.1 h with ⟨m, h1, h2⟩ | ⟨m, h1, h2⟩
  · rw [h1, symRun_append]
    exact hb m c l post h2
  · cases m with
    | nil =>
      simp only [List.append_nil] at h1
      subst h1
      exact hb [] c l post (by simpa using h2.symm)
    | cons x m =>
      simp only [List.cons_append, List.cons.injEq] at h2
      obtain ⟨rfl, rfl⟩ := h2
      exact ha pre c l m h1

/-- The state of the planner and the plan so far. -/
structure SGood (k : Constraints) (init : SymState) (s : BuildState) : Prop where
  linv : LInv s
  labels : ∀ p l, AMap.get? s.parentLabels p = some l → AMap.get? (symRun init s.acc).labels l = some p
  placed : Placed k init s.acc

theorem SGood.push_label {k : Constraints} {init : SymState} {s s' : BuildState} (h : SGood k init s)
    {stem l : Text} (hc : createLabel s stem = some (l, s')) :
    SGood k init s' ∧ (symRun init s'.acc).current = (symRun init s.acc).current ∧
      AMap.get? (symRun init s'.acc).labels l = some (symRun init s.acc).current := by
  obtain ⟨h1, h2, h3, h4⟩ := createLabel_some hc
  have hr : symRun init s'.acc = { symRun init s.acc with
      labels := AMap.insert (symRun init s.acc).labels l (symRun init s.acc).current } := by
    rw [h4, symRun_append]; rfl
  refine ⟨⟨(h.linv.createLabel hc).1, ?_, ?_⟩, by rw [hr], by rw [hr]; simp⟩
  · intro p x hx
    rw [h3] at hx
    have hne : l ≠ x := by
      rintro rfl
      exact h1 ((h.linv.used l).2 (h.linv.parents p l hx))
    rw [hr]
    simp [hne, h.labels p x hx]
  · rw [h4]
    refine placed_append h.placed ?_
    intro pre c l post he
    cases pre with
    | nil => simp at he
    | cons x pre => simp at he

theorem labels_grow {init : SymState} {s s' : BuildState} (hi : LInv s')
    (hp : s.acc <+: s'.acc) {l : Text} (hl : l ∈ labelsCreated s.acc) :
    AMap.get? (symRun init s'.acc).labels l = AMap.get? (symRun init s.acc).labels l := by
  obtain ⟨mid, hm⟩ := hp
  rw [← hm, symRun_append]
  refine symRun_labels ?_
  have hn := hi.nodup
  unfold labelsCreated at hn hl ⊢
  rw [← hm, List.filterMap_append, List.nodup_append] at hn
  exact fun hx => hn.2.2 l hl l hx rfl

variable {b : RebasePlanBuilder} {k : Constraints} {init : SymState}

/-- The commands for one commit. -/
theorem SGood.step {up : List Nat} {cur : Oid} {s : BuildState} {cs : List RebaseCommand}
    (hf : k.fixups = []) (h : SGood k init s) (hc : commandsFor b k up cur s = some cs)
    (hm : Moves k (symRun init s.acc).current cur) :
    SGood k init (push s cs) ∧ (symRun init (push s cs).acc).current = cur := by
  obtain ⟨hl1, hl2⟩ := commandsFor_labels hc
  have hlin : LInv (push s cs) := h.linv.push hl1 fun c hc l hl => by
    obtain ⟨p, hp⟩ := hl2 c hc l hl
    exact h.linv.parents p l hp
  have hlab : ∀ p l, AMap.get? (push s cs).parentLabels p = some l →
      AMap.get? (symRun init (push s cs).acc).labels l = some p := by
    intro p l hp
    rw [labels_grow hlin (List.prefix_append s.acc cs) (h.linv.parents p l hp)]
    exact h.labels p l hp
  have hkey : Placed k (symRun init s.acc) cs ∧ (symRun (symRun init s.acc) cs).current = cur := by
    rcases commandsFor_cases hc with ⟨rfl, _⟩ | ⟨_, hx⟩ | ⟨_, rfl⟩ | ⟨r, _, _, _, rfl⟩ |
      ⟨r, first, rest, _, _, _, rfl⟩ | ⟨first, rest, rfl⟩
    · refine ⟨?_, rfl⟩
      intro pre c l post he
      cases pre with
      | nil => simp at he
      | cons x pre => simp at he
    · unfold fixupCommits at hx
      rw [hf] at hx
      simp at hx
    · refine ⟨?_, rfl⟩
      intro pre c l post he
      match pre, he with
      | [], he =>
        simp only [List.nil_append, List.cons.injEq, RebaseCommand.pick.injEq] at he
        exact he.1.1 ▸ hm
      | [x], he => simp at he
      | _ :: _ :: pre, he => simp at he
    · refine ⟨?_, rfl⟩
      intro pre c l post he
      cases pre with
      | nil => simp at he
      | cons x pre => simp at he
    · refine ⟨?_, rfl⟩
      intro pre c l post he
      match pre, he with
      | [], he => simp at he
      | [x], he => simp at he
      | _ :: _ :: pre, he => simp at he
    · refine ⟨?_, rfl⟩
      intro pre c l post he
      match pre, he with
      | [], he => simp at he
      | [x], he => simp at he
      | _ :: _ :: pre, he => simp at he
  refine ⟨⟨hlin, hlab, placed_append h.placed hkey.1⟩, ?_⟩
  have : (push s cs).acc = s.acc ++ cs := rfl
  rw [this, symRun_append]
  exact hkey.2

/-- The commands for a commit and everything on top of it. -/
theorem SGood.visit (hf : k.fixups = []) {up : List Nat} (fuel : Nat) (cur : Oid) (s s' : BuildState)
    (hv : makeRebasePlanForCurrentCommit b k up fuel cur s = some s') (h : SGood k init s)
    (hm : Moves k (symRun init s.acc).current cur) : SGood k init s' := by
  induction fuel generalizing cur s s' with
  | zero => simp [makeRebasePlanForCurrentCommit] at hv
  | succ n ih =>
    rw [makeRebasePlanForCurrentCommit] at hv
    cases hc : commandsFor b k up cur s with
    | none => rw [hc] at hv; cases hv; exact h
    | some cs =>
      rw [hc] at hv
      simp only at hv
      obtain ⟨hg1, hc1⟩ := h.step hf hc hm
      cases hcp : createParentLabel b cur (sortOids (k.commitsToMoveTo cur)) (push s cs) with
      | none => rw [hcp] at hv; simp at hv
      | some s1 =>
        rw [hcp] at hv
        simp only at hv
        have hs1 := (hg1.linv.createParentLabel hcp).1
        have key : SGood k init s1 ∧ (symRun init s1.acc).current = cur := by
          rcases createParentLabel_some hcp with ⟨rfl, hno⟩ | ⟨l, s2, h2, rfl⟩
          · exact ⟨hg1, hc1⟩
          · obtain ⟨hg2, hc2, hl2⟩ := hg1.push_label h2
            refine ⟨⟨hs1, ?_, hg2.placed⟩, hc2.trans hc1⟩
            intro p x hx
            simp only [AMap.get?_insert] at hx
            split at hx
            · rename_i hpc
              cases hx
              subst hpc
              rw [← hc1]
              exact hl2
            · exact hg2.labels p x hx
        obtain ⟨hg2, hc2⟩ := key
        have hch : ∀ c ∈ sortOids (k.commitsToMoveTo cur), Moves k cur c := by
          intro c hc
          rwa [mem_sortOids, mem_commitsToMoveTo] at hc
        unfold visitChildren at hv
        split at hv
        · cases hv; exact hg2
        · rename_i c hcc
          exact ih c s1 s' hv hg2 (hc2.symm ▸ hch c (by rw [hcc]; simp))
        · cases hcl : createLabel s1 t!"label-" with
          | none => rw [hcl] at hv; simp at hv
          | some x =>
            obtain ⟨l, s2⟩ := x
            rw [hcl] at hv
            simp only at hv
            obtain ⟨hg3, hc3, hl3⟩ := hg2.push_label hcl
            have hls2 := (hs1.createLabel hcl).2
            have fin' := foldlM_option_inv (P := fun _ t => SGood k init t ∧ l ∈ labelsCreated t.acc ∧
              (symRun init t.acc).current = cur ∧ AMap.get? (symRun init t.acc).labels l = some cur)
              ?_ ?_ hv
            · exact fin'.1
            · exact ⟨hg3, hls2, hc3.trans hc2, hc2 ▸ hl3⟩
            · rintro pre a post t t' hsplit ⟨ht1, ht2, ht3, ht4⟩ hst
              unfold visitThenReset at hst
              cases hva : makeRebasePlanForCurrentCommit b k up n a t with
              | none => rw [hva] at hst; simp at hst
              | some t1 =>
                rw [hva] at hst
                simp only [Option.map_some, Option.some.injEq] at hst
                subst hst
                have hm' : a ∈ sortOids (k.commitsToMoveTo cur) := by rw [hsplit]; simp
                have hgt := ih a t t1 hva ht1 (ht3.symm ▸ hch a hm')
                obtain ⟨ht5, ht6⟩ := linv_visit n a t t1 hva ht1.linv
                have hlt : l ∈ labelsCreated t1.acc := labelsCreated_prefix ht6 ht2
                have hlab := labels_grow (init := init) ht5 ht6 ht2
                rw [ht4] at hlab
                have hrun : symRun init (push t1 [.reset (.label l)]).acc =
                    { symRun init t1.acc with current := cur } := by
                  have : (push t1 [.reset (.label l)]).acc = t1.acc ++ [.reset (.label l)] := rfl
                  rw [this, symRun_append]
                  show symStep (symRun init t1.acc) (.reset (.label l)) = _
                  simp [symStep, hlab]
                refine ⟨⟨ht5.push (by simp [labelCreated]) ?_, ?_, ?_⟩, ?_, ?_, ?_⟩
                · intro c hc l' hl'
                  simp only [List.mem_singleton] at hc
                  subst hc
                  simp only [labelsUsed, labelOf, List.filterMap_cons, List.filterMap_nil,
                    List.mem_singleton] at hl'
                  rw [hl']; exact hlt
                · intro p x hx
                  rw [hrun]
                  exact hgt.labels p x hx
                · refine placed_append hgt.placed ?_
                  intro pre c l post he
                  cases pre with
                  | nil => simp at he
                  | cons x pre => simp at he
                · exact labelsCreated_prefix (List.prefix_append _ _) hlt
                · rw [hrun]
                · rw [hrun]; exact hlab

/-- Every commit which a plan picks is put on top of the one on which it was requested to be. -/
theorem plan_placed {plan : RebasePlan} (hk : b.constraintGraph = .ok k) (hf : k.fixups = [])
    (h : b.build = .ok (.ok (some plan))) (init : SymState) : Placed k init plan.commands := by
  obtain ⟨k', st, h1, h2, h3, h4, h5, h6⟩ := build_ok h
  rw [hk] at h1
  cases h1
  have hfin := foldlM_except_inv (P := fun _ st => SGood k init st.2) ?_ ?_ h4
  · rw [h6]
    refine placed_append hfin.placed ?_
    intro pre c l post he
    cases pre with
    | nil => simp at he
    | cons x pre => simp at he
  · refine ⟨linv_nil, by simp, ?_⟩
    intro pre c l post he
    simp at he
  · rintro pre r post st st' hsplit hi hr
    obtain ⟨p, ps, c, up, h1, h0, h2, -⟩ := buildRoot_ok hr
    have hmem : r ∈ k.findRoots := by rw [hsplit]; simp
    refine SGood.visit hf _ c _ _ h2 ⟨hi.linv.push (by simp [labelCreated]) (by simp [labelsUsed, labelOf]),
      ?_, placed_append hi.placed ?_⟩ ?_
    · intro q l hq
      have : (push st.2 [.reset (.oid p)]).acc = st.2.acc ++ [.reset (.oid p)] := rfl
      rw [this, symRun_append]
      exact hi.labels q l hq
    · intro pre c l post he
      cases pre with
      | nil => simp at he
      | cons x pre => simp at he
    · have : (push st.2 [.reset (.oid p)]).acc = st.2.acc ++ [.reset (.oid p)] := rfl
      rw [this, symRun_append]
      show Moves k p c
      rcases mem_findRoots hmem with ⟨q', d, rfl, hq, hm⟩ | ⟨t, rfl, ht⟩
      · simp only [rootEdge, Except.ok.injEq, Prod.mk.injEq, List.cons.injEq] at h1
        obtain ⟨⟨rfl, _⟩, rfl⟩ := h1
        exact hm
      · have := ((mem_unconstrainedFixup (kwf_constraintGraph hk)).1 ht).1
        rw [hf] at this
        simp at this

end Verif.Spec
