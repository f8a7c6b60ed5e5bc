import Verif.Spec.Smartlog
import Verif.Lemmas.Dag
import Verif.Lemmas.Revset
import Verif.Lemmas.FinishRebase

/-! Lemmas about the graph of the smartlog. -/

namespace Verif.Spec

open Verif

/-! ### merge bases -/

theorem mem_commonAncestors {g : CommitGraph Oid} (hg : WFGraph g) {s : List Oid} {o : Oid} :
    o ∈ g.commonAncestors s ↔ s ≠ [] ∧ o ∈ g.nodes ∧ ∀ d ∈ s, Anc g o d := by
  unfold CommitGraph.commonAncestors
  split
  · rename_i h
    simp only [List.isEmpty_iff] at h
    simp [h]
  · rename_i h
    simp only [List.isEmpty_iff] at h
    simp only [List.mem_filter, List.all_eq_true, isAncestor_iff hg]
    constructor
    · rintro ⟨h1, h2⟩
      exact ⟨h, h1, fun d hd => (h2 d hd).2⟩
    · rintro ⟨_, h1, h2⟩
      exact ⟨h1, fun d hd => ⟨h1, h2 d hd⟩⟩

theorem mem_headsAncestors {g : CommitGraph Oid} (hg : WFGraph g) {s : List Oid} {o : Oid} (hs : ∀ x ∈ s, x ∈ g.nodes) :
    o ∈ g.headsAncestors s ↔ o ∈ s ∧ ∀ d ∈ s, Anc g o d → d = o := by
  unfold CommitGraph.headsAncestors
  simp only [List.mem_filter, List.all_eq_true, Bool.or_eq_true, decide_eq_true_eq, Bool.not_eq_true']
  constructor
  · rintro ⟨h1, h2⟩
    refine ⟨h1, fun d hd ha => ?_⟩
    rcases h2 d hd with h | h
    · exact h
    · have := (isAncestor_iff hg).2 ⟨hs o h1, ha⟩
      rw [h] at this
      simp at this
  · rintro ⟨h1, h2⟩
    refine ⟨h1, fun d hd => ?_⟩
    by_cases ha : g.isAncestor o d = true
    · exact .inl (h2 d hd ((isAncestor_iff hg).1 ha).2)
    · exact .inr (by simpa using ha)

theorem mem_gcaAll_iff {g : CommitGraph Oid} (hg : WFGraph g) {s : List Oid} {o : Oid} :
    o ∈ g.gcaAll s ↔ s ≠ [] ∧ MergeBase g s o := by
  unfold CommitGraph.gcaAll
  rw [mem_headsAncestors hg (fun x hx => ((mem_commonAncestors hg).1 hx).2.1), mem_commonAncestors hg]
  constructor
  · rintro ⟨⟨h1, h2, h3⟩, h4⟩
    exact ⟨h1, h2, h3, fun o' ho' ha => h4 o' ((mem_commonAncestors hg).2 ⟨h1, ha.mem_up h2, ho'⟩) ha⟩
  · rintro ⟨h1, h2, h3, h4⟩
    exact ⟨⟨h1, h2, h3⟩, fun d hd ha => h4 d ((mem_commonAncestors hg).1 hd).2.2 ha⟩

theorem gcaOne_mergeBase {g : CommitGraph Oid} (hg : WFGraph g) {s : List Oid} {o : Oid} (h : g.gcaOne s = some o) :
    MergeBase g s o := by
  unfold CommitGraph.gcaOne at h
  exact ((mem_gcaAll_iff hg).1 (List.mem_of_mem_head? h)).2

theorem mem_shownFor {dag : Dag} (hg : WFGraph dag.graph) {commits : List Oid} {o : Oid} :
    (∃ v ∈ commits, o ∈ shownFor dag commits v) ↔ Shown dag commits o := by
  have hin : (!(CommitGraph.inter dag.mainBranchCommit commits).isEmpty) = true ↔
      ∃ m ∈ dag.mainBranchCommit, m ∈ commits := by
    rw [Bool.not_eq_true', List.isEmpty_eq_false_iff_exists_mem]
    simp only [mem_inter]
  unfold Shown
  constructor
  · rintro ⟨v, hv, h⟩
    unfold shownFor at h
    simp only [List.mem_cons] at h
    rcases h with rfl | h
    · exact .inl hv
    · right
      split at h
      · rename_i hm
        exact .inl ⟨hin.1 hm, v, hv, ((mem_gcaAll_iff hg).1 h).2⟩
      · rename_i hm
        obtain ⟨_, h1, h2, h3⟩ := (mem_gcaAll_iff hg).1 h
        have hmem : ∀ d, d ∈ commits ++ [v] ↔ d ∈ commits := by
          intro d
          simp only [List.mem_append, List.mem_singleton, or_iff_left_iff_imp]
          rintro rfl
          exact hv
        simp only [hmem] at h2 h3
        exact .inr ⟨fun h => hm (hin.2 h), List.ne_nil_of_mem hv, h1, h2, h3⟩
  · rintro (h | ⟨h1, v, hv, h2⟩ | ⟨h1, h2, h3⟩)
    · exact ⟨o, h, by simp [shownFor]⟩
    · refine ⟨v, hv, ?_⟩
      unfold shownFor
      simp only [List.mem_cons, hin.2 h1, if_true]
      exact .inr ((mem_gcaAll_iff hg).2 ⟨by simp, h2⟩)
    · obtain ⟨v, hv⟩ := List.exists_mem_of_ne_nil _ h2
      refine ⟨v, hv, ?_⟩
      unfold shownFor
      simp only [List.mem_cons]
      right
      rw [if_neg (fun h => h1 (hin.1 h)), mem_gcaAll_iff hg]
      have hmem : ∀ d, d ∈ commits ++ [v] ↔ d ∈ commits := by
        intro d
        simp only [List.mem_append, List.mem_singleton, or_iff_left_iff_imp]
        rintro rfl
        exact hv
      refine ⟨by simp, h3.1, ?_, ?_⟩
      · simp only [hmem]; exact h3.2.1
      · simp only [hmem]; exact h3.2.2

/-! ### the nodes -/

theorem foldl_insert_get? {V : Type} (f : Oid → V) (l : List Oid) (m : AMap Oid V) (o : Oid) :
    AMap.get? (l.foldl (fun m x => AMap.insert m x (f x)) m) o = if o ∈ l then some (f o) else AMap.get? m o := by
  induction l generalizing m with
  | nil => simp
  | cons x l ih =>
    rw [List.foldl_cons, ih, AMap.get?_insert]
    by_cases h1 : o ∈ l
    · simp [h1]
    · by_cases h2 : x = o
      · simp [h2]
      · have : ¬ o = x := fun e => h2 e.symm
        simp only [List.mem_cons, this, h1, h2, or_self, if_false]

theorem bareGraph_get? (env : SmartlogEnv) (dag : Dag) (commits : List Oid) (o : Oid) :
    AMap.get? (bareGraph env dag commits) o =
      if ∃ v ∈ commits, o ∈ shownFor dag commits v then some (bareNode env dag o) else none := by
  unfold bareGraph
  have key : ∀ (l : List Oid) (m : SmartlogGraph),
      AMap.get? (l.foldl (fun result vertex => (shownFor dag commits vertex).foldl
        (fun result oid => AMap.insert result oid (bareNode env dag oid)) result) m) o =
        if ∃ v ∈ l, o ∈ shownFor dag commits v then some (bareNode env dag o) else AMap.get? m o := by
    intro l
    induction l with
    | nil => simp
    | cons v l ih =>
      intro m
      rw [List.foldl_cons, ih, foldl_insert_get? (bareNode env dag)]
      by_cases h1 : ∃ v ∈ l, o ∈ shownFor dag commits v
      · have : ∃ v' ∈ v :: l, o ∈ shownFor dag commits v' := by
          obtain ⟨x, hx, h⟩ := h1
          exact ⟨x, by simp [hx], h⟩
        rw [if_pos h1, if_pos this]
      · rw [if_neg h1]
        by_cases h2 : o ∈ shownFor dag commits v
        · rw [if_pos h2, if_pos ⟨v, by simp, h2⟩]
        · rw [if_neg h2, if_neg]
          rintro ⟨x, hx, h⟩
          rcases List.mem_cons.1 hx with rfl | hx
          · exact h2 h
          · exact h1 ⟨x, hx, h⟩
  rw [key]
  rfl

theorem bareGraph_wf (env : SmartlogEnv) (dag : Dag) (commits : List Oid) : AMap.WF (bareGraph env dag commits) := by
  unfold bareGraph
  have h1 : ∀ (l : List Oid) (m : SmartlogGraph), AMap.WF m →
      AMap.WF (l.foldl (fun result oid => AMap.insert result oid (bareNode env dag oid)) m) := by
    intro l
    induction l with
    | nil => exact fun m h => h
    | cons x l ih => exact fun m h => ih _ (AMap.wf_insert h _ _)
  have h2 : ∀ (l : List Oid) (m : SmartlogGraph), AMap.WF m →
      AMap.WF (l.foldl (fun result vertex => (shownFor dag commits vertex).foldl
        (fun result oid => AMap.insert result oid (bareNode env dag oid)) result) m) := by
    intro l
    induction l with
    | nil => exact fun m h => h
    | cons x l ih => exact fun m h => ih _ (h1 _ _ h)
  exact h2 _ _ AMap.wf_nil

/-! ### the links -/

theorem modifyNode_ok {graph : SmartlogGraph} {oid : Oid} (f : SmartlogNode → SmartlogNode)
    (h : (AMap.get? graph oid).isSome = true) (hw : AMap.WF graph) :
    ∃ graph', modifyNode graph oid f = .ok graph' ∧ AMap.WF graph' ∧
      ∀ o, AMap.get? graph' o = (AMap.get? graph o).map fun n => if oid = o then f n else n := by
  obtain ⟨n, hn⟩ := Option.isSome_iff_exists.1 h
  refine ⟨AMap.insert graph oid (f n), by simp only [modifyNode, hn], AMap.wf_insert hw _ _, ?_⟩
  intro o
  rw [AMap.get?_insert]
  by_cases ho : oid = o
  · subst ho
    simp [hn]
  · simp [ho]

/-- The immediate links of a list. -/
theorem immediate_ok {bare : SmartlogGraph} (hw : AMap.WF bare) (links : List (Oid × Oid × Bool))
    (h : ∀ l ∈ links, (AMap.get? bare l.1).isSome = true ∧ (AMap.get? bare l.2.1).isSome = true) :
    ∃ graph, links.foldlM addImmediate bare = .ok graph ∧ AMap.WF graph ∧
      ∀ o, AMap.get? graph o = (AMap.get? bare o).map fun n => { n with
        parents := n.parents ++ (links.filter fun l => decide (l.1 = o)).map (·.2.1)
        children := n.children ++ (links.filter fun l => decide (l.2.1 = o)).map fun l => ⟨l.1, l.2.2⟩ } := by
  induction links generalizing bare with
  | nil => exact ⟨bare, rfl, hw, fun o => by simp⟩
  | cons l links ih =>
    obtain ⟨h1, h2⟩ := h l (by simp)
    obtain ⟨g1, e1, w1, k1⟩ := modifyNode_ok (fun n => { n with parents := n.parents ++ [l.2.1] }) h1 hw
    obtain ⟨g2, e2, w2, k2⟩ := modifyNode_ok (oid := l.2.1)
      (fun n => { n with children := n.children ++ [⟨l.1, l.2.2⟩] }) (by rw [k1]; simpa using h2) w1
    obtain ⟨g3, e3, w3, k3⟩ := ih w2 (fun l' hl' => by
      obtain ⟨h3, h4⟩ := h l' (by simp [hl'])
      rw [k2, k2, k1, k1]
      simp only [Option.isSome_map]
      exact ⟨h3, h4⟩)
    refine ⟨g3, ?_, w3, ?_⟩
    · rw [List.foldlM_cons]
      have : addImmediate bare l = .ok g2 := by
        unfold addImmediate
        rw [e1]
        exact e2
      rw [this]
      exact e3
    · intro o
      rw [k3, k2, k1]
      cases AMap.get? bare o with
      | none => rfl
      | some n =>
        by_cases c1 : l.1 = o <;> by_cases c2 : l.2.1 = o <;> simp [c1, c2]

/-- The distance of a link. -/
def linkInfo (dag : Dag) (l : Oid × Oid × Bool) : AncestorInfo :=
  ⟨l.1, CommitGraph.count (CommitGraph.diff (dag.graph.range [l.1] [l.2.1]) [l.1, l.2.1])⟩

theorem nonImmediate_ok (dag : Dag) {bare : SmartlogGraph} (hw : AMap.WF bare) (links : List (Oid × Oid × Bool))
    (h : ∀ l ∈ links, (AMap.get? bare l.1).isSome = true ∧ (AMap.get? bare l.2.1).isSome = true) :
    ∃ graph, links.foldlM (addNonImmediate dag) bare = .ok graph ∧ AMap.WF graph ∧
      ∀ o, AMap.get? graph o = (AMap.get? bare o).map fun n => { n with
        ancestorInfo := ((links.filter fun l => decide (l.2.1 = o)).getLast?.map (linkInfo dag)).or n.ancestorInfo
        descendants := n.descendants ++ (links.filter fun l => decide (l.1 = o)).map fun l => ⟨l.2.1, l.2.2⟩ } := by
  induction links generalizing bare with
  | nil => exact ⟨bare, rfl, hw, fun o => by simp⟩
  | cons l links ih =>
    obtain ⟨h1, h2⟩ := h l (by simp)
    obtain ⟨g1, e1, w1, k1⟩ := modifyNode_ok (fun n => { n with ancestorInfo := some (linkInfo dag l) }) h2 hw
    obtain ⟨g2, e2, w2, k2⟩ := modifyNode_ok (oid := l.1)
      (fun n => { n with descendants := n.descendants ++ [⟨l.2.1, l.2.2⟩] }) (by rw [k1]; simpa using h1) w1
    obtain ⟨g3, e3, w3, k3⟩ := ih w2 (fun l' hl' => by
      obtain ⟨h3, h4⟩ := h l' (by simp [hl'])
      rw [k2, k2, k1, k1]
      simp only [Option.isSome_map]
      exact ⟨h3, h4⟩)
    refine ⟨g3, ?_, w3, ?_⟩
    · rw [List.foldlM_cons]
      have : addNonImmediate dag bare l = .ok g2 := by
        unfold addNonImmediate
        simp only
        change (modifyNode bare l.2.1 (fun n => { n with ancestorInfo := some (linkInfo dag l) }) >>= _) = _
        rw [e1]
        exact e2
      rw [this]
      exact e3
    · intro o
      rw [k3, k2, k1]
      cases AMap.get? bare o with
      | none => rfl
      | some n =>
        by_cases c1 : l.1 = o <;> by_cases c2 : l.2.1 = o <;>
          simp [c1, c2, List.getLast?_cons] <;>
          cases (List.filter (fun l => decide (l.2.1 = o)) links).getLast? <;> simp

/-! ### the graph -/

theorem get?_mapValues {V : Type} (f : Oid → V → V) (m : AMap Oid V) (o : Oid) :
    AMap.get? (m.map fun e => (e.1, f e.1 e.2) : AMap Oid V) o = (AMap.get? m o).map (f o) := by
  induction m with
  | nil => simp
  | cons e m ih =>
    rw [List.map_cons, AMap.get?_cons, AMap.get?_cons, ih]
    by_cases h : e.1 = o
    · subst h; simp
    · simp [h]

theorem wf_mapValues {V : Type} (f : Oid → V → V) {m : AMap Oid V} (h : AMap.WF m) :
    AMap.WF (m.map fun e => (e.1, f e.1 e.2) : AMap Oid V) := by
  unfold AMap.WF AMap.keys at *
  rw [List.map_map]
  exact h

theorem isPublic_iff {dag : Dag} (hg : WFGraph dag.graph) {o : Oid} (ho : o ∈ dag.graph.nodes) :
    dag.isPublicCommit o = true ↔ Public dag o := by
  unfold Dag.isPublicCommit Public
  simp only [List.any_eq_true, isAncestor_iff hg, ho, true_and]

theorem Shown.mem {dag : Dag} {commits : List Oid} (hc : ∀ c ∈ commits, c ∈ dag.graph.nodes) {o : Oid}
    (h : Shown dag commits o) : o ∈ dag.graph.nodes := by
  rcases h with h | ⟨_, _, _, h⟩ | ⟨_, _, h⟩
  · exact hc o h
  · exact h.1
  · exact h.1

theorem mem_entries_of_parentsOf {g : CommitGraph Oid} {c p : Oid} {ps : List Oid}
    (h : g.parentsOf c = p :: ps) : (c, p :: ps) ∈ g.entries := by
  unfold CommitGraph.parentsOf at h
  cases h1 : AMap.get? g.entries c with
  | none => rw [h1] at h; simp at h
  | some l =>
    rw [h1] at h
    simp only [Option.getD_some] at h
    subst h
    exact AMap.mem_of_get? h1

theorem parentsOf_of_mem {g : CommitGraph Oid} (hg : WFGraph g) {c : Oid} {ps : List Oid}
    (h : (c, ps) ∈ g.entries) : g.parentsOf c = ps := by
  unfold CommitGraph.parentsOf
  rw [AMap.get?_of_mem (WFEntries.wf hg) h]
  rfl

theorem mem_immediateLinks {dag : Dag} (hg : WFGraph dag.graph) {vertices : List Oid} {child : Oid}
    {l : Oid × Oid × Bool} : l ∈ immediateLinks dag vertices child ↔
      l.1 = child ∧ l.2.1 ∈ vertices ∧
        (l.2.2 = false ∧ IsFirstParent dag.graph l.2.1 child ∨ l.2.2 = true ∧ MergeParent dag.graph l.2.1 child) := by
  obtain ⟨c, p, m⟩ := l
  have h0 : ∀ ps, (child, ps) ∈ dag.graph.entries → dag.graph.parentsOf child = ps := fun ps h => parentsOf_of_mem hg h
  unfold immediateLinks
  cases hp : dag.graph.parentsOf child with
  | nil =>
    simp only [List.not_mem_nil, false_iff, not_and]
    rintro _ _ (⟨_, ps, h⟩ | ⟨_, f, ps, h, _⟩)
    · have := h0 _ h; rw [hp] at this; cases this
    · have := h0 _ h; rw [hp] at this; cases this
  | cons first merge =>
    have hm := mem_entries_of_parentsOf hp
    simp only [List.mem_append, List.mem_map, List.mem_filter, List.contains_iff_mem]
    constructor
    · rintro (h | ⟨q, ⟨h1, h2⟩, h3⟩)
      · split at h
        · rename_i hv
          simp only [List.mem_singleton, Prod.mk.injEq] at h
          obtain ⟨rfl, rfl, rfl⟩ := h
          exact ⟨rfl, hv, .inl ⟨rfl, merge, hm⟩⟩
        · cases h
      · simp only [Prod.mk.injEq] at h3
        obtain ⟨rfl, rfl, rfl⟩ := h3
        exact ⟨rfl, h2, .inr ⟨rfl, first, merge, hm, h1⟩⟩
    · rintro ⟨rfl, hv, ⟨rfl, ps, h⟩ | ⟨rfl, f, ps, h, hps⟩⟩
      · have := h0 _ h
        rw [hp, List.cons.injEq] at this
        obtain ⟨rfl, rfl⟩ := this
        left
        simp [hv]
      · have := h0 _ h
        rw [hp, List.cons.injEq] at this
        obtain ⟨rfl, rfl⟩ := this
        exact .inr ⟨p, ⟨hps, hv⟩, rfl⟩

theorem map_immediateLinks (dag : Dag) (vertices : List Oid) (child : Oid) :
    (immediateLinks dag vertices child).map (·.2.1) = (dag.graph.parentsOf child).filter fun p => vertices.contains p := by
  unfold immediateLinks
  cases dag.graph.parentsOf child with
  | nil => rfl
  | cons first merge =>
    rw [List.map_append, List.map_map, List.filter_cons]
    by_cases h : first ∈ vertices <;> simp [h, Function.comp_def]

theorem count_firstLinks (dag : Dag) (vertices : List Oid) (child o : Oid) :
    (immediateLinks dag vertices child).countP (fun l => decide (l.2.1 = o) && !l.2.2) ≤ 1 := by
  unfold immediateLinks
  cases dag.graph.parentsOf child with
  | nil => simp
  | cons first merge =>
    simp only [List.countP_append]
    have h1 : List.countP (fun l : Oid × Oid × Bool => decide (l.2.1 = o) && !l.2.2)
        ((merge.filter fun p => vertices.contains p).map fun p => (child, p, true)) = 0 := by
      rw [List.countP_eq_zero]
      intro l hl
      obtain ⟨p, _, rfl⟩ := List.mem_map.1 hl
      simp
    rw [h1, Nat.add_zero]
    refine le_trans List.countP_le_length ?_
    split <;> simp

theorem mem_nonImmediateLinks {dag : Dag} (hg : WFGraph dag.graph) {commits vertices : List Oid}
    (hv : ∀ o, o ∈ vertices ↔ Shown dag commits o) (hn : ∀ o ∈ vertices, o ∈ dag.graph.nodes) {child : Oid}
    {l : Oid × Oid × Bool} : l ∈ nonImmediateLinks dag vertices child ↔
      l.2.1 = child ∧ l.2.2 = false ∧ DistantParent dag commits l.1 child := by
  obtain ⟨a, c, m⟩ := l
  unfold nonImmediateLinks DistantParent
  simp only [List.mem_flatMap, List.mem_filter, List.mem_map, Bool.not_eq_true', mem_parentsOf hg]
  have hsub : ∀ p b, ∀ x ∈ CommitGraph.inter (dag.graph.range [b] [p]) vertices, x ∈ dag.graph.nodes :=
    fun p b x hx => hn x (mem_inter.1 hx).2
  have hnear : ∀ p b, dag.graph.gcaOne (dag.mainBranchCommit ++ [p]) = some b → ∀ x, x ∈ nearestAncestors dag vertices p ↔
      Shown dag commits x ∧ Anc dag.graph b x ∧ Anc dag.graph x p ∧
        ∀ a', Shown dag commits a' → Anc dag.graph b a' → Anc dag.graph a' p → Anc dag.graph x a' → a' = x := by
    intro p b hb x
    unfold nearestAncestors
    rw [hb]
    simp only
    rw [mem_headsAncestors hg (hsub p b)]
    simp only [mem_inter, mem_range hg, List.mem_singleton, exists_eq_left, hv]
    constructor
    · rintro ⟨⟨⟨h1, h2, h3⟩, h4⟩, h5⟩
      exact ⟨h4, h2, h3, fun a' h6 h7 h8 h9 => h5 a' ⟨⟨hn a' ((hv a').2 h6), h7, h8⟩, h6⟩ h9⟩
    · rintro ⟨h1, h2, h3, h4⟩
      exact ⟨⟨⟨hn x ((hv x).2 h1), h2, h3⟩, h1⟩, fun d hd hx => h4 d hd.2 hd.1.2.1 hd.1.2.2 hx⟩
  constructor
  · rintro ⟨p, ⟨h1, h2⟩, x, h3, h4⟩
    simp only [Prod.mk.injEq] at h4
    obtain ⟨rfl, rfl, rfl⟩ := h4
    cases hb : dag.graph.gcaOne (dag.mainBranchCommit ++ [p]) with
    | none =>
      unfold nearestAncestors at h3
      rw [hb] at h3
      simp [CommitGraph.headsAncestors, CommitGraph.inter] at h3
    | some b =>
      refine ⟨rfl, rfl, p, b, h1, ?_, hb, (hnear p b hb x).1 h3⟩
      rw [← hv, ← List.contains_iff_mem, h2]
      simp
  · rintro ⟨rfl, rfl, p, b, h1, h2, hb, h3⟩
    refine ⟨p, ⟨h1, ?_⟩, a, (hnear p b hb a).2 h3, rfl⟩
    rw [← hv, ← List.contains_iff_mem] at h2
    simpa using h2

theorem howMany_count {s : List Oid} {P : Oid → Prop} (h : ∀ x, x ∈ s ↔ P x) : HowMany (CommitGraph.count s) P :=
  ⟨s.dedup, List.nodup_dedup _, rfl, fun x => by rw [List.mem_dedup]; exact h x⟩

theorem filter_flatMap_key {β : Type} {key : β → Oid} {f : Oid → List β} (hf : ∀ x, ∀ l ∈ f x, key l = x)
    {L : List Oid} (hL : L.Nodup) (o : Oid) :
    (L.flatMap f).filter (fun l => decide (key l = o)) = if o ∈ L then f o else [] := by
  induction L with
  | nil => simp
  | cons x L ih =>
    obtain ⟨hx, hL⟩ := List.nodup_cons.1 hL
    rw [List.flatMap_cons, List.filter_append, ih hL]
    by_cases h : x = o
    · subst h
      rw [if_neg hx, if_pos (by simp), List.append_nil, List.filter_eq_self]
      intro l hl
      simpa using hf x l hl
    · have h1 : (f x).filter (fun l => decide (key l = o)) = [] := by
        rw [List.filter_eq_nil_iff]
        intro l hl
        rw [hf x l hl]
        simpa using h
      have h2 : ¬ o = x := fun e => h e.symm
      rw [h1, List.nil_append]
      simp only [List.mem_cons, h2, false_or]

theorem childBefore_total (time : Oid → Option Nat) : Std.Total (childBefore time) := ⟨by
  intro a b
  unfold childBefore
  simp only
  omega⟩

theorem childBefore_trans (time : Oid → Option Nat) : IsTrans ChildInfo (childBefore time) := ⟨by
  intro a b c
  unfold childBefore
  simp only
  omega⟩

/-- The commits of which the smartlog is made. -/
theorem makeSmartlogGraph_ok {env : SmartlogEnv} {dag : Dag} (hg : WFGraph dag.graph) (hs : SmartlogSets env)
    (commits : List Oid) (hc : ∀ c ∈ commits, c ∈ dag.graph.nodes) :
    ∃ graph, (buildGraph env dag commits).map (sortChildren env) = .ok graph ∧ AMap.WF graph ∧
      (∀ o, o ∈ AMap.keys graph ↔ Shown dag commits o) ∧
      ∀ o n, AMap.get? graph o = some n → NodeExact env dag commits o n := by
  classical
  have hbare := bareGraph_get? env dag commits
  have hwf := bareGraph_wf env dag commits
  simp only [mem_shownFor hg] at hbare
  generalize hb : bareGraph env dag commits = bare at hbare hwf
  have hkeys : ∀ o, o ∈ AMap.keys bare ↔ Shown dag commits o := by
    intro o
    rw [AMap.mem_keys_iff, hbare]
    split <;> simp [*]
  generalize hv : AMap.keys bare = vertices at hkeys
  have hvn : ∀ o ∈ vertices, o ∈ dag.graph.nodes := fun o ho => ((hkeys o).1 ho).mem hc
  have hvd : vertices.Nodup := by rw [← hv]; exact hwf
  generalize hm : (env.shuffle vertices).filter (offMain bare) = nonMain
  have hmd : nonMain.Nodup := by
    rw [← hm]
    exact ((hs.shuffle vertices).nodup_iff.2 hvd).filter _
  have hmm : ∀ o, o ∈ nonMain ↔ Shown dag commits o ∧ ¬ Public dag o := by
    intro o
    rw [← hm, List.mem_filter, (hs.shuffle vertices).mem_iff, hkeys]
    refine and_congr_right fun ho => ?_
    unfold offMain
    rw [hbare, if_pos ho]
    simp only [bareNode, Bool.not_eq_true', ← isPublic_iff hg (ho.mem hc)]
    simp
  generalize hl1 : nonMain.flatMap (immediateLinks dag vertices) = links1
  generalize hl2 : nonMain.flatMap (nonImmediateLinks dag vertices) = links2
  have m1 : ∀ l, l ∈ links1 ↔ (Shown dag commits l.1 ∧ ¬ Public dag l.1) ∧ Shown dag commits l.2.1 ∧
      (l.2.2 = false ∧ IsFirstParent dag.graph l.2.1 l.1 ∨ l.2.2 = true ∧ MergeParent dag.graph l.2.1 l.1) := by
    intro l
    rw [← hl1, List.mem_flatMap]
    constructor
    · rintro ⟨c, h1, h2⟩
      obtain ⟨rfl, h3, h4⟩ := (mem_immediateLinks hg).1 h2
      exact ⟨(hmm _).1 h1, (hkeys _).1 h3, h4⟩
    · rintro ⟨h1, h2, h3⟩
      exact ⟨l.1, (hmm _).2 h1, (mem_immediateLinks hg).2 ⟨rfl, (hkeys _).2 h2, h3⟩⟩
  have m2 : ∀ l, l ∈ links2 ↔ (Shown dag commits l.2.1 ∧ ¬ Public dag l.2.1) ∧ l.2.2 = false ∧
      DistantParent dag commits l.1 l.2.1 := by
    intro l
    rw [← hl2, List.mem_flatMap]
    constructor
    · rintro ⟨c, h1, h2⟩
      obtain ⟨rfl, h3, h4⟩ := (mem_nonImmediateLinks hg hkeys hvn).1 h2
      exact ⟨(hmm _).1 h1, h3, h4⟩
    · rintro ⟨h1, h2, h3⟩
      exact ⟨l.2.1, (hmm _).2 h1, (mem_nonImmediateLinks hg hkeys hvn).2 ⟨rfl, h2, h3⟩⟩
  have hsome : ∀ o, Shown dag commits o → (AMap.get? bare o).isSome = true := by
    intro o ho
    rw [hbare, if_pos ho]
    rfl
  obtain ⟨g1, e1, w1, k1⟩ := immediate_ok hwf links1 (fun l hl =>
    ⟨hsome _ ((m1 l).1 hl).1.1, hsome _ ((m1 l).1 hl).2.1⟩)
  have hdist : ∀ {a c}, DistantParent dag commits a c → Shown dag commits a := by
    rintro a c ⟨_, _, _, _, _, h, _⟩
    exact h
  obtain ⟨g2, e2, w2, k2⟩ := nonImmediate_ok dag w1 links2 (fun l hl => by
    rw [k1, k1]
    simp only [Option.isSome_map]
    exact ⟨hsome _ (hdist ((m2 l).1 hl).2.2), hsome _ ((m2 l).1 hl).1.1⟩)
  refine ⟨sortChildren env (g2.map fun e => (e.1, countOmitted dag e.1 e.2)), ?_, ?_, ?_, ?_⟩
  · unfold buildGraph
    simp only [hb, hv]
    rw [hm, hl1, hl2, e1]
    change (((links2.foldlM (addNonImmediate dag) g1) >>= _).map _) = _
    rw [e2]
    rfl
  · unfold sortChildren
    exact wf_mapValues (fun _ n => sortNode env n) (wf_mapValues (fun o n => countOmitted dag o n) w2)
  · intro o
    rw [AMap.mem_keys_iff]
    unfold sortChildren
    rw [get?_mapValues (fun _ n => sortNode env n), get?_mapValues (fun o n => countOmitted dag o n), k2, k1, hbare]
    simp only [Option.isSome_map]
    split <;> simp [*]
  · intro o n hn
    unfold sortChildren at hn
    rw [get?_mapValues (fun _ n => sortNode env n), get?_mapValues (fun o n => countOmitted dag o n), k2, k1, hbare] at hn
    by_cases ho : Shown dag commits o
    swap
    · rw [if_neg ho] at hn; cases hn
    rw [if_pos ho] at hn
    simp only [Option.map_some, Option.some.injEq] at hn
    generalize hP : (links1.filter fun l => decide (l.1 = o)).map (·.2.1) = ps at hn
    generalize hC : (links1.filter fun l => decide (l.2.1 = o)).map (fun l => (⟨l.1, l.2.2⟩ : ChildInfo)) = cs at hn
    generalize hA : (links2.filter fun l => decide (l.2.1 = o)).getLast?.map (linkInfo dag) = ai at hn
    generalize hD : (links2.filter fun l => decide (l.1 = o)).map (fun l => (⟨l.2.1, l.2.2⟩ : ChildInfo)) = ds at hn
    have hperm := List.perm_insertionSort
      (childBefore fun o => if env.existing o then some (env.time o) else none) cs
    have hpub := isPublic_iff hg (ho.mem hc)
    have hcount : HowMany n.numOmittedDescendants fun x =>
        (Public dag o → o ∈ dag.mainBranchCommit) ∧ cs = [] ∧ ds = [] ∧ Anc dag.graph o x ∧ x ≠ o ∧ VisibleIn dag x := by
      have h1 : ∀ x, x ∈ dag.filterVisibleCommits (CommitGraph.diff (dag.graph.descendants [o]) [o]) ↔
          Anc dag.graph o x ∧ x ≠ o ∧ VisibleIn dag x := by
        intro x
        rw [mem_filterVisibleIn hg, mem_diff, mem_descendants hg]
        simp only [List.mem_singleton, exists_eq_left]
        constructor
        · rintro ⟨⟨⟨_, h1⟩, h2⟩, h3⟩
          exact ⟨h1, h2, h3⟩
        · rintro ⟨h1, h2, h3⟩
          exact ⟨⟨⟨h3.1, h1⟩, h2⟩, h3⟩
      have key : ∀ b : SmartlogNode, b.children = cs → b.descendants = ds → b.isMain = dag.isPublicCommit o →
          b.numOmittedDescendants = 0 → HowMany (sortNode env (countOmitted dag o b)).numOmittedDescendants fun x =>
            (Public dag o → o ∈ dag.mainBranchCommit) ∧ cs = [] ∧ ds = [] ∧ Anc dag.graph o x ∧ x ≠ o ∧ VisibleIn dag x := ?_
      · rw [← hn]
        exact key _ (by simp [bareNode]) (by simp [bareNode]) (by simp [bareNode]) (by simp [bareNode])
      intro b hb1 hb2 hb3 hb4
      unfold countOmitted sortNode
      simp only
      split
      · rename_i hif
        refine ⟨[], List.nodup_nil, by simpa using hb4.symm, fun x => ?_⟩
        rw [hb1, hb2, hb3] at hif
        simp only [List.not_mem_nil, false_iff]
        rintro ⟨h2, rfl, rfl, _⟩
        simp only [List.isEmpty_nil, Bool.not_true, Bool.or_self, Bool.or_false, Bool.and_eq_true, Bool.not_eq_true',
          hpub] at hif
        have := List.contains_iff_mem.2 (h2 hif.1)
        rw [hif.2] at this
        cases this
      · rename_i hif
        rw [hb1, hb2, hb3] at hif
        refine howMany_count fun x => ?_
        rw [h1]
        simp only [Bool.or_eq_true, Bool.and_eq_true, Bool.not_eq_true', hpub, not_or, not_and] at hif
        obtain ⟨h2, h3, h4⟩ := hif
        have h3' : cs = [] := by simpa using h3
        have h4' : ds = [] := by simpa using h4
        constructor
        · intro h
          exact ⟨fun hp => by simpa using h2 hp, h3', h4', h⟩
        · rintro ⟨_, _, _, h⟩
          exact h
    have hrest : n.found = env.existing o ∧ n.isMain = dag.isPublicCommit o ∧
        n.isObsolete = dag.obsoleteCommits.contains o ∧ n.parents = ps ∧
        n.children = cs.insertionSort (childBefore fun o => if env.existing o then some (env.time o) else none) ∧
        n.ancestorInfo = ai ∧ n.descendants = ds := by
      rw [← hn]
      unfold countOmitted sortNode
      simp only
      split <;> simp [bareNode]
    obtain ⟨r1, r2, r3, r4, r5, r6, r7⟩ := hrest
    have hcs : ∀ c m, (⟨c, m⟩ : ChildInfo) ∈ cs ↔ Shown dag commits c ∧ ¬ Public dag c ∧
        (m = false ∧ IsFirstParent dag.graph o c ∨ m = true ∧ MergeParent dag.graph o c) := by
      intro c m
      rw [← hC, List.mem_map]
      constructor
      · rintro ⟨l, h1, h2⟩
        obtain ⟨h3, h4⟩ := List.mem_filter.1 h1
        obtain ⟨⟨h5, h6⟩, h7, h8⟩ := (m1 l).1 h3
        simp only [decide_eq_true_eq] at h4
        simp only [ChildInfo.mk.injEq] at h2
        obtain ⟨rfl, rfl⟩ := h2
        subst h4
        exact ⟨h5, h6, h8⟩
      · rintro ⟨h1, h2, h3⟩
        exact ⟨(c, o, m), List.mem_filter.2 ⟨(m1 _).2 ⟨⟨h1, h2⟩, ho, h3⟩, by simp⟩, rfl⟩
    have hds : ∀ c m, (⟨c, m⟩ : ChildInfo) ∈ ds ↔ m = false ∧ Shown dag commits c ∧ ¬ Public dag c ∧
        DistantParent dag commits o c := by
      intro c m
      rw [← hD, List.mem_map]
      constructor
      · rintro ⟨l, h1, h2⟩
        obtain ⟨h3, h4⟩ := List.mem_filter.1 h1
        obtain ⟨⟨h5, h6⟩, h7, h8⟩ := (m2 l).1 h3
        simp only [decide_eq_true_eq] at h4
        simp only [ChildInfo.mk.injEq] at h2
        obtain ⟨rfl, rfl⟩ := h2
        subst h4
        exact ⟨h7, h5, h6, h8⟩
      · rintro ⟨rfl, h1, h2, h3⟩
        exact ⟨(o, c, false), List.mem_filter.2 ⟨(m2 _).2 ⟨⟨h1, h2⟩, rfl, h3⟩, by simp⟩, rfl⟩
    constructor
    · exact r1
    · rw [r2, hpub]
    · rw [r3, List.contains_iff_mem]
    · rw [r4, ← hP, ← hl1, filter_flatMap_key (key := (·.1)) (fun x l hl => ((mem_immediateLinks hg).1 hl).1) hmd]
      by_cases hp : Public dag o
      · rw [if_pos hp, if_neg (fun h => ((hmm o).1 h).2 hp)]
        rfl
      · rw [if_neg hp, if_pos ((hmm o).2 ⟨ho, hp⟩), map_immediateLinks]
        refine List.filter_congr fun p _ => ?_
        rw [Bool.eq_iff_iff, List.contains_iff_mem, hkeys]
        simp
    · intro c m
      rw [r5, hperm.mem_iff, hcs]
    · intro c
      rw [r5, hperm.count_eq, ← hC, List.count, List.countP_map, List.countP_filter]
      have h1 := filter_flatMap_key (key := (·.1)) (fun x l hl => ((mem_immediateLinks (vertices := vertices) hg).1 hl).1) hmd c
      rw [hl1] at h1
      have h2 : List.countP (fun l : Oid × Oid × Bool =>
          ((fun x : ChildInfo => x == ⟨c, false⟩) ∘ fun l : Oid × Oid × Bool => (⟨l.1, l.2.2⟩ : ChildInfo)) l &&
            decide (l.2.1 = o)) links1 =
          List.countP (fun l => decide (l.2.1 = o) && !l.2.2) (links1.filter fun l => decide (l.1 = c)) := by
        rw [List.countP_filter]
        refine List.countP_congr fun l _ => ?_
        obtain ⟨a, b, m⟩ := l
        simp only [Function.comp, beq_iff_eq, ChildInfo.mk.injEq, Bool.and_eq_true, decide_eq_true_eq, Bool.not_eq_true']
        tauto
      rw [h2, h1]
      split
      · exact count_firstLinks _ _ _ _
      · simp
    · rw [r5]
      have := childBefore_total fun o => if env.existing o then some (env.time o) else none
      have := childBefore_trans fun o => if env.existing o then some (env.time o) else none
      refine (List.pairwise_insertionSort (childBefore fun o => if env.existing o then some (env.time o) else none) cs).imp ?_
      intro a b hab ha hb
      unfold childBefore at hab
      simp only [ha, hb, if_true] at hab
      omega
    · rw [r6, ← hA, Option.map_eq_none_iff, List.getLast?_eq_none_iff, List.filter_eq_nil_iff]
      constructor
      · intro h
        by_contra hx
        rw [not_or] at hx
        obtain ⟨hx1, hx2⟩ := hx
        rw [not_forall] at hx2
        obtain ⟨a, ha⟩ := hx2
        exact h (a, o, false) ((m2 _).2 ⟨⟨ho, hx1⟩, rfl, by simpa using ha⟩) (by simp)
      · intro h l hl heq
        simp only [decide_eq_true_eq] at heq
        subst heq
        obtain ⟨⟨h1, h2⟩, _, h4⟩ := (m2 l).1 hl
        rcases h with h | h
        · exact h2 h
        · exact h _ h4
    · intro a d had
      rw [r6, ← hA, Option.map_eq_some_iff] at had
      obtain ⟨l, h1, h2⟩ := had
      obtain ⟨h3, h4⟩ := List.mem_filter.1 (List.mem_of_getLast? h1)
      simp only [decide_eq_true_eq] at h4
      subst h4
      obtain ⟨⟨h5, h6⟩, _, h8⟩ := (m2 l).1 h3
      simp only [linkInfo, AncestorInfo.mk.injEq] at h2
      obtain ⟨rfl, rfl⟩ := h2
      refine ⟨h6, h8, howMany_count fun x => ?_⟩
      unfold Between
      rw [mem_diff, mem_range hg]
      simp only [List.mem_singleton, exists_eq_left, List.mem_cons, List.not_mem_nil, or_false, not_or]
      constructor
      · rintro ⟨⟨_, h1, h2⟩, h3, h4⟩
        exact ⟨h1, h2, h3, h4⟩
      · rintro ⟨h1, h2, h3, h4⟩
        exact ⟨⟨h2.mem hg (ho.mem hc), h1, h2⟩, h3, h4⟩
    · intro c m
      rw [r7, hds]
    · have he : n.children = [] ↔ cs = [] := by
        rw [r5]
        constructor
        · intro h
          have := hperm.length_eq
          rw [h] at this
          exact List.length_eq_zero_iff.1 this.symm
        · rintro rfl
          rfl
      rw [he, r7]
      exact hcount

end Verif.Spec
