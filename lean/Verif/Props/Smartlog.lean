import Verif.Lemmas.SmartlogRender
import Verif.Props.Navigate

/-! C50: the smartlog shows every selected commit once, below its nearest shown ancestor. -/

namespace Verif.Props

open Verif Verif.Spec

theorem smartlog_graph_ok (env : SmartlogEnv) (hs : SmartlogSets env) (dag : Dag) (hg : WFGraph dag.graph)
    (commits : List Oid) (exact : Bool) (hc : ∀ c ∈ smartlogSelected dag commits exact, c ∈ dag.graph.nodes) :
    ∃ graph, makeSmartlogGraph env dag commits exact = .ok graph ∧ AMap.WF graph ∧
      (∀ o, (AMap.get? graph o).isSome = true ↔ Shown dag (smartlogSelected dag commits exact) o) ∧
      ∀ o n, AMap.get? graph o = some n → NodeExact env dag (smartlogSelected dag commits exact) o n := by
  obtain ⟨graph, h1, h2, h3, h4⟩ := makeSmartlogGraph_ok hg hs (smartlogSelected dag commits exact) hc
  refine ⟨graph, ?_, h2, fun o => by rw [← AMap.mem_keys_iff, h3], h4⟩
  unfold makeSmartlogGraph
  simp only
  change (buildGraph env dag (smartlogSelected dag commits exact) >>= _) = _
  cases hb : buildGraph env dag (smartlogSelected dag commits exact) with
  | error e => rw [hb] at h1; cases h1
  | ok g =>
    rw [hb] at h1
    exact h1

/-- C50: the graph of the smartlog has exactly the commits which should be shown, and what its nodes say of the
parents, the children, the more distant relatives and the omitted commits is true. -/
theorem smartlog_graph_exact (env : SmartlogEnv) (hs : SmartlogSets env) (dag : Dag) (hg : WFGraph dag.graph)
    (commits : List Oid) (exact : Bool) (hc : ∀ c ∈ smartlogSelected dag commits exact, c ∈ dag.graph.nodes) :
    ∃ graph, makeSmartlogGraph env dag commits exact = .ok graph ∧
      (∀ o, (AMap.get? graph o).isSome = true ↔ Shown dag (smartlogSelected dag commits exact) o) ∧
      ∀ o n, AMap.get? graph o = some n → NodeExact env dag (smartlogSelected dag commits exact) o n := by
  obtain ⟨graph, h1, _, h2⟩ := smartlog_graph_ok env hs dag hg commits exact hc
  exact ⟨graph, h1, h2⟩

/-! ### the links -/

theorem mem_splitByRoots {env : SmartlogEnv} (hs : SmartlogSets env) {dag : Dag} (hg : WFGraph dag.graph)
    {commits : List Oid} {graph : SmartlogGraph} (hk : ∀ o, (AMap.get? graph o).isSome = true ↔ Shown dag commits o)
    (hn : ∀ o n, AMap.get? graph o = some n → NodeExact env dag commits o n) (o : Oid) :
    o ∈ splitByRoots env dag graph ↔ SmartlogRoot dag commits o := by
  classical
  unfold splitByRoots SmartlogRoot
  rw [(hs.sortBy _ _).mem_iff, List.mem_filter, (hs.shuffle _).mem_iff, AMap.mem_keys_iff, hk]
  refine and_congr_right fun ho => ?_
  obtain ⟨n, h⟩ := Option.isSome_iff_exists.1 ((hk o).2 ho)
  have hx := hn o n h
  unfold isRootNode
  rw [h]
  simp only [Bool.and_eq_true, List.isEmpty_iff, Option.isNone_iff_eq_none]
  rw [hx.ancestor, hx.parents]
  by_cases hp : Public dag o
  · simp [hp]
  · simp only [hp, if_false, false_or, List.filter_eq_nil_iff, decide_eq_true_eq, mem_parentsOf hg]

theorem nodup_splitByRoots {env : SmartlogEnv} (hs : SmartlogSets env) (dag : Dag) {graph : SmartlogGraph}
    (hw : AMap.WF graph) : (splitByRoots env dag graph).Nodup := by
  unfold splitByRoots
  rw [(hs.sortBy _ _).nodup_iff]
  exact ((hs.shuffle _).nodup_iff.2 hw).filter _

theorem linkCount_pos {dag : Dag} {commits : List Oid} {s o : Oid} :
    0 < linkCount dag commits s o ↔ SmartlogLink dag commits s o := by
  unfold linkCount SmartlogLink
  split
  · rename_i h
    constructor
    · intro h1
      refine ⟨h.1, h.2.1, h.2.2, ?_⟩
      by_contra hx
      rw [not_or] at hx
      rw [if_neg hx.1, if_neg hx.2] at h1
      omega
    · rintro ⟨_, _, _, h1 | h1⟩
      · rw [if_pos h1]; omega
      · rw [if_pos h1]; omega
  · rename_i h
    constructor
    · intro h1; omega
    · rintro ⟨h1, h2, h3, _⟩
      exact absurd ⟨h1, h2, h3⟩ h

theorem _root_.Verif.Spec.IsFirstParent.isParent {g : CommitGraph Oid} {p c : Oid} (h : IsFirstParent g p c) :
    IsParent g p c := by
  obtain ⟨ps, h⟩ := h
  exact ⟨_, h, by simp⟩

theorem _root_.Verif.Spec.SmartlogLink.not_root {dag : Dag} {commits : List Oid} {s o : Oid}
    (h : SmartlogLink dag commits s o) : ¬ SmartlogRoot dag commits o := by
  rintro ⟨_, h1 | ⟨h1, h2⟩⟩
  · exact h.2.2.1 h1
  · rcases h.2.2.2 with h3 | h3
    · exact h1 s h3.isParent h.1
    · exact h2 s h3

theorem _root_.Verif.Spec.SmartlogLink.age_lt {dag : Dag} (hg : WFGraph dag.graph) {commits : List Oid} {s o : Oid}
    (h : SmartlogLink dag commits s o) : ageOf dag.graph.entries s < ageOf dag.graph.entries o := by
  rcases h.2.2.2 with h | ⟨p, b, h1, _, _, _, _, h2, _⟩
  · exact Verif.Spec.age_lt hg h.isParent
  · exact lt_of_le_of_lt (age_le hg h2) (Verif.Spec.age_lt hg h1)

theorem count_followed {env : SmartlogEnv} (hs : SmartlogSets env) {dag : Dag} (hg : WFGraph dag.graph)
    {commits : List Oid} {graph : SmartlogGraph} (hk : ∀ o, (AMap.get? graph o).isSome = true ↔ Shown dag commits o)
    (hn : ∀ o n, AMap.get? graph o = some n → NodeExact env dag commits o n) (s o : Oid) :
    (followed env graph (splitByRoots env dag graph) s).count o = linkCount dag commits s o := by
  classical
  have hroot := mem_splitByRoots hs hg hk hn
  generalize splitByRoots env dag graph = roots at hroot
  unfold followed
  cases h : AMap.get? graph s with
  | none =>
    have : ¬ Shown dag commits s := by rw [← hk, h]; simp
    unfold linkCount
    rw [if_neg (fun h => this h.1)]
    rfl
  | some n =>
    have hss : Shown dag commits s := (hk s).1 (by rw [h]; rfl)
    have hx := hn s n h
    simp only
    have hf1 : (n.children.filter fun c => (AMap.get? graph c.oid).isSome) = n.children := by
      rw [List.filter_eq_self]
      rintro ⟨c, m⟩ hc
      exact (hk c).2 ((hx.children c m).1 hc).1
    have hf2 : (n.descendants.filter fun c => (AMap.get? graph c.oid).isSome) = n.descendants := by
      rw [List.filter_eq_self]
      rintro ⟨c, m⟩ hc
      exact (hk c).2 ((hx.descendants c m).1 hc).2.1
    rw [hf1, hf2]
    have hcount : ∀ l : List ChildInfo,
        ((l.filter fun c => !roots.contains c.oid && !c.isMergeChild).map (·.oid)).count o =
          if o ∈ roots then 0 else l.count ⟨o, false⟩ := by
      intro l
      induction l with
      | nil => simp
      | cons c l ih =>
        obtain ⟨c, m⟩ := c
        by_cases h1 : c ∈ roots
        · rw [List.filter_cons_of_neg (by simp [h1]), ih]
          by_cases h2 : o ∈ roots
          · rw [if_pos h2, if_pos h2]
          · rw [if_neg h2, if_neg h2, List.count_cons_of_ne]
            simp only [ne_eq, ChildInfo.mk.injEq, not_and]
            rintro rfl
            exact absurd h1 h2
        · cases m with
          | true =>
            rw [List.filter_cons_of_neg (by simp), ih, List.count_cons_of_ne (by simp)]
          | false =>
            rw [List.filter_cons_of_pos (by simp [h1]), List.map_cons, List.count_cons, ih, List.count_cons]
            by_cases h2 : o ∈ roots
            · rw [if_pos h2, if_pos h2, if_neg]
              simp only [beq_iff_eq]
              rintro rfl
              exact h1 h2
            · rw [if_neg h2, if_neg h2]
              by_cases h3 : c = o <;> simp [h3]
    rw [hcount, List.count_append, (hs.shuffleSet _).count_eq]
    have hc1 : n.children.count ⟨o, false⟩ =
        if Shown dag commits o ∧ ¬ Public dag o ∧ IsFirstParent dag.graph s o then 1 else 0 := by
      have h1 := hx.childOnce o
      have h2 := hx.children o false
      split
      · rename_i h3
        have := List.count_pos_iff.2 (h2.2 ⟨h3.1, h3.2.1, .inl ⟨rfl, h3.2.2⟩⟩)
        omega
      · rename_i h3
        rw [List.count_eq_zero]
        intro hm
        obtain ⟨h4, h5, ⟨_, h6⟩ | ⟨h6, _⟩⟩ := h2.1 hm
        · exact h3 ⟨h4, h5, h6⟩
        · cases h6
    have hc2 : n.descendants.dedup.count ⟨o, false⟩ =
        if Shown dag commits o ∧ ¬ Public dag o ∧ DistantParent dag commits s o then 1 else 0 := by
      rw [List.count_dedup]
      have h2 := hx.descendants o false
      by_cases h3 : Shown dag commits o ∧ ¬ Public dag o ∧ DistantParent dag commits s o
      · rw [if_pos h3, if_pos (h2.2 ⟨rfl, h3⟩)]
      · rw [if_neg h3, if_neg (fun hm => h3 (h2.1 hm).2)]
    rw [hc1, hc2]
    by_cases ho : o ∈ roots
    · rw [if_pos ho]
      have : ¬ 0 < linkCount dag commits s o := by
        rw [linkCount_pos]
        intro hl
        exact hl.not_root ((hroot o).1 ho)
      omega
    · rw [if_neg ho]
      unfold linkCount
      by_cases h1 : Shown dag commits o ∧ ¬ Public dag o
      · have h2 : Shown dag commits s ∧ Shown dag commits o ∧ ¬ Public dag o := ⟨hss, h1⟩
        rw [if_pos h2]
        simp only [h1.1, h1.2, not_false_eq_true, true_and]
      · have h2 : ¬ (Shown dag commits s ∧ Shown dag commits o ∧ ¬ Public dag o) := fun h => h1 h.2
        rw [if_neg h2, if_neg (fun h => h1 ⟨h.1, h.2.1⟩), if_neg (fun h => h1 ⟨h.1, h.2.1⟩)]

/-! ### the lines -/

/-- All about the lines, for a graph whose nodes are as they should be. -/
theorem rendered {env : SmartlogEnv} (hs : SmartlogSets env) {dag : Dag} (hg : WFGraph dag.graph)
    {commits : List Oid} {graph : SmartlogGraph}
    (hk : ∀ o, (AMap.get? graph o).isSome = true ↔ Shown dag commits o)
    (hn : ∀ o n, AMap.get? graph o = some n → NodeExact env dag commits o n) (head : Option Oid) :
    ∃ lines, renderGraph env dag graph head = .ok lines ∧
      commitsOf lines = (splitByRoots env dag graph).flatMap
        (traversal (followed env graph (splitByRoots env dag graph)) (dag.graph.nodes.length + 2)) ∧
      ∀ l ∈ lines, LineTrue dag head l.2 := by
  have hroot := mem_splitByRoots hs hg hk hn
  have hcf := count_followed hs hg hk hn
  have hfl : ∀ s o, o ∈ followed env graph (splitByRoots env dag graph) s ↔ SmartlogLink dag commits s o := by
    intro s o
    rw [← List.count_pos_iff, hcf, linkCount_pos]
  have hbound : ∀ o, ageOf dag.graph.entries o ≤ dag.graph.nodes.length := by
    intro o
    have := ageOf_le dag.graph.entries o
    unfold CommitGraph.nodes
    rw [List.length_map]
    exact this
  have hpar : ∀ o n, AMap.get? graph o = some n → ∀ p ∈ n.parents, (AMap.get? graph p).isSome = true := by
    intro o n h p hp
    rw [(hn o n h).parents] at hp
    split at hp
    · cases hp
    · have := (List.mem_filter.1 hp).2
      rw [hk]
      simpa using this
  have hco := childOutput_ok (env := env) (graph := graph) (roots := splitByRoots env dag graph) (head := head) hbound hpar
    (fun x c hc => ⟨(hk c).2 ((hfl x c).1 hc).2.1, ((hfl x c).1 hc).age_lt hg⟩) (dag.graph.nodes.length + 2)
  obtain ⟨lines, h1, h2, h3⟩ := rootLines_ok (env := env) (dag := dag) (graph := graph) (roots := splitByRoots env dag graph)
    (head := head) (fuel := dag.graph.nodes.length + 2)
    (P := fun i => commitOfItem i = none ∨
      ∃ x n, AMap.get? graph x = some n ∧ i = .commit x n.isMain n.isObsolete (decide (some x = head)))
    (fun i hi => .inl hi) (splitByRoots env dag graph) none
    (fun o ho last => hco o last ((hk o).2 ((hroot o).1 ho).1) (by omega))
  refine ⟨lines, h1, h2, ?_⟩
  intro l hl
  rcases h3 l hl with h | ⟨x, n, h, hi⟩
  · cases hi : l.2 <;> first | trivial | (rw [hi] at h; cases h)
  · rw [hi]
    refine ⟨(hn x n h).isMain, (hn x n h).isObsolete, ?_⟩
    rw [decide_eq_true_eq]
    exact eq_comm

theorem reached_shown {dag : Dag} {commits : List Oid} {o : Oid} (h : SmartlogReached dag commits o) :
    Shown dag commits o := by
  cases h with
  | root h => exact h.1
  | link _ h => exact h.2.1

theorem gcaOne_pair {g : CommitGraph Oid} (hg : WFGraph g) {a b : Oid} (ha : a ∈ g.nodes) (h : Anc g a b) (l : List Oid)
    (hl : ∀ x, x ∈ l ↔ x = a ∨ x = b) : g.gcaOne l = some a := by
  have hne : l ≠ [] := List.ne_nil_of_mem ((hl a).2 (.inl rfl))
  have hall : ∀ x, x ∈ g.gcaAll l ↔ x = a := by
    intro x
    rw [mem_gcaAll_iff hg]
    constructor
    · rintro ⟨_, h1, h2, h3⟩
      refine (h3 a ?_ (h2 a ((hl a).2 (.inl rfl)))).symm
      intro d hd
      rcases (hl d).1 hd with rfl | rfl
      · exact .refl
      · exact h
    · rintro rfl
      refine ⟨hne, ha, ?_, ?_⟩
      · intro d hd
        rcases (hl d).1 hd with rfl | rfl
        · exact .refl
        · exact h
      · intro o' ho' h1
        exact Anc.antisymm hg (ho' x ((hl x).2 (.inl rfl))) h1
  unfold CommitGraph.gcaOne
  cases hh : g.gcaAll l with
  | nil =>
    have := (hall a).2 rfl
    rw [hh] at this
    cases this
  | cons x xs =>
    have : x ∈ g.gcaAll l := by rw [hh]; simp
    rw [(hall x).1 this]
    rfl

theorem rootCompare_eq {env : SmartlogEnv} {dag : Dag} (hg : WFGraph dag.graph) {a b : Oid} (ha : a ∈ dag.graph.nodes)
    (hb : b ∈ dag.graph.nodes) (hab : a ≠ b) (ea : env.existing a = true) (eb : env.existing b = true) :
    rootCompare env dag a b = commitCompare dag env.time a b := by
  unfold rootCompare commitCompare
  rw [ea, eb, Bool.and_true, if_pos rfl]
  simp only
  by_cases h1 : Anc dag.graph a b
  · rw [gcaOne_pair hg ha h1 [a, b] (by simp), if_pos ((isAncestor_iff hg).2 ⟨ha, h1⟩)]
    simp
  · rw [if_neg (fun h => h1 ((isAncestor_iff hg).1 h).2)]
    by_cases h2 : Anc dag.graph b a
    · rw [gcaOne_pair hg hb h2 [a, b] (by simp [or_comm]), if_pos ((isAncestor_iff hg).2 ⟨hb, h2⟩)]
      simp [hab.symm]
    · rw [if_neg (fun h => h2 ((isAncestor_iff hg).1 h).2)]
      cases hgc : dag.graph.gcaOne [a, b] with
      | none => rfl
      | some x =>
        obtain ⟨_, h3, _⟩ := gcaOne_mergeBase hg hgc
        simp only
        rw [if_neg, if_neg]
        · rintro rfl
          exact h2 (h3 a (by simp))
        · rintro rfl
          exact h1 (h3 b (by simp))

theorem sublist_flatMap_heads (f : Oid → List Oid) (l : List Oid) (h : ∀ x ∈ l, ∃ t, f x = x :: t) :
    l.Sublist (l.flatMap f) := by
  induction l with
  | nil => exact List.Sublist.slnil
  | cons x l ih =>
    obtain ⟨t, ht⟩ := h x (by simp)
    rw [List.flatMap_cons, ht, List.cons_append]
    refine List.Sublist.cons_cons x ?_
    exact (ih fun y hy => h y (by simp [hy])).trans (List.sublist_append_right _ _)

theorem mem_traversal {follow : Oid → List Oid} {P : Oid → Prop} (hf : ∀ s, P s → ∀ o ∈ follow s, P o) :
    ∀ (fuel : Nat) (x : Oid), P x → ∀ o ∈ traversal follow fuel x, P o := by
  intro fuel
  induction fuel with
  | zero => intro x _ o h; cases h
  | succ fuel ih =>
    intro x hx o h
    rw [traversal] at h
    rcases List.mem_cons.1 h with rfl | h
    · exact hx
    · obtain ⟨c, h1, h2⟩ := List.mem_flatMap.1 h
      exact ih c (hf x hx c h1) o h2

theorem flatMap_order {follow : Oid → List Oid} {fuel : Nat} (l pre post : List Oid) (o : Oid)
    (h : l.flatMap (traversal follow fuel) = pre ++ o :: post) : o ∈ l ∨ ∃ s ∈ pre, o ∈ follow s := by
  induction l generalizing pre with
  | nil => simp at h
  | cons c l ihl =>
    rw [List.flatMap_cons, List.append_eq_append_iff] at h
    rcases h with ⟨a', h1, h2⟩ | ⟨a', h1, h2⟩
    · rcases ihl a' h2 with h | ⟨s, hs, ho⟩
      · exact .inl (by simp [h])
      · exact .inr ⟨s, by rw [h1]; simp [hs], ho⟩
    · cases a' with
      | nil =>
        simp only [List.nil_append] at h2
        rcases ihl [] h2.symm with h | ⟨s, hs, ho⟩
        · exact .inl (by simp [h])
        · cases hs
      | cons b a' =>
        simp only [List.cons_append, List.cons.injEq] at h2
        obtain ⟨rfl, h2⟩ := h2
        rcases traversal_order fuel c pre a' o h1 with ⟨_, rfl⟩ | ⟨s, hs, ho⟩
        · exact .inl (by simp)
        · exact .inr ⟨s, hs, ho⟩

theorem le_sum_map {l : List Oid} {x : Oid} (h : x ∈ l) (f : Oid → Nat) : f x ≤ (l.map f).sum := by
  induction l with
  | nil => cases h
  | cons y l ih =>
    rw [List.map_cons, List.sum_cons]
    rcases List.mem_cons.1 h with rfl | h
    · omega
    · have := ih h
      omega

/-- C50: the smartlog is printed for every set of commits. Its lines say the truth about their commits. A commit has
a line if, and only if, it is reached from a root, over links from first parents and from more distant ancestors; each
commit comes below one of them; and how often it is shown follows from how often these are. -/
theorem smartlog_rendered (env : SmartlogEnv) (hs : SmartlogSets env) (dag : Dag) (hg : WFGraph dag.graph)
    (commits : List Oid) (exact : Bool) (hc : ∀ c ∈ smartlogSelected dag commits exact, c ∈ dag.graph.nodes)
    (head : Option Oid) :
    ∃ graph lines, makeSmartlogGraph env dag commits exact = .ok graph ∧ renderGraph env dag graph head = .ok lines ∧
      (∀ l ∈ lines, LineTrue dag head l.2) ∧
      (∀ o, o ∈ commitsOf lines ↔ SmartlogReached dag (smartlogSelected dag commits exact) o) ∧
      (∀ pre o post, commitsOf lines = pre ++ o :: post → SmartlogRoot dag (smartlogSelected dag commits exact) o ∨
        ∃ s ∈ pre, SmartlogLink dag (smartlogSelected dag commits exact) s o) ∧
      (∃ shown : List Oid, shown.Nodup ∧ (∀ o, o ∈ shown ↔ Shown dag (smartlogSelected dag commits exact) o) ∧
        (∀ o, SmartlogRoot dag (smartlogSelected dag commits exact) o → (commitsOf lines).count o = 1) ∧
        (∀ o, ¬ SmartlogRoot dag (smartlogSelected dag commits exact) o → (commitsOf lines).count o =
          (shown.map fun s => linkCount dag (smartlogSelected dag commits exact) s o * (commitsOf lines).count s).sum)) ∧
      (SortContract env.sortBy → (∀ o, SmartlogRoot dag (smartlogSelected dag commits exact) o → env.existing o = true) →
        Orderly dag.graph env.time (SmartlogRoot dag (smartlogSelected dag commits exact)) →
        ∃ roots : List Oid, roots.Pairwise (Earlier dag.graph env.time) ∧
          (∀ o, o ∈ roots ↔ SmartlogRoot dag (smartlogSelected dag commits exact) o) ∧
          roots.Sublist (commitsOf lines)) := by
  obtain ⟨graph, hm, hw, hk, hn⟩ := smartlog_graph_ok env hs dag hg commits exact hc
  generalize hsel : smartlogSelected dag commits exact = sel at hc hk hn
  obtain ⟨lines, hr, hl, htrue⟩ := rendered hs hg hk hn head
  refine ⟨graph, lines, hm, hr, htrue, ?_⟩
  have hroot := mem_splitByRoots hs hg hk hn
  have hcf := count_followed hs hg hk hn
  have hnd := nodup_splitByRoots hs dag hw
  have hfl : ∀ s o, o ∈ followed env graph (splitByRoots env dag graph) s ↔ SmartlogLink dag sel s o := by
    intro s o
    rw [← List.count_pos_iff, hcf, linkCount_pos]
  have hsort : env.sortBy (rootCompare env dag) ((env.shuffle (AMap.keys graph)).filter (isRootNode graph)) =
    splitByRoots env dag graph := rfl
  generalize splitByRoots env dag graph = roots at *
  generalize followed env graph roots = follow at *
  have hkeys : ∀ o, o ∈ AMap.keys graph ↔ Shown dag sel o := fun o => by rw [AMap.mem_keys_iff, hk]
  have hbound : ∀ o, ageOf dag.graph.entries o ≤ dag.graph.nodes.length := by
    intro o
    have := ageOf_le dag.graph.entries o
    unfold CommitGraph.nodes
    rw [List.length_map]
    exact this
  have hstable : ∀ x, traversal follow (dag.graph.nodes.length + 2) x = traversal follow (dag.graph.nodes.length + 1) x :=
    fun x => traversal_stable hbound (fun x c h => ((hfl x c).1 h).age_lt hg) _ x (by omega)
  have hcount : ∀ o, (commitsOf lines).count o = roots.count o +
      ((AMap.keys graph).map fun s => linkCount dag sel s o * (commitsOf lines).count s).sum := by
    intro o
    rw [hl, count_flatMap']
    have h1 : (roots.map fun x => (traversal follow (dag.graph.nodes.length + 2) x).count o) =
        roots.map fun x => (if x = o then 1 else 0) + ((AMap.keys graph).map fun s =>
          (follow s).count o * (traversal follow (dag.graph.nodes.length + 2) x).count s).sum := by
      refine List.map_congr_left fun x hx => ?_
      rw [count_traversal (nodes := AMap.keys graph) hw (fun s _ c h => (hkeys c).2 ((hfl s c).1 h).2.1) o _ x
        ((hkeys x).2 ((hroot x).1 hx).1), ← hstable]
    rw [h1, sum_map_add', sum_indicator, sum_map_swap]
    congr 2
    refine List.map_congr_left fun s _ => ?_
    rw [count_flatMap', sum_map_mul', hcf]
  have hc1 : ∀ o, SmartlogRoot dag sel o → (commitsOf lines).count o = 1 := by
    intro o ho
    rw [hcount, List.count_eq_one_of_mem hnd ((hroot o).2 ho), sum_zero']
    intro s _
    have : ¬ 0 < linkCount dag sel s o := by
      rw [linkCount_pos]
      exact fun h => h.not_root ho
    rw [Nat.eq_zero_of_not_pos this, Nat.zero_mul]
  have hc2 : ∀ o, ¬ SmartlogRoot dag sel o → (commitsOf lines).count o =
      ((AMap.keys graph).map fun s => linkCount dag sel s o * (commitsOf lines).count s).sum := by
    intro o ho
    rw [hcount, List.count_eq_zero.2 (fun h => ho ((hroot o).1 h)), Nat.zero_add]
  refine ⟨?_, ?_, ⟨AMap.keys graph, hw, hkeys, hc1, hc2⟩, ?_⟩
  · intro o
    constructor
    · intro h
      rw [hl] at h
      obtain ⟨r, h1, h2⟩ := List.mem_flatMap.1 h
      exact mem_traversal (P := SmartlogReached dag sel) (fun s hs o ho => .link hs ((hfl s o).1 ho)) _ r
        (.root ((hroot r).1 h1)) o h2
    · intro h
      induction h with
      | root h => exact List.count_pos_iff.1 (by rw [hc1 _ h]; omega)
      | @link s o h1 h2 ih =>
        rw [← List.count_pos_iff, hc2 o h2.not_root]
        have hpos : 0 < linkCount dag sel s o * (commitsOf lines).count s :=
          Nat.mul_pos (linkCount_pos.2 h2) (List.count_pos_iff.2 ih)
        exact lt_of_lt_of_le hpos (le_sum_map ((hkeys s).2 h2.1) fun s => linkCount dag sel s o * (commitsOf lines).count s)
  · intro pre o post h
    rw [hl] at h
    rcases flatMap_order roots pre post o h with h | ⟨s, h1, h2⟩
    · exact .inl ((hroot o).1 h)
    · exact .inr ⟨s, h1, (hfl s o).1 h2⟩
  · intro hsc hex hord
    refine ⟨roots, ?_, hroot, ?_⟩
    · have hperm : roots.Perm ((env.shuffle (AMap.keys graph)).filter (isRootNode graph)) := by
        rw [← hsort]
        exact hsc.perm _ _
      have hnode : ∀ x ∈ roots, x ∈ dag.graph.nodes := fun x hx => ((hroot x).1 hx).1.mem hc
      have hce : ∀ a ∈ roots, ∀ b ∈ roots, a ≠ b → rootCompare env dag a b = commitCompare dag env.time a b :=
        fun a ha b hb hab => rootCompare_eq hg (hnode a ha) (hnode b hb) hab (hex a ((hroot a).1 ha)) (hex b ((hroot b).1 hb))
      have hlt : ∀ a ∈ roots, ∀ b ∈ roots, a ≠ b → (rootCompare env dag a b = .lt ↔ Earlier dag.graph env.time a b) :=
        fun a ha b hb hab => by rw [hce a ha b hb hab]; exact commitCompare_lt hg (hnode a ha) (hnode b hb) hab
      have hgt : ∀ a ∈ roots, ∀ b ∈ roots, a ≠ b → (rootCompare env dag a b = .gt ↔ rootCompare env dag b a = .lt) :=
        fun a ha b hb hab => by
          rw [hce a ha b hb hab, hce b hb a ha hab.symm, commitCompare_gt hg (hnode a ha) (hnode b hb) hab,
            commitCompare_lt hg (hnode b hb) (hnode a ha) hab.symm]
      have := hsc.sorted (rootCompare env dag) ((env.shuffle (AMap.keys graph)).filter (isRootNode graph))
        (hperm.nodup_iff.1 hnd) ?_ ?_
      · rw [hsort] at this
        have h2 : roots.Pairwise fun a b => a ≠ b ∧ rootCompare env dag a b = .lt := hnd.imp₂ (fun _ _ a b => ⟨a, b⟩) this
        refine h2.imp_of_mem fun {a b} ha hb h => ?_
        exact (hlt a ha b hb h.1).1 h.2
      · intro a ha b hb hab
        have ha := hperm.mem_iff.2 ha
        have hb := hperm.mem_iff.2 hb
        rw [hgt a ha b hb hab, hgt b hb a ha hab.symm, hlt a ha b hb hab, hlt b hb a ha hab.symm, and_self, and_self]
        exact earlier_total hab
      · intro a ha b hb c hc hab hbc h1 h2
        have ha := hperm.mem_iff.2 ha
        have hb := hperm.mem_iff.2 hb
        have hc := hperm.mem_iff.2 hc
        rw [hlt a ha b hb hab] at h1
        rw [hlt b hb c hc hbc] at h2
        have := hord a b c ((hroot a).1 ha) ((hroot b).1 hb) ((hroot c).1 hc) h1 h2
        exact ⟨this.1, (hlt a ha c hc this.1).2 this⟩
    · rw [hl]
      exact sublist_flatMap_heads _ _ fun x _ => ⟨_, rfl⟩

/-- Between a commit and the main branch there is one way, if there are no merge commits. -/
theorem linear_path {dag : Dag} (hg : WFGraph dag.graph) (hmain : dag.mainBranchCommit.length ≤ 1) (hlin : LinearDrafts dag) {b p : Oid}
    (hb : MergeBase dag.graph (dag.mainBranchCommit ++ [p]) b) {a a' : Oid} (h1 : Anc dag.graph b a)
    (h2 : Anc dag.graph a p) (h3 : Anc dag.graph b a') (h4 : Anc dag.graph a' p) :
    Anc dag.graph a a' ∨ Anc dag.graph a' a := by
  have huniq : ∀ x, Anc dag.graph b x → Anc dag.graph x p → x ≠ b → ∀ q q', IsParent dag.graph q x → IsParent dag.graph q' x →
      q = q' := by
    rintro x hx1 hx2 hx3 q q' ⟨ps, hp1, hp2⟩ ⟨ps', hp3, hp4⟩
    have hpub : ¬ Public dag x := by
      rintro ⟨m, hm, hxm⟩
      refine hx3 (hb.2.2 x ?_ hx1)
      intro d hd
      rcases List.mem_append.1 hd with hd | hd
      · match hc : dag.mainBranchCommit, hmain with
        | [], _ => rw [hc] at hd; cases hd
        | [y], _ =>
          rw [hc] at hm hd
          rw [List.mem_singleton.1 hd, ← List.mem_singleton.1 hm]
          exact hxm
      · rw [List.mem_singleton.1 hd]
        exact hx2
    have e := (parentsOf_of_mem hg hp1).symm.trans (parentsOf_of_mem hg hp3)
    subst e
    have hlen := hlin x ps hp1 hpub
    match ps, hlen, hp2, hp4 with
    | [y], _, h5, h6 => rw [List.mem_singleton.1 h5, List.mem_singleton.1 h6]
  have key : ∀ y, Anc dag.graph a y → Anc dag.graph b y → Anc dag.graph y p → Anc dag.graph a' y →
      Anc dag.graph a a' ∨ Anc dag.graph a' a := by
    intro y hy
    induction hy with
    | refl => exact fun _ _ h => .inr h
    | step h5 h6 ih =>
      rename_i q y
      intro h7 h8 h9
      rcases anc_iff.1 h9 with rfl | ⟨q', h10, h11⟩
      · exact .inl (h5.trans (.of_parent h6))
      · rcases anc_iff.1 h7 with rfl | ⟨q'', h12, h13⟩
        · have := Anc.antisymm hg h1 (h5.trans (.of_parent h6))
          subst this
          exact .inl h3
        · have hyb : y ≠ b := by
            rintro rfl
            exact absurd (Anc.antisymm hg h13 (.of_parent h12)) (by rintro rfl; exact not_isParent_self hg h12)
          have e1 := huniq y h7 h8 hyb q q' h6 h10
          have e2 := huniq y h7 h8 hyb q q'' h6 h12
          subst e1 e2
          exact ih h13 ((Anc.of_parent h6).trans h8) h11
  exact key p h2 (h1.trans h2) .refl h4

/-- C50: if there are no merge commits off the main branch, every commit which should be shown has exactly one line
in the smartlog, and nothing else has one. -/
theorem smartlog_once_partial (env : SmartlogEnv) (hs : SmartlogSets env) (dag : Dag) (hg : WFGraph dag.graph)
    (hmain : dag.mainBranchCommit.length ≤ 1) (hlin : LinearDrafts dag)
    (commits : List Oid) (exact : Bool) (hc : ∀ c ∈ smartlogSelected dag commits exact, c ∈ dag.graph.nodes)
    (head : Option Oid) :
    ∃ graph lines, makeSmartlogGraph env dag commits exact = .ok graph ∧ renderGraph env dag graph head = .ok lines ∧
      (commitsOf lines).Nodup ∧
      ∀ o, o ∈ commitsOf lines ↔ Shown dag (smartlogSelected dag commits exact) o := by
  classical
  obtain ⟨graph, lines, h1, h2, _, h3, _, ⟨shown, hnd, hsh, hc1, hc2⟩, _⟩ :=
    smartlog_rendered env hs dag hg commits exact hc head
  refine ⟨graph, lines, h1, h2, ?_⟩
  generalize smartlogSelected dag commits exact = sel at *
  have key : ∀ n o, ageOf dag.graph.entries o = n → Shown dag sel o → (commitsOf lines).count o = 1 := by
    intro n
    induction n using Nat.strong_induction_on with
    | _ n ih =>
      intro o hn ho
      by_cases hr : SmartlogRoot dag sel o
      · exact hc1 o hr
      · have hpub : ¬ Public dag o := fun h => hr ⟨ho, .inl h⟩
        have hex : ∃ s0, SmartlogLink dag sel s0 o ∧ ∀ s ∈ shown, linkCount dag sel s o = if s0 = s then 1 else 0 := by
          have hone : ∀ p q, IsParent dag.graph p o → IsParent dag.graph q o → p = q := by
            rintro p q ⟨ps, hp1, hp2⟩ ⟨qs, hq1, hq2⟩
            have e := (parentsOf_of_mem hg hp1).symm.trans (parentsOf_of_mem hg hq1)
            subst e
            have hlen := hlin o ps hp1 hpub
            match ps, hlen, hp2, hq2 with
            | [y], _, h5, h6 => rw [List.mem_singleton.1 h5, List.mem_singleton.1 h6]
          by_cases hpar : ∃ p, IsParent dag.graph p o ∧ Shown dag sel p
          · obtain ⟨p, hp, hps⟩ := hpar
            have hfp : IsFirstParent dag.graph p o := by
              obtain ⟨ps, hp1, hp2⟩ := hp
              have hlen := hlin o ps hp1 hpub
              match ps, hlen, hp1, hp2 with
              | [y], _, h5, h6 => rw [List.mem_singleton.1 h6]; exact ⟨[], h5⟩
            have hnd : ∀ s, ¬ DistantParent dag sel s o := by
              rintro s ⟨q, b, hq, hqs, _⟩
              rw [hone q p hq hp] at hqs
              exact hqs hps
            refine ⟨p, ⟨hps, ho, hpub, .inl hfp⟩, fun s hs => ?_⟩
            unfold linkCount
            rw [if_pos ⟨(hsh s).1 hs, ho, hpub⟩, if_neg (hnd s), Nat.add_zero]
            by_cases he : p = s
            · subst he
              rw [if_pos hfp, if_pos rfl]
            · rw [if_neg he, if_neg]
              exact fun h => he (hone p s hp h.isParent)
          · have hdp : ∃ a, DistantParent dag sel a o := by
              by_contra hx
              exact hr ⟨ho, .inr ⟨fun p hp hps => hpar ⟨p, hp, hps⟩, fun a ha => hx ⟨a, ha⟩⟩⟩
            obtain ⟨a, ha⟩ := hdp
            have hfp : ∀ s, Shown dag sel s → ¬ IsFirstParent dag.graph s o := fun s hs h => hpar ⟨s, h.isParent, hs⟩
            refine ⟨a, ⟨?_, ho, hpub, .inr ha⟩, fun s hs => ?_⟩
            · obtain ⟨_, _, _, _, _, h, _⟩ := ha
              exact h
            · unfold linkCount
              rw [if_pos ⟨(hsh s).1 hs, ho, hpub⟩, if_neg (hfp s ((hsh s).1 hs)), Nat.zero_add]
              by_cases he : a = s
              · subst he
                rw [if_pos ha, if_pos rfl]
              · rw [if_neg he, if_neg]
                rintro ⟨p', b', k1, _, k3, k4, k5, k6, k7⟩
                obtain ⟨p, b, j1, _, j3, j4, j5, j6, j7⟩ := ha
                have e1 := hone p p' j1 k1
                subst e1
                rw [j3] at k3
                have e2 := Option.some.inj k3
                subst e2
                rcases linear_path hg hmain hlin (gcaOne_mergeBase hg j3) j5 j6 k5 k6 with h | h
                · exact he (j7 s k4 k5 k6 h).symm
                · exact he (k7 a j4 j5 j6 h)
        obtain ⟨s0, hl, hcnt⟩ := hex
        rw [hc2 o hr]
        have : (shown.map fun s => linkCount dag sel s o * (commitsOf lines).count s) =
            shown.map fun s => (commitsOf lines).count s * if s0 = s then 1 else 0 :=
          List.map_congr_left fun s hs => by rw [hcnt s hs, Nat.mul_comm]
        rw [this, sum_select hnd ((hsh s0).2 hl.1) fun s => (commitsOf lines).count s]
        exact ih _ (by rw [← hn]; exact hl.age_lt hg) s0 rfl hl.1
  constructor
  · rw [List.nodup_iff_count_le_one]
    intro o
    by_cases h : o ∈ commitsOf lines
    · rw [key _ o rfl (reached_shown ((h3 o).1 h))]
    · rw [List.count_eq_zero.2 h]
      omega
  · intro o
    constructor
    · exact fun h => reached_shown ((h3 o).1 h)
    · intro h
      rw [← List.count_pos_iff, key _ o rfl h]
      omega

/-! ### merge commits -/

/-- How the sets are read in the examples. -/
def exSmartlog : SmartlogEnv := ⟨fun _ => true, fun o => o.val, id, id, insertionSortBy⟩

theorem exSmartlog_sets : SmartlogSets exSmartlog :=
  ⟨fun _ => .refl _, fun _ => .refl _, insertionSortBy_contract.perm⟩

/-- The main branch is 1, 2, 3; 4 is on top of 3, 5 on top of 4. -/
def exLine : Dag where
  graph := ⟨[(oidN 6, [oidN 5]), (oidN 5, [oidN 4]), (oidN 4, [oidN 3]), (oidN 3, [oidN 2]), (oidN 2, [oidN 1]), (oidN 1, [])]⟩
  headCommit := [oidN 6]
  mainBranchCommit := [oidN 3]
  branchCommits := [oidN 3]
  observedCommits := [oidN 4, oidN 5, oidN 6]
  obsoleteCommits := []

theorem exLine_wf : WFGraph exLine.graph := by
  unfold exLine WFGraph
  repeat (first | exact .nil | refine .cons (by decide) (by decide) ?_)

/-- Non-vacuity: 6 is shown above 4, with one commit between. -/
example : LinearDrafts exLine ∧ (∀ c ∈ smartlogSelected exLine [oidN 4] false, c ∈ exLine.graph.nodes) ∧
    ∃ graph, makeSmartlogGraph exSmartlog exLine [oidN 4] false = .ok graph ∧
      renderGraph exSmartlog exLine graph (some (oidN 6)) = .ok
        [([], .ellipsis), ([], .commit (oidN 3) true false false), ([], .line),
          ([], .commit (oidN 4) false false false), ([], .ellipsis), ([], .omitted 1), ([], .ellipsis),
          ([], .commit (oidN 6) false false true)] := by
  refine ⟨?_, by decide, _, rfl, by decide +kernel⟩
  intro c ps h _
  simp only [exLine, List.mem_cons, Prod.mk.injEq, List.not_mem_nil, or_false] at h
  rcases h with ⟨_, rfl⟩ | ⟨_, rfl⟩ | ⟨_, rfl⟩ | ⟨_, rfl⟩ | ⟨_, rfl⟩ | ⟨_, rfl⟩ <;> simp

/-- The main branch is 1, 2, 3; 4 is on top of 3; 5 merges 4 into 2, an old commit of the main branch. -/
def exStaleMerge : Dag where
  graph := ⟨[(oidN 5, [oidN 2, oidN 4]), (oidN 4, [oidN 3]), (oidN 3, [oidN 2]), (oidN 2, [oidN 1]), (oidN 1, [])]⟩
  headCommit := [oidN 5]
  mainBranchCommit := [oidN 3]
  branchCommits := [oidN 3]
  observedCommits := [oidN 4, oidN 5]
  obsoleteCommits := []

theorem exStaleMerge_wf : WFGraph exStaleMerge.graph := by
  unfold exStaleMerge WFGraph
  repeat (first | exact .nil | refine .cons (by decide) (by decide) ?_)

/-- C50 does not hold for merge commits: this one is `HEAD`, and selected, but it has no line (nor would anything on
top of it), as its first parent, an old commit of the main branch, is not shown. -/
theorem merge_not_rendered : ∃ graph lines,
    makeSmartlogGraph exSmartlog exStaleMerge exStaleMerge.draftCommits false = .ok graph ∧
    renderGraph exSmartlog exStaleMerge graph (some (oidN 5)) = .ok lines ∧
    WFGraph exStaleMerge.graph ∧ SmartlogSets exSmartlog ∧
    oidN 5 ∈ exStaleMerge.draftCommits ∧ oidN 5 ∉ commitsOf lines := by
  refine ⟨_, _, rfl, rfl, exStaleMerge_wf, exSmartlog_sets, by decide +kernel, by decide +kernel⟩

/-- The main branch is 1, 2; 3 and 4 are on top of 2; 5 merges 3 and 4. -/
def exDraftMerge : Dag where
  graph := ⟨[(oidN 5, [oidN 3, oidN 4]), (oidN 4, [oidN 2]), (oidN 3, [oidN 2]), (oidN 2, [oidN 1]), (oidN 1, [])]⟩
  headCommit := [oidN 5]
  mainBranchCommit := [oidN 2]
  branchCommits := [oidN 2]
  observedCommits := [oidN 3, oidN 4, oidN 5]
  obsoleteCommits := []

theorem exDraftMerge_wf : WFGraph exDraftMerge.graph := by
  unfold exDraftMerge WFGraph
  repeat (first | exact .nil | refine .cons (by decide) (by decide) ?_)

/-- C50 does not hold for merge commits: if only one of the parents of this one is selected, it is shown twice. -/
theorem merge_rendered_twice : ∃ graph lines,
    makeSmartlogGraph exSmartlog exDraftMerge [oidN 3] false = .ok graph ∧
    renderGraph exSmartlog exDraftMerge graph (some (oidN 5)) = .ok lines ∧
    WFGraph exDraftMerge.graph ∧ SmartlogSets exSmartlog ∧ (commitsOf lines).count (oidN 5) = 2 := by
  refine ⟨_, _, rfl, rfl, exDraftMerge_wf, exSmartlog_sets, by decide +kernel⟩

end Verif.Props
