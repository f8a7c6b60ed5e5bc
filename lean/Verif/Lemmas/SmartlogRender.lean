import Verif.Lemmas.Smartlog

/-! Lemmas about the lines of the smartlog. -/

namespace Verif.Spec

open Verif

/-- The links of a node which are followed. -/
def followed (env : SmartlogEnv) (graph : SmartlogGraph) (roots : List Oid) (o : Oid) : List Oid :=
  match AMap.get? graph o with
  | none => []
  | some node =>
    (((node.children.filter fun c => (AMap.get? graph c.oid).isSome) ++
      env.shuffleSet ((node.descendants.filter fun c => (AMap.get? graph c.oid).isSome).dedup)).filter
        fun c => !roots.contains c.oid && !c.isMergeChild).map (·.oid)

/-- The commits in the order of their lines. -/
def traversal (follow : Oid → List Oid) : Nat → Oid → List Oid
  | 0, _ => []
  | fuel + 1, o => o :: (follow o).flatMap (traversal follow fuel)

/-! ### counting -/

theorem sum_map_add' {α : Type} (l : List α) (f g : α → Nat) :
    (l.map fun x => f x + g x).sum = (l.map f).sum + (l.map g).sum := by
  induction l with
  | nil => rfl
  | cons x l ih => simp only [List.map_cons, List.sum_cons, ih]; omega

theorem sum_map_mul' {α : Type} (l : List α) (f : α → Nat) (k : Nat) :
    (l.map fun x => k * f x).sum = k * (l.map f).sum := by
  induction l with
  | nil => rfl
  | cons x l ih => simp only [List.map_cons, List.sum_cons, ih, Nat.mul_add]

theorem sum_map_swap {α β : Type} (l : List α) (m : List β) (f : α → β → Nat) :
    (l.map fun x => (m.map fun y => f x y).sum).sum = (m.map fun y => (l.map fun x => f x y).sum).sum := by
  induction l with
  | nil =>
    simp only [List.map_nil, List.sum_nil]
    induction m with
    | nil => rfl
    | cons y m ih => simpa using ih
  | cons x l ih => simp only [List.map_cons, List.sum_cons, ih, sum_map_add']

theorem sum_zero' {α : Type} {l : List α} {f : α → Nat} (h : ∀ x ∈ l, f x = 0) : (l.map f).sum = 0 := by
  induction l with
  | nil => rfl
  | cons x l ih => rw [List.map_cons, List.sum_cons, h x (by simp), ih (fun y hy => h y (by simp [hy]))]

theorem sum_indicator (l : List Oid) (o : Oid) : (l.map fun c => if c = o then 1 else 0).sum = l.count o := by
  induction l with
  | nil => rfl
  | cons x l ih =>
    rw [List.map_cons, List.sum_cons, ih, List.count_cons]
    by_cases h : x = o
    · simp [h]; omega
    · simp [h]

theorem sum_select {l : List Oid} (hl : l.Nodup) {x : Oid} (hx : x ∈ l) (f : Oid → Nat) :
    (l.map fun s => f s * if x = s then 1 else 0).sum = f x := by
  induction l with
  | nil => cases hx
  | cons y l ih =>
    obtain ⟨hy, hl⟩ := List.nodup_cons.1 hl
    rw [List.map_cons, List.sum_cons]
    rcases List.mem_cons.1 hx with rfl | hx1
    · have : (l.map fun s => f s * if x = s then 1 else 0).sum = 0 := by
        refine sum_zero' fun s hs => ?_
        rw [if_neg (by rintro rfl; exact hy hs), Nat.mul_zero]
      rw [this]
      simp
    · rw [ih hl hx1, if_neg (by rintro rfl; exact hy hx1)]
      simp

theorem count_flatMap' (l : List Oid) (f : Oid → List Oid) (o : Oid) :
    (l.flatMap f).count o = (l.map fun x => (f x).count o).sum := by
  induction l with
  | nil => rfl
  | cons x l ih => rw [List.flatMap_cons, List.count_append, ih, List.map_cons, List.sum_cons]

theorem count_traversal {follow : Oid → List Oid} {nodes : List Oid} (hn : nodes.Nodup)
    (hf : ∀ x ∈ nodes, ∀ c ∈ follow x, c ∈ nodes) (o : Oid) : ∀ (fuel : Nat) (x : Oid), x ∈ nodes →
    (traversal follow (fuel + 1) x).count o = (if x = o then 1 else 0) +
      (nodes.map fun s => (follow s).count o * (traversal follow fuel x).count s).sum := by
  intro fuel
  induction fuel with
  | zero =>
    intro x _
    have h1 : (nodes.map fun s => (follow s).count o * (traversal follow 0 x).count s).sum = 0 := by
      exact sum_zero' fun s _ => by simp [traversal]
    rw [h1]
    have h2 : (follow x).flatMap (traversal follow 0) = [] := by
      simp [traversal]
    simp only [traversal] at h2 ⊢
    rw [h2, List.count_cons]
    simp
  | succ fuel ih =>
    intro x hx
    rw [traversal, List.count_cons, count_flatMap']
    have h1 : ((follow x).map fun c => (traversal follow (fuel + 1) c).count o) =
        (follow x).map fun c => (if c = o then 1 else 0) +
          (nodes.map fun s => (follow s).count o * (traversal follow fuel c).count s).sum :=
      List.map_congr_left fun c hc => ih c (hf x hx c hc)
    rw [h1, sum_map_add', sum_indicator, sum_map_swap]
    have h2 : (nodes.map fun s => (follow s).count o * (traversal follow (fuel + 1) x).count s) =
        nodes.map fun s => ((follow s).count o * if x = s then 1 else 0) +
          ((follow x).map fun c => (follow s).count o * (traversal follow fuel c).count s).sum := by
      refine List.map_congr_left fun s _ => ?_
      rw [traversal, List.count_cons, count_flatMap', sum_map_mul', Nat.mul_add, Nat.add_comm]
      by_cases h : x = s <;> simp [h]
    rw [h2, sum_map_add', sum_select hn hx]
    have : (if (x == o) = true then 1 else 0) = (if x = o then 1 else 0) := by
      by_cases h : x = o <;> simp [h]
    rw [this]
    omega

theorem traversal_stable {follow : Oid → List Oid} {age : Oid → Nat} {bound : Nat} (hb : ∀ o, age o ≤ bound)
    (hf : ∀ x, ∀ c ∈ follow x, age x < age c) : ∀ (fuel : Nat) (x : Oid), bound < fuel + age x →
    traversal follow (fuel + 1) x = traversal follow fuel x := by
  intro fuel
  induction fuel with
  | zero =>
    intro x h
    have := hb x
    omega
  | succ fuel ih =>
    intro x h
    rw [traversal, traversal]
    congr 1
    refine List.flatMap_congr fun c hc => ih c ?_
    have := hf x c hc
    omega

/-- In a traversal, each commit but the first comes after one from which there is a link to it. -/
theorem traversal_order {follow : Oid → List Oid} : ∀ (fuel : Nat) (x : Oid) (pre post : List Oid) (o : Oid),
    traversal follow fuel x = pre ++ o :: post → (pre = [] ∧ o = x) ∨ ∃ s ∈ pre, o ∈ follow s := by
  intro fuel
  induction fuel with
  | zero =>
    intro x pre post o h
    simp [traversal] at h
  | succ fuel ih =>
    intro x pre post o h
    rw [traversal] at h
    cases pre with
    | nil =>
      simp only [List.nil_append, List.cons.injEq] at h
      exact .inl ⟨rfl, h.1.symm⟩
    | cons y pre =>
      right
      simp only [List.cons_append, List.cons.injEq] at h
      obtain ⟨rfl, h⟩ := h
      have key : ∀ (l : List Oid) (pre : List Oid), (∀ c ∈ l, c ∈ follow x) → l.flatMap (traversal follow fuel) = pre ++ o :: post →
          ∃ s ∈ x :: pre, o ∈ follow s := by
        intro l
        induction l with
        | nil => intro pre _ h; simp at h
        | cons c l ihl =>
          intro pre hl h
          rw [List.flatMap_cons, List.append_eq_append_iff] at h
          rcases h with ⟨a', h1, h2⟩ | ⟨a', h1, h2⟩
          · obtain ⟨s, hs, ho⟩ := ihl a' (fun c hc => hl c (by simp [hc])) h2
            refine ⟨s, ?_, ho⟩
            rw [h1]
            simp only [List.mem_cons, List.mem_append] at hs ⊢
            tauto
          · cases a' with
            | nil =>
              simp only [List.nil_append] at h2
              simp only [List.append_nil] at h1
              obtain ⟨s, hs, ho⟩ := ihl [] (fun c hc => hl c (by simp [hc])) h2.symm
              simp only [List.mem_singleton] at hs
              exact ⟨x, by simp, hs ▸ ho⟩
            | cons b a' =>
              simp only [List.cons_append, List.cons.injEq] at h2
              obtain ⟨rfl, h2⟩ := h2
              rcases ih c pre a' o h1 with ⟨_, rfl⟩ | ⟨s, hs, ho⟩
              · exact ⟨x, by simp, hl o (by simp)⟩
              · exact ⟨s, by simp [hs], ho⟩
      exact key _ _ (fun _ h => h) h

/-! ### the lines -/

theorem commitsOf_append (a b : List SmartlogLine) : commitsOf (a ++ b) = commitsOf a ++ commitsOf b :=
  List.filterMap_append

theorem commitsOf_besides (isLast : Bool) (last : Option Rail) (lines : List SmartlogLine) :
    commitsOf (besides isLast last lines) = commitsOf lines := by
  unfold commitsOf besides
  rw [List.filterMap_map]
  congr 1
  funext l
  simp only [Function.comp]
  cases isLast <;> cases last <;> rfl

theorem mem_besides {isLast : Bool} {last : Option Rail} {lines : List SmartlogLine} {l : SmartlogLine}
    (h : l ∈ besides isLast last lines) : ∃ l' ∈ lines, l'.2 = l.2 := by
  obtain ⟨l', h1, rfl⟩ := List.mem_map.1 h
  refine ⟨l', h1, ?_⟩
  cases isLast <;> cases last <;> rfl

theorem commitsOf_noCommit {lines : List SmartlogLine} (h : ∀ l ∈ lines, commitOfItem l.2 = none) :
    commitsOf lines = [] := List.filterMap_eq_nil_iff.2 h

theorem ownLines_ok {graph : SmartlogGraph} {head : Option Oid} {oid : Oid} {node : SmartlogNode} (last : Option Rail)
    (h : ∀ p ∈ node.parents, (AMap.get? graph p).isSome = true) :
    ∃ lines, ownLines graph head oid node last = .ok lines ∧ commitsOf lines = [oid] ∧
      ∀ l ∈ lines, commitOfItem l.2 = none ∨ l.2 = .commit oid node.isMain node.isObsolete (decide (some oid = head)) := by
  unfold ownLines
  simp only
  rw [if_pos (by
    rw [List.all_eq_true]
    exact fun p hp => h p (List.mem_of_mem_drop hp))]
  refine ⟨_, rfl, ?_, ?_⟩
  · rw [commitsOf_append, commitsOf_append, commitsOf_append]
    have h1 : commitsOf (omittedLines node.ancestorInfo) = [] := by
      cases node.ancestorInfo <;> rfl
    have h2 : commitsOf (if (node.parents.drop 1).isEmpty = true then []
        else ((node.parents.drop 1).map fun p => ([last.getD .line], LineItem.mergeParent p)) ++ [([], .mergeJoin)]) = [] := by
      split
      · rfl
      · apply commitsOf_noCommit
        intro l hl
        rcases List.mem_append.1 hl with hl | hl
        · obtain ⟨p, _, rfl⟩ := List.mem_map.1 hl
          rfl
        · rw [List.mem_singleton] at hl
          subst hl
          rfl
    have h3 : commitsOf (if node.numOmittedDescendants > 0 then
        [([], LineItem.ellipsis), ([], .omittedDescendants node.numOmittedDescendants)] else []) = [] := by
      split <;> rfl
    rw [h1, h2, h3]
    rfl
  · intro l hl
    simp only [List.mem_append] at hl
    rcases hl with ((hl | hl) | hl) | hl
    · left
      cases hi : node.ancestorInfo with
      | none => rw [hi] at hl; cases hl
      | some i =>
        rw [hi] at hl
        simp only [omittedLines, List.mem_cons, List.not_mem_nil, or_false] at hl
        rcases hl with rfl | rfl <;> rfl
    · left
      split at hl
      · cases hl
      · rcases List.mem_append.1 hl with hl | hl
        · obtain ⟨p, _, rfl⟩ := List.mem_map.1 hl
          rfl
        · rw [List.mem_singleton] at hl
          subst hl
          rfl
    · right
      rw [List.mem_singleton] at hl
      subst hl
      rfl
    · left
      split at hl
      · simp only [List.mem_cons, List.not_mem_nil, or_false] at hl
        rcases hl with rfl | rfl <;> rfl
      · cases hl

theorem childLines_ok {graph : SmartlogGraph} {roots : List Oid} {node : SmartlogNode} {last : Option Rail} {total : Nat}
    {render : Oid → Except RenderError (List SmartlogLine)} {P : LineItem → Prop} {f : Oid → List Oid}
    (hP : ∀ i, commitOfItem i = none → P i) :
    ∀ (l : List ChildInfo) (index : Nat),
    (∀ c ∈ l, c.oid ∉ roots → c.isMergeChild = false →
      ∃ lines, render c.oid = .ok lines ∧ commitsOf lines = f c.oid ∧ ∀ x ∈ lines, P x.2) →
    ∃ lines, childLines graph roots node last total render index l = .ok lines ∧
      commitsOf lines = ((l.filter fun c => !roots.contains c.oid && !c.isMergeChild).map (·.oid)).flatMap f ∧
      ∀ x ∈ lines, P x.2 := by
  intro l
  induction l with
  | nil => intro index _; exact ⟨[], rfl, rfl, by simp⟩
  | cons c l ih =>
    intro index h
    obtain ⟨rest, e1, e2, e3⟩ := ih (index + 1) (fun c hc => h c (by simp [hc]))
    unfold childLines
    by_cases h1 : c.oid ∈ roots
    · refine ⟨rest, ?_, ?_, e3⟩
      · rw [if_pos (List.contains_iff_mem.2 h1)]
        exact e1
      · rw [e2, List.filter_cons_of_neg (by simp [h1])]
    · rw [if_neg (fun hx => h1 (List.contains_iff_mem.1 hx))]
      cases h2 : c.isMergeChild with
      | true =>
        rw [if_pos rfl, e1]
        refine ⟨_, rfl, ?_, ?_⟩
        · rw [List.filter_cons_of_neg (by simp [h2]), ← e2]
          rfl
        · intro x hx
          rcases List.mem_cons.1 hx with rfl | hx
          · exact hP _ rfl
          · exact e3 x hx
      | false =>
        obtain ⟨lines, r1, r2, r3⟩ := h c (by simp) h1 h2
        rw [if_neg (by simp), r1, e1]
        refine ⟨_, rfl, ?_, ?_⟩
        · rw [List.filter_cons_of_pos (by simp [h1, h2]), List.map_cons, List.flatMap_cons, ← e2, ← r2]
          rw [List.cons_append, ← List.singleton_append, commitsOf_append, commitsOf_append, commitsOf_besides]
          rw [commitsOf_noCommit, List.nil_append]
          intro x hx
          rw [List.mem_singleton] at hx
          subst hx
          simp only
          split
          · rfl
          · split <;> rfl
        · intro x hx
          rw [List.cons_append] at hx
          rcases List.mem_cons.1 hx with rfl | hx
          · apply hP
            simp only
            split
            · rfl
            · split <;> rfl
          · rcases List.mem_append.1 hx with hx | hx
            · obtain ⟨l', h3, h4⟩ := mem_besides hx
              rw [← h4]
              exact r3 l' h3
            · exact e3 x hx

theorem childOutput_ok {env : SmartlogEnv} {graph : SmartlogGraph} {roots : List Oid} {head : Option Oid}
    {age : Oid → Nat} {bound : Nat} (hb : ∀ o, age o ≤ bound)
    (hp : ∀ o n, AMap.get? graph o = some n → ∀ p ∈ n.parents, (AMap.get? graph p).isSome = true)
    (hf : ∀ x, ∀ c ∈ followed env graph roots x, (AMap.get? graph c).isSome = true ∧ age x < age c) :
    ∀ (fuel : Nat) (o : Oid) (last : Option Rail), (AMap.get? graph o).isSome = true → bound < fuel + age o →
    ∃ lines, childOutput env graph roots head fuel o last = .ok lines ∧
      commitsOf lines = traversal (followed env graph roots) fuel o ∧
      ∀ l ∈ lines, commitOfItem l.2 = none ∨
        ∃ x n, AMap.get? graph x = some n ∧ l.2 = .commit x n.isMain n.isObsolete (decide (some x = head)) := by
  intro fuel
  induction fuel with
  | zero =>
    intro o last _ h
    have := hb o
    omega
  | succ fuel ih =>
    intro o last ho hfuel
    obtain ⟨n, hn⟩ := Option.isSome_iff_exists.1 ho
    unfold childOutput
    rw [hn]
    simp only
    obtain ⟨own, o1, o2, o3⟩ := ownLines_ok (graph := graph) (head := head) (oid := o) last (hp o n hn)
    have hfol : followed env graph roots o = (((n.children.filter fun c => (AMap.get? graph c.oid).isSome) ++
        env.shuffleSet ((n.descendants.filter fun c => (AMap.get? graph c.oid).isSome).dedup)).filter
          fun c => !roots.contains c.oid && !c.isMergeChild).map (·.oid) := by
      unfold followed
      rw [hn]
    obtain ⟨below, b1, b2, b3⟩ := childLines_ok (graph := graph) (roots := roots) (node := n) (last := last)
      (total := (n.children.filter fun c => (AMap.get? graph c.oid).isSome).length +
        (env.shuffleSet ((n.descendants.filter fun c => (AMap.get? graph c.oid).isSome).dedup)).length)
      (render := fun child => childOutput env graph roots head fuel child none)
      (P := fun i => commitOfItem i = none ∨
        ∃ x n, AMap.get? graph x = some n ∧ i = .commit x n.isMain n.isObsolete (decide (some x = head)))
      (f := traversal (followed env graph roots) fuel) (fun i hi => .inl hi)
      ((n.children.filter fun c => (AMap.get? graph c.oid).isSome) ++
        env.shuffleSet ((n.descendants.filter fun c => (AMap.get? graph c.oid).isSome).dedup)) 0
      (fun c hc h1 h2 => by
        have hmem : c.oid ∈ followed env graph roots o := by
          rw [hfol]
          exact List.mem_map.2 ⟨c, List.mem_filter.2 ⟨hc, by simp [h1, h2]⟩, rfl⟩
        obtain ⟨h3, h4⟩ := hf o c.oid hmem
        exact ih c.oid none h3 (by omega))
    rw [o1]
    change ∃ lines, (childLines graph roots n last _ _ 0 _ >>= _) = _ ∧ _
    rw [b1]
    refine ⟨own ++ below, rfl, ?_, ?_⟩
    · rw [commitsOf_append, o2, b2, traversal, hfol]
      rfl
    · intro l hl
      rcases List.mem_append.1 hl with hl | hl
      · rcases o3 l hl with h | h
        · exact .inl h
        · exact .inr ⟨o, n, hn, h⟩
      · exact b3 l hl

theorem rootLines_ok {env : SmartlogEnv} {dag : Dag} {graph : SmartlogGraph} {roots : List Oid} {head : Option Oid}
    {fuel : Nat} {P : LineItem → Prop} {f : Oid → List Oid} (hP : ∀ i, commitOfItem i = none → P i) :
    ∀ (l : List Oid) (before : Option Oid),
    (∀ o ∈ l, ∀ last, ∃ lines, childOutput env graph roots head fuel o last = .ok lines ∧ commitsOf lines = f o ∧
      ∀ x ∈ lines, P x.2) →
    ∃ lines, rootLines env dag graph head roots fuel before l = .ok lines ∧ commitsOf lines = l.flatMap f ∧
      ∀ x ∈ lines, P x.2 := by
  intro l
  induction l with
  | nil => intro _ _; exact ⟨[], rfl, rfl, by simp⟩
  | cons o l ih =>
    intro before h
    obtain ⟨below, b1, b2, b3⟩ := ih (some o) (fun x hx => h x (by simp [hx]))
    obtain ⟨lines, e1, e2, e3⟩ := h o (by simp) (nextRail dag o l)
    unfold rootLines
    simp only
    have habove : ∀ x ∈ (if !(dag.graph.parents [o]).isEmpty then
        [([], if before.any (hasRealParent dag o ·) then LineItem.line else .ellipsis)]
      else if before.isSome then [([], .empty)]
      else [] : List SmartlogLine), commitOfItem x.2 = none := by
      intro x hx
      split at hx
      · rw [List.mem_singleton] at hx
        subst hx
        simp only
        split <;> rfl
      · split at hx
        · rw [List.mem_singleton] at hx
          subst hx
          rfl
        · cases hx
    generalize (if !(dag.graph.parents [o]).isEmpty then
        [([], if before.any (hasRealParent dag o ·) then LineItem.line else .ellipsis)]
      else if before.isSome then [([], .empty)]
      else [] : List SmartlogLine) = above at habove
    rw [e1]
    change ∃ lines, (rootLines env dag graph head roots fuel (some o) l >>= _) = _ ∧ _
    rw [b1]
    refine ⟨above ++ lines ++ below, rfl, ?_, ?_⟩
    · rw [commitsOf_append, commitsOf_append, commitsOf_noCommit habove, e2, b2, List.flatMap_cons]
      rfl
    · intro x hx
      simp only [List.mem_append] at hx
      rcases hx with (hx | hx) | hx
      · exact hP _ (habove x hx)
      · exact e3 x hx
      · exact b3 x hx

end Verif.Spec
