import Verif.Spec.Plan
import Verif.Lemmas.Dag
import Mathlib.Data.List.Basic

namespace Verif.Spec

open Verif Verif.Constraints

/-! ### loops, sorting, maps -/

theorem tryEach_ok {α ε : Type} {f : α → Option (Except ε Unit)} {l : List α} :
    tryEach f l = some (.ok ()) ↔ ∀ x ∈ l, f x = some (.ok ()) := by
  induction l with
  | nil => simp [tryEach]
  | cons x xs ih =>
    rw [tryEach]
    cases hx : f x with
    | none => simp [hx]
    | some r =>
      cases r with
      | error e => simp [hx]
      | ok u => simp [hx, ih]

theorem tryEach_error {α ε : Type} {f : α → Option (Except ε Unit)} {l : List α} {e : ε}
    (h : tryEach f l = some (.error e)) : ∃ x ∈ l, f x = some (.error e) := by
  induction l with
  | nil => simp [tryEach] at h
  | cons x xs ih =>
    rw [tryEach] at h
    cases hx : f x with
    | none => simp [hx] at h
    | some r =>
      cases r with
      | error e' =>
        rw [hx] at h
        simp only [Option.some.injEq, Except.error.injEq] at h
        subst h; exact ⟨x, List.mem_cons_self, hx⟩
      | ok u =>
        rw [hx] at h
        obtain ⟨y, hy, h⟩ := ih h
        exact ⟨y, List.mem_cons_of_mem _ hy, h⟩

theorem tryEach_isSome {α ε : Type} {f : α → Option (Except ε Unit)} {l : List α}
    (h : ∀ x ∈ l, (f x).isSome) : (tryEach f l).isSome := by
  induction l with
  | nil => simp [tryEach]
  | cons x xs ih =>
    rw [tryEach]
    have hx := h x List.mem_cons_self
    cases hf : f x with
    | none => simp [hf] at hx
    | some r =>
      cases r with
      | error e => simp
      | ok u => exact ih fun y hy => h y (List.mem_cons_of_mem _ hy)

theorem mem_sortOids {l : List Oid} {x : Oid} : x ∈ sortOids l ↔ x ∈ l :=
  (List.perm_insertionSort _ l).mem_iff

theorem sortOids_perm (l : List Oid) : (sortOids l).Perm l := List.perm_insertionSort _ l

theorem mem_commitsToMoveTo {k : Constraints} {p c : Oid} : c ∈ k.commitsToMoveTo p ↔ Moves k p c := by
  unfold commitsToMoveTo Moves
  cases h : AMap.get? k.inner p <;> simp

theorem Moves.mem_parents {k : Constraints} {p c : Oid} (h : Moves k p c) : p ∈ k.parents := by
  obtain ⟨cs, h, _⟩ := h
  unfold Constraints.parents
  rw [AMap.mem_keys_iff, h]; rfl

theorem mem_commitsToMove {k : Constraints} (hw : AMap.WF k.inner) {c : Oid} :
    c ∈ k.commitsToMove ↔ ∃ p, Moves k p c := by
  unfold commitsToMove Moves
  rw [List.mem_flatMap]
  constructor
  · rintro ⟨⟨p, cs⟩, h, hc⟩
    exact ⟨p, cs, AMap.get?_of_mem hw h, hc⟩
  · rintro ⟨p, cs, h, hc⟩
    exact ⟨(p, cs), AMap.mem_of_get? h, hc⟩

/-! ### the cycle check -/

/-- A path which leads to the current commit. -/
def PathTo (k : Constraints) (path : List Oid) (cur : Oid) : Prop :=
  path.Nodup ∧ List.IsChain (Moves k) (path ++ [cur])

theorem pathTo_nil (k : Constraints) (cur : Oid) : PathTo k [] cur := by simp [PathTo]

theorem PathTo.step {k : Constraints} {path : List Oid} {cur c : Oid} (h : PathTo k path cur)
    (hn : cur ∉ path) (hm : Moves k cur c) : PathTo k (path ++ [cur]) c := by
  refine ⟨?_, ?_⟩
  · rw [List.nodup_append]
    exact ⟨h.1, by simp, by simp; rintro a ha rfl; exact hn ha⟩
  · rw [List.append_assoc, List.singleton_append, List.isChain_split]
    exact ⟨h.2, by simpa using hm⟩

theorem PathTo.subset {k : Constraints} {path : List Oid} {cur : Oid} (h : PathTo k path cur) :
    ∀ x ∈ path, x ∈ k.parents := by
  intro x hx
  have h2 := h.2
  clear h
  induction path with
  | nil => simp at hx
  | cons a rest ih =>
    rcases rest with _ | ⟨b, rest⟩
    · simp only [List.mem_singleton] at hx
      subst hx
      simp only [List.cons_append, List.nil_append, List.isChain_cons_cons] at h2
      exact h2.1.mem_parents
    · simp only [List.cons_append, List.isChain_cons_cons] at h2 ih
      rcases List.mem_cons.1 hx with rfl | hx
      · exact h2.1.mem_parents
      · exact ih hx h2.2

theorem PathTo.length_le {k : Constraints} {path : List Oid} {cur : Oid} (h : PathTo k path cur) :
    path.length ≤ k.parents.length :=
  (List.subperm_of_subset h.1 h.subset).length_le

theorem helper_isSome (k : Constraints) (fuel : Nat) (path : List Oid) (cur : Oid)
    (hp : PathTo k path cur) (hf : k.parents.length + 2 ≤ fuel + path.length) :
    (checkForCyclesHelper k fuel path cur).isSome := by
  induction fuel generalizing path cur with
  | zero => have := hp.length_le; omega
  | succ n ih =>
    rw [checkForCyclesHelper]
    by_cases hc : cur ∈ path
    · simp [hc]
    · simp only [List.contains_iff_mem, hc, if_false, Bool.false_eq_true]
      refine tryEach_isSome fun c hcc => ?_
      rw [mem_sortOids, mem_commitsToMoveTo] at hcc
      refine ih _ _ (hp.step hc hcc) ?_
      rw [List.length_append]; simp; omega

theorem helper_error {k : Constraints} (fuel : Nat) (path : List Oid) (cur : Oid)
    (hp : PathTo k path cur) {e : BuildRebasePlanError}
    (h : checkForCyclesHelper k fuel path cur = some (.error e)) :
    ∃ path' c, e = .constraintCycle (path' ++ [c]) ∧ c ∈ path' ∧ PathTo k path' c ∧
      (path ++ [cur]) <+: (path' ++ [c]) := by
  induction fuel generalizing path cur with
  | zero => simp [checkForCyclesHelper] at h
  | succ n ih =>
    rw [checkForCyclesHelper] at h
    by_cases hc : cur ∈ path
    · simp only [List.contains_iff_mem, hc, if_true, Option.some.injEq, Except.error.injEq] at h
      exact ⟨path, cur, h.symm, hc, hp, List.prefix_rfl⟩
    · simp only [List.contains_iff_mem, hc, if_false, Bool.false_eq_true] at h
      obtain ⟨c, hcc, h⟩ := tryEach_error h
      rw [mem_sortOids, mem_commitsToMoveTo] at hcc
      obtain ⟨p', c', h1, h2, h3, h4⟩ := ih _ _ (hp.step hc hcc) h
      exact ⟨p', c', h1, h2, h3, (List.prefix_append _ _).trans h4⟩

theorem helper_ok_step {k : Constraints} {fuel : Nat} {path : List Oid} {cur : Oid}
    (h : checkForCyclesHelper k fuel path cur = some (.ok ())) :
    cur ∉ path ∧ ∀ c, Moves k cur c →
      checkForCyclesHelper k (fuel - 1) (path ++ [cur]) c = some (.ok ()) := by
  cases fuel with
  | zero => simp [checkForCyclesHelper] at h
  | succ n =>
    rw [checkForCyclesHelper] at h
    by_cases hc : cur ∈ path
    · simp [hc] at h
    · simp only [List.contains_iff_mem, hc, if_false, Bool.false_eq_true] at h
      refine ⟨hc, fun c hm => ?_⟩
      rw [tryEach_ok] at h
      exact h c (by rw [mem_sortOids, mem_commitsToMoveTo]; exact hm)

theorem helper_ok_reach {k : Constraints} {fuel : Nat} {cur : Oid}
    (h : checkForCyclesHelper k fuel [] cur = some (.ok ())) {d : Oid}
    (hd : Relation.TransGen (Moves k) cur d) :
    ∃ fuel' path, cur ∈ path ∧ checkForCyclesHelper k fuel' path d = some (.ok ()) := by
  induction hd with
  | single hm => exact ⟨_, _, by simp, (helper_ok_step h).2 _ hm⟩
  | tail _ hm ih =>
    obtain ⟨f, path, h1, h2⟩ := ih
    exact ⟨_, _, List.mem_append_left _ h1, (helper_ok_step h2).2 _ hm⟩

theorem transGen_left_mem {k : Constraints} {a b : Oid} (h : Relation.TransGen (Moves k) a b) :
    a ∈ k.parents := by
  induction h using Relation.TransGen.head_induction_on with
  | single h => exact h.mem_parents
  | head h _ _ => exact h.mem_parents

theorem isChain_transGen {k : Constraints} {c : Oid} {l : List Oid} {path : List Oid}
    (h : List.IsChain (Moves k) (path ++ c :: l ++ [c])) : Relation.TransGen (Moves k) c c := by
  rw [List.append_assoc] at h
  have h := h.right_of_append
  simp only [List.cons_append] at h
  have key : ∀ (l : List Oid) (a : Oid), List.IsChain (Moves k) (a :: (l ++ [c])) →
      Relation.TransGen (Moves k) a c := by
    intro l
    induction l with
    | nil => intro a h; simp at h; exact .single h
    | cons b l ih =>
      intro a h
      rw [List.cons_append, List.isChain_cons_cons] at h
      exact .head h.1 (ih b h.2)
  exact key l c h

theorem PathTo.cyclic {k : Constraints} {path : List Oid} {c : Oid} (h : PathTo k path c)
    (hc : c ∈ path) : Relation.TransGen (Moves k) c c := by
  obtain ⟨l1, l2, rfl⟩ := List.append_of_mem hc
  exact isChain_transGen h.2

/-! ### the maps of the constraint graph -/

/-- As `Moves`, for the map itself. -/
def InMap (m : AMap Oid (List Oid)) (p c : Oid) : Prop := ∃ cs, AMap.get? m p = some cs ∧ c ∈ cs

theorem moves_iff {k : Constraints} {p c : Oid} : Moves k p c ↔ InMap k.inner p c := Iff.rfl

theorem inMap_iff {m : AMap Oid (List Oid)} {p c : Oid} :
    InMap m p c ↔ c ∈ (AMap.get? m p).getD [] := by
  unfold InMap
  cases AMap.get? m p <;> simp

/-- One entry per key, without repetitions. -/
def MapWF (m : AMap Oid (List Oid)) : Prop :=
  AMap.WF m ∧ ∀ p cs, AMap.get? m p = some cs → cs.Nodup

theorem mapWF_nil : MapWF [] := ⟨AMap.wf_nil, by simp⟩

theorem inMap_addTo {m : AMap Oid (List Oid)} {a v p c : Oid} :
    InMap (addTo m a v) p c ↔ InMap m p c ∨ p = a ∧ c = v := by
  rw [inMap_iff, inMap_iff]
  unfold addTo
  rw [AMap.get?_insert]
  by_cases h : a = p
  · subst h
    simp only [if_true, Option.getD_some, true_and]
    by_cases hv : v ∈ (AMap.get? m a).getD []
    · simp only [List.contains_iff_mem, hv, if_true]
      constructor
      · exact .inl
      · rintro (h | rfl)
        · exact h
        · exact hv
    · simp [hv]
  · simp only [h, if_false, Ne.symm h, false_and, or_false]

theorem mapWF_addTo {m : AMap Oid (List Oid)} (h : MapWF m) (a v : Oid) : MapWF (addTo m a v) := by
  refine ⟨AMap.wf_insert h.1 _ _, fun p cs hp => ?_⟩
  unfold addTo at hp
  rw [AMap.get?_insert] at hp
  by_cases hpa : a = p
  · subst hpa
    have hn : ((AMap.get? m a).getD []).Nodup := by
      cases ha : AMap.get? m a with
      | none => simp
      | some vs => exact h.2 _ _ ha
    simp only [if_true, Option.some.injEq] at hp
    subst hp
    by_cases hv : v ∈ (AMap.get? m a).getD []
    · simpa only [List.contains_iff_mem, hv, if_true] using hn
    · simp only [List.contains_iff_mem, hv, if_false, Bool.false_eq_true]
      rw [List.nodup_append]
      exact ⟨hn, by simp, by simp; rintro b hb rfl; exact hv hb⟩
  · simp only [hpa, if_false] at hp
    exact h.2 _ _ hp

theorem get?_removeFromAll (m : AMap Oid (List Oid)) (v p : Oid) :
    AMap.get? (removeFromAll m v) p = (AMap.get? m p).map fun cs => cs.filter fun c => c ≠ v := by
  unfold removeFromAll
  induction m with
  | nil => simp
  | cons e m ih =>
    obtain ⟨a, b⟩ := e
    simp only [List.map_cons, AMap.get?_cons]
    by_cases h : a = p
    · simp [h]
    · simp only [h, if_false]; exact ih

theorem inMap_removeFromAll {m : AMap Oid (List Oid)} {v p c : Oid} :
    InMap (removeFromAll m v) p c ↔ InMap m p c ∧ c ≠ v := by
  rw [inMap_iff, inMap_iff, get?_removeFromAll]
  cases AMap.get? m p <;> simp

theorem mapWF_removeFromAll {m : AMap Oid (List Oid)} (h : MapWF m) (v : Oid) :
    MapWF (removeFromAll m v) := by
  refine ⟨?_, fun p cs hp => ?_⟩
  · unfold AMap.WF AMap.keys removeFromAll
    rw [List.map_map]
    exact h.1
  · rw [get?_removeFromAll] at hp
    cases hm : AMap.get? m p with
    | none => rw [hm] at hp; simp at hp
    | some vs =>
      rw [hm] at hp
      simp only [Option.map_some, Option.some.injEq] at hp
      subst hp
      exact (h.2 _ _ hm).filter _

theorem inMap_addParents {m : AMap Oid (List Oid)} {ps : List Oid} {v p c : Oid} :
    InMap (ps.foldl (fun m p => addTo m p v) m) p c ↔ InMap m p c ∨ p ∈ ps ∧ c = v := by
  induction ps generalizing m with
  | nil => simp
  | cons a ps ih =>
    rw [List.foldl_cons, ih, inMap_addTo, List.mem_cons]
    grind

theorem mapWF_addParents {m : AMap Oid (List Oid)} (h : MapWF m) (ps : List Oid) (v : Oid) :
    MapWF (ps.foldl (fun m p => addTo m p v) m) := by
  induction ps generalizing m with
  | nil => exact h
  | cons a ps ih => exact ih (mapWF_addTo h a v)

theorem inMap_addChildren {m : AMap Oid (List Oid)} {cs : List Oid} {a p c : Oid} :
    InMap (cs.foldl (fun m c => addTo m a c) m) p c ↔ InMap m p c ∨ p = a ∧ c ∈ cs := by
  induction cs generalizing m with
  | nil => simp
  | cons b cs ih =>
    rw [List.foldl_cons, ih, inMap_addTo, List.mem_cons]
    grind

theorem mapWF_addChildren {m : AMap Oid (List Oid)} (h : MapWF m) (cs : List Oid) (a : Oid) :
    MapWF (cs.foldl (fun m c => addTo m a c) m) := by
  induction cs generalizing m with
  | nil => exact h
  | cons b cs ih => exact ih (mapWF_addTo h a b)

/-- Both maps are well-formed. -/
def KWF (k : Constraints) : Prop := MapWF k.inner ∧ MapWF k.fixups

theorem kwf_addFirst {k : Constraints} (h : KWF k) (c : Constraint) : KWF (addFirst k c) := by
  cases c with
  | moveChildren => exact h
  | moveSubtree ps c => exact ⟨mapWF_addParents (mapWF_removeFromAll h.1 _) _ _, h.2⟩
  | fixUpCommit t f => exact ⟨mapWF_removeFromAll h.1 _, mapWF_addTo h.2 _ _⟩

theorem kwf_foldl_addFirst {k : Constraints} (h : KWF k) (cs : List Constraint) :
    KWF (cs.foldl addFirst k) := by
  induction cs generalizing k with
  | nil => exact h
  | cons c cs ih => exact ih (kwf_addFirst h c)

/-- What the second pass does to the graph: it puts commits which were not moved on top of one. -/
theorem moveChildren_ok {dag : Dag} {heads : List Oid} {k k' : Constraints} {a b : Oid}
    (h : moveChildren dag heads k a b = .ok k') :
    k'.fixups = k.fixups ∧ ∃ (p : Oid) (cs : List Oid), k'.inner = cs.foldl (fun m c => addTo m p c) k.inner ∧
      ∀ c ∈ cs, c ∉ k.commitsToMove := by
  unfold moveChildren at h
  cases h1 : dag.getOnlyParentOid a with
  | none => rw [h1] at h; simp at h
  | some p =>
    rw [h1] at h
    simp only at h
    cases h2 : unconstrainedAncestor dag heads k.commitsToMove (dag.graph.entries.length + 1) p with
    | error e => rw [h2] at h; simp at h
    | ok p' =>
      rw [h2] at h
      simp only [Except.ok.injEq] at h
      subst h
      refine ⟨rfl, p', _, rfl, fun c hc => ?_⟩
      unfold Dag.filterVisibleCommits at hc
      exact (mem_diff.1 (mem_inter.1 hc).1).2

theorem addSecond_ok {dag : Dag} {heads : List Oid} {k k' : Constraints} {c : Constraint}
    (h : addSecond dag heads k c = .ok k') :
    k'.fixups = k.fixups ∧ ∃ (p : Oid) (cs : List Oid), k'.inner = cs.foldl (fun m c => addTo m p c) k.inner ∧
      ∀ c ∈ cs, c ∉ k.commitsToMove := by
  cases c with
  | moveChildren a b => exact moveChildren_ok h
  | fixUpCommit t f => exact moveChildren_ok h
  | moveSubtree ps c =>
    simp only [addSecond, Except.ok.injEq] at h
    subst h
    exact ⟨rfl, c, [], rfl, by simp⟩

/-- An invariant of the second pass. -/
theorem foldlM_addSecond {dag : Dag} {heads : List Oid} (P : Constraints → Prop)
    (hP : ∀ k k' c, P k → addSecond dag heads k c = .ok k' → P k') {cs : List Constraint}
    {k k' : Constraints} (hk : P k) (h : cs.foldlM (addSecond dag heads) k = .ok k') : P k' := by
  induction cs generalizing k with
  | nil => simp only [List.foldlM_nil] at h; cases h; exact hk
  | cons c cs ih =>
    rw [List.foldlM_cons] at h
    cases hc : addSecond dag heads k c with
    | error e => rw [hc] at h; cases h
    | ok k1 => rw [hc] at h; exact ih (hP _ _ _ hk hc) h

theorem kwf_addConstraints {dag : Dag} {k k' : Constraints} {cs : List Constraint} (hk : KWF k)
    (h : addConstraints dag k cs = .ok k') : KWF k' := by
  refine foldlM_addSecond KWF ?_ (kwf_foldl_addFirst hk cs) h
  intro k k' c hk h
  obtain ⟨h1, p, l, h2, _⟩ := addSecond_ok h
  refine ⟨?_, h1 ▸ hk.2⟩
  rw [h2]; exact mapWF_addChildren hk.1 _ _

theorem kwf_nil : KWF ⟨[], []⟩ := ⟨mapWF_nil, mapWF_nil⟩

theorem constraintGraph_ok {b : RebasePlanBuilder} {k : Constraints}
    (h : b.constraintGraph = .ok k) :
    ∃ k1, addConstraints b.env.dag ⟨[], []⟩ b.initialConstraints = .ok k1 ∧
      addDescendantConstraints b.env.dag k1 = .ok k := by
  unfold RebasePlanBuilder.constraintGraph at h
  cases h1 : addConstraints b.env.dag ⟨[], []⟩ b.initialConstraints with
  | error e => rw [h1] at h; simp at h
  | ok k1 => rw [h1] at h; exact ⟨k1, rfl, h⟩

theorem kwf_constraintGraph {b : RebasePlanBuilder} {k : Constraints}
    (h : b.constraintGraph = .ok k) : KWF k := by
  obtain ⟨k1, h1, h2⟩ := constraintGraph_ok h
  exact kwf_addConstraints (kwf_addConstraints kwf_nil h1) h2

/-- Constraints without ranges: nothing happens in the second pass. -/
theorem addConstraints_subtrees {dag : Dag} {k : Constraints} {cs : List Constraint}
    (h : ∀ c ∈ cs, ∃ ps o, c = .moveSubtree ps o) :
    addConstraints dag k cs = .ok (cs.foldl addFirst k) := by
  unfold addConstraints
  generalize rangeHeads cs = heads
  generalize cs.foldl addFirst k = k'
  induction cs with
  | nil => rfl
  | cons c cs ih =>
    obtain ⟨ps, o, rfl⟩ := h c List.mem_cons_self
    rw [List.foldlM_cons]
    exact ih fun c hc => h c (List.mem_cons_of_mem _ hc)

theorem moves_addFirst_subtree {k : Constraints} {ps : List Oid} {v p c : Oid} :
    Moves (addFirst k (.moveSubtree ps v)) p c ↔ if c = v then p ∈ ps else Moves k p c := by
  rw [moves_iff, moves_iff]
  simp only [addFirst, inMap_addParents, inMap_removeFromAll]
  by_cases h : c = v <;> simp [h]

theorem addDescendantConstraints_eq (dag : Dag) (k : Constraints) :
    ∃ ds : List Oid, (∀ d, d ∈ ds ↔ d ∈ dag.filterVisibleCommits
        (CommitGraph.diff (dag.graph.descendants (k.commitsToMove ++ k.commitsToFixup))
          (k.commitsToMove ++ k.commitsToFixup))) ∧
      addDescendantConstraints dag k =
        .ok ((ds.map fun d => Constraint.moveSubtree (dag.graph.parentsOf d) d).foldl addFirst k) := by
  refine ⟨_, fun d => Iff.rfl, ?_⟩
  unfold addDescendantConstraints
  apply addConstraints_subtrees
  intro c hc
  obtain ⟨d, _, rfl⟩ := List.mem_map.1 hc
  exact ⟨_, _, rfl⟩

theorem moves_foldl_own {dag : Dag} {k : Constraints} {ds : List Oid} {p c : Oid} :
    Moves ((ds.map fun d => Constraint.moveSubtree (dag.graph.parentsOf d) d).foldl addFirst k) p c ↔
      if c ∈ ds then p ∈ dag.graph.parentsOf c else Moves k p c := by
  induction ds generalizing k with
  | nil => simp
  | cons d ds ih =>
    rw [List.map_cons, List.foldl_cons, ih, moves_addFirst_subtree]
    by_cases h : c ∈ ds
    · simp [h]
    · by_cases h2 : c = d
      · subst h2; simp [h]
      · simp [h, h2]

theorem fixups_foldl_subtree {k : Constraints} {cs : List Constraint}
    (h : ∀ c ∈ cs, ∃ ps o, c = .moveSubtree ps o) : (cs.foldl addFirst k).fixups = k.fixups := by
  induction cs generalizing k with
  | nil => rfl
  | cons c cs ih =>
    obtain ⟨ps, o, rfl⟩ := h c List.mem_cons_self
    rw [List.foldl_cons, ih fun c hc => h c (List.mem_cons_of_mem _ hc)]
    rfl

/-- The descendants of the moved commits are put on top of their own parents; everything else stays
as it was. -/
theorem moves_addDescendants {dag : Dag} {k k' : Constraints}
    (h : addDescendantConstraints dag k = .ok k') (p c : Oid) :
    (Moves k' p c ↔
      if c ∈ dag.filterVisibleCommits
        (CommitGraph.diff (dag.graph.descendants (k.commitsToMove ++ k.commitsToFixup))
          (k.commitsToMove ++ k.commitsToFixup)) then p ∈ dag.graph.parentsOf c
      else Moves k p c) ∧ k'.fixups = k.fixups := by
  obtain ⟨ds, h1, h2⟩ := addDescendantConstraints_eq dag k
  rw [h2] at h
  cases h
  refine ⟨?_, ?_⟩
  · rw [moves_foldl_own]
    simp only [h1]
  · apply fixups_foldl_subtree
    intro c hc
    obtain ⟨d, _, rfl⟩ := List.mem_map.1 hc
    exact ⟨_, _, rfl⟩

end Verif.Spec
