import Verif.Spec.Dag

namespace Verif.Spec

open Verif

variable {N : Type} [DecidableEq N]

omit [DecidableEq N] in
theorem wfEntries_cons {c : N} {ps : List N} {rest : List (N × List N)} :
    WFEntries ((c, ps) :: rest) ↔ c ∉ rest.map Prod.fst ∧ (∀ p ∈ ps, p ∈ rest.map Prod.fst) ∧
      WFEntries rest := by
  constructor
  · intro h
    cases h with
    | cons h1 h2 h3 => exact ⟨h1, h2, h3⟩
  · rintro ⟨h1, h2, h3⟩
    exact .cons h1 h2 h3

/-! ### Parents -/

theorem isParent_cons {c : N} {ps : List N} {rest : List (N × List N)} {p x : N} :
    IsParent ⟨(c, ps) :: rest⟩ p x ↔ (x = c ∧ p ∈ ps) ∨ IsParent ⟨rest⟩ p x := by
  constructor
  · rintro ⟨qs, h, hp⟩
    rcases List.mem_cons.1 h with h | h
    · cases h; exact .inl ⟨rfl, hp⟩
    · exact .inr ⟨qs, h, hp⟩
  · rintro (⟨rfl, hp⟩ | ⟨qs, h, hp⟩)
    · exact ⟨ps, List.mem_cons_self, hp⟩
    · exact ⟨qs, List.mem_cons_of_mem _ h, hp⟩

theorem isParent_nil {p x : N} : ¬ IsParent (⟨[]⟩ : CommitGraph N) p x := by
  rintro ⟨_, h, _⟩; cases h

theorem IsParent.child_mem {g : CommitGraph N} {p c : N} (h : IsParent g p c) : c ∈ g.nodes := by
  obtain ⟨ps, h, _⟩ := h
  exact List.mem_map.2 ⟨_, h, rfl⟩

theorem IsParent.parent_mem {g : CommitGraph N} (hw : WFGraph g) {p c : N} (h : IsParent g p c) :
    p ∈ g.nodes := by
  obtain ⟨es⟩ := g
  unfold WFGraph at hw
  simp only at hw
  induction hw with
  | nil => exact absurd h isParent_nil
  | cons h1 h2 h3 ih =>
    rcases isParent_cons.1 h with ⟨rfl, hp⟩ | h
    · exact List.mem_cons_of_mem _ (h2 _ hp)
    · exact List.mem_cons_of_mem _ (ih h)

theorem WFEntries.wf {es : List (N × List N)} (h : WFEntries es) : AMap.WF es := by
  induction h with
  | nil => exact AMap.wf_nil
  | cons h1 _ _ ih =>
    simp only [AMap.WF, AMap.keys, List.map_cons, List.nodup_cons] at ih ⊢
    exact ⟨h1, ih⟩

theorem nodup_nodes {g : CommitGraph N} (hw : WFGraph g) : g.nodes.Nodup := WFEntries.wf hw

theorem mem_parentsOf {g : CommitGraph N} (hw : WFGraph g) {p c : N} :
    p ∈ g.parentsOf c ↔ IsParent g p c := by
  unfold CommitGraph.parentsOf
  constructor
  · intro h
    cases hq : AMap.get? g.entries c with
    | none => rw [hq] at h; cases h
    | some ps => rw [hq] at h; exact ⟨ps, AMap.mem_of_get? hq, h⟩
  · rintro ⟨ps, h, hp⟩
    rw [AMap.get?_of_mem (WFEntries.wf hw) h]; exact hp

theorem mem_parents {g : CommitGraph N} (hw : WFGraph g) {p : N} {s : List N} :
    p ∈ g.parents s ↔ ∃ c ∈ s, IsParent g p c := by
  simp [CommitGraph.parents, mem_parentsOf hw]

theorem mem_children {g : CommitGraph N} (hw : WFGraph g) {c : N} {s : List N} :
    c ∈ g.children s ↔ ∃ p ∈ s, IsParent g p c := by
  simp only [CommitGraph.children, List.mem_filter, List.any_eq_true, List.contains_iff_mem,
    mem_parentsOf hw]
  constructor
  · rintro ⟨_, p, h1, h2⟩; exact ⟨p, h2, h1⟩
  · rintro ⟨p, h1, h2⟩; exact ⟨h2.child_mem, p, h2, h1⟩

omit [DecidableEq N] in
theorem Anc.trans {g : CommitGraph N} {a b c : N} (h1 : Anc g a b) (h2 : Anc g b c) : Anc g a c := by
  induction h2 with
  | refl => exact h1
  | step _ hp ih => exact .step ih hp

omit [DecidableEq N] in
theorem Anc.of_parent {g : CommitGraph N} {a b : N} (h : IsParent g a b) : Anc g a b :=
  .step .refl h

omit [DecidableEq N] in
/-- An ancestor is the commit itself or an ancestor of a parent. -/
theorem anc_iff {g : CommitGraph N} {a c : N} :
    Anc g a c ↔ a = c ∨ ∃ p, IsParent g p c ∧ Anc g a p := by
  constructor
  · intro h
    cases h with
    | refl => exact .inl rfl
    | step h hp => exact .inr ⟨_, hp, h⟩
  · rintro (rfl | ⟨p, hp, h⟩)
    · exact .refl
    · exact .step h hp

omit [DecidableEq N] in
/-- A descendant is the commit itself or a descendant of a child. -/
theorem anc_iff_child {g : CommitGraph N} {a c : N} :
    Anc g a c ↔ a = c ∨ ∃ x, IsParent g a x ∧ Anc g x c := by
  constructor
  · intro h
    induction h with
    | refl => exact .inl rfl
    | step h hp ih =>
      rcases ih with rfl | ⟨x, hx, h'⟩
      · exact .inr ⟨_, hp, .refl⟩
      · exact .inr ⟨x, hx, .step h' hp⟩
  · rintro (rfl | ⟨x, hx, h⟩)
    · exact .refl
    · exact (Anc.of_parent hx).trans h

theorem Anc.mem {g : CommitGraph N} (hw : WFGraph g) {a c : N} (h : Anc g a c) (hc : c ∈ g.nodes) :
    a ∈ g.nodes := by
  induction h with
  | refl => exact hc
  | step _ hp ih => exact ih (hp.parent_mem hw)

theorem Anc.mem_up {g : CommitGraph N} {a c : N} (h : Anc g a c) (ha : a ∈ g.nodes) :
    c ∈ g.nodes := by
  cases h with
  | refl => exact ha
  | step _ hp => exact hp.child_mem

theorem anc_cons_of_ne {c : N} {ps : List N} {rest : List (N × List N)}
    (hw : WFEntries ((c, ps) :: rest)) {a d : N} (hd : d ≠ c) :
    Anc ⟨(c, ps) :: rest⟩ a d ↔ Anc ⟨rest⟩ a d := by
  obtain ⟨h1, h2, h3⟩ := wfEntries_cons.1 hw
  constructor
  · intro h
    induction h with
    | refl => exact .refl
    | @step p d h hp ih =>
      rcases isParent_cons.1 hp with ⟨rfl, _⟩ | hp'
      · exact absurd rfl hd
      · refine .step (ih ?_) hp'
        rintro rfl
        exact h1 (hp'.parent_mem (g := ⟨rest⟩) h3)
  · intro h
    clear hd
    induction h with
    | refl => exact .refl
    | step _ hp ih => exact .step ih (isParent_cons.2 (.inr hp))

theorem anc_cons_self {c : N} {ps : List N} {rest : List (N × List N)}
    (hw : WFEntries ((c, ps) :: rest)) {a : N} :
    Anc ⟨(c, ps) :: rest⟩ a c ↔ a = c ∨ ∃ p ∈ ps, Anc ⟨rest⟩ a p := by
  rw [anc_iff]
  have hw' := hw
  obtain ⟨h1, h2, h3⟩ := wfEntries_cons.1 hw
  refine or_congr Iff.rfl ?_
  constructor
  · rintro ⟨p, hp, h⟩
    rcases isParent_cons.1 hp with ⟨_, hp⟩ | hp
    · exact ⟨p, hp, (anc_cons_of_ne hw' (fun e => h1 (e ▸ h2 _ hp))).1 h⟩
    · exact absurd hp.child_mem h1
  · rintro ⟨p, hp, h⟩
    exact ⟨p, isParent_cons.2 (.inl ⟨rfl, hp⟩), (anc_cons_of_ne hw' (fun e => h1 (e ▸ h2 _ hp))).2 h⟩

theorem mem_ancestorsIn {es : List (N × List N)} (hw : WFEntries es) :
    ∀ {s : List N} {a : N}, a ∈ CommitGraph.ancestorsIn es s ↔
      a ∈ es.map Prod.fst ∧ ∃ d ∈ s, Anc ⟨es⟩ a d := by
  induction es with
  | nil => intro s a; simp [CommitGraph.ancestorsIn]
  | cons e rest ih =>
    obtain ⟨c, ps⟩ := e
    intro s a
    have hw' := hw
    obtain ⟨h1, h2, h3⟩ := wfEntries_cons.1 hw
    have ih := fun {s a} => @ih h3 s a
    have hne : ∀ {a d}, Anc ⟨rest⟩ a d → a ∈ rest.map Prod.fst → d ≠ c := by
      rintro a d h ha rfl
      exact h1 (h.mem_up (g := ⟨rest⟩) ha)
    simp only [CommitGraph.ancestorsIn]
    split
    · rename_i hc
      rw [List.contains_iff_mem] at hc
      rw [List.mem_cons, ih, List.map_cons, List.mem_cons]
      constructor
      · rintro (rfl | ⟨ha, d, hd, h⟩)
        · exact ⟨.inl rfl, a, hc, .refl⟩
        · refine ⟨.inr ha, ?_⟩
          rcases List.mem_append.1 hd with hd | hd
          · exact ⟨c, hc, (anc_cons_self hw').2 (.inr ⟨d, hd, h⟩)⟩
          · exact ⟨d, hd, (anc_cons_of_ne hw' (hne h ha)).2 h⟩
      · rintro ⟨rfl | ha, d, hd, h⟩
        · exact .inl rfl
        · by_cases e : d = c
          · subst e
            rcases (anc_cons_self hw').1 h with rfl | ⟨p, hp, h⟩
            · exact .inl rfl
            · exact .inr ⟨ha, p, List.mem_append_left _ hp, h⟩
          · exact .inr ⟨ha, d, List.mem_append_right _ hd, (anc_cons_of_ne hw' e).1 h⟩
    · rename_i hc
      rw [List.contains_iff_mem] at hc
      rw [ih, List.map_cons, List.mem_cons]
      constructor
      · rintro ⟨ha, d, hd, h⟩
        exact ⟨.inr ha, d, hd, (anc_cons_of_ne hw' (hne h ha)).2 h⟩
      · rintro ⟨ha, d, hd, h⟩
        have e : d ≠ c := fun e => hc (e ▸ hd)
        have h' := (anc_cons_of_ne hw' e).1 h
        clear h
        refine ⟨?_, d, hd, h'⟩
        rcases ha with rfl | ha
        · cases h' with
          | refl => exact absurd rfl e
          | step h hp =>
            exact absurd (h.mem (g := ⟨rest⟩) h3 (hp.parent_mem (g := ⟨rest⟩) h3)) h1
        · exact ha

theorem mem_ancestors {g : CommitGraph N} (hw : WFGraph g) {s : List N} {a : N} :
    a ∈ g.ancestors s ↔ a ∈ g.nodes ∧ ∃ d ∈ s, Anc g a d := mem_ancestorsIn hw

theorem mem_descendantsIn {es : List (N × List N)} (hw : WFEntries es) {s : List N} :
    ∀ {d : N}, d ∈ CommitGraph.descendantsIn es s ↔
      d ∈ es.map Prod.fst ∧ ∃ a ∈ s, Anc ⟨es⟩ a d := by
  induction es with
  | nil => intro d; simp [CommitGraph.descendantsIn]
  | cons e rest ih =>
    obtain ⟨c, ps⟩ := e
    intro d
    have hw' := hw
    obtain ⟨h1, h2, h3⟩ := wfEntries_cons.1 hw
    have ih := @ih h3
    have key : (s.contains c || ps.any fun p => (CommitGraph.descendantsIn rest s).contains p) = true
        ↔ ∃ a ∈ s, Anc ⟨(c, ps) :: rest⟩ a c := by
      simp only [Bool.or_eq_true, List.contains_iff_mem, List.any_eq_true, ih]
      constructor
      · rintro (h | ⟨p, hp, _, a, ha, h⟩)
        · exact ⟨c, h, .refl⟩
        · exact ⟨a, ha, (anc_cons_self hw').2 (.inr ⟨p, hp, h⟩)⟩
      · rintro ⟨a, ha, h⟩
        rcases (anc_cons_self hw').1 h with rfl | ⟨p, hp, h⟩
        · exact .inl ha
        · exact .inr ⟨p, hp, h2 _ hp, a, ha, h⟩
    have hrest : ∀ d, d ∈ rest.map Prod.fst → ((∃ a ∈ s, Anc ⟨(c, ps) :: rest⟩ a d) ↔
        ∃ a ∈ s, Anc ⟨rest⟩ a d) := by
      intro d hd
      have : d ≠ c := fun e => h1 (e ▸ hd)
      simp only [anc_cons_of_ne hw' this]
    simp only [CommitGraph.descendantsIn]
    rw [List.map_cons, List.mem_cons]
    by_cases hd : d = c
    · subst hd
      split
      · rename_i h
        exact ⟨fun _ => ⟨.inl rfl, key.1 h⟩, fun _ => List.mem_cons_self⟩
      · rename_i h
        rw [key] at h
        exact ⟨fun h' => absurd (ih.1 h').1 h1, fun h' => absurd h'.2 h⟩
    · split
      · rw [List.mem_cons, ih]
        constructor
        · rintro (h | ⟨h, h'⟩)
          · exact absurd h hd
          · exact ⟨.inr h, (hrest d h).2 h'⟩
        · rintro ⟨h | h, h'⟩
          · exact absurd h hd
          · exact .inr ⟨h, (hrest d h).1 h'⟩
      · rw [ih]
        constructor
        · rintro ⟨h, h'⟩
          exact ⟨.inr h, (hrest d h).2 h'⟩
        · rintro ⟨h | h, h'⟩
          · exact absurd h hd
          · exact ⟨h, (hrest d h).1 h'⟩

theorem mem_descendants {g : CommitGraph N} (hw : WFGraph g) {s : List N} {d : N} :
    d ∈ g.descendants s ↔ d ∈ g.nodes ∧ ∃ a ∈ s, Anc g a d := mem_descendantsIn hw

theorem mem_inter {a b : List N} {c : N} : c ∈ CommitGraph.inter a b ↔ c ∈ a ∧ c ∈ b := by
  simp [CommitGraph.inter]

theorem mem_diff {a b : List N} {c : N} : c ∈ CommitGraph.diff a b ↔ c ∈ a ∧ c ∉ b := by
  simp [CommitGraph.diff]

theorem isAncestor_iff {g : CommitGraph N} (hw : WFGraph g) {a d : N} :
    g.isAncestor a d = true ↔ a ∈ g.nodes ∧ Anc g a d := by
  simp [CommitGraph.isAncestor, mem_ancestors hw]

theorem mem_only {g : CommitGraph N} (hw : WFGraph g) {r u : List N} {c : N} :
    c ∈ g.only r u ↔ c ∈ g.nodes ∧ (∃ d ∈ r, Anc g c d) ∧ ∀ d ∈ u, ¬ Anc g c d := by
  simp only [CommitGraph.only, mem_diff, mem_ancestors hw, not_and, not_exists]
  constructor
  · rintro ⟨⟨h1, h2⟩, h3⟩; exact ⟨h1, h2, fun d hd => h3 h1 d hd⟩
  · rintro ⟨h1, h2, h3⟩; exact ⟨⟨h1, h2⟩, fun _ d hd => h3 d hd⟩

theorem mem_range {g : CommitGraph N} (hw : WFGraph g) {r h : List N} {c : N} :
    c ∈ g.range r h ↔ c ∈ g.nodes ∧ (∃ a ∈ r, Anc g a c) ∧ ∃ d ∈ h, Anc g c d := by
  simp only [CommitGraph.range, mem_inter, mem_ancestors hw, mem_descendants hw]
  constructor
  · rintro ⟨⟨h1, h2⟩, _, h3⟩; exact ⟨h1, h2, h3⟩
  · rintro ⟨h1, h2, h3⟩; exact ⟨⟨h1, h2⟩, h1, h3⟩

/-- A commit is not its own proper ancestor. -/
theorem Anc.antisymm {g : CommitGraph N} (hw : WFGraph g) {a b : N} (h1 : Anc g a b)
    (h2 : Anc g b a) : a = b := by
  obtain ⟨es⟩ := g
  unfold WFGraph at hw
  simp only at hw
  have key : ∀ es : List (N × List N), WFEntries es → ∀ a b, Anc ⟨es⟩ a b → Anc ⟨es⟩ b a → a = b := by
    intro es
    induction es with
    | nil =>
      intro _ a b h _
      cases h with
      | refl => rfl
      | step _ hp => exact absurd hp isParent_nil
    | cons e rest ih =>
      intro hw a b h1 h2
      obtain ⟨c, ps⟩ := e
      have hw' := hw
      obtain ⟨k1, k2, k3⟩ := wfEntries_cons.1 hw
      have noc : ∀ p, p ∈ ps → ¬ Anc ⟨rest⟩ c p := fun p hp h =>
        k1 (h.mem (g := ⟨rest⟩) k3 (k2 p hp))
      by_cases ha : a = c
      · subst ha
        by_cases hb : b = a
        · exact hb.symm
        · have := (anc_cons_of_ne hw' hb).1 h1
          cases this with
          | refl => exact absurd rfl hb
          | step h hp =>
            exact absurd (h.mem (g := ⟨rest⟩) k3 (hp.parent_mem (g := ⟨rest⟩) k3)) k1
      · by_cases hb : b = c
        · subst hb
          have := (anc_cons_of_ne hw' ha).1 h2
          cases this with
          | refl => exact absurd rfl ha
          | step h hp =>
            exact absurd (h.mem (g := ⟨rest⟩) k3 (hp.parent_mem (g := ⟨rest⟩) k3)) k1
        · exact ih k3 a b ((anc_cons_of_ne hw' hb).1 h1) ((anc_cons_of_ne hw' ha).1 h2)
  exact key es hw a b h1 h2

theorem not_isParent_self {g : CommitGraph N} (hw : WFGraph g) {c : N} : ¬ IsParent g c c := by
  intro h
  obtain ⟨es⟩ := g
  unfold WFGraph at hw
  simp only at hw
  induction hw with
  | nil => exact isParent_nil h
  | cons h1 h2 h3 ih =>
    rcases isParent_cons.1 h with ⟨rfl, hp⟩ | h
    · exact h1 (h2 _ hp)
    · exact ih h

/-- Position of a commit in the numbering: parents have smaller numbers. -/
def ageOf : List (N × List N) → N → Nat
  | [], _ => 0
  | (c, _) :: rest, x => if x = c then rest.length + 1 else ageOf rest x

theorem ageOf_le (es : List (N × List N)) (x : N) : ageOf es x ≤ es.length := by
  induction es with
  | nil => simp [ageOf]
  | cons e rest ih =>
    obtain ⟨c, ps⟩ := e
    simp only [ageOf, List.length_cons]
    split <;> omega

theorem age_lt {g : CommitGraph N} (hw : WFGraph g) {p c : N} (h : IsParent g p c) :
    ageOf g.entries p < ageOf g.entries c := by
  obtain ⟨es⟩ := g
  unfold WFGraph at hw
  simp only at hw ⊢
  induction hw with
  | nil => exact absurd h isParent_nil
  | @cons c' ps rest h1 h2 h3 ih =>
    have hpm := h.parent_mem (g := ⟨(c', ps) :: rest⟩) (.cons h1 h2 h3)
    rcases isParent_cons.1 h with ⟨rfl, hp⟩ | h
    · have : p ≠ c := fun e => h1 (e ▸ h2 _ hp)
      simp only [ageOf, this, if_false, if_true]
      have := ageOf_le rest p
      omega
    · have hp := h.parent_mem (g := ⟨rest⟩) h3
      have hc := h.child_mem
      have n1 : p ≠ c' := fun e => h1 (e ▸ hp)
      have n2 : c ≠ c' := fun e => h1 (e ▸ hc)
      simp only [ageOf, n1, n2, if_false]
      exact ih h

theorem age_le {g : CommitGraph N} (hw : WFGraph g) {a d : N} (h : Anc g a d) :
    ageOf g.entries a ≤ ageOf g.entries d := by
  induction h with
  | refl => exact Nat.le_refl _
  | step _ hp ih => exact Nat.le_trans ih (Nat.le_of_lt (age_lt hw hp))

/-- Every commit of a set is an ancestor of a head of it. -/
theorem exists_head {g : CommitGraph N} (hw : WFGraph g) {s : List N} {c : N} (hc : c ∈ s) :
    ∃ h ∈ g.heads s, Anc g c h := by
  have key : ∀ n c, c ∈ s → g.entries.length - ageOf g.entries c = n → ∃ h ∈ g.heads s, Anc g c h := by
    intro n
    induction n using Nat.strongRecOn with
    | _ n ih =>
      intro c hc hn
      by_cases h : c ∈ g.parents s
      · obtain ⟨d, hd, hp⟩ := (mem_parents hw).1 h
        have h1 := age_lt hw hp
        have h2 := ageOf_le g.entries d
        obtain ⟨x, hx, hanc⟩ := ih _ (by omega) d hd rfl
        exact ⟨x, hx, (Anc.of_parent hp).trans hanc⟩
      · exact ⟨c, mem_diff.2 ⟨hc, h⟩, .refl⟩
  exact key _ c hc rfl

/-- Every commit of a set is a descendant of a root of it. -/
theorem exists_root {g : CommitGraph N} (hw : WFGraph g) {s : List N} {c : N} (hc : c ∈ s) :
    ∃ r ∈ g.roots s, Anc g r c := by
  have key : ∀ n c, c ∈ s → ageOf g.entries c = n → ∃ r ∈ g.roots s, Anc g r c := by
    intro n
    induction n using Nat.strongRecOn with
    | _ n ih =>
      intro c hc hn
      by_cases h : c ∈ g.children s
      · obtain ⟨d, hd, hp⟩ := (mem_children hw).1 h
        have h1 := age_lt hw hp
        obtain ⟨x, hx, hanc⟩ := ih _ (by omega) d hd rfl
        exact ⟨x, hx, hanc.trans (Anc.of_parent hp)⟩
      · exact ⟨c, mem_diff.2 ⟨hc, h⟩, .refl⟩
  exact key _ c hc rfl

theorem mem_ancestors_heads {g : CommitGraph N} (hw : WFGraph g) {s : List N} {a : N} :
    a ∈ g.ancestors (g.heads s) ↔ a ∈ g.nodes ∧ ∃ d ∈ s, Anc g a d := by
  rw [mem_ancestors hw]
  refine and_congr Iff.rfl ?_
  constructor
  · rintro ⟨d, hd, h⟩; exact ⟨d, (mem_diff.1 hd).1, h⟩
  · rintro ⟨d, hd, h⟩
    obtain ⟨x, hx, h'⟩ := exists_head hw hd
    exact ⟨x, hx, h.trans h'⟩

end Verif.Spec
