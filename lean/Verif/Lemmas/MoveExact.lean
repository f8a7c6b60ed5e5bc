import Verif.Props.Move

/-! Lemmas about `move --exact`. -/

namespace Verif.Spec

open Verif Verif.Props

/-! ### the components -/

/-- What is known of the components, by their roots. -/
structure Components (g : CommitGraph Oid) (X : List Oid) (comps : AMap Oid (List Oid)) : Prop where
  wf : AMap.WF comps
  root : ∀ r K, (r, K) ∈ comps → ∀ c, Topmost g (· ∈ K) c ↔ c = r
  parent : ∀ r K, (r, K) ∈ comps → ∃ p, ∀ q, IsParent g q r ↔ q = p
  cover : ∀ x, x ∈ X ↔ ∃ r K, (r, K) ∈ comps ∧ x ∈ K
  disj : ∀ r K r' K' x, (r, K) ∈ comps → (r', K') ∈ comps → x ∈ K → x ∈ K' → r = r'
  edge : ∀ r K a b, (r, K) ∈ comps → a ∈ K → b ∈ X → IsParent g a b ∨ IsParent g b a → b ∈ K

theorem mapM_except_forall₂ {α β ε : Type} {f : α → Except ε β} {l : List α} {ys : List β}
    (h : l.mapM f = .ok ys) : List.Forall₂ (fun a b => f a = .ok b) l ys := by
  induction l generalizing ys with
  | nil =>
    have : (Except.ok [] : Except ε (List β)) = .ok ys := h
    cases this
    exact .nil
  | cons a l ih =>
    rw [List.mapM_cons] at h
    cases hb : f a with
    | error e => rw [hb] at h; cases h
    | ok b =>
      cases hbs : l.mapM f with
      | error e => rw [hb, hbs] at h; cases h
      | ok bs =>
        rw [hb, hbs] at h
        have : (Except.ok (b :: bs) : Except ε (List β)) = .ok ys := h
        cases this
        exact .cons hb (ih hbs)

theorem count_singleton_iff {s : List Oid} : CommitGraph.count s = 1 ↔ ∃ p, ∀ q, q ∈ s ↔ q = p := by
  unfold CommitGraph.count
  rw [List.length_eq_one_iff]
  constructor
  · rintro ⟨p, hp⟩
    refine ⟨p, fun q => ?_⟩
    rw [← List.mem_dedup, hp]
    simp
  · rintro ⟨p, hp⟩
    refine ⟨p, ?_⟩
    have h1 : ∀ q, q ∈ s.dedup ↔ q = p := fun q => by rw [List.mem_dedup, hp]
    have h2 := List.nodup_dedup s
    generalize s.dedup = l at h1 h2
    match l, h1, h2 with
    | [], h1, _ => exact absurd ((h1 p).2 rfl) (by simp)
    | [a], h1, _ => rw [(h1 a).1 (by simp)]
    | a :: b :: l, h1, h2 =>
      have := (h1 a).1 (by simp)
      have h3 := (h1 b).1 (by simp)
      subst this h3
      simp at h2

theorem pairwise_disj {α : Type} {S : α → List Oid} {l : List α}
    (h : l.Pairwise fun a b => ∀ x ∈ S a, x ∉ S b) :
    ∀ a ∈ l, ∀ b ∈ l, ∀ x, x ∈ S a → x ∈ S b → a = b := by
  induction h with
  | nil => simp
  | cons h _ ih =>
    intro a ha b hb x hxa hxb
    rcases List.mem_cons.1 ha with ha | ha <;> rcases List.mem_cons.1 hb with hb | hb
    · exact ha.trans hb.symm
    · rw [ha] at hxa; exact absurd hxb (h b hb x hxa)
    · rw [hb] at hxb; exact absurd hxa (h a ha x hxb)
    · exact ih a ha b hb x hxa hxb

theorem exactComponent_ok {env : MoveCmdEnv} (hc : SetContract env) {d : Dag} (hg : WFGraph d.graph)
    {K : List Oid} {x : Oid × List Oid} (h : exactComponent env d K = .ok x) :
    x.2 = K ∧ (∀ c, Topmost d.graph (· ∈ K) c ↔ c = x.1) ∧ ∃ p, ∀ q, IsParent d.graph q x.1 ↔ q = p := by
  unfold exactComponent at h
  split at h
  · rename_i root hr
    split at h
    · simp at h
    · rename_i hn
      simp only [Except.ok.injEq] at h
      subst h
      refine ⟨rfl, fun c => ?_, ?_⟩
      · rw [← mem_roots hg, ← hc.mem, hr]
        simp
      · simp only [ne_eq, not_not] at hn
        obtain ⟨p, hp⟩ := count_singleton_iff.1 hn
        refine ⟨p, fun q => ?_⟩
        rw [← hp, mem_parents hg]
        simp
  · simp at h

theorem exactComponents_ok {env : MoveCmdEnv} (hc : SetContract env) {d : Dag} (hg : WFGraph d.graph)
    {X : List Oid} {comps : AMap Oid (List Oid)} (h : exactComponents env d X = .ok (.ok comps)) :
    Components d.graph X comps := by
  obtain ⟨ks, h1, hcov, hpw, hcon⟩ := components_partition d.graph hg X
  unfold exactComponents at h
  rw [h1] at h
  simp only [Except.ok.injEq] at h
  have hf := mapM_except_forall₂ h
  have hk : ks = comps.map Prod.snd := by
    clear h1 hcov hpw hcon h
    induction hf with
    | nil => rfl
    | cons h _ ih => rw [List.map_cons, ← ih, (exactComponent_ok hc hg h).1]
  have hmem : ∀ x ∈ comps, exactComponent env d x.2 = .ok x := by
    clear h1 hcov hpw hcon h hk
    induction hf with
    | nil => simp
    | cons h _ ih =>
      intro x hx
      rcases List.mem_cons.1 hx with rfl | hx
      · rw [(exactComponent_ok hc hg h).1]; exact h
      · exact ih x hx
  have hroot : ∀ x ∈ comps, ∀ c, Topmost d.graph (· ∈ x.2) c ↔ c = x.1 := fun x hx =>
    (exactComponent_ok hc hg (hmem x hx)).2.1
  have hin : ∀ x ∈ comps, x.1 ∈ x.2 := fun x hx => ((hroot x hx x.1).2 rfl).1
  have hpw' : comps.Pairwise fun a b => ∀ x ∈ a.2, x ∉ b.2 := by
    rw [hk, List.pairwise_map] at hpw
    exact hpw
  have hdisj := pairwise_disj (S := Prod.snd) hpw'
  refine ⟨?_, fun r K h => hroot _ h, fun r K h => (exactComponent_ok hc hg (hmem _ h)).2.2, ?_, ?_, ?_⟩
  · have : comps.Pairwise fun a b => a.1 ≠ b.1 := by
      refine hpw'.imp_of_mem ?_
      intro a b ha hb h e
      exact h a.1 (hin a ha) (by rw [e]; exact hin b hb)
    unfold AMap.WF AMap.keys
    rw [List.Nodup, List.pairwise_map]
    exact this
  · intro x
    rw [hcov, hk]
    simp only [List.mem_map, Prod.exists, exists_eq_right]
    constructor
    · rintro ⟨k, ⟨r, hr⟩, hx⟩; exact ⟨r, k, hr, hx⟩
    · rintro ⟨r, k, hr, hx⟩; exact ⟨k, ⟨r, hr⟩, hx⟩
  · intro r K r' K' x h h' hx hx'
    exact congrArg Prod.fst (hdisj _ h _ h' x hx hx')
  · intro r K a b h ha hb he
    obtain ⟨k', hk', hbk⟩ := (hcov b).1 hb
    have hK : K ∈ ks := by rw [hk]; exact List.mem_map.2 ⟨_, h, rfl⟩
    rcases he with he | he
    · exact (components_no_edges d.graph hg X ks h1 K k' hK hk' a b ha hbk he b).2 hbk
    · exact (components_no_edges d.graph hg X ks h1 k' K hk' hK b a hbk ha he b).1 hbk

theorem parent_unique {g : CommitGraph Oid} (hg : WFGraph g) {c p q : Oid} (h : (g.parentsOf c).length ≤ 1)
    (hp : IsParent g p c) (hq : IsParent g q c) : p = q := by
  rw [← mem_parentsOf hg] at hp hq
  match hl : g.parentsOf c, h with
  | [], _ => rw [hl] at hp; simp at hp
  | [a], _ =>
    rw [hl] at hp hq
    rw [List.mem_singleton.1 hp, List.mem_singleton.1 hq]

section
variable {g : CommitGraph Oid} {X : List Oid} {comps : AMap Oid (List Oid)}

theorem Components.root_mem (hC : Components g X comps) {r : Oid} {K : List Oid} (h : (r, K) ∈ comps) : r ∈ K :=
  ((hC.root r K h r).2 rfl).1

theorem Components.sub (hC : Components g X comps) {r x : Oid} {K : List Oid} (h : (r, K) ∈ comps)
    (hx : x ∈ K) : x ∈ X := (hC.cover x).2 ⟨r, K, h, hx⟩

theorem Components.get? (hC : Components g X comps) {r : Oid} {K : List Oid} (h : (r, K) ∈ comps) :
    AMap.get? comps r = some K := AMap.get?_of_mem hC.wf h

theorem Components.same (hC : Components g X comps) {r : Oid} {K K' : List Oid} (h : (r, K) ∈ comps)
    (h' : (r, K') ∈ comps) : K = K' := by
  have := (hC.get? h).symm.trans (hC.get? h')
  exact Option.some.inj this

theorem Components.topmost_iff (hC : Components g X comps) {c : Oid} :
    Topmost g (· ∈ X) c ↔ ∃ K, (c, K) ∈ comps := by
  constructor
  · rintro ⟨h1, h2⟩
    obtain ⟨r, K, h, hc⟩ := (hC.cover c).1 h1
    have := (hC.root r K h c).1 ⟨hc, fun p hp hpK => h2 p hp (hC.sub h hpK)⟩
    subst this
    exact ⟨K, h⟩
  · rintro ⟨K, h⟩
    refine ⟨hC.sub h (hC.root_mem h), fun p hp hpX => ?_⟩
    exact ((hC.root c K h c).2 rfl).2 p hp (hC.edge c K c p h (hC.root_mem h) hpX (.inr hp))

theorem Components.anc_root (hC : Components g X comps) (hg : WFGraph g) {r x : Oid} {K : List Oid}
    (h : (r, K) ∈ comps) (hx : x ∈ K) : Anc g r x := by
  obtain ⟨r', h1, h2⟩ := exists_root hg hx
  rw [mem_roots hg, hC.root r K h] at h1
  rwa [h1] at h2

/-- What is between two commits of a component belongs to it. -/
theorem Components.convex (hC : Components g X comps) (hg : WFGraph g)
    (hX : ∀ x ∈ X, (g.parentsOf x).length ≤ 1) {r q h : Oid} {K : List Oid} (hK : (r, K) ∈ comps) (hq : q ∈ K)
    (h1 : Anc g r h) (h2 : Anc g h q) : h ∈ K := by
  induction h2 with
  | refl => exact hq
  | @step p c hhp hpc ih =>
    by_cases hr : c = r
    · subst hr
      have := (h1.trans hhp).antisymm hg (.of_parent hpc)
      subst this
      exact absurd hpc (not_isParent_self hg)
    · have : ¬ Topmost g (· ∈ K) c := fun h => hr ((hC.root r K hK c).1 h)
      unfold Topmost at this
      push Not at this
      obtain ⟨p', hp', hpK⟩ := this hq
      rw [parent_unique hg (hX c (hC.sub hK hq)) hpc hp'] at ih
      exact ih hpK

end

/-! ### where a component goes -/

theorem lineageBreak_none_iff {d : Dag} (hg : WFGraph d.graph) {l : List Oid} (hl : ∀ x ∈ l, x ∈ d.graph.nodes) :
    lineageBreak d l = none ↔ l.Pairwise (Anc d.graph) := by
  induction l with
  | nil => simp [lineageBreak]
  | cons a l ih =>
    cases l with
    | nil => simp [lineageBreak]
    | cons b l =>
      unfold lineageBreak
      have ih := ih fun x hx => hl x (List.mem_cons_of_mem _ hx)
      rw [List.pairwise_cons]
      by_cases hab : d.graph.isAncestor a b = true
      · rw [if_pos hab, ih]
        have hab := ((isAncestor_iff hg).1 hab).2
        constructor
        · intro h
          refine ⟨?_, h⟩
          intro x hx
          rcases List.mem_cons.1 hx with rfl | hx
          · exact hab
          · exact hab.trans ((List.pairwise_cons.1 h).1 x hx)
        · exact fun h => h.2
      · rw [if_neg hab]
        constructor
        · intro h; simp at h
        · rintro ⟨h, _⟩
          exact absurd ((isAncestor_iff hg).2 ⟨hl a (by simp), h b (by simp)⟩) hab

section
variable {env : MoveCmdEnv} {d : Dag} {X : List Oid} {comps : AMap Oid (List Oid)}

theorem mem_possible (hg : WFGraph d.graph) (hC : Components d.graph X comps)
    (hn : ∀ x ∈ X, x ∈ d.graph.nodes) {roots : List Oid} (hr : ∀ x, x ∈ roots ↔ x ∈ comps.keys) {r : Oid}
    {K : List Oid} (hK : (r, K) ∈ comps) (r' : Oid) :
    r' ∈ possibleDestinations d comps roots r ↔ (∃ K', (r', K') ∈ comps) ∧ r' ≠ r ∧ Anc d.graph r' r := by
  unfold possibleDestinations
  rw [List.mem_filter, hr]
  have hk : r' ∈ comps.keys ↔ ∃ K', (r', K') ∈ comps := by
    simp [AMap.keys]
  rw [hk]
  refine and_congr_right ?_
  rintro ⟨K', hK'⟩
  rw [hC.get? hK']
  simp only [Option.getD_some, Bool.and_eq_true, Bool.not_eq_true', isAncestor_iff hg]
  have h1 : K'.contains r = false ↔ r' ≠ r := by
    rw [← Bool.not_eq_true, List.contains_iff_mem]
    refine not_congr ⟨fun h => hC.disj _ _ _ _ r hK' hK h (hC.root_mem hK), ?_⟩
    rintro rfl
    exact hC.root_mem hK'
  rw [h1]
  exact and_congr_right fun _ => ⟨fun h => h.2, fun h => ⟨hn _ (hC.sub hK' (hC.root_mem hK')), h⟩⟩

theorem mem_heads {g : CommitGraph Oid} (hg : WFGraph g) {s : List Oid} {c : Oid} :
    c ∈ g.heads s ↔ c ∈ s ∧ ∀ x, IsParent g c x → x ∉ s := by
  unfold CommitGraph.heads
  rw [mem_diff, mem_parents hg]
  refine and_congr_right fun _ => ?_
  constructor
  · intro h x hx hs; exact h ⟨x, hs, hx⟩
  · rintro h ⟨x, hs, hx⟩; exact h x hx hs

theorem componentDest_ok (hc : SetContract env) (hg : WFGraph d.graph) (hC : Components d.graph X comps)
    (hn : ∀ x ∈ X, x ∈ d.graph.nodes) (hX : ∀ x ∈ X, (d.graph.parentsOf x).length ≤ 1)
    {roots : List Oid} (hr : ∀ x, x ∈ roots ↔ x ∈ comps.keys) {dest r p : Oid}
    {K : List Oid} (hK : (r, K) ∈ comps) (h : componentDest env d comps roots dest r = .ok p) :
    NearestInside d.graph (· ∈ X) p r ∨ (p = dest ∧ ∀ q, q ∈ X → Anc d.graph q r → q = r) := by
  have hmem := mem_possible hg hC hn hr hK
  have hpl : ∀ x ∈ possibleDestinations d comps roots r, x ∈ d.graph.nodes := by
    intro x hx
    obtain ⟨⟨K', hK'⟩, _⟩ := (hmem x).1 hx
    exact hn _ (hC.sub hK' (hC.root_mem hK'))
  have hself : ∀ q, q ∈ K → Anc d.graph q r → q = r := fun q hq hqr =>
    hqr.antisymm hg (hC.anc_root hg hK hq)
  unfold componentDest at h
  simp only at h
  split at h
  · rename_i hl
    simp only [Except.ok.injEq] at h
    subst h
    right
    refine ⟨rfl, fun q hq hqr => ?_⟩
    obtain ⟨r', K', hK', hqK⟩ := (hC.cover q).1 hq
    by_cases he : r' = r
    · subst he
      rw [hC.same hK' hK] at hqK
      exact hself q hqK hqr
    · have := (hmem r').2 ⟨⟨K', hK'⟩, he, (hC.anc_root hg hK' hqK).trans hqr⟩
      rw [List.getLast?_eq_none_iff] at hl
      rw [hl] at this
      simp at this
  · rename_i nearest hl
    split at h
    · simp at h
    · rename_i hb
      simp only [Option.isSome_iff_ne_none, ne_eq, not_not] at hb
      rw [lineageBreak_none_iff hg hpl] at hb
      have hlast : ∀ x ∈ possibleDestinations d comps roots r, Anc d.graph x nearest := by
        obtain ⟨pre, hpre⟩ := List.getLast?_eq_some_iff.1 hl
        rw [hpre] at hb ⊢
        intro x hx
        rcases List.mem_append.1 hx with hx | hx
        · exact (List.pairwise_append.1 hb).2.2 x hx nearest (by simp)
        · rw [List.mem_singleton.1 hx]; exact .refl
      obtain ⟨⟨Kn, hKn⟩, hne, hanc⟩ := (hmem nearest).1 (List.mem_of_getLast? hl)
      rw [hC.get? hKn] at h
      simp only [Option.getD_some, Except.ok.injEq] at h
      left
      have habove : ∀ x, x ∈ CommitGraph.inter (d.graph.ancestors [r]) Kn ↔ Anc d.graph x r ∧ x ∈ Kn := by
        intro x
        rw [mem_inter, mem_ancestors hg]
        simp only [List.mem_singleton, exists_eq_left]
        constructor
        · rintro ⟨⟨_, h1⟩, h2⟩; exact ⟨h1, h2⟩
        · rintro ⟨h1, h2⟩; exact ⟨⟨hn x (hC.sub hKn h2), h1⟩, h2⟩
      generalize CommitGraph.inter (d.graph.ancestors [r]) Kn = above at h habove
      obtain ⟨hd0, hhd0, _⟩ := exists_head hg ((habove nearest).2 ⟨hanc, hC.root_mem hKn⟩)
      have hs := hc.first_some (d.graph.heads above) (by intro e; rw [e] at hhd0; simp at hhd0)
      obtain ⟨x, hx⟩ := Option.isSome_iff_exists.1 hs
      rw [hx] at h
      simp only [Option.getD_some] at h
      subst h
      obtain ⟨h1, h2⟩ := (mem_heads hg).1 (hc.first_mem _ _ hx)
      obtain ⟨h3, h4⟩ := (habove x).1 h1
      refine ⟨hC.sub hKn h4, ?_, h3, ?_⟩
      · rintro rfl
        exact hne (hC.disj _ _ _ _ x hKn hK h4 (hC.root_mem hK))
      · intro q hq hqr hqa hxq
        obtain ⟨r', K', hK', hqK⟩ := (hC.cover q).1 hq
        have he : r' ≠ r := by
          rintro rfl
          rw [hC.same hK' hK] at hqK
          exact hqr (hself q hqK hqa)
        have hrn := hlast r' ((hmem r').2 ⟨⟨K', hK'⟩, he, (hC.anc_root hg hK' hqK).trans hqa⟩)
        have hnx := hC.anc_root hg hKn h4
        have : nearest ∈ K' := hC.convex hg hX hK' hqK hrn (hnx.trans hxq)
        have := hC.disj _ _ _ _ nearest hKn hK' (hC.root_mem hKn) this
        subst this
        rw [hC.same hK' hKn] at hqK
        rcases anc_iff_child.1 hxq with h | ⟨z, hz, hzq⟩
        · exact h.symm
        · exfalso
          have hzK := hC.convex hg hX hKn hqK (hnx.trans (.of_parent hz)) hzq
          exact h2 z hz ((habove z).2 ⟨hzq.trans hqa, hzK⟩)

end

/-! ### the requests -/

theorem componentsRequests_ok {one : Oid → Except PlanFail (Except MoveRefusal (List Constraint))}
    {l : List Oid} {cs : List Constraint} (h : componentsRequests one l = .ok (.ok cs)) :
    (∀ a ∈ l, ∃ ca, one a = .ok (.ok ca)) ∧
    ∀ x, x ∈ cs ↔ ∃ a ∈ l, ∃ ca, one a = .ok (.ok ca) ∧ x ∈ ca := by
  induction l generalizing cs with
  | nil =>
    simp only [componentsRequests, Except.ok.injEq] at h
    subst h
    simp
  | cons a l ih =>
    unfold componentsRequests at h
    split at h
    · simp at h
    · simp at h
    · rename_i ca hca
      split at h
      · simp at h
      · simp at h
      · rename_i cs' hcs
        simp only [Except.ok.injEq] at h
        subst h
        obtain ⟨h1, h2⟩ := ih hcs
        refine ⟨?_, fun x => ?_⟩
        · intro b hb
          rcases List.mem_cons.1 hb with rfl | hb
          · exact ⟨_, hca⟩
          · exact h1 b hb
        · rw [List.mem_append, h2]
          constructor
          · rintro (h | ⟨b, hb, cb, h3, h4⟩)
            · exact ⟨a, by simp, ca, hca, h⟩
            · exact ⟨b, List.mem_cons_of_mem _ hb, cb, h3, h4⟩
          · rintro ⟨b, hb, cb, h3, h4⟩
            rcases List.mem_cons.1 hb with rfl | hb
            · rw [hca] at h3
              simp only [Except.ok.injEq] at h3
              subst h3
              exact .inl h4
            · exact .inr ⟨b, hb, cb, h3, h4⟩

theorem componentsRequests_all {one : Oid → Except PlanFail (Except MoveRefusal (List Constraint))}
    {l : List Oid} (h : ∀ a ∈ l, ∃ ca, one a = .ok (.ok ca)) :
    ∃ cs, componentsRequests one l = .ok (.ok cs) := by
  induction l with
  | nil => exact ⟨[], rfl⟩
  | cons a l ih =>
    obtain ⟨ca, hca⟩ := h a (by simp)
    obtain ⟨cs, hcs⟩ := ih fun a ha => h a (List.mem_cons_of_mem _ ha)
    unfold componentsRequests
    rw [hca]
    simp only
    rw [hcs]
    exact ⟨_, rfl⟩

theorem componentsRequests_error {one : Oid → Except PlanFail (Except MoveRefusal (List Constraint))}
    {l : List Oid} {E : MoveRefusal → Prop}
    (h : ∀ a ∈ l, (∃ ca, one a = .ok (.ok ca)) ∨ ∃ e, E e ∧ one a = .ok (.error e))
    (he : ∃ a ∈ l, ∃ e, E e ∧ one a = .ok (.error e)) :
    ∃ e, E e ∧ componentsRequests one l = .ok (.error e) := by
  induction l with
  | nil => simp at he
  | cons a l ih =>
    unfold componentsRequests
    rcases h a (by simp) with ⟨ca, hca⟩ | ⟨e, h1, h2⟩
    · obtain ⟨x, hx, e, h1, h2⟩ := he
      rcases List.mem_cons.1 hx with rfl | hx
      · rw [hca] at h2; simp at h2
      · obtain ⟨e', h3, h4⟩ := ih (fun a ha => h a (List.mem_cons_of_mem _ ha)) ⟨x, hx, e, h1, h2⟩
        rw [hca]
        simp only
        rw [h4]
        exact ⟨e', h3, rfl⟩
    · rw [h2]
      exact ⟨e, h1, rfl⟩

/-- Two members of a list in which all are comparable. -/
theorem pairwise_either {α : Type} {R : α → α → Prop} {l : List α} (h : l.Pairwise R) {a b : α} (ha : a ∈ l)
    (hb : b ∈ l) (hne : a ≠ b) : R a b ∨ R b a := by
  induction h with
  | nil => simp at ha
  | cons h _ ih =>
    rcases List.mem_cons.1 ha with e | ha <;> rcases List.mem_cons.1 hb with e' | hb
    · exact absurd (e.trans e'.symm) hne
    · rw [e]; exact .inl (h b hb)
    · rw [e']; exact .inr (h a ha)
    · exact ih ha hb

/-- A list of requests to move subtrees. -/
theorem exists_requests {cs : List Constraint} (h : ∀ x ∈ cs, ∃ p c, x = .moveSubtree [p] c) :
    ∃ rs : List (Oid × Oid), cs = subtreeConstraints rs := by
  induction cs with
  | nil => exact ⟨[], rfl⟩
  | cons x cs ih =>
    obtain ⟨p, c, rfl⟩ := h x (by simp)
    obtain ⟨rs, rfl⟩ := ih fun x hx => h x (List.mem_cons_of_mem _ hx)
    exact ⟨(c, p) :: rs, rfl⟩

theorem mem_subtreeConstraints {rs : List (Oid × Oid)} {p c : Oid} :
    Constraint.moveSubtree [p] c ∈ subtreeConstraints rs ↔ (c, p) ∈ rs := by
  unfold subtreeConstraints
  rw [List.mem_map]
  constructor
  · rintro ⟨⟨a, b⟩, h, e⟩
    simp only [Constraint.moveSubtree.injEq, List.cons.injEq, and_true] at e
    obtain ⟨rfl, rfl⟩ := e
    exact h
  · intro h; exact ⟨_, h, rfl⟩

section
variable {env : MoveCmdEnv} {d : Dag} {X : List Oid} {comps : AMap Oid (List Oid)}

/-- The parent of a component. -/
theorem component_parent (hc : SetContract env) (hg : WFGraph d.graph) (hC : Components d.graph X comps)
    {r : Oid} {K : List Oid} (hK : (r, K) ∈ comps) :
    ∃ p, env.first (d.graph.parents [r]) = some p ∧ IsParent d.graph p r ∧ p ∉ X := by
  obtain ⟨p, hp⟩ := hC.parent r K hK
  have hm : p ∈ d.graph.parents [r] := (mem_parents hg).2 ⟨r, by simp, (hp p).2 rfl⟩
  obtain ⟨x, hx⟩ := Option.isSome_iff_exists.1 (hc.first_some _ (List.ne_nil_of_mem hm))
  have hxp := (mem_parents hg).1 (hc.first_mem _ _ hx)
  simp only [List.mem_singleton, exists_eq_left] at hxp
  exact ⟨x, hx, hxp, fun h => (hC.topmost_iff.2 ⟨K, hK⟩).2 x hxp h⟩

theorem nearestOutside_component (hg : WFGraph d.graph) (hC : Components d.graph X comps) {r x c p : Oid}
    {K : List Oid} (hK : (r, K) ∈ comps) (hx : x ∈ K) (hp : IsParent d.graph p r) (hpX : p ∉ X)
    (hxc : IsParent d.graph x c) : NearestOutside d.graph (· ∈ X) p c := by
  have key : ∀ n x c, x ∈ K → IsParent d.graph x c → ageOf d.graph.entries x = n →
      NearestOutside d.graph (· ∈ X) p c := by
    intro n
    induction n using Nat.strongRecOn with
    | _ n ih =>
      intro x c hx hxc hn
      refine .skip hxc (hC.sub hK hx) ?_
      by_cases hr : x = r
      · subst hr; exact .parent hp hpX
      · have : ¬ Topmost d.graph (· ∈ K) x := fun h => hr ((hC.root r K hK x).1 h)
        unfold Topmost at this
        push Not at this
        obtain ⟨y, hy, hyK⟩ := this hx
        have := age_lt hg hy
        exact ih _ (by omega) y x hyK hy rfl
  exact key _ x c hx hxc rfl

/-- The requests, without `--insert` and `--fixup`. -/
theorem exact_request_mem (hc : SetContract env) (hg : WFGraph d.graph) (hC : Components d.graph X comps)
    {seen : Oid → Prop} (hv : ∀ s o, o ∈ d.filterVisibleCommits s ↔ o ∈ s ∧ seen o) {dest : Oid}
    {cs : List Constraint} (h : moveRequests env d false false [] comps dest = .ok (.ok cs)) :
    ∃ rs, cs = subtreeConstraints rs ∧ ∀ p c, (c, p) ∈ rs ↔ ∃ r K, (r, K) ∈ comps ∧
      ((c = r ∧ componentDest env d comps (sortedCommitSet env.nav d comps.keys) dest r = .ok p) ∨
        (env.first (d.graph.parents [r]) = some p ∧ c ∉ K ∧ seen c ∧ ∃ x ∈ K, IsParent d.graph x c)) := by
  unfold moveRequests at h
  simp only at h
  have hr : ∀ x, x ∈ sortedCommitSet env.nav d comps.keys ↔ x ∈ comps.keys := fun x => mem_sortedCommitSet hc
  generalize sortedCommitSet env.nav d comps.keys = roots at h hr
  split at h
  · simp at h
  · simp at h
  · rename_i cs' hcs
    have hnil : sourceRequests env d false [] dest = [] := by
      unfold sourceRequests
      have : env.nav.toVec (d.graph.roots []) = [] := by
        rw [List.eq_nil_iff_forall_not_mem]
        intro x hx
        rw [hc.mem, mem_roots hg] at hx
        exact absurd hx.1 (by simp)
      rw [this]; rfl
    simp only [Bool.false_eq_true, if_false, Except.ok.injEq] at h
    rw [hnil, List.nil_append] at h
    subst h
    obtain ⟨h1, h2⟩ := componentsRequests_ok hcs
    have hone : ∀ r K, (r, K) ∈ comps → ∀ ca, componentRequests env d false false comps roots dest r =
        .ok (.ok ca) → ∀ x, x ∈ ca ↔
        (∃ p, componentDest env d comps roots dest r = .ok p ∧ x = .moveSubtree [p] r) ∨
        (∃ p c, env.first (d.graph.parents [r]) = some p ∧ (c ∉ K ∧ seen c ∧ ∃ y ∈ K, IsParent d.graph y c) ∧
          x = .moveSubtree [p] c) := by
      intro r K hK ca hca x
      unfold componentRequests at hca
      rw [hC.get? hK] at hca
      simp only at hca
      obtain ⟨p, hp, -, -⟩ := component_parent hc hg hC hK
      split at hca
      · simp at hca
      · rename_i cd hcd
        rw [hp] at hca
        simp only [Bool.false_eq_true, if_false, Except.ok.injEq] at hca
        subst hca
        simp only [childRequests, Bool.false_and, Bool.false_eq_true, if_false, List.mem_append,
          List.mem_flatMap, hc.mem, hv, mem_diff, mem_children hg, List.mem_singleton, hp, hcd,
          Option.some.injEq, Except.ok.injEq]
        constructor
        · rintro (⟨c, ⟨⟨⟨y, hy, hyc⟩, hcK⟩, hsc⟩, rfl⟩ | rfl)
          · exact .inr ⟨p, c, rfl, ⟨hcK, hsc, y, hy, hyc⟩, rfl⟩
          · exact .inl ⟨cd, rfl, rfl⟩
        · rintro (⟨p', rfl, rfl⟩ | ⟨p', c, rfl, ⟨hcK, hsc, y, hy, hyc⟩, rfl⟩)
          · exact .inr rfl
          · exact .inl ⟨c, ⟨⟨⟨y, hy, hyc⟩, hcK⟩, hsc⟩, rfl⟩
    have hkeys : ∀ r, r ∈ roots ↔ ∃ K, (r, K) ∈ comps := by
      intro r
      rw [hr]
      simp [AMap.keys]
    obtain ⟨rs, hrs⟩ := exists_requests (cs := cs') (by
      intro x hx
      obtain ⟨r, hrr, ca, hca, hxa⟩ := (h2 x).1 hx
      obtain ⟨K, hK⟩ := (hkeys r).1 hrr
      rcases (hone r K hK ca hca x).1 hxa with ⟨p, _, e⟩ | ⟨p, c, _, _, e⟩
      · exact ⟨p, r, e⟩
      · exact ⟨p, c, e⟩)
    refine ⟨rs, hrs, fun p c => ?_⟩
    rw [← mem_subtreeConstraints, ← hrs, h2]
    constructor
    · rintro ⟨r, hrr, ca, hca, hxa⟩
      obtain ⟨K, hK⟩ := (hkeys r).1 hrr
      refine ⟨r, K, hK, ?_⟩
      rcases (hone r K hK ca hca _).1 hxa with ⟨p', h3, e⟩ | ⟨p', c', h3, h4, e⟩
      · cases e; exact .inl ⟨rfl, h3⟩
      · cases e; exact .inr ⟨h3, h4⟩
    · rintro ⟨r, K, hK, h3⟩
      obtain ⟨ca, hca⟩ := h1 r ((hkeys r).2 ⟨K, hK⟩)
      refine ⟨r, (hkeys r).2 ⟨K, hK⟩, ca, hca, (hone r K hK ca hca _).2 ?_⟩
      rcases h3 with ⟨rfl, h3⟩ | ⟨h3, h4⟩
      · exact .inl ⟨p, h3, rfl⟩
      · exact .inr ⟨p, c, h3, h4, rfl⟩

/-- The requests are right. -/
theorem exact_requests_right (hc : SetContract env) (hg : WFGraph d.graph) (hC : Components d.graph X comps)
    (hn : ∀ x ∈ X, x ∈ d.graph.nodes) (hX : ∀ x ∈ X, (d.graph.parentsOf x).length ≤ 1)
    {seen : Oid → Prop} (hv : ∀ s o, o ∈ d.filterVisibleCommits s ↔ o ∈ s ∧ seen o)
    (hch : ∀ c x, c ∉ X → seen c → x ∈ X → IsParent d.graph x c → (d.graph.parentsOf c).length ≤ 1)
    {dest : Oid} {cs : List Constraint}
    (h : moveRequests env d false false [] comps dest = .ok (.ok cs)) :
    ∃ rs, cs = subtreeConstraints rs ∧
      (∀ p c, (c, p) ∈ rs → ExactRequest d.graph seen (· ∈ X) dest p c) ∧
      (∀ p q c, (c, p) ∈ rs → (c, q) ∈ rs → p = q) ∧
      (∀ c, Topmost d.graph (· ∈ X) c → ∃ q, (c, q) ∈ rs) ∧
      ∀ c x, c ∉ X → seen c → x ∈ X → IsParent d.graph x c → ∃ q, (c, q) ∈ rs := by
  obtain ⟨rs, h1, h2⟩ := exact_request_mem hc hg hC hv h
  have hr : ∀ x, x ∈ sortedCommitSet env.nav d comps.keys ↔ x ∈ comps.keys := fun x => mem_sortedCommitSet hc
  have houts : ∀ {r K c}, (r, K) ∈ comps → c ∉ K → (∃ x ∈ K, IsParent d.graph x c) → c ∉ X := by
    rintro r K c hK hcK ⟨x, hx, hxc⟩ hcX
    exact hcK (hC.edge r K x c hK hx hcX (.inl hxc))
  have htop : ∀ c, Topmost d.graph (· ∈ X) c → ∃ q, (c, q) ∈ rs := by
    intro c ht
    obtain ⟨K, hK⟩ := hC.topmost_iff.1 ht
    have : ∃ q, componentDest env d comps (sortedCommitSet env.nav d comps.keys) dest c = .ok q := by
      by_contra hno
      unfold moveRequests at h
      simp only at h
      split at h
      · simp at h
      · simp at h
      · rename_i cs' hcs
        obtain ⟨ca, hca⟩ := (componentsRequests_ok hcs).1 c (by rw [hr]; simp [AMap.keys]; exact ⟨K, hK⟩)
        unfold componentRequests at hca
        rw [hC.get? hK] at hca
        simp only at hca
        split at hca
        · simp at hca
        · rename_i q hq; exact hno ⟨q, hq⟩
    obtain ⟨q, hq⟩ := this
    exact ⟨q, (h2 q c).2 ⟨c, K, hK, .inl ⟨rfl, hq⟩⟩⟩
  refine ⟨rs, h1, ?_, ?_, htop, ?_⟩
  · intro p c hpc
    obtain ⟨r, K, hK, ⟨rfl, h3⟩ | ⟨h3, h4, h5, x, hx, hxc⟩⟩ := (h2 p c).1 hpc
    · exact .inl ⟨hC.topmost_iff.2 ⟨K, hK⟩, componentDest_ok hc hg hC hn hX hr hK h3⟩
    · obtain ⟨p', h6, h7, h8⟩ := component_parent hc hg hC hK
      rw [h3] at h6
      cases h6
      exact .inr ⟨houts hK h4 ⟨x, hx, hxc⟩, h5, ⟨x, hC.sub hK hx, hxc⟩,
        nearestOutside_component hg hC hK hx h7 h8 hxc⟩
  · intro p q c hp hq
    obtain ⟨r, K, hK, ha⟩ := (h2 p c).1 hp
    obtain ⟨r', K', hK', hb⟩ := (h2 q c).1 hq
    rcases ha with ⟨rfl, h3⟩ | ⟨h3, h4, h5, x, hx, hxc⟩ <;>
      rcases hb with ⟨e, h3'⟩ | ⟨h3', h4', h5', x', hx', hxc'⟩
    · subst e
      rw [h3] at h3'
      simpa using h3'
    · exact absurd (hC.sub hK (hC.root_mem hK)) (houts hK' h4' ⟨x', hx', hxc'⟩)
    · subst e
      exact absurd (hC.sub hK' (hC.root_mem hK')) (houts hK h4 ⟨x, hx, hxc⟩)
    · have hm := hch c x (houts hK h4 ⟨x, hx, hxc⟩) h5 (hC.sub hK hx) hxc
      have := parent_unique hg hm hxc hxc'
      subst this
      have := hC.disj _ _ _ _ x hK hK' hx hx'
      subst this
      rw [h3] at h3'
      simpa using h3'
  · intro c x h3 h4 hx hxc
    obtain ⟨r, K, hK, hxK⟩ := (hC.cover x).1 hx
    obtain ⟨q, h6, _, _⟩ := component_parent hc hg hC hK
    exact ⟨q, (h2 q c).2 ⟨r, K, hK, .inr ⟨h6, fun hcK => h3 (hC.sub hK hcK), h4, x, hxK, hxc⟩⟩⟩

end

/-! ### from the requests to the plan -/

section
variable {env : MoveCmdEnv} {d : Dag} {fixup insert : Bool} {S : List Oid} {comps : AMap Oid (List Oid)}
  {dest : Oid} {cs : List Constraint} {M : Oid → Oid → Prop}

/-- What the requests amount to, once the descendants are added: commits are moved as `M` says, and
nothing else. -/
def AmountTo (env : MoveCmdEnv) (d : Dag) (cs : List Constraint) (M : Oid → Oid → Prop) : Prop :=
  ∀ perms, ∃ k, (RebasePlanBuilder.mk (env.planEnv d) perms cs []).constraintGraph = .ok k ∧ k.fixups = [] ∧
    ∀ p c, Moves k p c ↔ M p c

theorem amountTo_subtrees (hg : WFGraph d.graph) {rs : List (Oid × Oid)} {seen : Oid → Prop}
    (hs : ∀ o, seen o ↔ o ∈ d.graph.nodes ∧ ∃ x ∈ d.visibleHeads, Anc d.graph o x)
    {req : Oid → Oid → Prop} (hr : ∀ p c, (c, p) ∈ rs ↔ req p c) (hu : ∀ p q c, req p c → req q c → p = q) :
    AmountTo env d (subtreeConstraints rs) (Carried d.graph seen req) := by
  intro perms
  obtain ⟨k, hk, hf, hmv⟩ := constraintGraph_subtrees
    (b := RebasePlanBuilder.mk (env.planEnv d) perms (subtreeConstraints rs) []) hg (rs := rs) rfl
  refine ⟨k, hk, hf, fun p c => (hmv p c).trans ?_⟩
  have := shouldMove_carried hs hr hu
  rw [← this]
  rfl

theorem movePlan_of_requests {perms : RebasePlanPermissions}
    (hv : verifyRewriteSet d env.forceRewritePublicCommits env.detectDuplicateCommitsViaPatchId
      (commitsToMove d fixup insert S comps dest) = .ok perms)
    (hcs : moveRequests env d fixup insert S comps dest = .ok (.ok cs)) :
    movePlan env d fixup insert S comps dest =
      match (RebasePlanBuilder.mk (env.planEnv d) perms cs []).build with
      | .error e => .error e
      | .ok (.error e) => .ok (.error (.planner e))
      | .ok (.ok plan) => .ok (.ok plan) := by
  unfold movePlan moveBuilder
  rw [hv, hcs]
  rfl

theorem movePlan_public {e : BuildRebasePlanError}
    (hv : verifyRewriteSet d env.forceRewritePublicCommits env.detectDuplicateCommitsViaPatchId
      (commitsToMove d fixup insert S comps dest) = .error e) :
    ∃ l, movePlan env d fixup insert S comps dest = .ok (.error (.planner (.movePublicCommits l))) := by
  obtain ⟨l, rfl⟩ := verify_error hv
  unfold movePlan moveBuilder
  rw [hv]
  exact ⟨l, rfl⟩

theorem movePlan_refused {perms : RebasePlanPermissions} {e : MoveRefusal}
    (hv : verifyRewriteSet d env.forceRewritePublicCommits env.detectDuplicateCommitsViaPatchId
      (commitsToMove d fixup insert S comps dest) = .ok perms)
    (hcs : moveRequests env d fixup insert S comps dest = .ok (.error e)) :
    movePlan env d fixup insert S comps dest = .ok (.error e) := by
  unfold movePlan moveBuilder
  rw [hv, hcs]

theorem movePlan_cycle {perms : RebasePlanPermissions}
    (hv : verifyRewriteSet d env.forceRewritePublicCommits env.detectDuplicateCommitsViaPatchId
      (commitsToMove d fixup insert S comps dest) = .ok perms)
    (hcs : moveRequests env d fixup insert S comps dest = .ok (.ok cs)) (hM : AmountTo env d cs M)
    (h : ∃ c, Relation.TransGen M c c) :
    ∃ l, movePlan env d fixup insert S comps dest = .ok (.error (.planner (.constraintCycle l))) := by
  rw [movePlan_of_requests hv hcs]
  obtain ⟨k, hk, _, hmv⟩ := hM perms
  have hM' : Moves k = M := by funext p c; exact propext (hmv p c)
  obtain ⟨l, hl⟩ := (build_cycle_iff _ k hk).2 (hM' ▸ h)
  rw [hl]
  exact ⟨l, rfl⟩

theorem movePlan_planned {perms : RebasePlanPermissions}
    (hv : verifyRewriteSet d env.forceRewritePublicCommits env.detectDuplicateCommitsViaPatchId
      (commitsToMove d fixup insert S comps dest) = .ok perms)
    (hcs : moveRequests env d fixup insert S comps dest = .ok (.ok cs)) (hM : AmountTo env d cs M)
    (h : ¬ ∃ c, Relation.TransGen M c c) (hp : ∀ p c, M p c → c ∈ perms.allowedCommits) :
    ∃ plan, movePlan env d fixup insert S comps dest = .ok (.ok plan) ∧ (plan = none ↔ ¬ ∃ p c, M p c) := by
  rw [movePlan_of_requests hv hcs]
  obtain ⟨k, hk, hf, hmv⟩ := hM perms
  have hM' : Moves k = M := by funext p c; exact propext (hmv p c)
  obtain ⟨plan, h1, h2⟩ := build_moves hk hf (fun c hcc => h ⟨c, hM' ▸ hcc⟩)
    (fun p c hpc => hp p c ((hmv p c).1 hpc))
  rw [h1]
  rw [hM'] at h2
  exact ⟨plan, rfl, h2⟩

/-- A plan comes from requests. -/
theorem movePlan_ok {plan : Option RebasePlan}
    (h : movePlan env d fixup insert S comps dest = .ok (.ok plan)) :
    ∃ perms cs, verifyRewriteSet d env.forceRewritePublicCommits env.detectDuplicateCommitsViaPatchId
        (commitsToMove d fixup insert S comps dest) = .ok perms ∧
      perms.detectDuplicateCommitsViaPatchId = env.detectDuplicateCommitsViaPatchId ∧
      moveRequests env d fixup insert S comps dest = .ok (.ok cs) ∧
      (RebasePlanBuilder.mk (env.planEnv d) perms cs []).build = .ok (.ok plan) := by
  unfold movePlan moveBuilder at h
  cases hv : verifyRewriteSet d env.forceRewritePublicCommits env.detectDuplicateCommitsViaPatchId
      (commitsToMove d fixup insert S comps dest) with
  | error e => rw [hv] at h; simp at h
  | ok perms =>
    rw [hv] at h
    cases hcs : moveRequests env d fixup insert S comps dest with
    | error e => rw [hcs] at h; simp at h
    | ok x =>
      cases x with
      | error e => rw [hcs] at h; simp at h
      | ok cs =>
        rw [hcs] at h
        simp only at h
        refine ⟨perms, cs, rfl, ?_, rfl, ?_⟩
        · unfold verifyRewriteSet at hv
          simp only at hv
          split at hv
          · simp at hv
          · cases hv; rfl
        · cases hbb : (RebasePlanBuilder.mk (env.planEnv d) perms cs []).build with
          | error e => rw [hbb] at h; simp at h
          | ok x =>
            rw [hbb] at h
            cases x with
            | error e => simp at h
            | ok x => simp only [Except.ok.injEq] at h; rw [h]

theorem movePlan_some {plan : RebasePlan}
    (h : movePlan env d fixup insert S comps dest = .ok (.ok (some plan))) :
    ∃ perms cs, verifyRewriteSet d env.forceRewritePublicCommits env.detectDuplicateCommitsViaPatchId
        (commitsToMove d fixup insert S comps dest) = .ok perms ∧
      perms.detectDuplicateCommitsViaPatchId = env.detectDuplicateCommitsViaPatchId ∧
      moveRequests env d fixup insert S comps dest = .ok (.ok cs) ∧
      (RebasePlanBuilder.mk (env.planEnv d) perms cs []).build = .ok (.ok (some plan)) := movePlan_ok h

/-- There is no plan only if nothing is to be moved. -/
theorem movePlan_none (hM : ∀ perms cs, verifyRewriteSet d env.forceRewritePublicCommits
      env.detectDuplicateCommitsViaPatchId (commitsToMove d fixup insert S comps dest) = .ok perms →
      moveRequests env d fixup insert S comps dest = .ok (.ok cs) →
      AmountTo env d cs M ∧ ∀ p c, M p c → c ∈ perms.allowedCommits)
    (h : movePlan env d fixup insert S comps dest = .ok (.ok none)) : ¬ ∃ p c, M p c := by
  obtain ⟨perms, cs, hv, _, hcs, hb⟩ := movePlan_ok h
  obtain ⟨h1, h2⟩ := hM perms cs hv hcs
  have hac : ¬ ∃ c, Relation.TransGen M c c := by
    intro hcy
    obtain ⟨l, hl⟩ := movePlan_cycle hv hcs h1 hcy
    rw [hl] at h
    simp at h
  obtain ⟨plan, h3, h4⟩ := movePlan_planned hv hcs h1 hac h2
  rw [h3] at h
  simp only [Except.ok.injEq] at h
  exact h4.1 h

/-- What a rebase in memory does, when the requests move subtrees. -/
theorem movePlan_relocated (hg : WFGraph d.graph) {plan : RebasePlan}
    (h : movePlan env d fixup insert S comps dest = .ok (.ok (some plan))) {rs : List (Oid × Oid)}
    (hcs : moveRequests env d fixup insert S comps dest = .ok (.ok (subtreeConstraints rs)))
    (hm : ∀ p c, (c, p) ∈ rs → (d.graph.parentsOf c).length ≤ 1)
    {seen : Oid → Prop} (hs : ∀ o, seen o ↔ o ∈ d.graph.nodes ∧ ∃ x ∈ d.visibleHeads, Anc d.graph o x)
    {req : Oid → Oid → Prop} (hr : ∀ p c, (c, p) ∈ rs ↔ req p c) (hu : ∀ p q c, req p c → req q c → p = q)
    (hn : NoCollisions env.exec) {head : Option Oid} {s : ExecState} {newHead : Option Oid}
    (hx : env.exec.rebaseInMemory head plan = .ok (s, newHead)) :
    Relocated env.exec (Carried d.graph seen req) (fun c => env.detectDuplicateCommitsViaPatchId = true ∧
      AppliedUpstream d.graph env.patchId (Carried d.graph seen req) c) s head newHead := by
  obtain ⟨perms, cs, _, hdet, hcs', hb⟩ := movePlan_some h
  rw [hcs] at hcs'
  simp only [Except.ok.injEq] at hcs'
  subst hcs'
  rw [← hdet]
  obtain ⟨k, hk, hf, hmv⟩ := constraintGraph_subtrees
    (b := RebasePlanBuilder.mk (env.planEnv d) perms (subtreeConstraints rs) []) hg (rs := rs) rfl
  have hreg := regular_subtrees (b := RebasePlanBuilder.mk (env.planEnv d) perms (subtreeConstraints rs) []) hg
    (rs := rs) (by
      rintro ⟨c, q⟩ hcq
      exact Nat.not_lt.2 (hm q c hcq)) hf hmv
  have hmv' : ∀ p c, Moves k p c ↔ Carried d.graph seen req p c := by
    intro p c
    rw [hmv, ← shouldMove_carried hs hr hu]
    rfl
  exact relocated (b := RebasePlanBuilder.mk (env.planEnv d) perms (subtreeConstraints rs) []) hg hk hf hmv' hreg
    rfl hb hn hx

end

end Verif.Spec
