import Verif.Lemmas.Plan

namespace Verif.Spec

open Verif Verif.Constraints Verif.RebasePlanBuilder

/-! ### loops -/

theorem foldlM_option_inv {σ α : Type} {f : σ → α → Option σ} {l : List α} (P : List α → σ → Prop)
    {s s' : σ} (h0 : P [] s)
    (hstep : ∀ pre a post s s', l = pre ++ a :: post → P pre s → f s a = some s' → P (pre ++ [a]) s')
    (h : l.foldlM f s = some s') : P l s' := by
  have key : ∀ (post pre : List α) (s s' : σ), l = pre ++ post → P pre s →
      post.foldlM f s = some s' → P l s' := by
    intro post
    induction post with
    | nil =>
      intro pre s s' hl hp h
      simp only [List.foldlM_nil] at h
      cases h
      simpa [hl] using hp
    | cons a post ih =>
      intro pre s s' hl hp h
      rw [List.foldlM_cons] at h
      cases ha : f s a with
      | none => rw [ha] at h; cases h
      | some s1 =>
        rw [ha] at h
        exact ih (pre ++ [a]) s1 s' (by simp [hl]) (hstep _ _ _ _ _ hl hp ha) h
  exact key l [] s s' rfl h0 h

theorem foldlM_except_inv {σ α ε : Type} {f : σ → α → Except ε σ} {l : List α}
    (P : List α → σ → Prop) {s s' : σ} (h0 : P [] s)
    (hstep : ∀ pre a post s s', l = pre ++ a :: post → P pre s → f s a = .ok s' → P (pre ++ [a]) s')
    (h : l.foldlM f s = .ok s') : P l s' := by
  have key : ∀ (post pre : List α) (s s' : σ), l = pre ++ post → P pre s →
      post.foldlM f s = .ok s' → P l s' := by
    intro post
    induction post with
    | nil =>
      intro pre s s' hl hp h
      simp only [List.foldlM_nil] at h
      cases h
      simpa [hl] using hp
    | cons a post ih =>
      intro pre s s' hl hp h
      rw [List.foldlM_cons] at h
      cases ha : f s a with
      | error e => rw [ha] at h; cases h
      | ok s1 =>
        rw [ha] at h
        exact ih (pre ++ [a]) s1 s' (by simp [hl]) (hstep _ _ _ _ _ hl hp ha) h
  exact key l [] s s' rfl h0 h

/-- A property of each element and what stands before it. -/
def Before {α : Type} (P : List α → α → Prop) (l : List α) : Prop :=
  ∀ pre x post, l = pre ++ x :: post → P pre x

theorem before_nil {α : Type} (P : List α → α → Prop) : Before P [] := by
  intro pre x post h; simp at h

theorem before_append {α : Type} {P : List α → α → Prop}
    (mono : ∀ pre rest x, P pre x → P (pre ++ rest) x) {l1 l2 : List α} (h : Before P l1)
    (h2 : ∀ x ∈ l2, P l1 x) : Before P (l1 ++ l2) := by
  intro pre x post he
  rcases List.append_eq_append_iff.1 he with ⟨a, h3, h4⟩ | ⟨a, h3, h4⟩
  · subst h3
    exact mono _ _ _ (h2 x (by rw [h4]; simp))
  · rcases a with _ | ⟨y, a⟩
    · simp only [List.append_nil, List.nil_append] at h3 h4
      subst h3
      exact h2 x (by rw [← h4]; simp)
    · simp only [List.cons_append, List.cons.injEq] at h4
      obtain ⟨rfl, h4⟩ := h4
      exact h pre x a h3

/-! ### labels -/

theorem makeLabelName_fresh {used : List Text} {fuel : Nat} {name l : Text}
    (h : makeLabelName used fuel name = some l) : l ∉ used := by
  induction fuel generalizing name with
  | zero => simp [makeLabelName] at h
  | succ n ih =>
    rw [makeLabelName] at h
    by_cases hn : name ∈ used
    · simp only [List.contains_iff_mem.2 hn, Bool.not_true, Bool.false_eq_true, if_false] at h
      exact ih h
    · have : used.contains name = false := by simpa using hn
      simp only [this, Bool.not_false, if_true, Option.some.injEq] at h
      exact h ▸ hn

theorem makeLabelName_none {used : List Text} {fuel : Nat} {name : Text}
    (h : makeLabelName used fuel name = none) :
    ∀ i < fuel, name ++ List.replicate i '\'' ∈ used := by
  induction fuel generalizing name with
  | zero => intro i hi; omega
  | succ n ih =>
    rw [makeLabelName] at h
    by_cases hn : name ∈ used
    · simp only [List.contains_iff_mem.2 hn, Bool.not_true, Bool.false_eq_true, if_false] at h
      intro i hi
      cases i with
      | zero => simpa using hn
      | succ i =>
        have := ih h i (by omega)
        rwa [List.append_assoc, List.singleton_append, ← List.replicate_succ] at this
    · have : used.contains name = false := by simpa using hn
      simp [hn] at h

theorem makeLabelName_isSome (used : List Text) (name : Text) :
    (makeLabelName used (used.length + 1) name).isSome := by
  cases h : makeLabelName used (used.length + 1) name with
  | some l => rfl
  | none =>
    exfalso
    have h1 := makeLabelName_none h
    let l := (List.range (used.length + 1)).map fun i => name ++ List.replicate i '\''
    have hn : l.Nodup := by
      refine List.Nodup.map_on ?_ List.nodup_range
      intro i _ j _ hij
      have := congrArg List.length hij
      simpa using this
    have hs : l ⊆ used := by
      intro x hx
      obtain ⟨i, hi, rfl⟩ := List.mem_map.1 hx
      exact h1 i (List.mem_range.1 hi)
    have := (List.subperm_of_subset hn hs).length_le
    simp only [l, List.length_map, List.length_range] at this
    omega

theorem createLabel_isSome (s : BuildState) (stem : Text) : (createLabel s stem).isSome := by
  unfold createLabel
  have := makeLabelName_isSome s.usedLabels (stem ++ natToText s.acc.length)
  cases h : makeLabelName s.usedLabels (s.usedLabels.length + 1) (stem ++ natToText s.acc.length) with
  | none => rw [h] at this; simp at this
  | some l => rfl

theorem createLabel_some {s s' : BuildState} {stem l : Text}
    (h : createLabel s stem = some (l, s')) :
    l ∉ s.usedLabels ∧ s'.usedLabels = l :: s.usedLabels ∧ s'.parentLabels = s.parentLabels ∧
      s'.acc = s.acc ++ [.createLabel l] := by
  unfold createLabel at h
  cases hm : makeLabelName s.usedLabels (s.usedLabels.length + 1) (stem ++ natToText s.acc.length) with
  | none => rw [hm] at h; simp at h
  | some l' =>
    rw [hm] at h
    simp only [Option.some.injEq, Prod.mk.injEq] at h
    obtain ⟨rfl, rfl⟩ := h
    exact ⟨makeLabelName_fresh hm, rfl, rfl, rfl⟩

/-- The labels which a command refers to have been created before it. -/
def LabelsBefore (pre : List RebaseCommand) (cmd : RebaseCommand) : Prop :=
  ∀ l ∈ labelsUsed cmd, l ∈ labelsCreated pre

theorem labelsBefore_mono (pre rest : List RebaseCommand) (x : RebaseCommand)
    (h : LabelsBefore pre x) : LabelsBefore (pre ++ rest) x := by
  intro l hl
  unfold labelsCreated
  rw [List.filterMap_append]
  exact List.mem_append_left _ (h l hl)

structure LInv (s : BuildState) : Prop where
  nodup : (labelsCreated s.acc).Nodup
  used : ∀ l, l ∈ s.usedLabels ↔ l ∈ labelsCreated s.acc
  parents : ∀ p l, AMap.get? s.parentLabels p = some l → l ∈ labelsCreated s.acc
  before : Before LabelsBefore s.acc

theorem linv_nil : LInv ⟨[], [], []⟩ :=
  ⟨by simp [labelsCreated], by simp [labelsCreated], by simp, before_nil _⟩

theorem LInv.push {s : BuildState} (h : LInv s) {cs : List RebaseCommand}
    (h1 : ∀ c ∈ cs, labelCreated c = none)
    (h2 : ∀ c ∈ cs, ∀ l ∈ labelsUsed c, l ∈ labelsCreated s.acc) : LInv (push s cs) := by
  have e : labelsCreated (s.acc ++ cs) = labelsCreated s.acc := by
    unfold labelsCreated
    rw [List.filterMap_append, (List.filterMap_eq_nil_iff (l := cs)).2 h1, List.append_nil]
  refine ⟨?_, ?_, ?_, ?_⟩
  · simpa only [RebasePlanBuilder.push, e] using h.nodup
  · simpa only [RebasePlanBuilder.push, e] using h.used
  · simpa only [RebasePlanBuilder.push, e] using h.parents
  · exact before_append labelsBefore_mono h.before h2

theorem LInv.createLabel {s s' : BuildState} {stem l : Text} (h : LInv s)
    (hc : createLabel s stem = some (l, s')) : LInv s' ∧ l ∈ labelsCreated s'.acc := by
  obtain ⟨h1, h2, h3, h4⟩ := createLabel_some hc
  have e : labelsCreated s'.acc = labelsCreated s.acc ++ [l] := by
    rw [h4]; unfold labelsCreated; rw [List.filterMap_append]; rfl
  refine ⟨⟨?_, ?_, ?_, ?_⟩, by rw [e]; simp⟩
  · rw [e, List.nodup_append]
    refine ⟨h.nodup, by simp, ?_⟩
    intro a ha b hb hab
    simp only [List.mem_singleton] at hb
    subst hab hb
    exact h1 ((h.used _).2 ha)
  · intro x
    rw [e, h2, List.mem_cons, h.used, List.mem_append, List.mem_singleton, or_comm]
  · intro p x hx
    rw [h3] at hx
    rw [e]
    exact List.mem_append_left _ (h.parents p x hx)
  · rw [h4]
    refine before_append labelsBefore_mono h.before ?_
    intro x hx
    simp only [List.mem_singleton] at hx
    subst hx
    intro y hy
    simp [labelsUsed] at hy

theorem commitsToMerge_labels {env : PlanEnv} {k : Constraints} {labels : AMap Oid Text} {cur : Oid}
    {ps : List OidOrLabel} (h : commitsToMerge env k labels cur = some ps) {l : Text}
    (hl : l ∈ ps.filterMap labelOf) : ∃ p, AMap.get? labels p = some l := by
  unfold commitsToMerge at h
  generalize env.parentOids cur = os at h
  induction os generalizing ps with
  | nil => simp only [List.mapM_nil, Option.pure_def, Option.some.injEq] at h; subst h; simp at hl
  | cons o os ih =>
    rw [List.mapM_cons] at h
    simp only [Option.bind_eq_bind, Option.pure_def, Option.bind_eq_some_iff] at h
    obtain ⟨x, hx, xs, hxs, h⟩ := h
    cases h
    rw [List.filterMap_cons] at hl
    split at hl
    · exact ih hl hxs
    · rename_i y hy
      rcases List.mem_cons.1 hl with rfl | hl
      · split at hx
        · cases hg : AMap.get? labels o with
          | none => rw [hg] at hx; simp at hx
          | some z =>
            rw [hg] at hx
            simp only [Option.map_some, Option.some.injEq] at hx
            subst hx
            simp only [labelOf, Option.some.injEq] at hy
            exact ⟨o, hy ▸ hg⟩
        · simp only [Option.some.injEq] at hx
          subst hx
          simp [labelOf] at hy
      · exact ih hl hxs

theorem replacementParents_labels {env : PlanEnv} {labels : AMap Oid Text} {r : Oid} {l : Text}
    (hl : l ∈ (replacementParents env labels r).filterMap labelOf) :
    ∃ p, AMap.get? labels p = some l := by
  unfold replacementParents at hl
  rw [List.filterMap_map, List.mem_filterMap] at hl
  obtain ⟨p, _, hp⟩ := hl
  refine ⟨p, ?_⟩
  simp only [Function.comp] at hp
  cases h : AMap.get? labels p with
  | none => rw [h] at hp; simp [labelOf] at hp
  | some y => rw [h] at hp; simpa [labelOf] using hp

/-- The commands for one commit only refer to labels of parents, and create none. -/
theorem commandsFor_labels {b : RebasePlanBuilder} {k : Constraints} {up : List Nat} {cur : Oid}
    {s : BuildState} {cs : List RebaseCommand} (h : commandsFor b k up cur s = some cs) :
    (∀ c ∈ cs, labelCreated c = none) ∧
    ∀ c ∈ cs, ∀ l ∈ labelsUsed c, ∃ p, AMap.get? s.parentLabels p = some l := by
  unfold commandsFor at h
  split at h
  · cases h; simp [labelCreated, labelsUsed]
  split at h
  · cases hm : commitsToMerge b.env k s.parentLabels cur with
    | none => rw [hm] at h; simp at h
    | some ps =>
      rw [hm] at h
      simp only at h
      split at h
      · simp at h
      · cases ps with
        | nil => simp at h
        | cons first rest =>
          have hl := fun l => commitsToMerge_labels hm (l := l)
          simp only at h
          have h1 : ∀ l ∈ labelsUsed (.reset first), ∃ p, AMap.get? s.parentLabels p = some l := by
            intro l hl'
            refine hl l ?_
            unfold labelsUsed at hl'
            rw [List.mem_filterMap] at hl' ⊢
            obtain ⟨x, hx, hx'⟩ := hl'
            simp only [List.mem_singleton] at hx
            exact ⟨x, by simp [hx], hx'⟩
          split at h
          · cases h
            constructor
            · simp [labelCreated]
            · simp only [List.mem_cons, List.not_mem_nil, or_false, forall_eq_or_imp, forall_eq]
              refine ⟨h1, fun l hl' => hl l ?_⟩
              unfold labelsUsed at hl'
              rw [List.mem_filterMap] at hl' ⊢
              obtain ⟨x, hx, hx'⟩ := hl'
              exact ⟨x, List.mem_cons_of_mem _ hx, hx'⟩
          · cases h
            constructor
            · simp [labelCreated]
            · simp only [List.mem_cons, List.not_mem_nil, or_false, forall_eq_or_imp, forall_eq]
              exact ⟨h1, fun l hl' => hl l hl'⟩
  split at h
  · cases h; simp
  split at h
  · cases h
    simp only [List.mem_singleton, forall_eq]
    exact ⟨rfl, fun l hl => replacementParents_labels hl⟩
  · cases h; simp [labelCreated, labelsUsed]

theorem createParentLabel_some {b : RebasePlanBuilder} {cur : Oid} {children : List Oid}
    {s s' : BuildState} (h : createParentLabel b cur children s = some s') :
    (s' = s ∧ ¬ ∃ c ∈ children, IsMerge b.env c ∨ (AMap.get? b.replacementCommits c).isSome) ∨
    ∃ l s1, createLabel s t!"parent-" = some (l, s1) ∧
      s' = { s1 with parentLabels := AMap.insert s1.parentLabels cur l } := by
  unfold createParentLabel at h
  split at h
  · cases hc : createLabel s t!"parent-" with
    | none => rw [hc] at h; simp at h
    | some x =>
      obtain ⟨l, s1⟩ := x
      rw [hc] at h
      simp only [Option.some.injEq] at h
      exact .inr ⟨l, s1, rfl, h.symm⟩
  · rename_i hn
    simp only [Option.some.injEq] at h
    refine .inl ⟨h.symm, ?_⟩
    rintro ⟨c, hc, hcc⟩
    refine hn (List.any_eq_true.2 ⟨c, hc, ?_⟩)
    rcases hcc with hcc | hcc
    · simp only [IsMerge] at hcc; simp [hcc]
    · simp [hcc]

theorem createParentLabel_isSome (b : RebasePlanBuilder) (cur : Oid) (children : List Oid)
    (s : BuildState) : (createParentLabel b cur children s).isSome := by
  unfold createParentLabel
  split
  · have := createLabel_isSome s t!"parent-"
    cases hc : createLabel s t!"parent-" with
    | none => rw [hc] at this; simp at this
    | some x => rfl
  · rfl

theorem LInv.createParentLabel {b : RebasePlanBuilder} {cur : Oid} {children : List Oid}
    {s s' : BuildState} (h : LInv s) (hc : createParentLabel b cur children s = some s') :
    LInv s' ∧ s.acc <+: s'.acc := by
  rcases createParentLabel_some hc with ⟨rfl, _⟩ | ⟨l, s1, h1, rfl⟩
  · exact ⟨h, List.prefix_rfl⟩
  · obtain ⟨h2, h3⟩ := h.createLabel h1
    refine ⟨⟨h2.nodup, h2.used, ?_, h2.before⟩, ?_⟩
    · intro p x hx
      simp only [AMap.get?_insert] at hx
      split at hx
      · cases hx; exact h3
      · exact h2.parents p x hx
    · simp only [(createLabel_some h1).2.2.2]; exact List.prefix_append _ _

theorem labelsCreated_prefix {a b : List RebaseCommand} (h : a <+: b) {l : Text}
    (hl : l ∈ labelsCreated a) : l ∈ labelsCreated b := by
  obtain ⟨r, rfl⟩ := h
  unfold labelsCreated
  rw [List.filterMap_append]
  exact List.mem_append_left _ hl

theorem LInv.visitChildren {visit : Oid → BuildState → Option BuildState}
    (hv : ∀ c s s', visit c s = some s' → LInv s → LInv s' ∧ s.acc <+: s'.acc)
    {children : List Oid} {s s' : BuildState} (h : LInv s)
    (hc : visitChildren visit children s = some s') : LInv s' ∧ s.acc <+: s'.acc := by
  unfold RebasePlanBuilder.visitChildren at hc
  split at hc
  · cases hc; exact ⟨h, List.prefix_rfl⟩
  · exact hv _ _ _ hc h
  · rename_i cs _ _
    cases hl : RebasePlanBuilder.createLabel s t!"label-" with
    | none => rw [hl] at hc; simp at hc
    | some x =>
      obtain ⟨l, s1⟩ := x
      rw [hl] at hc
      simp only at hc
      obtain ⟨h1, h2⟩ := h.createLabel hl
      have h3 : s.acc <+: s1.acc := by rw [(createLabel_some hl).2.2.2]; exact List.prefix_append _ _
      have := foldlM_option_inv (P := fun _ t => LInv t ∧ s1.acc <+: t.acc) ⟨h1, List.prefix_rfl⟩
        (fun pre a post t t' _ ht hs => by
          unfold visitThenReset at hs
          cases hva : visit a t with
          | none => rw [hva] at hs; simp at hs
          | some t1 =>
            rw [hva] at hs
            simp only [Option.map_some, Option.some.injEq] at hs
            subst hs
            obtain ⟨h4, h5⟩ := hv _ _ _ hva ht.1
            have h6 := ht.2.trans h5
            refine ⟨h4.push (by simp [labelCreated]) ?_, h6.trans (List.prefix_append _ _)⟩
            simp only [List.mem_singleton, forall_eq, labelsUsed, labelOf, List.filterMap_cons,
              List.filterMap_nil]
            exact labelsCreated_prefix h6 h2) hc
      exact ⟨this.1, h3.trans this.2⟩

theorem linv_visit {b : RebasePlanBuilder} {k : Constraints} {up : List Nat} (fuel : Nat)
    (cur : Oid) (s s' : BuildState)
    (h : makeRebasePlanForCurrentCommit b k up fuel cur s = some s') (hi : LInv s) :
    LInv s' ∧ s.acc <+: s'.acc := by
  induction fuel generalizing cur s s' with
  | zero => simp [makeRebasePlanForCurrentCommit] at h
  | succ n ih =>
    rw [makeRebasePlanForCurrentCommit] at h
    cases hc : commandsFor b k up cur s with
    | none => rw [hc] at h; cases h; exact ⟨hi, List.prefix_rfl⟩
    | some cs =>
      rw [hc] at h
      simp only at h
      obtain ⟨h1, h2⟩ := commandsFor_labels hc
      have hp : LInv (push s cs) := hi.push h1 fun c hc l hl => by
        obtain ⟨p, hp⟩ := h2 c hc l hl
        exact hi.parents p l hp
      cases hcp : createParentLabel b cur (sortOids (k.commitsToMoveTo cur)) (push s cs) with
      | none => rw [hcp] at h; simp at h
      | some s1 =>
        rw [hcp] at h
        simp only at h
        obtain ⟨h3, h4⟩ := hp.createParentLabel hcp
        obtain ⟨h5, h6⟩ := h3.visitChildren ih h
        exact ⟨h5, (List.prefix_append _ _).trans (h4.trans h6)⟩

end Verif.Spec
