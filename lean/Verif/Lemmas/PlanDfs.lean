import Verif.Lemmas.PlanLabels

namespace Verif.Spec

open Verif Verif.Constraints Verif.RebasePlanBuilder

/-! ### the recursion ends -/

theorem foldlM_option_isSome {σ α : Type} {f : σ → α → Option σ} {l : List α} (s : σ)
    (h : ∀ a ∈ l, ∀ s, (f s a).isSome) : (l.foldlM f s).isSome := by
  induction l generalizing s with
  | nil => simp
  | cons a l ih =>
    rw [List.foldlM_cons]
    have ha := h a List.mem_cons_self s
    cases hf : f s a with
    | none => rw [hf] at ha; simp at ha
    | some s1 => exact ih s1 fun a ha => h a (List.mem_cons_of_mem _ ha)

theorem visitChildren_isSome {visit : Oid → BuildState → Option BuildState} {children : List Oid}
    (s : BuildState) (h : ∀ c ∈ children, ∀ s, (visit c s).isSome) :
    (visitChildren visit children s).isSome := by
  unfold visitChildren
  split
  · rfl
  · exact h _ (by simp) _
  · have := createLabel_isSome s t!"label-"
    cases hl : createLabel s t!"label-" with
    | none => rw [hl] at this; simp at this
    | some x =>
      refine foldlM_option_isSome _ fun a ha s => ?_
      unfold visitThenReset
      rw [Option.isSome_map]
      exact h a ha s

theorem visit_isSome {b : RebasePlanBuilder} {k : Constraints} {up : List Nat} (hac : Acyclic k)
    (fuel : Nat) (path : List Oid) (cur : Oid) (s : BuildState) (hp : PathTo k path cur)
    (hf : k.parents.length + 2 ≤ fuel + path.length) :
    (makeRebasePlanForCurrentCommit b k up fuel cur s).isSome := by
  induction fuel generalizing path cur s with
  | zero => have := hp.length_le; omega
  | succ n ih =>
    rw [makeRebasePlanForCurrentCommit]
    cases commandsFor b k up cur s with
    | none => rfl
    | some cs =>
      simp only
      have h1 := createParentLabel_isSome b cur (sortOids (k.commitsToMoveTo cur)) (push s cs)
      cases hc : createParentLabel b cur (sortOids (k.commitsToMoveTo cur)) (push s cs) with
      | none => rw [hc] at h1; simp at h1
      | some s1 =>
        refine visitChildren_isSome _ fun c hcc s => ?_
        rw [mem_sortOids, mem_commitsToMoveTo] at hcc
        have hn : cur ∉ path := fun hm => hac _ (hp.cyclic hm)
        refine ih _ _ _ (hp.step hn hcc) ?_
        rw [List.length_append]; simp; omega

/-! ### the commands for one commit -/

theorem mapM_none {α β : Type} {f : α → Option β} {l : List α} (h : l.mapM f = none) :
    ∃ x ∈ l, f x = none := by
  induction l with
  | nil => simp at h
  | cons x xs ih =>
    rw [List.mapM_cons] at h
    cases hx : f x with
    | none => exact ⟨x, by simp, hx⟩
    | some y =>
      rw [hx] at h
      cases hxs : xs.mapM f with
      | none =>
        obtain ⟨z, hz, h⟩ := ih hxs
        exact ⟨z, List.mem_cons_of_mem _ hz, h⟩
      | some ys => rw [hxs] at h; simp at h

theorem mapM_some {α β : Type} {f : α → Option β} {l : List α} {ys : List β}
    (h : l.mapM f = some ys) : (∀ x ∈ l, (f x).isSome) ∧ ys.length = l.length := by
  induction l generalizing ys with
  | nil => simp only [List.mapM_nil, Option.pure_def, Option.some.injEq] at h; subst h; simp
  | cons x xs ih =>
    rw [List.mapM_cons] at h
    simp only [Option.bind_eq_bind, Option.pure_def, Option.bind_eq_some_iff] at h
    obtain ⟨y, hy, ys', hys, h⟩ := h
    cases h
    obtain ⟨h1, h2⟩ := ih hys
    refine ⟨?_, by simp [h2]⟩
    intro z hz
    rcases List.mem_cons.1 hz with rfl | hz
    · rw [hy]; rfl
    · exact h1 z hz

theorem not_patchApplied_of_merge {env : PlanEnv} {up : List Nat} {cur : Oid} (h : IsMerge env cur) :
    patchAlreadyAppliedUpstream env up cur = false := by
  unfold patchAlreadyAppliedUpstream PlanEnv.getPatchId
  unfold IsMerge at h
  simp [h]

theorem commandsFor_none {b : RebasePlanBuilder} {k : Constraints} {up : List Nat} {cur : Oid}
    {s : BuildState} (h : commandsFor b k up cur s = none) :
    IsMerge b.env cur ∧
    ((∃ q ∈ b.env.parentOids cur, q ∈ k.commitsToMove ∧ AMap.get? s.parentLabels q = none) ∨
      commitAlreadyApplied s.acc cur = true) := by
  unfold commandsFor at h
  split at h
  · simp at h
  split at h
  · rename_i hm
    refine ⟨hm, ?_⟩
    cases hc : commitsToMerge b.env k s.parentLabels cur with
    | none =>
      obtain ⟨q, hq, hq'⟩ := mapM_none hc
      refine .inl ⟨q, hq, ?_⟩
      split at hq'
      · rename_i hcq
        refine ⟨List.contains_iff_mem.1 hcq, ?_⟩
        simpa using hq'
      · simp at hq'
    | some ps =>
      rw [hc] at h
      simp only at h
      split at h
      · rename_i ha; exact .inr ha
      · cases ps with
        | nil =>
          have := (mapM_some hc).2
          rw [List.length_nil] at this
          omega
        | cons f r =>
          simp only at h
          split at h <;> simp at h
  split at h
  · simp at h
  split at h <;> simp at h

theorem commandsFor_some {b : RebasePlanBuilder} {k : Constraints} {up : List Nat} {cur : Oid}
    {s : BuildState} {cs : List RebaseCommand} (h : commandsFor b k up cur s = some cs) :
    (handledCommits cs = [cur] ∨ (cs = [] ∧ cur ∈ k.fixupCommits)) ∧
    (∀ c, c ≠ cur → commitAlreadyApplied cs c = false) ∧
    (IsMerge b.env cur → commitAlreadyApplied cs cur = true ∧
      commitAlreadyApplied s.acc cur = false ∧
      ∀ q ∈ b.env.parentOids cur, q ∈ k.commitsToMove → (AMap.get? s.parentLabels q).isSome) := by
  by_cases hm : IsMerge b.env cur
  · have hp := not_patchApplied_of_merge (up := up) hm
    unfold commandsFor at h
    rw [hp] at h
    have hm' : (b.env.parentOids cur).length > 1 := hm
    simp only [Bool.false_eq_true, if_false, hm', if_true] at h
    cases hc : commitsToMerge b.env k s.parentLabels cur with
    | none => rw [hc] at h; simp at h
    | some ps =>
      rw [hc] at h
      simp only at h
      split at h
      · simp at h
      rename_i ha
      have hlab : ∀ q ∈ b.env.parentOids cur, q ∈ k.commitsToMove →
          (AMap.get? s.parentLabels q).isSome := by
        intro q hq hqm
        have := (mapM_some hc).1 q hq
        simp only [List.contains_iff_mem.2 hqm, if_true, Option.isSome_map] at this
        exact this
      cases ps with
      | nil => simp at h
      | cons first rest =>
        simp only at h
        split at h
        all_goals
          cases h
          refine ⟨.inl rfl, ?_, fun _ => ⟨by simp [commitAlreadyApplied], by simpa using ha, hlab⟩⟩
          intro c hc'
          simp [commitAlreadyApplied, hc'.symm]
  · refine ⟨?_, ?_, fun h => absurd h hm⟩
    · unfold commandsFor at h
      have hm' : ¬ (b.env.parentOids cur).length > 1 := hm
      split at h
      · cases h; exact .inl rfl
      split at h
      · rename_i hf; cases h; exact .inr ⟨rfl, List.contains_iff_mem.1 hf⟩
      split at h <;> (cases h; exact .inl rfl)
    · intro c hc
      unfold commandsFor at h
      have hm' : ¬ (b.env.parentOids cur).length > 1 := hm
      split at h
      · cases h; simp [commitAlreadyApplied]
      split at h
      · cases h; simp [commitAlreadyApplied]
      split at h <;> (cases h; simp [commitAlreadyApplied, hc.symm])

theorem commitAlreadyApplied_append (a c : List RebaseCommand) (o : Oid) :
    commitAlreadyApplied (a ++ c) o = (commitAlreadyApplied a o || commitAlreadyApplied c o) := by
  unfold commitAlreadyApplied; rw [List.any_append]

theorem commitAlreadyApplied_neutral {cs : List RebaseCommand} (h : ∀ c ∈ cs, handled c = none)
    (o : Oid) : commitAlreadyApplied cs o = false := by
  unfold commitAlreadyApplied
  rw [List.any_eq_false]
  intro c hc
  have := h c hc
  cases c <;> simp_all [handled]

theorem handledCommits_append (a c : List RebaseCommand) :
    handledCommits (a ++ c) = handledCommits a ++ handledCommits c := by
  unfold handledCommits; rw [List.filterMap_append]

theorem handledCommits_neutral {cs : List RebaseCommand} (h : ∀ c ∈ cs, handled c = none) :
    handledCommits cs = [] := List.filterMap_eq_nil_iff.2 h

/-! ### the traversal -/

/-- A visit of a commit: from a commit it is put on top of (whose new version exists then), or as a
root into which others are squashed. -/
def Legit (k : Constraints) (D : Oid → Prop) (t : Option Oid) (c : Oid) : Prop :=
  match t with
  | some p => Moves k p c ∧ (Rewritten k p → D p)
  | none => c ∈ k.unconstrainedFixupNodes

/-- The rewritten parents of the commit which a command handles are handled before. -/
def ParentsBefore (k : Constraints) (pre : List RebaseCommand) (cmd : RebaseCommand) : Prop :=
  ∀ c, handled cmd = some c → ∀ p, Moves k p c → Rewritten k p → p ∉ k.fixupCommits →
    p ∈ handledCommits pre

theorem parentsBefore_mono (k : Constraints) (pre rest : List RebaseCommand) (x : RebaseCommand)
    (h : ParentsBefore k pre x) : ParentsBefore k (pre ++ rest) x := by
  intro c hc p h1 h2 h3
  rw [handledCommits_append]
  exact List.mem_append_left _ (h c hc p h1 h2 h3)

/-- The invariant of the traversal; `D` are the commits which are done, `W` the visits begun. -/
structure Inv (env : PlanEnv) (k : Constraints) (s : BuildState) (D : Oid → Prop)
    (W : Option Oid → Oid → Prop) : Prop where
  legit : ∀ t c, W t c → Legit k D t c
  started : ∀ c, D c → ∃ t, W t c
  waiting : ∀ t c, W t c → D c ∨
    IsMerge env c ∧ ∃ q ∈ env.parentOids c, Rewritten k q ∧ ¬ W (some q) c
  applied : ∀ c, IsMerge env c → (commitAlreadyApplied s.acc c = true ↔ D c)
  labelled : ∀ p c, D p → Moves k p c → IsMerge env c → (AMap.get? s.parentLabels p).isSome
  labelDone : ∀ p, (AMap.get? s.parentLabels p).isSome → D p
  count0 : ∀ c, ¬ D c → c ∉ handledCommits s.acc
  count1 : ∀ c, D c → c ∉ k.fixupCommits → c ∈ handledCommits s.acc
  nodup : (handledCommits s.acc).Nodup
  order : Before (ParentsBefore k) s.acc

theorem Inv.init (env : PlanEnv) (k : Constraints) :
    Inv env k ⟨[], [], []⟩ (fun _ => False) (fun _ _ => False) := by
  refine ⟨by simp, by simp, by simp, ?_, by simp, by simp, ?_, by simp, ?_, before_nil _⟩
  · simp [commitAlreadyApplied]
  · simp [handledCommits]
  · simp [handledCommits]

theorem Inv.push_neutral {env : PlanEnv} {k : Constraints} {s s' : BuildState} {D : Oid → Prop}
    {W : Option Oid → Oid → Prop} (h : Inv env k s D W) {cs : List RebaseCommand}
    (hcs : ∀ c ∈ cs, handled c = none) (h1 : s'.acc = s.acc ++ cs)
    (h2 : s'.parentLabels = s.parentLabels) : Inv env k s' D W := by
  have e1 : handledCommits s'.acc = handledCommits s.acc := by
    rw [h1, handledCommits_append, handledCommits_neutral hcs, List.append_nil]
  have e2 : ∀ c, commitAlreadyApplied s'.acc c = commitAlreadyApplied s.acc c := by
    intro c
    rw [h1, commitAlreadyApplied_append, commitAlreadyApplied_neutral hcs, Bool.or_false]
  refine ⟨h.legit, h.started, h.waiting, ?_, ?_, ?_, ?_, ?_, ?_, ?_⟩
  · intro c hc; rw [e2]; exact h.applied c hc
  · rw [h2]; exact h.labelled
  · rw [h2]; exact h.labelDone
  · rw [e1]; exact h.count0
  · rw [e1]; exact h.count1
  · rw [e1]; exact h.nodup
  · rw [h1]
    refine before_append (parentsBefore_mono k) h.order ?_
    intro x hx c hc
    rw [hcs x hx] at hc; simp at hc

theorem Inv.createLabel {env : PlanEnv} {k : Constraints} {s s' : BuildState} {D : Oid → Prop}
    {W : Option Oid → Oid → Prop} (h : Inv env k s D W) {stem l : Text}
    (hc : createLabel s stem = some (l, s')) : Inv env k s' D W := by
  obtain ⟨_, _, h2, h3⟩ := createLabel_some hc
  exact h.push_neutral (cs := [.createLabel l]) (by simp [handled]) h3 h2

theorem mem_fixups {k : Constraints} {c : Oid} :
    c ∈ k.commitsToFixup ↔ ∃ fs, AMap.get? k.fixups c = some fs := by
  unfold commitsToFixup
  rw [AMap.mem_keys_iff, Option.isSome_iff_exists]

theorem mem_unconstrainedFixup {k : Constraints} (hw : KWF k) {c : Oid} :
    c ∈ k.unconstrainedFixupNodes ↔
      (∃ fs, AMap.get? k.fixups c = some fs) ∧ ¬ ∃ p, Moves k p c := by
  unfold unconstrainedFixupNodes
  rw [mem_diff, mem_fixups, mem_commitsToMove hw.1.1]

theorem Legit.rewritten {k : Constraints} (hw : KWF k) {D : Oid → Prop} {t : Option Oid} {c : Oid}
    (h : Legit k D t c) : Rewritten k c := by
  cases t with
  | some p => exact .inl ⟨p, h.1⟩
  | none => exact .inr ((mem_unconstrainedFixup hw).1 h).1

theorem Legit.mono {k : Constraints} {D D' : Oid → Prop} (hD : ∀ x, D x → D' x) {t : Option Oid}
    {c : Oid} (h : Legit k D t c) : Legit k D' t c := by
  cases t with
  | some p => exact ⟨h.1, fun hr => hD _ (h.2 hr)⟩
  | none => exact h

/-- A commit which is no merge is visited in one way only. -/
theorem Legit.unique {env : PlanEnv} {k : Constraints} (hw : KWF k) (hr : Regular env k)
    {D : Oid → Prop} {t t' : Option Oid} {c : Oid} (hm : ¬ IsMerge env c) (h : Legit k D t c)
    (h' : Legit k D t' c) : t = t' := by
  cases t with
  | some p =>
    cases t' with
    | some q => rw [hr.one_parent c p q hm h.1 h'.1]
    | none => exact absurd ⟨p, h.1⟩ ((mem_unconstrainedFixup hw).1 h').2
  | none =>
    cases t' with
    | some q => exact absurd ⟨q, h'.1⟩ ((mem_unconstrainedFixup hw).1 h).2
    | none => rfl

theorem Inv.done_rewritten {env : PlanEnv} {k : Constraints} (hw : KWF k) {s : BuildState}
    {D : Oid → Prop} {W : Option Oid → Oid → Prop} (h : Inv env k s D W) {c : Oid} (hc : D c) :
    Rewritten k c := by
  obtain ⟨t, ht⟩ := h.started c hc
  exact (h.legit t c ht).rewritten hw

/-- A visit which does nothing: the commit has to wait, or is done. -/
theorem Inv.wait {b : RebasePlanBuilder} {k : Constraints} (hw : KWF k)
    (hr : Regular b.env k) {up : List Nat} {s : BuildState} {D : Oid → Prop}
    {W : Option Oid → Oid → Prop} (h : Inv b.env k s D W) {t : Option Oid} {cur : Oid}
    (hl : Legit k D t cur) (hc : commandsFor b k up cur s = none) :
    Inv b.env k s D (fun u x => W u x ∨ u = t ∧ x = cur) := by
  obtain ⟨hm, hc⟩ := commandsFor_none hc
  have hrw := hl.rewritten hw
  refine ⟨?_, ?_, ?_, h.applied, h.labelled, h.labelDone, h.count0, h.count1, h.nodup, h.order⟩
  · rintro u x (hu | ⟨rfl, rfl⟩)
    · exact h.legit u x hu
    · exact hl
  · intro c hc'
    obtain ⟨u, hu⟩ := h.started c hc'
    exact ⟨u, .inl hu⟩
  · -- what keeps the current commit waiting
    have hcur : D cur ∨ IsMerge b.env cur ∧ ∃ q ∈ b.env.parentOids cur, Rewritten k q ∧
        ¬ (W (some q) cur ∨ some q = t ∧ cur = cur) := by
      rcases hc with ⟨q, hq, hqm, hql⟩ | hc
      · rw [mem_commitsToMove hw.1.1] at hqm
        have hqr : Rewritten k q := .inl hqm
        have hmv := (hr.merge_on cur q hm hrw hq hqr).1
        have hnd : ¬ D q := by
          intro hd
          have := h.labelled q cur hd hmv hm
          rw [hql] at this; simp at this
        refine .inr ⟨hm, q, hq, hqr, ?_⟩
        rintro (hW | ⟨rfl, _⟩)
        · exact hnd ((h.legit _ _ hW).2 hqr)
        · exact hnd (hl.2 hqr)
      · exact .inl ((h.applied cur hm).1 hc)
    rintro u x hu
    by_cases hx : x = cur
    · subst hx; exact hcur
    · rcases hu with hu | ⟨_, rfl⟩
      · rcases h.waiting u x hu with hd | ⟨h1, q, h2, h3, h4⟩
        · exact .inl hd
        · refine .inr ⟨h1, q, h2, h3, ?_⟩
          rintro (h5 | ⟨_, h5⟩)
          · exact h4 h5
          · exact hx h5
      · exact absurd rfl hx

/-- A visit which makes the commands of a commit. -/
theorem Inv.step {b : RebasePlanBuilder} {k : Constraints} (hw : KWF k)
    (hr : Regular b.env k) {up : List Nat} {s s1 : BuildState} {D : Oid → Prop}
    {W : Option Oid → Oid → Prop} (h : Inv b.env k s D W) {t : Option Oid} {cur : Oid}
    (hl : Legit k D t cur) (hn : ¬ W t cur) {cs : List RebaseCommand}
    (hc : commandsFor b k up cur s = some cs)
    (h1 : createParentLabel b cur (sortOids (k.commitsToMoveTo cur)) (push s cs) = some s1) :
    ¬ D cur ∧ Inv b.env k s1 (fun x => D x ∨ x = cur) (fun u x => W u x ∨ u = t ∧ x = cur) := by
  have hrw := hl.rewritten hw
  obtain ⟨c1, c2, c3⟩ := commandsFor_some hc
  have hnd : ¬ D cur := by
    intro hd
    by_cases hm : IsMerge b.env cur
    · have := (h.applied cur hm).2 hd
      rw [(c3 hm).2.1] at this; simp at this
    · obtain ⟨u, hu⟩ := h.started cur hd
      have := Legit.unique hw hr hm hl (h.legit u cur hu)
      exact hn (this ▸ hu)
  refine ⟨hnd, ?_⟩
  -- all rewritten parents are done
  have hpar : ∀ p, Moves k p cur → Rewritten k p → D p := by
    intro p hp hpr
    by_cases hm : IsMerge b.env cur
    · have hp' := hr.merge_from cur p hm hp hpr
      obtain ⟨_, hq⟩ := hr.merge_on cur p hm hrw hp' hpr
      exact h.labelDone p ((c3 hm).2.2 p hp' ((mem_commitsToMove hw.1.1).2 hq))
    · cases t with
      | some q =>
        have := hr.one_parent cur p q hm hp hl.1
        subst this
        exact hl.2 hpr
      | none => exact absurd ⟨p, hp⟩ ((mem_unconstrainedFixup hw).1 hl).2
  have eacc : ∃ rest, s1.acc = s.acc ++ cs ++ rest ∧ (∀ c ∈ rest, handled c = none) ∧
      (∀ p, p ≠ cur → AMap.get? s1.parentLabels p = AMap.get? s.parentLabels p) ∧
      ((AMap.get? s1.parentLabels cur).isSome ∨
        (AMap.get? s1.parentLabels cur = AMap.get? s.parentLabels cur ∧
          ∀ c, Moves k cur c → ¬ IsMerge b.env c)) := by
    rcases createParentLabel_some h1 with ⟨rfl, hno⟩ | ⟨l, s2, h2, rfl⟩
    · refine ⟨[], by simp [push], by simp, fun p _ => rfl, .inr ⟨rfl, fun c hc hm => hno ⟨c, ?_, .inl hm⟩⟩⟩
      rw [mem_sortOids, mem_commitsToMoveTo]; exact hc
    · obtain ⟨_, _, h4, h5⟩ := createLabel_some h2
      refine ⟨[.createLabel l], by simp [h5, push], by simp [handled], fun p hp => ?_, .inl ?_⟩
      · simp only [AMap.get?_insert, h4, push]
        simp [hp.symm]
      · simp
  obtain ⟨rest, e1, e2, e3, e4⟩ := eacc
  have eh : handledCommits s1.acc = handledCommits s.acc ++ handledCommits cs := by
    rw [e1, handledCommits_append, handledCommits_append, handledCommits_neutral e2, List.append_nil]
  have ea : ∀ c, commitAlreadyApplied s1.acc c =
      (commitAlreadyApplied s.acc c || commitAlreadyApplied cs c) := by
    intro c
    rw [e1, commitAlreadyApplied_append, commitAlreadyApplied_append,
      commitAlreadyApplied_neutral e2, Bool.or_false]
  have hin : ∀ c ∈ handledCommits cs, c = cur := by
    intro c hc'
    rcases c1 with h | ⟨h, _⟩
    · rw [h] at hc'; simpa using hc'
    · rw [h] at hc'; simp [handledCommits] at hc'
  refine ⟨?_, ?_, ?_, ?_, ?_, ?_, ?_, ?_, ?_, ?_⟩
  · rintro u x (hu | ⟨rfl, rfl⟩)
    · exact (h.legit u x hu).mono fun _ => .inl
    · exact hl.mono fun _ => .inl
  · rintro c (hd | rfl)
    · obtain ⟨u, hu⟩ := h.started c hd
      exact ⟨u, .inl hu⟩
    · exact ⟨t, .inr ⟨rfl, rfl⟩⟩
  · rintro u x (hu | ⟨rfl, rfl⟩)
    · by_cases hx : x = cur
      · exact .inl (.inr hx)
      · rcases h.waiting u x hu with hd | ⟨w1, q, w2, w3, w4⟩
        · exact .inl (.inl hd)
        · refine .inr ⟨w1, q, w2, w3, ?_⟩
          rintro (w5 | ⟨_, w5⟩)
          · exact w4 w5
          · exact hx w5
    · exact .inl (.inr rfl)
  · intro c hm
    rw [ea, Bool.or_eq_true, h.applied c hm]
    by_cases hcc : c = cur
    · subst hcc
      simp [(c3 hm).1]
    · simp [c2 c hcc, hcc]
  · rintro p c hd hpc hm
    by_cases hp : p = cur
    · subst hp
      rcases e4 with h | ⟨_, h⟩
      · exact h
      · exact absurd hm (h c hpc)
    · rw [e3 p hp]
      exact h.labelled p c (hd.resolve_right hp) hpc hm
  · intro p hp
    by_cases hpc : p = cur
    · exact .inr hpc
    · rw [e3 p hpc] at hp
      exact .inl (h.labelDone p hp)
  · intro c hc' hmem
    rw [eh] at hmem
    rcases List.mem_append.1 hmem with hmem | hmem
    · exact h.count0 c (fun hd => hc' (.inl hd)) hmem
    · exact hc' (.inr (hin c hmem))
  · rintro c hd hf
    rw [eh]
    rcases hd with hd | rfl
    · exact List.mem_append_left _ (h.count1 c hd hf)
    · rcases c1 with h | ⟨_, h⟩
      · rw [h]; simp
      · exact absurd h hf
  · rw [eh, List.nodup_append]
    refine ⟨h.nodup, ?_, ?_⟩
    · rcases c1 with h | ⟨h, _⟩
      · rw [h]; simp
      · rw [h]; simp [handledCommits]
    · intro x hx y hy hxy
      have := hin y hy
      subst hxy this
      exact h.count0 _ hnd hx
  · rw [e1]
    refine before_append (parentsBefore_mono k) (before_append (parentsBefore_mono k) h.order ?_) ?_
    · intro x hx c hxc p hp hpr hpf
      have : c = cur := hin c (List.mem_filterMap.2 ⟨x, hx, hxc⟩)
      subst this
      exact h.count1 p (hpar p hp hpr) hpf
    · intro x hx c hxc
      rw [e2 x hx] at hxc; simp at hxc

/-- What a piece of the traversal achieves, besides visiting `extra`. -/
structure Grown (k : Constraints) (D : Oid → Prop) (W : Option Oid → Oid → Prop) (D' : Oid → Prop)
    (W' : Option Oid → Oid → Prop) (extra : Option Oid → Oid → Prop) : Prop where
  done : ∀ x, D x → D' x
  visits : ∀ u x, W u x → W' u x
  reached : ∀ u x, extra u x → W' u x
  closed : ∀ x, D' x → ¬ D x → ∀ y, Moves k x y → W' (some x) y
  new : ∀ u y, W' u y → W u y ∨ extra u y ∨ ∃ x, u = some x ∧ ¬ D x ∧ D' x

/-- The specification of a visit. -/
def VisitSpec (env : PlanEnv) (k : Constraints) (visit : Oid → BuildState → Option BuildState) : Prop :=
  ∀ (D : Oid → Prop) (W : Option Oid → Oid → Prop) (t : Option Oid) (cur : Oid) (s s' : BuildState),
    visit cur s = some s' → Inv env k s D W → Legit k D t cur → ¬ W t cur →
    ∃ D' W', Inv env k s' D' W' ∧ Grown k D W D' W' (fun u x => u = t ∧ x = cur)

theorem Grown.refl (k : Constraints) (D : Oid → Prop) (W : Option Oid → Oid → Prop) :
    Grown k D W D W (fun _ _ => False) :=
  ⟨fun _ h => h, fun _ _ h => h, fun _ _ h => h.elim, fun _ h h' => absurd h h', fun _ _ h => .inl h⟩

theorem Grown.trans {k : Constraints} {D D' D'' : Oid → Prop} {W W' W'' : Option Oid → Oid → Prop}
    {e e' e'' : Option Oid → Oid → Prop} (h : Grown k D W D' W' e) (h' : Grown k D' W' D'' W'' e')
    (he : ∀ u x, e'' u x ↔ e u x ∨ e' u x) : Grown k D W D'' W'' e'' := by
  haveI := Classical.propDecidable
  refine ⟨fun x hx => h'.done x (h.done x hx), fun u x hx => h'.visits u x (h.visits u x hx), ?_, ?_, ?_⟩
  · intro u x hx
    rcases (he u x).1 hx with hx | hx
    · exact h'.visits _ _ (h.reached u x hx)
    · exact h'.reached u x hx
  · intro x hx hnx y hy
    by_cases hd : D' x
    · exact h'.visits _ _ (h.closed x hd hnx y hy)
    · exact h'.closed x hx hd y hy
  · intro u y hu
    rcases h'.new u y hu with h1 | h1 | ⟨x, rfl, h2, h3⟩
    · rcases h.new u y h1 with h4 | h4 | ⟨x, rfl, h5, h6⟩
      · exact .inl h4
      · exact .inr (.inl ((he u y).2 (.inl h4)))
      · exact .inr (.inr ⟨x, rfl, h5, h'.done x h6⟩)
    · exact .inr (.inl ((he u y).2 (.inr h1)))
    · exact .inr (.inr ⟨x, rfl, fun hd => h2 (h.done x hd), h3⟩)

theorem visitChildren_spec {env : PlanEnv} {k : Constraints}
    {visit : Oid → BuildState → Option BuildState} (hv : VisitSpec env k visit) {cur : Oid}
    {children : List Oid} (hnd : children.Nodup) (hm : ∀ c ∈ children, Moves k cur c)
    {D : Oid → Prop} {W : Option Oid → Oid → Prop} {s s' : BuildState} (hi : Inv env k s D W)
    (hd : D cur) (hn : ∀ c ∈ children, ¬ W (some cur) c)
    (h : visitChildren visit children s = some s') :
    ∃ D' W', Inv env k s' D' W' ∧ Grown k D W D' W' (fun u x => u = some cur ∧ x ∈ children) := by
  have leg : ∀ (D' : Oid → Prop), D' cur → ∀ c ∈ children, Legit k D' (some cur) c :=
    fun D' hd' c hc => ⟨hm c hc, fun _ => hd'⟩
  unfold visitChildren at h
  split at h
  · cases h
    refine ⟨D, W, hi, ?_⟩
    have := Grown.refl k D W
    exact ⟨this.done, this.visits, fun u x h => by simp at h, this.closed, fun u y h => .inl h⟩
  · rename_i c
    obtain ⟨D', W', h1, h2⟩ := hv D W (some cur) c s s' h hi (leg D hd c (by simp)) (hn c (by simp))
    exact ⟨D', W', h1, by simpa using h2⟩
  · cases hl : createLabel s t!"label-" with
    | none => rw [hl] at h; simp at h
    | some x =>
      obtain ⟨l, s1⟩ := x
      rw [hl] at h
      simp only at h
      have hi1 := hi.createLabel hl
      refine foldlM_option_inv (P := fun pre t => ∃ D' W', Inv env k t D' W' ∧
        Grown k D W D' W' (fun u x => u = some cur ∧ x ∈ pre)) ⟨D, W, hi1, ?_⟩ ?_ h
      · have := Grown.refl k D W
        exact ⟨this.done, this.visits, fun u x h => by simp at h, this.closed, fun u y h => .inl h⟩
      · rintro pre a post t t' hsplit ⟨D', W', h1, h2⟩ hs
        unfold visitThenReset at hs
        cases hva : visit a t with
        | none => rw [hva] at hs; simp at hs
        | some t1 =>
          rw [hva] at hs
          simp only [Option.map_some, Option.some.injEq] at hs
          subst hs
          have ha : a ∈ children := by rw [hsplit]; simp
          have hna : ¬ W' (some cur) a := by
            intro hw
            rcases h2.new _ _ hw with h3 | ⟨_, h3⟩ | ⟨x, h3, h4, _⟩
            · exact hn a ha h3
            · rw [hsplit, List.nodup_append] at hnd
              exact hnd.2.2 a h3 a (by simp) rfl
            · cases h3; exact h4 hd
          obtain ⟨D'', W'', h5, h6⟩ :=
            hv D' W' (some cur) a t t1 hva h1 (leg D' (h2.done _ hd) a ha) hna
          refine ⟨D'', W'', h5.push_neutral (cs := [.reset (.label l)]) (by simp [handled]) rfl rfl,
            h2.trans h6 ?_⟩
          intro u x
          simp only [List.mem_append, List.mem_singleton]
          tauto

theorem visit_spec {b : RebasePlanBuilder} {k : Constraints} (hw : KWF k) (hr : Regular b.env k)
    (up : List Nat) (fuel : Nat) :
    VisitSpec b.env k (makeRebasePlanForCurrentCommit b k up fuel) := by
  induction fuel with
  | zero => intro D W t cur s s' h; simp [makeRebasePlanForCurrentCommit] at h
  | succ n ih =>
    intro D W t cur s s' h hi hl hn
    rw [makeRebasePlanForCurrentCommit] at h
    cases hc : commandsFor b k up cur s with
    | none =>
      rw [hc] at h
      cases h
      refine ⟨D, _, hi.wait hw hr hl hc, ⟨fun _ h => h, fun _ _ => .inl, fun _ _ => .inr,
        fun _ h h' => absurd h h', ?_⟩⟩
      rintro u y (h | h)
      · exact .inl h
      · exact .inr (.inl h)
    | some cs =>
      rw [hc] at h
      simp only at h
      cases hp : createParentLabel b cur (sortOids (k.commitsToMoveTo cur)) (push s cs) with
      | none => rw [hp] at h; simp at h
      | some s1 =>
        rw [hp] at h
        simp only at h
        obtain ⟨hnd, hi1⟩ := hi.step hw hr hl hn hc hp
        have hrw := hl.rewritten hw
        have hnd' : (sortOids (k.commitsToMoveTo cur)).Nodup := by
          rw [(sortOids_perm _).nodup_iff]
          unfold commitsToMoveTo
          cases hg : AMap.get? k.inner cur with
          | none => simp
          | some l => exact hw.1.2 _ _ hg
        obtain ⟨D', W', h1, h2⟩ := visitChildren_spec ih hnd'
          (fun c hc => by rwa [mem_sortOids, mem_commitsToMoveTo] at hc) hi1 (.inr rfl)
          (by
            rintro c _ (hW | ⟨rfl, rfl⟩)
            · exact hnd ((hi.legit _ _ hW).2 hrw)
            · exact hnd (hl.2 hrw)) h
        refine ⟨D', W', h1, ?_, ?_, ?_, ?_, ?_⟩
        · exact fun x hx => h2.done x (.inl hx)
        · exact fun u x hx => h2.visits u x (.inl hx)
        · exact fun u x hx => h2.visits u x (.inr hx)
        · intro x hx hnx y hy
          by_cases hxc : x = cur
          · subst hxc
            exact h2.reached _ _ ⟨rfl, by rw [mem_sortOids, mem_commitsToMoveTo]; exact hy⟩
          · exact h2.closed x hx (by rintro (h | h); exacts [hnx h, hxc h]) y hy
        · intro u y hu
          rcases h2.new u y hu with (h3 | h3) | ⟨rfl, _⟩ | ⟨x, rfl, h4, h5⟩
          · exact .inl h3
          · exact .inr (.inl h3)
          · exact .inr (.inr ⟨cur, rfl, hnd, h2.done _ (.inr rfl)⟩)
          · exact .inr (.inr ⟨x, rfl, fun h => h4 (.inl h), h5⟩)

end Verif.Spec
