import Verif.Lemmas.OnDisk

/-! The plans which are built can be given to git. -/

namespace Verif.Spec

open Verif Verif.Constraints Verif.RebasePlanBuilder Verif.SeqEnv Verif.Props

theorem Blocks.append {a b : List RebaseCommand} (ha : Blocks a) (hb : Blocks b) : Blocks (a ++ b) := by
  induction ha with
  | nil => exact hb
  | label l cs _ ih => exact .label l _ ih
  | reset t cs _ ih => exact .reset t _ ih
  | skip c cs _ ih => exact .skip c _ ih
  | register cs _ ih => exact .register _ ih
  | pick c cs _ ih => exact .pick c _ ih

/-- What holds of the commands at every time of the construction. -/
theorem acc_visitChildren {P : List RebaseCommand → Prop}
    (hl : ∀ acc l, P acc → P (acc ++ [.createLabel l]))
    (hr : ∀ acc l, P acc → P (acc ++ [.reset (.label l)]))
    {visit : Oid → BuildState → Option BuildState}
    (hv : ∀ c s s', visit c s = some s' → P s.acc → P s'.acc)
    {children : List Oid} {s s' : BuildState} (h : P s.acc)
    (hc : visitChildren visit children s = some s') : P s'.acc := by
  unfold RebasePlanBuilder.visitChildren at hc
  split at hc
  · cases hc; exact h
  · exact hv _ _ _ hc h
  · rename_i cs _ _
    cases hcl : RebasePlanBuilder.createLabel s t!"label-" with
    | none => rw [hcl] at hc; simp at hc
    | some x =>
      obtain ⟨l, s1⟩ := x
      rw [hcl] at hc
      simp only at hc
      have h1 : P s1.acc := by rw [(createLabel_some hcl).2.2.2]; exact hl _ _ h
      refine foldlM_option_inv (P := fun _ t => P t.acc) h1 (fun pre a post t t' _ ht hs => ?_) hc
      unfold visitThenReset at hs
      cases hva : visit a t with
      | none => rw [hva] at hs; simp at hs
      | some t1 =>
        rw [hva] at hs
        simp only [Option.map_some, Option.some.injEq] at hs
        subst hs
        exact hr _ _ (hv _ _ _ hva ht)

theorem acc_visit {b : RebasePlanBuilder} {k : Constraints} {up : List Nat} {P : List RebaseCommand → Prop}
    (hcs : ∀ cur s cs, commandsFor b k up cur s = some cs → P s.acc → P (s.acc ++ cs))
    (hl : ∀ acc l, P acc → P (acc ++ [.createLabel l]))
    (hr : ∀ acc l, P acc → P (acc ++ [.reset (.label l)]))
    (fuel : Nat) (cur : Oid) (s s' : BuildState)
    (h : makeRebasePlanForCurrentCommit b k up fuel cur s = some s') (hi : P s.acc) : P s'.acc := by
  induction fuel generalizing cur s s' with
  | zero => simp [makeRebasePlanForCurrentCommit] at h
  | succ n ih =>
    rw [makeRebasePlanForCurrentCommit] at h
    cases hc : commandsFor b k up cur s with
    | none => rw [hc] at h; cases h; exact hi
    | some cs =>
      rw [hc] at h
      simp only at h
      have hp : P (push s cs).acc := hcs _ _ _ hc hi
      cases hcp : createParentLabel b cur (sortOids (k.commitsToMoveTo cur)) (push s cs) with
      | none => rw [hcp] at h; simp at h
      | some s1 =>
        rw [hcp] at h
        simp only at h
        refine acc_visitChildren hl hr ih ?_ h
        rcases createParentLabel_some hcp with ⟨rfl, _⟩ | ⟨l, s2, h1, rfl⟩
        · exact hp
        · simp only
          rw [(createLabel_some h1).2.2.2]
          exact hl _ _ hp

theorem acc_roots {b : RebasePlanBuilder} {k : Constraints} {P : List RebaseCommand → Prop}
    (hcs : ∀ up cur s cs, commandsFor b k up cur s = some cs → P s.acc → P (s.acc ++ cs))
    (hl : ∀ acc l, P acc → P (acc ++ [.createLabel l]))
    (hr : ∀ acc t, P acc → P (acc ++ [.reset t])) (h0 : P [])
    {st : Option Oid × BuildState} (h : k.findRoots.foldlM (buildRoot b k) (none, ⟨[], [], []⟩) = .ok st) :
    P st.2.acc := by
  refine foldlM_except_inv (P := fun _ st => P st.2.acc) h0 ?_ h
  intro pre r post st st' _ hs hbr
  obtain ⟨p, ps, c, up, _, _, h2, _⟩ := buildRoot_ok hbr
  exact acc_visit (hcs up) hl (fun acc l => hr acc _) _ _ _ _ h2 (hr _ _ hs)

/-- Without squashed and replaced commits and without merges, the commands come in blocks. -/
theorem plan_blocks {b : RebasePlanBuilder} {k : Constraints} (hf : k.fixups = []) (hrep : b.replacementCommits = [])
    {st : Option Oid × BuildState} (h : k.findRoots.foldlM (buildRoot b k) (none, ⟨[], [], []⟩) = .ok st)
    (hm : ∀ c ps, .merge c ps ∉ st.2.acc) : Blocks st.2.acc := by
  refine acc_roots (P := fun acc => (∀ c ps, .merge c ps ∉ acc) → Blocks acc) ?_ ?_ ?_ ?_ h hm
  · intro up cur s cs hcs hi hno
    refine (hi fun c ps hmem => hno c ps (List.mem_append_left _ hmem)).append ?_
    rcases commandsFor_cases hcs with ⟨rfl, _⟩ | ⟨rfl, _⟩ | ⟨_, rfl⟩ | ⟨r, h1, _⟩ | ⟨r, _, _, h1, _⟩ |
      ⟨first, rest, rfl⟩
    · exact .skip _ _ .nil
    · exact .nil
    · have : commitsToApply b.env k cur = [cur] := by
        unfold commitsToApply
        rw [hf]
        rfl
      rw [this]
      exact .pick _ _ .nil
    · rw [hrep] at h1; simp at h1
    · rw [hrep] at h1; simp at h1
    · exact absurd (List.mem_append_right _ (by simp)) (hno cur rest)
  · intro acc l hi hno
    exact (hi fun c ps hmem => hno c ps (List.mem_append_left _ hmem)).append (.label _ _ .nil)
  · intro acc l hi hno
    exact (hi fun c ps hmem => hno c ps (List.mem_append_left _ hmem)).append (.reset _ _ .nil)
  · intro _
    exact .nil

theorem plan_start {b : RebasePlanBuilder} {k : Constraints}
    {st : Option Oid × BuildState} (h : k.findRoots.foldlM (buildRoot b k) (none, ⟨[], [], []⟩) = .ok st) :
    ∀ d, st.1 = some d → st.2.acc.head? = some (.reset (.oid d)) := by
  have := foldlM_except_inv (P := fun _ st => LInv st.2 ∧ (st.1 = none → st.2.acc = []) ∧
    ∀ d, st.1 = some d → st.2.acc.head? = some (.reset (.oid d))) ⟨linv_nil, by simp, by simp⟩ ?_ h
  · exact this.2.2
  rintro pre r post st st' _ ⟨hi, hn, hs⟩ hr
  obtain ⟨p, ps, c, up, h1, -, h2, h3⟩ := buildRoot_ok hr
  have hi2 : LInv (push st.2 [.reset (.oid p)]) :=
    hi.push (by simp [labelCreated]) (by simp [labelsUsed, labelOf])
  obtain ⟨hi3, ⟨more, hmore⟩⟩ := linv_visit _ _ _ _ h2 hi2
  refine ⟨hi3, by rw [h3]; simp, fun d hd => ?_⟩
  rw [← hmore]
  unfold push
  simp only
  cases hst : st.1 with
  | none =>
    rw [hst] at h3
    rw [h3] at hd
    simp only [Option.getD_none, Option.some.injEq] at hd
    subst hd
    rw [hn hst]
    rfl
  | some e =>
    rw [hst] at h3
    rw [h3] at hd
    simp only [Option.getD_some, Option.some.injEq] at hd
    subst hd
    have := hs e hst
    cases hacc : st.2.acc with
    | nil => rw [hacc] at this; simp at this
    | cons x xs => rw [hacc] at this; simpa using this

/-- The plans which are built without squashed or replaced commits, and which can be executed in memory. -/
theorem diskReady_of_build {b : RebasePlanBuilder} {k : Constraints} (hk : b.constraintGraph = .ok k)
    (hf : k.fixups = []) (hreg : Regular b.env k) (hrep : b.replacementCommits = []) {plan : RebasePlan}
    (h : b.build = .ok (.ok (some plan))) {ee : ExecEnv}
    (hex : ∀ cmd ∈ plan.commands, ∀ o ∈ mentions cmd, ∃ d, ee.commits o = some d)
    (hm : ∀ c ps, .merge c ps ∉ plan.commands) : DiskReady ee plan := by
  have hone := plan_each_once_partial b k hk hreg plan h
  have hrr := fun p => resets_ready hk hf h [(p, .zero)]
  obtain ⟨k', st, h1, h2, h3, h4, h5, h6⟩ := build_ok h
  rw [hk] at h1
  cases h1
  have hns : ∀ c, ¬ Squashed k c := by intro c; unfold Squashed; rw [hf]; simp
  have hstart := plan_start h4 _ h5
  have hsub : ∀ x, x ∈ st.2.acc → x ∈ plan.commands := fun x hx => by rw [h6]; exact List.mem_append_left _ hx
  refine ⟨?_, ?_, hone.once, ?_, ?_, ?_, ?_, ?_⟩
  · rw [h6]
    cases hacc : st.2.acc with
    | nil => rw [hacc] at hstart; simp at hstart
    | cons x xs => rw [hacc] at hstart; simpa using hstart
  · rw [h6]
    exact (plan_blocks hf hrep h4 fun c ps hmem => hm c ps (hsub _ hmem)).append (.register _ .nil)
  · have hne : k.findRoots ≠ [] := by
      intro hnil
      rw [hnil] at h4
      cases h4
      simp at h5
    obtain ⟨r, rs, hrs⟩ := List.exists_cons_of_ne_nil hne
    have hmem : r ∈ k.findRoots := by rw [hrs]; simp
    rcases mem_findRoots hmem with ⟨q, d, rfl, _, hmv⟩ | ⟨t, rfl, ht⟩
    · intro hnil
      have := hone.complete d (.inl ⟨q, hmv⟩) (hns d)
      rw [hnil] at this
      simp at this
    · have : k.commitsToFixup = [] := by unfold commitsToFixup; rw [hf]; rfl
      unfold unconstrainedFixupNodes at ht
      rw [this, mem_diff] at ht
      simp at ht
  · intro p hp hh
    obtain ⟨pre, post, hs⟩ := List.append_of_mem hp
    have := (hrr p pre p post hs).2 (hone.only p hh)
    exact this.2 (by simp [AMap.get?_cons])
  · intro c hc
    unfold handledCommits at hc
    obtain ⟨cmd, hcmd, hh⟩ := List.mem_filterMap.1 hc
    have : c ∈ mentions cmd := by
      cases cmd <;> simp only [handled, Option.some.injEq, reduceCtorEq] at hh <;> subst hh <;> simp [mentions]
    obtain ⟨d, hd⟩ := hex cmd hcmd c this
    rw [hd]; rfl
  · intro p hp
    obtain ⟨d, hd⟩ := hex _ hp p (by simp [mentions])
    rw [hd]; rfl
  · rw [h6]; simp

end Verif.Spec
