import Verif.Spec.Github
import Verif.Lemmas.Submit
import Verif.Lemmas.Hide
import Verif.Lemmas.Revset

/-! Lemmas about pull requests: what they should say. -/

namespace Verif.Spec

open Verif

/-- The name of the upstream branch is the one of the branch. -/
theorem upstreamName_some {env : ForgeEnv} {w : ForgeWorld} (hu : UsualForge env w) {b x : Text} :
    w.repo.upstreamName b = some x ↔ x = b ∧ TracksSame w b := by
  have hpush : ∀ r, w.repo.remote.get? b = some r → w.repo.merge.get? b ≠ none →
      w.repo.pushRemoteName b = some w.github := by
    intro r hr hm
    obtain ⟨m, hm⟩ := Option.ne_none_iff_exists'.1 hm
    unfold SubmitWorld.pushRemoteName
    cases hp : w.repo.pushRemote b with
    | some q => rw [hu.push b q hp]
    | none => simp only; rw [hr, (hu.upstream b r m hr hm).1]
  constructor
  · intro h
    unfold SubmitWorld.upstreamName at h
    cases hp : w.repo.pushRemoteName b with
    | none => rw [hp] at h; cases h
    | some p =>
      rw [hp] at h
      simp only at h
      cases hr : w.repo.remote.get? b with
      | none => rw [hr] at h; cases h
      | some r =>
        cases hm : w.repo.merge.get? b with
        | none => rw [hr, hm] at h; cases h
        | some m =>
          obtain ⟨rfl, rfl⟩ := hu.upstream b r m hr hm
          rw [hr, hm] at h
          simp only at h
          have hp' := hpush _ hr (by rw [hm]; exact Option.some_ne_none _)
          rw [hp] at hp'
          obtain rfl := Option.some.inj hp'
          split at h
          · rename_i hs
            rw [if_neg hu.notSelf] at h
            have hsuf : (categorize (t!"refs/heads/" ++ b)).renderSuffix = b := fullName_suffix b
            rw [hsuf, stripPrefix?_append] at h
            refine ⟨(Option.some.inj h).symm, hr, hm, ?_⟩
            unfold SubmitWorld.upstream at hs
            rw [hr, hm] at hs
            simp only [if_neg hu.notSelf] at hs
            exact Option.isSome_iff_exists.1 hs
          · cases h
  · rintro ⟨rfl, h⟩
    obtain ⟨u, hu'⟩ := h.tracked
    unfold SubmitWorld.upstreamName
    rw [hpush _ h.remote (by rw [h.merge]; exact Option.some_ne_none _), h.remote, h.merge]
    have hsome : (w.repo.upstream x).isSome = true := by
      unfold SubmitWorld.upstream
      rw [h.remote, h.merge]
      simp only [if_neg hu.notSelf, hu', Option.isSome_some]
    simp only [if_neg hu.notSelf]
    rw [if_pos hsome]
    have hsuf : (categorize (t!"refs/heads/" ++ x)).renderSuffix = x := fullName_suffix x
    rw [hsuf, stripPrefix?_append]
    rfl

theorem prOf_some {env : ForgeEnv} {w : ForgeWorld} (hu : UsualForge env w) {b : Text} {p : PullRequest} :
    prOf w.prs b = some p ↔ p ∈ w.prs ∧ p.head = b := by
  unfold prOf
  constructor
  · intro h
    exact ⟨List.mem_of_find?_eq_some h, by simpa using List.find?_some h⟩
  · rintro ⟨h1, rfl⟩
    cases hf : w.prs.find? fun q => decide (q.head = p.head) with
    | none =>
      rw [List.find?_eq_none] at hf
      exact absurd (decide_eq_true rfl) (hf p h1)
    | some q =>
      have h2 := List.mem_of_find?_eq_some hf
      have h3 : q.head = p.head := by simpa using List.find?_some hf
      rw [hu.heads q h2 p h1 h3]

/-- The pull request of a branch. -/
theorem branchPr_some {env : ForgeEnv} {w : ForgeWorld} (hu : UsualForge env w) {b : Text} {p : PullRequest} :
    (w.repo.upstreamName b).bind (prOf w.prs) = some p ↔ p ∈ w.prs ∧ p.head = b ∧ TracksSame w b := by
  rw [Option.bind_eq_some_iff]
  constructor
  · rintro ⟨x, h1, h2⟩
    obtain ⟨rfl, h3⟩ := (upstreamName_some hu).1 h1
    obtain ⟨h4, h5⟩ := (prOf_some hu).1 h2
    exact ⟨h4, h5, h3⟩
  · rintro ⟨h1, h2, h3⟩
    exact ⟨b, (upstreamName_some hu).2 ⟨rfl, h3⟩, (prOf_some hu).2 ⟨h1, h2⟩⟩

theorem prAt_some {env : ForgeEnv} {w : ForgeWorld} (hu : UsualForge env w) {o : Oid} {p : PullRequest}
    (h : prAt w.repo w.prs o = some p) : HasPr w o p := by
  unfold prAt at h
  obtain ⟨r, hr, h⟩ := List.exists_of_findSome?_eq_some h
  obtain ⟨b, rfl, hb⟩ := (mem_namesAt' hu.refs).1 hr
  rw [fullName_suffix] at h
  obtain ⟨h1, rfl, h3⟩ := (branchPr_some hu).1 h
  exact ⟨h1, hb, h3⟩

theorem prAt_isSome {env : ForgeEnv} {w : ForgeWorld} (hu : UsualForge env w) {o : Oid} {p : PullRequest}
    (h : HasPr w o p) : ∃ p', prAt w.repo w.prs o = some p' := by
  rw [← Option.isSome_iff_exists]
  unfold prAt
  rw [List.findSome?_isSome_iff]
  refine ⟨fullName p.head, (mem_namesAt' hu.refs).2 ⟨_, rfl, h.at_⟩, ?_⟩
  rw [fullName_suffix, (branchPr_some hu).2 ⟨h.mem, rfl, h.tracks⟩]
  rfl

theorem prAt_none {env : ForgeEnv} {w : ForgeWorld} (hu : UsualForge env w) {o : Oid} :
    prAt w.repo w.prs o = none ↔ ∀ p, ¬ HasPr w o p := by
  constructor
  · intro h p hp
    obtain ⟨p', hp'⟩ := prAt_isSome hu hp
    rw [h] at hp'
    cases hp'
  · intro h
    cases hp : prAt w.repo w.prs o with
    | none => rfl
    | some p => exact absurd (prAt_some hu hp) (h p)

/-! ### the base -/

/-- The order in which the commits of a set come. -/
theorem mem_below {env : ForgeEnv} (hg : WFGraph env.dag.graph) (hiter : ∀ s, (env.iter s).Perm s) {o a : Oid}
    (ho : o ∈ env.dag.graph.nodes) :
    a ∈ env.iter (CommitGraph.diff (env.dag.graph.only [o] [env.mainOid]) [o]) ↔ BelowIn env a o := by
  rw [(hiter _).mem_iff, mem_diff, mem_only hg]
  constructor
  · rintro ⟨⟨-, ⟨d, hd, h1⟩, h2⟩, h3⟩
    rw [List.mem_singleton] at hd h3
    subst hd
    exact ⟨h1, h3, h2 _ (List.mem_singleton.2 rfl)⟩
  · rintro ⟨h1, h2, h3⟩
    refine ⟨⟨h1.mem hg ho, ⟨o, List.mem_singleton.2 rfl, h1⟩, ?_⟩, ?_⟩
    · intro d hd
      rw [List.mem_singleton] at hd
      exact hd ▸ h3
    · rw [List.mem_singleton]; exact h2

theorem findSome?_first {α β : Type} {f : α → Option β} {l : List α} {y : β} (h : l.findSome? f = some y) :
    ∃ l₁ x l₂, l = l₁ ++ x :: l₂ ∧ f x = some y ∧ ∀ z ∈ l₁, f z = none := by
  induction l with
  | nil => cases h
  | cons a l ih =>
    rw [List.findSome?_cons] at h
    cases hf : f a with
    | some z =>
      rw [hf] at h
      exact ⟨[], a, l, rfl, by rw [hf]; exact h, fun z hz => absurd hz List.not_mem_nil⟩
    | none =>
      rw [hf] at h
      obtain ⟨l₁, x, l₂, rfl, h1, h2⟩ := ih h
      refine ⟨a :: l₁, x, l₂, rfl, h1, ?_⟩
      intro z hz
      rcases List.mem_cons.1 hz with rfl | hz
      · exact hf
      · exact h2 z hz

/-- The base is the main branch, or the branch of a pull request for a commit below. -/
theorem prBase_cases {env : ForgeEnv} {w : ForgeWorld} (hu : UsualForge env w) (hiter : ∀ s, (env.iter s).Perm s)
    {o : Oid} (ho : o ∈ env.dag.graph.nodes) :
    (∃ a p, BelowIn env a o ∧ HasPr w a p ∧ prBase env w.repo w.prs o = p.head) ∨
      ((∀ a p, BelowIn env a o → ¬ HasPr w a p) ∧ prBase env w.repo w.prs o = env.mainName) := by
  unfold prBase
  simp only
  cases hf : (env.iter (CommitGraph.diff (env.dag.graph.only [o] [env.mainOid]) [o])).reverse.findSome?
      (prAt w.repo w.prs) with
  | some p =>
    left
    obtain ⟨a, ha, h⟩ := List.exists_of_findSome?_eq_some hf
    rw [List.mem_reverse, mem_below hu.graph hiter ho] at ha
    exact ⟨a, p, ha, prAt_some hu h, rfl⟩
  | none =>
    right
    refine ⟨?_, rfl⟩
    intro a p ha hp
    rw [List.findSome?_eq_none_iff] at hf
    have := hf a (by rw [List.mem_reverse, mem_below hu.graph hiter ho]; exact ha)
    exact (prAt_none hu).1 this p hp

theorem prBase_order {env : ForgeEnv} {w : ForgeWorld} (hu : UsualForge env w) (hiter : ∀ s, (env.iter s).Perm s)
    {o : Oid} (ho : o ∈ env.dag.graph.nodes) {R : Oid → Oid → Prop}
    (hR : (env.iter (CommitGraph.diff (env.dag.graph.only [o] [env.mainOid]) [o])).Pairwise R) :
    (∃ a p, BelowIn env a o ∧ HasPr w a p ∧ prBase env w.repo w.prs o = p.head ∧
        ∀ c q, BelowIn env c o → HasPr w c q → c = a ∨ R c a) ∨
      ((∀ a p, BelowIn env a o → ¬ HasPr w a p) ∧ prBase env w.repo w.prs o = env.mainName) := by
  rcases prBase_cases hu hiter ho with h | h
  swap
  · exact .inr h
  left
  obtain ⟨a0, p0, h1, h2, -⟩ := h
  unfold prBase
  simp only
  cases hf : (env.iter (CommitGraph.diff (env.dag.graph.only [o] [env.mainOid]) [o])).reverse.findSome?
      (prAt w.repo w.prs) with
  | none =>
    rw [List.findSome?_eq_none_iff] at hf
    have := hf a0 (by rw [List.mem_reverse, mem_below hu.graph hiter ho]; exact h1)
    exact absurd h2 ((prAt_none hu).1 this p0)
  | some p =>
    obtain ⟨l₁, a, l₂, hl, ha, hn⟩ := findSome?_first hf
    have hmem : a ∈ env.iter (CommitGraph.diff (env.dag.graph.only [o] [env.mainOid]) [o]) := by
      rw [← List.mem_reverse, hl]
      exact List.mem_append_right _ List.mem_cons_self
    refine ⟨a, p, (mem_below hu.graph hiter ho).1 hmem, prAt_some hu ha, rfl, ?_⟩
    intro c q hc hq
    rw [← mem_below hu.graph hiter ho, ← List.mem_reverse, hl, List.mem_append, List.mem_cons] at hc
    rcases hc with hc | rfl | hc
    · exact absurd hq ((prAt_none hu).1 (hn c hc) q)
    · exact .inl rfl
    · right
      have hp := List.pairwise_reverse.2 hR
      rw [hl] at hp
      exact (List.pairwise_cons.1 (List.pairwise_append.1 hp).2.1).1 c hc

/-! ### the stack -/

/-- The pull requests of a list of commits. -/
def prsOf (repo : SubmitWorld) (infos : List PullRequest) (l : List Oid) : List (Oid × PullRequest) :=
  l.filterMap fun c => (prAt repo infos c).map fun p => (c, p)

theorem prsOf_mem {repo : SubmitWorld} {infos : List PullRequest} {l : List Oid} {c : Oid} {p : PullRequest} :
    (c, p) ∈ prsOf repo infos l ↔ c ∈ l ∧ prAt repo infos c = some p := by
  unfold prsOf
  rw [List.mem_filterMap]
  constructor
  · rintro ⟨x, hx, h⟩
    rw [Option.map_eq_some_iff] at h
    obtain ⟨p', h, e⟩ := h
    obtain ⟨rfl, rfl⟩ := Prod.mk.inj e
    exact ⟨hx, h⟩
  · rintro ⟨hx, h⟩
    exact ⟨c, hx, by rw [h]; rfl⟩

theorem prsOf_fst (repo : SubmitWorld) (infos : List PullRequest) (l : List Oid) :
    (prsOf repo infos l).map Prod.fst = l.filter fun c => (prAt repo infos c).isSome := by
  unfold prsOf
  induction l with
  | nil => rfl
  | cons c l ih =>
    rw [List.filterMap_cons, List.filter_cons]
    cases h : prAt repo infos c with
    | none => simpa using ih
    | some p => simpa using ih

theorem stackLoop_eq (repo : SubmitWorld) (infos : List PullRequest) (o : Oid) {l : List Oid} (hl : l.Nodup) :
    (stackLoop repo infos o l).1 = (prsOf repo infos l).map Prod.snd ∧
    (∀ i, (stackLoop repo infos o l).2 = some i ↔
      ∃ j, i = j + 1 ∧ ((prsOf repo infos l).map Prod.fst)[j]? = some o) ∧
    ((stackLoop repo infos o l).2 = none ↔ o ∉ (prsOf repo infos l).map Prod.fst) := by
  have key : ∀ (pre l : List Oid), (pre ++ l).Nodup → ∀ acc : List PullRequest × Option Nat,
      acc.1 = (prsOf repo infos pre).map Prod.snd →
      (∀ i, acc.2 = some i ↔ ∃ j, i = j + 1 ∧ ((prsOf repo infos pre).map Prod.fst)[j]? = some o) →
      (l.foldl (fun (acc : List PullRequest × Option Nat) c =>
        match prAt repo infos c with
        | none => acc
        | some p => (acc.1 ++ [p], if c = o then some (acc.1.length + 1) else acc.2)) acc).1 =
          (prsOf repo infos (pre ++ l)).map Prod.snd ∧
      (∀ i, (l.foldl (fun (acc : List PullRequest × Option Nat) c =>
        match prAt repo infos c with
        | none => acc
        | some p => (acc.1 ++ [p], if c = o then some (acc.1.length + 1) else acc.2)) acc).2 = some i ↔
          ∃ j, i = j + 1 ∧ ((prsOf repo infos (pre ++ l)).map Prod.fst)[j]? = some o) := by
    intro pre l
    induction l generalizing pre with
    | nil =>
      intro _ acc h1 h2
      rw [List.append_nil]
      exact ⟨h1, h2⟩
    | cons c l ih =>
      intro hnd acc h1 h2
      have hsplit : pre ++ c :: l = (pre ++ [c]) ++ l := by simp
      rw [hsplit] at hnd ⊢
      rw [List.foldl_cons]
      have happ : prsOf repo infos (pre ++ [c]) = prsOf repo infos pre ++
          (((prAt repo infos c).map fun p => (c, p)).toList) := by
        unfold prsOf
        rw [List.filterMap_append]
        congr 1
      refine ih (pre ++ [c]) hnd _ ?_ ?_
      · rw [happ]
        cases hp : prAt repo infos c with
        | none => simpa using h1
        | some p => simp [h1]
      · intro i
        rw [happ]
        have hlen : acc.1.length = ((prsOf repo infos pre).map Prod.fst).length := by
          rw [h1, List.length_map, List.length_map]
        cases hp : prAt repo infos c with
        | none => simpa using h2 i
        | some p =>
          simp only [Option.map_some, Option.toList_some, List.map_append, List.map_cons, List.map_nil]
          by_cases hc : c = o
          · subst hc
            rw [if_pos rfl]
            constructor
            · intro h
              refine ⟨acc.1.length, (Option.some.inj h).symm, ?_⟩
              rw [hlen, List.getElem?_append_right (Nat.le_refl _), Nat.sub_self]
              rfl
            · rintro ⟨j, rfl, hj⟩
              rw [List.getElem?_append] at hj
              split at hj
              · exfalso
                have hm := List.mem_of_getElem? hj
                rw [prsOf_fst, List.mem_filter] at hm
                have := List.nodup_append.1 (List.nodup_append.1 hnd).1
                exact this.2.2 c hm.1 c (List.mem_singleton.2 rfl) rfl
              · rename_i hge
                rw [hlen]
                have : j - ((prsOf repo infos pre).map Prod.fst).length = 0 := by
                  by_contra hne
                  rw [List.getElem?_eq_none (by rw [List.length_singleton]; omega)] at hj
                  cases hj
                congr 1
                omega
          · rw [if_neg hc, h2 i]
            constructor
            · rintro ⟨j, rfl, hj⟩
              refine ⟨j, rfl, ?_⟩
              rw [List.getElem?_append_left]
              · exact hj
              · exact (List.getElem?_eq_some_iff.1 hj).1
            · rintro ⟨j, rfl, hj⟩
              refine ⟨j, rfl, ?_⟩
              rw [List.getElem?_append] at hj
              split at hj
              · exact hj
              · exfalso
                have hm := List.mem_of_getElem? hj
                rw [List.mem_singleton] at hm
                exact hc hm.symm
  have h := key [] l (by simpa using hl) ([], none) rfl (by simp [prsOf])
  rw [List.nil_append] at h
  refine ⟨h.1, h.2, ?_⟩
  have h2 := h.2
  change (stackLoop repo infos o l).2 = none ↔ _
  constructor
  · intro hn hm
    obtain ⟨j, hj⟩ := List.getElem?_of_mem hm
    have := (h2 (j + 1)).2 ⟨j, rfl, hj⟩
    change (stackLoop repo infos o l).2 = some (j + 1) at this
    rw [hn] at this
    cases this
  · intro hm
    cases hs : (stackLoop repo infos o l).2 with
    | none => rfl
    | some i =>
      obtain ⟨j, -, hj⟩ := (h2 i).1 hs
      exact absurd (List.mem_of_getElem? hj) hm

/-- The pull requests of the stack of a commit. -/
theorem stackPrs_prsOf {env : ForgeEnv} {w : ForgeWorld} (hu : UsualForge env w) (o : Oid) :
    StackPrs env w o (prsOf w.repo w.prs (env.dag.graph.sort (env.dag.stackCommits [o]))) := by
  have hg := hu.graph
  have hmem : ∀ c, c ∈ env.dag.graph.sort (env.dag.stackCommits [o]) ↔ InStack env.dag (· = o) c := by
    intro c
    rw [mem_sort, mem_stack hg]
    simp only [List.mem_singleton]
    constructor
    · exact fun h => h.2
    · exact fun h => ⟨h.1.1.1, h⟩
  refine ⟨?_, ?_, ?_, ?_⟩
  · intro c p h
    rw [prsOf_mem, hmem] at h
    exact ⟨h.1, prAt_some hu h.2⟩
  · intro c p h1 h2
    obtain ⟨p', hp'⟩ := prAt_isSome hu h2
    exact ⟨p', prsOf_mem.2 ⟨(hmem c).2 h1, hp'⟩⟩
  · rw [prsOf_fst]
    exact (sort_nodup hg _).filter _
  · rw [prsOf_fst]
    exact (sort_parentsFirst hg _).filter _

end Verif.Spec
