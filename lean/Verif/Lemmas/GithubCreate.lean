import Verif.Lemmas.GithubSubmit

/-! Lemmas about creating pull requests. -/

namespace Verif.Spec

open Verif

/-! ### names -/

/-- A chosen name is not there, and is one of five. -/
theorem freshName_some {refs : Refs} {base : Text} {tries i : Nat} {name b : Text}
    (h : freshName refs base tries i name = some b) :
    refs.get? (fullName b) = none ∧
      (b = name ∨ ∃ j, i ≤ j ∧ j + 1 < i + tries ∧ b = base ++ t!"-" ++ natToText j) := by
  induction tries generalizing i name with
  | zero => cases h
  | succ n ih =>
    rw [freshName] at h
    cases hr : refs.get? (fullName name) with
    | none =>
      rw [hr] at h
      obtain rfl := Option.some.inj h
      exact ⟨hr, .inl rfl⟩
    | some o =>
      rw [hr] at h
      obtain ⟨h1, h2⟩ := ih h
      refine ⟨h1, .inr ?_⟩
      rcases h2 with rfl | ⟨j, h2, h3, h4⟩
      · refine ⟨i, Nat.le_refl _, ?_, rfl⟩
        cases n with
        | zero => rw [freshName] at h; cases h
        | succ n => omega
      · exact ⟨j, by omega, by omega, h4⟩

theorem freshName_none {refs : Refs} {base : Text} {tries i : Nat} {name : Text}
    (h : freshName refs base (tries + 1) i name = none) :
    (refs.get? (fullName name)).isSome ∧
      ∀ j, i ≤ j → j < i + tries → (refs.get? (fullName (base ++ t!"-" ++ natToText j))).isSome := by
  induction tries generalizing i name with
  | zero =>
    rw [freshName] at h
    cases hr : refs.get? (fullName name) with
    | none => rw [hr] at h; cases h
    | some o => exact ⟨rfl, fun j h1 h2 => by omega⟩
  | succ n ih =>
    rw [freshName] at h
    cases hr : refs.get? (fullName name) with
    | none => rw [hr] at h; cases h
    | some o =>
      rw [hr] at h
      obtain ⟨h1, h2⟩ := ih h
      refine ⟨rfl, ?_⟩
      intro j hj hj'
      by_cases e : j = i
      · subst e; exact h1
      · exact h2 j (by omega) (by omega)

/-! ### the branches -/

/-- The branches `K` were made and pushed to `g`, and nothing else was changed. -/
structure BranchesMade (g : Text) (w : SubmitWorld) (K : List (Oid × Text)) (w' : SubmitWorld) : Prop where
  wf : AMap.WF w.refs → AMap.WF w'.refs
  at_ : ∀ e ∈ K, w'.refs.get? (fullName e.2) = some e.1
  old : ∀ e ∈ K, w.refs.get? (fullName e.2) = some e.1 ∨ w.refs.get? (fullName e.2) = none
  refs : ∀ x, (∀ e ∈ K, x ≠ fullName e.2) → w'.refs.get? x = w.refs.get? x
  pushed : ∀ e ∈ K, w'.remotes.get? (g, fullName e.2) = some e.1 ∧ w'.tracking.get? (g, fullName e.2) = some e.1
  others : ∀ k, (∀ e ∈ K, k ≠ (g, fullName e.2)) →
    w'.remotes.get? k = w.remotes.get? k ∧ w'.tracking.get? k = w.tracking.get? k
  config : ∀ e ∈ K, w'.remote.get? e.2 = some g ∧ w'.merge.get? e.2 = some (fullName e.2)
  unconfig : ∀ b, (∀ e ∈ K, b ≠ e.2) → w'.remote.get? b = w.remote.get? b ∧ w'.merge.get? b = w.merge.get? b
  same : w'.pushRemote = w.pushRemote ∧ w'.pushDefault = w.pushDefault ∧ w'.reachable = w.reachable ∧
    w'.accepts = w.accepts ∧ w'.isAncestor = w.isAncestor

theorem BranchesMade.nil (g : Text) (w : SubmitWorld) : BranchesMade g w [] w :=
  ⟨id, by simp, by simp, fun _ _ => rfl, by simp, fun _ _ => ⟨rfl, rfl⟩, by simp, fun _ _ => ⟨rfl, rfl⟩,
    rfl, rfl, rfl, rfl, rfl⟩

theorem BranchesMade.cons {g : Text} {w w1 w2 : SubmitWorld} {e : Oid × Text} {K : List (Oid × Text)}
    (h1 : BranchesMade g w [e] w1) (h2 : BranchesMade g w1 K w2) : BranchesMade g w (e :: K) w2 := by
  have hat1 := h1.at_ e (List.mem_singleton.2 rfl)
  -- a later branch with the same name is at the same commit
  have hsame : ∀ f ∈ K, f.2 = e.2 → f.1 = e.1 := by
    intro f hf hfe
    rcases h2.old f hf with h | h
    · rw [hfe, hat1] at h
      exact (Option.some.inj h).symm
    · rw [hfe, hat1] at h
      cases h
  have hin : ∀ f ∈ K, f.2 = e.2 → e ∈ K := by
    intro f hf hfe
    have : f = e := Prod.ext (hsame f hf hfe) hfe
    exact this ▸ hf
  have hone : ∀ {P : Oid × Text → Prop}, P e → ∀ f ∈ [e], P f := by
    intro P hP f hf
    rw [List.mem_singleton] at hf
    exact hf ▸ hP
  refine ⟨fun h => h2.wf (h1.wf h), ?_, ?_, ?_, ?_, ?_, ?_, ?_, ?_⟩
  · intro f hf
    rcases List.mem_cons.1 hf with rfl | hf
    · by_cases hk : ∃ a ∈ K, a.2 = f.2
      · obtain ⟨a, ha, hae⟩ := hk
        exact h2.at_ _ (hin a ha hae)
      · push Not at hk
        rw [h2.refs _ fun a ha h => hk a ha (fullName_inj h).symm]
        exact hat1
    · exact h2.at_ f hf
  · intro f hf
    rcases List.mem_cons.1 hf with rfl | hf
    · exact h1.old f (List.mem_singleton.2 rfl)
    · by_cases hfe : f.2 = e.2
      · rw [hfe, hsame f hf hfe]
        exact h1.old e (List.mem_singleton.2 rfl)
      · rw [← h1.refs (fullName f.2) (hone fun h => hfe (fullName_inj h))]
        exact h2.old f hf
  · intro x hx
    rw [h2.refs x fun f hf => hx f (List.mem_cons_of_mem _ hf), h1.refs x (hone (hx e List.mem_cons_self))]
  · intro f hf
    rcases List.mem_cons.1 hf with rfl | hf
    · by_cases hk : ∃ a ∈ K, a.2 = f.2
      · obtain ⟨a, ha, hae⟩ := hk
        exact h2.pushed _ (hin a ha hae)
      · push Not at hk
        obtain ⟨e1, e2⟩ := h2.others (g, fullName f.2) fun a ha h => hk a ha (fullName_inj (Prod.mk.inj h).2).symm
        rw [e1, e2]
        exact h1.pushed f (List.mem_singleton.2 rfl)
    · exact h2.pushed f hf
  · intro k hk
    obtain ⟨e1, e2⟩ := h2.others k fun f hf => hk f (List.mem_cons_of_mem _ hf)
    rw [e1, e2]
    exact h1.others k (hone (hk e List.mem_cons_self))
  · intro f hf
    rcases List.mem_cons.1 hf with rfl | hf
    · by_cases hk : ∃ a ∈ K, a.2 = f.2
      · obtain ⟨a, ha, hae⟩ := hk
        exact h2.config _ (hin a ha hae)
      · push Not at hk
        obtain ⟨e1, e2⟩ := h2.unconfig f.2 fun a ha h => hk a ha h.symm
        rw [e1, e2]
        exact h1.config f (List.mem_singleton.2 rfl)
    · exact h2.config f hf
  · intro b hb
    obtain ⟨e1, e2⟩ := h2.unconfig b fun f hf => hb f (List.mem_cons_of_mem _ hf)
    rw [e1, e2]
    exact h1.unconfig b (hone (hb e List.mem_cons_self))
  · obtain ⟨a1, a2, a3, a4, a5⟩ := h1.same
    obtain ⟨b1, b2, b3, b4, b5⟩ := h2.same
    exact ⟨b1.trans a1, b2.trans a2, b3.trans a3, b4.trans a4, b5.trans a5⟩

/-- One branch which is there is pushed. -/
theorem createBranches_one {w : SubmitWorld} {main g b : Text} {o : Oid} {c : CommitStatus} {names : List Text}
    {w' : SubmitWorld} {log : List GitCommand} (hg : g ≠ t!".") (hd : w.defaultPushRemote main = some g)
    (hb : w.refs.get? (fullName b) = some o)
    (h : createBranches w main [{ c with localName := some b }] = (w', log, some names)) :
    BranchesMade g w [(o, b)] w' ∧ w'.refs = w.refs ∧ log = [.pushNew g [b]] := by
  unfold createBranches at h
  simp only [List.filterMap_cons, List.filterMap_nil, List.insertionSort_cons, List.insertionSort_nil,
    List.orderedInsert_nil, hd, List.isEmpty_cons] at h
  unfold SubmitWorld.push at h
  rw [if_neg (by simp)] at h
  rw [if_neg hg] at h
  by_cases hr : w.reachable g = true
  swap
  · rw [if_neg hr] at h
    simp at h
  rw [if_pos hr, List.foldl_cons, List.foldl_nil] at h
  unfold SubmitWorld.pushNewOne at h
  simp only [hb] at h
  have hpo : ∀ a, w.pushOne g (fullName b) o a = (w.putRemote g (fullName b) o, true) ∨
      w.pushOne g (fullName b) o a = (w, false) := by
    intro a
    unfold SubmitWorld.pushOne
    split
    · exact .inl rfl
    · split
      · exact .inl rfl
      · exact .inr rfl
  rcases hpo (w.fastForward g (fullName b) o) with hp | hp
  swap
  · rw [hp] at h
    simp at h
  rw [hp] at h
  simp only [if_true] at h
  obtain ⟨h1, h2⟩ := Prod.mk.inj h
  obtain ⟨h2, -⟩ := Prod.mk.inj h2
  have hone : ∀ {P : Oid × Text → Prop}, (∀ f ∈ [(o, b)], P f) ↔ P (o, b) := by
    intro P
    simp
  refine ⟨⟨?_, ?_, ?_, ?_, ?_, ?_, ?_, ?_, ?_⟩, ?_, h2.symm⟩
  · rw [← h1]; exact id
  · rw [hone, ← h1]; exact hb
  · rw [hone]; exact .inl hb
  · rw [← h1]; exact fun _ _ => rfl
  · rw [hone, ← h1]
    simp only [SubmitWorld.putRemote]
    rw [AMap.get?_insert, AMap.get?_insert, if_pos rfl, if_pos rfl]
    exact ⟨rfl, rfl⟩
  · intro k hk
    rw [hone] at hk
    rw [← h1]
    simp only [SubmitWorld.putRemote]
    rw [AMap.get?_insert, AMap.get?_insert, if_neg (Ne.symm hk), if_neg (Ne.symm hk)]
    exact ⟨rfl, rfl⟩
  · rw [hone, ← h1]
    simp only [SubmitWorld.putRemote]
    rw [AMap.get?_insert, AMap.get?_insert, if_pos rfl, if_pos rfl]
    exact ⟨rfl, rfl⟩
  · intro k hk
    rw [hone] at hk
    rw [← h1]
    simp only [SubmitWorld.putRemote]
    rw [AMap.get?_insert, AMap.get?_insert, if_neg (Ne.symm hk), if_neg (Ne.symm hk)]
    exact ⟨rfl, rfl⟩
  · rw [← h1]; exact ⟨rfl, rfl, rfl, rfl, rfl⟩
  · rw [← h1]; rfl

/-- A new reference which was not there. -/
theorem made_of_insert {g : Text} {w w' : SubmitWorld} {o : Oid} {b : Text}
    (hn : w.refs.get? (fullName b) = none)
    (h : BranchesMade g { w with refs := w.refs.insert (fullName b) o } [(o, b)] w') :
    BranchesMade g w [(o, b)] w' := by
  refine ⟨fun hw => h.wf (AMap.wf_insert hw _ _), h.at_, ?_, ?_, h.pushed, h.others, h.config, h.unconfig, h.same⟩
  · intro e he
    rw [List.mem_singleton] at he
    subst he
    exact .inr hn
  · intro x hx
    rw [h.refs x hx]
    have := hx _ (List.mem_singleton.2 rfl)
    simp only
    rw [AMap.get?_insert, if_neg (Ne.symm this)]

/-- What the loop needs. -/
structure BranchLoop (env : ForgeEnv) (user : Text) (w : ForgeWorld) (S : List (Oid × PrStatus)) : Prop where
  notSelf : w.github ≠ t!"."
  remote : w.repo.defaultPushRemote env.mainName = some w.github
  main : ∃ m, w.repo.refs.get? (fullName env.mainName) = some m
  local_ : ∀ e ∈ S, ∀ b, e.2.localName = some b → w.repo.refs.get? (fullName b) = some e.1 ∧ b ≠ env.mainName
  free : ∀ e ∈ S, ∀ b, (e.2.localName = some b ∨ (e.2.localName = none ∧
      ∃ base, base = user ++ t!"/" ++ summarySlug env (env.summary e.1) ∧
        (b = base ∨ ∃ i, 2 ≤ i ∧ i ≤ 5 ∧ b = base ++ t!"-" ++ natToText i))) →
    ∀ p ∈ w.prs, p.head ≠ b ∧ p.base ≠ b
  open_ : ∀ p ∈ w.prs, w.merged p = false

theorem tip_made {w w' : ForgeWorld} {K : List (Oid × Text)} (hg : w'.github = w.github)
    (h : BranchesMade w.github w.repo K w'.repo) {b : Text} (hb : ∀ e ∈ K, b ≠ e.2) : w'.tip b = w.tip b := by
  unfold ForgeWorld.tip
  rw [hg]
  exact (h.others _ fun e he hk => hb e he (fullName_inj (Prod.mk.inj hk).2)).1

theorem createBranchLoop_made {env : ForgeEnv} {user : Text} {w : ForgeWorld} {S : List (Oid × PrStatus)}
    (hl : BranchLoop env user w S) {w' : ForgeWorld} {log : List ForgeCommand} {K : List (Oid × Text)}
    (h : createBranchLoop env user w S = (w', log, some K)) :
    BranchesMade w.github w.repo K w'.repo ∧ w' = { w with repo := w'.repo } ∧
      K.map Prod.fst = S.map Prod.fst ∧
      (∀ e ∈ K, ∃ s, (e.1, s) ∈ S ∧ (s.localName = some e.2 ∨ (s.localName = none ∧
        ∃ base, base = user ++ t!"/" ++ summarySlug env (env.summary e.1) ∧
          (e.2 = base ∨ ∃ i, 2 ≤ i ∧ i ≤ 5 ∧ e.2 = base ++ t!"-" ++ natToText i)))) ∧
      (∀ e ∈ K, e.2 ≠ env.mainName) ∧
      log = K.map fun e => .git (.pushNew w.github [e.2]) := by
  induction S generalizing w K log with
  | nil =>
    rw [createBranchLoop] at h
    simp only [Prod.mk.injEq, Option.some.injEq] at h
    obtain ⟨rfl, rfl, rfl⟩ := h
    exact ⟨.nil _ _, rfl, rfl, by simp, by simp, rfl⟩
  | cons e S ih =>
    obtain ⟨o, s⟩ := e
    rw [createBranchLoop] at h
    cases hb : localBranchFor env user w o s with
    | none => rw [hb] at h; simp at h
    | some x =>
      obtain ⟨w1, b⟩ := x
      rw [hb] at h
      simp only at h
      -- the name
      have hname : s.localName = some b ∨ (s.localName = none ∧
          ∃ base, base = user ++ t!"/" ++ summarySlug env (env.summary o) ∧
            (b = base ∨ ∃ i, 2 ≤ i ∧ i ≤ 5 ∧ b = base ++ t!"-" ++ natToText i)) := by
        unfold localBranchFor at hb
        cases hs : s.localName with
        | some b' =>
          rw [hs] at hb
          simp only [Option.some.injEq, Prod.mk.injEq] at hb
          rw [hb.2]
          exact .inl rfl
        | none =>
          rw [hs] at hb
          simp only at hb
          cases hf : freshName w.repo.refs (user ++ t!"/" ++ summarySlug env (env.summary o)) 5 2
              (user ++ t!"/" ++ summarySlug env (env.summary o)) with
          | none => rw [hf] at hb; cases hb
          | some b' =>
            rw [hf] at hb
            simp only at hb
            split at hb
            · simp only [Option.some.injEq, Prod.mk.injEq] at hb
              obtain ⟨-, rfl⟩ := hb
              refine .inr ⟨rfl, _, rfl, ?_⟩
              rcases (freshName_some hf).2 with h | ⟨j, h1, h2, h3⟩
              · exact .inl h
              · exact .inr ⟨j, h1, by omega, h3⟩
            · cases hb
      have hfree := hl.free (o, s) List.mem_cons_self b hname
      -- the branch
      have hloc : ∃ r, w1 = { w with repo := r } ∧ r.refs.get? (fullName b) = some o ∧ b ≠ env.mainName ∧
          r.defaultPushRemote env.mainName = some w.github ∧
          ∀ w', BranchesMade w.github r [(o, b)] w' → BranchesMade w.github w.repo [(o, b)] w' := by
        unfold localBranchFor at hb
        cases hs : s.localName with
        | some b' =>
          rw [hs] at hb
          simp only [Option.some.injEq, Prod.mk.injEq] at hb
          obtain ⟨rfl, rfl⟩ := hb
          obtain ⟨h1, h2⟩ := hl.local_ (o, s) List.mem_cons_self b' hs
          exact ⟨w.repo, rfl, h1, h2, hl.remote, fun _ h => h⟩
        | none =>
          rw [hs] at hb
          simp only at hb
          cases hf : freshName w.repo.refs (user ++ t!"/" ++ summarySlug env (env.summary o)) 5 2
              (user ++ t!"/" ++ summarySlug env (env.summary o)) with
          | none => rw [hf] at hb; cases hb
          | some b' =>
            rw [hf] at hb
            simp only at hb
            split at hb
            · simp only [Option.some.injEq, Prod.mk.injEq] at hb
              obtain ⟨rfl, rfl⟩ := hb
              have hn := (freshName_some hf).1
              refine ⟨_, rfl, ?_, ?_, hl.remote, fun w' h => made_of_insert hn h⟩
              · simp only
                rw [AMap.get?_insert, if_pos rfl]
              · rintro rfl
                obtain ⟨m, hm⟩ := hl.main
                rw [hn] at hm
                cases hm
            · cases hb
      obtain ⟨r, rfl, hrb, hbm, hrd, hmade⟩ := hloc
      cases hc : createBranches r env.mainName [{ s.toCommitStatus with localName := some b }] with
      | mk r' x =>
        obtain ⟨lg, names⟩ := x
        rw [hc] at h
        simp only at h
        cases names with
        | none => simp at h
        | some names =>
          simp only at h
          obtain ⟨hm1, -, rfl⟩ := createBranches_one hl.notSelf hrd hrb hc
          have hm1 := hmade _ hm1
          -- nothing is closed
          have htip : ∀ x, x ≠ b → ForgeWorld.tip { w with repo := r' } x = w.tip x := by
            intro x hx
            refine tip_made (w := w) (w' := { w with repo := r' }) rfl hm1 ?_
            intro e he
            rw [List.mem_singleton] at he
            subst he
            exact hx
          have hopen : ∀ p ∈ w.prs, ForgeWorld.merged { w with repo := r' } p = false := by
            intro p hp
            have := hl.open_ p hp
            unfold ForgeWorld.merged at this ⊢
            rw [htip _ (hfree p hp).1, htip _ (hfree p hp).2]
            simp only [hm1.same.2.2.2.2]
            exact this
          have hset : ForgeWorld.settle { w with repo := r' } = { w with repo := r' } := settle_calm hopen
          simp only [hset] at h
          -- the rest
          have hl' : BranchLoop env user { w with repo := r' } S := by
            refine ⟨hl.notSelf, ?_, ?_, ?_, ?_, hopen⟩
            · have hd := hl.remote
              have hm2 := hm1.unconfig env.mainName (by
                intro e he
                rw [List.mem_singleton] at he
                subst he
                exact Ne.symm hbm)
              unfold SubmitWorld.defaultPushRemote SubmitWorld.pushRemoteName at hd ⊢
              simp only
              rw [hm1.same.1, hm2.1, hm1.same.2.1]
              exact hd
            · obtain ⟨m, hm⟩ := hl.main
              refine ⟨m, ?_⟩
              simp only
              rw [hm1.refs, hm]
              intro e he h'
              rw [List.mem_singleton] at he
              subst he
              exact hbm (fullName_inj h').symm
            · intro e he b' hb'
              obtain ⟨h1, h2⟩ := hl.local_ e (List.mem_cons_of_mem _ he) b' hb'
              refine ⟨?_, h2⟩
              simp only
              by_cases hbb : b' = b
              · subst hbb
                have h3 := hm1.at_ _ (List.mem_singleton.2 rfl)
                rcases hm1.old _ (List.mem_singleton.2 rfl) with h4 | h4
                · simp only at h3 h4
                  rw [h1] at h4
                  rw [h3, h4]
                · simp only at h4
                  rw [h1] at h4
                  cases h4
              · rw [hm1.refs, h1]
                intro f hf h'
                rw [List.mem_singleton] at hf
                subst hf
                exact hbb (fullName_inj h')
            · exact fun e he => hl.free e (List.mem_cons_of_mem _ he)
          cases hy : createBranchLoop env user { w with repo := r' } S with
          | mk w2 y =>
            obtain ⟨lg2, K2⟩ := y
            rw [hy] at h
            simp only [Prod.mk.injEq, Option.map_eq_some_iff] at h
            obtain ⟨rfl, rfl, K', rfl, rfl⟩ := h
            obtain ⟨i1, i2, i3, i4, i5, i6⟩ := ih hl' hy
            refine ⟨hm1.cons i1, i2, ?_, ?_, ?_, ?_⟩
            · rw [List.map_cons, List.map_cons, i3]
            · intro e he
              rcases List.mem_cons.1 he with rfl | he
              · exact ⟨s, List.mem_cons_self, hname⟩
              · obtain ⟨s', h1, h2⟩ := i4 e he
                exact ⟨s', List.mem_cons_of_mem _ h1, h2⟩
            · intro e he
              rcases List.mem_cons.1 he with rfl | he
              · exact hbm
              · exact i5 e he
            · rw [i6]
              rfl

/-! ### the pull requests -/

/-- The new pull requests. -/
def newPrs (env : ForgeEnv) (w : ForgeWorld) : Nat → List (Oid × Text) → List PullRequest
  | _, [] => []
  | n, e :: K => ⟨n, w.urlOf n, e.2, w.defaultBranch, env.summary e.1, env.message e.1⟩ :: newPrs env w (n + 1) K

theorem createPrLoop_made {env : ForgeEnv} {draft : Bool} {w : ForgeWorld} {K : List (Oid × Text)}
    {w' : ForgeWorld} {log : List ForgeCommand} (h : createPrLoop env draft w K = (w', log, true)) :
    w' = { w with prs := w.prs ++ newPrs env w w.next K, next := w.next + K.length } ∧
      (∀ e ∈ K, ∀ p ∈ w.prs, p.head ≠ e.2) ∧ (K.map Prod.snd).Nodup ∧
      (∀ e ∈ K, ∀ h d, w.tip e.2 = some h → w.tip w.defaultBranch = some d → w.repo.isAncestor h d = false) ∧
      log = K.map fun e => .createPr e.2 (env.summary e.1) (env.message e.1) draft := by
  induction K generalizing w log with
  | nil =>
    rw [createPrLoop] at h
    simp only [Prod.mk.injEq] at h
    obtain ⟨rfl, rfl, -⟩ := h
    refine ⟨?_, by simp, by simp, by simp, rfl⟩
    simp [newPrs]
  | cons e K ih =>
    obtain ⟨o, b⟩ := e
    rw [createPrLoop] at h
    cases hc : w.createPr b (env.summary o) (env.message o) draft with
    | none => rw [hc] at h; simp at h
    | some w1 =>
      rw [hc] at h
      simp only at h
      unfold ForgeWorld.createPr at hc
      simp only at hc
      split at hc
      swap
      · cases hc
      rename_i hcond
      obtain rfl := (Option.some.inj hc).symm
      rw [Bool.and_eq_true, Bool.and_eq_true, Bool.and_eq_true, Bool.not_eq_true', Bool.not_eq_true'] at hcond
      obtain ⟨⟨⟨-, h2⟩, h3⟩, h4⟩ := hcond
      have h3 : ∀ p ∈ w.prs, p.head ≠ b := by
        intro p hp he
        rw [List.any_eq_false] at h3
        exact h3 p hp (decide_eq_true he)
      have h4 : ∀ h d, w.tip b = some h → w.tip w.defaultBranch = some d → w.repo.isAncestor h d = false := by
        intro h d hh hd
        unfold ForgeWorld.merged at h4
        simp only [hh, hd] at h4
        exact h4
      generalize hw1 : ({ w with
        prs := w.prs ++ [⟨w.next, w.urlOf w.next, b, w.defaultBranch, env.summary o, env.message o⟩],
        next := w.next + 1 } : ForgeWorld) = w1 at h
      cases hy : createPrLoop env draft w1 K with
      | mk w2 y =>
        obtain ⟨lg, ok⟩ := y
        rw [hy] at h
        simp only [Prod.mk.injEq] at h
        obtain ⟨rfl, rfl, rfl⟩ := h
        obtain ⟨i1, i2, i3, i4, i5⟩ := ih hy
        subst hw1
        refine ⟨?_, ?_, ?_, ?_, ?_⟩
        · rw [i1]
          have hnew : ∀ n (K : List (Oid × Text)), newPrs env { w with
              prs := w.prs ++ [⟨w.next, w.urlOf w.next, b, w.defaultBranch, env.summary o, env.message o⟩],
              next := w.next + 1 } n K = newPrs env w n K := by
            intro n K
            induction K generalizing n with
            | nil => rfl
            | cons f K ih' => rw [newPrs, newPrs, ih']
          simp only [hnew, newPrs, List.append_assoc, List.singleton_append, List.length_cons]
          congr 1
          omega
        · intro f hf p hp
          rcases List.mem_cons.1 hf with rfl | hf
          · exact h3 p hp
          · exact i2 f hf p (List.mem_append_left _ hp)
        · rw [List.map_cons, List.nodup_cons]
          refine ⟨?_, i3⟩
          intro hm
          obtain ⟨f, hf, hfb⟩ := List.mem_map.1 hm
          exact i2 f hf _ (List.mem_append_right _ (List.mem_singleton.2 rfl)) hfb.symm
        · intro f hf
          rcases List.mem_cons.1 hf with rfl | hf
          · exact h4
          · exact i4 f hf
        · rw [i5]
          rfl

theorem mem_newPrs {env : ForgeEnv} {w : ForgeWorld} {n : Nat} {K : List (Oid × Text)} {p : PullRequest}
    (h : p ∈ newPrs env w n K) : ∃ e ∈ K, p.head = e.2 ∧ p.base = w.defaultBranch ∧ n ≤ p.number := by
  induction K generalizing n with
  | nil => cases h
  | cons e K ih =>
    rw [newPrs, List.mem_cons] at h
    rcases h with rfl | h
    · exact ⟨e, List.mem_cons_self, rfl, rfl, Nat.le_refl _⟩
    · obtain ⟨f, hf, h1, h2, h3⟩ := ih h
      exact ⟨f, List.mem_cons_of_mem _ hf, h1, h2, by omega⟩

theorem newPrs_heads (env : ForgeEnv) (w : ForgeWorld) (n : Nat) (K : List (Oid × Text)) :
    (newPrs env w n K).map (·.head) = K.map Prod.snd := by
  induction K generalizing n with
  | nil => rfl
  | cons e K ih => rw [newPrs, List.map_cons, List.map_cons, ih]

theorem newPrs_numbers {env : ForgeEnv} {w : ForgeWorld} {n : Nat} {K : List (Oid × Text)} :
    ∀ p ∈ newPrs env w n K, ∀ q ∈ newPrs env w n K, p.number = q.number → p = q := by
  induction K generalizing n with
  | nil => intro p hp; cases hp
  | cons e K ih =>
    intro p hp q hq h
    rw [newPrs, List.mem_cons] at hp hq
    rcases hp with rfl | hp <;> rcases hq with rfl | hq
    · rfl
    · obtain ⟨_, _, -, -, h3⟩ := mem_newPrs hq
      simp only at h
      omega
    · obtain ⟨_, _, -, -, h3⟩ := mem_newPrs hp
      simp only at h
      omega
    · exact ih p hp q hq h

end Verif.Spec
