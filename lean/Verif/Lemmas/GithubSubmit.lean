import Verif.Lemmas.GithubStatus

/-! Lemmas about submitting pull requests. -/

namespace Verif.Spec

open Verif

/-! ### only the members count -/

theorem Willing.congr {env : ForgeEnv} {w : ForgeWorld} {K K' : List (Oid × Text)} (h : Willing env w K)
    (hK : ∀ e, e ∈ K' → e ∈ K) : Willing env w K' :=
  ⟨h.reachable, fun e he => h.lease e (hK e he), h.edits, h.main⟩

theorem Undisturbed.congr {env : ForgeEnv} {w : ForgeWorld} {K K' : List (Oid × Text)} (h : Undisturbed env w K)
    (hK : ∀ e, e ∈ K' ↔ e ∈ K) : Undisturbed env w K' :=
  ⟨fun p hp x k h1 h2 h3 => (hK _).2 (h.old p hp x k h1 ((hK _).1 h2) h3),
    fun e he => h.new e ((hK e).1 he), fun e he => h.main e ((hK e).1 he),
    fun e he a p h1 h2 h3 => h.below e ((hK e).1 he) a p h1 h2 fun h' => h3 ((hK _).2 h')⟩

theorem Updated.congr {env : ForgeEnv} {w w' : ForgeWorld} {K K' : List (Oid × Text)} (h : Updated env w K w')
    (hK : ∀ e, e ∈ K' ↔ e ∈ K) : Updated env w K' w' := by
  refine ⟨h.refs, h.config, fun e he => h.pushed e ((hK e).1 he),
    fun r x hn => h.others r x fun e he => hn e ((hK e).2 he), ?_⟩
  refine h.prs.imp ?_
  rintro p p' ⟨h1, h2⟩
  exact ⟨fun o ho => h1 o ((hK _).1 ho), fun hn => h2 fun o ho => hn o ((hK _).2 ho)⟩

/-! ### the new state -/

theorem editPr_eq {env : ForgeEnv} {w : ForgeWorld} {K : List (Oid × Text)}
    (hK : ∀ e ∈ K, ∀ f ∈ K, e.2 = f.2 → e = f) (p : PullRequest) :
    (∀ o, (o, p.head) ∈ K → editPr env w K p = { p with
      base := (desiredPr env w.repo w.prs o).base
      title := (desiredPr env w.repo w.prs o).title
      body := (desiredPr env w.repo w.prs o).body }) ∧
    ((∀ o, (o, p.head) ∉ K) → editPr env w K p = p) := by
  unfold editPr
  constructor
  · intro o ho
    cases hf : K.find? fun e => decide (e.2 = p.head) with
    | none =>
      rw [List.find?_eq_none] at hf
      exact absurd (decide_eq_true rfl) (hf _ ho)
    | some e =>
      have h1 := List.mem_of_find?_eq_some hf
      have h2 : e.2 = p.head := by simpa using List.find?_some hf
      have := hK e h1 (o, p.head) ho h2
      subst this
      rfl
  · intro h
    have : K.find? (fun e => decide (e.2 = p.head)) = none := by
      rw [List.find?_eq_none]
      intro e he h'
      have h' := of_decide_eq_true h'
      exact h e.1 (h' ▸ he)
    rw [this]

theorem forgeState_updated {env : ForgeEnv} {w : ForgeWorld} {K : List (Oid × Text)} (hK : Jobs env w K) :
    Updated env w K (forgeState env w K K) := by
  have hs := pushedRepo_same w.repo w.github K
  refine ⟨hs.1, ⟨hs.2.2.2.2.1, hs.2.2.2.2.2.1⟩, ?_, ?_, ?_⟩
  · rintro ⟨o, b⟩ he
    exact forgeState_tip_mem hK.unique he
  · intro r x h
    exact (pushedRepo_other h).1
  · show List.Forall₂ _ w.prs (w.prs.map (editPr env w K))
    rw [List.forall₂_map_right_iff]
    exact List.forall₂_same.2 fun p _ => editPr_eq hK.unique p

theorem forgeState_desired {env : ForgeEnv} {w : ForgeWorld} {K : List (Oid × Text)} (hK : Jobs env w K)
    (o : Oid) :
    desiredPr env (forgeState env w K K).repo (forgeState env w K K).prs o = desiredPr env w.repo w.prs o := by
  have h1 := (editPrs_heads env w K).desired env (forgeState env w K K).repo o
  have h2 : SameView w.repo (forgeState env w K K).repo :=
    pushedRepo_view fun e he => (hK.tracks e he).tracked
  exact h1.trans (h2.desired env w.prs o)

theorem forgeState_tracks {env : ForgeEnv} {w : ForgeWorld} {K : List (Oid × Text)} (hK : Jobs env w K)
    (b : Text) : TracksSame (forgeState env w K K) b ↔ TracksSame w b := by
  have hs := pushedRepo_same w.repo w.github K
  have h2 : SameView w.repo (forgeState env w K K).repo :=
    pushedRepo_view fun e he => (hK.tracks e he).tracked
  have ht := h2.tracking (w.github, t!"refs/heads/" ++ b)
  have hiff : (∃ u, (forgeState env w K K).repo.tracking.get? (w.github, t!"refs/heads/" ++ b) = some u) ↔
      ∃ u, w.repo.tracking.get? (w.github, t!"refs/heads/" ++ b) = some u := by
    rw [← Option.isSome_iff_exists, ← Option.isSome_iff_exists, ht]
  constructor
  · rintro ⟨h1, h3, h4⟩
    exact ⟨h2.remote ▸ h1, h2.merge ▸ h3, hiff.1 h4⟩
  · rintro ⟨h1, h3, h4⟩
    refine ⟨?_, ?_, hiff.2 h4⟩
    · rw [h2.remote]; exact h1
    · rw [h2.merge]; exact h3

theorem forgeState_usual {env : ForgeEnv} {w : ForgeWorld} (hu : UsualForge env w)
    (hiter : ∀ s, (env.iter s).Perm s) {K : List (Oid × Text)} (hK : Jobs env w K) (hd : Undisturbed env w K)
    (hmain : ∃ m, w.tip env.mainName = some m) : UsualForge env (forgeState env w K K) := by
  obtain ⟨h1, h2, h3, h4, h5, h6, h7, h8⟩ := pushedRepo_same w.repo w.github K
  have hmap : ∀ p ∈ (forgeState env w K K).prs, ∃ q ∈ w.prs, editPr env w K q = p := fun p hp =>
    List.mem_map.1 hp
  have hcalm := calm hu hiter hK hd (Q := K) (R := []) (E := K) (by simp) (.inl rfl)
  have htip : ∀ b, (∃ o, w.tip b = some o) → ∃ o, (forgeState env w K K).tip b = some o := by
    rintro b ⟨o, ho⟩
    by_cases hb : ∃ f ∈ K, f.2 = b
    · obtain ⟨f, hf, rfl⟩ := hb
      exact ⟨f.1, forgeState_tip_mem hK.unique hf⟩
    · exact ⟨o, by rw [forgeState_tip_other fun o' ho' => hb ⟨_, ho', rfl⟩, ho]⟩
  refine ⟨hu.graph, ?_, hu.notSelf, ?_, ?_, ?_, ?_, ?_, ?_, ?_⟩
  · show AMap.WF (pushedRepo w.repo w.github K).refs
    rw [h1]; exact hu.refs
  · intro b r m
    show (pushedRepo w.repo w.github K).remote.get? b = some r → (pushedRepo w.repo w.github K).merge.get? b = some m → _
    rw [h5, h6]
    exact hu.upstream b r m
  · intro b r
    show (pushedRepo w.repo w.github K).pushRemote b = some r → _
    rw [h7]
    exact hu.push b r
  · intro p hp q hq h
    obtain ⟨p, hp', rfl⟩ := hmap p hp
    obtain ⟨q, hq', rfl⟩ := hmap q hq
    rw [editPr_head, editPr_head] at h
    rw [hu.heads p hp' q hq' h]
  · intro p hp q hq h
    obtain ⟨p, hp', rfl⟩ := hmap p hp
    obtain ⟨q, hq', rfl⟩ := hmap q hq
    rw [editPr_number, editPr_number] at h
    rw [hu.numbers p hp' q hq' h]
  · intro p' hp'
    have hm := hcalm p' hp'
    obtain ⟨p, hp, rfl⟩ := hmap p' hp'
    obtain ⟨a, b, ha, hb, -⟩ := hu.open_ p hp
    obtain ⟨x, hx⟩ := htip _ ⟨a, ha⟩
    have hy : ∃ y, (forgeState env w K K).tip (editPr env w K p).base = some y := by
      by_cases hin : ∃ o, (o, p.head) ∈ K
      · obtain ⟨o, ho⟩ := hin
        rw [(editPr_eq hK.unique p).1 o ho]
        refine htip _ ?_
        show ∃ y, w.tip (prBase env w.repo w.prs o) = some y
        rcases prBase_cases hu hiter (hK.node _ ho) with ⟨c, q, -, hq, e⟩ | ⟨-, e⟩
        · rw [e]
          obtain ⟨a, b, ha, -, -⟩ := hu.open_ q hq.mem
          exact ⟨a, ha⟩
        · rw [e]; exact hmain
      · push Not at hin
        rw [(editPr_eq hK.unique p).2 hin]
        exact htip _ ⟨b, hb⟩
    obtain ⟨y, hy⟩ := hy
    refine ⟨x, y, ?_, hy, ?_⟩
    · rw [editPr_head]; exact hx
    · unfold ForgeWorld.merged at hm
      rw [editPr_head, hx, hy] at hm
      exact hm
  · intro o
    show (pushedRepo w.repo w.github K).isAncestor o o = true
    rw [h4]; exact hu.refl o
  · intro a b
    show b ∈ _ → ((pushedRepo w.repo w.github K).isAncestor a b = true ↔ _)
    rw [h4]; exact hu.ancestor a b

theorem forgeState_counts {env : ForgeEnv} {w : ForgeWorld} {K : List (Oid × Text)} (b : Text) (o : Oid) :
    Counts (forgeState env w K K) b o ↔ Counts w b o := by
  have h1 : (forgeState env w K K).repo.refs = w.repo.refs := (pushedRepo_same w.repo w.github K).1
  unfold Counts BranchAt
  rw [h1]

theorem forgeState_hasPr {env : ForgeEnv} {w : ForgeWorld} {K : List (Oid × Text)} (hK : Jobs env w K) {o : Oid}
    {p' : PullRequest} :
    HasPr (forgeState env w K K) o p' ↔ ∃ p, HasPr w o p ∧ editPr env w K p = p' := by
  have h1 : (forgeState env w K K).repo.refs = w.repo.refs := (pushedRepo_same w.repo w.github K).1
  constructor
  · rintro ⟨h2, h3, h4⟩
    obtain ⟨p, hp, rfl⟩ := List.mem_map.1 h2
    refine ⟨p, ⟨hp, ?_, ?_⟩, rfl⟩
    · unfold BranchAt at *
      rw [h1, editPr_head] at h3
      exact h3
    · rw [editPr_head, forgeState_tracks hK] at h4
      exact h4
  · rintro ⟨p, ⟨h2, h3, h4⟩, rfl⟩
    refine ⟨List.mem_map.2 ⟨p, h2, rfl⟩, ?_, ?_⟩
    · unfold BranchAt at *
      rw [h1, editPr_head]
      exact h3
    · rw [editPr_head, forgeState_tracks hK]
      exact h4

/-- What was updated is in order. -/
theorem forgeState_inOrder {env : ForgeEnv} {w : ForgeWorld} (hu : UsualForge env w) {K : List (Oid × Text)}
    (hK : Jobs env w K) {o : Oid} {b : Text} (hc : Counts w b o) (h : (o, b) ∈ K) :
    InOrder env (forgeState env w K K) o b := by
  obtain ⟨p, hp, rfl⟩ := hK.pr _ h
  have hp' : HasPr w o p := ⟨hp, hc.1, hK.tracks _ h⟩
  refine ⟨(forgeState_counts _ _).2 hc, editPr env w K p, (forgeState_hasPr hK).2 ⟨p, hp', rfl⟩,
    editPr_head .., ?_⟩
  have he := (editPr_eq (env := env) (w := w) hK.unique p).1 o h
  have hd := forgeState_desired hK o
  refine ⟨?_, ?_, ?_, ?_⟩
  · rw [editPr_head]
    exact forgeState_tip_mem hK.unique h
  · rw [he, hd]
  · rw [he, hd]
  · rw [he, hd]

/-- What was not updated is as before. -/
theorem forgeState_current {env : ForgeEnv} {w : ForgeWorld} {K : List (Oid × Text)}
    (hK : Jobs env w K) {o : Oid} {p : PullRequest} (h : ∀ o, (o, p.head) ∉ K) :
    PrCurrent env (forgeState env w K K) o (editPr env w K p) ↔ PrCurrent env w o p := by
  rw [(editPr_eq hK.unique p).2 h]
  have hd := forgeState_desired hK o
  have ht : (forgeState env w K K).tip p.head = w.tip p.head := forgeState_tip_other h
  constructor
  · rintro ⟨h1, h2, h3, h4⟩
    rw [hd] at h2 h3 h4
    exact ⟨ht ▸ h1, h2, h3, h4⟩
  · rintro ⟨h1, h2, h3, h4⟩
    refine ⟨ht.trans h1, ?_, ?_, ?_⟩
    · rw [hd]; exact h2
    · rw [hd]; exact h3
    · rw [hd]; exact h4

theorem forgeState_notSubmitted {env : ForgeEnv} {w : ForgeWorld} {K : List (Oid × Text)}
    (hK : Jobs env w K) {o : Oid} : NotSubmitted (forgeState env w K K) o ↔ NotSubmitted w o := by
  constructor
  · intro h b p hb hp e
    refine h b (editPr env w K p) ((forgeState_counts _ _).2 hb) ((forgeState_hasPr hK).2 ⟨p, hp, rfl⟩) ?_
    rw [editPr_head]; exact e
  · intro h b p' hb hp' e
    obtain ⟨p, hp, rfl⟩ := (forgeState_hasPr hK).1 hp'
    rw [editPr_head] at e
    exact h b p ((forgeState_counts _ _).1 hb) hp e

/-! ### the commits to be updated -/

/-- The commits and branches, in the order of the loop. -/
def jobsOf (env : ForgeEnv) (m : AMap Oid PrStatus) : List (Oid × Text) :=
  (sortedStatuses env m).map fun e => (e.1, e.2.localName.getD [])

theorem jobsOf_sorted {env : ForgeEnv} (hg : WFGraph env.dag.graph) (m : AMap Oid PrStatus) :
    (jobsOf env m).Pairwise fun e f => ¬ Anc env.dag.graph f.1 e.1 := by
  unfold jobsOf
  rw [List.pairwise_map]
  exact sortedStatuses_sorted hg m

theorem sortedStatuses_eq {env : ForgeEnv} {m : AMap Oid PrStatus} {g : Text}
    (h : ∀ o s, m.get? o = some s → ∃ b, s = createdStatus g b) :
    sortedStatuses env m = (jobsOf env m).map fun e => (e.1, createdStatus g e.2) := by
  unfold jobsOf
  rw [List.map_map]
  symm
  refine (List.map_congr_left (g := id) ?_).trans (List.map_id _)
  rintro ⟨o, s⟩ he
  obtain ⟨b, rfl⟩ := h o s (mem_sortedStatuses.1 he).2
  rfl

theorem mem_jobsOf {env : ForgeEnv} {m : AMap Oid PrStatus} {g : Text}
    (h : ∀ o s, m.get? o = some s → ∃ b, s = createdStatus g b) {o : Oid} {b : Text} :
    (o, b) ∈ jobsOf env m ↔ o ∈ env.dag.graph.nodes ∧ m.get? o = some (createdStatus g b) := by
  unfold jobsOf
  rw [List.mem_map]
  constructor
  · rintro ⟨⟨o', s⟩, he, e⟩
    obtain ⟨h1, h2⟩ := mem_sortedStatuses.1 he
    obtain ⟨b', rfl⟩ := h o' s h2
    obtain ⟨rfl, rfl⟩ := Prod.mk.inj e
    exact ⟨h1, h2⟩
  · rintro ⟨h1, h2⟩
    exact ⟨(o, createdStatus g b), mem_sortedStatuses.2 ⟨h1, h2⟩, rfl⟩

/-- The statuses which say that something is to be updated. -/
theorem needs_created {env : ForgeEnv} {w : ForgeWorld} (hu : UsualForge env w) {set : List Oid} {o : Oid}
    {s : PrStatus} : (prsWith .needsUpdate (queryPrStatus env w set)).get? o = some s ↔
      ∃ b, o ∈ set ∧ NeedsWork env w o b ∧ s = createdStatus w.github b := by
  have hwf := wf_queryPrStatus env w set
  rw [prsWith_get hwf]
  constructor
  · rintro ⟨h1, h2⟩
    have ho : o ∈ set := by
      by_contra hn
      rw [queryPrStatus_get, if_neg hn] at h1
      cases h1
    rcases status_cases hu ho h1 with h | ⟨b, h, rfl⟩ | ⟨b, h, rfl⟩
    · rw [h.1] at h2; cases h2
    · exact ⟨b, ho, h, rfl⟩
    · cases h2
  · rintro ⟨b, ho, h, rfl⟩
    refine ⟨?_, rfl⟩
    obtain ⟨hc, p, hp, rfl, hn⟩ := h
    rw [status_counts hu.refs ho hc, (branchPrStatus_pr hu hp.mem hp.tracks).2 hn]

theorem needs_jobs {env : ForgeEnv} {w : ForgeWorld} (hu : UsualForge env w) {set : List Oid}
    (hset : ∀ o ∈ set, o ∈ env.dag.graph.nodes) {o : Oid} {b : Text} :
    (o, b) ∈ jobsOf env (prsWith .needsUpdate (queryPrStatus env w set)) ↔ o ∈ set ∧ NeedsWork env w o b := by
  rw [mem_jobsOf (g := w.github) (fun o s h => by
    obtain ⟨b, -, -, h⟩ := (needs_created hu).1 h
    exact ⟨b, h⟩), needs_created hu]
  constructor
  · rintro ⟨-, b', h1, h2, h3⟩
    have : b = b' := by
      simp only [createdStatus, PrStatus.mk.injEq, Option.some.injEq] at h3
      exact h3.2
    exact ⟨h1, this ▸ h2⟩
  · rintro ⟨h1, h2⟩
    exact ⟨hset o h1, b, h1, h2, rfl⟩

theorem needs_isJobs {env : ForgeEnv} {w : ForgeWorld} (hu : UsualForge env w) {set : List Oid}
    (hset : ∀ o ∈ set, o ∈ env.dag.graph.nodes) (hmain : ∀ o ∈ set, ¬ BranchAt w.repo env.mainName o) :
    Jobs env w (jobsOf env (prsWith .needsUpdate (queryPrStatus env w set))) := by
  have hm : ∀ e ∈ jobsOf env (prsWith .needsUpdate (queryPrStatus env w set)),
      e.1 ∈ set ∧ NeedsWork env w e.1 e.2 := fun e he => (needs_jobs hu hset).1 he
  refine ⟨fun e he => (hm e he).2.1.1, ?_, ?_, ?_, fun e he => hset _ (hm e he).1, jobsOf_sorted hu.graph _⟩
  · intro e he
    obtain ⟨-, -, p, hp, h, -⟩ := hm e he
    exact h ▸ hp.tracks
  · intro e he
    obtain ⟨-, -, p, hp, h, -⟩ := hm e he
    exact ⟨p, hp.mem, h⟩
  · intro e he h
    have := hm e he
    exact hmain _ this.1 (h ▸ this.2.1.1)

/-- Updating the commits which need it. -/
theorem updatePrs_eq {env : ForgeEnv} {w : ForgeWorld} (hu : UsualForge env w)
    (hiter : ∀ s, (env.iter s).Perm s) {m : AMap Oid PrStatus}
    (hm : ∀ o s, m.get? o = some s → ∃ b, s = createdStatus w.github b) (hK : Jobs env w (jobsOf env m))
    (hd : Undisturbed env w (jobsOf env m)) (hw : Willing env w (jobsOf env m)) :
    updatePrs env w m = (forgeState env w (jobsOf env m) (jobsOf env m), updateLog env w (jobsOf env m), true) := by
  have h0 : forgeState env w [] [] = w := by
    unfold forgeState
    have : w.prs.map (editPr env w []) = w.prs := by
      exact (List.map_congr_left (g := id) fun p _ => rfl).trans (List.map_id _)
    rw [this]
    rfl
  unfold updatePrs
  rw [sortedStatuses_eq hm]
  have := updatePrLoop_eq hu hiter hK hd hw [] (jobsOf env m) rfl
  rw [h0] at this
  exact this

end Verif.Spec
