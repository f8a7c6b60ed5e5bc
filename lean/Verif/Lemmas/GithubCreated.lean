import Verif.Lemmas.GithubCreate

/-! Lemmas about the state after pull requests were created. -/

namespace Verif.Spec

open Verif

/-- The branches `K` were made and pushed, and pull requests were created for them. -/
structure Created (env : ForgeEnv) (w : ForgeWorld) (K : List (Oid × Text)) (w' : ForgeWorld) : Prop where
  made : BranchesMade w.github w.repo K w'.repo
  github : w'.github = w.github
  default : w'.defaultBranch = w.defaultBranch
  allows : w'.allows = w.allows
  prs : ∃ n, w'.prs = w.prs ++ newPrs env w' n K ∧ ∀ p ∈ w.prs, p.number < n
  fresh : ∀ e ∈ K, ∀ p ∈ w.prs, p.head ≠ e.2 ∧ p.base ≠ e.2
  nodup : (K.map Prod.snd).Nodup
  open_ : ∀ e ∈ K, ∀ d, w'.tip w'.defaultBranch = some d → w.repo.isAncestor e.1 d = false
  notMain : ∀ e ∈ K, e.2 ≠ env.mainName

section

variable {env : ForgeEnv} {w w' : ForgeWorld} {K : List (Oid × Text)} (hc : Created env w K w')

include hc

theorem Created.tip_other {b : Text} (hb : ∀ e ∈ K, b ≠ e.2) : w'.tip b = w.tip b :=
  tip_made hc.github hc.made hb

theorem Created.tip {e : Oid × Text} (he : e ∈ K) : w'.tip e.2 = some e.1 := by
  unfold ForgeWorld.tip
  rw [hc.github]
  exact (hc.made.pushed e he).1

theorem Created.tip_some {b : Text} (h : ∃ o, w.tip b = some o) : ∃ o, w'.tip b = some o := by
  by_cases hb : ∃ e ∈ K, e.2 = b
  · obtain ⟨e, he, rfl⟩ := hb
    exact ⟨e.1, hc.tip he⟩
  · push Not at hb
    rw [hc.tip_other fun e he h => hb e he h.symm]
    exact h

theorem Created.branch_other {b : Text} (hb : ∀ e ∈ K, b ≠ e.2) (o : Oid) :
    BranchAt w'.repo b o ↔ BranchAt w.repo b o := by
  unfold BranchAt
  have := hc.made.refs (fullName b) fun e he h => hb e he (fullName_inj h)
  unfold fullName at this
  rw [this]

theorem Created.branch {e : Oid × Text} (he : e ∈ K) (o : Oid) : BranchAt w'.repo e.2 o ↔ o = e.1 := by
  unfold BranchAt
  have := hc.made.at_ e he
  unfold fullName at this
  rw [this, Option.some.injEq, eq_comm]

/-- The branches which were there are where they were. -/
theorem Created.branch_old {b : Text} {o : Oid} (h : BranchAt w.repo b o) : BranchAt w'.repo b o := by
  by_cases hb : ∃ e ∈ K, e.2 = b
  · obtain ⟨e, he, rfl⟩ := hb
    rw [hc.branch he]
    rcases hc.made.old e he with h1 | h1
    · unfold BranchAt at h
      unfold fullName at h1
      rw [h] at h1
      exact Option.some.inj h1
    · unfold BranchAt at h
      unfold fullName at h1
      rw [h] at h1
      cases h1
  · push Not at hb
    exact (hc.branch_other (fun e he h => hb e he h.symm) o).2 h

theorem Created.tracks {e : Oid × Text} (he : e ∈ K) : TracksSame w' e.2 := by
  obtain ⟨h1, h2⟩ := hc.made.config e he
  refine ⟨by rw [hc.github]; exact h1, h2, e.1, ?_⟩
  rw [hc.github]
  exact (hc.made.pushed e he).2

theorem Created.tracks_other {b : Text} (hb : ∀ e ∈ K, b ≠ e.2) : TracksSame w' b ↔ TracksSame w b := by
  obtain ⟨h1, h2⟩ := hc.made.unconfig b hb
  have h3 := (hc.made.others (w.github, fullName b) fun e he h => hb e he (fullName_inj (Prod.mk.inj h).2)).2
  unfold fullName at h3
  constructor
  · rintro ⟨a, b, c⟩
    rw [hc.github] at a c
    exact ⟨h1 ▸ a, h2 ▸ b, by rw [← h3]; exact c⟩
  · rintro ⟨a, b, c⟩
    refine ⟨?_, ?_, ?_⟩
    · rw [h1, hc.github]; exact a
    · rw [h2]; exact b
    · rw [hc.github, h3]; exact c

theorem Created.mem_prs {p : PullRequest} (hp : p ∈ w'.prs) :
    p ∈ w.prs ∨ ∃ e ∈ K, p.head = e.2 ∧ p.base = w'.defaultBranch := by
  obtain ⟨n, h, -⟩ := hc.prs
  rw [h, List.mem_append] at hp
  rcases hp with hp | hp
  · exact .inl hp
  · obtain ⟨e, he, h1, h2, -⟩ := mem_newPrs hp
    exact .inr ⟨e, he, h1, h2⟩

theorem Created.old_prs {p : PullRequest} (hp : p ∈ w.prs) : p ∈ w'.prs := by
  obtain ⟨n, h, -⟩ := hc.prs
  rw [h]
  exact List.mem_append_left _ hp

theorem Created.new_pr {e : Oid × Text} (he : e ∈ K) : ∃ p ∈ w'.prs, p.head = e.2 := by
  obtain ⟨n, h, -⟩ := hc.prs
  have : e.2 ∈ (newPrs env w' n K).map (·.head) := by
    rw [newPrs_heads]
    exact List.mem_map.2 ⟨e, he, rfl⟩
  obtain ⟨p, hp, hpe⟩ := List.mem_map.1 this
  exact ⟨p, h ▸ List.mem_append_right _ hp, hpe⟩

theorem Created.hasPr {o : Oid} {p : PullRequest} (h : HasPr w' o p) : HasPr w o p ∨ (o, p.head) ∈ K := by
  rcases hc.mem_prs h.mem with hp | ⟨e, he, h1, -⟩
  · left
    have hn : ∀ e ∈ K, p.head ≠ e.2 := fun e he => (hc.fresh e he p hp).1
    exact ⟨hp, (hc.branch_other hn o).1 h.at_, (hc.tracks_other hn).1 h.tracks⟩
  · right
    have := h.at_
    rw [h1, hc.branch he] at this
    rw [h1, this]
    exact he

theorem Created.hasPr_old {o : Oid} {p : PullRequest} (h : HasPr w o p) : HasPr w' o p := by
  have hn : ∀ e ∈ K, p.head ≠ e.2 := fun e he => (hc.fresh e he p h.mem).1
  exact ⟨hc.old_prs h.mem, (hc.branch_other hn o).2 h.at_, (hc.tracks_other hn).2 h.tracks⟩

theorem Created.usual (hu : UsualForge env w) (hd : ∃ m, w.tip w.defaultBranch = some m) :
    UsualForge env w' := by
  obtain ⟨s1, s2, s3, s4, s5⟩ := hc.made.same
  refine ⟨hu.graph, hc.made.wf hu.refs, hc.github ▸ hu.notSelf, ?_, ?_, ?_, ?_, ?_, ?_, ?_⟩
  · intro b r m hr hm
    by_cases hb : ∃ e ∈ K, e.2 = b
    · obtain ⟨e, he, rfl⟩ := hb
      obtain ⟨h1, h2⟩ := hc.made.config e he
      rw [h1] at hr
      rw [h2] at hm
      rw [hc.github]
      exact ⟨(Option.some.inj hr).symm, (Option.some.inj hm).symm⟩
    · push Not at hb
      obtain ⟨h1, h2⟩ := hc.made.unconfig b fun e he h => hb e he h.symm
      rw [h1] at hr
      rw [h2] at hm
      rw [hc.github]
      exact hu.upstream b r m hr hm
  · intro b r hr
    rw [s1] at hr
    rw [hc.github]
    exact hu.push b r hr
  · obtain ⟨n, hprs, -⟩ := hc.prs
    intro p hp q hq h
    rw [hprs, List.mem_append] at hp hq
    rcases hp with hp | hp <;> rcases hq with hq | hq
    · exact hu.heads p hp q hq h
    · obtain ⟨e, he, h1, -⟩ := mem_newPrs hq
      exact absurd (h.trans h1) (hc.fresh e he p hp).1
    · obtain ⟨e, he, h1, -⟩ := mem_newPrs hp
      exact absurd (h.symm.trans h1) (hc.fresh e he q hq).1
    · have hnd : ((newPrs env w' n K).map (·.head)).Nodup := by rw [newPrs_heads]; exact hc.nodup
      exact List.inj_on_of_nodup_map hnd hp hq h
  · obtain ⟨n, hprs, hn⟩ := hc.prs
    intro p hp q hq h
    rw [hprs, List.mem_append] at hp hq
    rcases hp with hp | hp <;> rcases hq with hq | hq
    · exact hu.numbers p hp q hq h
    · obtain ⟨e, he, -, -, h1⟩ := mem_newPrs hq
      have := hn p hp
      omega
    · obtain ⟨e, he, -, -, h1⟩ := mem_newPrs hp
      have := hn q hq
      omega
    · exact newPrs_numbers p hp q hq h
  · intro p hp
    rcases hc.mem_prs hp with hp | ⟨e, he, h1, h2⟩
    · obtain ⟨a, b, ha, hb, h⟩ := hu.open_ p hp
      refine ⟨a, b, ?_, ?_, ?_⟩
      · rw [hc.tip_other fun e he => (hc.fresh e he p hp).1]; exact ha
      · rw [hc.tip_other fun e he => (hc.fresh e he p hp).2]; exact hb
      · rw [s5]; exact h
    · obtain ⟨d, hd'⟩ := hc.tip_some hd
      rw [← hc.default] at hd'
      refine ⟨e.1, d, ?_, ?_, ?_⟩
      · rw [h1]; exact hc.tip he
      · rw [h2]; exact hd'
      · rw [s5]; exact hc.open_ e he d hd'
  · intro o
    rw [s5]; exact hu.refl o
  · intro a b
    rw [s5]; exact hu.ancestor a b

variable {K' : List (Oid × Text)} (hK' : ∀ e, e ∈ K' ↔ e ∈ K)

include hK'

theorem Created.jobs (hnode : ∀ e ∈ K, e.1 ∈ env.dag.graph.nodes)
    (hs : K'.Pairwise fun e f => ¬ Anc env.dag.graph f.1 e.1) : Jobs env w' K' :=
  ⟨fun e he => (hc.branch ((hK' e).1 he) e.1).2 rfl, fun e he => hc.tracks ((hK' e).1 he),
    fun e he => hc.new_pr ((hK' e).1 he), fun e he => hc.notMain e ((hK' e).1 he),
    fun e he => hnode e ((hK' e).1 he), hs⟩

theorem Created.willing (hr : w.repo.reachable w.github = true)
    (he : ∀ n b t x, w.allows (.editPr n b t x) = true) (hm : ∃ m, w.tip env.mainName = some m) :
    Willing env w' K' := by
  obtain ⟨s1, s2, s3, s4, s5⟩ := hc.made.same
  refine ⟨by rw [s3, hc.github]; exact hr, fun e he => .inl (hc.tip ((hK' e).1 he)), by rw [hc.allows]; exact he,
    hc.tip_some hm⟩

theorem Created.undisturbed (hu : UsualForge env w')
    (hmain : ∀ e ∈ K, ∀ B, w.tip env.mainName = some B → w.repo.isAncestor e.1 B = false)
    (hbelow : ∀ e ∈ K, ∀ a p, BelowIn env a e.1 → HasPr w a p → ∀ B, w.tip p.head = some B →
      w.repo.isAncestor e.1 B = false) : Undisturbed env w' K' := by
  obtain ⟨s1, s2, s3, s4, s5⟩ := hc.made.same
  refine ⟨?_, ?_, ?_, ?_⟩
  · intro p hp h k hh hk ha
    obtain ⟨h0, b0, e1, e2, e3⟩ := hu.open_ p hp
    have := hc.tip ((hK' _).1 hk)
    simp only at this
    rw [this] at e2
    rw [hh] at e1
    rw [← Option.some.inj e1, ← Option.some.inj e2, ha] at e3
    cases e3
  · intro e he h
    exact absurd (hc.tip ((hK' e).1 he)) h
  · intro e he B hB
    rw [hc.tip_other fun f hf h => hc.notMain f hf h.symm] at hB
    rw [s5]
    exact hmain e ((hK' e).1 he) B hB
  · intro e he a p hb hp hn B hB
    rcases hc.hasPr hp with hp' | hp'
    · rw [hc.tip_other fun f hf => (hc.fresh f hf p hp'.mem).1] at hB
      rw [s5]
      exact hbelow e ((hK' e).1 he) a p hb hp' B hB
    · exact absurd ((hK' _).2 hp') hn

end

/-! ### the other pull requests -/

section

variable {env : ForgeEnv} {w w' : ForgeWorld} {K K' K2 : List (Oid × Text)} (hu : UsualForge env w)
  (hiter : ∀ s, (env.iter s).Perm s) (hc : Created env w K w') (hu' : UsualForge env w')
  (hK' : ∀ e, e ∈ K' ↔ e ∈ K) (hJ : Jobs env w' K') (hJ2 : Jobs env w K2)

include hu hc hK' hJ hJ2

theorem second_fresh : ∀ e ∈ K2, ∀ f ∈ K, e.2 ≠ f.2 := by
  intro e he f hf h
  obtain ⟨p, hp, hpe⟩ := hJ2.pr e he
  exact (hc.fresh f hf p hp).1 (hpe.trans h)

theorem second_tip {b : Text} (hb : ∀ e ∈ K, b ≠ e.2) : (forgeState env w' K' K').tip b = w.tip b := by
  rw [forgeState_tip_other fun o ho => hb _ ((hK' _).1 ho) rfl, hc.tip_other hb]

theorem second_jobs : Jobs env (forgeState env w' K' K') K2 := by
  have hfr := second_fresh hu hc hK' hJ hJ2
  have hrefs : (forgeState env w' K' K').repo.refs = w'.repo.refs := (pushedRepo_same _ _ _).1
  refine ⟨?_, ?_, ?_, hJ2.notMain, hJ2.node, hJ2.sorted⟩
  · intro e he
    have := hc.branch_old (hJ2.at_ e he)
    unfold BranchAt at *
    rw [hrefs]
    exact this
  · intro e he
    rw [forgeState_tracks hJ, hc.tracks_other (hfr e he)]
    exact hJ2.tracks e he
  · intro e he
    obtain ⟨p, hp, hpe⟩ := hJ2.pr e he
    exact ⟨editPr env w' K' p, List.mem_map.2 ⟨p, hc.old_prs hp, rfl⟩, by rw [editPr_head]; exact hpe⟩

theorem second_willing (hw : Willing env w K2) : Willing env (forgeState env w' K' K') K2 := by
  have hfr := second_fresh hu hc hK' hJ hJ2
  have hs := pushedRepo_same w'.repo w'.github K'
  obtain ⟨s1, s2, s3, s4, s5⟩ := hc.made.same
  refine ⟨?_, ?_, ?_, ?_⟩
  · show (pushedRepo w'.repo w'.github K').reachable w'.github = true
    rw [hs.2.1, s3, hc.github]
    exact hw.reachable
  · intro e he
    have h1 := second_tip hu hc hK' hJ hJ2 (hfr e he)
    have h2 : (pushedRepo w'.repo w'.github K').tracking.get? (w'.github, fullName e.2) =
        w.repo.tracking.get? (w.github, fullName e.2) := by
      rw [(pushedRepo_other fun f hf h => hfr e he f ((hK' f).1 hf) (fullName_inj (Prod.mk.inj h).2)).2, hc.github]
      exact (hc.made.others _ fun f hf h => hfr e he f hf (fullName_inj (Prod.mk.inj h).2)).2
    have h3 : (pushedRepo w'.repo w'.github K').accepts = w.repo.accepts := by rw [hs.2.2.1, s4]
    rw [h1]
    show _ ∨ ((pushedRepo w'.repo w'.github K').tracking.get? (w'.github, fullName e.2) = _ ∧
      (pushedRepo w'.repo w'.github K').accepts w'.github _ = true)
    rw [h2, h3, hc.github]
    exact hw.lease e he
  · show ∀ n b t x, w'.allows _ = true
    rw [hc.allows]
    exact hw.edits
  · obtain ⟨m, hm⟩ := hw.main
    exact ⟨m, by rw [second_tip hu hc hK' hJ hJ2 fun e he h => hc.notMain e he h.symm]; exact hm⟩

include hiter hu'

theorem second_undisturbed (hd : Undisturbed env w K2) : Undisturbed env (forgeState env w' K' K') K2 := by
  have hfr := second_fresh hu hc hK' hJ hJ2
  have htip := fun {b} => second_tip hu hc hK' hJ hJ2 (b := b)
  have hanc : (forgeState env w' K' K').repo.isAncestor = w.repo.isAncestor := by
    show (pushedRepo w'.repo w'.github K').isAncestor = _
    rw [(pushedRepo_same _ _ _).2.2.2.1, hc.made.same.2.2.2.2]
  have hnanc : ∀ a b, b ∈ env.dag.graph.nodes → ¬ Anc env.dag.graph a b → w.repo.isAncestor a b = false := by
    intro a b hb h
    rw [Bool.eq_false_iff]
    exact fun h' => h ((hu.ancestor a b hb).1 h')
  have hbelow : ∀ {a o}, BelowIn env a o → ¬ Anc env.dag.graph o a := fun h h' =>
    h.ne (h.anc.antisymm hu.graph h')
  -- a pull request is one from before, or is the one of a new branch
  have hcases : ∀ p ∈ (forgeState env w' K' K').prs, (p ∈ w.prs ∧ (∀ e ∈ K, p.head ≠ e.2 ∧ p.base ≠ e.2)) ∨
      ∃ e ∈ K, p.head = e.2 ∧ p.base = prBase env w'.repo w'.prs e.1 := by
    intro p hp
    obtain ⟨q, hq, rfl⟩ := List.mem_map.1 hp
    rcases hc.mem_prs hq with hq' | ⟨e, he, h1, -⟩
    · left
      have hn : ∀ o, (o, q.head) ∉ K' := fun o ho => (hc.fresh _ ((hK' _).1 ho) q hq').1 rfl
      rw [(editPr_eq hJ.unique q).2 hn]
      exact ⟨hq', fun e he => hc.fresh e he q hq'⟩
    · right
      have hin : (e.1, q.head) ∈ K' := (hK' _).2 (h1 ▸ he)
      refine ⟨e, he, by rw [editPr_head]; exact h1, ?_⟩
      rw [(editPr_eq hJ.unique q).1 e.1 hin]
      rfl
  refine ⟨?_, ?_, ?_, ?_⟩
  · intro p hp h k hh hk ha
    rw [hanc] at ha
    rcases hcases p hp with ⟨hp', hn⟩ | ⟨e, he, h1, h2⟩
    · rw [htip fun e he => (hn e he).1] at hh
      exact hd.old p hp' h k hh hk ha
    · exfalso
      have hh' : h = e.1 := by
        rw [h1, forgeState_tip_mem hJ.unique ((hK' e).2 he)] at hh
        exact (Option.some.inj hh).symm
      subst hh'
      rw [h2] at hk
      rcases prBase_cases hu' hiter (hJ.node e ((hK' e).2 he)) with ⟨a, q, hba, hq, hqb⟩ | ⟨-, hm⟩
      · rw [hqb] at hk
        have hka : k = a := by
          have e1 := hc.branch_old (hJ2.at_ _ hk)
          have e2 := hq.at_
          unfold BranchAt at e1 e2
          rw [e2] at e1
          exact (Option.some.inj e1).symm
        subst hka
        have := (hu.ancestor e.1 k (hJ2.node _ hk)).1 ha
        exact hbelow hba this
      · rw [hm] at hk
        exact hJ2.notMain _ hk rfl
  · intro e he hne p hp hpe B hB
    rw [htip (hfr e he)] at hne
    rw [hanc]
    rcases hcases p hp with ⟨hp', hn⟩ | ⟨f, hf, h1, -⟩
    · rw [htip fun e he => (hn e he).2] at hB
      exact hd.new e he hne p hp' hpe B hB
    · exact absurd (hpe.symm.trans h1) (hfr e he f hf)
  · intro e he B hB
    rw [htip fun f hf h => hc.notMain f hf h.symm] at hB
    rw [hanc]
    exact hd.main e he B hB
  · intro e he a p hb hp hn B hB
    rw [hanc]
    obtain ⟨q, hq, rfl⟩ := (forgeState_hasPr hJ).1 hp
    rw [editPr_head] at hn hB
    rcases hc.hasPr hq with hq' | hq'
    · rw [htip fun f hf => (hc.fresh f hf q hq'.mem).1] at hB
      exact hd.below e he a q hb hq' hn B hB
    · rw [forgeState_tip_mem hJ.unique ((hK' _).2 hq')] at hB
      obtain rfl := Option.some.inj hB
      exact hnanc _ _ (hJ.node _ ((hK' _).2 hq')) (hbelow hb)

end

/-- After the update of a pull request it is as it should be. -/
theorem forgeState_prCurrent {env : ForgeEnv} {w : ForgeWorld} {K : List (Oid × Text)} (hK : Jobs env w K) {o : Oid}
    {p : PullRequest} (h : (o, p.head) ∈ K) : PrCurrent env (forgeState env w K K) o (editPr env w K p) := by
  have he := (editPr_eq (env := env) (w := w) hK.unique p).1 o h
  have hd := forgeState_desired hK o
  refine ⟨?_, ?_, ?_, ?_⟩
  · rw [editPr_head]
    exact forgeState_tip_mem hK.unique h
  · rw [he, hd]
  · rw [he, hd]
  · rw [he, hd]

end Verif.Spec
