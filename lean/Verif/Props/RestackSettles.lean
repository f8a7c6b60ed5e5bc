import Verif.Props.Restack

/-! C44: after restacking, nothing is abandoned. -/

namespace Verif.Props

open Verif Verif.Spec

/-! ### the events -/

theorem lastEffect_mem {es : List Event} {x : Oid} {e : Event} {b : Bool}
    (h : lastEffect x es = some (e, b)) : e ∈ es ∧ effectOn x e = some b := by
  unfold lastEffect at h
  obtain ⟨e', he', h'⟩ := List.exists_of_findSome?_eq_some h
  simp only [Option.map_eq_some_iff, Prod.mk.injEq] at h'
  obtain ⟨b', h1, rfl, rfl⟩ := h'
  exact ⟨List.mem_reverse.1 he', h1⟩

theorem lastEffect_isSome {es : List Event} {x : Oid} {e : Event} (he : e ∈ es)
    (h : (effectOn x e).isSome) : ∃ y, lastEffect x es = some y := by
  cases hl : lastEffect x es with
  | some y => exact ⟨y, rfl⟩
  | none =>
    rw [lastEffect_eq_none_iff] at hl
    unfold firstEvent at hl
    exact absurd h (List.find?_eq_none.1 hl e he)

/-- The effect of recording rewrites on a commit. -/
theorem lastEffect_rewrites (ts : Timestamp) (tx : TxId) (l : List (Oid × MaybeZero)) (x : Oid) :
    let es := l.map fun e => Event.rewrite ts tx (.nonZero e.1) e.2
    (x ∈ l.map Prod.fst → (∀ c, (c, MaybeZero.nonZero x) ∉ l) →
      ∃ m, lastEffect x es = some (.rewrite ts tx (.nonZero x) m, false)) ∧
    (x ∉ l.map Prod.fst → ∀ c, (c, MaybeZero.nonZero x) ∈ l →
      ∃ c, c ≠ x ∧ lastEffect x es = some (.rewrite ts tx (.nonZero c) (.nonZero x), true)) ∧
    (x ∉ l.map Prod.fst → (∀ c, (c, MaybeZero.nonZero x) ∉ l) → lastEffect x es = none) := by
  intro es
  have hmem : ∀ e b, lastEffect x es = some (e, b) →
      ∃ y ∈ l, e = .rewrite ts tx (.nonZero y.1) y.2 ∧
        ((y.2 = .nonZero x ∧ b = true) ∨ (y.2 ≠ .nonZero x ∧ y.1 = x ∧ b = false)) := by
    intro e b h
    obtain ⟨h1, h2⟩ := lastEffect_mem h
    obtain ⟨y, hy, rfl⟩ := List.mem_map.1 h1
    refine ⟨y, hy, rfl, ?_⟩
    simp only [effectOn] at h2
    split at h2
    · rename_i h; exact .inl ⟨h, by simpa using h2.symm⟩
    · rename_i h
      split at h2
      · rename_i h'
        exact .inr ⟨h, by simpa using h', by simpa using h2.symm⟩
      · simp at h2
  refine ⟨fun h1 h2 => ?_, fun h1 c h2 => ?_, fun h1 h2 => ?_⟩
  · obtain ⟨y, hy, rfl⟩ := List.mem_map.1 h1
    obtain ⟨⟨e, b⟩, hl⟩ := lastEffect_isSome (x := y.1) (es := es) (List.mem_map.2 ⟨y, hy, rfl⟩)
      (by simp only [effectOn]; split <;> simp)
    obtain ⟨z, hz, rfl, h | h⟩ := hmem e b hl
    · exfalso
      obtain ⟨z1, z2⟩ := z
      simp only at h
      exact h2 z1 (h.1 ▸ hz)
    · exact ⟨z.2, by rw [hl, h.2.1, h.2.2]⟩
  · obtain ⟨⟨e, b⟩, hl⟩ := lastEffect_isSome (x := x) (es := es) (List.mem_map.2 ⟨_, h2, rfl⟩)
      (by simp [effectOn])
    obtain ⟨z, hz, rfl, h | h⟩ := hmem e b hl
    · refine ⟨z.1, ?_, by rw [hl, h.1, h.2]⟩
      rintro rfl
      exact h1 (List.mem_map.2 ⟨z, hz, rfl⟩)
    · exact absurd (List.mem_map.2 ⟨z, hz, h.2.1⟩) h1
  · cases hl : lastEffect x es with
    | none => rfl
    | some y =>
      obtain ⟨e, b⟩ := y
      obtain ⟨z, hz, rfl, h | h⟩ := hmem e b hl
      · obtain ⟨z1, z2⟩ := z
        exact absurd (h.1 ▸ hz) (h2 z1)
      · exact absurd (List.mem_map.2 ⟨z, hz, h.2.1⟩) h1

/-- Moving branches has no effect on commits. -/
theorem lastEffect_refUpdates {es : List Event}
    (h : ∀ e ∈ es, ∃ ts tx nm old nw m, e = .refUpdate ts tx nm old nw m) (x : Oid) :
    lastEffect x es = none := by
  rw [lastEffect_eq_none_iff]
  unfold firstEvent
  rw [List.find?_eq_none]
  intro e he
  obtain ⟨_, _, _, _, _, _, rfl⟩ := h e he
  simp [effectOn]

/-! ### the commits -/

/-- A rewritten commit has a newest version. -/
theorem newest_exists {es : List Event} {o : Oid} {m : MaybeZero} (h : RewrittenTo es o m) :
    ∃ m, Newest es o m := by
  obtain ⟨h1, h2⟩ := findRewriteTarget_now [] es o
  cases hf : findRewriteTarget (Replayer.fromEvents [] es) (Replayer.fromEvents [] es).makeDefaultCursor o with
  | none => exact absurd h (h2.1 hf m)
  | some m => exact ⟨m, (h1 m).1 hf⟩

theorem newest_not_rewritten {es : List Event} {o n : Oid} (h : Newest es o (.nonZero n)) (m : MaybeZero) :
    ¬ RewrittenTo es n m := by
  generalize hz : MaybeZero.nonZero n = z at h
  induction h with
  | dropped => simp at hz
  | last _ h => cases hz; exact h m
  | step _ _ ih => exact ih hz

theorem seen_parent {graph : CommitGraph Oid} (hg : WFGraph graph) {main : Text} {git : GitState}
    {es : List Event} {p c : Oid} (h : Seen graph main git es c) (hp : IsParent graph p c) :
    Seen graph main git es p := by
  obtain ⟨_, h, ha, hh⟩ := h
  refine ⟨hp.parent_mem hg, h, ?_, hh⟩
  clear hh
  induction ha with
  | refl => exact .step .refl hp
  | step _ h2 ih => exact .step ih h2

/-- A commit which is moved is visible, and so is everything below it which is visible. -/
theorem moves_down {graph : CommitGraph Oid} {main : Text} {git : GitState} {es : List Event} {p o c : Oid}
    (h : RestackMoves graph main git es none p o) (hp : IsParent graph o c) (hs : Seen graph main git es c) :
    ∃ q, RestackMoves graph main git es none q c := by
  by_cases hr : ∃ dest, Restacked graph main git es none c dest
  · obtain ⟨d, hd⟩ := hr
    exact ⟨d, .inl hd⟩
  · refine ⟨o, .inr ⟨hr, ?_, hs, hp⟩⟩
    rcases h with h | h
    · exact ⟨o, p, h, .step .refl hp⟩
    · obtain ⟨s, d, h1, h2⟩ := h.2.1
      exact ⟨s, d, h1, .step h2 hp⟩

theorem moves_seen {graph : CommitGraph Oid} {main : Text} {git : GitState} {es : List Event} {p c : Oid}
    (h : RestackMoves graph main git es none p c) : Seen graph main git es c := by
  rcases h with ⟨o, _, h, _⟩ | h
  · exact h.seen
  · exact h.2.2.1

/-- After a rebase with the given rewrites, nothing is abandoned. -/
theorem nothing_abandoned {graph graph' : CommitGraph Oid} (hg : WFGraph graph) {main : Text}
    {git git' : GitState} {es es' : List Event} {R : AMap Oid MaybeZero}
    (hmerge : ∀ p c, RestackMoves graph main git es none p c → (graph.parentsOf c).length ≤ 1)
    (hdrop : ∀ o c, Abandoned graph main git es o c → ¬ Newest es o .zero)
    (hdest : ∀ c dest, Restacked graph main git es none c dest → Seen graph main git es dest)
    (hdom : ∀ c, (∃ p, RestackMoves graph main git es none p c) ↔ (AMap.get? R c).isSome)
    (hfresh : ∀ c n, AMap.get? R c = some (.nonZero n) → n ∉ graph.nodes)
    (hnodes : ∀ x, x ∈ graph'.nodes → x ∈ graph.nodes ∨ ∃ c, AMap.get? R c = some (.nonZero x))
    (hold : ∀ x ∈ graph.nodes, ∀ p, IsParent graph' p x → IsParent graph p x)
    (hnew : ∀ c n, AMap.get? R c = some (.nonZero n) → ∀ o, IsParent graph' o n →
      ∃ p c', RestackMoves graph main git es none p c' ∧
        Lands (RestackMoves graph main git es none) R p o)
    (hhidden : ∀ c, (AMap.get? R c).isSome → (∀ x, AMap.get? R x ≠ some (.nonZero c)) →
      statusIn es' c = some false)
    (hactive : ∀ c n, AMap.get? R c = some (.nonZero n) → AMap.get? R n = none →
      ∀ m, ¬ RewrittenTo es' n m)
    (hsame : ∀ c, AMap.get? R c = none → (∀ x, AMap.get? R x ≠ some (.nonZero c)) →
      lastEffect c es' = lastEffect c es)
    (hanchor : ∀ h, (git'.headInfo.oid = some h ∨ git'.refs.get? main = some h ∨
        (∃ b, IsBranch b ∧ git'.refs.get? b = some h)) → h ∈ graph'.nodes →
      (∃ c, AMap.get? R c = some (.nonZero h)) ∨ Seen graph main git es h)
    (o child : Oid) : ¬ Abandoned graph' main git' es' o child := by
  intro ha
  have hmoved : ∀ c, (AMap.get? R c).isSome → c ∈ graph.nodes := by
    intro c hc
    obtain ⟨p, hp⟩ := (hdom c).2 hc
    exact (moves_seen hp).1
  have hnotnew : ∀ c ∈ graph.nodes, ∀ x, AMap.get? R x ≠ some (.nonZero c) :=
    fun c hc x hx => hfresh x c hx hc
  -- where the chain of dropped commits ends
  have hland : ∀ p q, Lands (RestackMoves graph main git es none) R p q →
      (∃ c', RestackMoves graph main git es none p c') →
      (∃ c, AMap.get? R c = some (.nonZero q)) ∨
      ((¬ ∃ p, RestackMoves graph main git es none p q) ∧
        ∃ c', RestackMoves graph main git es none q c') := by
    intro p q h
    induction h with
    | stays c hc => exact fun h => .inr ⟨hc, h⟩
    | new p c n _ hn => exact fun _ => .inl ⟨c, hn⟩
    | dropped p c q hp _ _ ih => exact fun _ => ih ⟨c, hp⟩
  have hbase : ∀ p c, RestackMoves graph main git es none p c → Seen graph main git es p := by
    intro p c h
    rcases h with h | h
    · exact hdest _ _ h
    · exact seen_parent hg h.2.2.1 h.2.2.2
  have hup : ∀ x h, Anc graph' x h →
      ((∃ c, AMap.get? R c = some (.nonZero h)) ∨ Seen graph main git es h) →
      ((∃ c, AMap.get? R c = some (.nonZero x)) ∨ Seen graph main git es x) := by
    intro x h ha
    induction ha with
    | refl => exact id
    | @step p c _ hp ih =>
      rintro (⟨c', hc'⟩ | hs)
      · obtain ⟨p', c'', h1, h2⟩ := hnew c' _ hc' _ hp
        rcases hland _ _ h2 ⟨_, h1⟩ with h | ⟨_, y, hy⟩
        · exact ih (.inl h)
        · exact ih (.inr (hbase _ _ hy))
      · exact ih (.inr (seen_parent hg hs (hold _ hs.1 _ hp)))
  have hseen : ∀ x, Seen graph' main git' es' x →
      ((∃ c, AMap.get? R c = some (.nonZero x)) ∨ Seen graph main git es x) := by
    rintro x ⟨hx, h, hxh, hh⟩
    have hhn : h ∈ graph'.nodes := by
      cases hxh with
      | refl => exact hx
      | step _ hp =>
        obtain ⟨ps, hps, _⟩ := hp
        exact List.mem_map.2 ⟨_, hps, rfl⟩
    refine hup x h hxh ?_
    rcases hh with hh | hh | hh | hh
    · exact hanchor h (.inl hh) hhn
    · exact hanchor h (.inr (.inl hh)) hhn
    · exact hanchor h (.inr (.inr hh)) hhn
    · rcases hnodes h hhn with hn | hn
      · refine .inr ⟨hn, h, .refl, .inr (.inr (.inr ?_))⟩
        cases hr : AMap.get? R h with
        | some m =>
          rw [hhidden h (by rw [hr]; rfl) (hnotnew h hn)] at hh
          simp at hh
        | none =>
          unfold statusIn at hh ⊢
          rwa [hsame h hr (hnotnew h hn)] at hh
      · exact .inl hn
  -- a commit which was rewritten before and is not moved has no moved commits on it
  have hnone : ∀ q x, RestackMoves graph main git es none q x →
      (¬ ∃ p, RestackMoves graph main git es none p q) → ∀ m, ¬ RewrittenTo es q m := by
    rintro q x (⟨o, _, h1, h2⟩ | ⟨h1, ⟨s, d, hsd, hsx⟩, h3, h4⟩) hq m hm
    · rcases h2 with h2 | ⟨h2, rfl⟩
      · exact newest_not_rewritten h2 m hm
      · exact hdrop _ _ h1 h2
    · have hmv : RestackMoves graph main git es none q x := .inr ⟨h1, ⟨s, d, hsd, hsx⟩, h3, h4⟩
      -- `x` is below `s`, and `q` is its only parent
      cases hsx with
      | refl => exact h1 ⟨d, hsd⟩
      | step hsp hp' =>
        rename_i p'
        have hqp : p' = q := by
          have e1 := (mem_parentsOf hg).2 hp'
          have e2 := (mem_parentsOf hg).2 h4
          have e3 := hmerge _ _ hmv
          match hps : graph.parentsOf x with
          | [] => rw [hps] at e1; simp at e1
          | [y] => rw [hps] at e1 e2; simp at e1 e2; rw [e1, e2]
          | _ :: _ :: _ => rw [hps] at e3; simp at e3
        subst hqp
        have hsq := seen_parent hg h3 hp'
        apply hq
        by_cases hr : ∃ dest, Restacked graph main git es none p' dest
        · obtain ⟨d, hd⟩ := hr
          exact ⟨d, .inl hd⟩
        · cases hsp with
          | refl => exact absurd ⟨d, hsd⟩ hr
          | step hs'' hp'' =>
            rename_i p''
            exact ⟨p'', .inr ⟨hr, ⟨s, d, hsd, .step hs'' hp''⟩, hsq, hp''⟩⟩
  obtain ⟨m, hm⟩ := ha.rewritten
  have hchild : child ∈ graph'.nodes := ha.seen.1
  rcases hnodes child hchild with hc | ⟨c, hc⟩
  · -- an old commit
    have hp := hold child hc o ha.parent
    have hcur := ha.current
    have hcR : AMap.get? R child = none := by
      cases hr : AMap.get? R child with
      | none => rfl
      | some m => exact absurd (hhidden child (by rw [hr]; rfl) (hnotnew child hc)) hcur
    have hnm : ¬ ∃ p, RestackMoves graph main git es none p child := by
      rw [hdom, hcR]; simp
    have hsn : Seen graph main git es child := by
      rcases hseen child ha.seen with ⟨x, hx⟩ | h
      · exact absurd hx (hnotnew child hc x)
      · exact h
    have hon := hp.parent_mem hg
    cases hor : AMap.get? R o with
    | some m =>
      obtain ⟨p, hpo⟩ := (hdom o).2 (by rw [hor]; rfl)
      exact hnm (moves_down hpo hp hsn)
    | none =>
      have hmo : RewrittenTo es o m := by
        unfold RewrittenTo at hm ⊢
        rwa [hsame o hor (hnotnew o hon)] at hm
      have hab : Abandoned graph main git es o child := by
        refine ⟨hp, hsn, ?_, m, hmo⟩
        unfold statusIn at hcur ⊢
        rwa [hsame child hcR (hnotnew child hc)] at hcur
      obtain ⟨m', hm'⟩ := newest_exists hmo
      cases m' with
      | zero => exact hdrop _ _ hab hm'
      | nonZero d =>
        exact hnm ⟨d, .inl ⟨o, fun _ h => by simp at h, hab, .inl hm'⟩⟩
  · -- a new commit
    obtain ⟨p, c', h1, h2⟩ := hnew c child hc o ha.parent
    rcases hland _ _ h2 ⟨_, h1⟩ with ⟨x, hx⟩ | ⟨hno, y, hy⟩
    · refine hactive x o hx ?_ m hm
      cases hr : AMap.get? R o with
      | none => rfl
      | some m => exact absurd (hmoved o (by rw [hr]; rfl)) (hfresh x o hx)
    · have hon := (hbase _ _ hy).1
      have hoR : AMap.get? R o = none := by
        cases hr : AMap.get? R o with
        | none => rfl
        | some m => exact absurd ((hdom o).2 (by rw [hr]; rfl)) hno
      refine hnone o y hy hno m ?_
      unfold RewrittenTo at hm ⊢
      rwa [hsame o hoR (hnotnew o hon)] at hm

theorem wf_foldl_insert {m : AMap Oid MaybeZero} (h : AMap.WF m) (l : List Oid) (v : MaybeZero) :
    AMap.WF (l.foldl (fun m x => AMap.insert m x v) m) := by
  induction l generalizing m with
  | nil => exact h
  | cons x l ih => exact ih (AMap.wf_insert h x v)

theorem wf_rewritten {ee : ExecEnv} {head : Option Oid} {cs : List RebaseCommand} {e e' : ExecState}
    (h : Runs ee head cs e e') (hw : AMap.WF e.rewritten) : AMap.WF e'.rewritten := by
  induction cs generalizing e with
  | nil => rw [runs_nil] at h; rw [h]; exact hw
  | cons c cs ih =>
    rw [runs_cons] at h
    obtain ⟨e1, h1, h2⟩ := h
    refine ih h2 ?_
    unfold ExecEnv.runCommand at h1
    split at h1
    · cases h1; exact hw
    · split at h1
      · cases h1; exact hw
      · simp at h1
    · split at h1 <;> (cases h1; exact hw)
    · unfold ExecEnv.runPick at h1
      split at h1
      · split at h1
        · simp at h1
        · simp only at h1
          split at h1
          · simp at h1
          · simp at h1
          · split at h1
            · cases h1; exact AMap.wf_insert hw _ _
            · cases h1; exact wf_foldl_insert (AMap.wf_insert hw _ _) _ _
      · simp at h1
    · simp at h1
    · unfold ExecEnv.runReplace at h1
      split at h1
      · split at h1
        · simp at h1
        · split at h1
          · simp at h1
          · simp only at h1
            split at h1
            · simp at h1
            · cases h1; exact AMap.wf_insert hw _ _
      · simp at h1
    · simp at h1
    · split at h1
      · simp at h1
      · cases h1; exact AMap.wf_insert hw _ _
    · cases h1; exact hw
    · cases h1; exact hw

/-- C44: after a successful restacking of everything in memory, no commit is abandoned.

Missing: rebases on disk, merge commits (`merge_child_stays`), children of dropped commits
(`dropped_parent_never_settles`), and destinations which are hidden (then commits below them become
visible again). The other hypotheses: nothing was left undone by an earlier rebase, `HEAD` is at a commit
and not at a main branch whose commit is dropped; the usual names of branches; and those of
`rebase_recorded`. -/
theorem restack_settles_partial (graph : CommitGraph Oid) (hg : WFGraph graph) (main : Text)
    (w w' : RepoWorld) (hw : AMap.WF w.git.refs) (es : List Event) (he : w.db.getEvents = some es)
    (hpend : w.db.pending = none) (hdef : readDeferredCommits w.deferred = some [])
    (r : Replayer) (d : Dag) (h : openRepoDag graph main w = some (r, d)) (env : RestackEnv)
    (htv : ∀ l x, x ∈ env.toVec l ↔ x ∈ l)
    (hmerge : ∀ p c, RestackMoves graph main w.git es none p c → (graph.parentsOf c).length ≤ 1)
    (hdrop : ∀ o c, Abandoned graph main w.git es o c → ¬ Newest es o .zero)
    (hdest : ∀ c dest, Restacked graph main w.git es none c dest → Seen graph main w.git es dest)
    (plan : RebasePlan) (hp : restackPlan env d r none = .ok (.ok (some plan)))
    (hn : NoCollisions env.exec) (s : ExecState) (newHead : Option Oid)
    (hx : env.exec.rebaseInMemory w.git.headInfo.oid plan = .ok (s, newHead))
    (fe : FinishEnv) (hfe : fe = env.finish s.created) (hmain : fe.move.mainBranch = main)
    (hs : ∀ l, (fe.move.shuffle l).Perm l) (hs' : ∀ l, (fe.shuffle l).Perm l)
    (tx : Int) (htx : inIsize tx) (htx' : fe.tx = (TxId.id tx).toText)
    (file : Option Text) (hf : fe.packedFile = some file)
    (hpack : ∀ name old, w.git.refs.get? name = some old → s.rewritten.get? old = some .zero →
      (readPackedRefs file).get? name ≠ some (.nonZero old))
    (hnames : ∀ name, IsBranch name → (w.git.refs.get? name).isSome →
      ' ' ∉ name ∧ '\n' ∉ name ∧ '\r' ∉ name)
    (hmb : IsBranch main)
    (hmd : ∀ m, w.git.refs.get? main = some m → s.rewritten.get? m ≠ some .zero)
    (old : Oid) (hold : w.git.headInfo.oid = some old)
    (hbr : ∀ br, w.git.head = .symbolic br → OrdinaryBranch br)
    (hpost : postRebaseInMemory fe w s.rewritten newHead = (w', .ok true))
    (hhex : ∀ o : Oid, w'.git.refs.get? (t!"refs/heads/" ++ o.toText) = none)
    (graph' : CommitGraph Oid)
    (hgrow : WithNewCommits graph graph' s.rewritten (env.exec.find s.created)) :
    ∃ es', w'.db.getEvents = some es' ∧
      ∀ o child, ¬ Abandoned graph' main w'.git es' o child := by
  have hm : ∀ c dest, Restacked graph main w.git es none c dest → (graph.parentsOf c).length ≤ 1 :=
    fun c dest hc => hmerge dest c (.inl hc)
  obtain ⟨i1, i2, i3⟩ := restack_in_memory_partial graph hg main w hw es he r d h env htv none hm plan hp hn
    _ s newHead hx
  have hRwf : AMap.WF s.rewritten := wf_rewritten (rebaseInMemory_ok hx).1 AMap.wf_nil
  obtain ⟨moves, _, _, hev⟩ := rebase_recorded fe w w' s.rewritten newHead true hw hs tx htx htx' file hf es
    hpend he [] hdef hnames hpack hpost
  refine ⟨_, hev, ?_⟩
  -- the events
  have hmemR : ∀ c m, (c, m) ∈ fe.shuffle s.rewritten ↔ AMap.get? s.rewritten c = some m := by
    intro c m
    rw [(hs' _).mem_iff]
    exact ⟨AMap.get?_of_mem hRwf, AMap.mem_of_get?⟩
  have hkeys : ∀ c, c ∈ (fe.shuffle s.rewritten).map Prod.fst ↔ (AMap.get? s.rewritten c).isSome := by
    intro c
    simp only [List.mem_map, Prod.exists, hmemR, Option.isSome_iff_exists]
    constructor
    · rintro ⟨a, b, hab, rfl⟩; exact ⟨b, hab⟩
    · rintro ⟨b, hb⟩; exact ⟨c, b, hb, rfl⟩
  have hrefs := lastEffect_refUpdates
    (es := moves.map fun m => .refUpdate fe.now (.id tx) m.2.2 (.nonZero m.1) m.2.1 none)
    (by
      intro e he
      obtain ⟨m, _, rfl⟩ := List.mem_map.1 he
      exact ⟨_, _, _, _, _, _, rfl⟩)
  have hlast := fun x => lastEffect_rewrites fe.now (.id tx) (fe.shuffle s.rewritten) x
  simp only [hkeys, hmemR] at hlast
  simp only [List.map_nil, List.append_nil]
  have hle : ∀ x, lastEffect x (es ++ (moves.map fun m => .refUpdate fe.now (.id tx) m.2.2 (.nonZero m.1) m.2.1 none) ++
      (fe.shuffle s.rewritten).map fun e => .rewrite fe.now (.id tx) (.nonZero e.1) e.2) =
      (lastEffect x ((fe.shuffle s.rewritten).map fun e => .rewrite fe.now (.id tx) (.nonZero e.1) e.2)).or
        (lastEffect x es) := by
    intro x
    rw [lastEffect_append_list, lastEffect_append_list, hrefs x]
    rfl
  -- the references
  obtain ⟨f1, -, -⟩ := finished_references fe w w' s.rewritten newHead true hw hs hpost
  have hdom : ∀ c, (∃ p, RestackMoves graph main w.git es none p c) ↔ (AMap.get? s.rewritten c).isSome := by
    intro c
    constructor
    · rintro ⟨p, hpc⟩
      obtain ⟨q, _, h | ⟨tree, base, orig, _, _, _, h⟩⟩ := i1 p c hpc
      · rw [h.2]; rfl
      · split at h
        · rw [h]; rfl
        · obtain ⟨n, h, _⟩ := h; rw [h]; rfl
    · intro h
      by_contra hno
      rw [i2 c hno] at h
      simp at h
  have hbranch : ∀ b x, IsBranch b → w'.git.refs.get? b = some x →
      (∃ c, AMap.get? s.rewritten c = some (.nonZero x)) ∨
      (w.git.refs.get? b = some x) := by
    intro b x hb hx
    rw [f1 b hb] at hx
    obtain ⟨y, hy, hx⟩ := Option.bind_eq_some_iff.1 hx
    unfold BranchAfter at hx
    split at hx
    · simp only [Option.some.injEq] at hx; subst hx; exact .inr hy
    · rename_i new hnew
      simp only [Option.some.injEq] at hx; subst hx; exact .inl ⟨y, hnew⟩
    · rename_i hz
      split at hx
      · rename_i hbm
        rw [hmain] at hbm
        subst hbm
        exact absurd hz (hmd y hy)
      · simp at hx
  refine nothing_abandoned hg hmerge hdrop hdest hdom hgrow.fresh (fun x => (hgrow.nodes x).1)
    (fun x hx p => (hgrow.old x hx p).1) ?_ ?_ ?_ ?_ ?_
  · intro c n hc o ho
    obtain ⟨p, hpc⟩ := (hdom c).2 (by rw [hc]; rfl)
    obtain ⟨q, hl, h | ⟨tree, base, orig, _, _, _, h⟩⟩ := i1 p c hpc
    · rw [h.2] at hc; simp at hc
    · split at h
      · rw [h] at hc; simp at hc
      · obtain ⟨n', h, hfind⟩ := h
        rw [h] at hc
        simp only [Option.some.injEq, MaybeZero.nonZero.injEq] at hc
        subst hc
        have := (hgrow.new c n' _ h hfind o).1 ho
        simp only [List.mem_singleton] at this
        subst this
        exact ⟨p, c, hpc, hl⟩
  · intro c hc hno
    obtain ⟨m, hm⟩ := (hlast c).1 hc hno
    unfold statusIn
    rw [hle, hm]
    rfl
  · intro c n hc hnn m hm
    obtain ⟨c', hne, hm'⟩ := (hlast n).2.1 (by rw [hnn]; simp) c hc
    obtain ⟨ts, tx', h1, _⟩ := hm
    rw [hle, hm'] at h1
    simp only [Option.some_or, Option.map_some, Option.some.injEq, Event.rewrite.injEq,
      MaybeZero.nonZero.injEq] at h1
    exact hne h1.2.2.1
  · intro c hc hno
    rw [hle, (hlast c).2.2 (by rw [hc]; simp) hno]
    rfl
  · rintro x hanch hxn
    have hnode : x ∈ graph.nodes ∨ ∃ c, AMap.get? s.rewritten c = some (.nonZero x) := (hgrow.nodes x).1 hxn
    rcases hnode with hnode | hnode
    swap
    · exact .inl hnode
    rcases hanch with hh | hh | ⟨b, hb, hh⟩
    · obtain ⟨q, hq, hl⟩ := i3 old hold
      have hat := (head_at_new (env := fe) hx hw hs hpost hold
        (fun br hb => ⟨hbr br hb, fun hbm => hmd old (by
          rw [← hmain, ← hbm.1]
          unfold GitState.headInfo at hold
          rw [hb] at hold
          exact hold) hbm.2⟩) hhex hq).1
      rw [hat] at hh
      simp only [Option.some.injEq] at hh
      subst hh
      have hsn : old ∈ graph.nodes → Seen graph main w.git es old :=
        fun h => ⟨h, old, .refl, .inl hold⟩
      have : ∀ p q, Lands (RestackMoves graph main w.git es none) s.rewritten p q →
          (p ∈ graph.nodes → Seen graph main w.git es p) → q ∈ graph.nodes →
          (∃ c, AMap.get? s.rewritten c = some (.nonZero q)) ∨ Seen graph main w.git es q := by
        intro p q h
        induction h with
        | stays c _ => exact fun h hc => .inr (h hc)
        | new p c n _ hn => exact fun _ _ => .inl ⟨c, hn⟩
        | dropped p c q hp _ _ ih =>
          intro _
          refine ih fun _ => ?_
          rcases hp with h | h
          · exact hdest _ _ h
          · exact seen_parent hg h.2.2.1 h.2.2.2
      exact this old q hl hsn hnode
    · rcases hbranch main x hmb hh with h | h
      · exact .inl h
      · exact .inr ⟨hnode, x, .refl, .inr (.inl h)⟩
    · rcases hbranch b x hb hh with h | h
      · exact .inl h
      · exact .inr ⟨hnode, x, .refl, .inr (.inr (.inl ⟨b, hb, h⟩))⟩

/-- C44: after restacking the branches, no branch is at a commit which was rewritten (except for the main
branch, if it went to its upstream). -/
theorem restack_branches_settled (env : FinishEnv) (w w' : RepoWorld) (hw : AMap.WF w.git.refs)
    (hs : (env.move.shuffle (branchOids w.git.refs)).Perm (branchOids w.git.refs)) (es : List Event)
    (hpend : w.db.pending = none) (he : w.db.getEvents = some es)
    (h : restackBranches env w = (w', true)) :
    ∃ es', w'.db.getEvents = some es' ∧
      ∀ name o m, IsBranch name → name ≠ env.move.mainBranch → w'.git.refs.get? name = some o →
        ¬ RewrittenTo es' o m := by
  have hadd : ∃ new, w'.db.getEvents = some (es ++ new) ∧
      ∀ e ∈ new, ∃ ts tx nm old nw m, e = Event.refUpdate ts tx nm old nw m := by
    unfold restackBranches at h
    rw [he] at h
    split at h
    · simp only at h
      split at h
      · simp only [Prod.mk.injEq, and_true] at h
        exact ⟨[], by rw [← h, he]; simp, by simp⟩
      · simp only [Prod.mk.injEq] at h
        obtain ⟨rfl, _⟩ := h
        simp only
        split
        · rename_i moves _
          obtain ⟨new, h1, h2, _⟩ := hook_adds_updates env w.db es hpend he moves
          exact ⟨new, h1, h2⟩
        · exact ⟨[], by rw [he]; simp, by simp⟩
    · simp at h
  obtain ⟨new, h1, h2⟩ := hadd
  refine ⟨_, h1, fun name o m hb hne ho hm => ?_⟩
  have hm : RewrittenTo es o m := by
    unfold RewrittenTo at hm ⊢
    rwa [lastEffect_append_list, lastEffect_refUpdates h2, Option.none_or] at hm
  obtain ⟨e1, e2, -⟩ := restack_branches_exact env w w' hw hs es he h name
  cases hold : w.git.refs.get? name with
  | none => rw [e2 hold] at ho; simp at ho
  | some old =>
    obtain ⟨f1, f2, f3⟩ := e1 old hb hold
    by_cases hr : ∃ m, RewrittenTo es old m
    · obtain ⟨m', hm'⟩ := hr
      obtain ⟨n, hn⟩ := newest_exists hm'
      cases n with
      | zero => rw [f3 hn, if_neg hne] at ho; simp at ho
      | nonZero n =>
        rw [f2 n hn] at ho
        simp only [Option.some.injEq] at ho
        subst ho
        exact newest_not_rewritten hn m hm
    · rw [f1 fun m h => hr ⟨m, h⟩] at ho
      simp only [Option.some.injEq] at ho
      subst ho
      exact hr ⟨m, hm⟩

/-! ### examples -/

theorem rewrittenTo_mem {es : List Event} {o : Oid} {m : MaybeZero} (h : RewrittenTo es o m) :
    ∃ ts tx, Event.rewrite ts tx (.nonZero o) m ∈ es := by
  obtain ⟨ts, tx, h, _⟩ := h
  cases hl : lastEffect o es with
  | none => rw [hl] at h; simp at h
  | some x =>
    obtain ⟨e, b⟩ := x
    rw [hl] at h
    simp only [Option.map_some, Option.some.injEq] at h
    subst h
    exact ⟨ts, tx, (lastEffect_mem hl).1⟩

theorem newest_mem {es : List Event} {o : Oid} {m : MaybeZero} (h : Newest es o m) :
    ∃ ts tx o, Event.rewrite ts tx (.nonZero o) m ∈ es := by
  induction h with
  | dropped h => obtain ⟨a, b, h⟩ := rewrittenTo_mem h; exact ⟨a, b, _, h⟩
  | last h _ => obtain ⟨a, b, h⟩ := rewrittenTo_mem h; exact ⟨a, b, _, h⟩
  | step _ _ ih => exact ih

/-- The commits after the restacking of `exAmended`: `2` and `4` became `8` and `9`. -/
def exAmendedGraph' : CommitGraph Oid :=
  ⟨(oidN 9, [oidN 8]) :: (oidN 8, [oidN 3]) :: exAmendedGraph.entries⟩

/-- Non-vacuity: the hypotheses of `restack_settles_partial` about the commits. -/
example :
    let w := exRestackWorld exAmended (oidN 1)
    (∀ p c, RestackMoves exAmendedGraph t!"refs/heads/main" w.git exAmended none p c →
      (exAmendedGraph.parentsOf c).length ≤ 1) ∧
    (∀ o c, Abandoned exAmendedGraph t!"refs/heads/main" w.git exAmended o c →
      ¬ Newest exAmended o .zero) ∧
    (∀ c dest, Restacked exAmendedGraph t!"refs/heads/main" w.git exAmended none c dest →
      Seen exAmendedGraph t!"refs/heads/main" w.git exAmended dest) := by
  have hz : ∀ o, ¬ Newest exAmended o .zero := by
    intro o h
    obtain ⟨_, _, _, h⟩ := newest_mem h
    simp [exAmended] at h
  refine ⟨fun p c hc => ?_, fun o _ _ => hz o, ?_⟩
  · have := (moves_seen hc).1
    simp only [exAmendedGraph, CommitGraph.nodes, List.map_cons, List.map_nil, List.mem_cons,
      List.not_mem_nil, or_false] at this
    rcases this with rfl | rfl | rfl | rfl | rfl <;> decide
  · rintro c dest ⟨o, _, _, h | ⟨h, _⟩⟩
    · obtain ⟨_, _, _, h⟩ := newest_mem h
      simp only [exAmended, List.mem_cons, reduceCtorEq, Event.rewrite.injEq, MaybeZero.nonZero.injEq,
        List.not_mem_nil, or_false, false_or] at h
      obtain ⟨-, -, -, rfl⟩ := h
      exact ⟨by decide, oidN 3, .refl, .inr (.inr (.inr (by decide +kernel)))⟩
    · exact absurd h (hz o)

/-- Non-vacuity: the rebase, its end, and the new graph. -/
example :
    let w := exRestackWorld exAmended (oidN 1)
    ∃ r d plan s newHead w', openRepoDag exAmendedGraph t!"refs/heads/main" w = some (r, d) ∧
      w.db.pending = none ∧ readDeferredCommits w.deferred = some [] ∧
      restackPlan exAmendedEnv d r none = .ok (.ok (some plan)) ∧
      exAmendedEnv.exec.rebaseInMemory w.git.headInfo.oid plan = .ok (s, newHead) ∧
      s.rewritten = [(oidN 4, .nonZero (oidN 9)), (oidN 2, .nonZero (oidN 8))] ∧
      exAmendedEnv.exec.find s.created (oidN 8) = some (exNew [oidN 3] 22 2) ∧
      exAmendedEnv.exec.find s.created (oidN 9) = some (exNew [oidN 8] 24 4) ∧
      postRebaseInMemory (exAmendedEnv.finish s.created) w s.rewritten newHead = (w', .ok true) := by
  refine ⟨_, _, ⟨oidN 3, _⟩, _, _, _, rfl, rfl, ?_, rfl, rfl, ?_, ?_, ?_, rfl⟩
  all_goals decide +kernel

/-- Non-vacuity: the graph with the new commits. -/
example : WithNewCommits exAmendedGraph exAmendedGraph'
    [(oidN 4, .nonZero (oidN 9)), (oidN 2, .nonZero (oidN 8))]
    (fun o => if o = oidN 8 then some (exNew [oidN 3] 22 2)
      else if o = oidN 9 then some (exNew [oidN 8] 24 4) else none) := by
  have hget : ∀ c x, AMap.get? [(oidN 4, MaybeZero.nonZero (oidN 9)), (oidN 2, .nonZero (oidN 8))] c =
      some (.nonZero x) → x = oidN 8 ∨ x = oidN 9 := by
    intro c x h
    have := AMap.mem_of_get? h
    simp only [List.mem_cons, Prod.mk.injEq, MaybeZero.nonZero.injEq, List.not_mem_nil, or_false] at this
    tauto
  refine ⟨fun x => ?_, fun x hx p => ?_, fun c x d hx hd p => ?_, fun c x hx => ?_⟩
  · simp only [exAmendedGraph', CommitGraph.nodes, List.map_cons, List.mem_cons]
    constructor
    · rintro (rfl | rfl | h)
      · exact .inr ⟨oidN 4, by decide⟩
      · exact .inr ⟨oidN 2, by decide⟩
      · exact .inl h
    · rintro (h | ⟨c, h⟩)
      · exact .inr (.inr h)
      · rcases hget c x h with rfl | rfl
        · exact .inr (.inl rfl)
        · exact .inl rfl
  · unfold IsParent
    simp only [exAmendedGraph', List.mem_cons, Prod.mk.injEq]
    have h8 : x ≠ oidN 8 := by rintro rfl; exact absurd hx (by decide)
    have h9 : x ≠ oidN 9 := by rintro rfl; exact absurd hx (by decide)
    simp [h8, h9]
  · rcases hget c x hx with rfl | rfl
    · rw [if_pos rfl] at hd
      cases hd
      simp only [IsParent, exAmendedGraph', exAmendedGraph, List.mem_cons, Prod.mk.injEq]
      constructor
      · rintro ⟨ps, h, hp⟩
        have : ps = [oidN 3] := by
          rcases h with h | h | h | h | h | h | h | h
          · exact absurd h.1 (by decide)
          · exact h.2
          all_goals first | exact absurd h.1 (by decide) | exact absurd h (by simp)
        subst this
        exact hp
      · intro hp
        exact ⟨[oidN 3], by simp, hp⟩
    · rw [if_neg (by decide), if_pos rfl] at hd
      cases hd
      simp only [IsParent, exAmendedGraph', exAmendedGraph, List.mem_cons, Prod.mk.injEq]
      constructor
      · rintro ⟨ps, h, hp⟩
        have : ps = [oidN 8] := by
          rcases h with h | h | h | h | h | h | h | h
          · exact h.2
          all_goals first | exact absurd h.1 (by decide) | exact absurd h (by simp)
        subst this
        exact hp
      · intro hp
        exact ⟨[oidN 8], by simp, hp⟩
  · rcases hget c x hx with rfl | rfl <;> decide

end Verif.Props
