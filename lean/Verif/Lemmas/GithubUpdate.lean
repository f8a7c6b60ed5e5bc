import Verif.Lemmas.Github

/-! Lemmas about updating pull requests. -/

namespace Verif.Spec

open Verif

/-! ### what a push does not change -/

/-- Two repositories with the same branches, which have the same upstream branches. -/
structure SameView (r r' : SubmitWorld) : Prop where
  refs : r'.refs = r.refs
  remote : r'.remote = r.remote
  merge : r'.merge = r.merge
  pushRemote : r'.pushRemote = r.pushRemote
  tracking : ∀ k, (r'.tracking.get? k).isSome = (r.tracking.get? k).isSome

theorem SameView.rfl' (r : SubmitWorld) : SameView r r := ⟨rfl, rfl, rfl, rfl, fun _ => rfl⟩

theorem SameView.trans {a b c : SubmitWorld} (h : SameView a b) (h' : SameView b c) : SameView a c :=
  ⟨h'.refs.trans h.refs, h'.remote.trans h.remote, h'.merge.trans h.merge, h'.pushRemote.trans h.pushRemote,
    fun k => (h'.tracking k).trans (h.tracking k)⟩

theorem SameView.pushRemoteName {r r' : SubmitWorld} (h : SameView r r') (b : Text) :
    r'.pushRemoteName b = r.pushRemoteName b := by
  unfold SubmitWorld.pushRemoteName
  rw [h.remote, h.pushRemote]

theorem SameView.upstreamName {r r' : SubmitWorld} (h : SameView r r') (b : Text) :
    r'.upstreamName b = r.upstreamName b := by
  have hup : (r'.upstream b).isSome = (r.upstream b).isSome := by
    unfold SubmitWorld.upstream
    rw [h.remote, h.merge, h.refs]
    cases r.remote.get? b with
    | none => rfl
    | some x =>
      cases r.merge.get? b with
      | none => rfl
      | some m =>
        simp only
        split
        · rfl
        · exact h.tracking _
  unfold SubmitWorld.upstreamName
  rw [h.pushRemoteName, h.remote, h.merge, hup]

theorem SameView.prAt {r r' : SubmitWorld} (h : SameView r r') (infos : List PullRequest) (o : Oid) :
    prAt r' infos o = prAt r infos o := by
  unfold Verif.prAt
  rw [h.refs]
  congr 1
  funext x
  rw [h.upstreamName]

theorem SameView.desired {r r' : SubmitWorld} (h : SameView r r') (env : ForgeEnv) (infos : List PullRequest)
    (o : Oid) : desiredPr env r' infos o = desiredPr env r infos o := by
  have h1 : Verif.prAt r' infos = Verif.prAt r infos := funext fun c => h.prAt infos c
  unfold desiredPr prBase stackLoop
  rw [h1]

/-- What is wanted depends only on the branches and addresses of the pull requests. -/
structure SameHeads (infos infos' : List PullRequest) (f : PullRequest → PullRequest) : Prop where
  eq : infos' = infos.map f
  head : ∀ p, (f p).head = p.head
  url : ∀ p, (f p).url = p.url

theorem SameHeads.prOf {infos infos' : List PullRequest} {f : PullRequest → PullRequest}
    (h : SameHeads infos infos' f) (b : Text) : prOf infos' b = (prOf infos b).map f := by
  rw [h.eq]
  unfold Verif.prOf
  have hh := h.head
  clear h
  induction infos with
  | nil => rfl
  | cons p infos ih =>
    rw [List.map_cons, List.find?_cons, List.find?_cons, hh]
    split
    · rfl
    · exact ih

theorem SameHeads.prAt {infos infos' : List PullRequest} {f : PullRequest → PullRequest}
    (h : SameHeads infos infos' f) (r : SubmitWorld) (o : Oid) :
    prAt r infos' o = (prAt r infos o).map f := by
  unfold Verif.prAt
  induction namesAt r.refs o with
  | nil => rfl
  | cons x l ih =>
    rw [List.findSome?_cons, List.findSome?_cons]
    have : ((r.upstreamName (categorize x).renderSuffix).bind (Verif.prOf infos')) =
        ((r.upstreamName (categorize x).renderSuffix).bind (Verif.prOf infos)).map f := by
      cases r.upstreamName (categorize x).renderSuffix with
      | none => rfl
      | some b => exact h.prOf b
    rw [this]
    cases (r.upstreamName (categorize x).renderSuffix).bind (Verif.prOf infos) with
    | none => exact ih
    | some p => rfl

theorem SameHeads.desired {infos infos' : List PullRequest} {f : PullRequest → PullRequest}
    (h : SameHeads infos infos' f) (env : ForgeEnv) (r : SubmitWorld) (o : Oid) :
    desiredPr env r infos' o = desiredPr env r infos o := by
  have hbase : prBase env r infos' o = prBase env r infos o := by
    unfold prBase
    simp only
    generalize (env.iter (CommitGraph.diff (env.dag.graph.only [o] [env.mainOid]) [o])).reverse = l
    have : l.findSome? (Verif.prAt r infos') = (l.findSome? (Verif.prAt r infos)).map f := by
      induction l with
      | nil => rfl
      | cons c l ih =>
        rw [List.findSome?_cons, List.findSome?_cons, h.prAt]
        cases Verif.prAt r infos c with
        | none => exact ih
        | some p => rfl
    rw [this]
    cases l.findSome? (Verif.prAt r infos) with
    | none => rfl
    | some p => exact h.head p
  have hstack : ∀ l, (stackLoop r infos' o l).1 = (stackLoop r infos o l).1.map f ∧
      (stackLoop r infos' o l).2 = (stackLoop r infos o l).2 := by
    intro l
    have key : ∀ (l : List Oid) (a a' : List PullRequest × Option Nat), a'.1 = a.1.map f → a'.2 = a.2 →
        (l.foldl (fun (acc : List PullRequest × Option Nat) c =>
          match Verif.prAt r infos' c with
          | none => acc
          | some p => (acc.1 ++ [p], if c = o then some (acc.1.length + 1) else acc.2)) a').1 =
        (l.foldl (fun (acc : List PullRequest × Option Nat) c =>
          match Verif.prAt r infos c with
          | none => acc
          | some p => (acc.1 ++ [p], if c = o then some (acc.1.length + 1) else acc.2)) a).1.map f ∧
        (l.foldl (fun (acc : List PullRequest × Option Nat) c =>
          match Verif.prAt r infos' c with
          | none => acc
          | some p => (acc.1 ++ [p], if c = o then some (acc.1.length + 1) else acc.2)) a').2 =
        (l.foldl (fun (acc : List PullRequest × Option Nat) c =>
          match Verif.prAt r infos c with
          | none => acc
          | some p => (acc.1 ++ [p], if c = o then some (acc.1.length + 1) else acc.2)) a).2 := by
      intro l
      induction l with
      | nil => intro a a' h1 h2; exact ⟨h1, h2⟩
      | cons c l ih =>
        intro a a' h1 h2
        rw [List.foldl_cons, List.foldl_cons]
        apply ih
        · rw [h.prAt]
          cases Verif.prAt r infos c with
          | none => exact h1
          | some p => simp [h1]
        · rw [h.prAt]
          cases Verif.prAt r infos c with
          | none => exact h2
          | some p => simp [h1, h2]
    exact key l ([], none) ([], none) rfl rfl
  unfold desiredPr
  simp only
  rw [hbase, (hstack _).1, (hstack _).2, List.length_map, List.map_map]
  congr 2
  refine List.map_congr_left fun p _ => h.url p

/-! ### one push -/

theorem putRemote_view {r : SubmitWorld} {g x : Text} {o : Oid} (h : ∃ u, r.tracking.get? (g, x) = some u) :
    SameView r (r.putRemote g x o) := by
  refine ⟨rfl, rfl, rfl, rfl, ?_⟩
  intro k
  unfold SubmitWorld.putRemote
  simp only
  rw [AMap.get?_insert]
  split
  · rename_i hk
    obtain ⟨u, hu⟩ := h
    rw [← hk, hu]
    rfl
  · rfl

theorem updateGroups_single (st : SubmitStatus) (g b : Text) : updateGroups [⟨st, some g, some b⟩] = [(g, [b])] := by
  simp [updateGroups, updateTarget, sortedSet]

theorem updateAll_single {r : SubmitWorld} {g b : Text} {o : Oid} (hg : g ≠ t!".") (hr : r.reachable g = true)
    (ho : r.refs.get? (fullName b) = some o)
    (hl : r.remotes.get? (g, fullName b) = some o ∨
      (r.tracking.get? (g, fullName b) = r.remotes.get? (g, fullName b) ∧ r.accepts g (fullName b) = true))
    (st : SubmitStatus) :
    updateAll r (updateGroups [⟨st, some g, some b⟩]) =
      (r.putRemote g (fullName b) o, [.pushLease g [b]], true) := by
  rw [updateGroups_single]
  have hone : SubmitWorld.pushLeaseOne g (r, true) b = (r.putRemote g (fullName b) o, true) := by
    unfold SubmitWorld.pushLeaseOne
    rw [ho]
    simp only
    unfold SubmitWorld.pushOne
    split
    · rfl
    · rename_i hne
      rcases hl with hl | ⟨hl, ha⟩
      · exact absurd hl hne
      · rw [if_pos]
        · rfl
        · rw [Bool.and_eq_true]
          refine ⟨?_, ha⟩
          unfold SubmitWorld.lease
          rw [hl]
          exact decide_eq_true rfl
  have hpush : r.push g [b] SubmitWorld.pushLeaseOne = (r.putRemote g (fullName b) o, true) := by
    unfold SubmitWorld.push
    rw [if_neg hg, if_pos hr, List.foldl_cons, List.foldl_nil, hone]
  rw [updateAll]
  simp only [hpush]
  rw [if_pos trivial, updateAll]

/-! ### the states of the loop -/

/-- The branches `Q` were pushed. -/
def pushedRepo (r : SubmitWorld) (g : Text) (Q : List (Oid × Text)) : SubmitWorld :=
  Q.foldl (fun r e => r.putRemote g (fullName e.2) e.1) r

def editedPr (p : PullRequest) (a : PrArgs) : PullRequest :=
  { p with base := a.base, title := a.title, body := a.body }

/-- What becomes of a pull request if those of `E` were edited. -/
def editPr (env : ForgeEnv) (w : ForgeWorld) (E : List (Oid × Text)) (p : PullRequest) : PullRequest :=
  match E.find? fun e => e.2 = p.head with
  | some e => editedPr p (desiredPr env w.repo w.prs e.1)
  | none => p

/-- The branches `Q` were pushed, and the pull requests of `E` were edited. -/
def forgeState (env : ForgeEnv) (w : ForgeWorld) (Q E : List (Oid × Text)) : ForgeWorld :=
  { w with repo := pushedRepo w.repo w.github Q, prs := w.prs.map (editPr env w E) }

theorem editPr_head (env : ForgeEnv) (w : ForgeWorld) (E : List (Oid × Text)) (p : PullRequest) :
    (editPr env w E p).head = p.head := by
  unfold editPr
  split <;> rfl

theorem editPr_url (env : ForgeEnv) (w : ForgeWorld) (E : List (Oid × Text)) (p : PullRequest) :
    (editPr env w E p).url = p.url := by
  unfold editPr
  split <;> rfl

theorem editPr_number (env : ForgeEnv) (w : ForgeWorld) (E : List (Oid × Text)) (p : PullRequest) :
    (editPr env w E p).number = p.number := by
  unfold editPr
  split <;> rfl

theorem editPrs_heads (env : ForgeEnv) (w : ForgeWorld) (E : List (Oid × Text)) :
    SameHeads w.prs (w.prs.map (editPr env w E)) (editPr env w E) :=
  ⟨rfl, editPr_head env w E, editPr_url env w E⟩

/-- The fields which a push leaves. -/
theorem pushedRepo_same (r : SubmitWorld) (g : Text) (Q : List (Oid × Text)) :
    (pushedRepo r g Q).refs = r.refs ∧ (pushedRepo r g Q).reachable = r.reachable ∧
    (pushedRepo r g Q).accepts = r.accepts ∧ (pushedRepo r g Q).isAncestor = r.isAncestor ∧
    (pushedRepo r g Q).remote = r.remote ∧ (pushedRepo r g Q).merge = r.merge ∧
    (pushedRepo r g Q).pushRemote = r.pushRemote ∧ (pushedRepo r g Q).pushDefault = r.pushDefault := by
  induction Q generalizing r with
  | nil => exact ⟨rfl, rfl, rfl, rfl, rfl, rfl, rfl, rfl⟩
  | cons e Q ih => exact ih (r.putRemote g (fullName e.2) e.1)

theorem pushedRepo_snoc (r : SubmitWorld) (g : Text) (Q : List (Oid × Text)) (e : Oid × Text) :
    pushedRepo r g (Q ++ [e]) = (pushedRepo r g Q).putRemote g (fullName e.2) e.1 := by
  unfold pushedRepo
  rw [List.foldl_append]
  rfl

theorem pushedRepo_other {r : SubmitWorld} {g : Text} {Q : List (Oid × Text)} {k : Text × Text}
    (h : ∀ e ∈ Q, k ≠ (g, fullName e.2)) :
    (pushedRepo r g Q).remotes.get? k = r.remotes.get? k ∧
    (pushedRepo r g Q).tracking.get? k = r.tracking.get? k := by
  induction Q generalizing r with
  | nil => exact ⟨rfl, rfl⟩
  | cons e Q ih =>
    obtain ⟨h1, h2⟩ := ih (r := r.putRemote g (fullName e.2) e.1) fun f hf => h f (List.mem_cons_of_mem _ hf)
    have hne := h e List.mem_cons_self
    unfold pushedRepo at *
    rw [List.foldl_cons, h1, h2]
    unfold SubmitWorld.putRemote
    simp only
    rw [AMap.get?_insert, AMap.get?_insert, if_neg (Ne.symm hne), if_neg (Ne.symm hne)]
    exact ⟨rfl, rfl⟩

theorem pushedRepo_mem {r : SubmitWorld} {g : Text} {Q : List (Oid × Text)}
    (hq : ∀ e ∈ Q, ∀ f ∈ Q, e.2 = f.2 → e = f) {o : Oid} {b : Text} (h : (o, b) ∈ Q) :
    (pushedRepo r g Q).remotes.get? (g, fullName b) = some o ∧
    (pushedRepo r g Q).tracking.get? (g, fullName b) = some o := by
  induction Q generalizing r with
  | nil => cases h
  | cons e Q ih =>
    by_cases hin : (o, b) ∈ Q
    · exact ih (r := r.putRemote g (fullName e.2) e.1)
        (fun f hf f' hf' => hq f (List.mem_cons_of_mem _ hf) f' (List.mem_cons_of_mem _ hf')) hin
    · rcases List.mem_cons.1 h with rfl | h
      · have := pushedRepo_other (r := r.putRemote g (fullName b) o) (g := g) (Q := Q) (k := (g, fullName b)) (by
          intro f hf he
          have h1 := fullName_inj (Prod.mk.inj he).2
          have := hq f (List.mem_cons_of_mem _ hf) (o, b) List.mem_cons_self h1.symm
          exact hin (this ▸ hf))
        unfold pushedRepo at *
        rw [List.foldl_cons, this.1, this.2]
        unfold SubmitWorld.putRemote
        simp only
        rw [AMap.get?_insert, AMap.get?_insert, if_pos rfl, if_pos rfl]
        exact ⟨rfl, rfl⟩
      · exact absurd h hin

theorem pushedRepo_view {r : SubmitWorld} {g : Text} {Q : List (Oid × Text)}
    (h : ∀ e ∈ Q, ∃ u, r.tracking.get? (g, fullName e.2) = some u) : SameView r (pushedRepo r g Q) := by
  induction Q generalizing r with
  | nil => exact .rfl' r
  | cons e Q ih =>
    have h1 := putRemote_view (o := e.1) (h e List.mem_cons_self)
    refine h1.trans (ih ?_)
    intro f hf
    have := h1.tracking (g, fullName f.2)
    obtain ⟨u, hu⟩ := h f (List.mem_cons_of_mem _ hf)
    rw [hu] at this
    exact Option.isSome_iff_exists.1 this

theorem forgeState_tip_mem {env : ForgeEnv} {w : ForgeWorld} {Q E : List (Oid × Text)}
    (hq : ∀ e ∈ Q, ∀ f ∈ Q, e.2 = f.2 → e = f) {o : Oid} {b : Text} (h : (o, b) ∈ Q) :
    (forgeState env w Q E).tip b = some o := (pushedRepo_mem hq h).1

theorem forgeState_tip_other {env : ForgeEnv} {w : ForgeWorld} {Q E : List (Oid × Text)} {b : Text}
    (h : ∀ o, (o, b) ∉ Q) : (forgeState env w Q E).tip b = w.tip b :=
  (pushedRepo_other fun e he hk => h e.1 (by
    have := fullName_inj (Prod.mk.inj hk).2
    rw [this]; exact he)).1

/-! ### nothing is closed -/

theorem Jobs.unique {env : ForgeEnv} {w : ForgeWorld} {K : List (Oid × Text)} (h : Jobs env w K) :
    ∀ e ∈ K, ∀ f ∈ K, e.2 = f.2 → e = f := by
  intro e he f hf hb
  have h1 := h.at_ e he
  have h2 := h.at_ f hf
  unfold BranchAt at h1 h2
  rw [hb, h2] at h1
  exact Prod.ext (Option.some.inj h1).symm hb

theorem Jobs.nodup {env : ForgeEnv} {w : ForgeWorld} {K : List (Oid × Text)} (h : Jobs env w K) : K.Nodup :=
  h.sorted.imp fun {e f} hn => by
    rintro rfl
    exact hn .refl

/-- No pull request is closed by what has been done. -/
theorem calm {env : ForgeEnv} {w : ForgeWorld} (hu : UsualForge env w) (hiter : ∀ s, (env.iter s).Perm s)
    {K : List (Oid × Text)} (hK : Jobs env w K) (hd : Undisturbed env w K) {Q R E : List (Oid × Text)}
    (hQ : K = Q ++ R) (hE : E = Q ∨ ∃ e, Q = E ++ [e]) :
    ∀ p ∈ (forgeState env w Q E).prs, (forgeState env w Q E).merged p = false := by
  have hQK : ∀ e ∈ Q, e ∈ K := fun e he => hQ ▸ List.mem_append_left _ he
  have hEQ : ∀ e ∈ E, e ∈ Q := by
    rcases hE with rfl | ⟨e, rfl⟩
    · exact fun _ h => h
    · exact fun _ h => List.mem_append_left _ h
  have huQ : ∀ e ∈ Q, ∀ f ∈ Q, e.2 = f.2 → e = f := fun e he f hf => hK.unique e (hQK e he) f (hQK f hf)
  have hnotQ : ∀ b, (∀ e ∈ Q, e.2 ≠ b) → ∀ o, (o, b) ∉ Q := fun b h o ho => h _ ho rfl
  have hanc : (pushedRepo w.repo w.github Q).isAncestor = w.repo.isAncestor := (pushedRepo_same _ _ _).2.2.2.1
  have hnanc : ∀ a b, b ∈ env.dag.graph.nodes → ¬ Anc env.dag.graph a b → w.repo.isAncestor a b = false := by
    intro a b hb h
    rw [Bool.eq_false_iff]
    exact fun h' => h ((hu.ancestor a b hb).1 h')
  intro p' hp'
  obtain ⟨p, hp, rfl⟩ := List.mem_map.1 hp'
  obtain ⟨h0, b0, hh0, hb0, hopen⟩ := hu.open_ p hp
  -- it suffices to look at the two commits
  suffices hs : ∀ h b, (forgeState env w Q E).tip p.head = some h →
      (forgeState env w Q E).tip (editPr env w E p).base = some b → w.repo.isAncestor h b = false by
    unfold ForgeWorld.merged
    rw [editPr_head]
    cases h1 : (forgeState env w Q E).tip p.head with
    | none => rfl
    | some h =>
      cases h2 : (forgeState env w Q E).tip (editPr env w E p).base with
      | none => rfl
      | some b =>
        simp only
        have := hs h b h1 h2
        show (pushedRepo w.repo w.github Q).isAncestor h b = false
        rw [hanc]
        exact this
  intro h b h1 h2
  by_cases hheadE : ∃ e ∈ E, e.2 = p.head
  · -- the pull request was edited
    obtain ⟨e, he, hep⟩ := hheadE
    have hfind : E.find? (fun e => decide (e.2 = p.head)) = some e := by
      cases hf : E.find? fun e => decide (e.2 = p.head) with
      | none =>
        rw [List.find?_eq_none] at hf
        exact absurd (decide_eq_true hep) (hf e he)
      | some f =>
        have h3 := List.mem_of_find?_eq_some hf
        have h4 : f.2 = p.head := by simpa using List.find?_some hf
        rw [huQ f (hEQ f h3) e (hEQ e he) (h4.trans hep.symm)]
    have heq : h = e.1 := by
      have := forgeState_tip_mem (env := env) (w := w) (E := E) huQ (o := e.1) (b := p.head) (by
        rw [← hep]; exact hEQ e he)
      rw [this] at h1
      exact (Option.some.inj h1).symm
    subst heq
    have heK : e ∈ K := hQK e (hEQ e he)
    have hbase : (editPr env w E p).base = prBase env w.repo w.prs e.1 := by
      unfold editPr
      rw [hfind]
      rfl
    rw [hbase] at h2
    rcases prBase_cases hu hiter (hK.node e heK) with ⟨a, q, ha, hq, hqb⟩ | ⟨-, hmain⟩
    · rw [hqb] at h2
      by_cases haK : (a, q.head) ∈ K
      · -- the commit below was pushed before
        have hane : ∀ f ∈ K, f = (a, q.head) → ¬ Anc env.dag.graph e.1 f.1 := by
          rintro f - rfl h'
          exact ha.ne (ha.anc.antisymm hu.graph h')
        have haQ : (a, q.head) ∈ Q := by
          by_contra hnq
          have hR : (a, q.head) ∈ R := by
            rw [hQ, List.mem_append] at haK
            exact haK.resolve_left hnq
          have := hK.sorted
          rw [hQ] at this
          exact (List.pairwise_append.1 this).2.2 e (hEQ e he) _ hR ha.anc
        rw [forgeState_tip_mem huQ haQ] at h2
        obtain rfl := Option.some.inj h2
        exact hnanc _ _ (hK.node _ haK) (hane _ haK rfl)
      · have : ∀ o, (o, q.head) ∉ Q := by
          intro o ho
          have h3 := hK.at_ _ (hQK _ ho)
          have h4 := hq.at_
          unfold BranchAt at h3 h4
          rw [h4] at h3
          obtain rfl := Option.some.inj h3
          exact haK (hQK _ ho)
        rw [forgeState_tip_other this] at h2
        exact hd.below e heK a q ha hq haK b h2
    · rw [hmain] at h2
      have : ∀ o, (o, env.mainName) ∉ Q := fun o ho => hK.notMain _ (hQK _ ho) rfl
      rw [forgeState_tip_other this] at h2
      exact hd.main e heK b h2
  · -- the base is the old one
    have hedit : editPr env w E p = p := by
      unfold editPr
      have : E.find? (fun e => decide (e.2 = p.head)) = none := by
        rw [List.find?_eq_none]
        intro e he h'
        exact hheadE ⟨e, he, of_decide_eq_true h'⟩
      rw [this]
    rw [hedit] at h2
    by_cases hheadQ : ∃ e ∈ Q, e.2 = p.head
    · -- it was pushed just now
      obtain ⟨e, he, hep⟩ := hheadQ
      have heK := hQK e he
      have heq : h = e.1 := by
        have := forgeState_tip_mem (env := env) (w := w) (E := E) huQ (o := e.1) (b := p.head) (by
          rw [← hep]; exact he)
        rw [this] at h1
        exact (Option.some.inj h1).symm
      subst heq
      have hlast : ∃ E', Q = E' ++ [e] := by
        rcases hE with rfl | ⟨f, hf⟩
        · exact absurd ⟨e, he, hep⟩ hheadE
        · rw [hf, List.mem_append] at he
          rcases he with he | he
          · exact absurd ⟨e, he, hep⟩ hheadE
          · rw [List.mem_singleton] at he
            exact ⟨E, he ▸ hf⟩
      obtain ⟨E', hE'⟩ := hlast
      by_cases hbQ : ∃ f ∈ Q, f.2 = p.base
      · obtain ⟨f, hf, hfb⟩ := hbQ
        have hb : b = f.1 := by
          have := forgeState_tip_mem (env := env) (w := w) (E := E) huQ (o := f.1) (b := p.base) (by
            rw [← hfb]; exact hf)
          rw [this] at h2
          exact (Option.some.inj h2).symm
        subst hb
        rw [hE', List.mem_append] at hf
        rcases hf with hf | hf
        · refine hnanc _ _ (hK.node f (hQK f (hE' ▸ List.mem_append_left _ hf))) ?_
          have := hK.sorted
          rw [hQ, hE', List.append_assoc] at this
          exact (List.pairwise_append.1 this).2.2 f hf e List.mem_cons_self
        · -- the base is the head
          exfalso
          rw [List.mem_singleton] at hf
          rw [← hfb, hf, hep] at hb0
          rw [hh0] at hb0
          obtain rfl := Option.some.inj hb0
          rw [hu.refl] at hopen
          cases hopen
      · push Not at hbQ
        rw [forgeState_tip_other (hnotQ _ hbQ)] at h2
        by_cases hsame : w.tip e.2 = some e.1
        · rw [hep, hh0] at hsame
          rw [hb0] at h2
          rw [← Option.some.inj hsame, ← Option.some.inj h2]
          exact hopen
        · exact hd.new e heK hsame p hp hep.symm b h2
    · push Not at hheadQ
      rw [forgeState_tip_other (hnotQ _ hheadQ)] at h1
      by_cases hbQ : ∃ f ∈ Q, f.2 = p.base
      · obtain ⟨f, hf, hfb⟩ := hbQ
        have hb : b = f.1 := by
          have := forgeState_tip_mem (env := env) (w := w) (E := E) huQ (o := f.1) (b := p.base) (by
            rw [← hfb]; exact hf)
          rw [this] at h2
          exact (Option.some.inj h2).symm
        subst hb
        rw [Bool.eq_false_iff]
        intro hcon
        have hin := hd.old p hp h f.1 h1 (by rw [← hfb]; exact hQK f hf) hcon
        have hR : (h, p.head) ∈ R := by
          rw [hQ, List.mem_append] at hin
          exact hin.resolve_left fun h' => hheadQ _ h' rfl
        have := hK.sorted
        rw [hQ] at this
        exact (List.pairwise_append.1 this).2.2 f hf _ hR
          ((hu.ancestor _ _ (hK.node f (hQK f hf))).1 hcon)
      · push Not at hbQ
        rw [forgeState_tip_other (hnotQ _ hbQ)] at h2
        rw [hh0] at h1
        rw [hb0] at h2
        rw [← Option.some.inj h1, ← Option.some.inj h2]
        exact hopen

theorem settle_calm {w : ForgeWorld} (h : ∀ p ∈ w.prs, w.merged p = false) : w.settle = w := by
  unfold ForgeWorld.settle
  rw [List.filter_eq_self.2 fun p hp => by rw [h p hp]; rfl]

/-! ### the loop -/

/-- The commands for the commits. -/
def updateLog (env : ForgeEnv) (w : ForgeWorld) (K : List (Oid × Text)) : List ForgeCommand :=
  K.flatMap fun e =>
    match prOf w.prs e.2 with
    | none => []
    | some p =>
      let a := desiredPr env w.repo w.prs e.1
      [.git (.pushLease w.github [e.2]), .editPr p.number a.base a.title a.body]

theorem updatePrLoop_eq {env : ForgeEnv} {w : ForgeWorld} (hu : UsualForge env w)
    (hiter : ∀ s, (env.iter s).Perm s) {K : List (Oid × Text)} (hK : Jobs env w K)
    (hd : Undisturbed env w K) (hw : Willing env w K) (P R : List (Oid × Text)) (hPR : K = P ++ R) :
    updatePrLoop env w.prs (forgeState env w P P) (R.map fun e => (e.1, createdStatus w.github e.2)) =
      (forgeState env w K K, updateLog env w R, true) := by
  induction R generalizing P with
  | nil =>
    rw [List.append_nil] at hPR
    subst hPR
    rfl
  | cons e R ih =>
    have hPR' : K = (P ++ [e]) ++ R := by rw [hPR]; simp
    have hPK : ∀ f ∈ P, f ∈ K := fun f hf => hPR ▸ List.mem_append_left _ hf
    have heK : e ∈ K := hPR ▸ List.mem_append_right _ List.mem_cons_self
    have heP : ∀ f ∈ P, f.2 ≠ e.2 := by
      intro f hf hfe
      have := hK.unique f (hPK f hf) e heK hfe
      subst this
      have hnd := hK.nodup
      rw [hPR] at hnd
      exact (List.nodup_append.1 hnd).2.2 f hf f List.mem_cons_self rfl
    obtain ⟨p, hp, hpe⟩ := hK.pr e heK
    have hpo : prOf w.prs e.2 = some p := (prOf_some hu).2 ⟨hp, hpe⟩
    have htrk : ∀ f ∈ P, ∃ u, w.repo.tracking.get? (w.github, fullName f.2) = some u :=
      fun f hf => (hK.tracks f (hPK f hf)).tracked
    have hview : SameView w.repo (forgeState env w P P).repo := pushedRepo_view htrk
    have hother := pushedRepo_other (r := w.repo) (g := w.github) (Q := P) (k := (w.github, fullName e.2))
      (fun f hf h => heP f hf (fullName_inj (Prod.mk.inj h).2).symm)
    -- the push
    have hsame := pushedRepo_same w.repo w.github P
    have hpush : updateAll (forgeState env w P P).repo
        (updateGroups [(createdStatus w.github e.2).toCommitStatus]) =
        ((forgeState env w (P ++ [e]) P).repo, [.pushLease w.github [e.2]], true) := by
      have := updateAll_single (r := (forgeState env w P P).repo) (g := w.github) (b := e.2) (o := e.1)
        hu.notSelf (by
          show (pushedRepo w.repo w.github P).reachable _ = true
          rw [hsame.2.1]; exact hw.reachable) (by
          show (pushedRepo w.repo w.github P).refs.get? _ = _
          rw [hsame.1]; exact hK.at_ e heK) (by
          show (pushedRepo w.repo w.github P).remotes.get? _ = _ ∨
            ((pushedRepo w.repo w.github P).tracking.get? _ = (pushedRepo w.repo w.github P).remotes.get? _ ∧
              (pushedRepo w.repo w.github P).accepts _ _ = true)
          rw [hother.1, hother.2, hsame.2.2.1]
          exact hw.lease e heK) .needsUpdate
      show updateAll _ (updateGroups [⟨.needsUpdate, some w.github, some e.2⟩]) = _
      rw [this]
      show (_, _, _) = ((pushedRepo w.repo w.github (P ++ [e])), _, _)
      rw [pushedRepo_snoc]
      rfl
    have hmid : ForgeWorld.settle { forgeState env w P P with repo := (forgeState env w (P ++ [e]) P).repo } =
        forgeState env w (P ++ [e]) P :=
      settle_calm (calm hu hiter hK hd hPR' (.inr ⟨e, rfl⟩))
    -- the edit
    have hdes : desiredPr env (forgeState env w P P).repo w.prs e.1 = desiredPr env w.repo w.prs e.1 :=
      hview.desired env w.prs e.1
    have hedit : (forgeState env w (P ++ [e]) P).editPr p.number (desiredPr env w.repo w.prs e.1).base
        (desiredPr env w.repo w.prs e.1).title (desiredPr env w.repo w.prs e.1).body =
        some (forgeState env w (P ++ [e]) (P ++ [e])) := by
      have hmap : (w.prs.map (editPr env w P)).map (fun q =>
          if q.number = p.number then { q with
            base := (desiredPr env w.repo w.prs e.1).base
            title := (desiredPr env w.repo w.prs e.1).title
            body := (desiredPr env w.repo w.prs e.1).body } else q) = w.prs.map (editPr env w (P ++ [e])) := by
        rw [List.map_map]
        refine List.map_congr_left fun q hq => ?_
        simp only [Function.comp, editPr_number]
        have hfind : (P ++ [e]).find? (fun f => decide (f.2 = q.head)) =
            (P.find? fun f => decide (f.2 = q.head)).or (if e.2 = q.head then some e else none) := by
          rw [List.find?_append, List.find?_singleton]
          simp
        by_cases hqp : q.number = p.number
        · rw [if_pos hqp]
          have := hu.numbers q hq p hp hqp
          subst this
          have hnone : P.find? (fun f => decide (f.2 = q.head)) = none := by
            rw [List.find?_eq_none]
            intro f hf h
            exact heP f hf ((of_decide_eq_true h).trans hpe)
          unfold editPr
          rw [hfind, hnone, if_pos hpe.symm]
          rfl
        · rw [if_neg hqp]
          have hne : e.2 ≠ q.head := by
            intro h
            exact hqp (by rw [hu.heads q hq p hp (h.symm.trans hpe.symm)])
          unfold editPr
          rw [hfind, if_neg hne, Option.or_none]
      have hbase : ((forgeState env w (P ++ [e]) P).tip (desiredPr env w.repo w.prs e.1).base).isSome = true := by
        have htip : ∀ b, (∃ o, w.tip b = some o) →
            ((forgeState env w (P ++ [e]) P).tip b).isSome = true := by
          rintro b ⟨o, ho⟩
          by_cases hb : ∃ f ∈ P ++ [e], f.2 = b
          · obtain ⟨f, hf, rfl⟩ := hb
            rw [forgeState_tip_mem (o := f.1) (fun a ha c hc => hK.unique a (hPR' ▸ List.mem_append_left _ ha) c
              (hPR' ▸ List.mem_append_left _ hc)) hf]
            rfl
          · rw [forgeState_tip_other fun o' ho' => hb ⟨_, ho', rfl⟩, ho]
            rfl
        show ((forgeState env w (P ++ [e]) P).tip (prBase env w.repo w.prs e.1)).isSome = true
        rcases prBase_cases hu hiter (hK.node e heK) with ⟨a, q, -, hq, hqb⟩ | ⟨-, hmain⟩
        · rw [hqb]
          obtain ⟨h, b, hh, -, -⟩ := hu.open_ q hq.mem
          exact htip _ ⟨h, hh⟩
        · rw [hmain]
          exact htip _ hw.main
      have hany : ((forgeState env w (P ++ [e]) P).prs.any fun q => q.number = p.number) = true := by
        rw [List.any_eq_true]
        exact ⟨editPr env w P p, List.mem_map.2 ⟨p, hp, rfl⟩, by rw [editPr_number]; exact decide_eq_true rfl⟩
      unfold ForgeWorld.editPr
      rw [if_pos]
      · congr 1
        have hset := settle_calm (calm hu hiter hK hd hPR' (E := P ++ [e]) (.inl rfl))
        refine Eq.trans ?_ hset
        congr 1
        show ForgeWorld.mk _ _ _ ((w.prs.map (editPr env w P)).map _) _ _ _ = _
        rw [hmap]
        rfl
      · rw [Bool.and_eq_true, Bool.and_eq_true]
        exact ⟨⟨hw.edits _ _ _ _, hany⟩, hbase⟩
    rw [List.map_cons, updatePrLoop]
    have hbind : (createdStatus w.github e.2).remoteCommit.bind (prOf w.prs) = some p := hpo
    simp only [hbind, hpush, hdes, hmid, hedit]
    rw [if_pos trivial, ih (P ++ [e]) hPR']
    have hlog : updateLog env w (e :: R) = [.git (.pushLease w.github [e.2]),
        .editPr p.number (desiredPr env w.repo w.prs e.1).base (desiredPr env w.repo w.prs e.1).title
          (desiredPr env w.repo w.prs e.1).body] ++ updateLog env w R := by
      unfold updateLog
      rw [List.flatMap_cons]
      simp only [hpo]
    rw [hlog]
    rfl

end Verif.Spec
