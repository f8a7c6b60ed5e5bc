import Verif.Lemmas.PlanDfs
import Mathlib.Order.WellFounded
import Mathlib.Data.Finite.Defs
import Mathlib.Order.RelClasses
import Mathlib.Data.Fintype.Card
import Mathlib.Order.Fin.Basic
import Mathlib.Data.Fintype.EquivFin

namespace Verif.Spec

open Verif Verif.Constraints Verif.RebasePlanBuilder

theorem buildRoot_ok {b : RebasePlanBuilder} {k : Constraints} {st st' : Option Oid × BuildState}
    {root : Constraint} (h : buildRoot b k st root = .ok st') :
    ∃ p ps c up, rootEdge b.env root = .ok (p :: ps, c) ∧
      up = (if b.permissions.detectDuplicateCommitsViaPatchId
        then getUpstreamPatchIds b.env k c (p :: ps) else []) ∧
      makeRebasePlanForCurrentCommit b k up (k.parents.length + 2) c
        (push st.2 [.reset (.oid p)]) = some st'.2 ∧ st'.1 = some (st.1.getD p) := by
  unfold buildRoot at h
  split at h
  · simp at h
  · rename_i ps c hr
    cases ps with
    | nil => simp at h
    | cons p ps =>
      simp only at h
      split at h
      · simp at h
      · rename_i s hs
        simp only [Except.ok.injEq] at h
        subst h
        exact ⟨p, ps, c, _, hr, rfl, hs, rfl⟩

/-- How a root is visited. -/
def rootTok : Constraint → Option Oid × Oid
  | .moveSubtree (p :: _) c => (some p, c)
  | .moveSubtree [] c => (none, c)
  | .fixUpCommit t _ => (none, t)
  | .moveChildren _ c => (none, c)

theorem mem_findRoots {k : Constraints} {r : Constraint} (h : r ∈ k.findRoots) :
    (∃ p c, r = .moveSubtree [p] c ∧ p ∈ k.unconstrainedNodes ∧ Moves k p c) ∨
    (∃ t, r = .fixUpCommit t t ∧ t ∈ k.unconstrainedFixupNodes) := by
  unfold findRoots at h
  rcases List.mem_append.1 h with h | h
  · obtain ⟨p, hp, h⟩ := List.mem_flatMap.1 h
    obtain ⟨c, hc, rfl⟩ := List.mem_map.1 h
    rw [mem_sortOids] at hp hc
    exact .inl ⟨p, c, rfl, hp, mem_commitsToMoveTo.1 hc⟩
  · obtain ⟨t, ht, rfl⟩ := List.mem_map.1 h
    exact .inr ⟨t, rfl, mem_sortOids.1 ht⟩

theorem findRoots_move {k : Constraints} {p c : Oid} (hp : p ∈ k.unconstrainedNodes)
    (hc : Moves k p c) : .moveSubtree [p] c ∈ k.findRoots := by
  unfold findRoots
  refine List.mem_append_left _ (List.mem_flatMap.2 ⟨p, mem_sortOids.2 hp, List.mem_map.2 ⟨c, ?_, rfl⟩⟩)
  rw [mem_sortOids, mem_commitsToMoveTo]; exact hc

theorem findRoots_fixup {k : Constraints} {t : Oid} (ht : t ∈ k.unconstrainedFixupNodes) :
    .fixUpCommit t t ∈ k.findRoots := by
  unfold findRoots
  exact List.mem_append_right _ (List.mem_map.2 ⟨t, mem_sortOids.2 ht, rfl⟩)

theorem mem_unconstrainedNodes {k : Constraints} (hw : KWF k) {p : Oid} :
    p ∈ k.unconstrainedNodes ↔ p ∈ k.parents ∧ ¬ Rewritten k p := by
  unfold unconstrainedNodes
  rw [mem_diff, mem_diff, mem_unconstrainedFixup hw, mem_commitsToMove hw.1.1]
  unfold Rewritten
  tauto

theorem nodup_diff {l m : List Oid} (h : l.Nodup) : (CommitGraph.diff l m).Nodup := h.filter _

theorem nodup_rootToks {k : Constraints} (hw : KWF k) : (k.findRoots.map rootTok).Nodup := by
  have hk : k.parents.Nodup := hw.1.1
  have hf : k.commitsToFixup.Nodup := hw.2.1
  unfold findRoots
  rw [List.map_append, List.map_flatMap, List.nodup_append]
  have n1 : (sortOids k.unconstrainedNodes).Nodup := by
    rw [(sortOids_perm _).nodup_iff]
    exact nodup_diff (nodup_diff hk)
  have n2 : ∀ p, (sortOids (k.commitsToMoveTo p)).Nodup := by
    intro p
    rw [(sortOids_perm _).nodup_iff]
    unfold commitsToMoveTo
    cases hg : AMap.get? k.inner p with
    | none => simp
    | some l => exact hw.1.2 _ _ hg
  refine ⟨?_, ?_, ?_⟩
  · rw [List.nodup_flatMap]
    refine ⟨fun p _ => ?_, ?_⟩
    · rw [List.map_map]
      exact (n2 p).map fun a c h => by simpa [rootTok] using h
    · refine n1.imp fun {p q} hpq => ?_
      rw [Function.onFun, List.disjoint_left]
      intro x hx hy
      obtain ⟨a, ha, rfl⟩ := List.mem_map.1 hx
      obtain ⟨a', ha', rfl⟩ := List.mem_map.1 ha
      obtain ⟨c, hc, hc2⟩ := List.mem_map.1 hy
      obtain ⟨c', hc', rfl⟩ := List.mem_map.1 hc
      simp only [rootTok, Prod.mk.injEq, Option.some.injEq] at hc2
      exact hpq hc2.1.symm
  · rw [List.map_map]
    refine List.Nodup.map (fun a c h => by simpa [rootTok] using h) ?_
    rw [(sortOids_perm _).nodup_iff]
    exact nodup_diff hf
  · intro x hx y hy hxy
    obtain ⟨p, _, hx⟩ := List.mem_flatMap.1 hx
    obtain ⟨a, ha, rfl⟩ := List.mem_map.1 hx
    obtain ⟨a', _, rfl⟩ := List.mem_map.1 ha
    obtain ⟨c, hc, rfl⟩ := List.mem_map.1 hy
    obtain ⟨c', _, rfl⟩ := List.mem_map.1 hc
    simp [rootTok] at hxy

/-- The loop over the roots, for regular requests. -/
theorem buildRoots_spec {b : RebasePlanBuilder} {k : Constraints} (hw : KWF k)
    (hr : Regular b.env k) {st : Option Oid × BuildState}
    (h : k.findRoots.foldlM (buildRoot b k) (none, ⟨[], [], []⟩) = .ok st) :
    ∃ D W, Inv b.env k st.2 D W ∧ Grown k (fun _ => False) (fun _ _ => False) D W
      (fun u x => (u, x) ∈ k.findRoots.map rootTok) := by
  refine foldlM_except_inv (P := fun pre st => ∃ D W, Inv b.env k st.2 D W ∧
    Grown k (fun _ => False) (fun _ _ => False) D W (fun u x => (u, x) ∈ pre.map rootTok))
    ⟨_, _, Inv.init b.env k, ?_⟩ ?_ h
  · exact ⟨by simp, by simp, by simp, by simp, by simp⟩
  · rintro pre r post st st' hsplit ⟨D, W, hi, hg⟩ hs
    obtain ⟨p, ps, c, up, h1, -, h2, -⟩ := buildRoot_ok hs
    have hi1 : Inv b.env k (push st.2 [.reset (.oid p)]) D W :=
      hi.push_neutral (cs := [.reset (.oid p)]) (by simp [handled]) rfl rfl
    have hmem : r ∈ k.findRoots := by rw [hsplit]; simp
    have hnot : rootTok r ∉ pre.map rootTok := by
      have := nodup_rootToks hw
      rw [hsplit, List.map_append, List.map_cons, List.nodup_append] at this
      exact fun hm => this.2.2 _ hm _ (by simp) rfl
    have key : ∃ t, rootTok r = (t, c) ∧ Legit k D t c ∧ ¬ W t c := by
      rcases mem_findRoots hmem with ⟨q, d, rfl, hq, hm⟩ | ⟨t, rfl, ht⟩
      · simp only [rootEdge, Except.ok.injEq, Prod.mk.injEq] at h1
        obtain ⟨_, rfl⟩ := h1
        have hnr := ((mem_unconstrainedNodes hw).1 hq).2
        refine ⟨some q, rfl, ⟨hm, fun h => absurd h hnr⟩, fun hW => ?_⟩
        rcases hg.new _ _ hW with h | h | ⟨x, h3, _, h4⟩
        · exact h
        · exact hnot h
        · cases h3; exact hnr (hi.done_rewritten hw h4)
      · simp only [rootEdge, Except.ok.injEq, Prod.mk.injEq] at h1
        obtain ⟨_, rfl⟩ := h1
        refine ⟨none, rfl, ht, fun hW => ?_⟩
        rcases hg.new _ _ hW with h | h | ⟨x, h3, _, h4⟩
        · exact h
        · exact hnot h
        · cases h3
    obtain ⟨t, ht, hl, hn⟩ := key
    obtain ⟨D', W', h3, h4⟩ := visit_spec hw hr up _ D W t c _ _ h2 hi1 hl hn
    refine ⟨D', W', h3, hg.trans h4 ?_⟩
    intro u x
    simp only [List.map_append, List.map_cons, List.map_nil, List.mem_append, List.mem_singleton, ht,
      Prod.mk.injEq]

/-! ### everything is reached -/

instance finiteOid : Finite Oid :=
  Finite.of_injective (fun o : Oid => (⟨o.val, o.lt⟩ : Fin (2 ^ 160))) fun a b h => by
    cases a; cases b
    simp only [Fin.mk.injEq] at h
    subst h; rfl

theorem wellFounded_moves {k : Constraints} (h : Acyclic k) : WellFounded (Moves k) := by
  haveI : IsTrans Oid (Relation.TransGen (Moves k)) := ⟨fun _ _ _ => Relation.TransGen.trans⟩
  haveI : Std.Irrefl (Relation.TransGen (Moves k)) := ⟨h⟩
  exact Subrelation.wf (fun h => Relation.TransGen.single h)
    (Finite.wellFounded_of_trans_of_irrefl (Relation.TransGen (Moves k)))

theorem all_done {b : RebasePlanBuilder} {k : Constraints} (hw : KWF k) (hr : Regular b.env k)
    (hac : Acyclic k) {s : BuildState} {D : Oid → Prop} {W : Option Oid → Oid → Prop}
    (hi : Inv b.env k s D W) (hg : Grown k (fun _ => False) (fun _ _ => False) D W
      (fun u x => (u, x) ∈ k.findRoots.map rootTok)) (c : Oid) (hc : Rewritten k c) : D c := by
  haveI := Classical.propDecidable
  induction c using (wellFounded_moves hac).induction with
  | _ c ih =>
    have tok : ∀ q, Moves k q c → W (some q) c := by
      intro q hq
      by_cases hqr : Rewritten k q
      · exact hg.closed q (ih q hq hqr) (by simp) c hq
      · refine hg.reached _ _ (List.mem_map.2 ⟨_, findRoots_move ?_ hq, rfl⟩)
        exact (mem_unconstrainedNodes hw).2 ⟨hq.mem_parents, hqr⟩
    have hex : ∃ t, W t c := by
      by_cases hm : ∃ p, Moves k p c
      · obtain ⟨p, hp⟩ := hm
        exact ⟨some p, tok p hp⟩
      · refine ⟨none, hg.reached _ _ (List.mem_map.2 ⟨_, findRoots_fixup ?_, rfl⟩)⟩
        exact (mem_unconstrainedFixup hw).2 ⟨hc.resolve_left hm, hm⟩
    obtain ⟨t, ht⟩ := hex
    rcases hi.waiting t c ht with h | ⟨hm, q, hq, hqr, hn⟩
    · exact h
    · exact absurd (tok q (hr.merge_on c q hm hc hq hqr).1) hn

/-! ### labels of the whole plan, and termination -/

theorem buildRoots_linv {b : RebasePlanBuilder} {k : Constraints} {st : Option Oid × BuildState}
    (h : k.findRoots.foldlM (buildRoot b k) (none, ⟨[], [], []⟩) = .ok st) : LInv st.2 := by
  refine foldlM_except_inv (P := fun _ st => LInv st.2) linv_nil ?_ h
  intro pre r post st st' _ hi hs
  obtain ⟨p, ps, c, up, h1, -, h2, -⟩ := buildRoot_ok hs
  refine (linv_visit _ _ _ _ h2 (hi.push ?_ ?_)).1
  · simp [labelCreated]
  · simp [labelsUsed, labelOf]

theorem buildRoots_no_fuel {b : RebasePlanBuilder} {k : Constraints} (hac : Acyclic k)
    {st : Option Oid × BuildState} (roots : List Constraint) :
    roots.foldlM (buildRoot b k) st ≠ .error .fuel := by
  induction roots generalizing st with
  | nil => intro h; simp only [List.foldlM_nil] at h; cases h
  | cons r rs ih =>
    rw [List.foldlM_cons]
    cases hb : buildRoot b k st r with
    | ok st' => exact ih
    | error e =>
      intro h
      have he : e = .fuel := by
        have : (Except.error e : Except PlanFail (Option Oid × BuildState)) = .error .fuel := h
        simpa using this
      subst he
      unfold buildRoot at hb
      split at hb
      · rename_i e he
        unfold rootEdge at he
        split at he <;> simp at he
        subst he
        simp at hb
      · split at hb
        · simp at hb
        · simp only at hb
          split at hb
          · rename_i hn
            have hall := fun up c s => visit_isSome (b := b) (up := up) hac (k.parents.length + 2) [] c
              s (pathTo_nil k c) (by simp)
            exact (Option.isSome_iff_ne_none.1 (hall _ _ _)) hn
          · simp at hb

theorem build_ok {b : RebasePlanBuilder} {plan : RebasePlan} (h : b.build = .ok (.ok (some plan))) :
    ∃ k st, b.constraintGraph = .ok k ∧ k.checkForCycles = some (.ok ()) ∧
      k.checkPermissions b.permissions = .ok () ∧
      k.findRoots.foldlM (buildRoot b k) (none, ⟨[], [], []⟩) = .ok st ∧
      st.1 = some plan.firstDestOid ∧
      plan.commands = st.2.acc ++ [.registerExtraPostRewriteHook] := by
  unfold build at h
  split at h
  · simp at h
  · rename_i k hk
    split at h
    · simp at h
    · simp at h
    · rename_i hcy
      split at h
      · simp at h
      · rename_i hpm
        unfold buildCommands at h
        split at h
        · simp at h
        · rename_i pl hb
          split at hb
          · simp at hb
          · rename_i dest s hf
            simp only [Except.ok.injEq] at h hb
            subst hb
            cases dest with
            | none => simp at h
            | some d =>
              simp only [Option.map_some, Option.some.injEq] at h
              subst h
              exact ⟨k, _, hk, hcy, hpm, hf, rfl, rfl⟩

/-! ### properties of all commands -/

/-- The names of labels which the planner makes. -/
def LabelName (l : Text) : Prop :=
  ∃ stem n k, (stem = t!"parent-" ∨ stem = t!"label-") ∧
    l = stem ++ natToText n ++ List.replicate k '\''

theorem makeLabelName_shape {used : List Text} {fuel : Nat} {name l : Text}
    (h : makeLabelName used fuel name = some l) : ∃ k, l = name ++ List.replicate k '\'' := by
  induction fuel generalizing name with
  | zero => simp [makeLabelName] at h
  | succ n ih =>
    rw [makeLabelName] at h
    split at h
    · simp only [Option.some.injEq] at h
      exact ⟨0, by simp [h]⟩
    · obtain ⟨k, hk⟩ := ih h
      exact ⟨k + 1, by rw [hk, List.replicate_succ]; simp⟩

theorem createLabel_name {s s' : BuildState} {stem l : Text}
    (h : createLabel s stem = some (l, s')) (hs : stem = t!"parent-" ∨ stem = t!"label-") :
    LabelName l := by
  unfold createLabel at h
  split at h
  · simp at h
  · rename_i l' hl
    simp only [Option.some.injEq, Prod.mk.injEq] at h
    obtain ⟨k, hk⟩ := makeLabelName_shape hl
    exact ⟨stem, _, k, hs, by rw [← h.1, hk]⟩

theorem createLabel_acc {Q : RebaseCommand → Prop} (hl : ∀ l, LabelName l → Q (.createLabel l))
    {s s' : BuildState} {stem l : Text} (h : createLabel s stem = some (l, s'))
    (hst : stem = t!"parent-" ∨ stem = t!"label-") (hs : ∀ c ∈ s.acc, Q c) :
    ∀ c ∈ s'.acc, Q c := by
  rw [(createLabel_some h).2.2.2]
  intro c hc
  rcases List.mem_append.1 hc with hc | hc
  · exact hs c hc
  · simp only [List.mem_singleton] at hc; exact hc ▸ hl l (createLabel_name h hst)

theorem visit_commands {b : RebasePlanBuilder} {k : Constraints} {up : List Nat}
    {Q : RebaseCommand → Prop}
    (hQ : ∀ cur s cs, Rewritten k cur → commandsFor b k up cur s = some cs → ∀ c ∈ cs, Q c)
    (hl : ∀ l, LabelName l → Q (.createLabel l)) (hreset : ∀ l, Q (.reset (.label l))) (fuel : Nat) (cur : Oid)
    (s s' : BuildState) (h : makeRebasePlanForCurrentCommit b k up fuel cur s = some s')
    (hcur : Rewritten k cur) (hs : ∀ c ∈ s.acc, Q c) : ∀ c ∈ s'.acc, Q c := by
  induction fuel generalizing cur s s' with
  | zero => simp [makeRebasePlanForCurrentCommit] at h
  | succ n ih =>
    rw [makeRebasePlanForCurrentCommit] at h
    cases hc : commandsFor b k up cur s with
    | none => rw [hc] at h; cases h; exact hs
    | some cs =>
      rw [hc] at h
      simp only at h
      have hp : ∀ c ∈ (push s cs).acc, Q c := by
        intro c hc'
        rcases List.mem_append.1 hc' with hc' | hc'
        · exact hs c hc'
        · exact hQ _ _ _ hcur hc c hc'
      cases hcp : createParentLabel b cur (sortOids (k.commitsToMoveTo cur)) (push s cs) with
      | none => rw [hcp] at h; simp at h
      | some s1 =>
        rw [hcp] at h
        simp only at h
        have h1 : ∀ c ∈ s1.acc, Q c := by
          rcases createParentLabel_some hcp with ⟨rfl, _⟩ | ⟨l, s2, h2, rfl⟩
          · exact hp
          · have := createLabel_acc hl h2 (.inl rfl) hp
            exact this
        have hch : ∀ c ∈ sortOids (k.commitsToMoveTo cur), Rewritten k c := by
          intro c hc
          rw [mem_sortOids, mem_commitsToMoveTo] at hc
          exact .inl ⟨cur, hc⟩
        unfold visitChildren at h
        split at h
        · cases h; exact h1
        · rename_i c hcc
          exact ih _ _ _ h (hch c (by rw [hcc]; simp)) h1
        · cases hcl : createLabel s1 t!"label-" with
          | none => rw [hcl] at h; simp at h
          | some x =>
            obtain ⟨l, s2⟩ := x
            rw [hcl] at h
            simp only at h
            refine foldlM_option_inv (P := fun _ t => ∀ c ∈ t.acc, Q c) (createLabel_acc hl hcl (.inr rfl) h1) ?_ h
            intro pre a post t t' hsplit ht hst
            unfold visitThenReset at hst
            cases hva : makeRebasePlanForCurrentCommit b k up n a t with
            | none => rw [hva] at hst; simp at hst
            | some t1 =>
              rw [hva] at hst
              simp only [Option.map_some, Option.some.injEq] at hst
              subst hst
              have := ih _ _ _ hva (hch a (by rw [hsplit]; simp)) ht
              intro c hc
              rcases List.mem_append.1 hc with hc | hc
              · exact this c hc
              · simp only [List.mem_singleton] at hc; exact hc ▸ hreset _

/-- The patch ids which are compared with those of the commits above a root. -/
def UpstreamOf (b : RebasePlanBuilder) (k : Constraints) (up : List Nat) : Prop :=
  ∃ r ∈ k.findRoots, ∃ ps c, rootEdge b.env r = .ok (ps, c) ∧
    up = if b.permissions.detectDuplicateCommitsViaPatchId
      then getUpstreamPatchIds b.env k c ps else []

/-- A property of all commands of a plan. -/
theorem plan_commands_labels {b : RebasePlanBuilder} {k : Constraints} (hw : KWF k)
    {Q : RebaseCommand → Prop}
    (hQ : ∀ up cur s cs, UpstreamOf b k up → Rewritten k cur → commandsFor b k up cur s = some cs →
      ∀ c ∈ cs, Q c)
    (hl : ∀ l, LabelName l → Q (.createLabel l)) (hreset : ∀ l, Q (.reset (.label l)))
    (hroot : ∀ r ∈ k.findRoots, ∀ p ps c, rootEdge b.env r = .ok (p :: ps, c) → Q (.reset (.oid p)))
    {st : Option Oid × BuildState}
    (h : k.findRoots.foldlM (buildRoot b k) (none, ⟨[], [], []⟩) = .ok st) : ∀ c ∈ st.2.acc, Q c := by
  refine foldlM_except_inv (P := fun _ st => ∀ c ∈ st.2.acc, Q c) (by simp) ?_ h
  intro pre r post st st' hsplit hs hr
  obtain ⟨p, ps, c, up, h1, h0, h2, -⟩ := buildRoot_ok hr
  have hmem : r ∈ k.findRoots := by rw [hsplit]; simp
  have hc : Rewritten k c := by
    rcases mem_findRoots hmem with ⟨q, d, rfl, hq, hm⟩ | ⟨t, rfl, ht⟩
    · simp only [rootEdge, Except.ok.injEq, Prod.mk.injEq] at h1
      exact .inl ⟨q, h1.2 ▸ hm⟩
    · simp only [rootEdge, Except.ok.injEq, Prod.mk.injEq] at h1
      exact .inr (h1.2 ▸ ((mem_unconstrainedFixup hw).1 ht).1)
  refine visit_commands (fun cur s cs => hQ up cur s cs ⟨r, hmem, _, _, h1, h0⟩) hl hreset _ _ _ _ h2 hc ?_
  intro x hx
  rcases List.mem_append.1 hx with hx | hx
  · exact hs x hx
  · simp only [List.mem_singleton] at hx; exact hx ▸ hroot r hmem _ _ _ h1

/-- The same, whatever the names of the labels. -/
theorem plan_commands {b : RebasePlanBuilder} {k : Constraints} (hw : KWF k)
    {Q : RebaseCommand → Prop}
    (hQ : ∀ up cur s cs, UpstreamOf b k up → Rewritten k cur → commandsFor b k up cur s = some cs →
      ∀ c ∈ cs, Q c)
    (hl : ∀ l, Q (.createLabel l)) (hreset : ∀ l, Q (.reset (.label l)))
    (hroot : ∀ r ∈ k.findRoots, ∀ p ps c, rootEdge b.env r = .ok (p :: ps, c) → Q (.reset (.oid p)))
    {st : Option Oid × BuildState}
    (h : k.findRoots.foldlM (buildRoot b k) (none, ⟨[], [], []⟩) = .ok st) : ∀ c ∈ st.2.acc, Q c :=
  plan_commands_labels hw hQ (fun l _ => hl l) hreset hroot h

end Verif.Spec
