import Verif.Lemmas.Query

/-!
C97: `git query` prints what its argument stands for: the commits, or their local branches, each once and ancestors
first.
-/

namespace Verif.Props

open Verif Verif.Spec

section
variable {env : QueryEnv} {args : QueryArgs} {graph : CommitGraph Oid} {w : RepoWorld} {es : List Event} {d : Dag}

/-- The graph which is known when the commits are sorted. -/
def sortGraph (env : QueryEnv) (args : QueryArgs) (graph : CommitGraph Oid) : CommitGraph Oid :=
  if args.showHidden then graph else env.synced

theorem _root_.Verif.Spec.QuerySetting.wfDag (hs : QuerySetting env args graph w es d) : WFGraph d.graph := by
  obtain ⟨r, d₀, h, rfl⟩ := hs.opened
  exact hs.hg

theorem _root_.Verif.Spec.QuerySetting.sortGraph_wf (hs : QuerySetting env args graph w es d) :
    WFGraph (sortGraph env args graph) := by
  unfold sortGraph
  split
  · obtain ⟨new, h⟩ := hs.added
    have := hs.hg
    rw [h] at this
    exact wf_append new _ this
  · exact hs.hg

theorem _root_.Verif.Spec.QuerySetting.known (hs : QuerySetting env args graph w es d) {o : Oid}
    (ho : o ∈ graph.nodes) : o ∈ (sortGraph env args graph).nodes := by
  unfold sortGraph
  split
  · exact ho
  · obtain ⟨new, h⟩ := hs.added
    rw [h]
    unfold CommitGraph.nodes at ho ⊢
    rw [List.map_append]
    exact List.mem_append_right _ ho

theorem _root_.Verif.Spec.QuerySetting.anc (hs : QuerySetting env args graph w es d) {a o : Oid}
    (ho : o ∈ (sortGraph env args graph).nodes) : Anc env.synced a o ↔ Anc (sortGraph env args graph) a o := by
  unfold sortGraph at ho ⊢
  split
  · next h =>
    rw [if_pos h] at ho
    obtain ⟨new, h⟩ := hs.added
    have hw := hs.hg
    rw [h] at hw ⊢
    exact anc_append new _ hw ho
  · rfl

/-- What the command does once the argument is resolved. -/
theorem query_eq (hs : QuerySetting env args graph w es d) :
    ∃ refs, w.git.referencesSnapshot env.mainBranch = some refs ∧ d.branchCommits = refs.branchOidToNames.keys ∧
    query env args graph w = match resolveOne env.revset env.fuel d args.revset with
      | .error e => ⟨[], .unresolved e⟩
      | .ok l =>
        if args.showBranches then
          match dagSort (sortGraph env args graph) (CommitGraph.inter l d.branchCommits) with
          | none => ⟨[], .error⟩
          | some oids => ⟨branchLines refs oids, .done⟩
        else
          match dagSort (sortGraph env args graph) l with
          | none => ⟨[], .error⟩
          | some oids => printCommits env.describe args.raw oids := by
  obtain ⟨r, d₀, ho, rfl⟩ := hs.opened
  obtain ⟨refs, h1, rfl, h3⟩ := openRepoDag_some hs.events ho
  have hg : d₀.graph = graph := by rw [h3]; rfl
  refine ⟨refs, h1, by rw [h3]; rfl, ?_⟩
  unfold query
  rw [h1, ho]
  simp only
  unfold resolveCommits
  rw [List.mapM_cons]
  have hd : (if args.showHidden then Dag.clearObsoleteCommits { d₀ with graph := env.synced }
      else { d₀ with graph := env.synced }) =
      { d₀ with
        graph := env.synced
        obsoleteCommits := if args.showHidden then [] else d₀.obsoleteCommits } := by
    cases args.showHidden <;> rfl
  rw [hd, hg]
  cases h : resolveOne env.revset env.fuel _ args.revset with
  | error e => rfl
  | ok l =>
    simp [sortGraph, bind, Except.bind, pure, Except.pure]
    rfl

theorem resolves_query (hs : QuerySetting env args graph w es d) {l : List Oid}
    (h : resolveOne env.revset env.fuel d args.revset = .ok l) :
    Resolves env.revset d args.revset (fun o => o ∈ l) := by
  have := (resolve_exact hs.replayer hs.wfDag false [args.revset] [fun o => o ∈ l]).1
    ⟨env.fuel, [l], resolveCommits_one.2 ⟨l, h, rfl⟩, rfl⟩
  rw [if_neg (by simp)] at this
  cases this with
  | cons h _ => exact h

theorem resolves_unique (hs : QuerySetting env args graph w es d) {S T : Oid → Prop}
    (h : Resolves env.revset d args.revset S) (h' : Resolves env.revset d args.revset T) : S = T := by
  obtain ⟨N, h⟩ := resolveOne_complete hs.replayer hs.wfDag h
  obtain ⟨M, h'⟩ := resolveOne_complete hs.replayer hs.wfDag h'
  obtain ⟨s, h1, h2⟩ := h (max N M) (by omega)
  obtain ⟨t, h3, h4⟩ := h' (max N M) (by omega)
  rw [h1] at h3
  cases h3
  rw [h2, h4]

theorem listing_of_sort (hs : QuerySetting env args graph w es d) {l : List Oid}
    (hl : ∀ o ∈ l, o ∈ (sortGraph env args graph).nodes) :
    Listing env.synced (fun o => o ∈ l) ((sortGraph env args graph).sort l) where
  once := sort_nodup hs.sortGraph_wf l
  all := fun o => by rw [mem_sort]; exact ⟨fun h => h.2, fun h => ⟨hl o h, h⟩⟩
  order := by
    refine (sort_parentsFirst hs.sortGraph_wf l).imp_of_mem ?_
    intro a b ha _ h hab
    exact h ((hs.anc (mem_sort.1 ha).1).1 hab)

/-- C97: if the argument does not stand for anything (a syntax error, an unknown name or function, wrong arguments, …),
nothing is printed, and the exit code is not 0. -/
theorem query_unresolved (hs : QuerySetting env args graph w es d)
    (h : ¬ ∃ S, Resolves env.revset d args.revset S) :
    ∃ e, query env args graph w = ⟨[], .unresolved e⟩ := by
  obtain ⟨refs, h1, h2, h3⟩ := query_eq hs
  rw [h3]
  cases hr : resolveOne env.revset env.fuel d args.revset with
  | error e => exact ⟨e, rfl⟩
  | ok l => exact absurd ⟨_, resolves_query hs hr⟩ h

/-- C97: the exit code is 1 only if the argument does not stand for anything, or the stack is too small. -/
theorem query_unresolved_only (hs : QuerySetting env args graph w es d) {S : Oid → Prop}
    (h : Resolves env.revset d args.revset S) :
    ∃ N, N ≤ env.fuel → ∀ e, (query env args graph w).result ≠ .unresolved e := by
  obtain ⟨N, hN⟩ := resolveOne_complete hs.replayer hs.wfDag h
  refine ⟨N, fun hf e => ?_⟩
  obtain ⟨l, hl, -⟩ := hN _ hf
  obtain ⟨refs, -, -, h3⟩ := query_eq hs
  rw [h3, hl]
  simp only
  split
  · split <;> exact nofun
  · split
    · exact nofun
    · next oids hd =>
      clear hl h3 hd
      induction oids with
      | nil => exact nofun
      | cons o os ih =>
        rw [printCommits]
        split
        · exact ih
        · split
          · exact nofun
          · exact ih

/-- All commits of the set are known when they are sorted: always, unless hidden commits are shown. -/
def KnownToSort (env : QueryEnv) (args : QueryArgs) (graph : CommitGraph Oid) (S : Oid → Prop) : Prop :=
  args.showHidden = true → ∀ o, S o → o ∈ graph.nodes

theorem known_nodes (hs : QuerySetting env args graph w es d) {S : Oid → Prop}
    (h : Resolves env.revset d args.revset S) (hk : KnownToSort env args graph S) :
    ∀ o, S o → o ∈ (sortGraph env args graph).nodes := by
  intro o ho
  unfold sortGraph
  split
  · next hh => exact hk hh o ho
  · exact hs.named S h o ho

/-- C97: `--raw` prints the ids of the commits which the argument stands for: all of them, each once, ancestors
first. This holds whether or not the commits still exist. -/
theorem query_raw_partial (hs : QuerySetting env args graph w es d) {S : Oid → Prop}
    (h : Resolves env.revset d args.revset S) (hb : args.showBranches = false) (hr : args.raw = true)
    (hk : KnownToSort env args graph S) :
    ∃ N, N ≤ env.fuel →
      ∃ os, Listing env.synced S os ∧ query env args graph w = ⟨os.map Oid.toText, .done⟩ := by
  obtain ⟨N, hN⟩ := resolveOne_complete hs.replayer hs.wfDag h
  refine ⟨N, fun hf => ?_⟩
  obtain ⟨l, hl, rfl⟩ := hN _ hf
  have hn := known_nodes hs h hk
  refine ⟨_, listing_of_sort hs hn, ?_⟩
  obtain ⟨refs, -, -, h3⟩ := query_eq hs
  rw [h3, hl]
  simp only [hb, Bool.false_eq_true, if_false]
  rw [dagSort_some.2 ⟨hn, rfl⟩, hr]
  exact printCommits_raw _ _

/-- C97: without options a line is printed for each of these commits, with the abbreviated id and the first line of
the message, if the commits exist. -/
theorem query_described_partial (hs : QuerySetting env args graph w es d) {S : Oid → Prop}
    (h : Resolves env.revset d args.revset S) (hb : args.showBranches = false) (hr : args.raw = false)
    (hk : KnownToSort env args graph S) (he : ∀ o, S o → (env.describe.commit o).isSome) :
    ∃ N, N ≤ env.fuel → ∃ os lines, Listing env.synced S os ∧
      List.Forall₂ (DescribedBy env.describe) os lines ∧ query env args graph w = ⟨lines, .done⟩ := by
  obtain ⟨N, hN⟩ := resolveOne_complete hs.replayer hs.wfDag h
  refine ⟨N, fun hf => ?_⟩
  obtain ⟨l, hl, rfl⟩ := hN _ hf
  have hn := known_nodes hs h hk
  have hL := listing_of_sort hs hn
  obtain ⟨lines, h4, h5⟩ := printCommits_done env.describe ((sortGraph env args graph).sort l)
    (fun o ho => he o ((hL.all o).1 ho))
  refine ⟨_, lines, hL, h5, ?_⟩
  obtain ⟨refs, -, -, h3⟩ := query_eq hs
  rw [h3, hl]
  simp only [hb, Bool.false_eq_true, if_false]
  rw [dagSort_some.2 ⟨hn, rfl⟩, hr]
  exact h4

/-- C97: if one of the commits does not exist any more, the command prints lines for those before the first such commit
and fails. So the output of a successful command is never incomplete. -/
theorem query_described_missing (hs : QuerySetting env args graph w es d) {S : Oid → Prop}
    (h : Resolves env.revset d args.revset S) (hb : args.showBranches = false) (hr : args.raw = false)
    (hk : KnownToSort env args graph S) (he : ∃ o, S o ∧ env.describe.commit o = none) :
    ∃ N, N ≤ env.fuel → ∃ before o after lines, Listing env.synced S (before ++ o :: after) ∧
      env.describe.commit o = none ∧ List.Forall₂ (DescribedBy env.describe) before lines ∧
      query env args graph w = ⟨lines, .error⟩ := by
  obtain ⟨N, hN⟩ := resolveOne_complete hs.replayer hs.wfDag h
  refine ⟨N, fun hf => ?_⟩
  obtain ⟨l, hl, rfl⟩ := hN _ hf
  have hn := known_nodes hs h hk
  have hL := listing_of_sort hs hn
  have hm : ¬ ∀ o ∈ (sortGraph env args graph).sort l, (env.describe.commit o).isSome := by
    obtain ⟨o, ho, hc⟩ := he
    intro hall
    have := hall o ((hL.all o).2 ho)
    rw [hc] at this
    exact absurd this (by simp)
  obtain ⟨before, o, after, h4, h5, h6⟩ := first_missing _ _ hm
  obtain ⟨lines, h7, h8⟩ := printCommits_error env.describe before o after h5 h6
  refine ⟨before, o, after, lines, h4 ▸ hL, h6, h8, ?_⟩
  obtain ⟨refs, -, -, h3⟩ := query_eq hs
  rw [h3, hl]
  simp only [hb, Bool.false_eq_true, if_false]
  rw [dagSort_some.2 ⟨hn, rfl⟩, hr, ← h7, ← h4]

theorem le_of_append_le {p a b : Text} (h : p ++ a ≤ p ++ b) : a ≤ b := by
  by_contra hc
  exact absurd h (not_le.2 (List.Lex.append_left (· < ·) (not_le.1 hc) p))

/-- The branches at a commit in alphabetical order. -/
def sortedNames (refs : Refs) (o : Oid) : List Text := (namesAt refs o).insertionSort (· ≤ ·)

theorem branchLines_eq (hw : AMap.WF w.git.refs) {mb : Text} {refs : Replayer.RefsSnapshot}
    (h : w.git.referencesSnapshot mb = some refs) (os : List Oid) (ho : ∀ o ∈ os, o ∈ refs.branchOidToNames.keys) :
    branchLines refs os = os.flatMap fun o => (sortedNames w.git.refs o).map fun n => (categorize n).renderSuffix := by
  unfold branchLines
  rw [List.map_flatMap]
  refine List.flatMap_congr fun o hm => ?_
  rw [snapshot_names hw h o (ho o hm)]
  rfl

theorem suffix_mem_iff (hw : AMap.WF w.git.refs) {o : Oid} {n : Text} :
    n ∈ (sortedNames w.git.refs o).map (fun n => (categorize n).renderSuffix) ↔
      w.git.refs.get? (t!"refs/heads/" ++ n) = some o := by
  rw [List.mem_map]
  simp only [sortedNames, List.mem_insertionSort]
  constructor
  · rintro ⟨m, hm, rfl⟩
    obtain ⟨h1, h2⟩ := (mem_namesAt hw).1 hm
    rw [branch_suffix h1]
    exact h2
  · intro h
    refine ⟨_, (mem_namesAt hw).2 ⟨⟨n, rfl⟩, h⟩, ?_⟩
    exact List.append_cancel_left (branch_suffix ⟨n, rfl⟩)

theorem suffix_sorted (hw : AMap.WF w.git.refs) (o : Oid) :
    ((sortedNames w.git.refs o).map (fun n => (categorize n).renderSuffix)).Pairwise fun n m => n ≠ m ∧ n ≤ m := by
  rw [List.pairwise_map]
  have h1 : (sortedNames w.git.refs o).Pairwise fun a b => a ≤ b := List.pairwise_insertionSort (fun a b : Text => a ≤ b) _
  have h2 : (sortedNames w.git.refs o).Nodup :=
    (List.perm_insertionSort (fun a b : Text => a ≤ b) _).nodup_iff.2 (nodup_namesAt hw o)
  refine (h1.and h2).imp_of_mem ?_
  intro a b ha hb h
  simp only [sortedNames, List.mem_insertionSort] at ha hb
  have ha := branch_suffix ((mem_namesAt hw).1 ha).1
  have hb := branch_suffix ((mem_namesAt hw).1 hb).1
  refine ⟨fun hab => h.2 ?_, ?_⟩
  · rw [← ha, ← hb, hab]
  · have := h.1
    rw [← ha, ← hb] at this
    exact le_of_append_le this

theorem branches_core (hs : QuerySetting env args graph w es d) {l : List Oid}
    (hl : resolveOne env.revset env.fuel d args.revset = .ok l) (hb : args.showBranches = true) :
    ∃ lines, BranchListing env.synced w.git.refs (fun o => o ∈ l) lines ∧
      query env args graph w = ⟨lines, .done⟩ := by
  obtain ⟨refs, h1, h2, h3⟩ := query_eq hs
  have hkeys := mem_snapshot_keys hs.refs h1
  have hn : ∀ o ∈ CommitGraph.inter l d.branchCommits, o ∈ (sortGraph env args graph).nodes := by
    intro o ho
    obtain ⟨-, ho⟩ := mem_inter.1 ho
    rw [h2, hkeys] at ho
    obtain ⟨n, ho⟩ := ho
    exact hs.known (hs.branches n o ho)
  have hL := listing_of_sort hs hn
  have hbr : ∀ o ∈ (sortGraph env args graph).sort (CommitGraph.inter l d.branchCommits),
      o ∈ refs.branchOidToNames.keys := by
    intro o ho
    have := (mem_inter.1 ((hL.all o).1 ho)).2
    rwa [h2] at this
  have hmem : ∀ n, n ∈ branchLines refs ((sortGraph env args graph).sort (CommitGraph.inter l d.branchCommits)) ↔
      ∃ o, w.git.refs.get? (t!"refs/heads/" ++ n) = some o ∧ o ∈ l := by
    intro n
    rw [branchLines_eq hs.refs h1 _ hbr, List.mem_flatMap]
    constructor
    · rintro ⟨o, ho, hm⟩
      exact ⟨o, (suffix_mem_iff hs.refs).1 hm, (mem_inter.1 ((hL.all o).1 ho)).1⟩
    · rintro ⟨o, hg, ho⟩
      exact ⟨o, (hL.all o).2 (mem_inter.2 ⟨ho, by rw [h2, hkeys]; exact ⟨n, hg⟩⟩), (suffix_mem_iff hs.refs).2 hg⟩
  have hpw : (branchLines refs ((sortGraph env args graph).sort (CommitGraph.inter l d.branchCommits))).Pairwise
      fun n m => n ≠ m ∧ ∀ a b, w.git.refs.get? (t!"refs/heads/" ++ n) = some a →
        w.git.refs.get? (t!"refs/heads/" ++ m) = some b → (a = b ∧ n ≤ m) ∨ (a ≠ b ∧ ¬ Anc env.synced b a) := by
    rw [branchLines_eq hs.refs h1 _ hbr, List.pairwise_flatMap]
    constructor
    · intro o _
      refine (suffix_sorted hs.refs o).imp_of_mem ?_
      intro n m hn hm hnm
      rw [suffix_mem_iff hs.refs] at hn hm
      refine ⟨hnm.1, fun a b ha hb => .inl ⟨?_, hnm.2⟩⟩
      rw [hn] at ha; rw [hm] at hb
      cases ha; cases hb; rfl
    · refine (hL.order.and hL.once).imp ?_
      intro x y hxy n hn m hm
      rw [suffix_mem_iff hs.refs] at hn hm
      refine ⟨?_, fun a b ha hb => .inr ?_⟩
      · rintro rfl
        rw [hn] at hm; cases hm
        exact hxy.2 rfl
      · rw [hn] at ha; rw [hm] at hb
        cases ha; cases hb
        exact ⟨hxy.2, hxy.1⟩
  refine ⟨_, ⟨hpw.imp fun h => h.1, hmem, hpw.imp fun h => h.2⟩, ?_⟩
  rw [h3, hl]
  simp only [hb, if_true]
  rw [dagSort_some.2 ⟨hn, rfl⟩]

/-- C97: `--branches` prints the names of the local branches at the commits which the argument stands for: all of them,
each once, those of ancestors first, and those of one commit in alphabetical order. -/
theorem query_branches (hs : QuerySetting env args graph w es d) {S : Oid → Prop}
    (h : Resolves env.revset d args.revset S) (hb : args.showBranches = true) :
    ∃ N, N ≤ env.fuel →
      ∃ lines, BranchListing env.synced w.git.refs S lines ∧ query env args graph w = ⟨lines, .done⟩ := by
  obtain ⟨N, hN⟩ := resolveOne_complete hs.replayer hs.wfDag h
  refine ⟨N, fun hf => ?_⟩
  obtain ⟨l, hl, rfl⟩ := hN _ hf
  exact branches_core hs hl hb

/-- C97: whenever the command succeeds, its output is right: complete, without repetitions, and in order. -/
theorem query_done (hs : QuerySetting env args graph w es d) {lines : List Text}
    (h : query env args graph w = ⟨lines, .done⟩) :
    ∃ S, Resolves env.revset d args.revset S ∧
      (args.showBranches = true → BranchListing env.synced w.git.refs S lines) ∧
      (args.showBranches = false → ∃ os, Listing env.synced S os ∧
        (args.raw = true → lines = os.map Oid.toText) ∧
        (args.raw = false → List.Forall₂ (DescribedBy env.describe) os lines)) := by
  cases hl : resolveOne env.revset env.fuel d args.revset with
  | error e =>
    obtain ⟨refs, -, -, h3⟩ := query_eq hs
    rw [h3, hl] at h
    cases h
  | ok l =>
    refine ⟨_, resolves_query hs hl, fun hb => ?_, fun hb => ?_⟩
    · obtain ⟨lines', h1, h2⟩ := branches_core hs hl hb
      rw [h2] at h
      cases h
      exact h1
    · obtain ⟨refs, -, -, h3⟩ := query_eq hs
      rw [h3, hl] at h
      simp only [hb, Bool.false_eq_true, if_false] at h
      cases hd : dagSort (sortGraph env args graph) l with
      | none => rw [hd] at h; cases h
      | some os =>
        rw [hd] at h
        simp only at h
        obtain ⟨hn, rfl⟩ := dagSort_some.1 hd
        refine ⟨_, listing_of_sort hs hn, fun hr => ?_, fun hr => ?_⟩
        · rw [hr, printCommits_raw] at h
          cases h; rfl
        · rw [hr] at h
          by_cases hm : ∀ o ∈ (sortGraph env args graph).sort l, (env.describe.commit o).isSome
          · obtain ⟨lines', h4, h5⟩ := printCommits_done _ _ hm
            rw [h4] at h
            cases h; exact h5
          · obtain ⟨before, o, after, h4, h5, h6⟩ := first_missing _ _ hm
            obtain ⟨lines', h7, -⟩ := printCommits_error env.describe before o after h5 h6
            rw [h4, h7] at h
            cases h

/-- C97: a function call prints visible commits only. -/
theorem query_call_visible (hs : QuerySetting env args graph w es d) (hp : env.revset.revparse args.revset = none)
    {ts : List Tok} {f : Text} {xs : List Expr} (hl : Lexes args.revset ts) (hd : Derives 1 ts (.call f xs))
    {S : Oid → Prop} (h : Resolves env.revset d args.revset S) : ∀ o, S o → VisibleIn d o := by
  cases h with
  | commit h => rw [hp] at h; cases h
  | value _ h1 h2 h3 =>
    have e1 := (parse_exact _ _).2 ⟨_, h1, h2⟩
    have e2 := (parse_exact _ _).2 ⟨_, hl, hd⟩
    rw [e1] at e2
    cases e2
    cases h3 with
    | call _ => exact fun o ho => ho.2

/-- C97: with `--hidden`, the command fails if the argument stands for a commit which was not known before. -/
theorem query_hidden_unknown_fails (hs : QuerySetting env args graph w es d) {S : Oid → Prop}
    (h : Resolves env.revset d args.revset S) (hb : args.showBranches = false) (hh : args.showHidden = true)
    {o : Oid} (ho : S o) (hu : o ∉ graph.nodes) :
    ∃ N, N ≤ env.fuel → query env args graph w = ⟨[], .error⟩ := by
  obtain ⟨N, hN⟩ := resolveOne_complete hs.replayer hs.wfDag h
  refine ⟨N, fun hf => ?_⟩
  obtain ⟨l, hl, rfl⟩ := hN _ hf
  obtain ⟨refs, -, -, h3⟩ := query_eq hs
  rw [h3, hl]
  simp only [hb, Bool.false_eq_true, if_false]
  rw [dagSort_none.2 ⟨o, ho, by unfold sortGraph; rwa [if_pos hh]⟩]

end

end Verif.Props
