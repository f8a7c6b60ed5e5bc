import Verif.Lemmas.Hide

/-! Hiding and unhiding commits (C42), and repairing the event log (C43). -/

namespace Verif.Props

open Verif Verif.Spec

/-! ### C42: hide and unhide -/

theorem hideBranches_db (env : FinishEnv) (w : RepoWorld) (commits : List Oid) (es : List Event)
    (hp : w.db.pending = none) (he : w.db.getEvents = some es) :
    ∃ updates, (hideBranches env w commits).1.db.getEvents = some (es ++ updates) ∧
      (∀ e ∈ updates, ∃ ts tx nm old nw m, e = .refUpdate ts tx nm old nw m) ∧
      (hideBranches env w commits).1.db.pending = none := by
  unfold hideBranches
  simp only
  split
  · exact hook_adds_updates env w.db es hp he _
  · exact ⟨[], by simp [he], by simp, hp⟩

theorem hideHead_refs (git : GitState) (commits : List Oid) : (hideHead git commits).refs = git.refs := by
  unfold hideHead GitState.detachHead
  split
  · split
    · split <;> rfl
    · rfl
  · rfl

/-- The two ways in which `hide` can end. -/
theorem hide_cases (env : FinishEnv) (graph : CommitGraph Oid) (hg : WFGraph graph) (txEnv : Option Text)
    (w : RepoWorld) (hw : AMap.WF w.git.refs) (es : List Event) (hp : w.db.pending = none)
    (he : w.db.getEvents = some es) (sets : List (List Oid)) (noDelete recursive : Bool) (n : Int)
    (htx : (w.db.makeTransactionId txEnv t!"hide").1 = .id n) :
    (hide env graph txEnv w sets noDelete recursive = (w, .error) ∧
      (w.git.refs.get? env.move.mainBranch = none ∨
        ∃ o, ToHide graph env.move.mainBranch w.git es recursive sets o ∧ env.move.isCommit o = false)) ∨
    ∃ commits, (∀ o, o ∈ commits ↔ ToHide graph env.move.mainBranch w.git es recursive sets o) ∧
      commits.Nodup ∧ ParentsFirst graph commits ∧
      (w.git.refs.get? env.move.mainBranch).isSome ∧
      (∀ o ∈ commits, env.move.isCommit o = true) ∧
      ∃ db, db.getEvents = some (es ++ commits.map fun c => .obsolete env.now (.id n) c) ∧
        db.pending = none ∧
        ∃ reported branches, reported.map Prod.fst = commits ∧
          (∀ o b, (o, b) ∈ reported → (b = true ↔ statusIn es o = some false)) ∧
          (∀ name, name ∈ branches ↔ IsBranch name ∧ ∃ o ∈ commits, w.git.refs.get? name = some o) ∧
          hide env graph txEnv w sets noDelete recursive =
            if noDelete then ({ w with db }, .done reported branches)
            else ((hideBranches { env with tx := (TxId.id n).toText } { w with db } commits).1,
              if (hideBranches { env with tx := (TxId.id n).toText } { w with db } commits).2
              then .done reported branches else .error) := by
  unfold hide
  cases ho : openRepoDag graph env.move.mainBranch w with
  | none =>
    refine .inl ⟨rfl, .inl ?_⟩
    unfold openRepoDag at ho
    rw [he] at ho
    unfold GitState.referencesSnapshot at ho
    cases hm : w.git.refs.get? env.move.mainBranch with
    | none => rfl
    | some m => rw [hm] at ho; simp at ho
  | some rd =>
    obtain ⟨r, d⟩ := rd
    have hsel := mem_hideSelection hg hw he ho recursive sets
    obtain ⟨refs, h1, hr, hd⟩ := openRepoDag_some he ho
    have hgr : d.graph = graph := by rw [hd]; rfl
    simp only
    split
    · rename_i hany
      obtain ⟨o, h3, h4⟩ := List.any_eq_true.1 hany
      exact .inl ⟨rfl, .inr ⟨o, (hsel o).1 h3, by simpa using h4⟩⟩
    · rename_i hany
      refine .inr ⟨hideSelection d recursive sets, hsel, ?_, ?_, ?_, ?_, ?_⟩
      · unfold hideSelection; rw [hgr]; exact sort_nodup hg _
      · unfold hideSelection; rw [hgr]; exact sort_parentsFirst hg _
      · unfold GitState.referencesSnapshot at h1
        cases hm : w.git.refs.get? env.move.mainBranch with
        | none => rw [hm] at h1; simp at h1
        | some m => rfl
      · intro o hmem
        cases hc : env.move.isCommit o with
        | true => rfl
        | false =>
          exact absurd (List.any_eq_true.2 ⟨o, hmem, by simp [hc]⟩) hany
      · obtain ⟨k1, k2⟩ := record_events w.db txEnv t!"hide" n htx hp es
          ((hideSelection d recursive sets).map fun c => .obsolete env.now (.id n) c) he
          (by intro e hm; obtain ⟨c, _, rfl⟩ := List.mem_map.1 hm; rfl)
        refine ⟨_, k1, k2, (hideSelection d recursive sets).map fun c =>
          (c, decide (r.activityStatus r.makeDefaultCursor c = .obsolete)),
          (hideSelection d recursive sets).flatMap (namesAt w.git.refs), ?_, ?_, ?_, ?_⟩
        · rw [List.map_map]
          exact List.map_id' _
        · intro o b hm
          simp only [List.mem_map, Prod.mk.injEq] at hm
          obtain ⟨c, _, rfl, rfl⟩ := hm
          subst hr
          simpa using (activity_iff env.move.mainBranch es c).2.1
        · intro name
          simp only [List.mem_flatMap, mem_namesAt hw]
          constructor
          · rintro ⟨o, h1, h2, h3⟩; exact ⟨h2, o, h1, h3⟩
          · rintro ⟨h2, o, h1, h3⟩; exact ⟨o, h1, h2, h3⟩
        · rw [htx]
          split
          · rfl
          · generalize hideBranches _ _ _ = x
            obtain ⟨w', b⟩ := x
            cases b <;> rfl

/-- C42: `hide` either does nothing and fails, or it records exactly one hide for every selected commit
(with recursion: every visible commit above a selected one), parents first, in one transaction. After
these, only updates of branches are recorded. If it succeeds, it reports these commits, and says of
exactly those which were hidden before that there was no effect; and it reports exactly the branches at
these commits. -/
theorem hide_records (env : FinishEnv) (graph : CommitGraph Oid) (hg : WFGraph graph) (txEnv : Option Text)
    (w w' : RepoWorld) (hw : AMap.WF w.git.refs) (es : List Event) (hp : w.db.pending = none)
    (he : w.db.getEvents = some es) (sets : List (List Oid)) (noDelete recursive : Bool) (n : Int)
    (htx : (w.db.makeTransactionId txEnv t!"hide").1 = .id n) (out : HideOutcome)
    (h : hide env graph txEnv w sets noDelete recursive = (w', out)) :
    (w' = w ∧ out = .error) ∨
    ∃ commits updates,
      (∀ o, o ∈ commits ↔ ToHide graph env.move.mainBranch w.git es recursive sets o) ∧
      commits.Nodup ∧ ParentsFirst graph commits ∧
      w'.db.getEvents = some (es ++ (commits.map fun c => .obsolete env.now (.id n) c) ++ updates) ∧
      (∀ e ∈ updates, ∃ ts tx nm old nw m, e = .refUpdate ts tx nm old nw m) ∧
      (noDelete = true → updates = []) ∧
      ∀ reported branches, out = .done reported branches →
        reported.map Prod.fst = commits ∧
        (∀ o b, (o, b) ∈ reported → (b = true ↔ statusIn es o = some false)) ∧
        ∀ name, name ∈ branches ↔ IsBranch name ∧ ∃ o ∈ commits, w.git.refs.get? name = some o := by
  rcases hide_cases env graph hg txEnv w hw es hp he sets noDelete recursive n htx with ⟨h1, _⟩ |
    ⟨commits, c1, c2, c3, _, _, db, d1, d2, rep, br, r1, r2, r3, heq⟩
  · rw [h1] at h; cases h; exact .inl ⟨rfl, rfl⟩
  · refine .inr ?_
    rw [heq] at h
    cases noDelete with
    | true =>
      simp only [ite_true, Prod.mk.injEq] at h
      obtain ⟨rfl, rfl⟩ := h
      refine ⟨commits, [], c1, c2, c3, by simpa using d1, by simp, fun _ => rfl, ?_⟩
      rintro _ _ h
      cases h
      exact ⟨r1, r2, r3⟩
    | false =>
      simp only [Bool.false_eq_true, ite_false, Prod.mk.injEq] at h
      obtain ⟨rfl, rfl⟩ := h
      obtain ⟨updates, u1, u2, _⟩ := hideBranches_db { env with tx := (TxId.id n).toText } { w with db }
        commits _ d2 d1
      refine ⟨commits, updates, c1, c2, c3, u1, u2, by simp, ?_⟩
      intro _ _ h
      split at h
      · cases h; exact ⟨r1, r2, r3⟩
      · cases h

/-- C42: after `hide` (whether or not it succeeded, unless it did nothing) exactly the selected commits
are hidden which were not hidden before: the selected ones are hidden, and all others have the status they
had. -/
theorem hide_status (env : FinishEnv) (graph : CommitGraph Oid) (hg : WFGraph graph) (txEnv : Option Text)
    (w w' : RepoWorld) (hw : AMap.WF w.git.refs) (es : List Event) (hp : w.db.pending = none)
    (he : w.db.getEvents = some es) (sets : List (List Oid)) (noDelete recursive : Bool) (n : Int)
    (htx : (w.db.makeTransactionId txEnv t!"hide").1 = .id n) (out : HideOutcome)
    (h : hide env graph txEnv w sets noDelete recursive = (w', out)) :
    (w' = w ∧ out = .error) ∨
    ∃ es', w'.db.getEvents = some es' ∧ w'.db.pending = none ∧ ∀ o,
      (ToHide graph env.move.mainBranch w.git es recursive sets o → statusIn es' o = some false) ∧
      (¬ ToHide graph env.move.mainBranch w.git es recursive sets o → statusIn es' o = statusIn es o) := by
  have hpend : w'.db.pending = none ∨ w' = w := by
    rcases hide_cases env graph hg txEnv w hw es hp he sets noDelete recursive n htx with ⟨h1, _⟩ |
      ⟨commits, c1, c2, c3, _, _, db, d1, d2, rep, br, r1, r2, r3, heq⟩
    · rw [h1] at h; cases h; exact .inr rfl
    · rw [heq] at h
      cases noDelete with
      | true => simp only [ite_true, Prod.mk.injEq] at h; rw [← h.1]; exact .inl d2
      | false =>
        simp only [Bool.false_eq_true, ite_false, Prod.mk.injEq] at h
        rw [← h.1]
        exact .inl (hideBranches_db _ _ commits _ d2 d1).choose_spec.2.2
  rcases hide_records env graph hg txEnv w w' hw es hp he sets noDelete recursive n htx out h with h0 |
    ⟨commits, updates, c1, _, _, ev, hu, _⟩
  · exact .inl h0
  · refine .inr ⟨_, ev, ?_, fun o => ?_⟩
    · rcases hpend with h | rfl
      · exact h
      · exact hp
    have hun : statusIn updates o = none := statusIn_none fun e hm => by
      obtain ⟨_, _, _, _, _, _, rfl⟩ := hu e hm
      rfl
    rw [statusIn_append, statusIn_append, hun, statusIn_obsolete]
    exact ⟨fun ht => by simp [(c1 o).2 ht], fun ht => by simp [mt (c1 o).1 ht]⟩

theorem get?_zeros (l : List Oid) (o : Oid) :
    AMap.get? (l.map fun c => (c, MaybeZero.zero)) o = if o ∈ l then some .zero else none := by
  induction l with
  | nil => rfl
  | cons c l ih =>
    rw [List.map_cons, AMap.get?_cons, ih]
    by_cases hc : c = o
    · simp [hc]
    · simp [hc, Ne.symm hc]

/-- C42: if branches are not kept and `hide` succeeds, then exactly the branches at hidden commits are
deleted (the main branch goes to its upstream if it has one), and nothing else happens to the references,
except that `HEAD` is detached if its commit is hidden. -/
theorem hide_deletes_branches (env : FinishEnv) (graph : CommitGraph Oid) (hg : WFGraph graph)
    (txEnv : Option Text) (w w' : RepoWorld) (hw : AMap.WF w.git.refs) (es : List Event)
    (hp : w.db.pending = none) (he : w.db.getEvents = some es) (sets : List (List Oid)) (recursive : Bool)
    (n : Int) (htx : (w.db.makeTransactionId txEnv t!"hide").1 = .id n)
    (hs : ∀ l, (env.move.shuffle l).Perm l) (reported : List (Oid × Bool)) (branches : List Text)
    (h : hide env graph txEnv w sets false recursive = (w', .done reported branches)) :
    (∀ name o, IsBranch name → w.git.refs.get? name = some o →
      ToHide graph env.move.mainBranch w.git es recursive sets o →
      w'.git.refs.get? name = if name = env.move.mainBranch then upstreamOf env.move else none) ∧
    (∀ name, ¬ (IsBranch name ∧ ∃ o, w.git.refs.get? name = some o ∧
        ToHide graph env.move.mainBranch w.git es recursive sets o) →
      w'.git.refs.get? name = w.git.refs.get? name) ∧
    (∀ o, w.git.headInfo.oid = some o → ToHide graph env.move.mainBranch w.git es recursive sets o →
      w'.git.head = .detached o) ∧
    ((∀ o, w.git.headInfo.oid = some o →
        ¬ ToHide graph env.move.mainBranch w.git es recursive sets o) →
      w'.git.head = w.git.head) := by
  rcases hide_cases env graph hg txEnv w hw es hp he sets false recursive n htx with ⟨h1, _⟩ |
    ⟨commits, c1, c2, c3, _, _, db, d1, d2, rep, br, r1, r2, r3, heq⟩
  · rw [h1] at h; cases h
  · rw [heq] at h
    simp only [Bool.false_eq_true, ite_false, Prod.mk.injEq] at h
    obtain ⟨rfl, hok⟩ := h
    have hok : (hideBranches { env with tx := (TxId.id n).toText } { w with db } commits).2 = true := by
      split at hok
      · assumption
      · cases hok
    unfold hideBranches at hok ⊢
    simp only at hok ⊢
    have hgit := hideHead_refs w.git commits
    rw [hgit] at hok ⊢
    have hb := fun name => branches_follow env.move w.git.refs (commits.map fun c => (c, .zero)) hw (hs _)
      hok name
    have hafter : ∀ name o, BranchAfter env.move.mainBranch (upstreamOf env.move)
        (AMap.get? (commits.map fun c => (c, MaybeZero.zero))) name o =
        if o ∈ commits then (if name = env.move.mainBranch then upstreamOf env.move else none)
        else some o := by
      intro name o
      unfold BranchAfter
      rw [get?_zeros]
      by_cases ho : o ∈ commits <;> simp [ho]
    refine ⟨?_, ?_, ?_, ?_⟩
    · intro name o hbr ho ht
      rw [(hb name).1 hbr, ho, Option.bind_some, hafter, if_pos ((c1 o).2 ht)]
    · intro name hn
      by_cases hbr : IsBranch name
      · rw [(hb name).1 hbr]
        cases ho : w.git.refs.get? name with
        | none => rfl
        | some o =>
          rw [Option.bind_some, hafter, if_neg]
          intro hc
          exact hn ⟨hbr, o, ho, (c1 o).1 hc⟩
      · exact (hb name).2 hbr
    · intro o ho ht
      unfold hideHead GitState.detachHead
      rw [ho]
      simp only [List.contains_iff_mem.2 ((c1 o).2 ht), ite_true]
    · intro hn
      unfold hideHead
      cases ho : w.git.headInfo.oid with
      | none => rfl
      | some o =>
        have : ¬ commits.contains o = true := by
          rw [List.contains_iff_mem, c1]
          exact hn o ho
        simp only [this, Bool.false_eq_true, ite_false]

/-- C42: the deletions are recorded in the same transaction: exactly one update for every branch at a
hidden commit. (Assumed is what git guarantees about names of branches, and that the deleted branches are
not in the file `packed-refs` any more.) -/
theorem hide_records_branches (env : FinishEnv) (graph : CommitGraph Oid) (hg : WFGraph graph)
    (txEnv : Option Text) (w w' : RepoWorld) (hw : AMap.WF w.git.refs) (es : List Event)
    (hp : w.db.pending = none) (he : w.db.getEvents = some es) (sets : List (List Oid)) (recursive : Bool)
    (n : Int) (hn : inIsize n) (htx : (w.db.makeTransactionId txEnv t!"hide").1 = .id n)
    (hs : ∀ l, (env.move.shuffle l).Perm l) (file : Option Text) (hf : env.packedFile = some file)
    (hnames : ∀ name, IsBranch name → (w.git.refs.get? name).isSome →
      ' ' ∉ name ∧ '\n' ∉ name ∧ '\r' ∉ name)
    (hpack : ∀ name old, w.git.refs.get? name = some old →
      ToHide graph env.move.mainBranch w.git es recursive sets old →
      (readPackedRefs file).get? name ≠ some (.nonZero old))
    (reported : List (Oid × Bool)) (branches : List Text)
    (h : hide env graph txEnv w sets false recursive = (w', .done reported branches)) :
    ∃ moves : List (Oid × MaybeZero × Text),
      (moves.map fun m => m.2.2).Nodup ∧
      (∀ old new name, (old, new, name) ∈ moves ↔ IsBranch name ∧ w.git.refs.get? name = some old ∧
        ToHide graph env.move.mainBranch w.git es recursive sets old ∧
        new = .ofOption (w'.git.refs.get? name)) ∧
      w'.db.getEvents = some (es ++ (reported.map fun c => .obsolete env.now (.id n) c.1) ++
        moves.map fun m => .refUpdate env.now (.id n) m.2.2 (.nonZero m.1) m.2.1 none) := by
  rcases hide_cases env graph hg txEnv w hw es hp he sets false recursive n htx with ⟨h1, _⟩ |
    ⟨commits, c1, c2, c3, _, _, db, d1, d2, rep, br, r1, r2, r3, heq⟩
  · rw [h1] at h; cases h
  · rw [heq] at h
    simp only [Bool.false_eq_true, ite_false, Prod.mk.injEq] at h
    obtain ⟨rfl, hok⟩ := h
    have hrep : reported.map Prod.fst = commits := by
      split at hok
      · cases hok; exact r1
      · cases hok
    have hok : (hideBranches { env with tx := (TxId.id n).toText } { w with db } commits).2 = true := by
      split at hok
      · assumption
      · cases hok
    unfold hideBranches at hok ⊢
    simp only at hok ⊢
    have hgit := hideHead_refs w.git commits
    rw [hgit] at hok ⊢
    obtain ⟨moves, hr, hcomp⟩ := report_complete env.move w.git.refs _ hw (hs _) hok
    obtain ⟨htr, hmv⟩ := report_truthful_partial env.move w.git.refs _ hw (hs _) moves hr
    have hto : ∀ z : MaybeZero, MaybeZero.ofOption z.toOption = z := by intro z; cases z <;> rfl
    have hsome : ∀ o, (AMap.get? (commits.map fun c => (c, MaybeZero.zero)) o).isSome ↔ o ∈ commits := by
      intro o
      rw [get?_zeros]
      by_cases ho : o ∈ commits <;> simp [ho]
    have hmem : ∀ old new name, (old, new, name) ∈ moves ↔ IsBranch name ∧
        w.git.refs.get? name = some old ∧
        ToHide graph env.move.mainBranch w.git es recursive sets old ∧
        new = .ofOption ((moveBranches env.move w.git.refs
          (commits.map fun c => (c, .zero))).refs.get? name) := by
      intro old new name
      constructor
      · intro hm
        obtain ⟨hb, hr', _⟩ := hmv old new name hm
        obtain ⟨ha, hb'⟩ := htr.happened old new name hm
        exact ⟨hb, ha, (c1 old).1 ((hsome old).1 hr'), by rw [hb', hto]⟩
      · rintro ⟨hb, ho, ht, hnew⟩
        obtain ⟨new', hm⟩ := hcomp name old hb ho ((hsome old).2 ((c1 old).2 ht))
        have := (htr.happened old new' name hm).2
        rw [this, hto] at hnew
        rw [hnew]
        exact hm
    refine ⟨moves, htr.once, hmem, ?_⟩
    rw [hr]
    simp only
    have hm : ∀ m ∈ moves, IsBranch m.2.2 ∧ w.git.refs.get? m.2.2 = some m.1 ∧
        ToHide graph env.move.mainBranch w.git es recursive sets m.1 := by
      rintro ⟨o, nw, nm⟩ hm
      obtain ⟨a, b, c, _⟩ := (hmem o nw nm).1 hm
      exact ⟨a, b, c⟩
    have := (moves_recorded { env with tx := (TxId.id n).toText } db _ n hn rfl file hf d2 d1 moves
      (fun m hm' => (hm m hm').1)
      (fun m hm' => hnames _ (hm m hm').1 (by rw [(hm m hm').2.1]; rfl))
      (fun m hm' _ => hpack _ _ (hm m hm').2.1 (hm m hm').2.2)).1
    rw [this, ← hrep, List.map_map]
    rfl

/-- C42: `hide` succeeds if there is a main branch, the selected commits exist, and branches are kept or
can be deleted. -/
theorem hide_succeeds (env : FinishEnv) (graph : CommitGraph Oid) (hg : WFGraph graph) (txEnv : Option Text)
    (w : RepoWorld) (hw : AMap.WF w.git.refs) (es : List Event) (hp : w.db.pending = none)
    (he : w.db.getEvents = some es) (sets : List (List Oid)) (noDelete recursive : Bool) (n : Int)
    (htx : (w.db.makeTransactionId txEnv t!"hide").1 = .id n)
    (hs : ∀ l, (env.move.shuffle l).Perm l)
    (hmain : (w.git.refs.get? env.move.mainBranch).isSome)
    (hexist : ∀ o, ToHide graph env.move.mainBranch w.git es recursive sets o → env.move.isCommit o = true)
    (hdel : noDelete = true ∨ (ValidRefs w.git.refs ∧
      (∀ name, IsBranch name → env.move.refuses name = false) ∧ ∃ u, env.move.upstreamTarget = .ok u)) :
    ∃ w' reported branches,
      hide env graph txEnv w sets noDelete recursive = (w', .done reported branches) := by
  rcases hide_cases env graph hg txEnv w hw es hp he sets noDelete recursive n htx with ⟨h1, h2⟩ |
    ⟨commits, c1, c2, c3, _, _, db, d1, d2, rep, br, r1, r2, r3, heq⟩
  · rcases h2 with h2 | ⟨o, h2, h3⟩
    · rw [h2] at hmain; simp at hmain
    · rw [hexist o h2] at h3; simp at h3
  · rw [heq]
    rcases hdel with rfl | ⟨hv, hr, u, hu⟩
    · exact ⟨_, _, _, rfl⟩
    · cases noDelete with
      | true => exact ⟨_, _, _, rfl⟩
      | false =>
        have hok : (hideBranches { env with tx := (TxId.id n).toText } { w with db } commits).2 = true := by
          unfold hideBranches
          simp only
          have hgit := hideHead_refs w.git commits
          rw [hgit]
          refine moves_succeed env.move w.git.refs _ (hs _) hmain ⟨hv, hr, ?_⟩ u hu
          intro o x hx
          rw [get?_zeros] at hx
          split at hx <;> simp at hx
        rw [hok]
        exact ⟨_, _, _, rfl⟩

/-- C42: with recursion and without keeping branches, the hidden commits disappear: such a commit is
visible afterwards only if it is an ancestor of the new main branch or of `HEAD`. -/
theorem hidden_disappear (env : FinishEnv) (graph : CommitGraph Oid) (hg : WFGraph graph)
    (txEnv : Option Text) (w w' : RepoWorld) (hw : AMap.WF w.git.refs) (es es' : List Event)
    (hp : w.db.pending = none) (he : w.db.getEvents = some es) (sets : List (List Oid))
    (n : Int) (htx : (w.db.makeTransactionId txEnv t!"hide").1 = .id n)
    (hs : ∀ l, (env.move.shuffle l).Perm l) (reported : List (Oid × Bool)) (branches : List Text)
    (h : hide env graph txEnv w sets false true = (w', .done reported branches))
    (he' : w'.db.getEvents = some es') (o : Oid)
    (ho : ToHide graph env.move.mainBranch w.git es true sets o) :
    Seen graph env.move.mainBranch w'.git es' o ↔
      ∃ x, Anc graph o x ∧ (w'.git.headInfo.oid = some x ∨
        w'.git.refs.get? env.move.mainBranch = some x) := by
  obtain ⟨b1, b2, _, _⟩ := hide_deletes_branches env graph hg txEnv w w' hw es hp he sets true n htx hs
    reported branches h
  have hst : ∀ o, (ToHide graph env.move.mainBranch w.git es true sets o → statusIn es' o = some false) ∧
      (¬ ToHide graph env.move.mainBranch w.git es true sets o → statusIn es' o = statusIn es o) := by
    rcases hide_status env graph hg txEnv w w' hw es hp he sets false true n htx _ h with ⟨_, h0⟩ |
      ⟨es'', k1, _, k2⟩
    · cases h0
    · rw [he'] at k1; cases k1; exact k2
  have hnode : o ∈ graph.nodes := by
    simp only [ToHide, ite_true] at ho
    exact ho.1.1
  have habove : ∀ x, Anc graph o x → Seen graph env.move.mainBranch w.git es x →
      ToHide graph env.move.mainBranch w.git es true sets x := by
    intro x ha hx
    simp only [ToHide, ite_true] at ho ⊢
    obtain ⟨_, s, hs', y, hy, hyo⟩ := ho
    exact ⟨hx, s, hs', y, hy, hyo.trans ha⟩
  constructor
  · rintro ⟨_, x, ha, hx⟩
    have hxn := ha.mem_up hnode
    rcases hx with hx | hx | ⟨b, hb, hx⟩ | hx
    · exact ⟨x, ha, .inl hx⟩
    · exact ⟨x, ha, .inr hx⟩
    · by_cases hc : ∃ o, w.git.refs.get? b = some o ∧
          ToHide graph env.move.mainBranch w.git es true sets o
      · obtain ⟨y, hy, ht⟩ := hc
        have h1 := b1 b y hb hy ht
        split at h1
        · rename_i hbm
          subst hbm
          exact ⟨x, ha, .inr hx⟩
        · rw [h1] at hx; cases hx
      · have := b2 b (fun hh => hc hh.2)
        rw [this] at hx
        exact absurd ⟨x, hx, habove x ha ⟨hxn, x, .refl, .inr (.inr (.inl ⟨b, hb, hx⟩))⟩⟩ hc
    · by_cases ht : ToHide graph env.move.mainBranch w.git es true sets x
      · rw [(hst x).1 ht] at hx; cases hx
      · rw [(hst x).2 ht] at hx
        exact absurd (habove x ha ⟨hxn, x, .refl, .inr (.inr (.inr hx))⟩) ht
  · rintro ⟨x, ha, hx⟩
    exact ⟨hnode, x, ha, hx.elim .inl (fun h => .inr (.inl h))⟩

/-- C42: `unhide` either does nothing and fails (only if there is no main branch or a selected commit does
not exist), or it records exactly one unhide for every selected commit (with recursion: every hidden commit
above a selected one), parents first, in one transaction, and nothing else; the references stay. It says of
exactly those which were active before that there was no effect. -/
theorem unhide_records (env : FinishEnv) (graph : CommitGraph Oid) (hg : WFGraph graph)
    (txEnv : Option Text) (w w' : RepoWorld) (es : List Event) (hp : w.db.pending = none)
    (he : w.db.getEvents = some es) (sets : List (List Oid)) (recursive : Bool) (n : Int)
    (htx : (w.db.makeTransactionId txEnv t!"unhide").1 = .id n) (out : HideOutcome)
    (h : unhide env graph txEnv w sets recursive = (w', out)) :
    (w' = w ∧ out = .error ∧ (w.git.refs.get? env.move.mainBranch = none ∨
      ∃ o, ToUnhide graph es recursive sets o ∧ env.move.isCommit o = false)) ∨
    ∃ reported, out = .done reported [] ∧
      (∀ o, o ∈ reported.map Prod.fst ↔ ToUnhide graph es recursive sets o) ∧
      (reported.map Prod.fst).Nodup ∧ ParentsFirst graph (reported.map Prod.fst) ∧
      (∀ o b, (o, b) ∈ reported → (b = true ↔ statusIn es o = some true)) ∧
      w'.git = w.git ∧ w'.db.pending = none ∧
      w'.db.getEvents = some (es ++ reported.map fun c => .unobsolete env.now (.id n) c.1) := by
  unfold unhide at h
  cases ho : openRepoDag graph env.move.mainBranch w with
  | none =>
    rw [ho] at h
    cases h
    refine .inl ⟨rfl, rfl, .inl ?_⟩
    unfold openRepoDag at ho
    rw [he] at ho
    unfold GitState.referencesSnapshot at ho
    cases hm : w.git.refs.get? env.move.mainBranch with
    | none => rfl
    | some m => rw [hm] at ho; simp at ho
  | some rd =>
    obtain ⟨r, d⟩ := rd
    rw [ho] at h
    have hsel := mem_unhideSelection hg he ho recursive sets
    obtain ⟨refs, h1, hr, hd⟩ := openRepoDag_some he ho
    have hgr : d.graph = graph := by rw [hd]; rfl
    simp only at h
    split at h
    · rename_i hany
      obtain ⟨o, h3, h4⟩ := List.any_eq_true.1 hany
      cases h
      exact .inl ⟨rfl, rfl, .inr ⟨o, (hsel o).1 h3, by simpa using h4⟩⟩
    · rw [htx] at h
      cases h
      obtain ⟨k1, k2⟩ := record_events w.db txEnv t!"unhide" n htx hp es
        ((unhideSelection d recursive sets).map fun c => .unobsolete env.now (.id n) c) he
        (by intro e hm; obtain ⟨c, _, rfl⟩ := List.mem_map.1 hm; rfl)
      have hfst : ((unhideSelection d recursive sets).map fun c =>
          (c, decide (r.activityStatus r.makeDefaultCursor c = .active))).map Prod.fst =
          unhideSelection d recursive sets := by
        rw [List.map_map]
        exact List.map_id' _
      refine .inr ⟨_, rfl, ?_, ?_, ?_, ?_, rfl, k2, ?_⟩
      · rw [hfst]; exact hsel
      · rw [hfst]; unfold unhideSelection; rw [hgr]; exact sort_nodup hg _
      · rw [hfst]; unfold unhideSelection; rw [hgr]; exact sort_parentsFirst hg _
      · intro o b hm
        simp only [List.mem_map, Prod.mk.injEq] at hm
        obtain ⟨c, _, rfl, rfl⟩ := hm
        subst hr
        simpa using (activity_iff env.move.mainBranch es c).1
      · rw [List.map_map]
        exact k1

/-- C42: after a successful `unhide` the selected commits are active, and all others have the status they
had. -/
theorem unhide_status (env : FinishEnv) (graph : CommitGraph Oid) (hg : WFGraph graph)
    (txEnv : Option Text) (w w' : RepoWorld) (es : List Event) (hp : w.db.pending = none)
    (he : w.db.getEvents = some es) (sets : List (List Oid)) (recursive : Bool) (n : Int)
    (htx : (w.db.makeTransactionId txEnv t!"unhide").1 = .id n) (reported : List (Oid × Bool))
    (branches : List Text)
    (h : unhide env graph txEnv w sets recursive = (w', .done reported branches)) :
    ∃ es', w'.db.getEvents = some es' ∧ ∀ o,
      (ToUnhide graph es recursive sets o → statusIn es' o = some true) ∧
      (¬ ToUnhide graph es recursive sets o → statusIn es' o = statusIn es o) := by
  rcases unhide_records env graph hg txEnv w w' es hp he sets recursive n htx _ h with ⟨_, h0, _⟩ |
    ⟨rep, h0, h1, _, _, _, _, _, h2⟩
  · cases h0
  · cases h0
    refine ⟨_, h2, fun o => ?_⟩
    have : (reported.map fun c => Event.unobsolete env.now (.id n) c.1) =
        (reported.map Prod.fst).map fun c => .unobsolete env.now (.id n) c := by
      rw [List.map_map]; rfl
    rw [this, statusIn_append, statusIn_unobsolete]
    exact ⟨fun ht => by rw [if_pos ((h1 o).2 ht)]; rfl, fun ht => by rw [if_neg (mt (h1 o).1 ht)]; rfl⟩

/-- C42: unhiding the same selection after hiding it makes all hidden commits active. All others have
their status from before, except, with recursion, those which are above a selected commit and had been
hidden before: they become active too. -/
theorem hide_unhide (env env' : FinishEnv) (graph : CommitGraph Oid) (hg : WFGraph graph)
    (txEnv txEnv' : Option Text) (w w1 w2 : RepoWorld) (hw : AMap.WF w.git.refs) (es : List Event)
    (hp : w.db.pending = none) (he : w.db.getEvents = some es) (sets : List (List Oid))
    (noDelete recursive : Bool) (n n' : Int)
    (htx : (w.db.makeTransactionId txEnv t!"hide").1 = .id n)
    (htx' : (w1.db.makeTransactionId txEnv' t!"unhide").1 = .id n')
    (rep rep' : List (Oid × Bool)) (br br' : List Text)
    (h1 : hide env graph txEnv w sets noDelete recursive = (w1, .done rep br))
    (h2 : unhide env' graph txEnv' w1 sets recursive = (w2, .done rep' br')) :
    ∃ es2, w2.db.getEvents = some es2 ∧ ∀ o,
      (ToHide graph env.move.mainBranch w.git es recursive sets o → statusIn es2 o = some true) ∧
      (¬ ToHide graph env.move.mainBranch w.git es recursive sets o →
        ¬ (recursive = true ∧ o ∈ graph.nodes ∧ statusIn es o = some false ∧
          ∃ s ∈ sets, ∃ x ∈ s, Anc graph x o) → statusIn es2 o = statusIn es o) ∧
      (recursive = true → o ∈ graph.nodes → statusIn es o = some false →
        (∃ s ∈ sets, ∃ x ∈ s, Anc graph x o) → statusIn es2 o = some true) := by
  rcases hide_status env graph hg txEnv w w1 hw es hp he sets noDelete recursive n htx _ h1 with ⟨_, h0⟩ |
    ⟨es1, k1, k2, k3⟩
  · cases h0
  · obtain ⟨es2, l1, l2⟩ := unhide_status env' graph hg txEnv' w1 w2 es1 k2 k1 sets recursive n' htx' rep'
      br' h2
    refine ⟨es2, l1, fun o => ?_⟩
    obtain ⟨a1, a2⟩ := k3 o
    obtain ⟨b1, b2⟩ := l2 o
    cases recursive with
    | false =>
      have heq : ToUnhide graph es1 false sets o ↔ ToHide graph env.move.mainBranch w.git es false sets o := by
        simp [ToUnhide, ToHide]
      refine ⟨fun ht => b1 (heq.2 ht), fun ht _ => ?_, by simp⟩
      rw [b2 (fun hu => ht (heq.1 hu)), a2 ht]
    | true =>
      simp only [ToUnhide, ite_true] at b1 b2
      refine ⟨fun ht => ?_, fun ht hn => ?_, fun _ hn hst hab => ?_⟩
      · have hst := a1 ht
        simp only [ToHide, ite_true] at ht
        exact b1 ⟨ht.1.1, hst, ht.2⟩
      · have hst := a2 ht
        rw [b2 ?_, hst]
        rintro ⟨c1, c2, c3⟩
        exact hn ⟨rfl, c1, by rw [← hst]; exact c2, c3⟩
      · by_cases ht : ToHide graph env.move.mainBranch w.git es true sets o
        · exact b1 ⟨hn, a1 ht, hab⟩
        · exact b1 ⟨hn, by rw [a2 ht]; exact hst, hab⟩

/-- `C` was hidden before; `B` is the parent of `C`. -/
def hideWorld : RepoWorld :=
  { exWorld [(t!"refs/heads/main", oidA), (t!"refs/heads/b", oidB)] (.symbolic t!"refs/heads/b") with
    db := ({} : Db).addEvents [.commit 1 (.id 1) oidB, .commit 2 (.id 2) oidC, .obsolete 3 (.id 3) oidC] }

/-- Non-vacuity: the hypotheses hold, `B` is hidden (it was not hidden before), its branch is deleted and
`HEAD` detached. -/
example :
    AMap.WF hideWorld.git.refs ∧ hideWorld.db.pending = none ∧
    hideWorld.db.getEvents = some [.commit 1 (.id 1) oidB, .commit 2 (.id 2) oidC, .obsolete 3 (.id 3) oidC] ∧
    (hideWorld.db.makeTransactionId none t!"hide").1 = .id 1 ∧
    ∃ w', hide (exFinish fun _ => false) lineGraph none hideWorld [[oidB]] false true =
        (w', .done [(oidB, false)] [t!"refs/heads/b"]) ∧
      w'.git = ⟨[(t!"refs/heads/main", oidA)], .detached oidB⟩ ∧
      w'.db.getEvents = some [.commit 1 (.id 1) oidB, .commit 2 (.id 2) oidC, .obsolete 3 (.id 3) oidC,
        .obsolete 50 (.id 1) oidB, .refUpdate 50 (.id 1) t!"refs/heads/b" (.nonZero oidB) .zero none] := by
  unfold AMap.WF
  refine ⟨by decide +kernel, by decide +kernel, by decide +kernel, by decide +kernel, _, rfl, ?_⟩
  decide +kernel

/-- C42, observation: hiding and unhiding the same commit with recursion is not the identity on the
status of the other commits: `C`, hidden before, is active afterwards. -/
theorem unhide_recursive_more :
    ∃ w1 w2 es2, hide (exFinish fun _ => false) lineGraph none hideWorld [[oidB]] false true =
        (w1, .done [(oidB, false)] [t!"refs/heads/b"]) ∧
      unhide (exFinish fun _ => false) lineGraph none w1 [[oidB]] true =
        (w2, .done [(oidB, false), (oidC, false)] []) ∧
      w2.db.getEvents = some es2 ∧ statusIn es2 oidC = some true := by
  refine ⟨_, _, _, rfl, rfl, rfl, ?_⟩
  decide +kernel

/-- C42, observation: the commit of the main branch can be hidden; then the main branch is deleted if it
has no upstream, and no command works any more. -/
theorem hide_deletes_main :
    ∃ w1, hide (exFinish fun _ => false) lineGraph none hideWorld [[oidA]] false false =
        (w1, .done [(oidA, false)] [t!"refs/heads/main"]) ∧
      w1.git.refs.get? t!"refs/heads/main" = none ∧
      unhide (exFinish fun _ => false) lineGraph none w1 [[oidA]] false = (w1, .error) := by
  refine ⟨_, rfl, ?_, rfl⟩
  decide +kernel

/-! ### C43: repair -/

theorem wf_addName {m : AMap Oid (List Text)} (h : AMap.WF m) (o : Oid) (n : Text) :
    AMap.WF (Replayer.addName m o n) := AMap.wf_insert h _ _

theorem wf_foldl_addName (l : List (Text × Oid)) (m : AMap Oid (List Text)) (h : AMap.WF m) :
    AMap.WF (l.foldl (fun m (x : Text × Oid) =>
      if (categorize x.1).isLocalBranch then Replayer.addName m x.2 x.1 else m) m) := by
  induction l generalizing m with
  | nil => exact h
  | cons x l ih =>
    refine ih _ ?_
    simp only
    split
    · exact wf_addName h _ _
    · exact h

theorem wf_snapshot {r : Replayer} {repo : Replayer.RepoMain} {c : Cursor} {snap : Replayer.RefsSnapshot}
    (h : r.referencesSnapshot repo c = .ok snap) : AMap.WF snap.branchOidToNames := by
  unfold Replayer.referencesSnapshot at h
  split at h
  · rename_i h3
    cases h
    unfold Replayer.cursorBranchOidToNames at h3
    split at h3
    · cases h3
      exact wf_addName (wf_foldl_addName _ _ AMap.wf_nil) _ _
    · cases h3
  · cases h

theorem mem_recordedBranches {m : AMap Oid (List Text)} (hm : AMap.WF m) (o : Oid) (name : Text) :
    (o, name) ∈ recordedBranches m ↔ name ∈ (m.get? o).getD [] := by
  unfold recordedBranches
  simp only [List.mem_flatMap, List.mem_map, Prod.mk.injEq]
  constructor
  · rintro ⟨⟨o', names⟩, h1, n, h2, rfl, rfl⟩
    rw [AMap.get?_of_mem hm h1]
    exact h2
  · intro h
    cases hg : m.get? o with
    | none => rw [hg] at h; simp at h
    | some names =>
      rw [hg] at h
      exact ⟨(o, names), AMap.mem_of_get? hg, name, h, rfl, rfl⟩

theorem branch_not_ignored {name : Text} (h : IsBranch name) : shouldIgnoreRefUpdates name = false := by
  obtain ⟨t, rfl⟩ := h
  simp [shouldIgnoreRefUpdates, isGcRef, List.isPrefixOf]

theorem fromEvents_mainBranch (mb : Text) (es : List Event) :
    (Replayer.fromEvents mb es).mainBranch = mb := by
  induction es using snocInduction with
  | h0 => rfl
  | h1 es e ih =>
    have hf : Replayer.fromEvents mb (es ++ [e]) = (Replayer.fromEvents mb es).processEvent e := by
      simp [Replayer.fromEvents]
    rw [hf]
    unfold Replayer.processEvent
    simp only
    split <;> split <;> first
      | exact ih
      | (split
         · exact ih
         · rw [Replayer.record_mainBranch]; exact ih)

/-- The ways in which `repair` can end. -/
theorem repair_cases (env : RepairEnv) (txEnv : Option Text) (w : RepoWorld) (es : List Event)
    (he : w.db.getEvents = some es) (dryRun : Bool) :
    (w.git.refs.get? env.mainBranch = none ∧ repair env txEnv w dryRun = (w, .error)) ∨
    ∃ commits branches, commits.Nodup ∧
      (∀ o, o ∈ commits ↔ statusIn es o ≠ none ∧ env.isCommit o = false) ∧
      (∀ o name, (o, name) ∈ branches ↔
        IsBranch name ∧ lastPosition name es = some o ∧ w.git.refs.get? name = none) ∧
      let tx := (w.db.makeTransactionId txEnv t!"repair").1
      let db := (w.db.makeTransactionId txEnv t!"repair").2
      let events := (env.shuffleCommits commits).map (fun c => .obsolete env.now tx c) ++
        (env.shuffleBranches branches).map fun b => .refUpdate env.now tx b.2 (.nonZero b.1) .zero none
      repair env txEnv w dryRun = ({ w with db := if dryRun then db else db.addEvents events },
        .done commits branches) := by
  unfold repair
  cases hm : w.git.refs.get? env.mainBranch with
  | none => exact .inl ⟨rfl, rfl⟩
  | some main =>
    refine .inr ?_
    rw [he]
    simp only
    obtain ⟨snap, h1, _, h3, h4⟩ := references_snapshot_exact (Replayer.fromEvents env.mainBranch es)
      ⟨env.mainBranch, main⟩ (Replayer.fromEvents env.mainBranch es).events.length (Nat.le_refl _)
    rw [← defaultCursor_eq] at h1
    rw [h1]
    refine ⟨_, _, ?_, ?_, ?_, rfl⟩
    · unfold brokenCommits Replayer.cursorOids
      have hw : AMap.WF (Replayer.fromEvents env.mainBranch es).commitHistory :=
        wf_commitHistory_foldl (r := Replayer.new env.mainBranch) AMap.wf_nil es
      refine List.Nodup.filter _ ?_
      have : ∀ (l : List (Oid × List EventInfo)) (c : Cursor), (l.map Prod.fst).Nodup →
          (l.filterMap fun (oid, history) =>
            if history.any fun i => i.id < c.eventId then some oid else none).Nodup := by
        intro l c hl
        induction l with
        | nil => exact .nil
        | cons x l ih =>
          obtain ⟨h1, h2⟩ := List.nodup_cons.1 hl
          rw [List.filterMap_cons]
          split
          · exact ih h2
          · rename_i o ho
            refine List.nodup_cons.2 ⟨?_, ih h2⟩
            intro hin
            obtain ⟨y, hy, hyo⟩ := List.mem_filterMap.1 hin
            have e1 : x.1 = o := by
              revert ho
              obtain ⟨a, b⟩ := x
              simp only
              split <;> simp
            have e2 : y.1 = o := by
              revert hyo
              obtain ⟨a, b⟩ := y
              simp only
              split <;> simp
            exact h1 (List.mem_map.2 ⟨y, hy, by rw [e1, e2]⟩)
      exact this _ _ hw
    · intro o
      unfold brokenCommits
      rw [List.mem_filter]
      have := mem_nowOids env.mainBranch es o
      simp only at this
      rw [this]
      simp
    · intro o name
      unfold brokenBranches
      rw [List.mem_filter, mem_recordedBranches (wf_snapshot h1), h4, List.take_of_length_le (Nat.le_refl _)]
      have hmb : (Replayer.fromEvents env.mainBranch es).mainBranch = env.mainBranch :=
        fromEvents_mainBranch _ _
      rw [hmb]
      constructor
      · rintro ⟨⟨h1, h2⟩ | ⟨h1, h2⟩, h3⟩
        · refine ⟨h1, ?_, by simpa using h3⟩
          rwa [repair_keeps_positions _ _ _ (branch_not_ignored h1)] at h2
        · rw [h1, hm] at h3; simp at h3
      · rintro ⟨h1, h2, h3⟩
        refine ⟨.inl ⟨h1, ?_⟩, by simp [h3]⟩
        rwa [repair_keeps_positions _ _ _ (branch_not_ignored h1)]

theorem lastPosition_append_list (name : Text) (es es' : List Event)
    (h : ∀ e ∈ es', updateOf name e = none) : lastPosition name (es ++ es') = lastPosition name es := by
  unfold lastPosition
  rw [List.reverse_append, List.findSome?_append, List.findSome?_eq_none_iff.2 (by simpa using h)]
  rfl

theorem lastPosition_dropped (name : Text) (es es' : List Event)
    (h1 : ∀ e ∈ es', updateOf name e = none ∨ updateOf name e = some none)
    (h2 : ∃ e ∈ es', updateOf name e = some none) : lastPosition name (es ++ es') = none := by
  induction es' using snocInduction with
  | h0 => simp at h2
  | h1 es' e ih =>
    rw [← List.append_assoc, Replayer.lastPosition_append]
    rcases h1 e (by simp) with he | he
    · rw [he]
      refine ih (fun x hx => h1 x (by simp [hx])) ?_
      obtain ⟨x, hx, hxx⟩ := h2
      rcases List.mem_append.1 hx with hx | hx
      · exact ⟨x, hx, hxx⟩
      · simp only [List.mem_singleton] at hx
        subst hx
        rw [he] at hxx; cases hxx
    · rw [he]

/-- C43: `repair` reports exactly the commits of the event log which do not exist any more, and exactly
the recorded branches which are no references any more; unless it is a dry run, it records one hide for
each of these commits and one deletion for each of these branches, in one transaction. It does not touch
the references. (It fails if there is no main branch.) -/
theorem repair_records (env : RepairEnv) (txEnv : Option Text) (w w' : RepoWorld) (es : List Event)
    (hp : w.db.pending = none) (he : w.db.getEvents = some es) (dryRun : Bool) (n : Int)
    (htx : (w.db.makeTransactionId txEnv t!"repair").1 = .id n) (out : RepairOutcome)
    (h : repair env txEnv w dryRun = (w', out)) :
    w'.git = w.git ∧ w'.db.pending = none ∧
    ((w.git.refs.get? env.mainBranch = none ∧ out = .error ∧ w'.db = w.db) ∨
    ∃ commits branches, out = .done commits branches ∧ commits.Nodup ∧
      (∀ o, o ∈ commits ↔ statusIn es o ≠ none ∧ env.isCommit o = false) ∧
      (∀ o name, (o, name) ∈ branches ↔
        IsBranch name ∧ lastPosition name es = some o ∧ w.git.refs.get? name = none) ∧
      w'.db.getEvents = some (if dryRun then es else es ++
        ((env.shuffleCommits commits).map (fun c => .obsolete env.now (.id n) c) ++
          (env.shuffleBranches branches).map fun b =>
            .refUpdate env.now (.id n) b.2 (.nonZero b.1) .zero none))) := by
  rcases repair_cases env txEnv w es he dryRun with ⟨h1, h2⟩ | ⟨commits, branches, h0, h1, h2, h3⟩
  · rw [h2] at h
    cases h
    exact ⟨rfl, hp, .inl ⟨h1, rfl, rfl⟩⟩
  · simp only at h3
    rw [h3, htx] at h
    cases h
    have ht := getEvents_makeTransactionId w.db txEnv t!"repair"
    have hr := record_events w.db txEnv t!"repair" n htx hp es
      ((env.shuffleCommits commits).map (fun c => .obsolete env.now (.id n) c) ++
        (env.shuffleBranches branches).map fun b => .refUpdate env.now (.id n) b.2 (.nonZero b.1) .zero none)
      he (by
        intro e hm
        rcases List.mem_append.1 hm with hm | hm
        · obtain ⟨c, _, rfl⟩ := List.mem_map.1 hm; rfl
        · obtain ⟨c, _, rfl⟩ := List.mem_map.1 hm; rfl)
    refine ⟨rfl, ?_, .inr ⟨commits, branches, rfl, h0, h1, h2, ?_⟩⟩
    · cases dryRun with
      | true => exact ht.2.trans hp
      | false => exact hr.2
    · cases dryRun with
      | true => exact ht.1.trans he
      | false => exact hr.1

/-- C43: a dry run records nothing. -/
theorem repair_dry_run (env : RepairEnv) (txEnv : Option Text) (w w' : RepoWorld) (es : List Event)
    (he : w.db.getEvents = some es) (out : RepairOutcome)
    (h : repair env txEnv w true = (w', out)) :
    w'.git = w.git ∧ w'.db.getEvents = some es := by
  rcases repair_cases env txEnv w es he true with ⟨h1, h2⟩ | ⟨commits, branches, h0, h1, h2, h3⟩
  · rw [h2] at h
    cases h
    exact ⟨rfl, he⟩
  · simp only at h3
    rw [h3] at h
    cases h
    exact ⟨rfl, (getEvents_makeTransactionId w.db txEnv t!"repair").1.trans he⟩

/-- C43: after a repair exactly the missing commits have another status: all commits of the event log which
do not exist are hidden. And exactly the branches which are no references have no position any more. -/
theorem repair_effect (env : RepairEnv) (txEnv : Option Text) (w w' : RepoWorld) (es : List Event)
    (hp : w.db.pending = none) (he : w.db.getEvents = some es) (n : Int)
    (htx : (w.db.makeTransactionId txEnv t!"repair").1 = .id n)
    (hc : ∀ l, (env.shuffleCommits l).Perm l) (hb : ∀ l, (env.shuffleBranches l).Perm l)
    (commits : List Oid) (branches : List (Oid × Text))
    (h : repair env txEnv w false = (w', .done commits branches)) :
    ∃ es', w'.db.getEvents = some es' ∧
      (∀ o, env.isCommit o = true → statusIn es' o = statusIn es o) ∧
      (∀ o, env.isCommit o = false → statusIn es' o = (statusIn es o).map fun _ => false) ∧
      (∀ name, IsBranch name → w.git.refs.get? name = none → lastPosition name es' = none) ∧
      (∀ name, (w.git.refs.get? name).isSome ∨ ¬ IsBranch name →
        lastPosition name es' = lastPosition name es) := by
  obtain ⟨_, _, h0 | ⟨_, _, h0, _, h1, h2, h3⟩⟩ := repair_records env txEnv w w' es hp he false n htx _ h
  · cases h0.2.1
  · cases h0
    refine ⟨_, h3, ?_⟩
    simp only [Bool.false_eq_true, ite_false]
    have hst : ∀ o, statusIn (es ++ ((env.shuffleCommits commits).map (fun c => .obsolete env.now (.id n) c) ++
        (env.shuffleBranches branches).map fun b =>
          .refUpdate env.now (.id n) b.2 (.nonZero b.1) .zero none)) o =
        if o ∈ commits then some false else statusIn es o := by
      intro o
      rw [statusIn_append, statusIn_append, statusIn_none (es := List.map _ (env.shuffleBranches branches)),
        statusIn_obsolete]
      · by_cases ho : o ∈ commits
        · simp [ho, (hc commits).mem_iff]
        · simp [ho, (hc commits).mem_iff]
      · intro e hm
        obtain ⟨b, _, rfl⟩ := List.mem_map.1 hm
        rfl
    refine ⟨fun o ho => ?_, fun o ho => ?_, fun name hbr hn => ?_, fun name hn => ?_⟩
    · rw [hst, if_neg]
      rw [h1]
      simp [ho]
    · rw [hst]
      cases hs : statusIn es o with
      | none =>
        rw [if_neg]
        · rfl
        · rw [h1]; simp [hs]
      | some b =>
        rw [if_pos ((h1 o).2 ⟨by simp [hs], ho⟩)]
        rfl
    · cases hl : lastPosition name es with
      | none =>
        rw [lastPosition_append_list _ _ _ ?_, hl]
        intro e hm
        rcases List.mem_append.1 hm with hm | hm
        · obtain ⟨c, _, rfl⟩ := List.mem_map.1 hm; rfl
        · obtain ⟨b, hmem, rfl⟩ := List.mem_map.1 hm
          have hin := (hb branches).mem_iff.1 hmem
          obtain ⟨_, hpos, _⟩ := (h2 b.1 b.2).1 hin
          simp only [updateOf]
          rw [if_neg]
          intro heq
          rw [heq, hl] at hpos
          cases hpos
      | some o =>
        refine lastPosition_dropped _ _ _ ?_ ?_
        · intro e hm
          rcases List.mem_append.1 hm with hm | hm
          · obtain ⟨c, _, rfl⟩ := List.mem_map.1 hm; exact .inl rfl
          · obtain ⟨b, _, rfl⟩ := List.mem_map.1 hm
            simp only [updateOf]
            by_cases hx : b.2 = name
            · rw [if_pos hx]; exact .inr rfl
            · rw [if_neg hx]; exact .inl rfl
        · refine ⟨.refUpdate env.now (.id n) name (.nonZero o) .zero none, ?_, by simp [updateOf, MaybeZero.toOption]⟩
          refine List.mem_append.2 (.inr (List.mem_map.2 ⟨(o, name), ?_, rfl⟩))
          exact (hb branches).mem_iff.2 ((h2 o name).2 ⟨hbr, hl, hn⟩)
    · refine lastPosition_append_list _ _ _ ?_
      intro e hm
      rcases List.mem_append.1 hm with hm | hm
      · obtain ⟨c, _, rfl⟩ := List.mem_map.1 hm; rfl
      · obtain ⟨b, hmem, rfl⟩ := List.mem_map.1 hm
        have hin := (hb branches).mem_iff.1 hmem
        obtain ⟨hbr, _, hnone⟩ := (h2 b.1 b.2).1 hin
        simp only [updateOf]
        rw [if_neg]
        rintro rfl
        rcases hn with hn | hn
        · rw [hnone] at hn; simp at hn
        · exact hn hbr

/-- C43: after a repair no missing commit is active, and every branch which the event log knows is a
reference. -/
theorem repair_complete (env : RepairEnv) (txEnv : Option Text) (w w' : RepoWorld) (es : List Event)
    (hp : w.db.pending = none) (he : w.db.getEvents = some es) (n : Int)
    (htx : (w.db.makeTransactionId txEnv t!"repair").1 = .id n)
    (hc : ∀ l, (env.shuffleCommits l).Perm l) (hb : ∀ l, (env.shuffleBranches l).Perm l)
    (commits : List Oid) (branches : List (Oid × Text))
    (h : repair env txEnv w false = (w', .done commits branches)) :
    ∃ es', w'.db.getEvents = some es' ∧
      (∀ o, statusIn es' o = some true → env.isCommit o = true) ∧
      ∀ name o, IsBranch name → lastPosition name es' = some o → (w'.git.refs.get? name).isSome := by
  obtain ⟨es', h1, h2, h3, h4, h5⟩ := repair_effect env txEnv w w' es hp he n htx hc hb commits branches h
  obtain ⟨hgit, _⟩ := repair_records env txEnv w w' es hp he false n htx _ h
  refine ⟨es', h1, fun o ho => ?_, fun name o hbr hl => ?_⟩
  · cases hi : env.isCommit o with
    | true => rfl
    | false =>
      rw [h3 o hi] at ho
      cases hs : statusIn es o with
      | none => rw [hs] at ho; cases ho
      | some b => rw [hs] at ho; cases ho
  · cases hr : w.git.refs.get? name with
    | none => rw [h4 name hbr hr] at hl; cases hl
    | some x => rw [hgit, hr]; rfl

/-- C43 (partial: the hides are recorded again, see `repair_repeats`): repairing again changes no status
and no position of a reference. It reports the same commits as before, and no branch. -/
theorem repair_again_partial (env env' : RepairEnv) (txEnv txEnv' : Option Text) (w w1 w2 : RepoWorld)
    (es : List Event) (hp : w.db.pending = none) (he : w.db.getEvents = some es) (n n' : Int)
    (htx : (w.db.makeTransactionId txEnv t!"repair").1 = .id n)
    (htx' : (w1.db.makeTransactionId txEnv' t!"repair").1 = .id n')
    (hc : ∀ l, (env.shuffleCommits l).Perm l) (hb : ∀ l, (env.shuffleBranches l).Perm l)
    (hc' : ∀ l, (env'.shuffleCommits l).Perm l) (hb' : ∀ l, (env'.shuffleBranches l).Perm l)
    (hsame : env'.isCommit = env.isCommit)
    (commits commits' : List Oid) (branches branches' : List (Oid × Text))
    (h1 : repair env txEnv w false = (w1, .done commits branches))
    (h2 : repair env' txEnv' w1 false = (w2, .done commits' branches')) :
    (∀ o, o ∈ commits' ↔ o ∈ commits) ∧ branches' = [] ∧
    ∃ es1 es2, w1.db.getEvents = some es1 ∧ w2.db.getEvents = some es2 ∧
      (∀ o, statusIn es2 o = statusIn es1 o) ∧ ∀ name, lastPosition name es2 = lastPosition name es1 := by
  obtain ⟨es1, k1, k2, k3, k4, k5⟩ := repair_effect env txEnv w w1 es hp he n htx hc hb commits branches h1
  obtain ⟨g1, p1, h0 | ⟨_, _, h0, _, a1, a2, _⟩⟩ := repair_records env txEnv w w1 es hp he false n htx _ h1
  · cases h0.2.1
  cases h0
  obtain ⟨es2, l1, l2, l3, l4, l5⟩ :=
    repair_effect env' txEnv' w1 w2 es1 p1 k1 n' htx' hc' hb' commits' branches' h2
  obtain ⟨g2, p2, h0 | ⟨_, _, h0, _, b1, b2, _⟩⟩ :=
    repair_records env' txEnv' w1 w2 es1 p1 k1 false n' htx' _ h2
  · cases h0.2.1
  cases h0
  refine ⟨fun o => ?_, ?_, es1, es2, k1, l1, fun o => ?_, fun name => ?_⟩
  · rw [b1, a1, hsame]
    refine and_congr_left fun ho => ?_
    rw [k3 o ho]
    simp
  · rw [List.eq_nil_iff_forall_not_mem]
    rintro ⟨o, name⟩ hm
    obtain ⟨c1, c2, c3⟩ := (b2 o name).1 hm
    rw [g1] at c3
    rw [k4 name c1 c3] at c2
    cases c2
  · cases hi : env.isCommit o with
    | true => exact l2 o (by rw [hsame]; exact hi)
    | false =>
      rw [l3 o (by rw [hsame]; exact hi), k3 o hi]
      cases statusIn es o <;> rfl
  · by_cases hx : (w1.git.refs.get? name).isSome ∨ ¬ IsBranch name
    · exact l5 name hx
    · have hx1 : IsBranch name := by
        by_contra hh
        exact hx (.inr hh)
      have hx2 : w1.git.refs.get? name = none := by
        cases hr : w1.git.refs.get? name with
        | none => rfl
        | some y => exact absurd (.inl (by rw [hr]; rfl)) hx
      rw [l4 name hx1 hx2, k4 name hx1 (by rw [← g1]; exact hx2)]

/-- A repository in which the commit `B` does not exist any more; the branch `b` was deleted, and the branch
`c` was moved, without the event log being told. -/
def repairWorld : RepoWorld :=
  { exWorld [(t!"refs/heads/main", oidA), (t!"refs/heads/c", oidA)] (.symbolic t!"refs/heads/main") with
    db := ({} : Db).addEvents [.commit 1 (.id 1) oidB,
      .refUpdate 2 (.id 2) t!"refs/heads/b" .zero (.nonZero oidA) none,
      .refUpdate 3 (.id 3) t!"refs/heads/c" .zero (.nonZero oidB) none] }

def exRepair : RepairEnv := ⟨t!"refs/heads/main", fun o => o != oidB, 50, id, id⟩

/-- Non-vacuity: the hypotheses hold for this repository. -/
example : repairWorld.db.pending = none ∧ (repairWorld.db.makeTransactionId none t!"repair").1 = .id 1 ∧
    ∃ w', repair exRepair none repairWorld false =
      (w', .done [oidB] [(oidA, t!"refs/heads/b")]) := by
  refine ⟨by decide +kernel, by decide +kernel, _, rfl⟩

/-- C43 fails: repairing again is not without effect. Missing commits are hidden (and reported) again each
time, although they are hidden already. -/
theorem repair_repeats :
    ∃ w1 w2 es1, repair exRepair none repairWorld false = (w1, .done [oidB] [(oidA, t!"refs/heads/b")]) ∧
      w1.db.getEvents = some es1 ∧ statusIn es1 oidB = some false ∧
      repair exRepair none w1 false = (w2, .done [oidB] []) ∧
      w2.db.getEvents = some (es1 ++ [.obsolete 50 (.id 2) oidB]) := by
  refine ⟨_, _, _, rfl, rfl, ?_, rfl, ?_⟩ <;> decide +kernel

/-- C43 fails: a branch is dropped although its target exists (because the reference was deleted). -/
theorem repair_drops_existing_target :
    ∃ w1, repair exRepair none repairWorld false = (w1, .done [oidB] [(oidA, t!"refs/heads/b")]) ∧
      exRepair.isCommit oidA = true := ⟨_, rfl, by decide⟩

/-- C43 fails: afterwards the event log still has a branch at a missing commit (because there is a
reference with this name, though elsewhere). -/
theorem repair_keeps_missing_target :
    ∃ w1 es1, repair exRepair none repairWorld false = (w1, .done [oidB] [(oidA, t!"refs/heads/b")]) ∧
      w1.db.getEvents = some es1 ∧ lastPosition t!"refs/heads/c" es1 = some oidB ∧
      exRepair.isCommit oidB = false := by
  refine ⟨_, _, rfl, rfl, ?_, ?_⟩ <;> decide +kernel

end Verif.Props
