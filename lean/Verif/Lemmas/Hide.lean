import Verif.Spec.Hide
import Verif.Model.Hide
import Verif.Props.FinishRebase
import Verif.Props.Dag
import Verif.Lemmas.Undo

namespace Verif.Spec

open Verif Verif.Props

theorem statusIn_append (es es' : List Event) (o : Oid) :
    statusIn (es ++ es') o = (statusIn es' o).or (statusIn es o) := by
  unfold statusIn
  rw [lastEffect_append_list]
  cases lastEffect o es' <;> rfl

theorem statusIn_none {es : List Event} {o : Oid} (h : ∀ e ∈ es, effectOn o e = none) :
    statusIn es o = none := by
  unfold statusIn lastEffect
  rw [List.findSome?_eq_none_iff.2]
  · rfl
  · intro e he
    rw [h e (List.mem_reverse.1 he)]
    rfl

theorem statusIn_obsolete (ts : Timestamp) (tx : TxId) (l : List Oid) (o : Oid) :
    statusIn (l.map fun c => .obsolete ts tx c) o = if o ∈ l then some false else none := by
  induction l with
  | nil => rfl
  | cons c l ih =>
    rw [List.map_cons, ← List.singleton_append, statusIn_append, ih]
    by_cases h : o ∈ l
    · simp [h]
    · by_cases hc : c = o
      · simp [h, hc, statusIn, lastEffect, effectOn]
      · simp [h, hc, Ne.symm hc, statusIn, lastEffect, effectOn]

theorem statusIn_unobsolete (ts : Timestamp) (tx : TxId) (l : List Oid) (o : Oid) :
    statusIn (l.map fun c => .unobsolete ts tx c) o = if o ∈ l then some true else none := by
  induction l with
  | nil => rfl
  | cons c l ih =>
    rw [List.map_cons, ← List.singleton_append, statusIn_append, ih]
    by_cases h : o ∈ l
    · simp [h]
    · by_cases hc : c = o
      · simp [h, hc, statusIn, lastEffect, effectOn]
      · simp [h, hc, Ne.symm hc, statusIn, lastEffect, effectOn]

theorem activity_iff (mb : Text) (es : List Event) (o : Oid) :
    let r := Replayer.fromEvents mb es
    (r.activityStatus r.makeDefaultCursor o = .active ↔ statusIn es o = some true) ∧
    (r.activityStatus r.makeDefaultCursor o = .obsolete ↔ statusIn es o = some false) ∧
    (r.activityStatus r.makeDefaultCursor o = .inactive ↔ statusIn es o = none) := by
  intro r
  rw [activity_status_now mb es o]
  unfold statusIn
  rcases lastEffect o es with _ | ⟨e, _ | _⟩ <;> simp

theorem defaultCursor_eq (r : Replayer) : r.makeDefaultCursor = ⟨(r.events.length : Nat)⟩ := by
  unfold Replayer.makeDefaultCursor Replayer.makeCursor
  simp

theorem mem_nowOids (mb : Text) (es : List Event) (o : Oid) :
    let r := Replayer.fromEvents mb es
    o ∈ r.cursorOids r.makeDefaultCursor ↔ statusIn es o ≠ none := by
  intro r
  have h := cursor_oids_exact mb es r.events.length o
  simp only at h
  rw [defaultCursor_eq, h, ← defaultCursor_eq]
  exact not_congr (activity_iff mb es o).2.2

/-- Recording events for which a transaction id was made. -/
theorem getEvents_makeTransactionId (db : Db) (env : Option Text) (msg : Text) :
    (db.makeTransactionId env msg).2.getEvents = db.getEvents ∧
    (db.makeTransactionId env msg).2.pending = db.pending := by
  unfold Db.makeTransactionId
  split <;> exact ⟨rfl, rfl⟩

theorem storable_of_id {es : List Event} {n : Int} (h : ∀ e ∈ es, e.txId = .id n) : storable es = es := by
  unfold storable
  rw [List.filter_eq_self.2]
  intro e he
  simp [h e he]

theorem record_events (db : Db) (env : Option Text) (msg : Text) (n : Int)
    (htx : (db.makeTransactionId env msg).1 = .id n) (hp : db.pending = none) (es new : List Event)
    (he : db.getEvents = some es) (hn : ∀ e ∈ new, e.txId = .id n) :
    ((db.makeTransactionId env msg).2.addEvents new).getEvents = some (es ++ new) ∧
    ((db.makeTransactionId env msg).2.addEvents new).pending = none := by
  obtain ⟨h1, h2⟩ := getEvents_makeTransactionId db env msg
  have := add_events_appends _ es new (h2.trans hp) (h1.trans he)
  rwa [storable_of_id hn] at this

theorem mem_of_mapM {α β : Type} {f : α → Option β} {l : List α} {ys : List β}
    (h : l.mapM f = some ys) {y : β} (hy : y ∈ ys) : ∃ x, f x = some y := by
  induction l generalizing ys with
  | nil => simp only [List.mapM_nil, Option.pure_def, Option.some.injEq] at h; subst h; simp at hy
  | cons x xs ih =>
    rw [List.mapM_cons] at h
    simp only [Option.bind_eq_bind, Option.pure_def, Option.bind_eq_some_iff] at h
    obtain ⟨z, hz, ys', hys, h⟩ := h
    cases h
    rcases List.mem_cons.1 hy with rfl | hy
    · exact ⟨x, hz⟩
    · exact ih hys hy

/-- Whatever the hook reads, it only adds updates of references. -/
theorem hook_adds_updates (env : FinishEnv) (db : Db) (es : List Event) (hp : db.pending = none)
    (he : db.getEvents = some es) (moves : List (Oid × MaybeZero × Text)) :
    ∃ new, (runReferenceTransactionHook env db moves).getEvents = some (es ++ new) ∧
      (∀ e ∈ new, ∃ ts tx nm old nw m, e = .refUpdate ts tx nm old nw m) ∧
      (runReferenceTransactionHook env db moves).pending = none := by
  unfold runReferenceTransactionHook hookReferenceTransaction
  obtain ⟨h1, h2⟩ := getEvents_makeTransactionId db (some env.tx) t!"reference-transaction"
  rw [if_neg (by simp)]
  simp only
  have hnil : ∃ new, (db.makeTransactionId (some env.tx) t!"reference-transaction").2.getEvents =
      some (es ++ new) ∧ (∀ e ∈ new, ∃ ts tx nm old nw m, e = .refUpdate ts tx nm old nw m) ∧
      (db.makeTransactionId (some env.tx) t!"reference-transaction").2.pending = none :=
    ⟨[], by simp [h1, he], by simp, h2.trans hp⟩
  split
  · exact hnil
  · split
    · exact hnil
    · split
      · exact hnil
      · rename_i new hm
        have := add_events_appends _ es new (h2.trans hp) (h1.trans he)
        refine ⟨storable new, this.1, ?_, this.2⟩
        intro e hin
        have hin : e ∈ new := List.mem_of_mem_filter hin
        obtain ⟨l, hl⟩ := mem_of_mapM hm hin
        unfold eventOfLine at hl
        simp only [Option.bind_eq_bind, Option.pure_def, Option.bind_eq_some_iff, Option.some.injEq] at hl
        obtain ⟨_, _, _, _, rfl⟩ := hl
        exact ⟨_, _, _, _, _, _, rfl⟩

theorem mem_sort {g : CommitGraph Oid} {s : List Oid} {o : Oid} :
    o ∈ g.sort s ↔ o ∈ g.nodes ∧ o ∈ s := by
  unfold CommitGraph.sort
  rw [List.mem_reverse, mem_inter]

theorem sort_nodup {g : CommitGraph Oid} (hg : WFGraph g) (s : List Oid) : (g.sort s).Nodup := by
  unfold CommitGraph.sort CommitGraph.inter
  rw [List.nodup_reverse]
  exact (nodup_nodes hg).filter _

theorem nodes_childrenFirst (es : List (Oid × List Oid)) (hw : WFEntries es) :
    (es.map Prod.fst).Pairwise fun a b => ¬ Anc ⟨es⟩ a b := by
  induction es with
  | nil => exact .nil
  | cons e rest ih =>
    obtain ⟨c, ps⟩ := e
    obtain ⟨h1, h2, h3⟩ := wfEntries_cons.1 hw
    have hne : ∀ y ∈ rest.map Prod.fst, y ≠ c := by rintro y hy rfl; exact h1 hy
    refine .cons ?_ ?_
    · intro y hy ha
      rw [anc_cons_of_ne hw (hne y hy)] at ha
      exact h1 (ha.mem (g := ⟨rest⟩) h3 hy)
    · refine (ih h3).imp_of_mem ?_
      intro a b _ hb h ha
      rw [anc_cons_of_ne hw (hne b hb)] at ha
      exact h ha

theorem sort_parentsFirst {g : CommitGraph Oid} (hg : WFGraph g) (s : List Oid) :
    ParentsFirst g (g.sort s) := by
  unfold ParentsFirst CommitGraph.sort CommitGraph.inter
  rw [List.pairwise_reverse]
  exact (nodes_childrenFirst g.entries hg).filter _

/-- What is read when a command begins. -/
theorem openRepoDag_some {graph : CommitGraph Oid} {mb : Text} {w : RepoWorld} {es : List Event}
    (he : w.db.getEvents = some es) {r : Replayer} {d : Dag} (h : openRepoDag graph mb w = some (r, d)) :
    ∃ refs, w.git.referencesSnapshot mb = some refs ∧ r = Replayer.fromEvents mb es ∧
      d = openDag graph mb es r.events.length refs := by
  unfold openRepoDag at h
  rw [he] at h
  cases hs : w.git.referencesSnapshot mb with
  | none => rw [hs] at h; simp at h
  | some refs =>
    rw [hs] at h
    simp only [Option.some.injEq, Prod.mk.injEq] at h
    obtain ⟨rfl, rfl⟩ := h
    refine ⟨refs, rfl, rfl, ?_⟩
    rw [defaultCursor_eq]

theorem snapshot_anchor {git : GitState} (hw : AMap.WF git.refs) {mb : Text} {refs : Replayer.RefsSnapshot}
    (h : git.referencesSnapshot mb = some refs) (o : Oid) :
    (refs.headOid = some o ↔ git.headInfo.oid = some o) ∧
    (refs.mainBranchOid = o ↔ git.refs.get? mb = some o) ∧
    ((∃ names, AMap.get? refs.branchOidToNames o = some names) ↔
      ∃ b, IsBranch b ∧ git.refs.get? b = some o) := by
  unfold GitState.referencesSnapshot at h
  cases hm : git.refs.get? mb with
  | none => rw [hm] at h; simp at h
  | some m =>
    rw [hm] at h
    simp only [Option.some.injEq] at h
    subst h
    refine ⟨Iff.rfl, by simp, ?_⟩
    rw [← mem_branchOids hw, ← Option.isSome_iff_exists, ← AMap.mem_keys_iff]
    simp [AMap.keys]

theorem seen_iff {graph : CommitGraph Oid} (hg : WFGraph graph) {git : GitState} (hw : AMap.WF git.refs)
    {mb : Text} {refs : Replayer.RefsSnapshot} (h : git.referencesSnapshot mb = some refs)
    (es : List Event) (o : Oid) :
    o ∈ visibleNow graph mb es refs ↔ Seen graph mb git es o := by
  rw [visible_now_exact graph hg]
  unfold Seen statusIn
  refine and_congr_right fun _ => exists_congr fun x => ?_
  obtain ⟨h1, h2, h3⟩ := snapshot_anchor hw h x
  rw [h1, h2, h3, and_comm]

theorem mem_obsolete_now (graph : CommitGraph Oid) (mb : Text) (es : List Event)
    (refs : Replayer.RefsSnapshot) (o : Oid) :
    o ∈ (openDag graph mb es (Replayer.fromEvents mb es).events.length refs).obsoleteCommits ↔
      statusIn es o = some false := by
  have h1 := mem_nowOids mb es o
  have h2 := (activity_iff mb es o).2.1
  simp only at h1 h2
  rw [defaultCursor_eq] at h1 h2
  simp only [Dag.openWithoutSyncing, List.mem_filter, h1]
  rw [← h2]
  constructor
  · rintro ⟨_, h⟩
    revert h
    cases Replayer.activityStatus _ _ o <;> simp
  · intro h
    refine ⟨?_, by rw [h]⟩
    rw [h2] at h
    simp [h]

theorem mem_hideSelection {graph : CommitGraph Oid} (hg : WFGraph graph) {mb : Text} {w : RepoWorld}
    (hw : AMap.WF w.git.refs) {es : List Event} (he : w.db.getEvents = some es) {r : Replayer} {d : Dag}
    (h : openRepoDag graph mb w = some (r, d)) (recursive : Bool) (sets : List (List Oid)) (o : Oid) :
    o ∈ hideSelection d recursive sets ↔ ToHide graph mb w.git es recursive sets o := by
  obtain ⟨refs, h1, rfl, rfl⟩ := openRepoDag_some he h
  unfold hideSelection ToHide
  have hgr : (openDag graph mb es (Replayer.fromEvents mb es).events.length refs).graph = graph := rfl
  rw [mem_sort, hgr]
  cases recursive with
  | false => simp [List.mem_flatten]
  | true =>
    simp only [ite_true]
    rw [filter_visible_exact graph hg, mem_descendants hg, seen_iff hg hw h1]
    simp only [List.mem_flatten]
    constructor
    · rintro ⟨_, ⟨_, x, ⟨s, hs, hx⟩, ha⟩, h⟩
      exact ⟨h, s, hs, x, hx, ha⟩
    · rintro ⟨h, s, hs, x, hx, ha⟩
      exact ⟨h.1, ⟨h.1, x, ⟨s, hs, hx⟩, ha⟩, h⟩

theorem mem_unhideSelection {graph : CommitGraph Oid} (hg : WFGraph graph) {mb : Text} {w : RepoWorld}
    {es : List Event} (he : w.db.getEvents = some es) {r : Replayer} {d : Dag}
    (h : openRepoDag graph mb w = some (r, d)) (recursive : Bool) (sets : List (List Oid)) (o : Oid) :
    o ∈ unhideSelection d recursive sets ↔ ToUnhide graph es recursive sets o := by
  obtain ⟨refs, h1, rfl, rfl⟩ := openRepoDag_some he h
  unfold unhideSelection ToUnhide
  have hgr : (openDag graph mb es (Replayer.fromEvents mb es).events.length refs).graph = graph := rfl
  rw [mem_sort, hgr]
  cases recursive with
  | false => simp [List.mem_flatten]
  | true =>
    simp only [ite_true]
    rw [mem_inter, mem_obsolete_now, mem_descendants hg]
    simp only [List.mem_flatten]
    constructor
    · rintro ⟨h0, ⟨_, x, ⟨s, hs, hx⟩, ha⟩, h⟩
      exact ⟨h0, h, s, hs, x, hx, ha⟩
    · rintro ⟨h0, h, s, hs, x, hx, ha⟩
      exact ⟨h0, ⟨h0, x, ⟨s, hs, hx⟩, ha⟩, h⟩

end Verif.Spec
