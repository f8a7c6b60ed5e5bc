import Verif.Spec.Transactions
import Verif.Props.EventLog
import Verif.Props.Cursor
import Mathlib.Data.List.Induction

/-! Lemmas for C96. -/

namespace Verif

open Verif.Spec Verif.Props

theorem TxId.parse_fits {s : Text} {tx : TxId} (h : TxId.parse s = some tx) : ∀ n, tx = .id n → inIsize n := by
  rintro n rfl
  unfold TxId.parse at h
  split at h
  · cases h
  · unfold parseIsize at h
    simp only [Option.map_eq_some_iff] at h
    obtain ⟨a, ha, hid⟩ := h
    cases hid
    rw [Option.bind_eq_some_iff] at ha
    obtain ⟨b, -, hb⟩ := ha
    split at hb
    · cases hb; assumption
    · cases hb

/-- What holds always. -/
structure TxInv (w : TxWorld) : Prop where
  idle : ∀ r, (w.dbs r).pending = none
  readable : ∀ r, ∃ es, (w.dbs r).getEvents = some es
  seq : ∀ r, 0 ≤ (w.dbs r).seq ∧ ∀ e ∈ (w.dbs r).txs, e.1 ≤ (w.dbs r).seq
  parent : ∀ (i : Nat) (c : TxProc), w.procs[i]? = some c → ∀ j, c.parent = some j → j < i ∧ ∃ q : TxProc, w.procs[j]? = some q ∧
    (c.var = q.var ∨ (∃ tx ∈ q.ids, c.var = some tx.toText) ∨ c.var = some TxId.suppressed.toText)
  inherited : ∀ (i : Nat) (c : TxProc) tx, w.procs[i]? = some c → c.var.bind TxId.parse = some tx → ∀ x ∈ c.ids, x = tx
  made : ∀ (i : Nat) (c : TxProc), w.procs[i]? = some c → c.var.bind TxId.parse = none → ∀ x ∈ c.ids,
    ∃ n, x = .id n ∧ 0 < n ∧ n ≤ (w.dbs c.repo).seq ∧ ∃ m, (n, m) ∈ (w.dbs c.repo).txs
  once : ∀ (i j : Nat) (c q : TxProc) x, w.procs[i]? = some c → w.procs[j]? = some q → c.var.bind TxId.parse = none →
    q.var.bind TxId.parse = none → c.repo = q.repo → x ∈ c.ids → x ∈ q.ids → i = j
  recorded : ∀ r, ∀ e ∈ w.log r, e.txId ≠ .suppressed ∧
    ∃ (i : Nat), ∃ c : TxProc, w.procs[i]? = some c ∧ c.repo = r ∧ e.txId ∈ c.ids

theorem TxInv.empty : TxInv TxWorld.empty where
  idle _ := rfl
  readable _ := ⟨[], rfl⟩
  seq _ := ⟨Int.le_refl _, fun e he => by cases he⟩
  parent i c h := by simp [TxWorld.empty] at h
  inherited i c tx h := by simp [TxWorld.empty] at h
  made i c h := by simp [TxWorld.empty] at h
  once i j c q x h := by simp [TxWorld.empty] at h
  recorded r e he := by simp [TxWorld.empty, TxWorld.log, Db.getEvents] at he

/-- A new process without ids keeps it. -/
theorem TxInv.newProc {w : TxWorld} (hi : TxInv w) (n : TxProc) (hn : n.ids = [])
    (hp : ∀ j, n.parent = some j → ∃ q : TxProc, w.procs[j]? = some q ∧
      (n.var = q.var ∨ (∃ tx ∈ q.ids, n.var = some tx.toText) ∨ n.var = some TxId.suppressed.toText)) :
    TxInv { w with procs := w.procs ++ [n] } := by
  have old : ∀ {i : Nat} {c : TxProc}, w.procs[i]? = some c → (w.procs ++ [n])[i]? = some c := by
    intro i c h
    rw [List.getElem?_append_left (List.getElem?_eq_some_iff.1 h).1]
    exact h
  have new : ∀ {i : Nat} {c : TxProc}, (w.procs ++ [n])[i]? = some c →
      w.procs[i]? = some c ∨ (i = w.procs.length ∧ c = n) := by
    intro i c h
    rcases Nat.lt_or_ge i w.procs.length with hl | hl
    · rw [List.getElem?_append_left hl] at h
      exact .inl h
    · rw [List.getElem?_append_right hl] at h
      rw [List.getElem?_singleton] at h
      split at h
      · cases h
        exact .inr ⟨by omega, rfl⟩
      · cases h
  refine ⟨hi.idle, hi.readable, hi.seq, ?_, ?_, ?_, ?_, ?_⟩
  · intro i c h j hj
    rcases new h with h | ⟨rfl, rfl⟩
    · obtain ⟨h1, q, h2, h3⟩ := hi.parent i c h j hj
      exact ⟨h1, q, old h2, h3⟩
    · obtain ⟨q, h2, h3⟩ := hp j hj
      exact ⟨(List.getElem?_eq_some_iff.1 h2).1, q, old h2, h3⟩
  · intro i c tx h hv x hx
    rcases new h with h | ⟨rfl, rfl⟩
    · exact hi.inherited i c tx h hv x hx
    · rw [hn] at hx; cases hx
  · intro i c h hv x hx
    rcases new h with h | ⟨rfl, rfl⟩
    · exact hi.made i c h hv x hx
    · rw [hn] at hx; cases hx
  · intro i j c q x h h' hv hv' hr hx hx'
    rcases new h with h | ⟨rfl, rfl⟩
    · rcases new h' with h' | ⟨rfl, rfl⟩
      · exact hi.once i j c q x h h' hv hv' hr hx hx'
      · rw [hn] at hx'; cases hx'
    · rw [hn] at hx; cases hx
  · intro r e he
    obtain ⟨h1, i, c, h2, h3, h4⟩ := hi.recorded r e he
    exact ⟨h1, i, c, old h2, h3, h4⟩

theorem TxInv.makeId {w : TxWorld} (hi : TxInv w) {p : Nat} {q : TxProc} (hq : w.procs[p]? = some q) (message : Text)
    {tx : TxId} {db : Db} (hm : (w.dbs q.repo).makeTransactionId q.var message = (tx, db)) :
    TxInv { dbs := Function.update w.dbs q.repo db, procs := w.procs.set p { q with ids := tx :: q.ids } } := by
  have hlt := (List.getElem?_eq_some_iff.1 hq).1
  have hget : ∀ {i : Nat} {c : TxProc}, (w.procs.set p { q with ids := tx :: q.ids })[i]? = some c →
      (i ≠ p ∧ w.procs[i]? = some c) ∨ (i = p ∧ c = { q with ids := tx :: q.ids }) := by
    intro i c h
    by_cases hip : i = p
    · subst hip
      rw [List.getElem?_set_self hlt] at h
      cases h
      exact .inr ⟨rfl, rfl⟩
    · rw [List.getElem?_set_ne (Ne.symm hip)] at h
      exact .inl ⟨hip, h⟩
  have hold : ∀ {i : Nat} {c : TxProc}, w.procs[i]? = some c →
      ∃ c' : TxProc, (w.procs.set p { q with ids := tx :: q.ids })[i]? = some c' ∧ c'.var = c.var ∧ c'.repo = c.repo ∧
        ∀ x ∈ c.ids, x ∈ c'.ids := by
    intro i c h
    by_cases hip : i = p
    · subst hip
      rw [hq] at h
      cases h
      exact ⟨_, List.getElem?_set_self hlt, rfl, rfl, fun x hx => List.mem_cons_of_mem _ hx⟩
    · exact ⟨c, by rw [List.getElem?_set_ne (Ne.symm hip)]; exact h, rfl, rfl, fun x hx => hx⟩
  -- the database
  have hdb : db.pending = none ∧ db.rows = (w.dbs q.repo).rows ∧ (w.dbs q.repo).seq ≤ db.seq ∧
      (∀ e ∈ (w.dbs q.repo).txs, e ∈ db.txs) ∧ (∀ e ∈ db.txs, e.1 ≤ db.seq) ∧
      ((∃ t, q.var.bind TxId.parse = some t ∧ tx = t) ∨
        (q.var.bind TxId.parse = none ∧ ∃ n, tx = .id n ∧ 0 < n ∧ (w.dbs q.repo).seq < n ∧ n ≤ db.seq ∧
          (n, message) ∈ db.txs)) := by
    unfold Db.makeTransactionId at hm
    obtain ⟨hs1, hs2⟩ := hi.seq q.repo
    cases hv : q.var.bind TxId.parse with
    | some t =>
      rw [hv] at hm
      cases hm
      exact ⟨hi.idle _, rfl, Int.le_refl _, fun e he => he, hs2, .inl ⟨_, rfl, rfl⟩⟩
    | none =>
      rw [hv] at hm
      cases hm
      refine ⟨hi.idle _, rfl, by simp only; omega, fun e he => List.mem_append_left _ he, ?_, .inr ⟨rfl, _, rfl, ?_, ?_,
        Int.le_refl _, by simp⟩⟩
      · intro e he
        simp only [List.mem_append, List.mem_singleton] at he
        rcases he with he | rfl
        · have := hs2 e he
          simp only
          omega
        · exact Int.le_refl _
      · omega
      · omega
  obtain ⟨hd1, hd2, hd3, hd4, hd5, hd6⟩ := hdb
  have hseq : ∀ r, (w.dbs r).seq ≤ (Function.update w.dbs q.repo db r).seq := by
    intro r
    by_cases hr : r = q.repo
    · subst hr; rw [Function.update_self]; exact hd3
    · rw [Function.update_of_ne hr]; exact Int.le_refl _
  have htxs : ∀ r, ∀ e ∈ (w.dbs r).txs, e ∈ (Function.update w.dbs q.repo db r).txs := by
    intro r
    by_cases hr : r = q.repo
    · subst hr; rw [Function.update_self]; exact hd4
    · rw [Function.update_of_ne hr]; exact fun e he => he
  have hrows : ∀ r, (Function.update w.dbs q.repo db r).rows = (w.dbs r).rows := by
    intro r
    by_cases hr : r = q.repo
    · subst hr; rw [Function.update_self]; exact hd2
    · rw [Function.update_of_ne hr]
  refine ⟨?_, ?_, ?_, ?_, ?_, ?_, ?_, ?_⟩
  · intro r
    by_cases hr : r = q.repo
    · subst hr; simp only [Function.update_self]; exact hd1
    · simp only [Function.update_of_ne hr]; exact hi.idle r
  · intro r
    obtain ⟨es, hes⟩ := hi.readable r
    refine ⟨es, ?_⟩
    unfold Db.getEvents
    rw [hrows r]
    exact hes
  · intro r
    by_cases hr : r = q.repo
    · subst hr
      simp only [Function.update_self]
      exact ⟨Int.le_trans (hi.seq _).1 hd3, hd5⟩
    · simp only [Function.update_of_ne hr]; exact hi.seq r
  · intro i c h j hj
    have key : ∃ c0 : TxProc, w.procs[i]? = some c0 ∧ c0.parent = c.parent ∧ c0.var = c.var := by
      rcases hget h with ⟨-, h⟩ | ⟨rfl, rfl⟩
      · exact ⟨c, h, rfl, rfl⟩
      · exact ⟨q, hq, rfl, rfl⟩
    obtain ⟨c0, k1, k2, k3⟩ := key
    obtain ⟨h1, q0, h2, h3⟩ := hi.parent i c0 k1 j (k2.trans hj)
    obtain ⟨q', g1, g2, g3, g4⟩ := hold h2
    refine ⟨h1, q', g1, ?_⟩
    rw [g2, ← k3]
    rcases h3 with h3 | ⟨x, hx, h3⟩ | h3
    · exact .inl h3
    · exact .inr (.inl ⟨x, g4 x hx, h3⟩)
    · exact .inr (.inr h3)
  · intro i c t h hv x hx
    rcases hget h with ⟨-, h⟩ | ⟨rfl, rfl⟩
    · exact hi.inherited i c t h hv x hx
    · simp only [List.mem_cons] at hx
      rcases hx with rfl | hx
      · rcases hd6 with ⟨t', h1, rfl⟩ | ⟨h1, -⟩
        · rw [h1] at hv; cases hv; rfl
        · rw [h1] at hv; cases hv
      · exact hi.inherited i q t hq hv x hx
  · intro i c h hv x hx
    rcases hget h with ⟨-, h⟩ | ⟨rfl, rfl⟩
    · obtain ⟨n, h1, h2, h3, m, h4⟩ := hi.made i c h hv x hx
      exact ⟨n, h1, h2, Int.le_trans h3 (hseq _), m, htxs _ _ h4⟩
    · simp only [List.mem_cons] at hx
      rcases hx with rfl | hx
      · rcases hd6 with ⟨t', h1, -⟩ | ⟨-, n, h1, h2, h3, h4, h5⟩
        · rw [h1] at hv; cases hv
        · exact ⟨n, h1, h2, by simpa using h4, message, by simpa using h5⟩
      · obtain ⟨n, h1, h2, h3, m, h4⟩ := hi.made i q hq hv x hx
        exact ⟨n, h1, h2, Int.le_trans h3 (hseq _), m, htxs _ _ h4⟩
  · -- an id is made once
    have fresh : ∀ (j : Nat) (c : TxProc), w.procs[j]? = some c → c.var.bind TxId.parse = none → c.repo = q.repo →
        q.var.bind TxId.parse = none → tx ∉ c.ids := by
      intro j c h hv hr hv' hx
      obtain ⟨n, h1, h2, h3, -⟩ := hi.made j c h hv tx hx
      rcases hd6 with ⟨t', g1, -⟩ | ⟨-, n', g1, g2, g3, -⟩
      · rw [g1] at hv'; cases hv'
      · rw [hr] at h3
        rw [h1] at g1
        cases g1
        omega
    intro i j c c' x h h' hv hv' hr hx hx'
    rcases hget h with ⟨hne, g⟩ | ⟨e1, e2⟩
    · rcases hget h' with ⟨hne', g'⟩ | ⟨e1', e2'⟩
      · exact hi.once i j c c' x g g' hv hv' hr hx hx'
      · rw [e2'] at hx' hv' hr
        simp only [List.mem_cons] at hx'
        rcases hx' with e | hx'
        · rw [e] at hx
          exact absurd hx (fresh i c g hv hr hv')
        · exact hi.once i j c q x g (e1' ▸ hq) hv hv' hr hx hx'
    · rw [e2] at hx hv hr
      rcases hget h' with ⟨hne', g'⟩ | ⟨e1', e2'⟩
      · simp only [List.mem_cons] at hx
        rcases hx with e | hx
        · rw [e] at hx'
          exact absurd hx' (fresh j c' g' hv' hr.symm hv)
        · exact hi.once i j q c' x (e1 ▸ hq) g' hv hv' hr hx hx'
      · exact e1.trans e1'.symm
  · intro r e he
    have he' : e ∈ w.log r := by
      unfold TxWorld.log Db.getEvents at he ⊢
      simp only [hrows r] at he
      exact he
    obtain ⟨h1, i, c, h2, h3, h4⟩ := hi.recorded r e he'
    obtain ⟨c', g1, g2, g3, g4⟩ := hold h2
    exact ⟨h1, i, c', g1, g3.trans h3, g4 _ h4⟩

/-- The log after `add_events`. -/
theorem log_record {w : TxWorld} (hi : TxInv w) (q : TxProc) (events : List Event) (r : Nat) :
    TxWorld.log { w with dbs := Function.update w.dbs q.repo ((w.dbs q.repo).addEvents events) } r =
      w.log r ++ (if r = q.repo then storable events else []) := by
  by_cases hr : r = q.repo
  · subst hr
    obtain ⟨es, hes⟩ := hi.readable q.repo
    have := (add_events_appends _ es events (hi.idle q.repo) hes).1
    simp only [TxWorld.log, Function.update_self, this, hes, if_true, Option.getD_some]
  · simp only [TxWorld.log, Function.update_of_ne hr, hr, if_false, List.append_nil]

theorem TxInv.record {w : TxWorld} (hi : TxInv w) {p : Nat} {q : TxProc} (hq : w.procs[p]? = some q) (events : List Event)
    (hev : ∀ e ∈ events, e.txId ∈ q.ids) :
    TxInv { w with dbs := Function.update w.dbs q.repo ((w.dbs q.repo).addEvents events) } := by
  have hadd := addEvents_eq (w.dbs q.repo) (hi.idle _) events
  have hsame : ∀ r, (Function.update w.dbs q.repo ((w.dbs q.repo).addEvents events) r).seq = (w.dbs r).seq ∧
      (Function.update w.dbs q.repo ((w.dbs q.repo).addEvents events) r).txs = (w.dbs r).txs ∧
      (Function.update w.dbs q.repo ((w.dbs q.repo).addEvents events) r).pending = (w.dbs r).pending := by
    intro r
    by_cases hr : r = q.repo
    · subst hr; rw [Function.update_self, hadd]; exact ⟨rfl, rfl, rfl⟩
    · rw [Function.update_of_ne hr]; exact ⟨rfl, rfl, rfl⟩
  refine ⟨fun r => (hsame r).2.2.trans (hi.idle r), ?_, ?_, hi.parent, hi.inherited, ?_, hi.once, ?_⟩
  · intro r
    by_cases hr : r = q.repo
    · subst hr
      obtain ⟨es, hes⟩ := hi.readable q.repo
      exact ⟨_, by simp only [Function.update_self]; exact (add_events_appends _ es events (hi.idle q.repo) hes).1⟩
    · simp only [Function.update_of_ne hr]; exact hi.readable r
  · intro r
    simp only [(hsame r).1, (hsame r).2.1]
    exact hi.seq r
  · intro i c h hv x hx
    simp only [(hsame c.repo).1, (hsame c.repo).2.1]
    exact hi.made i c h hv x hx
  · intro r e he
    rw [log_record hi q events r, List.mem_append] at he
    rcases he with he | he
    · exact hi.recorded r e he
    · split at he
      · rename_i hr
        unfold storable at he
        simp only [List.mem_filter, decide_eq_true_eq] at he
        exact ⟨he.2, p, q, hq, hr.symm, hev e he.1⟩
      · cases he

theorem TxInv.step {w w' : TxWorld} {a : TxAction} (hi : TxInv w) (h : w.step a = some w') : TxInv w' := by
  cases a with
  | start repo var =>
    cases h
    exact hi.newProc _ rfl (fun j hj => by cases hj)
  | makeId p message =>
    simp only [TxWorld.step] at h
    split at h
    · cases h
    · rename_i q hq
      cases h
      exact hi.makeId hq message rfl
  | record p events =>
    simp only [TxWorld.step] at h
    split at h
    · cases h
    · rename_i q hq
      split at h
      · rename_i hev
        cases h
        exact hi.record hq events (by simpa using hev)
      · cases h
  | spawn p repo pass =>
    simp only [TxWorld.step] at h
    split at h
    · cases h
    · rename_i q hq
      split at h
      · cases h
      · rename_i var hv
        cases h
        refine hi.newProc _ rfl ?_
        intro j hj
        cases hj
        refine ⟨q, hq, ?_⟩
        cases pass with
        | own tx =>
          simp only [TxProc.childVar] at hv
          split at hv
          · cases hv; exact .inr (.inl ⟨tx, by assumption, rfl⟩)
          · cases hv
        | keep => cases hv; exact .inl rfl
        | suppress => cases hv; exact .inr (.inr rfl)

theorem run_append (w : TxWorld) (a b : List TxAction) : w.run (a ++ b) = (w.run a).bind fun w' => w'.run b := by
  unfold TxWorld.run
  rw [List.foldlM_append]
  rfl

theorem TxInv.run {w w' : TxWorld} {acts : List TxAction} (hi : TxInv w) (h : w.run acts = some w') : TxInv w' := by
  induction acts generalizing w with
  | nil => cases h; exact hi
  | cons a acts ih =>
    unfold TxWorld.run at h
    rw [List.foldlM_cons] at h
    cases hs : w.step a with
    | none => rw [hs] at h; cases h
    | some w1 =>
      rw [hs] at h
      exact ih (hi.step hs) h

/-- What stays. -/
structure TxGrows (w w' : TxWorld) : Prop where
  procs : ∀ (i : Nat) (c : TxProc), w.procs[i]? = some c → ∃ c' : TxProc, w'.procs[i]? = some c' ∧ c'.parent = c.parent ∧ c'.repo = c.repo ∧
    c'.var = c.var ∧ ∀ x ∈ c.ids, x ∈ c'.ids
  seq : ∀ r, (w.dbs r).seq ≤ (w'.dbs r).seq

theorem TxGrows.refl (w : TxWorld) : TxGrows w w :=
  ⟨fun _ c h => ⟨c, h, rfl, rfl, rfl, fun _ hx => hx⟩, fun _ => Int.le_refl _⟩

theorem TxGrows.trans {a b c : TxWorld} (h : TxGrows a b) (h' : TxGrows b c) : TxGrows a c where
  procs i p hp := by
    obtain ⟨p1, h1, h2, h3, h4, h5⟩ := h.procs i p hp
    obtain ⟨p2, g1, g2, g3, g4, g5⟩ := h'.procs i p1 h1
    exact ⟨p2, g1, g2.trans h2, g3.trans h3, g4.trans h4, fun x hx => g5 x (h5 x hx)⟩
  seq r := Int.le_trans (h.seq r) (h'.seq r)

theorem TxGrows.append (w : TxWorld) (n : TxProc) : TxGrows w { w with procs := w.procs ++ [n] } where
  procs i c h := by
    refine ⟨c, ?_, rfl, rfl, rfl, fun _ hx => hx⟩
    rw [List.getElem?_append_left (List.getElem?_eq_some_iff.1 h).1]
    exact h
  seq _ := Int.le_refl _

theorem TxGrows.step {w w' : TxWorld} {a : TxAction} (hi : TxInv w) (h : w.step a = some w') : TxGrows w w' := by
  cases a with
  | start repo var => cases h; exact .append w _
  | makeId p message =>
    simp only [TxWorld.step] at h
    split at h
    · cases h
    · rename_i q hq
      cases h
      constructor
      · intro i c hc
        by_cases hip : i = p
        · subst hip
          rw [hq] at hc
          cases hc
          exact ⟨_, List.getElem?_set_self (List.getElem?_eq_some_iff.1 hq).1, rfl, rfl, rfl,
            fun x hx => List.mem_cons_of_mem _ hx⟩
        · exact ⟨c, by rw [List.getElem?_set_ne (Ne.symm hip)]; exact hc, rfl, rfl, rfl, fun _ hx => hx⟩
      · intro r
        by_cases hr : r = q.repo
        · subst hr
          simp only [Function.update_self]
          unfold Db.makeTransactionId
          split
          · exact Int.le_refl _
          · simp only; omega
        · simp only [Function.update_of_ne hr]; exact Int.le_refl _
  | record p events =>
    simp only [TxWorld.step] at h
    split at h
    · cases h
    · rename_i q hq
      split at h
      · cases h
        refine ⟨fun _ c h => ⟨c, h, rfl, rfl, rfl, fun _ hx => hx⟩, fun r => ?_⟩
        by_cases hr : r = q.repo
        · subst hr
          simp only [Function.update_self, addEvents_eq (w.dbs q.repo) (hi.idle _) events]
          exact Int.le_refl _
        · simp only [Function.update_of_ne hr]; exact Int.le_refl _
      · cases h
  | spawn p repo pass =>
    simp only [TxWorld.step] at h
    split at h
    · cases h
    · split at h
      · cases h
      · cases h; exact .append w _

theorem TxGrows.run {w w' : TxWorld} {acts : List TxAction} (hi : TxInv w) (h : w.run acts = some w') :
    TxGrows w w' := by
  induction acts generalizing w with
  | nil => cases h; exact .refl _
  | cons a acts ih =>
    unfold TxWorld.run at h
    rw [List.foldlM_cons] at h
    cases hs : w.step a with
    | none => rw [hs] at h; cases h
    | some w1 =>
      rw [hs] at h
      exact (TxGrows.step hi hs).trans (ih (hi.step hs) h)

end Verif
