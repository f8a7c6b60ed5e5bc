import Verif.Lemmas.Transactions
import Verif.Props.Replay
import Verif.Lemmas.Hide

/-!
Property C96: what a command, git which it runs, and the hooks which git runs record in the event log is one transaction.
-/

namespace Verif.Props

open Verif Verif.Spec

theorem ids_fit {w : TxWorld} (hi : TxInv w) (hs : SmallIds w) {i : Nat} {c : TxProc} (hc : w.procs[i]? = some c)
    {x : TxId} (hx : x ∈ c.ids) : ∀ n, x = .id n → inIsize n := by
  rintro n rfl
  cases hv : c.var.bind TxId.parse with
  | some t =>
    have := hi.inherited i c t hc hv _ hx
    rw [Option.bind_eq_some_iff] at hv
    obtain ⟨s, -, hs⟩ := hv
    exact TxId.parse_fits hs n this.symm
  | none =>
    obtain ⟨n', h1, h2, h3, -⟩ := hi.made i c hc hv _ hx
    cases h1
    have := hs c.repo
    unfold inIsize
    omega

theorem parse_suppressed : TxId.parse TxId.suppressed.toText = some .suppressed := rfl

theorem below_var {w : TxWorld} (hi : TxInv w) {a : Nat} {c : TxProc} (hc : w.procs[a]? = some c)
    {tx : TxId} (hv : c.var.bind TxId.parse = some tx) {p : Nat} (hb : TxBelow w a p) :
    ∀ q, w.procs[p]? = some q →
      q.var.bind TxId.parse = some tx ∨ q.var.bind TxId.parse = some .suppressed := by
  have htx : ∀ n, tx = .id n → inIsize n := by
    rw [Option.bind_eq_some_iff] at hv
    obtain ⟨s, -, hs⟩ := hv
    exact TxId.parse_fits hs
  induction hb with
  | self =>
    intro q hq
    rw [hc] at hq
    cases hq
    exact .inl hv
  | @child p1 p2 d hb hd hp ih =>
    intro q hq
    rw [hd] at hq
    cases hq
    obtain ⟨-, q1, hq1, h3⟩ := hi.parent p2 d hd p1 hp
    rcases h3 with h3 | ⟨t, ht, h3⟩ | h3
    · rw [h3]
      exact ih q1 hq1
    · rw [h3]
      rcases ih q1 hq1 with h4 | h4
      · rw [hi.inherited p1 q1 _ hq1 h4 t ht]
        exact .inl (txId_text_roundtrip tx htx)
      · rw [hi.inherited p1 q1 _ hq1 h4 t ht]
        exact .inr parse_suppressed
    · rw [h3]
      exact .inr parse_suppressed

/-- **C96.** A process which is started with a transaction id in its environment, and all which are started below it,
in whatever repository, have no other id, except that in tests nothing is recorded. -/
theorem family_one_transaction {acts : List TxAction} {w : TxWorld} (hr : TxWorld.empty.run acts = some w) {a : Nat}
    {c : TxProc} (hc : w.procs[a]? = some c) {tx : TxId} (hv : c.var.bind TxId.parse = some tx) {p : Nat}
    (hb : TxBelow w a p) {q : TxProc} (hq : w.procs[p]? = some q) : ∀ x ∈ q.ids, x = tx ∨ x = .suppressed := by
  have hi := TxInv.empty.run hr
  intro x hx
  rcases below_var hi hc hv hb q hq with h | h
  · exact .inl (hi.inherited p q tx hq h x hx)
  · exact .inr (hi.inherited p q _ hq h x hx)

/-- **C96.** What the processes of a command record, which it started with its id, has this id. -/
theorem member_one_transaction {acts : List TxAction} {w : TxWorld} (hr : TxWorld.empty.run acts = some w)
    (hs : SmallIds w) {o : Nat} {c : TxProc} (hc : w.procs[o]? = some c) {tx : TxId} (hids : ∀ x ∈ c.ids, x = tx)
    (htx : tx ∈ c.ids) {p : Nat} (hp : TxMember w o tx p) {q : TxProc} (hq : w.procs[p]? = some q) :
    ∀ x ∈ q.ids, x = tx ∨ x = .suppressed := by
  have hi := TxInv.empty.run hr
  rcases hp with rfl | ⟨i, d, h1, h2, h3, h4⟩
  · rw [hc] at hq
    cases hq
    exact fun x hx => .inl (hids x hx)
  · refine family_one_transaction hr h1 ?_ h4 hq
    rw [h3]
    exact txId_text_roundtrip tx (ids_fit hi hs hc htx)

/-- In a test nothing is recorded, whatever is run. -/
theorem suppressed_family {acts : List TxAction} {w : TxWorld} (hr : TxWorld.empty.run acts = some w) {a : Nat}
    {c : TxProc} (hc : w.procs[a]? = some c) (hv : c.var = some TxId.suppressed.toText) {p : Nat} (hb : TxBelow w a p)
    {w' : TxWorld} {events : List Event} (h : w.step (.record p events) = some w') (r : Nat) : w'.log r = w.log r := by
  have hi := TxInv.empty.run hr
  simp only [TxWorld.step] at h
  split at h
  · cases h
  · rename_i q hq
    split at h
    · rename_i hev
      cases h
      have hall : ∀ e ∈ events, e.txId = .suppressed := by
        intro e he
        have := family_one_transaction hr hc (tx := .suppressed) (by rw [hv]; rfl) hb hq e.txId
          (by simpa using List.all_eq_true.1 hev e he)
        rcases this with h | h <;> exact h
      rw [log_record hi q events r]
      have : storable events = [] := by
        unfold storable
        rw [List.filter_eq_nil_iff]
        intro e he
        simp [hall e he]
      rw [this]
      simp
    · cases h

/-- Where an id in the environment comes from. -/
theorem var_origin {w : TxWorld} (hi : TxInv w) (hs : SmallIds w) (hh : StaysHome w) (hu : VarUnset w) {n : Int} :
    ∀ (p : Nat) (q : TxProc), w.procs[p]? = some q → q.var.bind TxId.parse = some (.id n) →
      ∃ (o : Nat) (c : TxProc), w.procs[o]? = some c ∧ c.repo = q.repo ∧ c.var.bind TxId.parse = none ∧ .id n ∈ c.ids ∧
        TxBelow w o p := by
  intro p
  induction p using Nat.strongRecOn with
  | ind p ih =>
    intro q hq hv
    cases hp : q.parent with
    | none =>
      rw [hu p q hq hp] at hv
      cases hv
    | some j =>
      obtain ⟨hj, q1, hq1, h3⟩ := hi.parent p q hq j hp
      have hrepo := hh p j q q1 hq hp hq1
      have up : q1.var.bind TxId.parse = some (.id n) →
          ∃ (o : Nat) (c : TxProc), w.procs[o]? = some c ∧ c.repo = q.repo ∧ c.var.bind TxId.parse = none ∧
            .id n ∈ c.ids ∧ TxBelow w o p := by
        intro hv1
        obtain ⟨o, c, g1, g2, g3, g4, g5⟩ := ih j hj q1 hq1 hv1
        exact ⟨o, c, g1, g2.trans hrepo.symm, g3, g4, .child g5 hq hp⟩
      rcases h3 with h3 | ⟨t, ht, h3⟩ | h3
      · rw [h3] at hv
        exact up hv
      · rw [h3] at hv
        have : TxId.parse t.toText = some (.id n) := hv
        rw [txId_text_roundtrip t (ids_fit hi hs hq1 ht)] at this
        cases this
        cases hv1 : q1.var.bind TxId.parse with
        | none => exact ⟨j, q1, hq1, hrepo.symm, hv1, ht, .child .self hq hp⟩
        | some t1 => exact up (by rw [hv1, ← hi.inherited j q1 t1 hq1 hv1 _ ht])
      · rw [h3] at hv
        cases hv

theorem id_origin {w : TxWorld} (hi : TxInv w) (hs : SmallIds w) (hh : StaysHome w) (hu : VarUnset w) {n : Int}
    {p : Nat} {q : TxProc} (hq : w.procs[p]? = some q) (hx : .id n ∈ q.ids) :
    ∃ (o : Nat) (c : TxProc), w.procs[o]? = some c ∧ c.repo = q.repo ∧ c.var.bind TxId.parse = none ∧ .id n ∈ c.ids ∧
      TxBelow w o p := by
  cases hv : q.var.bind TxId.parse with
  | none => exact ⟨p, q, hq, rfl, hv, hx, .self⟩
  | some t =>
    have := hi.inherited p q t hq hv _ hx
    subst this
    exact var_origin hi hs hh hu p q hq hv

/-- **C96.** Each event belongs to one command: there is a process which made its transaction, and all who have this id
in the same repository were started by it (or by those which it started). So transactions of different commands are
different. -/
theorem transaction_of_one_command {acts : List TxAction} {w : TxWorld} (hr : TxWorld.empty.run acts = some w)
    (hs : SmallIds w) (hh : StaysHome w) (hu : VarUnset w) {r : Nat} {e : Event} (he : e ∈ w.log r) :
    ∃ (o : Nat) (c : TxProc), w.procs[o]? = some c ∧ c.repo = r ∧ e.txId ∈ c.ids ∧
      ∀ (p : Nat) (q : TxProc), w.procs[p]? = some q → q.repo = r → e.txId ∈ q.ids → TxBelow w o p := by
  have hi := TxInv.empty.run hr
  obtain ⟨h1, i, d, h2, h3, h4⟩ := hi.recorded r e he
  cases hn : e.txId with
  | suppressed => exact absurd hn h1
  | id n =>
    rw [hn] at h4
    obtain ⟨o, c, g1, g2, g3, g4, g5⟩ := id_origin hi hs hh hu h2 h4
    refine ⟨o, c, g1, g2.trans h3, g4, ?_⟩
    intro p q hq hqr hx
    obtain ⟨o', c', k1, k2, k3, k4, k5⟩ := id_origin hi hs hh hu hq hx
    have : o = o' := hi.once o o' c c' _ g1 k1 g3 k3 (by rw [g2, h3, k2, hqr]) g4 k4
    rw [this]
    exact k5

/-- **C96.** Each event has a transaction with a message, which is found, as for bug reports. -/
theorem event_has_message {acts : List TxAction} {w : TxWorld} (hr : TxWorld.empty.run acts = some w)
    (hs : SmallIds w) (hh : StaysHome w) (hu : VarUnset w) {r : Nat} {e : Event} (he : e ∈ w.log r) :
    ∃ m, (w.dbs r).getTransactionMessage e.txId = some m := by
  have hi := TxInv.empty.run hr
  obtain ⟨h1, i, d, h2, h3, h4⟩ := hi.recorded r e he
  cases hn : e.txId with
  | suppressed => exact absurd hn h1
  | id n =>
    rw [hn] at h4
    obtain ⟨o, c, g1, g2, g3, g4, g5⟩ := id_origin hi hs hh hu h2 h4
    obtain ⟨n', k1, -, -, m, k4⟩ := hi.made o c g1 g3 _ g4
    cases k1
    rw [g2, h3] at k4
    unfold Db.getTransactionMessage
    cases hf : (w.dbs r).txs.find? fun e => e.1 = n with
    | some x => exact ⟨x.2, by simp [hf]⟩
    | none =>
      have := List.find?_eq_none.1 hf _ k4
      simp at this

/-! ### undo goes back to before the command -/

theorem fixEvent_txId {r : Replayer} {e e' : Event} (h : r.fixEvent e = some e') : e'.txId = e.txId := by
  have hf : (r.fixOldOid e).txId = e.txId := by
    unfold Replayer.fixOldOid
    split <;> rfl
  rw [← hf]
  unfold Replayer.fixEvent at h
  split at h
  · split at h
    · cases h
    · cases h
      rename_i heq _ _
      rw [heq]
  · cases h; rfl

theorem foldl_processEvent_events (es : List Event) (tx : TxId) (hes : ∀ e ∈ es, e.txId = tx) (r : Replayer) :
    ∃ F, (es.foldl Replayer.processEvent r).events = r.events ++ F ∧ ∀ e ∈ F, e.txId = tx := by
  induction es generalizing r with
  | nil => exact ⟨[], by simp, by simp⟩
  | cons e es ih =>
    obtain ⟨F, h1, h2⟩ := ih (fun x hx => hes x (List.mem_cons_of_mem _ hx)) (r.processEvent e)
    rw [List.foldl_cons]
    rcases processEvent_events r e with h | ⟨e', he', h⟩
    · exact ⟨F, by rw [h1, h], h2⟩
    · refine ⟨e' :: F, by rw [h1, h]; simp, ?_⟩
      intro x hx
      rcases List.mem_cons.1 hx with rfl | hx
      · rw [fixEvent_txId he']
        exact hes e (List.mem_cons_self ..)
      · exact h2 x hx

theorem fromEvents_txIds (mb : Text) (es : List Event) :
    ∀ x ∈ (Replayer.fromEvents mb es).events, ∃ e ∈ es, x.txId = e.txId := by
  unfold Replayer.fromEvents
  have : ∀ (es : List Event) (r : Replayer), ∀ x ∈ (es.foldl Replayer.processEvent r).events,
      x ∈ r.events ∨ ∃ e ∈ es, x.txId = e.txId := by
    intro es
    induction es with
    | nil => exact fun r x hx => .inl hx
    | cons e es ih =>
      intro r x hx
      rw [List.foldl_cons] at hx
      rcases ih _ x hx with h | ⟨e', h1, h2⟩
      · rcases processEvent_events r e with h' | ⟨e', he', h'⟩
        · rw [h'] at h; exact .inl h
        · rw [h', List.mem_append, List.mem_singleton] at h
          rcases h with h | rfl
          · exact .inl h
          · exact .inr ⟨e, List.mem_cons_self .., fixEvent_txId he'⟩
      · exact .inr ⟨e', List.mem_cons_of_mem _ h1, h2⟩
  intro x hx
  rcases this es _ x hx with h | h
  · cases h
  · exact h

/-- Stepping back over the last transaction. -/
theorem step_back {r : Replayer} {A F : List Event} {tx : TxId} (he : r.events = A ++ F) (hF : ∀ e ∈ F, e.txId = tx)
    (hne : F ≠ []) (hA : ∀ e ∈ A, e.txId ≠ tx) :
    r.advanceCursorByTransaction r.makeDefaultCursor (-1) = .ok ⟨A.length⟩ := by
  obtain ⟨e, h1, h2, h3, h4⟩ := advance_by_transaction_exact r _ (.default) (-1)
  rw [h1, defaultCursor_eq] at *
  simp only [Int.toNat_natCast] at h4
  have hpos : 0 < F.length := List.length_pos_iff.2 hne
  have hlen : r.events.length = A.length + F.length := by rw [he, List.length_append]
  have hb : IsBoundary (r.events.map Event.txId) A.length := by
    by_cases h0 : A.length = 0
    · exact .inl h0
    · refine .inr (.inr ?_)
      have hl : A.length - 1 < A.length := by omega
      rw [List.getElem?_map, List.getElem?_map, he, List.getElem?_append_left hl,
        List.getElem?_append_right (Nat.le_refl _), List.getElem?_eq_getElem hl, Nat.sub_self,
        List.getElem?_eq_getElem hpos]
      simp only [Option.map_some, ne_eq, Option.some.injEq]
      rw [hF _ (List.getElem_mem hpos)]
      exact hA _ (List.getElem_mem hl)
  have hnb : ∀ j, A.length < j → j < r.events.length → ¬ IsBoundary (r.events.map Event.txId) j := by
    rintro j hj1 hj2 (h | h | h)
    · omega
    · rw [List.length_map] at h; omega
    · apply h
      rw [List.getElem?_map, List.getElem?_map, he, List.getElem?_append_right (by omega),
        List.getElem?_append_right (by omega)]
      have a1 : j - 1 - A.length < F.length := by omega
      have a2 : j - A.length < F.length := by omega
      rw [List.getElem?_eq_getElem a1, List.getElem?_eq_getElem a2]
      simp only [Option.map_some, Option.some.injEq]
      rw [hF _ (List.getElem_mem a1), hF _ (List.getElem_mem a2)]
  have hcount : txsStartedBefore (r.events.map Event.txId) r.events.length =
      txsStartedBefore (r.events.map Event.txId) A.length + 1 := by
    have a1 := Replayer.rank_lt (r.events.map Event.txId) (i := A.length) (j := r.events.length) (by omega) hb
    have : txsStartedBefore (r.events.map Event.txId) r.events.length ≤
        txsStartedBefore (r.events.map Event.txId) A.length + 1 := by
      unfold txsStartedBefore
      rw [hlen]
      obtain ⟨k, hk⟩ : ∃ k, F.length = k + 1 := ⟨F.length - 1, by omega⟩
      rw [hk, List.range_add, List.countP_append, List.countP_map]
      rw [Nat.add_comm k 1, List.range_add, List.countP_append]
      have z : List.countP ((fun j => decide (IsBoundary (r.events.map Event.txId) j)) ∘ fun x => A.length + x)
          ((List.range k).map fun x => 1 + x) = 0 := by
        rw [List.countP_eq_zero]
        intro x hx
        simp only [List.mem_map, List.mem_range] at hx
        obtain ⟨y, hy, rfl⟩ := hx
        simp only [Function.comp, decide_eq_true_eq]
        exact hnb _ (by omega) (by omega)
      rw [z]
      have := List.countP_le_length
        (p := (fun j => decide (IsBoundary (r.events.map Event.txId) j)) ∘ fun x => A.length + x) (l := List.range 1)
      simp only [List.length_range] at this
      omega
    omega
  have : e = A.length := boundary_determined _ e A.length h2 hb (by omega)
  rw [this]

/-- What is recorded in a repository, while only those record who use one id. -/
theorem log_run {w w' : TxWorld} (hi : TxInv w) {acts : List TxAction} (h : w.run acts = some w') {r : Nat}
    {P : Event → Prop}
    (hrec : ∀ p es, .record p es ∈ acts → ∀ q, w'.procs[p]? = some q → q.repo = r → (∀ e ∈ es, e.txId ∈ q.ids) →
      ∀ e ∈ es, P e) :
    ∃ F, w'.log r = w.log r ++ F ∧ ∀ e ∈ F, P e ∧ e.txId ≠ .suppressed := by
  induction acts generalizing w with
  | nil => cases h; exact ⟨[], by simp, by simp⟩
  | cons a acts ih =>
    unfold TxWorld.run at h
    rw [List.foldlM_cons] at h
    cases hs : w.step a with
    | none => rw [hs] at h; cases h
    | some w1 =>
      rw [hs] at h
      have hi1 := hi.step hs
      have hgrow := TxGrows.run hi1 h
      obtain ⟨F, h1, h2⟩ := ih hi1 h (fun p es hm => hrec p es (List.mem_cons_of_mem _ hm))
      have key : ∃ F0, w1.log r = w.log r ++ F0 ∧ ∀ e ∈ F0, P e ∧ e.txId ≠ .suppressed := by
        cases a with
        | start repo var => cases hs; exact ⟨[], by simp [TxWorld.log], by simp⟩
        | spawn p repo pass =>
          simp only [TxWorld.step] at hs
          split at hs
          · cases hs
          · split at hs
            · cases hs
            · cases hs; exact ⟨[], by simp [TxWorld.log], by simp⟩
        | makeId p message =>
          simp only [TxWorld.step] at hs
          split at hs
          · cases hs
          · rename_i q hq
            cases hs
            refine ⟨[], ?_, by simp⟩
            rw [List.append_nil]
            unfold TxWorld.log Db.getEvents
            congr 2
            by_cases hr : r = q.repo
            · subst hr
              simp only [Function.update_self]
              unfold Db.makeTransactionId
              split <;> rfl
            · simp only [Function.update_of_ne hr]
        | record p es =>
          simp only [TxWorld.step] at hs
          split at hs
          · cases hs
          · rename_i q hq
            split at hs
            · rename_i hev
              cases hs
              rw [log_record hi q es r]
              refine ⟨_, rfl, ?_⟩
              intro e he
              split at he
              · rename_i hr
                obtain ⟨q', g1, -, g3, -, g5⟩ := hgrow.procs p q hq
                unfold storable at he
                simp only [List.mem_filter, decide_eq_true_eq] at he
                have hev' : ∀ e ∈ es, e.txId ∈ q.ids := by simpa using hev
                exact ⟨hrec p es (List.mem_cons_self ..) q' g1 (g3.trans hr.symm) (fun e he => g5 _ (hev' e he)) e he.1,
                  he.2⟩
              · cases he
            · cases hs
      obtain ⟨F0, k1, k2⟩ := key
      refine ⟨F0 ++ F, by rw [h1, k1, List.append_assoc], ?_⟩
      intro e he
      rcases List.mem_append.1 he with he | he
      · exact k2 e he
      · exact h2 e he

/-- **C96.** A command makes its transaction, and records things, and so do the processes which it starts with this id;
meanwhile nobody else records anything in the repository. If something was recorded then stepping back by one
transaction, as `git undo` does, goes to exactly where the log was before the command. -/
theorem undo_one_command {acts1 acts2 : List TxAction} {w w1 w2 : TxWorld} (hr : TxWorld.empty.run acts1 = some w)
    {o : Nat} {c : TxProc} {message : Text} (ho : w.procs[o]? = some c) (hvar : c.var = none) (hnew : c.ids = [])
    (hmake : w.step (.makeId o message) = some w1) (hrun : w1.run acts2 = some w2)
    (hs : SmallIds w2) (hh : StaysHome w2) (hu : VarUnset w2)
    (honce : ∀ c2, w2.procs[o]? = some c2 → c2.ids.length ≤ 1)
    (hmem : ∀ p es, .record p es ∈ acts2 → ∀ q, w2.procs[p]? = some q → q.repo = c.repo →
      ∃ tx c2, w2.procs[o]? = some c2 ∧ tx ∈ c2.ids ∧ TxMember w2 o tx p)
    (mainBranch : Text) :
    let before := Replayer.fromEvents mainBranch (w.log c.repo)
    let after := Replayer.fromEvents mainBranch (w2.log c.repo)
    (∃ F, w2.log c.repo = w.log c.repo ++ F) ∧ (∃ F, after.events = before.events ++ F) ∧
      (after.events ≠ before.events →
        after.advanceCursorByTransaction after.makeDefaultCursor (-1) = .ok before.makeDefaultCursor) := by
  intro before after
  have hi := TxInv.empty.run hr
  have hi1 := hi.step hmake
  have hi2 := hi1.run hrun
  have hr1 : TxWorld.empty.run (acts1 ++ [.makeId o message]) = some w1 := by
    rw [run_append, hr]
    simp only [Option.bind_some, TxWorld.run, List.foldlM_cons, List.foldlM_nil, hmake]
    rfl
  have hr2 : TxWorld.empty.run (acts1 ++ [.makeId o message] ++ acts2) = some w2 := by
    rw [run_append, hr1]
    exact hrun
  have hg := TxGrows.step hi hmake
  have hg1 := TxGrows.run hi1 hrun
  -- the id
  simp only [TxWorld.step, ho] at hmake
  have hmk : (w.dbs c.repo).makeTransactionId c.var message =
      (.id (max (w.dbs c.repo).seq (maxKey (w.dbs c.repo).txs) + 1),
        { w.dbs c.repo with
          txs := (w.dbs c.repo).txs ++ [(max (w.dbs c.repo).seq (maxKey (w.dbs c.repo).txs) + 1, message)]
          seq := max (w.dbs c.repo).seq (maxKey (w.dbs c.repo).txs) + 1 }) := by
    rw [hvar]; rfl
  rw [hmk] at hmake
  generalize hn : max (w.dbs c.repo).seq (maxKey (w.dbs c.repo).txs) + 1 = n at *
  simp only [Option.some.injEq] at hmake
  have ho1 : w1.procs[o]? = some { c with ids := [.id n] } := by
    rw [← hmake, hnew]
    exact List.getElem?_set_self (List.getElem?_eq_some_iff.1 ho).1
  obtain ⟨c2, ho2, hc2p, hc2r, hc2v, hc2i⟩ := hg1.procs o _ ho1
  have hids : ∀ x ∈ c2.ids, x = .id n := by
    have h1 := honce c2 ho2
    have h2 := hc2i (.id n) (List.mem_singleton.2 rfl)
    intro x hx
    match hl : c2.ids, h1 with
    | [], _ => rw [hl] at hx; cases hx
    | [y], _ =>
      rw [hl] at h2 hx
      rw [List.mem_singleton] at h2 hx
      rw [hx, h2]
  have hlog1 : w1.log c.repo = w.log c.repo := by
    rw [← hmake]
    unfold TxWorld.log Db.getEvents
    simp only [Function.update_self]
  obtain ⟨F, hF1, hF2⟩ := log_run hi1 hrun (r := c.repo) (P := fun e => e.txId = .id n ∨ e.txId = .suppressed) (by
    intro p es hm q hq hqr hev e he
    obtain ⟨tx, c2', k1, k2, k3⟩ := hmem p es hm q hq hqr
    rw [ho2] at k1
    cases k1
    have := hids tx k2
    subst this
    exact member_one_transaction hr2 hs ho2 hids k2 k3 hq _ (hev e he))
  rw [hlog1] at hF1
  have hFtx : ∀ e ∈ F, e.txId = .id n := by
    intro e he
    rcases (hF2 e he).1 with h | h
    · exact h
    · exact absurd h (hF2 e he).2
  -- nothing before has this id
  have hg2 := hg.trans hg1
  have hs0 : SmallIds w := fun r => Int.lt_of_le_of_lt (hg2.seq r) (hs r)
  have hh0 : StaysHome w := by
    intro i j a b ha hp hb
    obtain ⟨a', g1, g2, g3, -⟩ := hg2.procs i a ha
    obtain ⟨b', f1, f2, f3, -⟩ := hg2.procs j b hb
    have := hh i j a' b' g1 (g2.trans hp) f1
    rw [← g3, ← f3, this]
  have hu0 : VarUnset w := by
    intro i a ha hp
    obtain ⟨a', g1, g2, -, g4, -⟩ := hg2.procs i a ha
    rw [← g4]
    exact hu i a' g1 (g2.trans hp)
  have hold : ∀ e ∈ w.log c.repo, e.txId ≠ .id n := by
    intro e he heq
    obtain ⟨-, i, d, k2, k3, k4⟩ := hi.recorded c.repo e he
    rw [heq] at k4
    obtain ⟨o', c', g1, g2, g3, g4, -⟩ := id_origin hi hs0 hh0 hu0 k2 k4
    obtain ⟨n', f1, -, f3, -⟩ := hi.made o' c' g1 g3 _ g4
    cases f1
    rw [g2, k3] at f3
    omega
  obtain ⟨G, hG1, hG2⟩ := foldl_processEvent_events F (.id n) hFtx before
  have hafter : after.events = before.events ++ G := by
    rw [← hG1]
    show (Replayer.fromEvents mainBranch (w2.log c.repo)).events = _
    rw [hF1]
    unfold Replayer.fromEvents
    rw [List.foldl_append]
    rfl
  refine ⟨⟨F, hF1⟩, ⟨G, hafter⟩, ?_⟩
  intro hne
  have hGne : G ≠ [] := fun h0 => hne (by rw [hafter, h0, List.append_nil])
  rw [step_back hafter hG2 hGne, defaultCursor_eq]
  intro e he
  obtain ⟨e0, h1, h2⟩ := fromEvents_txIds mainBranch (w.log c.repo) e he
  rw [h2]
  exact hold e0 h1

end Verif.Props
