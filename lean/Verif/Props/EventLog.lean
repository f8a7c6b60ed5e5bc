import Verif.Lemmas.EventLog

/-!
Properties C01 (stored events are read back unchanged), C02 (the log is an append-only,
all-or-nothing journal) and C03 (transaction ids).
-/

namespace Verif.Props

open Verif

/-- Some object ids for the examples. -/
def oidA : Oid := ⟨0xaa, by decide, by decide⟩
def oidB : Oid := ⟨0xbb, by decide, by decide⟩
def oidC : Oid := ⟨0xcc, by decide, by decide⟩

/-! ## C01 -/

/-- C01: writing any event that is not suppressed and reading it back gives the same event. -/
theorem event_row_roundtrip (e : Event) (h : e.txId ≠ .suppressed) :
    ∃ row, e.toRow? = some row ∧ row.toEvent? = some e := by
  rcases e with ⟨ts, (n | _), a, b⟩ | ⟨ts, (n | _), nm, a, b, m⟩ | ⟨ts, (n | _), a⟩ |
    ⟨ts, (n | _), a⟩ | ⟨ts, (n | _), a⟩ | ⟨ts, (n | _), a, b, m⟩ <;>
    simp_all [Event.toRow?, Event.txId, Row.toEvent?, getOid, MaybeZero.toNonZero?]

example : (Event.refUpdate 5 (.id (-3)) t!"refs/heads/x" .zero (.nonZero oidA) (some t!"m")).txId
    ≠ .suppressed := by decide

/-- A text which denotes an object id: one to forty hexadecimal digits. -/
def OidText (s : Text) : Prop :=
  1 ≤ s.length ∧ s.length ≤ 40 ∧ ∀ c ∈ s, c ∈ t!"0123456789abcdefABCDEF"

/-- A text which denotes an object id that is not the zero id. -/
def NonZeroOidText (s : Text) : Prop := OidText s ∧ ∃ c ∈ s, c ≠ '0'

/-- Which database rows are acceptable, in terms of their columns only. -/
def RowOk (r : Row) : Prop :=
  (r.type_ = t!"rewrite" ∧ (∃ s, r.ref1 = some s ∧ OidText s) ∧ (∃ s, r.ref2 = some s ∧ OidText s)) ∨
  (r.type_ = t!"ref-move" ∧ (∃ n, r.refName = some n) ∧
    (∃ s, r.ref1 = some s ∧ OidText s) ∧ (∃ s, r.ref2 = some s ∧ OidText s)) ∨
  ((r.type_ = t!"commit" ∨ r.type_ = t!"hide" ∨ r.type_ = t!"unhide") ∧
    (∃ s, r.ref1 = some s ∧ NonZeroOidText s)) ∨
  (r.type_ = t!"snapshot" ∧ (∃ s, r.ref1 = some s ∧ OidText s) ∧
    (∃ s, r.ref2 = some s ∧ NonZeroOidText s))

theorem isSome_parse_iff (s : Text) : (MaybeZero.parse s).isSome = true ↔ OidText s := by
  rw [parse_isSome_iff_raw]
  unfold parseRawOid OidText
  have h := isSome_parseHexFrom 0 s
  simp only [hexVal?_isSome_iff] at h
  rw [← h]
  by_cases hl : s.length = 0 ∨ s.length > 40
  · simp only [hl, ite_true, Option.isSome_none, Bool.false_eq_true, false_iff]; omega
  · simp only [hl, ite_false]
    cases parseHexFrom 0 s <;> simp <;> omega

theorem parse_zero_iff (s : Text) (h : OidText s) :
    MaybeZero.parse s = some .zero ↔ ∀ c ∈ s, c = '0' := by
  rw [parse_eq_zero_iff_raw]
  unfold parseRawOid
  have h1 := h.1
  have h2 := h.2.1
  have h3 := (parseHexFrom_eq_zero (acc := 0) (s := s))
  simp only [hexVal?_eq_zero_iff] at h3
  have hl : ¬ (s.length = 0 ∨ s.length > 40) := by omega
  simp only [hl, ite_false]
  cases hp : parseHexFrom 0 s with
  | none => simp [hp] at h3 ⊢; exact h3
  | some n =>
    have : 0 < 16 ^ (40 - s.length) := Nat.pow_pos (by decide)
    simp [hp] at h3 ⊢
    rw [← h3, Nat.mul_eq_zero]; omega

theorem isSome_nonZero_iff (s : Text) :
    ((MaybeZero.parse s).bind MaybeZero.toNonZero?).isSome = true ↔ NonZeroOidText s := by
  unfold NonZeroOidText
  rw [← isSome_parse_iff]
  cases h : MaybeZero.parse s with
  | none => simp
  | some z =>
    have ho : OidText s := (isSome_parse_iff s).1 (by simp [h])
    have hz := parse_zero_iff s ho
    rw [h] at hz
    cases z with
    | zero => simpa [MaybeZero.toNonZero?] using hz
    | nonZero o => simpa [MaybeZero.toNonZero?] using hz
/-- C01: a row is accepted exactly if its kind is known and the columns needed by the kind are
present and well-formed; in particular unknown kinds, missing columns, malformed ids, and zero ids
where a commit is required are rejected. -/
theorem row_accepted_iff (r : Row) : r.toEvent?.isSome = true ↔ RowOk r := by
  obtain ⟨ts, ty, tx, ref1, ref2, nm, msg⟩ := r
  have hp : ∀ s, OidText s ↔ ∃ z, MaybeZero.parse s = some z := fun s => by
    rw [← isSome_parse_iff, Option.isSome_iff_exists]
  have hn : ∀ s, NonZeroOidText s ↔ ∃ o, (MaybeZero.parse s).bind MaybeZero.toNonZero? = some o :=
    fun s => by rw [← isSome_nonZero_iff, Option.isSome_iff_exists]
  unfold Row.toEvent? RowOk
  simp only [Option.isSome_iff_exists, hp, hn]
  by_cases h1 : ty = t!"rewrite"
  · subst h1
    cases ref1 <;> cases ref2 <;> simp [getOid, Option.bind_eq_some_iff] <;> grind
  by_cases h2 : ty = t!"ref-move"
  · subst h2
    cases ref1 <;> cases ref2 <;> cases nm <;> simp [Option.bind_eq_some_iff] <;> grind
  by_cases h3 : ty = t!"commit"
  · subst h3
    cases ref1 <;> simp [getOid, Option.bind_eq_some_iff] <;> grind
  by_cases h4 : ty = t!"hide"
  · subst h4
    cases ref1 <;> simp [getOid, Option.bind_eq_some_iff] <;> grind
  by_cases h5 : ty = t!"unhide"
  · subst h5
    cases ref1 <;> simp [getOid, Option.bind_eq_some_iff] <;> grind
  by_cases h6 : ty = t!"snapshot"
  · subst h6
    cases ref1 <;> cases ref2 <;> simp [getOid, Option.bind_eq_some_iff] <;> grind
  simp [h1, h2, h3, h4, h5, h6]

example : RowOk ⟨1, t!"hide", 2, some t!"00ab", none, none, none⟩ :=
  .inr (.inr (.inl ⟨.inr (.inl rfl), _, rfl, ⟨by decide, by decide, by decide⟩, 'a', by decide⟩))
example : ¬ RowOk ⟨1, t!"hide", 2, some t!"0000", none, none, none⟩ := by
  rw [← row_accepted_iff]; decide
example : ¬ RowOk ⟨1, t!"move", 2, some t!"01", some t!"01", none, none⟩ := by
  rw [← row_accepted_iff]; decide

/-- C01: an accepted row yields an event with the row's time and transaction. -/
theorem row_keeps_transaction (r : Row) (e : Event) (h : r.toEvent? = some e) :
    e.txId = .id r.txId := by
  obtain ⟨ts, ty, tx, ref1, ref2, nm, msg⟩ := r
  unfold Row.toEvent? at h
  simp only at h
  repeat' split at h
  all_goals (simp [Option.bind_eq_some_iff] at h)
  all_goals grind [Event.txId]

example : (⟨1, t!"hide", 2, some t!"00ab", none, none, none⟩ : Row).toEvent?.isSome := by decide

/-! ## C02 -/

/-- The events that are recorded when storing `es`: all but the suppressed ones. -/
def storable (es : List Event) : List Event := es.filter fun e => e.txId ≠ .suppressed

theorem mapM_toEvent_filterMap (es : List Event) :
    (es.filterMap Event.toRow?).mapM Row.toEvent? = some (storable es) := by
  induction es with
  | nil => rfl
  | cons e es ih =>
    by_cases h : e.txId = .suppressed
    · have := (toRow?_eq_none_iff e).2 h
      rw [List.filterMap_cons_none this, ih]; simp [storable, h]
    · obtain ⟨row, h1, h2⟩ := event_row_roundtrip e h
      rw [List.filterMap_cons_some h1, List.mapM_cons, h2, ih]; simp [storable, h]

theorem length_storable (es : List Event) :
    (storable es).length = (es.filterMap Event.toRow?).length := by
  induction es with
  | nil => rfl
  | cons e es ih =>
    by_cases h : e.txId = .suppressed
    · have := (toRow?_eq_none_iff e).2 h
      rw [List.filterMap_cons_none this, ← ih]; simp [storable, h]
    · obtain ⟨row, h1, h2⟩ := event_row_roundtrip e h
      rw [List.filterMap_cons_some h1]; simp [storable, h] at ih ⊢; exact ih

theorem getEvents_append {db : Db} {es : List Event} (h : db.getEvents = some es)
    (new : List Event) :
    ({ db with rows := db.rows ++ new.filterMap Event.toRow? } : Db).getEvents
      = some (es ++ storable new) := by
  unfold Db.getEvents at *
  rw [List.mapM_append, h, mapM_toEvent_filterMap]; rfl

/-- What one call of `add_events`, cut short after `k` database statements, contributes to the
log: everything if the call got to execute all its statements (one to open the transaction, one
per recorded event, one to commit), otherwise nothing. -/
def contribution (es : List Event) (k : Nat) : List Event :=
  if (storable es).length + 2 ≤ k then storable es else []

/-- C02: after any sequence of `add_events` calls, each cut short at an arbitrary statement (or
not at all), the log reads as the old log followed by the contributions of the calls in order. -/
theorem add_events_journal (db : Db) (es : List Event) (hidle : db.pending = none)
    (h : db.getEvents = some es) (calls : List (List Event × Nat)) :
    (calls.foldl (fun db c => db.addEventsUpTo c.1 c.2) db).getEvents
      = some (es ++ calls.flatMap fun c => contribution c.1 c.2) := by
  induction calls generalizing db es with
  | nil => simpa using h
  | cons c calls ih =>
    simp only [List.foldl_cons, List.flatMap_cons]
    rw [addEventsUpTo_eq db hidle, ← length_storable]
    unfold contribution
    split
    · rw [ih { db with rows := db.rows ++ c.1.filterMap Event.toRow? } (es ++ storable c.1) hidle
        (getEvents_append h _)]
      simp [contribution, List.append_assoc]
    · rw [ih db es hidle h]; simp [contribution]

/-- C02: a call that is not interrupted records all of its events, in order, at the end. -/
theorem add_events_appends (db : Db) (es new : List Event) (hidle : db.pending = none)
    (h : db.getEvents = some es) :
    (db.addEvents new).getEvents = some (es ++ storable new) ∧ (db.addEvents new).pending = none := by
  rw [addEvents_eq db hidle]
  exact ⟨getEvents_append h new, hidle⟩

/-- C02: at every moment inside a call (after any number of its statements) a reader sees either
the log before the call or the complete log after it. -/
theorem add_events_never_partial (db : Db) (es new : List Event) (hidle : db.pending = none)
    (h : db.getEvents = some es) (k : Nat) :
    (((addEventsStmts new).take k).foldl Db.exec db).getEvents = some es ∨
    (((addEventsStmts new).take k).foldl Db.exec db).getEvents = some (es ++ storable new) := by
  have e : (((addEventsStmts new).take k).foldl Db.exec db).getEvents
      = (db.addEventsUpTo new k).getEvents := rfl
  rw [e, addEventsUpTo_eq db hidle]
  split
  · exact .inr (getEvents_append h new)
  · exact .inl h

/-- Non-vacuity for C02: a log with one entry, then one complete and one interrupted call. -/
example : (({} : Db).addEvents [.commit 1 (.id 1) oidA]).getEvents = some [.commit 1 (.id 1) oidA]
    ∧ (({} : Db).addEvents [.commit 1 (.id 1) oidA]).pending = none
    ∧ contribution [.commit 2 (.id 2) oidB, .commit 2 .suppressed oidB] 3 = [.commit 2 (.id 2) oidB]
    ∧ contribution [.commit 2 (.id 2) oidB] 2 = [] := by decide

/-! ## C03 -/

/-- C03: passing a transaction id through the environment variable preserves it. -/
theorem txId_text_roundtrip (tx : TxId) (h : ∀ n, tx = .id n → inIsize n) :
    TxId.parse tx.toText = some tx := by
  cases tx with
  | suppressed => rfl
  | id n =>
    unfold TxId.parse TxId.toText
    simp only [intToText_ne_suppressed, ite_false, parseIsize_intToText (h n rfl), Option.map_some]

example : TxId.parse (TxId.id (-42)).toText = some (.id (-42)) := by decide
example : inIsize (-42) := by decide

/-- C03: a subprocess started with the variable set to a transaction id uses that id and does not
create a new one. -/
theorem make_transaction_id_inherits (db : Db) (tx : TxId) (h : ∀ n, tx = .id n → inIsize n)
    (msg : Text) : db.makeTransactionId (some tx.toText) msg = (tx, db) := by
  unfold Db.makeTransactionId
  simp [txId_text_roundtrip tx h]

/-- C03: events recorded under the suppressed transaction never reach the log. -/
theorem suppressed_transaction_records_nothing (db : Db) (hidle : db.pending = none)
    (events : List Event) (h : ∀ e ∈ events, e.txId = .suppressed) :
    db.addEvents events = db := by
  rw [addEvents_eq db hidle]
  have : events.filterMap Event.toRow? = [] := by
    rw [List.filterMap_eq_nil_iff]
    exact fun e he => (toRow?_eq_none_iff e).2 (h e he)
  simp [this]

example : ∀ e ∈ [Event.commit 1 .suppressed oidA], e.txId = .suppressed := by decide

/-- Operations on the table of transactions: a new one, and (hypothetical, see the comment at
eventlog.rs:501-504) deletion of arbitrary rows. -/
inductive TxOp where
  | make (env : Option Text) (message : Text)
  | delete (keep : Int × Text → Bool)

/-- Run operations, collecting the ids of newly created transactions. -/
def runTxOps : Db → List TxOp → List Int × Db
  | db, [] => ([], db)
  | db, .make env msg :: ops =>
    let (tx, db') := db.makeTransactionId env msg
    let (ids, db'') := runTxOps db' ops
    match env.bind TxId.parse, tx with
    | none, .id n => (n :: ids, db'')
    | _, _ => (ids, db'')
  | db, .delete keep :: ops => runTxOps { db with txs := db.txs.filter keep } ops

theorem runTxOps_gt (ops : List TxOp) (db : Db) :
    ∀ n ∈ (runTxOps db ops).1, db.seq < n := by
  induction ops generalizing db with
  | nil => simp [runTxOps]
  | cons op ops ih =>
    cases op with
    | delete keep => exact ih { db with txs := db.txs.filter keep }
    | make env msg =>
      unfold runTxOps Db.makeTransactionId
      cases h : env.bind TxId.parse with
      | some tx => simpa using ih db
      | none =>
        simp only [List.mem_cons, forall_eq_or_imp]
        refine ⟨by omega, fun n hn => ?_⟩
        have := ih _ n hn
        simp only at this
        omega

/-- C03: the ids of all transactions ever created in a log are distinct - in fact increasing -
whatever rows are deleted in between. -/
theorem fresh_transaction_ids (db : Db) (ops : List TxOp) :
    (runTxOps db ops).1.Pairwise (· < ·) := by
  induction ops generalizing db with
  | nil => simp [runTxOps]
  | cons op ops ih =>
    cases op with
    | delete keep => exact ih { db with txs := db.txs.filter keep }
    | make env msg =>
      unfold runTxOps
      cases h : env.bind TxId.parse with
      | some tx =>
        simp only [Db.makeTransactionId, h]
        exact ih db
      | none =>
        simp only [Db.makeTransactionId, h, List.pairwise_cons]
        refine ⟨fun n hn => ?_, ih _⟩
        exact runTxOps_gt ops _ n hn

/-- C03: a new id also differs from the keys already present in the table. -/
theorem fresh_transaction_id_not_present (db : Db) (env : Option Text) (msg : Text)
    (h : env.bind TxId.parse = none) :
    ∃ n, (db.makeTransactionId env msg).1 = .id n ∧ ∀ e ∈ db.txs, e.1 < n := by
  refine ⟨max db.seq (maxKey db.txs) + 1, by simp [Db.makeTransactionId, h], fun e he => ?_⟩
  have := le_maxKey he
  omega

/-- C03: the message given on creation is the one found later, until rows are deleted. -/
theorem transaction_message_found (db : Db) (env : Option Text) (msg : Text)
    (h : env.bind TxId.parse = none) :
    let r := db.makeTransactionId env msg
    r.2.getTransactionMessage r.1 = some msg := by
  simp only [Db.makeTransactionId, h, Db.getTransactionMessage]
  rw [List.find?_append]
  have : db.txs.find? (fun e => decide (e.1 = max db.seq (maxKey db.txs) + 1)) = none := by
    rw [List.find?_eq_none]
    intro e he
    have := le_maxKey he
    simp only [decide_eq_true_eq]; omega
  rw [this]
  simp

example : (runTxOps {} [.make none t!"a", .make (some t!"x") t!"b", .delete (fun _ => false),
    .make (some t!"7") t!"c", .make none t!"d"]).1 = [1, 2, 3] := by decide

end Verif.Props
