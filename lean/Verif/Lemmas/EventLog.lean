import Verif.Model.EventLog
import Verif.Lemmas.Text

namespace Verif

theorem toRow?_eq_none_iff (e : Event) : e.toRow? = none ↔ e.txId = .suppressed := by
  rcases e with ⟨ts, (n | _), a, b⟩ | ⟨ts, (n | _), nm, a, b, m⟩ | ⟨ts, (n | _), a⟩ |
    ⟨ts, (n | _), a⟩ | ⟨ts, (n | _), a⟩ | ⟨ts, (n | _), a, b, m⟩ <;>
    simp [Event.toRow?, Event.txId]

theorem hex_char_iff_ascii : ∀ n, n < 128 →
    ((hexVal? (Char.ofNat n)).isSome = true ↔ Char.ofNat n ∈ t!"0123456789abcdefABCDEF") := by
  decide

theorem hexVal?_isSome_iff (c : Char) :
    (hexVal? c).isSome = true ↔ c ∈ t!"0123456789abcdefABCDEF" := by
  by_cases h : c.toNat < 128
  · have := hex_char_iff_ascii c.toNat h
    rwa [Char.ofNat_toNat] at this
  · constructor
    · intro hs
      unfold hexVal? at hs
      split at hs
      · omega
      · split at hs
        · omega
        · split at hs
          · omega
          · simp at hs
    · intro hm
      exfalso
      have : ∀ d ∈ t!"0123456789abcdefABCDEF", d.toNat < 128 := by decide
      exact h (this c hm)

theorem hexVal?_eq_zero_iff (c : Char) : hexVal? c = some 0 ↔ c = '0' := by
  constructor
  · intro h
    have h1 : c ∈ t!"0123456789abcdefABCDEF" := (hexVal?_isSome_iff c).1 (by simp [h])
    have : ∀ d ∈ t!"0123456789abcdefABCDEF", hexVal? d = some 0 → d = '0' := by decide
    exact this c h1 h
  · rintro rfl; decide

theorem foldl_exec_inserts (db : Db) (p : List Row) (rows : List Row) (h : db.pending = some p) :
    (rows.map Stmt.insert).foldl Db.exec db = { db with pending := some (p ++ rows) } := by
  induction rows generalizing db p with
  | nil => simp [← h]
  | cons r rows ih =>
    simp only [List.map_cons, List.foldl_cons]
    rw [ih _ (p ++ [r]) (by simp [Db.exec, h])]
    simp [Db.exec, h]

theorem addEventsStmts_eq (events : List Event) :
    addEventsStmts events = .begin :: ((events.filterMap Event.toRow?).map Stmt.insert) ++ [.commit] := by
  unfold addEventsStmts
  rw [List.map_filterMap]

/-- Effect of an interrupted `add_events` on the committed rows. -/
theorem addEventsUpTo_eq (db : Db) (hdb : db.pending = none) (events : List Event) (k : Nat) :
    db.addEventsUpTo events k =
      if (events.filterMap Event.toRow?).length + 2 ≤ k then
        { db with rows := db.rows ++ events.filterMap Event.toRow? }
      else db := by
  unfold Db.addEventsUpTo
  rw [addEventsStmts_eq]
  generalize events.filterMap Event.toRow? = rows
  by_cases hk : rows.length + 2 ≤ k
  · rw [List.take_of_length_le (by simp; omega)]
    simp only [hk, ite_true, List.cons_append, List.foldl_cons, List.foldl_append, List.foldl_nil]
    rw [foldl_exec_inserts (db.exec .begin) [] rows (by simp [Db.exec])]
    simp [Db.exec, Db.crash, hdb]
  · simp only [hk, ite_false]
    cases k with
    | zero => simp [Db.crash, ← hdb]
    | succ k =>
      rw [List.cons_append, List.take_succ_cons, List.take_append_of_le_length (by simp; omega),
        ← List.map_take, List.foldl_cons,
        foldl_exec_inserts (db.exec .begin) [] _ (by simp [Db.exec])]
      simp [Db.exec, Db.crash, ← hdb]

theorem addEvents_eq (db : Db) (hdb : db.pending = none) (events : List Event) :
    db.addEvents events = { db with rows := db.rows ++ events.filterMap Event.toRow? } := by
  unfold Db.addEvents
  rw [addEventsStmts_eq]
  generalize events.filterMap Event.toRow? = rows
  simp only [List.cons_append, List.foldl_cons, List.foldl_append, List.foldl_nil]
  rw [foldl_exec_inserts (db.exec .begin) [] rows (by simp [Db.exec])]
  simp [Db.exec, hdb]

theorem le_maxKey_aux (l : List (Int × Text)) (a : Int) :
    a ≤ l.foldl (fun m e => max m e.1) a ∧
      ∀ e ∈ l, e.1 ≤ l.foldl (fun m e => max m e.1) a := by
  induction l generalizing a with
  | nil => simp
  | cons x l ih =>
    have := ih (max a x.1)
    refine ⟨?_, ?_⟩
    · simp only [List.foldl_cons]; have := this.1; omega
    · intro e he
      simp only [List.foldl_cons]
      rcases List.mem_cons.1 he with rfl | he
      · have := this.1; omega
      · exact this.2 e he

theorem le_maxKey {l : List (Int × Text)} {e : Int × Text} (h : e ∈ l) : e.1 ≤ maxKey l :=
  (le_maxKey_aux l 0).2 e h

theorem parse_isSome_iff_raw (s : Text) :
    (MaybeZero.parse s).isSome = true ↔ (parseRawOid s).isSome = true := by
  unfold MaybeZero.parse
  split
  · rename_i h; simp [h]
  · rename_i n h
    have := parseRawOid_lt h
    rw [h]
    by_cases h0 : n = 0 <;> simp [h0, this]

theorem parse_eq_zero_iff_raw (s : Text) :
    MaybeZero.parse s = some .zero ↔ parseRawOid s = some 0 := by
  unfold MaybeZero.parse
  split
  · rename_i h; simp [h]
  · rename_i n h
    have := parseRawOid_lt h
    rw [h]
    by_cases h0 : n = 0 <;> simp [h0, this]

end Verif
