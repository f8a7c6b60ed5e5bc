import Verif.Model.Text

namespace Verif

theorem hexVal?_hexDigit {n : Nat} (h : n < 16) : hexVal? (hexDigit n) = some n := by
  revert n; decide

theorem hexVal?_lt {c : Char} {d : Nat} (h : hexVal? c = some d) : d < 16 := by
  unfold hexVal? at h
  split at h
  · simp at h; omega
  · split at h
    · simp at h; omega
    · split at h
      · simp at h; omega
      · simp at h

@[simp] theorem length_hexDigits (len n : Nat) : (hexDigits len n).length = len := by
  induction len generalizing n with
  | zero => rfl
  | succ len ih => simp [hexDigits, ih]

theorem parseHexFrom_append (acc : Nat) (s t : Text) :
    parseHexFrom acc (s ++ t) = (parseHexFrom acc s).bind fun a => parseHexFrom a t := by
  induction s generalizing acc with
  | nil => rfl
  | cons c s ih =>
    simp only [List.cons_append, parseHexFrom]
    split
    · rfl
    · rw [ih]

theorem parseHexFrom_hexDigits (len acc n : Nat) :
    parseHexFrom acc (hexDigits len n) = some (acc * 16 ^ len + n % 16 ^ len) := by
  induction len generalizing n with
  | zero => simp [hexDigits, parseHexFrom, Nat.mod_one]
  | succ len ih =>
    rw [hexDigits, parseHexFrom_append, ih]
    simp only [Option.bind_some, parseHexFrom, hexVal?_hexDigit (Nat.mod_lt n (by decide : 0 < 16))]
    congr 1
    rw [Nat.pow_succ, Nat.mul_comm (16 ^ len) 16, Nat.mod_mul]
    have : acc * (16 * 16 ^ len) = acc * 16 ^ len * 16 := by
      rw [Nat.mul_comm 16, Nat.mul_assoc]
    rw [this]; omega

theorem parseHexFrom_lt {acc n : Nat} {s : Text} (h : parseHexFrom acc s = some n) :
    n < (acc + 1) * 16 ^ s.length := by
  induction s generalizing acc with
  | nil => simp [parseHexFrom] at h; simp; omega
  | cons c s ih =>
    simp only [parseHexFrom] at h
    split at h
    · simp at h
    · rename_i d hd
      have hd := hexVal?_lt hd
      have := ih h
      simp only [List.length_cons, Nat.pow_succ]
      calc n < (acc * 16 + d + 1) * 16 ^ s.length := this
        _ ≤ ((acc + 1) * 16) * 16 ^ s.length := Nat.mul_le_mul_right _ (by omega)
        _ = (acc + 1) * (16 ^ s.length * 16) := by
          rw [Nat.mul_assoc, Nat.mul_comm 16]

theorem pow160 : (16 : Nat) ^ 40 = 2 ^ 160 := by decide

/-- The last branch of `MaybeZero.parse` is dead. -/
theorem parseRawOid_lt {s : Text} {n : Nat} (h : parseRawOid s = some n) : n < 2 ^ 160 := by
  unfold parseRawOid at h
  split at h
  · simp at h
  · rename_i hl
    split at h
    · simp at h
    · rename_i m hm
      simp at h
      have hlt := parseHexFrom_lt hm
      simp at hlt
      rw [← h, ← pow160]
      have : (16:Nat) ^ 40 = 16 ^ s.length * 16 ^ (40 - s.length) := by
        rw [← Nat.pow_add]; congr 1; omega
      rw [this]
      exact Nat.mul_lt_mul_of_pos_right hlt (Nat.pow_pos (by decide))

theorem parseRawOid_hexDigits {n : Nat} (h : n < 2 ^ 160) :
    parseRawOid (hexDigits 40 n) = some n := by
  unfold parseRawOid
  rw [length_hexDigits, parseHexFrom_hexDigits, Nat.mod_eq_of_lt (pow160 ▸ h)]
  simp

@[simp] theorem MaybeZero.parse_toText (o : MaybeZero) : MaybeZero.parse o.toText = some o := by
  cases o with
  | zero =>
    unfold MaybeZero.parse MaybeZero.toText
    rw [parseRawOid_hexDigits (by decide)]; rfl
  | nonZero o =>
    unfold MaybeZero.parse MaybeZero.toText Oid.toText
    rw [parseRawOid_hexDigits o.lt]
    simp [Nat.ne_of_gt o.pos, o.lt]

@[simp] theorem Oid.parse_maybeZero_toText (o : Oid) :
    MaybeZero.parse o.toText = some (.nonZero o) :=
  MaybeZero.parse_toText (.nonZero o)

@[simp] theorem Oid.parse_toText (o : Oid) : Oid.parse o.toText = some o := by
  simp [Oid.parse, MaybeZero.toNonZero?]

theorem Oid.toText_injective {a b : Oid} (h : a.toText = b.toText) : a = b := by
  have := Oid.parse_toText a
  rw [h, Oid.parse_toText] at this
  exact (Option.some.inj this).symm

theorem MaybeZero.toText_injective {a b : MaybeZero} (h : a.toText = b.toText) : a = b := by
  have := MaybeZero.parse_toText a
  rw [h, MaybeZero.parse_toText] at this
  exact (Option.some.inj this).symm

@[simp] theorem Oid.length_toText (o : Oid) : o.toText.length = 40 := length_hexDigits _ _

@[simp] theorem MaybeZero.length_toText (o : MaybeZero) : o.toText.length = 40 := by
  cases o <;> simp [MaybeZero.toText]

theorem isSome_parseHexFrom (acc : Nat) (s : Text) :
    (parseHexFrom acc s).isSome ↔ ∀ c ∈ s, (hexVal? c).isSome := by
  induction s generalizing acc with
  | nil => simp [parseHexFrom]
  | cons c s ih =>
    simp only [parseHexFrom, List.mem_cons, forall_eq_or_imp]
    cases h : hexVal? c with
    | none => simp
    | some d => simp [ih]

theorem parseHexFrom_eq_zero {acc : Nat} {s : Text} :
    parseHexFrom acc s = some 0 ↔ acc = 0 ∧ ∀ c ∈ s, hexVal? c = some 0 := by
  induction s generalizing acc with
  | nil => simp [parseHexFrom]
  | cons c s ih =>
    simp only [parseHexFrom, List.mem_cons, forall_eq_or_imp]
    cases h : hexVal? c with
    | none => simp
    | some d =>
      simp only [ih, Option.some.injEq]
      constructor
      · rintro ⟨h1, h2⟩; exact ⟨by omega, by omega, h2⟩
      · rintro ⟨h1, h2, h3⟩; exact ⟨by omega, h3⟩

theorem hexDigit_mem_hexDigits {len n : Nat} {c : Char} (h : c ∈ hexDigits len n) :
    ∃ d, d < 16 ∧ c = hexDigit d := by
  induction len generalizing n with
  | zero => simp [hexDigits] at h
  | succ len ih =>
    simp only [hexDigits, List.mem_append, List.mem_singleton] at h
    rcases h with h | h
    · exact ih h
    · exact ⟨n % 16, Nat.mod_lt _ (by decide), h⟩

/-- No blank, newline or other special character occurs in the text of an object id. -/
theorem hexDigit_ne {d : Nat} (h : d < 16) :
    hexDigit d ≠ ' ' ∧ hexDigit d ≠ '\n' ∧ hexDigit d ≠ '\t' ∧ hexDigit d ≠ '\r' ∧
    hexDigit d ≠ '/' ∧ (hexDigit d).isWhitespace = false ∧ hexDigit d ≠ ':' := by
  revert d; decide

theorem Oid.mem_toText {o : Oid} {c : Char} (h : c ∈ o.toText) : ∃ d, d < 16 ∧ c = hexDigit d :=
  hexDigit_mem_hexDigits h

theorem MaybeZero.mem_toText {o : MaybeZero} {c : Char} (h : c ∈ o.toText) :
    ∃ d, d < 16 ∧ c = hexDigit d := by
  cases o <;> exact hexDigit_mem_hexDigits h

/-! Decimal -/

theorem decVal?_digit {n : Nat} (h : n < 10) : decVal? (Char.ofNat (48 + n)) = some n := by
  revert n; decide

theorem digit_ne_sign {n : Nat} (h : n < 10) :
    Char.ofNat (48 + n) ≠ '-' ∧ Char.ofNat (48 + n) ≠ '+' ∧ Char.ofNat (48 + n) ≠ 'S' := by
  revert n; decide

theorem parseDecFrom_decDigitsAux {fuel n : Nat} (acc : Text) (hf : n < fuel) :
    parseDecFrom 0 (decDigitsAux fuel n acc) = parseDecFrom n acc := by
  induction fuel generalizing n acc with
  | zero => omega
  | succ fuel ih =>
    unfold decDigitsAux
    have hd := decVal?_digit (Nat.mod_lt n (by decide : 0 < 10))
    split
    · simp only [parseDecFrom, hd]; congr 1; omega
    · rw [ih _ (by omega)]
      simp only [parseDecFrom, hd]; congr 1; omega

theorem mem_decDigitsAux {fuel n : Nat} {acc : Text} {c : Char}
    (h : c ∈ decDigitsAux fuel n acc) : c ∈ acc ∨ ∃ d, d < 10 ∧ c = Char.ofNat (48 + d) := by
  induction fuel generalizing n acc with
  | zero => exact .inl h
  | succ fuel ih =>
    unfold decDigitsAux at h
    have key : c ∈ Char.ofNat (48 + n % 10) :: acc →
        c ∈ acc ∨ ∃ d, d < 10 ∧ c = Char.ofNat (48 + d) := by
      intro h
      rcases List.mem_cons.1 h with h | h
      · exact .inr ⟨_, Nat.mod_lt _ (by decide), h⟩
      · exact .inl h
    dsimp only at h
    split at h
    · exact key h
    · rcases ih h with h | h
      · exact key h
      · exact .inr h

theorem decDigitsAux_ne_nil {fuel n : Nat} {acc : Text} (h : 0 < fuel) :
    decDigitsAux fuel n acc ≠ [] := by
  have key : ∀ fuel n (acc : Text), acc ≠ [] → decDigitsAux fuel n acc ≠ [] := by
    intro fuel
    induction fuel with
    | zero => intro n acc h; exact h
    | succ fuel ih =>
      intro n acc _
      unfold decDigitsAux
      dsimp only
      split
      · simp
      · exact ih _ _ (by simp)
  cases fuel with
  | zero => omega
  | succ fuel =>
    unfold decDigitsAux
    dsimp only
    split
    · simp
    · exact key _ _ _ (by simp)

theorem mem_natToText {n : Nat} {c : Char} (h : c ∈ natToText n) :
    ∃ d, d < 10 ∧ c = Char.ofNat (48 + d) := by
  rcases mem_decDigitsAux h with h | h
  · simp at h
  · exact h

theorem natToText_ne_nil (n : Nat) : natToText n ≠ [] := decDigitsAux_ne_nil (by omega)

@[simp] theorem parseDec_natToText (n : Nat) : parseDec (natToText n) = some n := by
  unfold parseDec
  split
  · exact absurd ‹_› (natToText_ne_nil n)
  · unfold natToText; rw [parseDecFrom_decDigitsAux _ (by omega)]; rfl

theorem parseIsize_intToText {i : Int} (h : inIsize i) : parseIsize (intToText i) = some i := by
  unfold parseIsize intToText
  by_cases hi : i < 0
  · simp only [hi, ite_true, parseDec_natToText, Option.map_some, Option.bind_some]
    have : -(i.natAbs : Int) = i := by omega
    rw [this]; simp [h]
  · simp only [hi, ite_false]
    have : (i.natAbs : Int) = i := by omega
    split
    · rename_i ds hs
      have hm : '-' ∈ natToText i.natAbs := by rw [hs]; simp
      obtain ⟨d, hd, e⟩ := mem_natToText hm
      exact absurd e.symm (digit_ne_sign hd).1
    · rename_i ds hs
      have hm : '+' ∈ natToText i.natAbs := by rw [hs]; simp
      obtain ⟨d, hd, e⟩ := mem_natToText hm
      exact absurd e.symm (digit_ne_sign hd).2.1
    · simp [this, h]

theorem intToText_ne_suppressed (i : Int) : intToText i ≠ 'S' :: rest := by
  unfold intToText
  split
  · simp
  · intro h
    have hm : 'S' ∈ natToText i.natAbs := by rw [h]; simp
    obtain ⟨d, hd, e⟩ := mem_natToText hm
    exact absurd e.symm (digit_ne_sign hd).2.2

end Verif
