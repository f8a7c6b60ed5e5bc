import Lean.Parser

/-!
Basic data types shared by all parts of the model: text, object ids, finite maps.
-/

namespace Verif

/-- Text. Rust's `&str`/`String`/`ReferenceName` (git-branchless-lib/src/git/reference.rs:17-80,
a wrapper around `String`) are modelled as lists of characters. -/
abbrev Text := List Char

open Lean in
/-- `t!"abc"` is notation for the list of characters `['a', 'b', 'c']`. -/
macro:max "t!" s:str : term => do
  let cs : Array (TSyntax `term) := (s.getString.toList.map fun c => ⟨Syntax.mkCharLit c⟩).toArray
  `(([$cs,*] : Text))

/-- git-branchless-lib/src/git/oid.rs:9-13 `NonZeroOid`: a SHA-1, i.e. a number of 160 bits
which is not zero (the assertion in oid.rs:99-102 `make_non_zero_oid`).
`git2::Oid` is 20 raw bytes; here they are one big-endian number. -/
structure Oid where
  val : Nat
  pos : 0 < val
  lt : val < 2 ^ 160
deriving DecidableEq

instance : Repr Oid := ⟨fun o _ => repr o.val⟩

/-- git-branchless-lib/src/git/oid.rs:110-117 `MaybeZeroOid`. -/
inductive MaybeZero where
  | zero
  | nonZero (oid : Oid)
deriving DecidableEq, Repr

namespace MaybeZero

/-- oid.rs:211-218 `From<Option<NonZeroOid>> for MaybeZeroOid`. -/
def ofOption : Option Oid → MaybeZero
  | some o => nonZero o
  | none => zero

/-- oid.rs:220-227 `From<MaybeZeroOid> for Option<NonZeroOid>`. -/
def toOption : MaybeZero → Option Oid
  | zero => none
  | nonZero o => some o

@[simp] theorem toOption_ofOption (o : Option Oid) : (ofOption o).toOption = o := by
  cases o <;> rfl

@[simp] theorem ofOption_toOption (o : MaybeZero) : ofOption o.toOption = o := by
  cases o <;> rfl

@[simp] theorem toOption_zero : (zero).toOption = none := rfl
@[simp] theorem toOption_nonZero (o : Oid) : (nonZero o).toOption = some o := rfl

end MaybeZero

/-- Finite maps (`std::collections::HashMap`), as association lists with at most one entry per
key (see `AMap.WF`). Iteration order is an implementation detail of `HashMap`; wherever the
modelled code iterates over one, the model says how the order is treated. -/
abbrev AMap (α β : Type) := List (α × β)

namespace AMap
variable {α β : Type} [DecidableEq α]

/-- `HashMap::get`. -/
def get? (m : AMap α β) (k : α) : Option β :=
  match m with
  | [] => none
  | (k', v) :: m => if k' = k then some v else get? m k

/-- `HashMap::remove` (only the new map). -/
def erase (m : AMap α β) (k : α) : AMap α β :=
  m.filter fun e => e.1 ≠ k

/-- `HashMap::insert`. -/
def insert (m : AMap α β) (k : α) (v : β) : AMap α β :=
  (k, v) :: erase m k

/-- `HashMap::keys`. -/
def keys (m : AMap α β) : List α := m.map Prod.fst

/-- `iter.collect::<HashMap<_, _>>()`: later entries replace earlier ones. -/
def ofList (l : List (α × β)) : AMap α β :=
  l.foldl (fun m e => insert m e.1 e.2) []

/-- No key occurs twice. -/
def WF (m : AMap α β) : Prop := (keys m).Nodup

@[simp] theorem get?_nil (k : α) : get? ([] : AMap α β) k = none := rfl

theorem get?_cons (k' : α) (v : β) (m : AMap α β) (k : α) :
    get? ((k', v) :: m) k = if k' = k then some v else get? m k := rfl

@[simp] theorem get?_erase (m : AMap α β) (k k' : α) :
    get? (erase m k) k' = if k = k' then none else get? m k' := by
  induction m with
  | nil => simp [erase]
  | cons e m ih =>
    obtain ⟨a, b⟩ := e
    simp only [erase, List.filter_cons] at ih ⊢
    by_cases h : a = k
    · subst h
      simp only [ne_eq, not_true_eq_false, decide_false, Bool.false_eq_true, ite_false]
      rw [ih, get?_cons]
      split <;> simp_all
    · simp only [ne_eq, h, not_false_eq_true, decide_true, ite_true, get?_cons]
      rw [ih]
      by_cases h' : a = k'
      · subst h'; simp [Ne.symm h]
      · simp [h']

@[simp] theorem get?_insert (m : AMap α β) (k k' : α) (v : β) :
    get? (insert m k v) k' = if k = k' then some v else get? m k' := by
  unfold insert
  rw [get?_cons, get?_erase]
  split <;> simp_all

theorem mem_keys_iff (m : AMap α β) (k : α) : k ∈ keys m ↔ (get? m k).isSome := by
  induction m with
  | nil => simp [keys]
  | cons e m ih =>
    obtain ⟨a, b⟩ := e
    simp only [keys, List.map_cons, List.mem_cons, get?_cons] at ih ⊢
    by_cases h : a = k
    · simp [h]
    · simp [h, ih, Ne.symm h]

theorem mem_of_get? {m : AMap α β} {k : α} {v : β} (h : get? m k = some v) : (k, v) ∈ m := by
  induction m with
  | nil => simp at h
  | cons e m ih =>
    obtain ⟨a, b⟩ := e
    rw [get?_cons] at h
    split at h
    · simp_all
    · exact List.mem_cons_of_mem _ (ih h)

omit [DecidableEq α] in
theorem wf_nil : WF ([] : AMap α β) := by simp [WF, keys]

theorem wf_erase {m : AMap α β} (h : WF m) (k : α) : WF (erase m k) := by
  unfold WF keys erase at *
  exact h.sublist ((List.filter_sublist).map _)

theorem wf_insert {m : AMap α β} (h : WF m) (k : α) (v : β) : WF (insert m k v) := by
  have h2 := wf_erase h k
  have hk : k ∉ keys (erase m k) := by
    rw [mem_keys_iff, get?_erase]; simp
  unfold WF keys insert at *
  simp only [List.map_cons, List.nodup_cons]
  exact ⟨hk, h2⟩

theorem get?_of_mem {m : AMap α β} (hw : WF m) {k : α} {v : β} (h : (k, v) ∈ m) :
    get? m k = some v := by
  induction m with
  | nil => simp at h
  | cons e m ih =>
    obtain ⟨a, b⟩ := e
    simp only [WF, keys, List.map_cons, List.nodup_cons] at hw
    rw [get?_cons]
    rcases List.mem_cons.1 h with h | h
    · simp_all
    · have : k ∈ List.map Prod.fst m := List.mem_map.2 ⟨_, h, rfl⟩
      have hne : a ≠ k := fun e => hw.1 (e ▸ this)
      simp [hne, ih hw.2 h]

end AMap

/-- `Result` values are compared by their contents (for concrete examples). -/
instance instDecidableEqResult {ε α : Type} [DecidableEq ε] [DecidableEq α] :
    DecidableEq (Except ε α)
  | .ok a, .ok b => if h : a = b then isTrue (by rw [h]) else isFalse (by simpa using h)
  | .error a, .error b => if h : a = b then isTrue (by rw [h]) else isFalse (by simpa using h)
  | .ok _, .error _ => isFalse (by simp)
  | .error _, .ok _ => isFalse (by simp)

end Verif
