import Mathlib.Tactic.Tauto
import Mathlib.Tactic.Push
import Mathlib.Data.List.Basic
import Verif.Spec.Bisect

/-! Lemmas for the bisection library. -/

namespace Verif.Bisect

variable {N : Type} [DecidableEq N]

theorem isAncestor_iff (g : Graph N) (a b : N) : g.isAncestor a b = true ↔ g.Le a b := by
  unfold Graph.isAncestor Graph.Le
  rw [List.contains_iff_mem]

/-! ### Statuses -/

theorem get?_nil (n : N) : Statuses.get? ([] : Statuses N) n = none := rfl

theorem get?_cons (e : N × Status) (m : Statuses N) (n : N) :
    Statuses.get? (e :: m) n = if e.1 = n then some e.2 else Statuses.get? m n := by
  unfold Statuses.get?
  rw [List.find?_cons]
  by_cases h : e.1 = n <;> simp [h]

theorem get?_insert (m : Statuses N) (n k : N) (s : Status) :
    Statuses.get? (Statuses.insert m n s) k = if n = k then some s else Statuses.get? m k := by
  induction m with
  | nil => simp [Statuses.insert, get?_cons, get?_nil]
  | cons e m ih =>
    unfold Statuses.insert
    by_cases h : e.1 = n
    · simp only [h, if_true, get?_cons]
      split <;> rfl
    · simp only [h, if_false, get?_cons, ih]
      by_cases h1 : e.1 = k
      · simp only [h1, if_true]
        rw [if_neg]
        rintro rfl; exact h h1
      · simp [h1]

/-- No key occurs twice. -/
def Statuses.NoDup (m : Statuses N) : Prop := (m.map Prod.fst).Nodup

theorem mem_insert {m : Statuses N} {n : N} {s : Status} {x : N} :
    x ∈ (Statuses.insert m n s).map Prod.fst ↔ x = n ∨ x ∈ m.map Prod.fst := by
  induction m with
  | nil => simp [Statuses.insert]
  | cons e m ih =>
    unfold Statuses.insert
    split
    · rename_i h
      simp only [List.map_cons, List.mem_cons, h]
      tauto
    · simp only [List.map_cons, List.mem_cons, ih]
      tauto

theorem noDup_insert {m : Statuses N} (h : m.NoDup) (n : N) (s : Status) :
    (Statuses.insert m n s).NoDup := by
  induction m with
  | nil => simp [Statuses.insert, Statuses.NoDup]
  | cons e m ih =>
    unfold Statuses.NoDup at *
    simp only [List.map_cons, List.nodup_cons] at h
    unfold Statuses.insert
    split
    · rename_i he
      simp only [List.map_cons, List.nodup_cons]
      exact ⟨he ▸ h.1, h.2⟩
    · rename_i he
      simp only [List.map_cons, List.nodup_cons]
      refine ⟨?_, ih h.2⟩
      rw [mem_insert]
      rintro (h1 | h1)
      · exact he h1
      · exact h.1 h1

theorem mem_withStatus {m : Statuses N} (h : m.NoDup) (s : Status) (n : N) :
    n ∈ m.withStatus s ↔ m.get? n = some s := by
  induction m with
  | nil => simp [Statuses.withStatus, get?_nil]
  | cons e m ih =>
    unfold Statuses.NoDup at h
    simp only [List.map_cons, List.nodup_cons] at h
    have ih := ih h.2
    unfold Statuses.withStatus at *
    rw [get?_cons, List.filterMap_cons]
    by_cases hs : e.2 = s
    · simp only [hs, if_true, List.mem_cons, ih]
      by_cases he : e.1 = n
      · simp [he]
      · simp [he, Ne.symm he]
    · simp only [hs, if_false, ih]
      by_cases he : e.1 = n
      · simp only [he, if_true, Option.some.injEq, hs, iff_false]
        intro hg
        have := (ih).2 hg
        rw [List.mem_filterMap] at this
        obtain ⟨x, hx, hx2⟩ := this
        split at hx2
        · cases hx2
          exact h.1 (List.mem_map.2 ⟨x, hx, he.symm⟩)
        · simp at hx2
      · simp [he]

theorem new_spec (g : Graph N) (nodes : List N) :
    (Search.new g nodes).nodes.NoDup ∧
    ∀ n, (Search.new g nodes).nodes.get? n = if n ∈ nodes then some .untested else none := by
  unfold Search.new
  suffices H : ∀ (m : Statuses N), m.NoDup →
      (nodes.foldl (fun m n => Statuses.insert m n .untested) m).NoDup ∧
      ∀ n, (nodes.foldl (fun m n => Statuses.insert m n .untested) m).get? n =
        if n ∈ nodes then some .untested else m.get? n by
    have := H [] List.nodup_nil
    simpa [get?_nil] using this
  induction nodes with
  | nil => intro m hm; simp [hm]
  | cons x nodes ih =>
    intro m hm
    obtain ⟨h1, h2⟩ := ih (Statuses.insert m x .untested) (noDup_insert hm _ _)
    refine ⟨h1, fun n => ?_⟩
    rw [List.foldl_cons, h2, get?_insert]
    by_cases h : n ∈ nodes
    · simp [h]
    · by_cases hx : x = n
      · simp [hx]
      · simp [h, hx, Ne.symm hx]

/-! ### Heads and roots -/

theorem exists_maximal {R : N → N → Prop} (hrefl : ∀ a, R a a) (htrans : ∀ a b c, R a b → R b c → R a c)
    (hanti : ∀ a b, R a b → R b a → a = b) (nodes : List N) (n : N) (hn : n ∈ nodes) :
    ∃ h ∈ nodes, R n h ∧ ∀ o ∈ nodes, h ≠ o → ¬ R h o := by
  classical
  suffices H : ∀ k, ∀ n ∈ nodes, (nodes.filter fun o => decide (R n o)).length ≤ k →
      ∃ h ∈ nodes, R n h ∧ ∀ o ∈ nodes, h ≠ o → ¬ R h o from H _ n hn (Nat.le_refl _)
  intro k
  induction k with
  | zero =>
    intro n hn hk
    have : n ∈ nodes.filter fun o => decide (R n o) := by simp [hn, hrefl]
    have := List.length_pos_of_mem this
    omega
  | succ k ih =>
    intro n hn hk
    by_cases hmax : ∀ o ∈ nodes, n ≠ o → ¬ R n o
    · exact ⟨n, hn, hrefl n, hmax⟩
    · simp only [not_forall, not_not] at hmax
      obtain ⟨o, ho, hne, hr⟩ := hmax
      have hlt : (nodes.filter fun x => decide (R o x)).length <
          (nodes.filter fun x => decide (R n x)).length := by
        clear ih hk
        have hsub : ∀ l : List N, (l.filter fun x => decide (R o x)).length ≤
            (l.filter fun x => decide (R n x)).length := by
          intro l
          induction l with
          | nil => simp
          | cons y l ihl =>
            simp only [List.filter_cons]
            by_cases h1 : R o y
            · have h2 := htrans _ _ _ hr h1
              simp [h1, h2, ihl]
            · by_cases h2 : R n y <;> simp [h1, h2] <;> omega
        have hno : ¬ R o n := fun h => hne (hanti _ _ hr h)
        have : ∀ l : List N, n ∈ l → (l.filter fun x => decide (R o x)).length <
            (l.filter fun x => decide (R n x)).length := by
          intro l
          induction l with
          | nil => simp
          | cons y l ihl =>
            intro hy
            simp only [List.filter_cons]
            by_cases hyn : y = n
            · subst hyn
              have := hsub l
              simp [hno, hrefl]; omega
            · have hm : n ∈ l := by
                rcases List.mem_cons.1 hy with h | h
                · exact absurd h.symm hyn
                · exact h
              have := ihl hm
              by_cases h1 : R o y
              · have h2 := htrans _ _ _ hr h1
                simp [h1, h2, this]
              · by_cases h2 : R n y <;> simp [h1, h2] <;> omega
        exact this nodes hn
      obtain ⟨h, hh, hrh, hm⟩ := ih o ho (by omega)
      exact ⟨h, hh, htrans _ _ _ hr hrh, hm⟩

theorem mem_heads (g : Graph N) (nodes : List N) (h : N) :
    h ∈ g.ancestorHeads nodes ↔ h ∈ nodes ∧ ∀ o ∈ nodes, h ≠ o → ¬ g.Le h o := by
  unfold Graph.ancestorHeads Graph.Le
  simp only [List.mem_filter, List.all_eq_true, decide_eq_true_eq, Bool.not_eq_true', and_imp,
    List.contains_eq_mem, decide_eq_false_iff_not]

theorem mem_roots {g : Graph N} (hg : g.Lawful) (nodes : List N) (h : N) :
    h ∈ g.descendantRoots nodes ↔ h ∈ nodes ∧ ∀ o ∈ nodes, h ≠ o → ¬ g.Le o h := by
  unfold Graph.descendantRoots
  simp only [List.mem_filter, List.all_eq_true, decide_eq_true_eq, Bool.not_eq_true', and_imp,
    List.contains_eq_mem, decide_eq_false_iff_not, hg.descendants]

/-- The heads imply as much as the whole set. -/
theorem heads_cover {g : Graph N} (hg : g.Lawful) (nodes : List N) (n : N) :
    (∃ h ∈ g.ancestorHeads nodes, g.Le n h) ↔ ∃ x ∈ nodes, g.Le n x := by
  constructor
  · rintro ⟨h, hh, hl⟩
    exact ⟨h, ((mem_heads _ _ _).1 hh).1, hl⟩
  · rintro ⟨x, hx, hl⟩
    obtain ⟨h, hh, hr, hm⟩ := exists_maximal (R := g.Le) hg.refl hg.trans hg.antisymm nodes x hx
    exact ⟨h, (mem_heads _ _ _).2 ⟨hh, hm⟩, hg.trans _ _ _ hl hr⟩

/-- The roots imply as much as the whole set. -/
theorem roots_cover {g : Graph N} (hg : g.Lawful) (nodes : List N) (n : N) :
    (∃ h ∈ g.descendantRoots nodes, g.Le h n) ↔ ∃ x ∈ nodes, g.Le x n := by
  constructor
  · rintro ⟨h, hh, hl⟩
    exact ⟨h, ((mem_roots hg _ _).1 hh).1, hl⟩
  · rintro ⟨x, hx, hl⟩
    obtain ⟨h, hh, hr, hm⟩ := exists_maximal (R := fun a b => g.Le b a) hg.refl
      (fun a b c h1 h2 => hg.trans _ _ _ h2 h1) (fun a b h1 h2 => hg.antisymm _ _ h2 h1) nodes x hx
    exact ⟨h, (mem_roots hg _ _).2 ⟨hh, hm⟩, hg.trans _ _ _ hr hl⟩

/-! ### Undecided nodes -/

/-- Not implied by the bounds. -/
def Bounds.Open (g : Graph N) (b : Bounds N) (n : N) : Prop :=
  (∀ x ∈ b.success, ¬ g.Le n x) ∧ ∀ f ∈ b.failure, ¬ g.Le f n

theorem mem_nodesToSearch {g : Graph N} (hg : g.Lawful) (b : Bounds N) {m : Statuses N} (hm : m.NoDup) (n : N) :
    n ∈ nodesToSearch g b m ↔ m.get? n = some .untested ∧ b.Open g n := by
  unfold nodesToSearch Bounds.Open Graph.ancestorsAll Graph.descendantsAll
  simp only [List.mem_filter, mem_withStatus hm, Bool.and_eq_true, Bool.not_eq_true',
    List.contains_eq_mem, decide_eq_false_iff_not, List.mem_flatMap, not_exists, not_and,
    hg.descendants, Graph.Le]

theorem basicMidpoint_mem {kind : StrategyKind} {g : Graph N} {b : Bounds N} {m : Statuses N} {n : N}
    (h : basicMidpoint kind g b m = some n) : n ∈ nodesToSearch g b m := by
  unfold basicMidpoint at h
  cases kind with
  | linear => exact List.mem_of_head? h
  | linearReverse => exact List.mem_of_getLast? h
  | binary =>
    simp only at h
    split at h
    · exact List.mem_of_getElem? h
    · simp at h

theorem basicMidpoint_none {kind : StrategyKind} {g : Graph N} {b : Bounds N} {m : Statuses N} :
    basicMidpoint kind g b m = none ↔ nodesToSearch g b m = [] := by
  unfold basicMidpoint
  cases kind with
  | linear => simp
  | linearReverse => simp
  | binary =>
    simp only
    constructor
    · intro h
      split at h
      · rename_i hlt
        rw [List.getElem?_eq_none_iff] at h; omega
      · rename_i hlt
        cases hn : nodesToSearch g b m with
        | nil => rfl
        | cons x xs => rw [hn] at hlt; simp only [List.length_cons] at hlt; omega
    · intro h; simp [h]

theorem bounds_open_iff {s : Search N} (hg : s.graph.Lawful) (hm : s.nodes.NoDup) (n : N) :
    s.bounds.Open s.graph n ↔ (∀ x, s.reported x .success → ¬ s.graph.Le n x) ∧
      ∀ f, s.reported f .failure → ¬ s.graph.Le f n := by
  unfold Bounds.Open Search.bounds Search.successBounds Search.failureBounds Search.reported
  have h1 := heads_cover hg (s.nodes.withStatus .success) n
  have h2 := roots_cover hg (s.nodes.withStatus .failure) n
  simp only [mem_withStatus hm] at h1 h2
  simp only
  constructor
  · rintro ⟨a, b⟩
    refine ⟨fun x hx hl => ?_, fun f hf hl => ?_⟩
    · obtain ⟨h, hh, hl⟩ := h1.2 ⟨x, hx, hl⟩; exact a h hh hl
    · obtain ⟨h, hh, hl⟩ := h2.2 ⟨f, hf, hl⟩; exact b h hh hl
  · rintro ⟨a, b⟩
    refine ⟨fun x hx hl => ?_, fun f hf hl => ?_⟩
    · obtain ⟨h, hh, hl⟩ := h1.1 ⟨x, hx, hl⟩; exact a h hh hl
    · obtain ⟨h, hh, hl⟩ := h2.1 ⟨f, hf, hl⟩; exact b h hh hl

theorem undecided_iff {s : Search N} (hg : s.graph.Lawful) (hm : s.nodes.NoDup) (n : N) :
    s.Undecided n ↔ n ∈ nodesToSearch s.graph s.bounds s.nodes := by
  rw [mem_nodesToSearch hg _ hm, bounds_open_iff hg hm]
  rfl

/-- Adding a node to the success bounds. -/
theorem open_success {g : Graph N} (hg : g.Lawful) (b : Bounds N) (m n : N) :
    Bounds.Open g ⟨g.ancestorHeads (b.success.insert m), b.failure⟩ n ↔ b.Open g n ∧ ¬ g.Le n m := by
  unfold Bounds.Open
  have h := heads_cover hg (b.success.insert m) n
  simp only [List.mem_insert_iff] at h
  constructor
  · rintro ⟨h1, h2⟩
    have h3 : ¬ ∃ x, (x = m ∨ x ∈ b.success) ∧ g.Le n x := by
      rw [← h]; rintro ⟨y, hy, hl⟩; exact h1 y hy hl
    exact ⟨⟨fun x hx hl => h3 ⟨x, .inr hx, hl⟩, h2⟩, fun hl => h3 ⟨m, .inl rfl, hl⟩⟩
  · rintro ⟨⟨h1, h2⟩, h3⟩
    refine ⟨fun x hx hl => ?_, h2⟩
    obtain ⟨y, hy, hl⟩ := h.1 ⟨x, hx, hl⟩
    rcases hy with rfl | hy
    · exact h3 hl
    · exact h1 y hy hl

/-- Adding a node to the failure bounds. -/
theorem open_failure {g : Graph N} (hg : g.Lawful) (b : Bounds N) (m n : N) :
    Bounds.Open g ⟨b.success, g.descendantRoots (b.failure.insert m)⟩ n ↔ b.Open g n ∧ ¬ g.Le m n := by
  unfold Bounds.Open
  have h := roots_cover hg (b.failure.insert m) n
  simp only [List.mem_insert_iff] at h
  constructor
  · rintro ⟨h1, h2⟩
    have h3 : ¬ ∃ x, (x = m ∨ x ∈ b.failure) ∧ g.Le x n := by
      rw [← h]; rintro ⟨y, hy, hl⟩; exact h2 y hy hl
    exact ⟨⟨h1, fun x hx hl => h3 ⟨x, .inr hx, hl⟩⟩, fun hl => h3 ⟨m, .inl rfl, hl⟩⟩
  · rintro ⟨⟨h1, h2⟩, h3⟩
    refine ⟨h1, fun x hx hl => ?_⟩
    obtain ⟨y, hy, hl⟩ := h.1 ⟨x, hx, hl⟩
    rcases hy with rfl | hy
    · exact h3 hl
    · exact h2 y hy hl

end Verif.Bisect
