import Verif.Spec.Tree
import Verif.Lemmas.List

/-!
Lemmas about trees: writing entries, and the paths which differ.
-/

namespace Verif.Spec

open Verif

theorem get?_append {α β : Type} [DecidableEq α] (l m : AMap α β) (k : α) :
    AMap.get? (l ++ m) k = (AMap.get? l k).or (AMap.get? m k) := by
  induction l with
  | nil => simp
  | cons e l ih =>
    obtain ⟨a, b⟩ := e
    rw [List.cons_append, AMap.get?_cons, AMap.get?_cons]
    split
    · simp
    · exact ih

theorem get?_eq_none_iff {α β : Type} [DecidableEq α] (m : AMap α β) (k : α) :
    AMap.get? m k = none ↔ k ∉ AMap.keys m := by
  rw [AMap.mem_keys_iff]
  cases AMap.get? m k <;> simp

@[simp] theorem inside_nil (x : Node) : inside x [] = some x := by cases x <;> rfl

@[simp] theorem inside_leaf (m : Nat) (o : Oid) (n : Text) (p : TreePath) :
    inside (.leaf m o) (n :: p) = none := rfl

theorem inside_dir (m : Nat) (es : Tree) (n : Text) (p : TreePath) :
    inside (.dir m es) (n :: p) = (AMap.get? es n).bind (inside · p) := by
  rw [inside]
  cases AMap.get? es n <;> rfl

theorem inside_append (x : Node) (p q : TreePath) :
    inside x (p ++ q) = (inside x p).bind (inside · q) := by
  induction p generalizing x with
  | nil => simp
  | cons n p ih =>
    cases x with
    | leaf m o => rfl
    | dir m es =>
      rw [List.cons_append, inside_dir, inside_dir]
      cases AMap.get? es n with
      | none => rfl
      | some y => exact ih y

theorem nodeAt_cons (t : Tree) (n : Text) (p : TreePath) :
    nodeAt t (n :: p) = (AMap.get? t n).bind (inside · p) := inside_dir _ _ _ _

theorem getPath_eq (t : Tree) (p : TreePath) (h : p ≠ []) : getPath t p = nodeAt t p := by
  induction p generalizing t with
  | nil => exact absurd rfl h
  | cons n p ih =>
    cases p with
    | nil =>
      rw [nodeAt_cons, getPath]
      cases AMap.get? t n <;> simp
    | cons m p =>
      rw [nodeAt_cons, getPath]
      cases hg : AMap.get? t n with
      | none => rfl
      | some x =>
        cases x with
        | leaf => rfl
        | dir k es =>
          simp only [Option.bind_some]
          rw [ih es (by simp)]
          rfl

theorem get?_removeEntryIfExists (b : Tree) (n m : Text) :
    AMap.get? (removeEntryIfExists b n) m = if n = m then none else AMap.get? b m := by
  unfold removeEntryIfExists
  split
  · simp
  · rename_i h
    split
    · rename_i e; subst e; simpa using h
    · rfl

theorem get?_hydrateFiles (fs : AMap Text (Option Node)) (hw : AMap.WF fs) (t : Tree) (n : Text) :
    AMap.get? (fs.foldl hydrateFile t) n = (AMap.get? fs n).getD (AMap.get? t n) := by
  induction fs generalizing t with
  | nil => rfl
  | cons e fs ih =>
    obtain ⟨a, v⟩ := e
    have hw' : AMap.WF fs := by
      unfold AMap.WF AMap.keys at *
      exact (List.nodup_cons.1 hw).2
    have ha : a ∉ AMap.keys fs := by
      unfold AMap.WF at hw
      exact (List.nodup_cons.1 hw).1
    rw [List.foldl_cons, ih hw', AMap.get?_cons]
    by_cases h : a = n
    · subst h
      rw [(get?_eq_none_iff fs a).2 ha]
      simp only [if_true, Option.getD_none, Option.getD_some]
      cases v with
      | none => simp [hydrateFile, get?_removeEntryIfExists]
      | some x => simp [hydrateFile]
    · rw [if_neg h]
      congr 1
      cases v with
      | none => simp [hydrateFile, get?_removeEntryIfExists, h]
      | some x => simp [hydrateFile, h]

theorem get?_hydrateDir (rec : Tree → AMap TreePath (Option Node) → Tree) (b : Tree)
    (e : Text × AMap TreePath (Option Node)) (n : Text) :
    AMap.get? (hydrateDir rec b e) n =
      if e.1 = n then
        if rec (entriesOf (AMap.get? b e.1)) e.2 = [] then none
        else some (.dir modeTree (rec (entriesOf (AMap.get? b e.1)) e.2))
      else AMap.get? b n := by
  unfold hydrateDir
  simp only
  split
  · rw [get?_removeEntryIfExists]
  · rw [AMap.get?_insert]

theorem get?_hydrateDirs (rec : Tree → AMap TreePath (Option Node) → Tree)
    (ds : AMap Text (AMap TreePath (Option Node))) (hw : AMap.WF ds) (b : Tree) (n : Text) :
    AMap.get? (ds.foldl (hydrateDir rec) b) n =
      match AMap.get? ds n with
      | none => AMap.get? b n
      | some d =>
        if rec (entriesOf (AMap.get? b n)) d = [] then none
        else some (.dir modeTree (rec (entriesOf (AMap.get? b n)) d)) := by
  induction ds generalizing b with
  | nil => rfl
  | cons e ds ih =>
    obtain ⟨a, d⟩ := e
    have hw' : AMap.WF ds := by
      unfold AMap.WF AMap.keys at *
      exact (List.nodup_cons.1 hw).2
    have ha : a ∉ AMap.keys ds := by
      unfold AMap.WF at hw
      exact (List.nodup_cons.1 hw).1
    rw [List.foldl_cons, ih hw', AMap.get?_cons, get?_hydrateDir]
    by_cases h : a = n
    · subst h
      rw [(get?_eq_none_iff ds a).2 ha]
      simp
    · simp only [h, if_false]

/-- The two maps of `hydrate_tree`. -/
theorem splitEntries (es : AMap TreePath (Option Node)) (hw : AMap.WF es) :
    let s := es.foldl splitEntry ⟨[], []⟩
    AMap.WF s.files ∧ AMap.WF s.dirs ∧ (∀ n, AMap.get? s.files n = AMap.get? es [n]) ∧
    (∀ n, AMap.get? s.dirs n = none → ∀ m r, AMap.get? es (n :: m :: r) = none) ∧
    ∀ n d, AMap.get? s.dirs n = some d → AMap.WF d ∧ AMap.get? d [] = none ∧
      (∀ m r, AMap.get? d (m :: r) = AMap.get? es (n :: m :: r)) ∧
      ∃ m r, n :: m :: r ∈ AMap.keys es := by
  induction es using snocInduction with
  | h0 => simp [AMap.WF, AMap.keys]
  | h1 es e ih =>
    have hk : AMap.keys (es ++ [e]) = AMap.keys es ++ [e.1] := by simp [AMap.keys]
    have hw' : AMap.WF es := by
      unfold AMap.WF at *
      rw [hk] at hw
      exact (List.nodup_append.1 hw).1
    have he : AMap.get? es e.1 = none := by
      rw [get?_eq_none_iff]
      intro hm
      unfold AMap.WF at hw
      rw [hk] at hw
      exact (List.nodup_append.1 hw).2.2 e.1 hm e.1 (by simp) rfl
    have hget : ∀ k, AMap.get? (es ++ [e]) k = if e.1 = k then some e.2 else AMap.get? es k := by
      intro k
      rw [get?_append]
      obtain ⟨a, v⟩ := e
      by_cases h : a = k
      · subst h; rw [he]; simp [AMap.get?]
      · simp [AMap.get?, h]
    obtain ⟨h1, h2, h3, h4, h5⟩ := ih hw'
    simp only [List.foldl_append, List.foldl_cons, List.foldl_nil] at *
    generalize es.foldl splitEntry ⟨[], []⟩ = s at h1 h2 h3 h4 h5
    obtain ⟨path, v⟩ := e
    match path with
    | [] =>
      simp only [splitEntry]
      refine ⟨h1, h2, ?_, ?_, ?_⟩
      · intro n; rw [hget]; simp [h3]
      · intro n hn m r; rw [hget]; simp [h4 n hn m r]
      · intro n d hd
        obtain ⟨a, b, c, x, y, z⟩ := h5 n d hd
        refine ⟨a, b, ?_, x, y, by rw [hk]; exact List.mem_append_left _ z⟩
        intro m r; rw [hget]; simp [c]
    | [k] =>
      simp only [splitEntry]
      refine ⟨AMap.wf_insert h1 _ _, h2, ?_, ?_, ?_⟩
      · intro n
        rw [hget, AMap.get?_insert, h3]
        by_cases h : k = n <;> simp [h]
      · intro n hn m r; rw [hget]; simp [h4 n hn m r]
      · intro n d hd
        obtain ⟨a, b, c, x, y, z⟩ := h5 n d hd
        refine ⟨a, b, ?_, x, y, by rw [hk]; exact List.mem_append_left _ z⟩
        intro m r; rw [hget]; simp [c]
    | k :: k' :: rest =>
      simp only [splitEntry]
      refine ⟨h1, AMap.wf_insert h2 _ _, ?_, ?_, ?_⟩
      · intro n; rw [hget, h3]; simp
      · intro n hn m r
        rw [AMap.get?_insert] at hn
        by_cases h : k = n
        · simp [h] at hn
        · rw [if_neg h] at hn
          rw [hget]; simp [h4 n hn m r, h]
      · intro n d hd
        rw [AMap.get?_insert] at hd
        by_cases h : k = n
        · subst h
          rw [if_pos rfl, Option.some.injEq] at hd
          subst hd
          cases hd : AMap.get? s.dirs k with
          | none =>
            refine ⟨AMap.wf_insert AMap.wf_nil _ _, by simp, ?_, k', rest, by rw [hk]; simp⟩
            intro m r
            rw [hget]
            simp only [Option.getD_none, AMap.get?_insert, List.cons.injEq, true_and, AMap.get?_nil]
            rw [h4 k hd m r]
          | some d =>
            obtain ⟨a, b, c, -⟩ := h5 k d hd
            refine ⟨AMap.wf_insert a _ _, by simpa using b, ?_, k', rest, by rw [hk]; simp⟩
            intro m r
            rw [hget]
            simp only [Option.getD_some, AMap.get?_insert, List.cons.injEq, true_and]
            rw [c]
        · rw [if_neg h] at hd
          obtain ⟨a, b, c, x, y, z⟩ := h5 n d hd
          refine ⟨a, b, ?_, x, y, by rw [hk]; exact List.mem_append_left _ z⟩
          intro m r
          rw [hget]; simp [c, h]

/-- A tree after writing: walking down a path, with the entries written over the tree. -/
def overlay (es : TreePath → Option (Option Node)) (x : Option Node) : TreePath → Option Node
  | [] => x
  | n :: q => overlay (fun p => es (n :: p)) ((es [n]).getD (x.bind (inside · [n]))) q

theorem overlay_prefix {es : TreePath → Option (Option Node)} (q : TreePath)
    (h : ∀ p, p ≠ [] → p <+: q → es p = none) (x : Option Node) :
    overlay es x q = x.bind (inside · q) := by
  induction q generalizing es x with
  | nil => cases x <;> simp [overlay]
  | cons n q ih =>
    rw [overlay, ih (fun p hp hq => h (n :: p) (by simp) ((List.prefix_cons_inj n).2 hq)),
      h [n] (by simp) ⟨q, rfl⟩]
    cases x with
    | none => rfl
    | some y =>
      simp only [Option.getD_none, Option.bind_some]
      rw [show n :: q = [n] ++ q from rfl, inside_append]

theorem overlay_none {es : TreePath → Option (Option Node)} (h : ∀ n p, es (n :: p) = none)
    (x : Option Node) (q : TreePath) : overlay es x q = x.bind (inside · q) := by
  refine overlay_prefix q ?_ x
  intro p hp _
  cases p with
  | nil => exact absurd rfl hp
  | cons n p => exact h n p

/-- The entry for a path decides about what is below it, unless there are others further down. -/
theorem overlay_append {es : TreePath → Option (Option Node)} {p : TreePath} {v : Option Node}
    (hp : p ≠ []) (hv : es p = some v) (r : TreePath)
    (h : ∀ r', r' ≠ [] → r' <+: r → es (p ++ r') = none) (x : Option Node) :
    overlay es x (p ++ r) = v.bind (inside · r) := by
  induction p generalizing es x with
  | nil => exact absurd rfl hp
  | cons n p ih =>
    rw [List.cons_append, overlay]
    cases p with
    | nil =>
      rw [hv]
      simp only [Option.getD_some, List.nil_append]
      exact overlay_prefix r (fun r' h1 h2 => h r' h1 h2) v
    | cons m p => exact ih (by simp) hv (fun r' h1 h2 => h r' h1 h2) _

theorem overlay_congr {es es' : TreePath → Option (Option Node)} (h : ∀ n p, es (n :: p) = es' (n :: p))
    (x : Option Node) (q : TreePath) : overlay es x q = overlay es' x q := by
  induction q generalizing es es' x with
  | nil => rfl
  | cons n q ih =>
    rw [overlay, overlay, h]
    exact ih (fun m p => h n (m :: p)) _

/-- The tree after writing, at a path which is not strictly above one of the entries. -/
theorem nodeAt_hydrate (q : TreePath) (hq : q ≠ []) (fuel : Nat) (t : Tree)
    (es : AMap TreePath (Option Node)) (hw : AMap.WF es) (hf : ∀ p ∈ AMap.keys es, p.length < fuel)
    (hb : ∀ p ∈ AMap.keys es, ¬ Below q p) :
    nodeAt (hydrate fuel t es) q = overlay (AMap.get? es) (some (.dir modeTree t)) q := by
  induction q generalizing fuel t es with
  | nil => exact absurd rfl hq
  | cons n q ih =>
    match fuel with
    | 0 =>
      have : es = [] := by
        cases es with
        | nil => rfl
        | cons e es => exact absurd (hf e.1 (by simp [AMap.keys])) (by omega)
      subst this
      rw [overlay_none (by simp)]
      rfl
    | fuel + 1 =>
      obtain ⟨h1, h2, h3, h4, h5⟩ := splitEntries es hw
      rw [hydrate]
      generalize es.foldl splitEntry ⟨[], []⟩ = s at h1 h2 h3 h4 h5
      rw [nodeAt_cons, get?_hydrateDirs _ _ h2, get?_hydrateFiles _ h1, h3, overlay]
      have hx : (some (Node.dir modeTree t)).bind (inside · [n]) = AMap.get? t n := by
        simp only [Option.bind_some]
        rw [inside_dir]
        cases AMap.get? t n <;> simp
      rw [hx]
      generalize (AMap.get? es [n]).getD (AMap.get? t n) = x
      cases hd : AMap.get? s.dirs n with
      | none => exact (overlay_none (h4 n hd) x q).symm
      | some d =>
        simp only
        obtain ⟨e1, e2, e3, m, r, e4⟩ := h5 n d hd
        cases q with
        | nil => exact absurd ⟨m, r, rfl⟩ (hb _ e4)
        | cons k q =>
          have hkeys : ∀ p ∈ AMap.keys d, n :: p ∈ AMap.keys es := by
            intro p hp
            rw [AMap.mem_keys_iff] at hp ⊢
            cases p with
            | nil => rw [e2] at hp; simp at hp
            | cons a p => rw [← e3]; exact hp
          have := ih (by simp) fuel (entriesOf x) d e1
            (fun p hp => by have := hf _ (hkeys p hp); simp only [List.length_cons] at this; omega)
            (fun p hp => by
              rintro ⟨a, b, rfl⟩
              exact hb _ (hkeys _ hp) ⟨a, b, rfl⟩)
          have hl : (if hydrate fuel (entriesOf x) d = [] then none
              else some (Node.dir modeTree (hydrate fuel (entriesOf x) d))).bind (inside · (k :: q)) =
              nodeAt (hydrate fuel (entriesOf x) d) (k :: q) := by
            split
            · rename_i h; rw [h]; rfl
            · rfl
          rw [hl, this, overlay, overlay]
          have hx' : (some (Node.dir modeTree (entriesOf x))).bind (inside · [k]) =
              x.bind (inside · [k]) := by
            cases x with
            | none => rfl
            | some y =>
              cases y with
              | leaf => rfl
              | dir => rfl
          rw [hx', e3]
          exact overlay_congr (fun a b => e3 _ _) _ _

/-- The tree after writing, at a path which is strictly above one of the entries. -/
theorem nodeAt_hydrate_above (q : TreePath) (hq : q ≠ []) (fuel : Nat) (t : Tree)
    (es : AMap TreePath (Option Node)) (hw : AMap.WF es) (hf : ∀ p ∈ AMap.keys es, p.length < fuel)
    (hb : ∃ p ∈ AMap.keys es, Below q p) (x : Node) (hx : nodeAt (hydrate fuel t es) q = some x) :
    ∃ es', es' ≠ [] ∧ x = .dir modeTree es' := by
  induction q generalizing fuel t es with
  | nil => exact absurd rfl hq
  | cons n q ih =>
    obtain ⟨p, hp, a, r, rfl⟩ := hb
    match fuel with
    | 0 => exact absurd (hf _ hp) (by omega)
    | fuel + 1 =>
      obtain ⟨h1, h2, h3, h4, h5⟩ := splitEntries es hw
      rw [hydrate] at hx
      generalize es.foldl splitEntry ⟨[], []⟩ = s at h1 h2 h3 h4 h5 hx
      rw [nodeAt_cons, get?_hydrateDirs _ _ h2, get?_hydrateFiles _ h1, h3] at hx
      generalize (AMap.get? es [n]).getD (AMap.get? t n) = y at hx
      have hmem : AMap.get? es (n :: q ++ a :: r) ≠ none := by
        rw [AMap.mem_keys_iff] at hp
        intro e
        rw [e] at hp
        simp at hp
      cases hd : AMap.get? s.dirs n with
      | none =>
        exfalso
        cases q with
        | nil => exact hmem (h4 n hd _ _)
        | cons b q => exact hmem (h4 n hd _ _)
      | some d =>
        rw [hd] at hx
        simp only at hx
        obtain ⟨e1, e2, e3, -⟩ := h5 n d hd
        split at hx
        · simp at hx
        · rename_i hne
          simp only [Option.bind_some] at hx
          cases q with
          | nil =>
            simp only [inside_nil, Option.some.injEq] at hx
            exact ⟨_, hne, hx.symm⟩
          | cons b q =>
            have hkeys : ∀ p ∈ AMap.keys d, n :: p ∈ AMap.keys es := by
              intro p hp
              rw [AMap.mem_keys_iff] at hp ⊢
              cases p with
              | nil => rw [e2] at hp; simp at hp
              | cons a p => rw [← e3]; exact hp
            refine ih (by simp) fuel (entriesOf y) d e1
              (fun p hp => by have := hf _ (hkeys p hp); simp only [List.length_cons] at this; omega)
              ⟨b :: q ++ a :: r, ?_, a, r, rfl⟩ hx
            rw [AMap.mem_keys_iff, List.cons_append, e3]
            rw [AMap.mem_keys_iff] at hp
            exact hp

theorem hydrateTree_fuel (es : AMap TreePath (Option Node)) :
    ∀ p ∈ AMap.keys es, p.length < (es.map fun e => e.1.length).foldl max 0 + 1 := by
  have key : ∀ (l : List Nat) (a : Nat), a ≤ l.foldl max a ∧ ∀ x ∈ l, x ≤ l.foldl max a := by
    intro l
    induction l with
    | nil => simp
    | cons y l ih =>
      intro a
      obtain ⟨h1, h2⟩ := ih (max a y)
      rw [List.foldl_cons]
      refine ⟨by omega, ?_⟩
      intro x hx
      rcases List.mem_cons.1 hx with rfl | hx
      · omega
      · exact h2 x hx
  intro p hp
  obtain ⟨e, he, rfl⟩ := List.mem_map.1 hp
  have := (key (es.map fun e => e.1.length) 0).2 e.1.length (List.mem_map.2 ⟨e, he, rfl⟩)
  omega

/-! ### the paths which differ -/

theorem treeDepth_get {t : Tree} {n : Text} {m : Nat} {es : Tree}
    (h : AMap.get? t n = some (.dir m es)) : treeDepth es + 1 ≤ treeDepth t := by
  induction t with
  | nil => simp at h
  | cons e t ih =>
    obtain ⟨a, x⟩ := e
    rw [AMap.get?_cons] at h
    rw [treeDepth]
    split at h
    · simp only [Option.some.injEq] at h
      subst h
      rw [Node.depth]
      omega
    · have := ih h
      omega

theorem not_nodeDiffers (x : Option Node) : ¬ NodeDiffers x x := by
  rintro (h | ⟨m, es, m', es', rfl, h, hne⟩)
  · exact h rfl
  · simp only [Option.some.injEq, Node.dir.injEq] at h
    exact hne h.1

theorem nodeDiffers_comm {x y : Option Node} : NodeDiffers x y ↔ NodeDiffers y x := by
  constructor
  · rintro (h | ⟨m, es, m', es', h1, h2, hne⟩)
    · exact .inl h.symm
    · exact .inr ⟨m', es', m, es, h2, h1, hne.symm⟩
  · rintro (h | ⟨m, es, m', es', h1, h2, hne⟩)
    · exact .inl h.symm
    · exact .inr ⟨m', es', m, es, h2, h1, hne.symm⟩

theorem nodeAt_nil_tree (q : TreePath) (h : q ≠ []) : nodeAt [] q = none := by
  cases q with
  | nil => exact absurd rfl h
  | cons n q => rfl

/-- A directory against nothing. -/
theorem differs_dir_none (m : Nat) (es : Tree) (q : TreePath) :
    NodeDiffers (nodeAt es q) (nodeAt [] q) ↔ NodeDiffers (inside (.dir m es) q) none := by
  cases q with
  | nil =>
    constructor
    · intro h
      exfalso
      rcases h with h | ⟨_, _, _, _, h1, h2, hne⟩
      · exact h rfl
      · simp only [nodeAt, inside_nil, Option.some.injEq, Node.dir.injEq] at h1 h2
        exact hne (h1.1.symm.trans h2.1)
    · intro h
      exfalso
      rcases h with h | ⟨_, _, _, _, h1, h2, hne⟩
      · exact h rfl
      · simp at h2
  | cons n q => rfl

theorem differs_dir_leaf (m m' : Nat) (o : Oid) (es : Tree) (q : TreePath) (h : q ≠ []) :
    NodeDiffers (nodeAt es q) (nodeAt [] q) ↔ NodeDiffers (inside (.dir m es) q) (inside (.leaf m' o) q) := by
  cases q with
  | nil => exact absurd rfl h
  | cons n q => rfl

theorem mem_changedEntry {rec : TreePath → Tree → Tree → List TreePath} {cur : TreePath} {l r : Tree}
    {n : Text}
    (h1 : ∀ m es, AMap.get? l n = some (.dir m es) → ∀ p, p ∈ rec (cur ++ [n]) es [] ↔
      ∃ q, p = (cur ++ [n]) ++ q ∧ NodeDiffers (nodeAt es q) (nodeAt [] q))
    (h2 : ∀ m es, AMap.get? r n = some (.dir m es) → ∀ p, p ∈ rec (cur ++ [n]) es [] ↔
      ∃ q, p = (cur ++ [n]) ++ q ∧ NodeDiffers (nodeAt es q) (nodeAt [] q))
    (h3 : ∀ m es m' es', AMap.get? l n = some (.dir m es) → AMap.get? r n = some (.dir m' es') →
      ∀ p, p ∈ rec (cur ++ [n]) es es' ↔
        ∃ q, p = (cur ++ [n]) ++ q ∧ NodeDiffers (nodeAt es q) (nodeAt es' q)) (p : TreePath) :
    p ∈ changedEntry rec cur l r n ↔ ∃ q, p = cur ++ n :: q ∧
      NodeDiffers (nodeAt l (n :: q)) (nodeAt r (n :: q)) := by
  have happ : ∀ q, cur ++ [n] ++ q = cur ++ n :: q := by intro q; simp
  simp only [nodeAt_cons]
  -- the path of the entry itself, and the paths below it
  have split : ∀ (P : TreePath → Prop), (∃ q, p = cur ++ n :: q ∧ P q) ↔
      (p = cur ++ [n] ∧ P []) ∨ ∃ q, q ≠ [] ∧ p = cur ++ n :: q ∧ P q := by
    intro P
    constructor
    · rintro ⟨q, hq, h⟩
      cases q with
      | nil => exact .inl ⟨hq, h⟩
      | cons a q => exact .inr ⟨a :: q, by simp, hq, h⟩
    · rintro (⟨hq, h⟩ | ⟨q, _, hq, h⟩)
      · exact ⟨[], hq, h⟩
      · exact ⟨q, hq, h⟩
  have selfless : ∀ (es es' : Tree), ¬ NodeDiffers (nodeAt es []) (nodeAt es' []) := by
    rintro es es' (h | ⟨_, _, _, _, h1, h2, hne⟩)
    · exact h rfl
    · simp only [nodeAt, inside_nil, Option.some.injEq, Node.dir.injEq] at h1 h2
      exact hne (h1.1.symm.trans h2.1)
  have leafDir : ∀ (m m' : Nat) (o : Oid) (es : Tree),
      NodeDiffers (some (.leaf m o)) (some (.dir m' es)) := by
    intro m m' o es
    exact .inl (by simp [fileOf])
  unfold changedEntry
  cases hl : AMap.get? l n with
  | none =>
    cases hr : AMap.get? r n with
    | none =>
      simp only [List.not_mem_nil, Option.bind_none, false_iff]
      rintro ⟨q, -, h⟩
      exact not_nodeDiffers _ h
    | some y =>
      cases y with
      | leaf m o =>
        simp only [List.mem_singleton, Option.bind_none, Option.bind_some]
        rw [split]
        constructor
        · intro h
          exact .inl ⟨h, .inl (by simp [fileOf])⟩
        · rintro (⟨h, _⟩ | ⟨q, hq, _, h⟩)
          · exact h
          · cases q with
            | nil => exact absurd rfl hq
            | cons a q => exact absurd h (not_nodeDiffers _)
      | dir m es =>
        simp only [Option.bind_none, Option.bind_some]
        rw [h2 m es hr p]
        simp only [happ, differs_dir_none m es, nodeDiffers_comm (y := none)]
  | some x =>
    cases x with
    | leaf m o =>
      cases hr : AMap.get? r n with
      | none =>
        simp only [List.mem_singleton, Option.bind_none, Option.bind_some]
        rw [split]
        constructor
        · intro h
          exact .inl ⟨h, .inl (by simp [fileOf])⟩
        · rintro (⟨h, _⟩ | ⟨q, hq, _, h⟩)
          · exact h
          · cases q with
            | nil => exact absurd rfl hq
            | cons a q => exact absurd h (not_nodeDiffers _)
      | some y =>
        cases y with
        | leaf m' o' =>
          simp only [Option.bind_some]
          rw [split]
          constructor
          · intro h
            split at h
            · simp at h
            · rename_i hne
              refine .inl ⟨List.mem_singleton.1 h, .inl ?_⟩
              simp only [inside_nil, fileOf, ne_eq, Option.some.injEq, Prod.mk.injEq]
              exact fun e => hne ⟨e.2, e.1⟩
          · rintro (⟨h, hd⟩ | ⟨q, hq, _, h⟩)
            · rw [if_neg]
              · exact List.mem_singleton.2 h
              · rintro ⟨rfl, rfl⟩
                exact not_nodeDiffers _ hd
            · cases q with
              | nil => exact absurd rfl hq
              | cons a q => exact absurd h (not_nodeDiffers _)
        | dir m' es =>
          simp only [Option.bind_some, List.mem_append, List.mem_singleton]
          rw [h2 m' es hr p, split]
          constructor
          · rintro (⟨q, hq, h⟩ | h)
            · cases q with
              | nil => exact absurd h (selfless _ _)
              | cons a q =>
                refine .inr ⟨a :: q, by simp, by rw [hq, happ], ?_⟩
                rw [nodeDiffers_comm, ← differs_dir_leaf m' m o es _ (by simp)]
                exact h
            · exact .inl ⟨h, leafDir _ _ _ _⟩
          · rintro (⟨h, _⟩ | ⟨q, hq, hp, h⟩)
            · exact .inr h
            · refine .inl ⟨q, by rw [hp, happ], ?_⟩
              rw [differs_dir_leaf m' m o es _ hq, nodeDiffers_comm]
              exact h
    | dir m es =>
      cases hr : AMap.get? r n with
      | none =>
        simp only [Option.bind_none, Option.bind_some]
        rw [h1 m es hl p]
        simp only [happ, differs_dir_none m es]
      | some y =>
        cases y with
        | leaf m' o =>
          simp only [Option.bind_some, List.mem_append, List.mem_singleton]
          rw [h1 m es hl p, split]
          constructor
          · rintro (⟨q, hq, h⟩ | h)
            · cases q with
              | nil => exact absurd h (selfless _ _)
              | cons a q =>
                refine .inr ⟨a :: q, by simp, by rw [hq, happ], ?_⟩
                rw [← differs_dir_leaf m m' o es _ (by simp)]
                exact h
            · exact .inl ⟨h, nodeDiffers_comm.1 (leafDir _ _ _ _)⟩
          · rintro (⟨h, _⟩ | ⟨q, hq, hp, h⟩)
            · exact .inr h
            · refine .inl ⟨q, by rw [hp, happ], ?_⟩
              rw [differs_dir_leaf m m' o es _ hq]
              exact h
        | dir m' es' =>
          simp only [Option.bind_some]
          have self : NodeDiffers (inside (.dir m es) []) (inside (.dir m' es') []) ↔ m ≠ m' := by
            constructor
            · rintro (h | ⟨_, _, _, _, h1, h2, hne⟩)
              · exact absurd rfl h
              · simp only [inside_nil, Option.some.injEq, Node.dir.injEq] at h1 h2
                rw [h1.1, h2.1]
                exact hne
            · intro h
              exact .inr ⟨m, es, m', es', by simp, by simp, h⟩
          have below : ∀ q, q ≠ [] → (NodeDiffers (inside (.dir m es) q) (inside (.dir m' es') q) ↔
              NodeDiffers (nodeAt es q) (nodeAt es' q)) := by
            intro q hq
            cases q with
            | nil => exact absurd rfl hq
            | cons a q => rfl
          have hrec : (∃ q, p = cur ++ [n] ++ q ∧ NodeDiffers (nodeAt es q) (nodeAt es' q)) ↔
              ∃ q, q ≠ [] ∧ p = cur ++ n :: q ∧ NodeDiffers (inside (.dir m es) q) (inside (.dir m' es') q) := by
            constructor
            · rintro ⟨q, hq, h⟩
              cases q with
              | nil => exact absurd h (selfless _ _)
              | cons a q => exact ⟨a :: q, by simp, by rw [hq, happ], (below _ (by simp)).2 h⟩
            · rintro ⟨q, hq, hp, h⟩
              exact ⟨q, by rw [hp, happ], (below _ hq).1 h⟩
          rw [split, self]
          by_cases he : es = es'
          · rw [if_pos he]
            have : ¬ ∃ q, q ≠ [] ∧ p = cur ++ n :: q ∧
                NodeDiffers (inside (.dir m es) q) (inside (.dir m' es') q) := by
              rintro ⟨q, hq, _, h⟩
              rw [below q hq, he] at h
              exact not_nodeDiffers _ h
            by_cases hm : m = m'
            · simp [hm] at this ⊢
              simpa using this
            · rw [if_neg hm]
              simp only [List.mem_singleton, hm, ne_eq, not_false_eq_true, and_true]
              constructor
              · exact .inl
              · rintro (h | h)
                · exact h
                · exact absurd h this
          · rw [if_neg he]
            by_cases hm : m = m'
            · rw [if_pos hm, h3 m es m' es' hl hr p, hrec]
              simp [hm]
            · rw [if_neg hm, List.mem_append, h3 m es m' es' hl hr p, hrec]
              simp only [List.mem_singleton, hm, ne_eq, not_false_eq_true, and_true]
              exact or_comm

theorem mem_changedPathsInternal (fuel : Nat) (cur : TreePath) (l r : Tree)
    (hf : treeDepth l + treeDepth r < fuel) (p : TreePath) :
    p ∈ changedPathsInternal fuel cur l r ↔
      ∃ q, p = cur ++ q ∧ NodeDiffers (nodeAt l q) (nodeAt r q) := by
  induction fuel generalizing cur l r p with
  | zero => omega
  | succ fuel ih =>
    have key : ∀ n p, p ∈ changedEntry (changedPathsInternal fuel) cur l r n ↔
        ∃ q, p = cur ++ n :: q ∧ NodeDiffers (nodeAt l (n :: q)) (nodeAt r (n :: q)) := by
      intro n p
      refine mem_changedEntry ?_ ?_ ?_ p
      · intro m es h p
        have := treeDepth_get h
        exact ih _ _ _ (by simp only [treeDepth]; omega) p
      · intro m es h p
        have := treeDepth_get h
        exact ih _ _ _ (by simp only [treeDepth]; omega) p
      · intro m es m' es' h h' p
        have := treeDepth_get h
        have := treeDepth_get h'
        exact ih _ _ _ (by omega) p
    rw [changedPathsInternal, List.mem_flatMap]
    constructor
    · rintro ⟨n, _, hp⟩
      obtain ⟨q, hq, h⟩ := (key n p).1 hp
      exact ⟨n :: q, hq, h⟩
    · rintro ⟨q, hq, h⟩
      cases q with
      | nil =>
        exfalso
        rcases h with h | ⟨_, _, _, _, h1, h2, hne⟩
        · exact h rfl
        · simp only [nodeAt, inside_nil, Option.some.injEq, Node.dir.injEq] at h1 h2
          exact hne (h1.1.symm.trans h2.1)
      | cons n q =>
        refine ⟨n, ?_, (key n p).2 ⟨q, hq, h⟩⟩
        rw [List.mem_dedup, List.mem_append, AMap.mem_keys_iff, AMap.mem_keys_iff]
        by_contra hc
        simp only [not_or, Bool.not_eq_true, Option.isSome_eq_false_iff, Option.isNone_iff_eq_none] at hc
        rw [nodeAt_cons, nodeAt_cons, hc.1, hc.2] at h
        exact not_nodeDiffers _ h

theorem mem_getChangedPathsBetweenTrees (l r : Tree) (p : TreePath) :
    p ∈ getChangedPathsBetweenTrees l r ↔ NodeDiffers (nodeAt l p) (nodeAt r p) := by
  unfold getChangedPathsBetweenTrees
  rw [List.mem_dedup, mem_changedPathsInternal _ _ _ _ (by omega)]
  simp

end Verif.Spec
