import Verif.Model.ListMapArr
import Verif.Props.ListMap
import Verif.Props.TreeUtil
import Mathlib.Tactic.Ring

/-!
# C163: stacking pytrees of arrays
-/

namespace JaxSgmc

open Spec

variable {R : Type}

/-- The result of `jnp.stack` if it succeeds. -/
def stk : List (Arr R) → Arr R
  | [] => ⟨[], []⟩
  | x :: xs => ⟨(xs.length + 1) :: x.shape, (x :: xs).flatMap Arr.data⟩

theorem stackArr_ok (c : List (Arr R)) (hne : c ≠ []) (s : List Nat) (h : ∀ a ∈ c, a.shape = s) :
    stackArr c = .ok (stk c) ∧ (stk c).shape = c.length :: s ∧ (stk c).data = c.flatMap Arr.data := by
  cases c with
  | nil => exact absurd rfl hne
  | cons x xs =>
    have hx := h x (by simp)
    have hall : xs.all (fun y => y.shape == x.shape) = true := by
      rw [List.all_eq_true]
      intro y hy
      rw [h y (by simp [hy]), hx]
      exact beq_self_eq_true _
    refine ⟨by rw [stackArr, if_pos hall]; rfl, by simp [stk, hx], rfl⟩

theorem stackArr_same {c : List (Arr R)} {y : Arr R} (h : stackArr c = .ok y) : ∀ a ∈ c, ∀ b ∈ c, a.shape = b.shape := by
  cases c with
  | nil => simp
  | cons x xs =>
    rw [stackArr] at h
    split at h
    · next hall =>
      rw [List.all_eq_true] at hall
      have key : ∀ a ∈ x :: xs, a.shape = x.shape := by
        intro a ha
        rcases List.mem_cons.1 ha with rfl | ha
        · rfl
        · exact eq_of_beq (hall a ha)
      intro a ha b hb
      rw [key a ha, key b hb]
    · cases h

theorem slice_flatMap (p : Nat) : ∀ (xs : List (Arr R)) (i : Nat) (a : Arr R), (∀ x ∈ xs, x.data.length = p) →
    xs[i]? = some a → ((xs.flatMap Arr.data).drop (i * p)).take p = a.data := by
  intro xs
  induction xs with
  | nil => intro i a _ h; simp at h
  | cons x xs ih =>
    intro i a hp h
    have hx := hp x (by simp)
    rw [List.flatMap_cons]
    cases i with
    | zero =>
      obtain rfl : x = a := by simpa using h
      rw [Nat.zero_mul, List.drop_zero, ← hx, List.take_left]
    | succ i =>
      have : (i + 1) * p = x.data.length + i * p := by rw [hx]; ring
      rw [this, ← List.drop_drop, List.drop_left]
      exact ih i a (fun y hy => hp y (by simp [hy])) (by simpa using h)

theorem mapExcept_get {α β : Type} {f : α → Except PyErr β} : ∀ {xs : List α} {ys : List β}, mapExcept f xs = .ok ys →
    ys.length = xs.length ∧ ∀ x ∈ xs, ∃ y, f x = .ok y := by
  intro xs
  induction xs with
  | nil => intro ys h; simp [mapExcept] at h; simp [← h]
  | cons x xs ih =>
    intro ys h
    simp only [mapExcept] at h
    cases hx : f x with
    | error e => rw [hx] at h; cases h
    | ok y =>
      rw [hx] at h
      cases hr : mapExcept f xs with
      | error e => simp [hr] at h
      | ok ys' =>
        simp only [hr, Except.ok.injEq] at h
        obtain ⟨h1, h2⟩ := ih hr
        refine ⟨by simp [← h, h1], ?_⟩
        intro z hz
        rcases List.mem_cons.1 hz with rfl | hz
        · exact ⟨y, hx⟩
        · exact h2 z hz

/-- The arrays at position `k` of the trees. -/
def col (ts : List (Tree (Arr R))) (k : Nat) : List (Arr R) := (ts.map Tree.leaves).filterMap (·[k]?)

theorem mem_col {ts : List (Tree (Arr R))} {k : Nat} {a : Arr R} :
    a ∈ col ts k ↔ ∃ t ∈ ts, t.leaves[k]? = some a := by
  simp [col]

theorem pyZip_min (t : Tree (Arr R)) (ts : List (Tree (Arr R))) :
    ∃ m, pyZip ((t :: ts).map Tree.leaves) = (List.range m).map (col (t :: ts)) ∧
      (∀ u ∈ t :: ts, m ≤ u.leaves.length) ∧ ∃ u ∈ t :: ts, u.leaves.length = m := by
  cases hm : (((t :: ts).map Tree.leaves).map List.length).min? with
  | none => simp at hm
  | some m =>
    obtain ⟨h1, h2⟩ := List.min?_eq_some_iff.1 hm
    refine ⟨m, by rw [pyZip, hm]; rfl, ?_, ?_⟩
    · intro u hu
      exact h2 _ (List.mem_map.2 ⟨u.leaves, List.mem_map.2 ⟨u, hu, rfl⟩, rfl⟩)
    · obtain ⟨r, hr, rfl⟩ := List.mem_map.1 h1
      obtain ⟨u, hu, rfl⟩ := List.mem_map.1 hr
      exact ⟨u, hu, rfl⟩

/-- The full statement of C163. -/
def C163Statement : Prop :=
  ∀ (t t' : Tree (Arr Int)), ValidTree t → ValidTree t' → ¬ SameShape t t' → ∃ e, stackTrees [t, t'] = .error e

/-- C163 is false of the code: trees with different keys are stacked under the keys of the first tree. -/
theorem c163_false : ¬ C163Statement := by
  intro h
  obtain ⟨e, he⟩ := h (.node (.dict [['a']]) [.leaf ⟨[1], [2]⟩])
    (.node (.dict [['b'], ['c']]) [.leaf ⟨[1], [3]⟩, .leaf ⟨[1], [5]⟩])
    (by simp [ValidTree, Tree.leaves, Tree.leavesL, Arr.Valid])
    (by simp [ValidTree, Tree.leaves, Tree.leavesL, Arr.Valid])
    (by simp [SameShape, Tree.map, Tree.mapL])
  have : stackTrees [.node (.dict [['a']]) [.leaf ⟨[1], [2]⟩],
      .node (.dict [['b'], ['c']]) [.leaf ⟨[1], [3]⟩, .leaf ⟨[1], [5]⟩]] =
      .ok (.node (.dict [['a']]) [.leaf ⟨[2, 1], [2, 3]⟩] : Tree (Arr Int)) := by rfl
  rw [this] at he
  cases he

/-- **C163** (partial).  Exactly those lists of trees are stacked for which the shapes of the leaves of the first tree are
the first shapes of the leaves of every other tree; in particular a leaf of another shape and a missing leaf raise an
exception. -/
theorem c163_stacked_partial (t : Tree (Arr R)) (ts : List (Tree (Arr R))) :
    (∃ u, stackTrees (t :: ts) = .ok u) ↔
      ∀ t' ∈ ts, t.leaves.map Arr.shape <+: t'.leaves.map Arr.shape := by
  obtain ⟨m, hz, hle, hex⟩ := pyZip_min t ts
  constructor
  · rintro ⟨u, hu⟩ t' ht'
    rw [stackTrees, hz] at hu
    cases hs : mapExcept stackArr ((List.range m).map (col (t :: ts))) with
    | error e => rw [hs] at hu; cases hu
    | ok sl =>
      rw [hs] at hu
      obtain ⟨l1, l2⟩ := mapExcept_get hs
      have hlen : m = t.leaves.length := by
        have := Tree.unflatten_length hu
        rw [l1, List.length_map, List.length_range] at this
        exact this
      rw [List.prefix_iff_getElem?]
      intro k hk
      rw [List.length_map] at hk
      obtain ⟨y, hy⟩ := l2 (col (t :: ts) k) (List.mem_map.2 ⟨k, List.mem_range.2 (by omega), rfl⟩)
      have hk' : k < t'.leaves.length := by
        have := hle t' (by simp [ht']); omega
      have := stackArr_same hy (t'.leaves[k]) (mem_col.2 ⟨t', by simp [ht'], List.getElem?_eq_getElem hk'⟩)
        (t.leaves[k]) (mem_col.2 ⟨t, by simp, List.getElem?_eq_getElem hk⟩)
      simp [hk', this]
  · intro h
    have hpre : ∀ t' ∈ t :: ts, t.leaves.map Arr.shape <+: t'.leaves.map Arr.shape := by
      intro t' ht'
      rcases List.mem_cons.1 ht' with rfl | ht'
      · exact List.prefix_refl _
      · exact h t' ht'
    have hm : m = t.leaves.length := by
      obtain ⟨u, hu, hum⟩ := hex
      have h1 := (hpre u hu).length_le
      have h2 := hle t (by simp)
      simp only [List.length_map] at h1
      omega
    have hcol : ∀ c ∈ (List.range m).map (col (t :: ts)), stackArr c = .ok (stk c) := by
      intro c hc
      obtain ⟨k, hk, rfl⟩ := List.mem_map.1 hc
      have hk : k < t.leaves.length := by rw [← hm]; exact List.mem_range.1 hk
      refine (stackArr_ok _ ?_ (t.leaves[k]).shape ?_).1
      · exact List.ne_nil_of_mem (mem_col.2 ⟨t, by simp, List.getElem?_eq_getElem hk⟩)
      · intro a ha
        obtain ⟨t', ht', ha'⟩ := mem_col.1 ha
        have := (List.prefix_iff_getElem?.1 (hpre t' ht')) k (by simpa using hk)
        simpa [ha'] using this
    obtain ⟨u, hu, -⟩ := Tree.unflatten_ok t (((List.range m).map (col (t :: ts))).map stk) (by simp [hm])
    exact ⟨u, by rw [stackTrees, hz, mapExcept_eq _ hcol]; exact hu⟩

/-- **C163** (partial).  Trees of the same structure and shapes are stacked: every leaf gets a new first dimension, the
number of trees, and contains the entries of the trees in their order; unstacking returns the trees. -/
theorem c163_inverse_partial (t : Tree (Arr R)) (ts : List (Tree (Arr R))) (hv : ∀ t' ∈ t :: ts, ValidTree t')
    (hs : ∀ t' ∈ ts, SameShape t' t) : ∃ u, stackTrees (t :: ts) = .ok u ∧ ValidTree u ∧ u.shape = t.shape ∧
      u.leaves.map Arr.shape = t.leaves.map (fun a => (ts.length + 1) :: a.shape) ∧
      (∀ (k : Nat) (a : Arr R), u.leaves[k]? = some a →
        a.data = (t :: ts).flatMap fun t' => ((t'.leaves[k]?).map Arr.data).getD []) ∧
      (t.leaves ≠ [] → unstackTrees u = .ok (t :: ts)) := by
  have hs' : ∀ t' ∈ t :: ts, SameShape t' t := by
    intro t' ht'
    rcases List.mem_cons.1 ht' with rfl | ht'
    · rfl
    · exact hs t' ht'
  have hlen : ∀ t' ∈ t :: ts, t'.leaves.length = t.leaves.length := fun t' ht' => by
    simpa using congrArg List.length (hs' t' ht').leaves
  have hrows : ∀ r ∈ (t :: ts).map Tree.leaves, r.length = t.leaves.length := by
    intro r hr
    obtain ⟨t', ht', rfl⟩ := List.mem_map.1 hr
    exact hlen t' ht'
  have hz : pyZip ((t :: ts).map Tree.leaves) = (List.range t.leaves.length).map (col (t :: ts)) :=
    pyZip_uniform _ _ (by simp) hrows
  have hcol : ∀ k (hk : k < t.leaves.length), stackArr (col (t :: ts) k) = .ok (stk (col (t :: ts) k)) ∧
      (stk (col (t :: ts) k)).shape = (ts.length + 1) :: (t.leaves[k]).shape ∧
      (stk (col (t :: ts) k)).data = (col (t :: ts) k).flatMap Arr.data ∧
      (∀ a ∈ col (t :: ts) k, a.shape = (t.leaves[k]).shape ∧ a.Valid) ∧
      (col (t :: ts) k).length = ts.length + 1 ∧
      ∀ j : Nat, (col (t :: ts) k)[j]? = (t :: ts)[j]?.bind fun t' => t'.leaves[k]? := by
    intro k hk
    obtain ⟨f1, f2⟩ := filterMap_all _ _ k hk hrows
    have hmem : ∀ a ∈ col (t :: ts) k, a.shape = (t.leaves[k]).shape ∧ a.Valid := by
      intro a ha
      obtain ⟨t', ht', ha'⟩ := mem_col.1 ha
      have h1 := congrArg (fun l : List (List Nat) => l[k]?) (hs' t' ht').leaves
      simp only [List.getElem?_map, ha', List.getElem?_eq_getElem hk, Option.map_some, Option.some.injEq] at h1
      exact ⟨h1, hv t' ht' a (List.mem_of_getElem? ha')⟩
    have hl : (col (t :: ts) k).length = ts.length + 1 := by rw [col, f1]; simp
    obtain ⟨g1, g2, g3⟩ := stackArr_ok (col (t :: ts) k) (by intro h0; rw [h0] at hl; simp at hl) _ fun a ha => (hmem a ha).1
    refine ⟨g1, by rw [g2, hl], g3, hmem, hl, fun j => ?_⟩
    rw [col, f2 j, List.getElem?_map]
    cases (t :: ts)[j]? <;> rfl
  have hok : mapExcept stackArr ((List.range t.leaves.length).map (col (t :: ts))) =
      .ok (((List.range t.leaves.length).map (col (t :: ts))).map stk) := by
    apply mapExcept_eq
    intro c hc
    obtain ⟨k, hk, rfl⟩ := List.mem_map.1 hc
    exact (hcol k (List.mem_range.1 hk)).1
  obtain ⟨u, u1, u2, u3⟩ := Tree.unflatten_ok t (((List.range t.leaves.length).map (col (t :: ts))).map stk) (by simp)
  have hul : u.leaves.length = t.leaves.length := by rw [u2]; simp
  have huk : ∀ k (hk : k < t.leaves.length), u.leaves[k]'(by omega) = stk (col (t :: ts) k) := by
    intro k hk
    simp [u2]
  refine ⟨u, by rw [stackTrees, hz, hok]; exact u1, ?_, u3, ?_, ?_, ?_⟩
  · intro a ha
    obtain ⟨k, hk, rfl⟩ := List.getElem_of_mem ha
    rw [hul] at hk
    rw [huk k hk]
    obtain ⟨-, g2, g3, g4, g5, -⟩ := hcol k hk
    rw [Arr.Valid, g2, g3, List.length_flatMap, List.prod_cons, ← g5]
    have : (col (t :: ts) k).map (fun a => a.data.length) =
        List.replicate (col (t :: ts) k).length (t.leaves[k]).shape.prod := by
      rw [List.eq_replicate_iff]
      refine ⟨by simp, ?_⟩
      intro n hn
      obtain ⟨a, ha, rfl⟩ := List.mem_map.1 hn
      rw [(g4 a ha).2, (g4 a ha).1]
    rw [this, List.sum_replicate_nat]
  · apply List.ext_getElem
    · simp [hul]
    · intro k k1 k2
      have hk : k < t.leaves.length := by simpa using k2
      rw [List.getElem_map, List.getElem_map, huk k hk, (hcol k hk).2.1]
  · intro k a ha
    obtain ⟨hk, rfl⟩ := List.getElem?_eq_some_iff.1 ha
    rw [hul] at hk
    rw [huk k hk, (hcol k hk).2.2.1, col, List.filterMap_map]
    clear hcol hok hz u1 u2 u3 hul huk ha hrows hv hs hs'
    revert hlen
    generalize t :: ts = l
    intro hlen
    induction l with
    | nil => rfl
    | cons x xs ih =>
      have hx : k < x.leaves.length := by rw [hlen x (by simp)]; exact hk
      rw [List.flatMap_cons, ← ih fun t' ht' => hlen t' (by simp [ht']), List.filterMap_cons]
      simp [hx]
  · intro hleaf
    have hul0 : u.leaves ≠ [] := by
      intro h0
      rw [h0] at hul
      exact hleaf (List.length_eq_zero_iff.1 hul.symm)
    have hpos : 0 < t.leaves.length := List.length_pos_iff.2 hleaf
    cases hcase : u.leaves with
    | nil => exact absurd hcase hul0
    | cons l ls =>
      have hl : l.shape = (ts.length + 1) :: (t.leaves[0]).shape := by
        have h0 := huk 0 hpos
        simp only [hcase, List.getElem_cons_zero] at h0
        rw [h0, (hcol 0 hpos).2.1]
      rw [unstackTrees]
      simp only [hcase, hl]
      apply mapExcept_getElem
      · simp
      · intro i h1 h2
        rw [List.length_range] at h1
        have hx : mapExcept (fun leaf => indexArr leaf i) (l :: ls) = .ok ((t :: ts)[i].leaves) := by
          rw [← hcase]
          have hle : (t :: ts)[i].leaves.length = t.leaves.length := hlen _ (List.getElem_mem h2)
          apply mapExcept_getElem _ _ (by rw [hul, hle])
          intro k k1 k2
          have hk : k < t.leaves.length := by omega
          obtain ⟨-, g2, g3, g4, g5, g6⟩ := hcol k hk
          have hget : (col (t :: ts) k)[i]? = some ((t :: ts)[i].leaves[k]) := by
            rw [g6 i, List.getElem?_eq_getElem h2]
            simp [k2]
          have hsl := slice_flatMap (t.leaves[k]).shape.prod (col (t :: ts) k) i _
            (fun a ha => by rw [(g4 a ha).2, (g4 a ha).1]) hget
          have hshape := (g4 _ (List.mem_of_getElem? hget)).1
          rw [huk k hk, indexArr, g2]
          simp only [Nat.add_one_ne_zero, if_false, Nat.add_sub_cancel]
          rw [Nat.min_eq_left (by omega), g3, hsl, ← hshape]
        simp only [List.getElem_range, hx]
        exact Tree.unflatten_leaves u _ (u3.trans (hs' _ (List.getElem_mem h2)).shape.symm)

/-- **C163** (partial).  `list_vmap` and `list_pmap` return the values of the function for trees of the same shapes if the
values have the same shapes. -/
theorem c163_vmap_partial (f : Tree (Arr R) → Tree (Arr R)) (t : Tree (Arr R)) (ts : List (Tree (Arr R)))
    (hv : ∀ t' ∈ t :: ts, ValidTree t' ∧ ValidTree (f t')) (hs : ∀ t' ∈ ts, SameShape t' t ∧ SameShape (f t') (f t))
    (hl : t.leaves ≠ []) (hl' : (f t).leaves ≠ []) : listVmapArr f (t :: ts) = .ok ((t :: ts).map f) := by
  obtain ⟨u, u1, -, -, -, -, u2⟩ := c163_inverse_partial t ts (fun t' ht' => (hv t' ht').1) fun t' ht' => (hs t' ht').1
  obtain ⟨v, v1, -, -, -, -, v2⟩ := c163_inverse_partial (f t) (ts.map f)
    (by
      intro t' ht'
      obtain ⟨t'', h1, rfl⟩ := List.mem_map.1 (show t' ∈ (t :: ts).map f by simpa using ht')
      exact (hv t'' h1).2)
    (by
      intro t' ht'
      obtain ⟨t'', h1, rfl⟩ := List.mem_map.1 ht'
      exact (hs t'' h1).2)
  simp only [listVmapArr, u1, u2 hl, List.map_cons, v1, v2 hl']

/-- **C163** (partial, exceptions).  No tree: `IndexError`; trees which do not fit: `ValueError`; a tree which cannot be
unstacked because it has no leaf or its first leaf has no dimension: `IndexError`.  A tree which is unstacked gives as many
trees as its first leaf has rows. -/
theorem c163_errors_partial :
    stackTrees ([] : List (Tree (Arr R))) = .error .indexError ∧ stackArr ([] : List (Arr R)) = .error .valueError ∧
    (∀ (t : Tree (Arr R)) (ts : List (Tree (Arr R))) e, stackTrees (t :: ts) = .error e → e = .valueError) ∧
    (∀ t : Tree (Arr R), (∀ n s, t.leaves.head?.map Arr.shape ≠ some (n :: s)) → unstackTrees t = .error .indexError) ∧
    (∀ (t : Tree (Arr R)) n s us, t.leaves.head?.map Arr.shape = some (n :: s) → unstackTrees t = .ok us →
      us.length = n) := by
  refine ⟨rfl, rfl, ?_, ?_, ?_⟩
  · intro t ts e h
    simp only [stackTrees] at h
    split at h
    · rename_i e' he
      cases h
      revert he
      generalize pyZip ((t :: ts).map Tree.leaves) = l
      induction l with
      | nil => intro he; cases he
      | cons c l ih =>
        intro he
        simp only [mapExcept] at he
        split at he
        · rename_i e'' he'
          cases he
          cases c with
          | nil => cases he'; rfl
          | cons x xs =>
            simp only [stackArr] at he'
            split at he'
            · cases he'
            · cases he'; rfl
        · split at he
          · rename_i h2
            cases he
            exact ih h2
          · cases he
    · rw [Tree.unflatten] at h
      split at h
      · cases h
      · cases h; rfl
  · intro t h
    unfold unstackTrees
    cases hl : t.leaves with
    | nil => rfl
    | cons l ls =>
      cases hs : l.shape with
      | nil => simp only [hs]
      | cons n s => exact absurd (by rw [hl]; simp [hs]) (h n s)
  · intro t n s us h hu
    unfold unstackTrees at hu
    cases hl : t.leaves with
    | nil => rw [hl] at h; simp at h
    | cons l ls =>
      rw [hl] at h
      have hs : l.shape = n :: s := by simpa using h
      rw [hl] at hu
      simp only [hs] at hu
      rw [(mapExcept_get hu).1, List.length_range]

/-- Two trees with a matrix and a number. -/
example : listVmapArr (fun t => t.map (Arr.map (· + 1)))
    [(.node .list [.leaf ⟨[1, 2], [1, 2]⟩, .leaf ⟨[], [3]⟩] : Tree (Arr Int)),
      .node .list [.leaf ⟨[1, 2], [4, 5]⟩, .leaf ⟨[], [6]⟩]] =
    .ok [.node .list [.leaf ⟨[1, 2], [2, 3]⟩, .leaf ⟨[], [4]⟩], .node .list [.leaf ⟨[1, 2], [5, 6]⟩, .leaf ⟨[], [7]⟩]]  := by rfl

/-- A leaf of another shape is rejected. -/
example : ¬ ∃ u, stackTrees [(.leaf ⟨[1], [2]⟩ : Tree (Arr Int)), .leaf ⟨[2], [2, 3]⟩] = .ok u := by
  rw [c163_stacked_partial]
  simp [Tree.leaves]

end JaxSgmc
