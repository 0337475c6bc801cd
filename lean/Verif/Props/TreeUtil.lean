import Verif.Lemmas.Tree
import Verif.Spec.TreeUtil
import Mathlib.Data.List.Induction
import Mathlib.Algebra.BigOperators.Group.List.Basic
import Mathlib.Algebra.BigOperators.Ring.List
import Mathlib.Algebra.Ring.Int.Defs

/-!
# Tree arithmetic (C56, C57)
-/

namespace JaxSgmc

open Spec

variable {R : Type}

theorem bcast_self (s : List Nat) : Arr.bcast s s = some s := by
  induction s with
  | nil => rfl
  | cons a s ih => simp [Arr.bcast, ih]

theorem bcastIndex_self (s : List Nat) : ∀ k, k < s.prod → Arr.bcastIndex s s k = k := by
  induction s with
  | nil => intro k hk; simp at hk; simp [Arr.bcastIndex, hk]
  | cons d s ih =>
    intro k hk
    rw [List.prod_cons] at hk
    rw [Arr.bcastIndex, ih _ (Nat.div_lt_of_lt_mul hk)]
    by_cases hd : d = 1
    · simp [hd]
    · rw [if_neg hd]; exact Nat.mod_add_div k d

theorem broadcastData_self (a : Arr R) (ha : a.Valid) : Arr.broadcastData a.shape a = a.data := by
  unfold Arr.broadcastData
  rw [← ha]
  have h : ∀ k ∈ List.range a.data.length,
      a.data[Arr.bcastIndex a.shape.reverse a.shape.reverse k]? = a.data[k]? := by
    intro k hk
    rw [bcastIndex_self _ _ (by rw [List.prod_reverse, ← ha]; exact List.mem_range.1 hk)]
  rw [List.filterMap_congr h]
  clear h ha
  induction a.data using List.reverseRecOn with
  | nil => rfl
  | append_singleton l x ih =>
    rw [List.length_append, List.length_singleton, List.range_succ, List.filterMap_append]
    have h2 : ∀ k ∈ List.range l.length, (l ++ [x])[k]? = l[k]? := by
      intro k hk
      rw [List.getElem?_append_left (List.mem_range.1 hk)]
    rw [List.filterMap_congr h2, ih]
    simp

/-- Arrays of the same shape are not broadcast. -/
theorem arr_zipWith_same (f : R → R → R) (a b : Arr R) (ha : a.Valid) (hb : b.Valid) (h : a.shape = b.shape) :
    Arr.zipWith f a b = .ok ⟨a.shape, List.zipWith f a.data b.data⟩ := by
  have h1 := broadcastData_self a ha
  have h2 := broadcastData_self b hb
  rw [← h] at h2
  simp only [Arr.zipWith, ← h, bcast_self, List.reverse_reverse, h1, h2]

theorem map_shape_shape (t : Tree (Arr R)) : (t.map Arr.shape).shape = t.shape :=
  Tree.shape_map _ _

theorem Spec.SameShape.shape {a b : Tree (Arr R)} (h : SameShape a b) : a.shape = b.shape := by
  rw [← map_shape_shape a, ← map_shape_shape b, h]

theorem Spec.SameShape.leaves {a b : Tree (Arr R)} (h : SameShape a b) :
    a.leaves.map Arr.shape = b.leaves.map Arr.shape := by
  rw [← Tree.leaves_map, ← Tree.leaves_map, h]

theorem sameShape_of {a b : Tree (Arr R)} (h1 : a.shape = b.shape)
    (h2 : a.leaves.map Arr.shape = b.leaves.map Arr.shape) : SameShape a b :=
  Tree.ext _ _ (by rw [map_shape_shape, map_shape_shape, h1])
    (by rw [Tree.leaves_map, Tree.leaves_map, h2])

/-- A valid tree of a given shape is determined by its entries. -/
theorem ravel_inj (a b : Tree (Arr R)) (ha : ValidTree a) (hb : ValidTree b) (h : SameShape a b)
    (hr : ravel a = ravel b) : a = b := by
  apply Tree.ext _ _ h.shape
  have hl := h.leaves
  unfold ravel at hr
  unfold ValidTree at ha hb
  generalize a.leaves = as at *
  generalize b.leaves = bs at *
  clear h
  induction as generalizing bs with
  | nil => cases bs with
    | nil => rfl
    | cons b bs => simp at hl
  | cons a as ih =>
    cases bs with
    | nil => simp at hl
    | cons b bs =>
      simp only [List.map_cons, List.cons.injEq] at hl
      simp only [List.flatMap_cons] at hr
      have h1 := ha a (by simp)
      have h2 := hb b (by simp)
      unfold Arr.Valid at h1 h2
      obtain ⟨e1, e2⟩ := List.append_inj hr (by rw [h1, h2, hl.1])
      rw [ih (fun x hx => ha x (by simp [hx])) bs (fun x hx => hb x (by simp [hx])) e2 hl.2]
      congr 1
      cases a; cases b; simp_all

theorem zipExcept_arr (f : R → R → R) (as bs : List (Arr R))
    (ha : ∀ a ∈ as, a.Valid) (hb : ∀ b ∈ bs, b.Valid)
    (hl : as.map Arr.shape = bs.map Arr.shape) :
    ∃ cs, zipExcept (Arr.zipWith f) as bs = .ok cs ∧ cs.map Arr.shape = as.map Arr.shape ∧
      (∀ c ∈ cs, c.Valid) ∧ cs.map Arr.data = List.zipWith (fun a b => List.zipWith f a.data b.data) as bs ∧
      cs.flatMap Arr.data = List.zipWith f (as.flatMap Arr.data) (bs.flatMap Arr.data) := by
  induction as generalizing bs with
  | nil => cases bs with
    | nil => exact ⟨[], by simp [zipExcept]⟩
    | cons b bs => simp at hl
  | cons a as ih =>
    cases bs with
    | nil => simp at hl
    | cons b bs =>
      simp only [List.map_cons, List.cons.injEq] at hl
      obtain ⟨cs, h1, h2, h3, h4, h5⟩ := ih bs (fun x hx => ha x (by simp [hx]))
        (fun x hx => hb x (by simp [hx])) hl.2
      have v1 := ha a (by simp)
      have v2 := hb b (by simp)
      unfold Arr.Valid at v1 v2
      refine ⟨⟨a.shape, List.zipWith f a.data b.data⟩ :: cs, ?_, ?_, ?_, ?_, ?_⟩
      · simp [zipExcept, arr_zipWith_same f a b (ha a (by simp)) (hb b (by simp)) hl.1, h1]
      · simp [h2]
      · intro c hc
        rcases List.mem_cons.1 hc with rfl | hc
        · simp only [Arr.Valid, List.length_zipWith]
          rw [v1, v2, hl.1, Nat.min_self]
        · exact h3 c hc
      · simp [h4]
      · simp only [List.flatMap_cons, h5]
        rw [List.zipWith_append (by rw [v1, v2, hl.1])]

theorem treeMap2_arr (f : R → R → R) (a b : Tree (Arr R)) (ha : ValidTree a) (hb : ValidTree b)
    (h : SameShape a b) :
    ∃ c, treeMap2 (Arr.zipWith f) a b = .ok c ∧ ValidTree c ∧ SameShape c a ∧
      ravel c = List.zipWith f (ravel a) (ravel b) := by
  obtain ⟨cs, h1, h2, h3, -, h5⟩ := zipExcept_arr f a.leaves b.leaves ha hb h.leaves
  obtain ⟨c, g1, g2, g3⟩ := Tree.unflatten_ok a cs (by simpa using congrArg List.length h2)
  refine ⟨c, ?_, ?_, ?_, ?_⟩
  · simp [treeMap2, h.shape, h1, g1]
  · unfold ValidTree; rw [g2]; exact h3
  · exact sameShape_of g3 (by rw [g2, h2])
  · simp only [ravel, g2, h5]

/-- C56: `tree_add` adds the raveled vectors and preserves the shape. -/
theorem c56_add [Add R] (a b : Tree (Arr R)) (ha : ValidTree a) (hb : ValidTree b)
    (h : SameShape a b) : ∃ c, treeAdd a b = .ok c ∧ ValidTree c ∧ SameShape c a ∧
      ravel c = List.zipWith (· + ·) (ravel a) (ravel b) := treeMap2_arr _ a b ha hb h

/-- C56: `tree_multiply` multiplies the raveled vectors element-wise. -/
theorem c56_multiply [Mul R] (a b : Tree (Arr R)) (ha : ValidTree a) (hb : ValidTree b)
    (h : SameShape a b) : ∃ c, treeMultiply a b = .ok c ∧ ValidTree c ∧ SameShape c a ∧
      ravel c = List.zipWith (· * ·) (ravel a) (ravel b) := treeMap2_arr _ a b ha hb h

/-- C56: `tree_scale` scales the raveled vector. -/
theorem c56_scale [Mul R] (x : R) (a : Tree (Arr R)) (ha : ValidTree a) :
    ValidTree (treeScale x a) ∧ SameShape (treeScale x a) a ∧
      ravel (treeScale x a) = (ravel a).map (x * ·) := by
  refine ⟨?_, ?_, ?_⟩
  · intro c hc
    rw [treeScale, Tree.leaves_map] at hc
    obtain ⟨b, hb, rfl⟩ := List.mem_map.1 hc
    have := ha b hb
    simpa [Arr.Valid, Arr.map] using this
  · simp only [SameShape, treeScale, Tree.map_map]
    exact Tree.map_congr _ _ _ (fun b _ => rfl)
  · simp only [ravel, treeScale, Tree.leaves_map, List.flatMap_map, List.map_flatMap, Arr.map]

/-- C56: `tree_dot` is the scalar product of the raveled vectors. -/
theorem c56_dot [Semiring R] (a b : Tree (Arr R)) (ha : ValidTree a) (hb : ValidTree b)
    (h : SameShape a b) :
    treeDot a b = .ok (List.zipWith (· * ·) (ravel a) (ravel b)).sum := by
  have hl := h.leaves
  unfold treeDot ravel
  unfold ValidTree at ha hb
  generalize a.leaves = as at *
  generalize b.leaves = bs at *
  clear h
  have key : ∃ cs, zipExcept (fun x y => (Arr.zipWith (· * ·) x y).map (fun z : Arr R => z.data.sum))
      as bs = .ok cs ∧
      cs.sum = (List.zipWith (· * ·) (as.flatMap Arr.data) (bs.flatMap Arr.data)).sum := by
    induction as generalizing bs with
    | nil => cases bs with
      | nil => exact ⟨[], by simp [zipExcept]⟩
      | cons b bs => simp at hl
    | cons a as ih =>
      cases bs with
      | nil => simp at hl
      | cons b bs =>
        simp only [List.map_cons, List.cons.injEq] at hl
        obtain ⟨cs, h1, h2⟩ := ih (fun x hx => ha x (by simp [hx])) bs
          (fun x hx => hb x (by simp [hx])) hl.2
        have v1 := ha a (by simp)
        have v2 := hb b (by simp)
        unfold Arr.Valid at v1 v2
        refine ⟨(List.zipWith (· * ·) a.data b.data).sum :: cs, ?_, ?_⟩
        · rw [zipExcept, h1]
          simp [arr_zipWith_same _ a b (ha a (by simp)) (hb b (by simp)) hl.1, Except.map]
        · simp only [List.flatMap_cons, List.sum_cons, h2]
          rw [List.zipWith_append (by rw [v1, v2, hl.1]), List.sum_append]
  obtain ⟨cs, h1, h2⟩ := key
  rw [h1]
  simp [h2]

theorem splitSizes_spec (ns : List Nat) (xs : List R) (h : xs.length = ns.sum) :
    (splitSizes ns xs).length = ns.length ∧ (splitSizes ns xs).map List.length = ns ∧
      (splitSizes ns xs).flatten = xs := by
  induction ns generalizing xs with
  | nil => simp at h; simp [splitSizes, h]
  | cons n ns ih =>
    simp only [List.sum_cons] at h
    obtain ⟨h1, h2, h3⟩ := ih (xs.drop n) (by simp; omega)
    refine ⟨by simp [splitSizes, h1], ?_, ?_⟩
    · simp only [splitSizes, List.map_cons, List.length_take, h2, List.cons.injEq, and_true]
      omega
    · simp only [splitSizes, List.flatten_cons, h3, List.take_append_drop]

/-- C56: `unravel_fn` of `ravel_pytree(t)` restores a tree of the shape of `t` from every vector of
the right size, and only from those. -/
theorem c56_unravel (t : Tree (Arr R)) (ht : ValidTree t) (v : List R) :
    (v.length = (ravel t).length →
      ∃ c, unravel t v = .ok c ∧ ValidTree c ∧ SameShape c t ∧ ravel c = v) ∧
    (v.length ≠ (ravel t).length → unravel t v = .error .valueError) := by
  refine ⟨fun hv => ?_, fun hv => by simp [unravel, hv]⟩
  have hsum : v.length = (t.leaves.map (fun a => a.data.length)).sum := by
    rw [hv, ravel, List.length_flatMap]
  obtain ⟨h1, h2, h3⟩ := splitSizes_spec _ v hsum
  generalize hns : splitSizes (t.leaves.map (fun a => a.data.length)) v = pieces at h1 h2 h3
  have hlen : pieces.length = t.leaves.length := by simpa using h1
  obtain ⟨c, g1, g2, g3⟩ := Tree.unflatten_ok t
    (List.zipWith Arr.mk (t.leaves.map Arr.shape) pieces) (by simp [hlen])
  have hgen : ∀ (ls : List (Arr R)) (ps : List (List R)), (∀ a ∈ ls, a.Valid) →
      ps.length = ls.length → ps.map List.length = ls.map (fun a => a.data.length) →
      (∀ c ∈ List.zipWith Arr.mk (ls.map Arr.shape) ps, c.Valid) ∧
      (List.zipWith Arr.mk (ls.map Arr.shape) ps).map Arr.shape = ls.map Arr.shape ∧
      (List.zipWith Arr.mk (ls.map Arr.shape) ps).flatMap Arr.data = ps.flatten := by
    intro ls
    induction ls with
    | nil =>
      intro ps _ hp _
      have : ps = [] := by simpa using hp
      subst this
      simp
    | cons l ls ih =>
      intro ps hv hp hq
      cases ps with
      | nil => simp at hp
      | cons p ps =>
        simp only [List.map_cons, List.cons.injEq] at hq
        obtain ⟨i1, i2, i3⟩ := ih ps (fun a ha => hv a (by simp [ha])) (by simpa using hp) hq.2
        refine ⟨?_, by simp [i2], by simp [i3]⟩
        intro c hc
        simp only [List.map_cons, List.zipWith_cons_cons, List.mem_cons] at hc
        rcases hc with rfl | hc
        · have := hv l (by simp)
          unfold Arr.Valid at this ⊢
          simp only
          rw [hq.1, this]
        · exact i1 c hc
  obtain ⟨k1, k2, k3⟩ := hgen t.leaves pieces ht hlen h2
  refine ⟨c, ?_, ?_, ?_, ?_⟩
  · simp only [unravel, hv, if_true, hns, g1]
  · unfold ValidTree; rw [g2]; exact k1
  · exact sameShape_of g3 (by rw [g2, k2])
  · rw [ravel, g2, k3, h3]

/-- C56: `tree_matmul` multiplies the raveled vector with the matrix. -/
theorem c56_matmul [Semiring R] (m : List (List R)) (t : Tree (Arr R)) (ht : ValidTree t)
    (hrow : m.length = (ravel t).length) (hcol : ∀ row ∈ m, row.length = (ravel t).length) :
    ∃ c, treeMatmul m t = .ok c ∧ ValidTree c ∧ SameShape c t ∧
      ravel c = m.map (fun row => (List.zipWith (· * ·) row (ravel t)).sum) := by
  obtain ⟨c, h1, h2⟩ := (c56_unravel t ht (m.map (fun row => dotList row (ravel t)))).1
    (by simpa using hrow)
  refine ⟨c, ?_, h2⟩
  have hall : m.all (fun row => row.length == (ravel t).length) = true := by
    simpa using hcol
  simp [treeMatmul, matVec, hall, h1]

/-- C56: matrices that do not fit are rejected. -/
theorem c56_matmul_rejected [Semiring R] (m : List (List R)) (t : Tree (Arr R)) (ht : ValidTree t)
    (h : m.length ≠ (ravel t).length ∨ ∃ row ∈ m, row.length ≠ (ravel t).length) :
    ∃ e, treeMatmul m t = .error e := by
  by_cases hall : m.all (fun row => row.length == (ravel t).length) = true
  · rcases h with h | ⟨row, hr, hne⟩
    · refine ⟨.valueError, ?_⟩
      simp only [treeMatmul, matVec, hall, if_true]
      exact (c56_unravel t ht _).2 (by simpa using h)
    · rw [List.all_eq_true] at hall
      exact absurd (by simpa using hall row hr) hne
  · exact ⟨.typeError, by simp [treeMatmul, matVec, hall]⟩

/-- The tree `{"a": [1, 2], "b": [[3], [4]]}` of the shapes `(2,)` and `(2, 1)`. -/
def exampleArr : Tree (Arr Int) :=
  .node (.dict [['a'], ['b']]) [.leaf ⟨[2], [1, 2]⟩, .leaf ⟨[2, 1], [3, 4]⟩]

example : ValidTree exampleArr ∧ SameShape exampleArr exampleArr ∧ ravel exampleArr = [1, 2, 3, 4] ∧
    treeDot exampleArr exampleArr = .ok 30 := by
  have h : ValidTree exampleArr := by
    simp [ValidTree, exampleArr, Tree.leaves, Tree.leavesL, Arr.Valid]
  refine ⟨h, rfl, rfl, ?_⟩
  rw [c56_dot _ _ h h rfl]
  rfl

/-! ### Tensors -/

theorem zipWith_single [Semiring R] (d v : List R) (i : Nat) (hi : i < d.length)
    (h : d.length = v.length) :
    (List.zipWith (· * ·) ((List.range d.length).map
      (fun j => if i = j then d[j]?.getD 0 else 0)) v).sum = d[i] * v[i]'(by omega) := by
  induction d generalizing v i with
  | nil => simp at hi
  | cons x d ih =>
    cases v with
    | nil => simp at h
    | cons y v =>
      have hr : List.range (x :: d).length = 0 :: (List.range d.length).map Nat.succ := by
        rw [List.length_cons, List.range_succ_eq_map]
      rw [hr, List.map_cons, List.map_map, List.zipWith_cons_cons, List.sum_cons]
      cases i with
      | zero =>
        have hz : (List.zipWith (· * ·) ((List.range d.length).map
            ((fun j => if 0 = j then (x :: d)[j]?.getD 0 else 0) ∘ Nat.succ)) v).sum = 0 := by
          apply List.sum_eq_zero
          intro z hz
          obtain ⟨k, h1, rfl⟩ := List.mem_iff_getElem.1 hz
          simp
        rw [hz]
        simp
      | succ i =>
        have hc : ((fun j => if i + 1 = j then (x :: d)[j]?.getD 0 else 0) ∘ Nat.succ)
            = fun j => if i = j then d[j]?.getD 0 else 0 := by
          funext j
          simp
        rw [hc, ih v i (by simpa using hi) (by simpa using h)]
        simp

theorem diagMatrix_mul [Semiring R] (d v : List R) (h : d.length = v.length) :
    (diagMatrix d).map (fun row => (List.zipWith (· * ·) row v).sum) = List.zipWith (· * ·) d v := by
  apply List.ext_getElem
  · simp [diagMatrix, h]
  · intro i h1 h2
    have hi : i < d.length := by simpa [diagMatrix] using h1
    simp only [diagMatrix, List.map_map, List.getElem_map, List.getElem_range, Function.comp_apply,
      List.getElem_zipWith]
    exact zipWith_single d v i hi h

theorem ravel_length_eq (a b : Tree (Arr R)) (ha : ValidTree a) (hb : ValidTree b)
    (h : SameShape a b) : (ravel a).length = (ravel b).length := by
  have hl := h.leaves
  rw [ravel, ravel, List.length_flatMap, List.length_flatMap]
  have e1 : a.leaves.map (fun x => x.data.length) = a.leaves.map (fun x => x.shape.prod) :=
    List.map_congr_left ha
  have e2 : b.leaves.map (fun x => x.data.length) = b.leaves.map (fun x => x.shape.prod) :=
    List.map_congr_left hb
  have e3 := congrArg (List.map List.prod) hl
  simp only [List.map_map] at e3
  rw [e1, e2]
  exact congrArg List.sum e3

/-- C57: `tensor_matmul` multiplies with the matrix represented by the tensor, whatever its
dimension. -/
theorem c57_matrix [Semiring R] (T : Tensor R) (v : Tree (Arr R)) (hv : ValidTree v)
    (hT : Compatible T v) :
    ∃ c, tensorMatmul T v = .ok c ∧ ValidTree c ∧ SameShape c v ∧
      ravel c = (tensorMatrix T (ravel v).length).map
        (fun row => (List.zipWith (· * ·) row (ravel v)).sum) := by
  cases T with
  | scalar x =>
    obtain ⟨h1, h2, h3⟩ := c56_scale x v hv
    refine ⟨treeScale x v, rfl, h1, h2, ?_⟩
    rw [h3, tensorMatrix, diagMatrix_mul _ _ (by simp)]
    apply List.ext_getElem
    · simp
    · intro i g1 g2; simp
  | diagonal d =>
    obtain ⟨hd, hs⟩ := hT
    obtain ⟨c, h1, h2, h3, h4⟩ := c56_multiply d v hd hv hs
    refine ⟨c, h1, h2, h3.trans hs, ?_⟩
    rw [h4, tensorMatrix, diagMatrix_mul _ _ (ravel_length_eq d v hd hv hs)]
  | full m => exact c56_matmul m v hv hT.1 hT.2
  | other n => exact absurd hT id

/-- C57: tensors of any dimensions which represent the same matrix give the same product. -/
theorem c57_agree [Semiring R] (T T' : Tensor R) (v : Tree (Arr R)) (hv : ValidTree v)
    (hT : Compatible T v) (hT' : Compatible T' v)
    (h : tensorMatrix T (ravel v).length = tensorMatrix T' (ravel v).length) :
    tensorMatmul T v = tensorMatmul T' v := by
  obtain ⟨c, h1, h2, h3, h4⟩ := c57_matrix T v hv hT
  obtain ⟨c', h1', h2', h3', h4'⟩ := c57_matrix T' v hv hT'
  rw [h1, h1', ravel_inj c c' h2 h2' (h3.trans h3'.symm) (by rw [h4, h4', h])]

/-- C57: other dimensions are rejected. -/
theorem c57_rejected [Semiring R] (n : Int) (v : Tree (Arr R)) :
    tensorMatmul (.other n) v = .error .notImplementedError := rfl

/-- Compatible tensors of all dimensions representing three times the identity. -/
example : let T : Tensor Int := .diagonal (treeScale 3 (exampleArr.map (Arr.map (fun _ => 1))))
    let M : Tensor Int := .full [[3, 0, 0, 0], [0, 3, 0, 0], [0, 0, 3, 0], [0, 0, 0, 3]]
    Compatible (.scalar 3) exampleArr ∧ Compatible T exampleArr ∧ Compatible M exampleArr ∧
    tensorMatrix (.scalar 3) 4 = tensorMatrix T 4 ∧ tensorMatrix T 4 = tensorMatrix M 4 := by
  refine ⟨trivial, ⟨?_, rfl⟩, ⟨rfl, ?_⟩, ?_, ?_⟩
  · simp [ValidTree, exampleArr, treeScale, Tree.map, Tree.mapL, Tree.leaves, Tree.leavesL,
      Arr.Valid, Arr.map]
  · simp [exampleArr, ravel, Tree.leaves, Tree.leavesL]
  · decide
  · decide

/-! ### C85: trees of different structure -/

/-- C85: the binary operations on trees raise an exception for trees of different structure. -/
def C85Statement : Prop := ∀ a b : Tree (Arr Int), ValidTree a → ValidTree b → a.shape ≠ b.shape →
  (∃ e, treeAdd a b = .error e) ∧ (∃ e, treeMultiply a b = .error e) ∧
  (∃ e, tensorMatmul (.diagonal a) b = .error e) ∧ ∃ e, treeDot a b = .error e

/-- C85 (partial): the sum, the element-wise product and the product with a diagonal matrix raise
`ValueError`. -/
theorem c85_structure_partial [Semiring R] (a b : Tree (Arr R)) (h : a.shape ≠ b.shape) :
    treeAdd a b = .error .valueError ∧ treeMultiply a b = .error .valueError ∧
    tensorMatmul (.diagonal a) b = .error .valueError := by
  simp [treeAdd, treeMultiply, tensorMatmul, treeMap2, h]

/-- The scalar product of trees of different structure silently ignores the names and the surplus
leaves: `tree_dot({"a": [2]}, {"b": [3], "c": [5]})` is `6`. -/
theorem c85_false_dot : treeDot (.node (.dict [['a']]) [.leaf ⟨[1], [2]⟩] : Tree (Arr Int))
    (.node (.dict [['b'], ['c']]) [.leaf ⟨[1], [3]⟩, .leaf ⟨[1], [5]⟩]) = .ok 6 := rfl

/-- C85 is false of the code. -/
theorem c85_false : ¬ C85Statement := by
  intro h
  obtain ⟨-, -, -, e, he⟩ := h (.node (.dict [['a']]) [.leaf ⟨[1], [2]⟩])
    (.node (.dict [['b'], ['c']]) [.leaf ⟨[1], [3]⟩, .leaf ⟨[1], [5]⟩])
    (by simp [ValidTree, Tree.leaves, Tree.leavesL, Arr.Valid])
    (by simp [ValidTree, Tree.leaves, Tree.leavesL, Arr.Valid])
    (by simp [Tree.shape, Tree.map, Tree.mapL])
  rw [c85_false_dot] at he
  cases he

/-- C85 (partial): in general the scalar product depends on the leaves only, and surplus leaves of
either tree are ignored. -/
theorem c85_dot_partial [Semiring R] (a b : Tree (Arr R)) (n : Nat)
    (h : n = min a.leaves.length b.leaves.length) :
    treeDot a b = treeDot (.node .list ((a.leaves.take n).map .leaf))
      (.node .list ((b.leaves.take n).map .leaf)) := by
  have hl : ∀ ls : List (Arr R), (Tree.node .list (ls.map .leaf)).leaves = ls := by
    intro ls
    rw [Tree.leaves]
    induction ls with
    | nil => rfl
    | cons x xs ih => simp [Tree.leavesL, Tree.leaves, ih]
  unfold treeDot
  rw [hl, hl]
  subst h
  generalize a.leaves = as
  generalize b.leaves = bs
  have : ∀ (g : Arr R → Arr R → Except PyErr R), zipExcept g as bs
      = zipExcept g (as.take (min as.length bs.length)) (bs.take (min as.length bs.length)) := by
    intro g
    induction as generalizing bs with
    | nil => simp [zipExcept]
    | cons x xs ih =>
      cases bs with
      | nil => simp [zipExcept]
      | cons y ys =>
        have hmin : min (x :: xs).length (y :: ys).length = min xs.length ys.length + 1 := by
          simp
        rw [hmin]
        simp only [List.take_succ_cons, zipExcept]
        rw [ih ys]
  rw [this]

end JaxSgmc
