import Verif.Spec.Broadcast
import Verif.Props.TreeUtil
import Verif.Props.TreeIntegrator

/-!
# C161: arrays of different shapes
-/

namespace JaxSgmc

open Spec

variable {R : Type}

/-- The reversed shape `ds` can be broadcast to the reversed shape `rs`. -/
def Fits : List Nat → List Nat → Prop
  | _, [] => True
  | r :: rs, d :: ds => (d = 1 ∨ d = r) ∧ Fits rs ds
  | [], _ :: _ => False

theorem fits_refl : ∀ s, Fits s s
  | [] => trivial
  | _ :: s => ⟨.inr rfl, fits_refl s⟩

theorem bcast_fits : ∀ as bs s : List Nat, Arr.bcast as bs = some s → Fits s as ∧ Fits s bs := by
  intro as
  induction as with
  | nil =>
    intro bs s h
    obtain rfl : bs = s := by simpa [Arr.bcast] using h
    exact ⟨by cases bs <;> trivial, fits_refl _⟩
  | cons a as ih =>
    intro bs s h
    cases bs with
    | nil =>
      obtain rfl : a :: as = s := by simpa [Arr.bcast] using h
      exact ⟨fits_refl _, trivial⟩
    | cons b bs =>
      simp only [Arr.bcast] at h
      split at h
      · next hab =>
        obtain ⟨s', h1, rfl⟩ := Option.map_eq_some_iff.1 h
        obtain ⟨h2, h3⟩ := ih bs s' h1
        exact ⟨⟨.inr rfl, h2⟩, ⟨by rcases hab with rfl | rfl <;> simp, h3⟩⟩
      · split at h
        · next ha =>
          obtain ⟨s', h1, rfl⟩ := Option.map_eq_some_iff.1 h
          obtain ⟨h2, h3⟩ := ih bs s' h1
          exact ⟨⟨.inl ha, h2⟩, ⟨.inr rfl, h3⟩⟩
        · cases h

theorem bcastIndex_lt : ∀ (rs ds : List Nat) (k : Nat), Fits rs ds → k < rs.prod →
    Arr.bcastIndex rs ds k < ds.prod := by
  intro rs
  induction rs with
  | nil =>
    intro ds k h hk
    cases ds with
    | nil => simp [Arr.bcastIndex]
    | cons d ds => exact h.elim
  | cons r rs ih =>
    intro ds k h hk
    cases ds with
    | nil => simp [Arr.bcastIndex]
    | cons d ds =>
      rw [List.prod_cons] at hk
      have h2 := ih ds (k / r) h.2 (Nat.div_lt_of_lt_mul hk)
      have hr : 0 < r := Nat.pos_of_ne_zero (by rintro rfl; simp at hk)
      rw [Arr.bcastIndex, List.prod_cons]
      by_cases hd : d = 1
      · simpa [hd] using h2
      · rw [if_neg hd]
        obtain rfl : d = r := h.1.resolve_left hd
        calc k % d + d * Arr.bcastIndex rs ds (k / d) < d + d * Arr.bcastIndex rs ds (k / d) := by
              have := Nat.mod_lt k hr; omega
          _ = d * (Arr.bcastIndex rs ds (k / d) + 1) := by ring
          _ ≤ d * ds.prod := Nat.mul_le_mul_left _ h2

/-- The broadcast data has one entry for each position of the result. -/
theorem broadcastData_get (shape : List Nat) (a : Arr R) (ha : a.Valid) (h : Fits shape.reverse a.shape.reverse) :
    (Arr.broadcastData shape a).length = shape.prod ∧ ∀ k < shape.prod, ∃ x,
      a.data[Arr.bcastIndex shape.reverse a.shape.reverse k]? = some x ∧ (Arr.broadcastData shape a)[k]? = some x := by
  have key : ∀ n ≤ shape.prod, ((List.range n).filterMap fun k =>
      a.data[Arr.bcastIndex shape.reverse a.shape.reverse k]?).length = n ∧ ∀ k < n, ∃ x,
      a.data[Arr.bcastIndex shape.reverse a.shape.reverse k]? = some x ∧
      ((List.range n).filterMap fun k => a.data[Arr.bcastIndex shape.reverse a.shape.reverse k]?)[k]? = some x := by
    intro n
    induction n with
    | zero => intro _; simp
    | succ n ih =>
      intro hn
      obtain ⟨h1, h2⟩ := ih (by omega)
      have hlt : Arr.bcastIndex shape.reverse a.shape.reverse n < a.data.length := by
        rw [ha, ← List.prod_reverse]
        exact bcastIndex_lt _ _ _ h (by rw [List.prod_reverse]; omega)
      rw [List.range_succ, List.filterMap_append]
      have hx : a.data[Arr.bcastIndex shape.reverse a.shape.reverse n]? =
          some (a.data[Arr.bcastIndex shape.reverse a.shape.reverse n]) := List.getElem?_eq_getElem hlt
      have he : List.filterMap (fun k => a.data[Arr.bcastIndex shape.reverse a.shape.reverse k]?) [n] =
          [a.data[Arr.bcastIndex shape.reverse a.shape.reverse n]] := by
        simp only [List.filterMap_cons, hx, List.filterMap_nil]
      rw [he]
      refine ⟨by simp [h1], fun k hk => ?_⟩
      by_cases hkn : k < n
      · obtain ⟨x, h3, h4⟩ := h2 k hkn
        exact ⟨x, h3, by rw [List.getElem?_append_left (by omega), h4]⟩
      · obtain rfl : k = n := by omega
        refine ⟨_, hx, ?_⟩
        rw [List.getElem?_append_right (by omega), h1]
        simp
  exact key shape.prod (Nat.le_refl _)

/-! ## Indices -/

/-- The position, with shape and index in reversed order. -/
def posRev : List Nat → List Nat → Nat
  | d :: ds, i :: is => i + d * posRev ds is
  | _, _ => 0

theorem posRev_snoc (d i : Nat) : ∀ ds is : List Nat, ds.length = is.length →
    posRev (ds ++ [d]) (is ++ [i]) = posRev ds is + ds.prod * i := by
  intro ds
  induction ds with
  | nil =>
    intro is h
    obtain rfl : is = [] := List.length_eq_zero_iff.1 h.symm
    simp [posRev]
  | cons e ds ih =>
    intro is h
    cases is with
    | nil => simp at h
    | cons j is =>
      simp only [List.cons_append, posRev, List.prod_cons]
      rw [ih is (by simpa using h)]
      ring

theorem position_eq : ∀ ds is : List Nat, ds.length = is.length →
    position ds is = posRev ds.reverse is.reverse := by
  intro ds
  induction ds with
  | nil => intro is _; cases is <;> simp [position, posRev]
  | cons d ds ih =>
    intro is h
    cases is with
    | nil => simp at h
    | cons i is =>
      simp only [List.length_cons, Nat.add_right_cancel_iff] at h
      rw [position, List.reverse_cons, List.reverse_cons, posRev_snoc _ _ _ _ (by simp [h]), List.prod_reverse, ih is h]
      ring

/-- The index of the operand, with shape and index in reversed order. -/
def clip : List Nat → List Nat → List Nat := List.zipWith fun d i => if d = 1 then 0 else i

theorem clip_reverse (shape index : List Nat) (h : shape.length ≤ index.length) :
    (operandIndex shape index).reverse = clip shape.reverse index.reverse := by
  unfold operandIndex clip
  have hl : shape.length = (index.drop (index.length - shape.length)).length := by
    rw [List.length_drop]; omega
  rw [List.reverse_zipWith hl, List.reverse_drop]
  have hn : index.length - (index.length - shape.length) = shape.length := by omega
  rw [hn]
  apply List.ext_getElem
  · simp
  · intro i h1 h2
    simp

theorem posRev_lt : ∀ (rs is : List Nat), List.Forall₂ (fun d i => i < d) rs is → posRev rs is < rs.prod := by
  intro rs is h
  induction h with
  | nil => simp [posRev]
  | @cons d i rs is hdi _ ih =>
    rw [posRev, List.prod_cons]
    calc i + d * posRev rs is < d + d * posRev rs is := by omega
      _ = d * (posRev rs is + 1) := by ring
      _ ≤ d * rs.prod := Nat.mul_le_mul_left _ ih

theorem bcastIndex_posRev (rs is : List Nat) (h : List.Forall₂ (fun d i => i < d) rs is) : ∀ ds, Fits rs ds →
    Arr.bcastIndex rs ds (posRev rs is) = posRev ds (clip ds is) := by
  induction h with
  | nil =>
    intro ds hf
    cases ds with
    | nil => rfl
    | cons d ds => exact hf.elim
  | @cons r i rs is hri _ ih =>
    intro ds hf
    cases ds with
    | nil => rfl
    | cons d ds =>
      have hr : 0 < r := by omega
      have h1 : (i + r * posRev rs is) / r = posRev rs is := by
        rw [Nat.add_mul_div_left _ _ hr, Nat.div_eq_of_lt hri, Nat.zero_add]
      have h2 : (i + r * posRev rs is) % r = i := by
        rw [Nat.add_mul_mod_self_left, Nat.mod_eq_of_lt hri]
      simp only [posRev, Arr.bcastIndex, clip, List.zipWith_cons_cons, h1, h2]
      rw [ih ds hf.2]
      rfl

/-! ## Shapes -/

theorem bcast_common : ∀ as bs s : List Nat, Arr.bcast as bs = some s → s.length = max as.length bs.length ∧
    ∀ j : Nat, (s[j]?).getD 1 = if (as[j]?).getD 1 = 1 then (bs[j]?).getD 1 else (as[j]?).getD 1 := by
  intro as
  induction as with
  | nil =>
    intro bs s h
    obtain rfl : bs = s := by simpa [Arr.bcast] using h
    simp
  | cons a as ih =>
    intro bs s h
    cases bs with
    | nil =>
      obtain rfl : a :: as = s := by simpa [Arr.bcast] using h
      refine ⟨by simp, fun j => ?_⟩
      split <;> simp_all
    | cons b bs =>
      simp only [Arr.bcast] at h
      split at h
      · next hab =>
        obtain ⟨s', h1, rfl⟩ := Option.map_eq_some_iff.1 h
        obtain ⟨h2, h3⟩ := ih bs s' h1
        refine ⟨by simp [h2], fun j => ?_⟩
        cases j with
        | zero =>
          simp only [List.getElem?_cons_zero, Option.getD_some]
          split
          · omega
          · rfl
        | succ j => simpa using h3 j
      · split at h
        · next ha =>
          obtain ⟨s', h1, rfl⟩ := Option.map_eq_some_iff.1 h
          obtain ⟨h2, h3⟩ := ih bs s' h1
          refine ⟨by simp [h2], fun j => ?_⟩
          cases j with
          | zero => simp [ha]
          | succ j => simpa using h3 j
        · cases h

theorem bcast_iff : ∀ as bs : List Nat, (∃ s, Arr.bcast as bs = some s) ↔
    ∀ j : Nat, (as[j]?).getD 1 = (bs[j]?).getD 1 ∨ (as[j]?).getD 1 = 1 ∨ (bs[j]?).getD 1 = 1 := by
  intro as
  induction as with
  | nil => intro bs; simp [Arr.bcast]
  | cons a as ih =>
    intro bs
    cases bs with
    | nil => simp [Arr.bcast]
    | cons b bs =>
      constructor
      · rintro ⟨s, h⟩ j
        simp only [Arr.bcast] at h
        split at h
        · next hab =>
          obtain ⟨s', h1, -⟩ := Option.map_eq_some_iff.1 h
          cases j with
          | zero => simp; omega
          | succ j => simpa using (ih bs).1 ⟨s', h1⟩ j
        · split at h
          · next ha =>
            obtain ⟨s', h1, -⟩ := Option.map_eq_some_iff.1 h
            cases j with
            | zero => simp; omega
            | succ j => simpa using (ih bs).1 ⟨s', h1⟩ j
          · cases h
      · intro h
        obtain ⟨s, hs⟩ := (ih bs).2 fun j => by simpa using h (j + 1)
        have h0 := h 0
        simp only [List.getElem?_cons_zero, Option.getD_some] at h0
        simp only [Arr.bcast, hs, Option.map_some]
        split
        · exact ⟨_, rfl⟩
        · split
          · exact ⟨_, rfl⟩
          · omega

/-- Shapes which do not fit are rejected, all others are broadcast. -/
theorem arr_zipWith_broadcast (f : R → R → R) (a b : Arr R) (ha : a.Valid) (hb : b.Valid) :
    (¬ Broadcastable a.shape b.shape → ∃ e, Arr.zipWith f a b = .error e) ∧
    (Broadcastable a.shape b.shape → ∃ c, Arr.zipWith f a b = .ok c ∧ IsBroadcast f a b c) := by
  constructor
  · intro h
    cases hs : Arr.bcast a.shape.reverse b.shape.reverse with
    | some s => exact absurd ((bcast_iff _ _).1 ⟨s, hs⟩) h
    | none =>
      simp only [Arr.zipWith, hs]
      split
      · exact ⟨_, rfl⟩
      · exact ⟨_, rfl⟩
  · intro h
    obtain ⟨s, hs⟩ := (bcast_iff a.shape.reverse b.shape.reverse).2 h
    obtain ⟨fa, fb⟩ := bcast_fits _ _ _ hs
    obtain ⟨hl, hd⟩ := bcast_common _ _ _ hs
    obtain ⟨la, ga⟩ := broadcastData_get s.reverse a ha (by rw [List.reverse_reverse]; exact fa)
    obtain ⟨lb, gb⟩ := broadcastData_get s.reverse b hb (by rw [List.reverse_reverse]; exact fb)
    refine ⟨⟨s.reverse, List.zipWith f (Arr.broadcastData s.reverse a) (Arr.broadcastData s.reverse b)⟩,
      by simp only [Arr.zipWith, hs], ?_, ⟨?_, ?_⟩, ?_⟩
    · simp only [Arr.Valid, List.length_zipWith, la, lb, Nat.min_self]
    · simpa using hl
    · intro j
      simp only [dimFromEnd, List.reverse_reverse]
      exact hd j
    · intro index hix
      have hlen := hix.length_eq
      have hrev : List.Forall₂ (fun d i => i < d) s index.reverse := by
        have := List.forall₂_reverse_iff.2 hix
        simpa using this
      simp only [List.length_reverse] at hlen hl
      have hpos : position s.reverse index = posRev s index.reverse := by
        rw [position_eq _ _ (by simpa using hlen), List.reverse_reverse]
      have hlt : position s.reverse index < s.reverse.prod := by
        rw [hpos, List.prod_reverse]; exact posRev_lt _ _ hrev
      have opa : ∀ t : List Nat, Fits s t.reverse → t.length ≤ index.length →
          Arr.bcastIndex s.reverse.reverse t.reverse (position s.reverse index) =
            position t (operandIndex t index) := by
        intro t ht hle
        rw [List.reverse_reverse, hpos, bcastIndex_posRev _ _ hrev _ ht, position_eq, clip_reverse _ _ hle]
        unfold operandIndex
        rw [List.length_zipWith, List.length_drop]
        omega
      obtain ⟨x, x1, x2⟩ := ga _ hlt
      obtain ⟨y, y1, y2⟩ := gb _ hlt
      rw [opa a.shape fa (by omega)] at x1
      rw [opa b.shape fb (by omega)] at y1
      refine ⟨x, y, x1, y1, ?_⟩
      rw [List.getElem?_zipWith, x2, y2]

theorem zipExcept_broadcast (f : R → R → R) : ∀ as bs : List (Arr R), (∀ a ∈ as, a.Valid) → (∀ b ∈ bs, b.Valid) →
    as.length = bs.length →
    (List.Forall₂ (fun a b : Arr R => Broadcastable a.shape b.shape) as bs → ∃ cs,
      zipExcept (Arr.zipWith f) as bs = .ok cs ∧ cs.length = as.length ∧
      ∀ (i : Nat) (c : Arr R), cs[i]? = some c → ∃ a b, as[i]? = some a ∧ bs[i]? = some b ∧ IsBroadcast f a b c) ∧
    (¬ List.Forall₂ (fun a b : Arr R => Broadcastable a.shape b.shape) as bs →
      ∃ e, zipExcept (Arr.zipWith f) as bs = .error e) := by
  intro as
  induction as with
  | nil =>
    intro bs _ _ hl
    obtain rfl : bs = [] := List.length_eq_zero_iff.1 hl.symm
    exact ⟨fun _ => ⟨[], rfl, rfl, by simp⟩, fun h => absurd .nil h⟩
  | cons a as ih =>
    intro bs ha hb hl
    cases bs with
    | nil => simp at hl
    | cons b bs =>
      obtain ⟨i1, i2⟩ := ih bs (fun x hx => ha x (by simp [hx])) (fun x hx => hb x (by simp [hx])) (by simpa using hl)
      obtain ⟨z1, z2⟩ := arr_zipWith_broadcast f a b (ha a (by simp)) (hb b (by simp))
      constructor
      · intro h
        obtain ⟨h1, h2⟩ := List.forall₂_cons.1 h
        obtain ⟨c, c1, c2⟩ := z2 h1
        obtain ⟨cs, k1, k2, k3⟩ := i1 h2
        refine ⟨c :: cs, by simp only [zipExcept, c1, k1], by simp [k2], ?_⟩
        intro i c' hc'
        cases i with
        | zero =>
          obtain rfl : c = c' := by simpa using hc'
          exact ⟨a, b, rfl, rfl, c2⟩
        | succ i => simpa using k3 i c' (by simpa using hc')
      · intro h
        by_cases h1 : Broadcastable a.shape b.shape
        · obtain ⟨c, c1, -⟩ := z2 h1
          obtain ⟨e, he⟩ := i2 fun h2 => h (.cons h1 h2)
          exact ⟨e, by simp only [zipExcept, c1, he]⟩
        · obtain ⟨e, he⟩ := z1 h1
          exact ⟨e, by simp only [zipExcept, he]⟩

/-- The full statement of C161. -/
def C161Statement : Prop :=
  ∀ a b : Tree (Arr Int), ValidTree a → ValidTree b → ¬ SameShape a b →
    (∃ e, treeAdd a b = .error e) ∧ (∃ e, treeMultiply a b = .error e)

/-- C161 is false of the code: the sum of an array with one entry and one with two entries is an array with two
entries. -/
theorem c161_false : ¬ C161Statement := by
  intro h
  obtain ⟨⟨e, he⟩, -⟩ := h (.leaf ⟨[1], [5]⟩) (.leaf ⟨[2], [1, 2]⟩) (by simp [ValidTree, Tree.leaves, Arr.Valid])
    (by simp [ValidTree, Tree.leaves, Arr.Valid]) (by simp [SameShape, Tree.map])
  have : treeAdd (.leaf ⟨[1], [5]⟩ : Tree (Arr Int)) (.leaf ⟨[2], [1, 2]⟩) = .ok (.leaf ⟨[2], [6, 7]⟩) := by
    unfold treeAdd treeMap2
    exact (if_pos (by rfl)).trans (by rfl)
  rw [this] at he
  cases he

/-- What a binary element-wise operation on two trees does: it raises an exception if the structures differ or the shapes
of a pair of leaves do not fit, otherwise each leaf is the broadcast result. -/
def TreeBroadcast (f : R → R → R) (op : Tree (Arr R) → Tree (Arr R) → Except PyErr (Tree (Arr R))) : Prop :=
  ∀ a b : Tree (Arr R), ValidTree a → ValidTree b →
    (a.shape = b.shape ∧ List.Forall₂ (fun x y : Arr R => Broadcastable x.shape y.shape) a.leaves b.leaves →
      ∃ c, op a b = .ok c ∧ c.shape = a.shape ∧ ∀ (i : Nat) (z : Arr R), c.leaves[i]? = some z →
        ∃ x y, a.leaves[i]? = some x ∧ b.leaves[i]? = some y ∧ IsBroadcast f x y z) ∧
    (¬ (a.shape = b.shape ∧ List.Forall₂ (fun x y : Arr R => Broadcastable x.shape y.shape) a.leaves b.leaves) →
      ∃ e, op a b = .error e)

theorem treeMap2_broadcast (f : R → R → R) : TreeBroadcast f (treeMap2 (Arr.zipWith f)) := by
  intro a b ha hb
  by_cases hs : a.shape = b.shape
  · have hl : a.leaves.length = b.leaves.length := by
      rw [← Tree.leaves_length_shape a, ← Tree.leaves_length_shape b, hs]
    obtain ⟨h1, h2⟩ := zipExcept_broadcast f a.leaves b.leaves ha hb hl
    constructor
    · rintro ⟨-, h⟩
      obtain ⟨cs, k1, k2, k3⟩ := h1 h
      obtain ⟨c, g1, g2, g3⟩ := Tree.unflatten_ok a cs k2
      refine ⟨c, by simp [treeMap2, hs, k1, g1], g3, ?_⟩
      rw [g2]
      exact k3
    · intro h
      obtain ⟨e, he⟩ := h2 fun h' => h ⟨hs, h'⟩
      exact ⟨e, by simp [treeMap2, hs, he]⟩
  · exact ⟨fun h => absurd h.1 hs, fun _ => ⟨.valueError, by simp [treeMap2, hs]⟩⟩

/-- **C161** (partial).  `tree_add`, `tree_multiply` and the product with a diagonal matrix follow the rules of
broadcasting: an exception is raised exactly if the structures differ or the shapes of two leaves do not fit, and otherwise
the entries of the result are the sums (products) of the broadcast entries. -/
theorem c161_broadcast_partial [Semiring R] :
    TreeBroadcast (R := R) (· + ·) treeAdd ∧ TreeBroadcast (R := R) (· * ·) treeMultiply ∧
      TreeBroadcast (R := R) (· * ·) fun a b => tensorMatmul (.diagonal a) b :=
  ⟨treeMap2_broadcast _, treeMap2_broadcast _, treeMap2_broadcast _⟩

/-- A column and a row give a matrix. -/
example : treeMultiply (.leaf ⟨[2, 1], [2, 3]⟩ : Tree (Arr Int)) (.leaf ⟨[3], [1, 10, 100]⟩) =
    .ok (.leaf ⟨[2, 3], [2, 20, 200, 3, 30, 300]⟩) ∧ Broadcastable [2, 1] [3] ∧ ¬ Broadcastable [2] [3] := by
  refine ⟨by unfold treeMultiply treeMap2; exact (if_pos (by rfl)).trans (by rfl), fun j => ?_, fun h => ?_⟩
  · match j with
    | 0 => simp [dimFromEnd]
    | 1 => simp [dimFromEnd]
    | j + 2 => simp [dimFromEnd]
  · have := h 0
    simp [dimFromEnd] at this

/-- C161 (partial): the second moments of `rms_prop` reject a gradient of another size, unless one of both has
size one. -/
theorem c161_rms_partial (alpha lmbd : ℝ) (v sample grad : List ℝ) (h : v.length ≠ grad.length) (hv : v.length ≠ 1)
    (hg : grad.length ≠ 1) : ∃ e, (rmsFlat alpha lmbd).update v [sample, grad] = .error e := by
  obtain ⟨h1, -⟩ := arr_zipWith_broadcast (fun v g => alpha * v + (1 - alpha) * (g * g)) ⟨[v.length], v⟩
    ⟨[grad.length], grad⟩ (by simp [Arr.Valid]) (by simp [Arr.Valid])
  obtain ⟨e, he⟩ := h1 (by
    intro hb
    have := hb 0
    simp only [dimFromEnd, List.reverse_singleton, List.getElem?_cons_zero, Option.getD_some] at this
    omega)
  exact ⟨e, by simp only [rmsFlat, flatZip, he, Except.map]⟩

example : ∃ e, (rmsFlat 0.9 1e-5).update [1, 1, 1] [[0, 0, 0], [1, 2]] = .error e :=
  c161_rms_partial _ _ _ _ _ (by simp) (by simp) (by simp)

end JaxSgmc
