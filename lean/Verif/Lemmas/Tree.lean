import Verif.Spec.Tree
import Mathlib.Data.List.Perm.Basic

/-!
# Lemmas about pytrees
-/

namespace JaxSgmc

open Spec

variable {α β γ : Type}

namespace Tree

theorem leavesL_eq (ts : List (Tree α)) : leavesL ts = ts.flatMap leaves := by
  induction ts with
  | nil => simp [leavesL]
  | cons t ts ih => simp [leavesL, ih]

theorem mapL_eq (f : α → β) (ts : List (Tree α)) : mapL f ts = ts.map (map f) := by
  induction ts with
  | nil => simp [mapL]
  | cons t ts ih => simp [mapL, ih]

theorem leaves_map (f : α → β) (t : Tree α) : (t.map f).leaves = t.leaves.map f := by
  induction t using Tree.ind with
  | hleaf a => simp [map, leaves]
  | hnone => simp [map, leaves]
  | hnode k ts ih =>
    simp only [map, leaves, mapL_eq, leavesL_eq, List.flatMap_map, List.map_flatMap]
    exact List.flatMap_congr (fun t ht => ih t ht)

theorem map_map (f : α → β) (g : β → γ) (t : Tree α) : (t.map f).map g = t.map (g ∘ f) := by
  induction t using Tree.ind with
  | hleaf a => simp [map]
  | hnone => simp [map]
  | hnode k ts ih =>
    simp only [map, mapL_eq, List.map_map, node.injEq, true_and]
    exact List.map_congr_left (fun t ht => ih t ht)

theorem map_congr (f g : α → β) (t : Tree α) (h : ∀ a ∈ t.leaves, f a = g a) : t.map f = t.map g := by
  induction t using Tree.ind with
  | hleaf a => simp [map, leaves] at *; exact h
  | hnone => simp [map]
  | hnode k ts ih =>
    simp only [map, mapL_eq, node.injEq, true_and]
    refine List.map_congr_left (fun t ht => ih t ht ?_)
    intro a ha
    apply h
    simp only [leaves, leavesL_eq, List.mem_flatMap]
    exact ⟨t, ht, ha⟩

theorem map_id (t : Tree α) : t.map id = t := by
  induction t using Tree.ind with
  | hleaf a => simp [map]
  | hnone => simp [map]
  | hnode k ts ih =>
    simp only [map, mapL_eq, node.injEq, true_and]
    conv_rhs => rw [← List.map_id ts]
    exact List.map_congr_left (fun t ht => ih t ht)

theorem shape_map (f : α → β) (t : Tree α) : (t.map f).shape = t.shape := by
  simp only [shape, map_map, Function.comp_def]

theorem leaves_length_shape (t : Tree α) : t.shape.leaves.length = t.leaves.length := by
  simp [shape, leaves_map]

/-- Filling with at least as many values as leaves. -/
theorem fill_append (t : Tree β) : ∀ (as bs : List α), as.length = t.leaves.length →
    ∃ u, t.fill (as ++ bs) = some (u, bs) ∧ u.leaves = as ∧ u.shape = t.shape := by
  induction t using Tree.ind with
  | hleaf b =>
    intro as bs h
    match as, h with
    | [a], _ => exact ⟨.leaf a, by simp [fill], by simp [leaves], by simp [shape, map]⟩
  | hnone =>
    intro as bs h
    simp [leaves] at h
    subst h
    exact ⟨.none, by simp [fill], by simp [leaves], by simp [shape, map]⟩
  | hnode k ts ih =>
    intro as bs h
    have key : ∀ (ts : List (Tree β)), (∀ t ∈ ts, ∀ (as bs : List α), as.length = t.leaves.length →
        ∃ u, t.fill (as ++ bs) = some (u, bs) ∧ u.leaves = as ∧ u.shape = t.shape) →
        ∀ (as bs : List α), as.length = (leavesL ts).length →
        ∃ us, fillL ts (as ++ bs) = some (us, bs) ∧ leavesL us = as ∧
          us.map shape = ts.map shape := by
      intro ts
      induction ts with
      | nil =>
        intro _ as bs h
        simp [leavesL] at h
        subst h
        exact ⟨[], by simp [fillL], by simp [leavesL], by simp⟩
      | cons t ts iht =>
        intro hts as bs h
        simp only [leavesL, List.length_append] at h
        obtain ⟨u, h1, h2, h3⟩ := hts t (by simp) (as.take t.leaves.length)
          (as.drop t.leaves.length ++ bs) (by simp; omega)
        obtain ⟨us, g1, g2, g3⟩ := iht (fun t ht => hts t (by simp [ht])) (as.drop t.leaves.length)
          bs (by simp; omega)
        refine ⟨u :: us, ?_, ?_, ?_⟩
        · have : as ++ bs = as.take t.leaves.length ++ (as.drop t.leaves.length ++ bs) := by
            rw [← List.append_assoc, List.take_append_drop]
          simp only [fillL]
          rw [this, h1]
          simp [g1]
        · simp [leavesL, h2, g2]
        · simp [h3, g3]
    obtain ⟨us, h1, h2, h3⟩ := key ts ih as bs h
    refine ⟨.node k us, by simp [fill, h1], by simp [leaves, h2], ?_⟩
    simp only [shape, map, mapL_eq, node.injEq, true_and]
    exact h3

/-- A tree is determined by its structure and its leaves. -/
theorem ext (t : Tree α) : ∀ (u : Tree α), t.shape = u.shape → t.leaves = u.leaves → t = u := by
  induction t using Tree.ind with
  | hleaf a =>
    intro u hs hl
    cases u with
    | leaf b => simp [leaves] at hl; rw [hl]
    | none => simp [shape, map] at hs
    | node k ts => simp [shape, map] at hs
  | hnone =>
    intro u hs hl
    cases u with
    | leaf b => simp [shape, map] at hs
    | none => rfl
    | node k ts => simp [shape, map] at hs
  | hnode k ts ih =>
    intro u hs hl
    cases u with
    | leaf b => simp [shape, map] at hs
    | none => simp [shape, map] at hs
    | node k' us =>
      simp only [shape, map, mapL_eq, node.injEq] at hs
      obtain ⟨rfl, hs⟩ := hs
      simp only [leaves] at hl
      congr 1
      clear k
      induction ts generalizing us with
      | nil =>
        cases us with
        | nil => rfl
        | cons u us => simp at hs
      | cons t ts iht =>
        cases us with
        | nil => simp at hs
        | cons u us =>
          simp only [List.map_cons, List.cons.injEq] at hs
          simp only [leavesL] at hl
          have hlen : t.leaves.length = u.leaves.length := by
            rw [← leaves_length_shape t, ← leaves_length_shape u]
            exact congrArg (fun x : Tree Unit => x.leaves.length) hs.1
          obtain ⟨h1, h2⟩ := List.append_inj hl hlen
          rw [ih t (by simp) u hs.1 h1, iht (fun t ht => ih t (by simp [ht])) us hs.2 h2]

theorem unflatten_ok (t : Tree β) (as : List α) (h : as.length = t.leaves.length) :
    ∃ u, unflatten t as = .ok u ∧ u.leaves = as ∧ u.shape = t.shape := by
  obtain ⟨u, h1, h2, h3⟩ := fill_append t as [] h
  rw [List.append_nil] at h1
  exact ⟨u, by simp [unflatten, h1], h2, h3⟩

/-- `tree_unflatten(tree_structure(t), tree_leaves(t)) == t`. -/
theorem unflatten_leaves (s : Tree β) (t : Tree α) (h : s.shape = t.shape) :
    unflatten s t.leaves = .ok t := by
  obtain ⟨u, h1, h2, h3⟩ := unflatten_ok s t.leaves (by
    rw [← leaves_length_shape t, ← leaves_length_shape s, h])
  rw [h1, ext u t (h3.trans h) h2]

theorem unflatten_congr (s : Tree β) (s' : Tree γ) (h : s.shape = s'.shape) (as : List α)
    (hl : as.length = s.leaves.length) : unflatten s as = unflatten s' as := by
  obtain ⟨u, h1, h2, h3⟩ := unflatten_ok s as hl
  have := unflatten_leaves s' u (h.symm.trans h3.symm)
  rw [h2] at this
  rw [h1, this]

/-- Values left over or missing are rejected. -/
theorem fill_none (t : Tree β) : ∀ (as : List α), as.length < t.leaves.length →
    t.fill as = Option.none := by
  induction t using Tree.ind with
  | hleaf b =>
    intro as h
    match as, h with
    | [], _ => simp [fill]
  | hnone => intro as h; simp [leaves] at h
  | hnode k ts ih =>
    intro as h
    have key : ∀ (ts : List (Tree β)), (∀ t ∈ ts, ∀ (as : List α), as.length < t.leaves.length →
        t.fill as = Option.none) → ∀ (as : List α), as.length < (leavesL ts).length →
        fillL ts as = Option.none := by
      intro ts
      induction ts with
      | nil => intro _ as h; simp [leavesL] at h
      | cons t ts iht =>
        intro hts as h
        simp only [fillL]
        by_cases hlt : as.length < t.leaves.length
        · rw [hts t (by simp) as hlt]
        · obtain ⟨u, h1, _, _⟩ := fill_append t (as.take t.leaves.length) (as.drop t.leaves.length)
            (by simp; omega)
          rw [List.take_append_drop] at h1
          rw [h1]
          simp only [leavesL, List.length_append] at h
          simp [iht (fun t ht => hts t (by simp [ht])) (as.drop t.leaves.length) (by simp; omega)]
    simp [fill, key ts ih as h]

theorem unflatten_length {t : Tree β} {as : List α} {u : Tree α} (h : unflatten t as = .ok u) :
    as.length = t.leaves.length := by
  by_contra hne
  rcases Nat.lt_or_gt_of_ne hne with hlt | hgt
  · simp [unflatten, fill_none t as hlt] at h
  · obtain ⟨u', h1, _, _⟩ := fill_append t (as.take t.leaves.length) (as.drop t.leaves.length)
      (by simp; omega)
    rw [List.take_append_drop] at h1
    have hd : as.drop t.leaves.length ≠ [] := by
      intro h0
      have := congrArg List.length h0
      simp at this
      omega
    rw [unflatten, h1] at h
    cases hcase : as.drop t.leaves.length with
    | nil => exact hd hcase
    | cons x xs => rw [hcase] at h; simp at h

end Tree

/-! ### Structural equations -/

theorem Spec.WFL_iff (ts : List (Tree α)) : WFL ts ↔ ∀ t ∈ ts, WF t := by
  induction ts with
  | nil => simp [WFL]
  | cons t ts ih => simp [WFL, ih]

theorem Spec.OrderedL_iff (ts : List (Tree α)) : OrderedL ts ↔ ∀ t ∈ ts, Ordered t := by
  induction ts with
  | nil => simp [OrderedL]
  | cons t ts ih => simp [OrderedL, ih]

theorem Spec.hasEmptySeqL_iff (ts : List (Tree α)) :
    hasEmptySeqL ts = true ↔ ∃ t ∈ ts, hasEmptySeq t = true := by
  induction ts with
  | nil => simp [hasEmptySeqL]
  | cons t ts ih => simp [hasEmptySeqL, ih]

theorem toDictL_eq (ts : List (Tree α)) : toDictL ts = ts.map toDict := by
  induction ts with
  | nil => simp [toDictL]
  | cons t ts ih => simp [toDictL, ih]

theorem toDict_node (k : Kind) (ts : List (Tree α)) (h : ts ≠ []) :
    toDict (.node k ts) = if Tree.leavesL ts = [] then .node (.dict []) [] else
      mkDict ((childNames k ts.length).zip (ts.map toDict)) := by
  cases ts with
  | nil => exact absurd rfl h
  | cons t ts => simp [toDict, toDictL_eq]

theorem Spec.namedLeavesL_eq (ns : List Key) (ts : List (Tree α)) :
    namedLeavesL ns ts = (ns.zip ts).flatMap
      (fun x => (namedLeaves x.2).map (fun y => (x.1 :: y.1, y.2))) := by
  induction ns generalizing ts with
  | nil => simp [namedLeavesL]
  | cons n ns ih =>
    cases ts with
    | nil => simp [namedLeavesL]
    | cons t ts => simp [namedLeavesL, ih]

theorem Spec.namedLeaves_node (k : Kind) (ts : List (Tree α)) :
    namedLeaves (.node k ts) = ((childNames k ts.length).zip ts).flatMap
      (fun x => (namedLeaves x.2).map (fun y => (x.1 :: y.1, y.2))) := by
  rw [namedLeaves, namedLeavesL_eq]

theorem Spec.namedLeaves_dict (ks : List Key) (ts : List (Tree α)) :
    namedLeaves (.node (.dict ks) ts) = (ks.zip ts).flatMap
      (fun x => (namedLeaves x.2).map (fun y => (x.1 :: y.1, y.2))) := namedLeaves_node _ _

theorem childNames_length (k : Kind) (ts : List (Tree α)) (h : WF (.node k ts)) :
    (childNames k ts.length).length = ts.length := by
  cases k <;> simp_all [childNames, WF]

theorem elemName_injective : Function.Injective elemName := by
  intro i j h
  simp only [elemName, List.append_cancel_left_eq] at h
  have h1 := Nat.ofDigitChars_toDigits (b := 10) (n := i) (by decide) (by decide)
  have h2 := Nat.ofDigitChars_toDigits (b := 10) (n := j) (by decide) (by decide)
  rw [h] at h1
  omega

theorem childNames_nodup (k : Kind) (ts : List (Tree α)) (h : WF (.node k ts)) :
    (childNames k ts.length).Nodup := by
  cases k with
  | list => exact List.nodup_range.map elemName_injective
  | tuple => exact List.nodup_range.map elemName_injective
  | dict ks =>
    simp only [WF] at h
    exact h.1.2.imp (fun hlt => ne_of_lt hlt)
  | ntuple n fs => simp only [WF] at h; exact h.1.2

theorem elemName_sorted : ((List.range 10).map elemName).Pairwise (· < ·) := by
  decide +kernel

theorem childNames_sorted (k : Kind) (ts : List (Tree α)) (h : WF (.node k ts))
    (ho : Ordered (.node k ts)) : (childNames k ts.length).Pairwise (· < ·) := by
  have key : ∀ n ≤ 10, ((List.range n).map elemName).Pairwise (· < ·) := by
    intro n hn
    have : (List.range n).map elemName = ((List.range 10).map elemName).take n := by
      rw [← List.map_take, List.take_range, Nat.min_eq_left hn]
    rw [this]
    exact elemName_sorted.sublist (List.take_sublist _ _)
  cases k with
  | list => simp only [Ordered] at ho; exact key _ ho.1
  | tuple => simp only [Ordered] at ho; exact key _ ho.1
  | dict ks => simp only [WF] at h; exact h.1.2
  | ntuple n fs => simp only [Ordered] at ho; exact ho.1

/-! ### Names of leaves -/

theorem Spec.namedLeaves_snd (t : Tree α) (h : WF t) : (namedLeaves t).map Prod.snd = t.leaves := by
  induction t using Tree.ind with
  | hleaf a => simp [namedLeaves, Tree.leaves]
  | hnone => simp [namedLeaves, Tree.leaves]
  | hnode k ts ih =>
    have hlen := childNames_length k ts h
    have hw : ∀ t ∈ ts, WF t := (WFL_iff ts).1 h.2
    simp only [namedLeaves, Tree.leaves]
    generalize childNames k ts.length = ns at hlen
    clear h
    induction ts generalizing ns with
    | nil => cases ns <;> simp [namedLeavesL, Tree.leavesL]
    | cons t ts iht =>
      cases ns with
      | nil => simp at hlen
      | cons n ns =>
        simp only [namedLeavesL, Tree.leavesL, List.map_append, List.map_map]
        have hcomp : ((Prod.snd : Path × α → α) ∘ fun x => (n :: x.1, x.2)) = Prod.snd := rfl
        rw [hcomp, ih t (by simp) (hw t (by simp)),
          iht (fun t ht => ih t (by simp [ht])) (fun t ht => hw t (by simp [ht])) ns
            (by simpa using hlen)]

theorem Spec.namedLeaves_eq_nil (t : Tree α) (h : WF t) : namedLeaves t = [] ↔ t.leaves = [] := by
  rw [← namedLeaves_snd t h]; simp

/-- The paths of the leaves form a prefix-free list without repetitions. -/
theorem Spec.namedLeaves_pairwise (t : Tree α) (h : WF t) :
    (namedLeaves t).Pairwise (fun x y => ¬ x.1 <+: y.1 ∧ ¬ y.1 <+: x.1) := by
  induction t using Tree.ind with
  | hleaf a => simp [namedLeaves]
  | hnone => simp [namedLeaves]
  | hnode k ts ih =>
    have hnd := childNames_nodup k ts h
    have hw : ∀ t ∈ ts, WF t := (WFL_iff ts).1 h.2
    simp only [namedLeaves]
    generalize childNames k ts.length = ns at hnd
    clear h
    induction ts generalizing ns with
    | nil => cases ns <;> simp [namedLeavesL]
    | cons t ts iht =>
      cases ns with
      | nil => simp [namedLeavesL]
      | cons n ns =>
        simp only [namedLeavesL]
        rw [List.pairwise_append]
        refine ⟨?_, iht (fun t ht => ih t (by simp [ht])) (fun t ht => hw t (by simp [ht])) ns
          (List.nodup_cons.1 hnd).2, ?_⟩
        · rw [List.pairwise_map]
          refine (ih t (by simp) (hw t (by simp))).imp ?_
          intro x y hxy
          simpa [List.cons_prefix_cons] using hxy
        · intro x hx y hy
          simp only [List.mem_map] at hx
          obtain ⟨x', -, rfl⟩ := hx
          rw [namedLeavesL_eq] at hy
          simp only [List.mem_flatMap, List.mem_map] at hy
          obtain ⟨z, hz, y', -, rfl⟩ := hy
          have hzn : z.1 ∈ ns := (List.of_mem_zip hz).1
          have hne : n ≠ z.1 := fun e => (List.nodup_cons.1 hnd).1 (e ▸ hzn)
          simp only [List.cons_prefix_cons]
          exact ⟨fun hh => hne hh.1, fun hh => hne hh.1.symm⟩

/-! ### The dictionary -/

theorem mkDict_items (items : List (Key × Tree α)) : ∃ s : List (Key × Tree α), s.Perm items ∧
    s.Pairwise (fun a b => a.1 ≤ b.1) ∧
    mkDict items = .node (.dict (s.map Prod.fst)) (s.map Prod.snd) :=
  have : Std.Total (fun (a b : Key × Tree α) => a.1 ≤ b.1) := ⟨fun a b => le_total a.1 b.1⟩
  have : IsTrans (Key × Tree α) (fun a b => a.1 ≤ b.1) := ⟨fun _ _ _ h1 h2 => le_trans h1 h2⟩
  ⟨items.insertionSort (fun a b => a.1 ≤ b.1), List.perm_insertionSort _ _,
    List.pairwise_insertionSort _ _, rfl⟩

theorem mkDict_sorted (items : List (Key × Tree α)) (h : items.Pairwise (fun a b => a.1 ≤ b.1)) :
    mkDict items = .node (.dict (items.map Prod.fst)) (items.map Prod.snd) := by
  rw [mkDict, h.insertionSort_eq]

theorem zip_fst_snd (s : List (Key × Tree α)) : (s.map Prod.fst).zip (s.map Prod.snd) = s := by
  induction s with
  | nil => rfl
  | cons x s ih => simp [ih]

theorem toDict_wf (t : Tree α) (h : WF t) : WF (toDict t) := by
  induction t using Tree.ind with
  | hleaf a => simp [toDict, WF]
  | hnone => simp [toDict, WF]
  | hnode k ts ih =>
    by_cases h0 : ts = []
    · subst h0; simpa [toDict] using h
    have hw : ∀ t ∈ ts, WF t := (WFL_iff ts).1 h.2
    rw [toDict_node k ts h0]
    split
    · simp [WF, WFL]
    obtain ⟨s, hp, hs, he⟩ := mkDict_items ((childNames k ts.length).zip (ts.map toDict))
    rw [he]
    refine ⟨⟨by simp, ?_⟩, ?_⟩
    · have hnd : (s.map Prod.fst).Nodup := by
        refine (hp.map Prod.fst).nodup_iff.2 ?_
        rw [List.map_fst_zip (by simp [childNames_length k ts h])]
        exact childNames_nodup k ts h
      have hle : (s.map Prod.fst).Pairwise (· ≤ ·) := by rw [List.pairwise_map]; exact hs
      exact (hle.and hnd).imp (fun hh => lt_of_le_of_ne hh.1 hh.2)
    · rw [WFL_iff]
      intro u hu
      simp only [List.mem_map] at hu
      obtain ⟨x, hx, rfl⟩ := hu
      have hx2 := (List.of_mem_zip (hp.mem_iff.1 hx)).2
      simp only [List.mem_map] at hx2
      obtain ⟨t, ht, he2⟩ := hx2
      rw [← he2]
      exact ih t ht (hw t ht)

/-- The dictionary has the same leaves under the same names, possibly in another order. -/
theorem namedLeaves_toDict_perm (t : Tree α) (h : WF t) :
    (namedLeaves (toDict t)).Perm (namedLeaves t) := by
  induction t using Tree.ind with
  | hleaf a => simp [toDict]
  | hnone => simp [toDict]
  | hnode k ts ih =>
    by_cases h0 : ts = []
    · subst h0; simp [toDict]
    have hw : ∀ t ∈ ts, WF t := (WFL_iff ts).1 h.2
    rw [toDict_node k ts h0]
    split
    · rename_i hl
      rw [(namedLeaves_eq_nil (.node k ts) h).2 (by simpa [Tree.leaves] using hl)]
      simp [namedLeaves, namedLeavesL, childNames]
    obtain ⟨s, hp, hs, he⟩ := mkDict_items ((childNames k ts.length).zip (ts.map toDict))
    rw [he]
    rw [namedLeaves_dict, namedLeaves_node, zip_fst_snd]
    refine (hp.flatMap_right _).trans ?_
    generalize childNames k ts.length = ns
    rename_i hl
    clear hp he hs h h0 hl
    induction ts generalizing ns with
    | nil => simp
    | cons t ts iht =>
      cases ns with
      | nil => simp
      | cons n ns =>
        simp only [List.map_cons, List.zip_cons_cons, List.flatMap_cons]
        refine List.Perm.append ((ih t (by simp) (hw t (by simp))).map _) ?_
        exact iht (fun t ht => ih t (by simp [ht])) (fun t ht => hw t (by simp [ht])) ns

/-- If all children appear in the order of their names, the order is preserved. -/
theorem namedLeaves_toDict_eq (t : Tree α) (h : WF t) (ho : Ordered t) :
    namedLeaves (toDict t) = namedLeaves t := by
  induction t using Tree.ind with
  | hleaf a => simp [toDict]
  | hnone => simp [toDict]
  | hnode k ts ih =>
    by_cases h0 : ts = []
    · subst h0; simp [toDict]
    have hw : ∀ t ∈ ts, WF t := (WFL_iff ts).1 h.2
    have hos : ∀ t ∈ ts, Ordered t := (OrderedL_iff ts).1 ho.2
    rw [toDict_node k ts h0]
    split
    · rename_i hl
      rw [(namedLeaves_eq_nil (.node k ts) h).2 (by simpa [Tree.leaves] using hl)]
      simp [namedLeaves, namedLeavesL, childNames]
    rw [mkDict_sorted]
    · rw [namedLeaves_dict, namedLeaves_node, zip_fst_snd]
      generalize childNames k ts.length = ns
      rename_i hl
      clear h h0 ho hl
      induction ts generalizing ns with
      | nil => simp
      | cons t ts iht =>
        cases ns with
        | nil => simp
        | cons n ns =>
          simp only [List.map_cons, List.zip_cons_cons, List.flatMap_cons]
          rw [ih t (by simp) (hw t (by simp)) (hos t (by simp))]
          congr 1
          exact iht (fun t ht => ih t (by simp [ht])) (fun t ht => hw t (by simp [ht]))
              (fun t ht => hos t (by simp [ht])) ns
    · have hsort := childNames_sorted k ts h ho
      have hl := childNames_length k ts h
      have hmap : ((childNames k ts.length).zip (ts.map toDict)).map Prod.fst
          = childNames k ts.length := List.map_fst_zip (by simp [hl])
      rw [← hmap, List.pairwise_map] at hsort
      exact hsort.imp le_of_lt

/-! ### Paths -/

theorem paths_eq (d : Tree α) : ∀ ks, paths d = .ok ks → ks = (namedLeaves d).map Prod.fst := by
  induction d using Tree.ind with
  | hleaf a => intro ks h; simp [paths] at h; simp [namedLeaves, ← h]
  | hnone => intro ks h; simp [paths] at h; simp [namedLeaves, h]
  | hnode k ts ih =>
    intro ks h
    cases k with
    | list => simp [paths] at h
    | tuple => simp [paths] at h
    | ntuple n fs => simp [paths] at h
    | dict ns =>
      simp only [paths] at h
      simp only [namedLeaves, childNames]
      induction ts generalizing ns ks with
      | nil => cases ns <;> simp_all [pathsL, namedLeavesL]
      | cons t ts iht =>
        cases ns with
        | nil => simp_all [pathsL, namedLeavesL]
        | cons n ns =>
          simp only [pathsL] at h
          cases hp : paths t with
          | error e => simp [hp] at h
          | ok ps =>
            cases hq : pathsL ns ts with
            | error e => simp [hp, hq] at h
            | ok qs =>
              simp only [hp, hq, Except.ok.injEq] at h
              rw [← h, ih t (by simp) ps hp, iht (fun t ht => ih t (by simp [ht])) qs ns hq]
              simp [namedLeavesL, Function.comp_def]

theorem pathsL_ok (ks : List Key) (ts : List (Tree α)) (hl : ks.length = ts.length) :
    (∃ ps, pathsL ks ts = .ok ps) ↔ ∀ t ∈ ts, ∃ ps, paths t = .ok ps := by
  induction ts generalizing ks with
  | nil => cases ks <;> simp [pathsL]
  | cons t ts ih =>
    cases ks with
    | nil => simp at hl
    | cons k ks =>
      have ih' := ih ks (by simpa using hl)
      simp only [pathsL, List.mem_cons, forall_eq_or_imp]
      cases hp : paths t with
      | error e => simp
      | ok ps =>
        rw [← ih']
        cases hq : pathsL ks ts with
        | error e => simp
        | ok qs => simp

/-- `pytree_dict_keys` raises an exception exactly for trees with an empty list, tuple or named
tuple. -/
theorem dictKeys_ok_iff (t : Tree α) (h : WF t) :
    (∃ ks, dictKeys t = .ok ks) ↔ hasEmptySeq t = false := by
  unfold dictKeys
  induction t using Tree.ind with
  | hleaf a => simp [toDict, paths, hasEmptySeq]
  | hnone => simp [toDict, paths, hasEmptySeq]
  | hnode k ts ih =>
    by_cases h0 : ts = []
    · subst h0
      cases k with
      | dict ks => cases ks <;> simp [toDict, paths, pathsL, hasEmptySeq]
      | list => simp [toDict, paths, hasEmptySeq]
      | tuple => simp [toDict, paths, hasEmptySeq]
      | ntuple n fs => simp [toDict, paths, hasEmptySeq]
    have hw : ∀ t ∈ ts, WF t := (WFL_iff ts).1 h.2
    have hemp : hasEmptySeq (.node k ts)
        = if Tree.leavesL ts = [] then false else hasEmptySeqL ts := by
      cases ts with
      | nil => exact absurd rfl h0
      | cons t ts => simp [hasEmptySeq, hasEmptySeqL]
    rw [hemp, toDict_node k ts h0]
    split
    · simp [paths, pathsL]
    obtain ⟨s, hp, hs, he⟩ := mkDict_items ((childNames k ts.length).zip (ts.map toDict))
    rw [he]
    simp only [paths]
    rw [pathsL_ok _ _ (by simp)]
    have hfalse : hasEmptySeqL ts = false ↔ ∀ t ∈ ts, hasEmptySeq t = false := by
      rw [← Bool.not_eq_true, hasEmptySeqL_iff]
      push Not
      simp
    rw [hfalse]
    have hmem : ∀ u, u ∈ s.map Prod.snd ↔ u ∈ ts.map toDict := by
      intro u
      rw [(hp.map Prod.snd).mem_iff, List.map_snd_zip]
      simp [childNames_length k ts h]
    constructor
    · intro hall t ht
      rw [← ih t ht (hw t ht)]
      exact hall (toDict t) ((hmem _).2 (List.mem_map_of_mem ht))
    · intro hall u hu
      obtain ⟨t, ht, rfl⟩ := List.mem_map.1 ((hmem _).1 hu)
      exact (ih t ht (hw t ht)).2 (hall t ht)

/-- The values found in a nested dict under the names of its leaves. -/
theorem getPath_namedLeaves (d : Tree α) (h : WF d) (ks : List Path) (hk : paths d = .ok ks) :
    ∀ x ∈ namedLeaves d, getPath d x.1 = .ok (.leaf x.2) := by
  induction d using Tree.ind generalizing ks with
  | hleaf a => simp [namedLeaves, getPath]
  | hnone => simp [namedLeaves]
  | hnode k ts ih =>
    cases k with
    | list => simp [paths] at hk
    | tuple => simp [paths] at hk
    | ntuple n fs => simp [paths] at hk
    | dict ns =>
      intro x hx
      have hw : ∀ t ∈ ts, WF t := (WFL_iff ts).1 h.2
      have hlen : ns.length = ts.length := h.1.1
      have hok : ∀ t ∈ ts, ∃ ps, paths t = .ok ps :=
        (pathsL_ok ns ts hlen).1 ⟨ks, by simpa [paths] using hk⟩
      simp only [namedLeaves, childNames, namedLeavesL_eq, List.mem_flatMap, List.mem_map] at hx
      obtain ⟨⟨n, t⟩, hnt, y, hy, rfl⟩ := hx
      have htm := (List.of_mem_zip hnt).2
      have hlook : (ns.zip ts).lookup n = some t := by
        have hnd : ns.Nodup := h.1.2.imp (fun hlt => ne_of_lt hlt)
        clear ih hw hok hk h y hy htm
        induction ns generalizing ts with
        | nil => simp at hnt
        | cons m ms ihm =>
          cases ts with
          | nil => simp at hnt
          | cons u us =>
            simp only [List.zip_cons_cons, List.mem_cons, Prod.mk.injEq] at hnt
            rw [List.zip_cons_cons, List.lookup_cons]
            rcases hnt with ⟨rfl, rfl⟩ | hmem
            · simp
            · have hne : n ≠ m := fun e =>
                (List.nodup_cons.1 hnd).1 (e ▸ (List.of_mem_zip hmem).1)
              rw [beq_false_of_ne hne]
              exact ihm us (by simpa using hlen) hmem (List.nodup_cons.1 hnd).2
      obtain ⟨ps, hps⟩ := hok t htm
      simp only [getPath, dictGet, hlook, Option.getD_some]
      exact ih t htm (hw t htm) ps hps y hy

theorem mapExcept_eq {f : α → Except PyErr β} {g : α → β} (xs : List α)
    (h : ∀ x ∈ xs, f x = .ok (g x)) : mapExcept f xs = .ok (xs.map g) := by
  induction xs with
  | nil => simp [mapExcept]
  | cons x xs ih =>
    simp [mapExcept, h x (by simp), ih (fun y hy => h y (by simp [hy]))]

theorem graftL_eq (ts : List (Tree (Tree α))) : graftL ts = ts.map graft := by
  induction ts with
  | nil => simp [graftL]
  | cons t ts ih => simp [graftL, ih]

theorem graft_map_leaf (t : Tree α) : graft (t.map Tree.leaf) = t := by
  induction t using Tree.ind with
  | hleaf a => simp [Tree.map, graft]
  | hnone => simp [Tree.map, graft]
  | hnode k ts ih =>
    simp only [Tree.map, graft, graftL_eq, Tree.mapL_eq, List.map_map, Tree.node.injEq, true_and]
    conv_rhs => rw [← List.map_id ts]
    exact List.map_congr_left (fun t ht => ih t ht)

/-! ### Joined names -/

theorem joinPath_injective (p q : Path) (hp : ∀ k ∈ p, '/' ∉ k) (hq : ∀ k ∈ q, '/' ∉ k)
    (hpn : p ≠ []) (hqn : q ≠ []) (h : joinPath p = joinPath q) : p = q := by
  have h1 := List.splitOn_intercalate '/' hp hpn
  have h2 := List.splitOn_intercalate '/' hq hqn
  unfold joinPath at h
  rw [h] at h1
  exact h1.symm.trans h2

end JaxSgmc
