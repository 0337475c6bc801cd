import Verif.Lemmas.Tree
import Verif.Model.ListMap
import Verif.Model.Uuid

/-!
# Stacking, vectorised functions and UUIDs (C54, C55, C58)
-/

namespace JaxSgmc

variable {α β : Type}

theorem pyZip_uniform (rows : List (List α)) (n : Nat) (hne : rows ≠ [])
    (h : ∀ r ∈ rows, r.length = n) :
    pyZip rows = (List.range n).map (fun i => rows.filterMap (·[i]?)) := by
  have : (rows.map List.length).min?.getD 0 = n := by
    have hm : rows.map List.length = List.replicate rows.length n := by
      rw [List.eq_replicate_iff]
      exact ⟨by simp, by simpa using h⟩
    rw [hm, List.min?_replicate_of_pos (List.length_pos_iff.2 hne)]
    rfl
  rw [pyZip, this]

theorem filterMap_all (rows : List (List α)) (n i : Nat) (hi : i < n)
    (h : ∀ r ∈ rows, r.length = n) :
    (rows.filterMap (·[i]?)).length = rows.length ∧
    ∀ (j : Nat), (rows.filterMap (·[i]?))[j]? = rows[j]?.bind (·[i]?) := by
  induction rows with
  | nil => simp
  | cons r rs ih =>
    obtain ⟨h1, h2⟩ := ih (fun r hr => h r (by simp [hr]))
    have hr := h r (by simp)
    have hs : r[i]? = some (r[i]'(by omega)) := List.getElem?_eq_getElem (by omega)
    rw [List.filterMap_cons, hs]
    refine ⟨by simp [h1], fun j => ?_⟩
    cases j with
    | zero => simp [hs]
    | succ j => simpa using h2 j

/-- Transposing twice. -/
theorem pyZip_spec (rows : List (List α)) (n : Nat) (hne : rows ≠ [])
    (h : ∀ r ∈ rows, r.length = n) :
    (pyZip rows).length = n ∧ (∀ c ∈ pyZip rows, c.length = rows.length) ∧
    ∀ (i j : Nat), (pyZip rows)[i]?.bind (·[j]?) = rows[j]?.bind (·[i]?) := by
  rw [pyZip_uniform rows n hne h]
  refine ⟨by simp, ?_, ?_⟩
  · intro c hc
    simp only [List.mem_map, List.mem_range] at hc
    obtain ⟨i, hi, rfl⟩ := hc
    exact (filterMap_all rows n i hi h).1
  · intro i j
    by_cases hi : i < n
    · simp only [List.getElem?_map, List.getElem?_range hi, Option.map_some, Option.bind_some]
      exact (filterMap_all rows n i hi h).2 j
    · have : (List.range n)[i]? = none := by simp; omega
      simp only [List.getElem?_map, this, Option.map_none, Option.bind_none]
      cases hr : rows[j]? with
      | none => rfl
      | some r =>
        have hlen := h r (List.mem_of_getElem? hr)
        simp only [Option.bind_some]
        exact (List.getElem?_eq_none (by omega)).symm

theorem mapExcept_getElem {f : α → Except PyErr β} (xs : List α) (ys : List β)
    (hlen : xs.length = ys.length)
    (h : ∀ (i : Nat) (h1 : i < xs.length) (h2 : i < ys.length), f xs[i] = .ok ys[i]) :
    mapExcept f xs = .ok ys := by
  induction xs generalizing ys with
  | nil => cases ys with
    | nil => rfl
    | cons y ys => simp at hlen
  | cons x xs ih =>
    cases ys with
    | nil => simp at hlen
    | cons y ys =>
      have h0 := h 0 (by simp) (by simp)
      simp only [List.getElem_cons_zero] at h0
      simp only [mapExcept, h0]
      rw [ih ys (by simpa using hlen) (fun i h1 h2 =>
        h (i + 1) (by simpa using h1) (by simpa using h2))]

/-- C54: unstacking the stacked trees returns the trees. -/
theorem c54_unstack_stack (ts : List (Tree α)) (s : Tree Unit) (hne : ts ≠ [])
    (hs : ∀ t ∈ ts, t.shape = s) (hleaf : s.leaves ≠ []) :
    ∃ u, pytreeListToLeaves ts = .ok u ∧ u.shape = s ∧ (∀ l ∈ u.leaves, l.length = ts.length) ∧
      pytreeLeavesToList u = .ok ts := by
  have hrows : ∀ r ∈ ts.map Tree.leaves, r.length = s.leaves.length := by
    intro r hr
    obtain ⟨t, ht, rfl⟩ := List.mem_map.1 hr
    rw [← hs t ht, Tree.leaves_length_shape]
  obtain ⟨hz1, hz2, hz3⟩ := pyZip_spec _ _ (by simpa using hne) hrows
  cases ts with
  | nil => exact absurd rfl hne
  | cons t ts =>
    obtain ⟨u, hu1, hu2, hu3⟩ := Tree.unflatten_ok t (pyZip ((t :: ts).map Tree.leaves)) (by
      rw [hz1, ← hs t (by simp), Tree.leaves_length_shape])
    have hu3' : u.shape = s := hu3.trans (hs t (by simp))
    have hz2' : ∀ l ∈ u.leaves, l.length = (t :: ts).length := by
      rw [hu2]; simpa using hz2
    refine ⟨u, by simpa [pytreeListToLeaves] using hu1, hu3', hz2', ?_⟩
    have hul : u.leaves ≠ [] := by
      intro e
      apply hleaf
      rw [← List.length_eq_zero_iff, ← hz1, ← hu2, e, List.length_nil]
    cases hcase : u.leaves with
    | nil => exact absurd hcase hul
    | cons l ls =>
      simp only [pytreeLeavesToList, hcase]
      have hl : l.length = (t :: ts).length := hz2' l (by simp [hcase])
      apply mapExcept_getElem
      · simpa using hl
      · intro i h1 h2
        rw [List.length_range] at h1
        have hx : mapExcept (fun leaf => jnpIndex leaf i) (l :: ls) = .ok ((t :: ts)[i].leaves) := by
          rw [← hcase]
          have hlen2 : u.leaves.length = ((t :: ts)[i].leaves).length := by
            rw [hu2, hz1, ← hs _ (List.getElem_mem h2), Tree.leaves_length_shape]
          apply mapExcept_getElem _ _ hlen2
          intro k k1 k2
          have hk := hz3 k i
          rw [← hu2, List.getElem?_eq_getElem k1] at hk
          simp only [Option.bind_some] at hk
          rw [List.getElem?_map, List.getElem?_eq_getElem h2] at hk
          simp only [Option.map_some, Option.bind_some, List.getElem?_eq_getElem k2] at hk
          have hkl : (u.leaves[k]).length = (t :: ts).length := hz2' _ (List.getElem_mem k1)
          rw [jnpIndex, npIndex, Nat.min_eq_left (by omega), hk]
        simp only [List.getElem_range, hx]
        exact Tree.unflatten_leaves u _ (hu3'.trans (hs _ (List.getElem_mem h2)).symm)

/-- C54: stacking the slices of a stacked tree returns the stacked tree. -/
theorem c54_stack_unstack (u : Tree (List α)) (n : Nat) (hn : 0 < n) (hleaf : u.leaves ≠ [])
    (hl : ∀ l ∈ u.leaves, l.length = n) :
    ∃ ts, pytreeLeavesToList u = .ok ts ∧ ts.length = n ∧ (∀ t ∈ ts, t.shape = u.shape) ∧
      pytreeListToLeaves ts = .ok u := by
  obtain ⟨hz1, hz2, hz3⟩ := pyZip_spec u.leaves n hleaf hl
  -- the slices
  have hsl : ∀ i (hi : i < n), ∃ t : Tree α, Tree.unflatten u ((pyZip u.leaves)[i]'(by omega)) = .ok t ∧
      t.leaves = (pyZip u.leaves)[i]'(by omega) ∧ t.shape = u.shape := fun i hi =>
    Tree.unflatten_ok u _ (hz2 _ (List.getElem_mem _))
  choose f hf1 hf2 hf3 using hsl
  let ts : List (Tree α) := List.ofFn (fun i : Fin n => f i.1 i.2)
  have hts : ts.length = n := by simp [ts]
  have hshape : ∀ t ∈ ts, t.shape = u.shape := by
    intro t ht
    obtain ⟨i, rfl⟩ := (List.mem_ofFn' _ _).1 ht
    exact hf3 _ _
  refine ⟨ts, ?_, hts, hshape, ?_⟩
  · cases hcase : u.leaves with
    | nil => exact absurd hcase hleaf
    | cons l ls =>
      have hl0 : l.length = n := hl l (by simp [hcase])
      simp only [pytreeLeavesToList, hcase]
      apply mapExcept_getElem
      · simp [hts, hl0]
      · intro i h1 h2
        have hi : i < n := by simpa [hl0] using h1
        have hx : mapExcept (fun leaf => jnpIndex leaf i) (l :: ls)
            = .ok ((pyZip u.leaves)[i]'(by omega)) := by
          rw [← hcase]
          have hlen2 : u.leaves.length = ((pyZip u.leaves)[i]'(by omega)).length :=
            (hz2 _ (List.getElem_mem _)).symm
          apply mapExcept_getElem _ _ hlen2
          intro k k1 k2
          have hk := hz3 i k
          rw [List.getElem?_eq_getElem k1, List.getElem?_eq_getElem (by omega)] at hk
          simp only [Option.bind_some] at hk
          rw [List.getElem?_eq_getElem k2] at hk
          have hkl : (u.leaves[k]).length = n := hl _ (List.getElem_mem k1)
          rw [jnpIndex, npIndex, Nat.min_eq_left (by omega), ← hk]
        simp only [List.getElem_range, hx]
        have := hf1 i hi
        simpa [ts] using this
  · have hne : ts ≠ [] := by
      intro e
      rw [e] at hts
      simp at hts
      omega
    cases hcase : ts with
    | nil => exact absurd hcase hne
    | cons t rest =>
      have ht : t.shape = u.shape := hshape t (by simp [hcase])
      simp only [pytreeListToLeaves, ← hcase]
      have hzz : pyZip (ts.map Tree.leaves) = u.leaves := by
        have hmap : ts.map Tree.leaves = pyZip u.leaves := by
          apply List.ext_getElem
          · simp [hts, hz1]
          · intro i h1 h2
            simp [ts, hf2]
        rw [hmap]
        have hzne : pyZip u.leaves ≠ [] := by
          intro e; rw [e] at hz1; simp at hz1; omega
        obtain ⟨w1, w2, w3⟩ := pyZip_spec (pyZip u.leaves) u.leaves.length hzne hz2
        apply List.ext_getElem w1
        intro i h1 h2
        have hlen1 : ((pyZip (pyZip u.leaves))[i]).length = n := by
          rw [w2 _ (List.getElem_mem h1), hz1]
        apply List.ext_getElem (by rw [hlen1, hl _ (List.getElem_mem h2)])
        intro j g1 g2
        have e1 := w3 i j
        rw [hz3 j i, List.getElem?_eq_getElem h1, List.getElem?_eq_getElem h2] at e1
        simp only [Option.bind_some, List.getElem?_eq_getElem g1, List.getElem?_eq_getElem g2,
          Option.some.injEq] at e1
        exact e1
      rw [hzz]
      exact Tree.unflatten_leaves t u ht

/-- C54: trees without leaves and empty lists of trees are rejected. -/
theorem c54_rejected (u : Tree (List α)) (h : u.leaves = []) :
    pytreeLeavesToList u = .error .indexError ∧
    pytreeListToLeaves ([] : List (Tree α)) = .error .indexError := by
  constructor
  · simp [pytreeLeavesToList, h]
  · rfl

/-- C55: `list_vmap` applies the function to every tree and keeps the order. -/
theorem c55_list_vmap (f : Tree α → Tree β) (ts : List (Tree α)) (s s' : Tree Unit) (hne : ts ≠ [])
    (hs : ∀ t ∈ ts, t.shape = s) (hleaf : s.leaves ≠ []) (hs' : ∀ t ∈ ts, (f t).shape = s')
    (hleaf' : s'.leaves ≠ []) : listVmap f ts = .ok (ts.map f) := by
  obtain ⟨u, h1, -, -, h2⟩ := c54_unstack_stack ts s hne hs hleaf
  obtain ⟨v, h3, -, -, h4⟩ := c54_unstack_stack (ts.map f) s' (by simpa using hne)
    (by simpa using hs') hleaf'
  simp [listVmap, vmapTree, h1, h2, h3, h4]

/-- Two trees `{"a": x, "b": [y]}` meet the hypotheses of C54 and C55. -/
example : listVmap (fun t => t.map (· + 1))
    [(.node (.dict [['a'], ['b']]) [.leaf 1, .node .list [.leaf 2]] : Tree Nat),
      .node (.dict [['a'], ['b']]) [.leaf 3, .node .list [.leaf 4]]]
    = .ok [.node (.dict [['a'], ['b']]) [.leaf 2, .node .list [.leaf 3]],
      .node (.dict [['a'], ['b']]) [.leaf 4, .node .list [.leaf 5]]] :=
  c55_list_vmap _ _ (.node (.dict [['a'], ['b']]) [.leaf (), .node .list [.leaf ()]])
    (.node (.dict [['a'], ['b']]) [.leaf (), .node .list [.leaf ()]]) (by simp)
    (by simp [Tree.shape, Tree.map, Tree.mapL]) (by simp [Tree.leaves, Tree.leavesL])
    (by simp [Tree.shape, Tree.map, Tree.mapL]) (by simp [Tree.leaves, Tree.leavesL])

/-! ### UUIDs -/

theorem uuid_shift (a b c d : Nat) : (a <<< 0 + (b <<< 32 + (c <<< 64 + (d <<< 96 + 0)))) = a + b * 2 ^ 32 + c * 2 ^ 64 + d * 2 ^ 96 := by
  rw [Nat.shiftLeft_eq, Nat.shiftLeft_eq, Nat.shiftLeft_eq, Nat.shiftLeft_eq, Nat.pow_zero,
    Nat.mul_one, Nat.add_zero, Nat.add_assoc, Nat.add_assoc]

theorem uuid_lt (a b c d : Nat) (ha : a < 2^32) (hb : b < 2^32) (hc : c < 2^32) (hd : d < 2^32) : 
  a + b * 2 ^ 32 + c * 2 ^ 64 + d * 2 ^ 96 < 2^128 := by
    omega

theorem uuid_sum (a b c d : BitVec 32) : (List.zipWith (fun (w : BitVec 32) bits => w.toNat <<< bits) [a, b, c, d]
      [0, 32, 64, 96]).sum
      = a.toNat + b.toNat * 2 ^ 32 + c.toNat * 2 ^ 64 + d.toNat * 2 ^ 96 := by
    rw [List.zipWith_cons_cons, List.zipWith_cons_cons, List.zipWith_cons_cons, List.zipWith_cons_cons, List.sum_cons, List.sum_cons, List.sum_cons, List.sum_cons, List.zipWith_nil_left, List.sum_nil]
    exact uuid_shift _ _ _ _

theorem asUuid_words (a b c d : BitVec 32) :
    JaxUUID.asUuid ⟨[a, b, c, d]⟩
      = .ok (a.toNat + b.toNat * 2 ^ 32 + c.toNat * 2 ^ 64 + d.toNat * 2 ^ 96) := by
  unfold JaxUUID.asUuid
  dsimp only
  rw [uuid_sum, if_pos (uuid_lt _ _ _ _ a.isLt b.isLt c.isLt d.isLt)]

/-- C58: `as_uuid` of a new `JaxUUID` is the generated number. -/
theorem c58_new (n : Nat) (hn : n < 2 ^ 128) : (JaxUUID.new n).asUuid = .ok n := by
  have key : ∀ m : Nat, (m &&& 0xFFFFFFFF) = m % 2 ^ 32 := fun m =>
    Nat.and_two_pow_sub_one_eq_mod m 32
  simp only [JaxUUID.new, List.map_cons, List.map_nil]
  rw [asUuid_words]
  simp only [BitVec.toNat_ofNat, key, Nat.shiftRight_eq_div_pow]
  congr 1
  omega

/-- C58: distinct arrays of four 32-bit words give distinct uuids, and every such array is a uuid. -/
theorem c58_injective (u v : JaxUUID) (hu : u.ints.length = 4) (hv : v.ints.length = 4) :
    (∃ n < 2 ^ 128, u.asUuid = .ok n) ∧ (u.asUuid = v.asUuid → u = v) := by
  obtain ⟨ui⟩ := u
  obtain ⟨vi⟩ := v
  match ui, hu, vi, hv with
  | [a, b, c, d], _, [a', b', c', d'], _ =>
    rw [asUuid_words, asUuid_words]
    have ha := a.isLt
    have hb := b.isLt
    have hc := c.isLt
    have hd := d.isLt
    have ha' := a'.isLt
    have hb' := b'.isLt
    have hc' := c'.isLt
    have hd' := d'.isLt
    refine ⟨⟨_, by omega, rfl⟩, fun h => ?_⟩
    simp only [Except.ok.injEq] at h
    have e1 : a = a' := BitVec.eq_of_toNat_eq (by omega)
    have e2 : b = b' := BitVec.eq_of_toNat_eq (by omega)
    have e3 : c = c' := BitVec.eq_of_toNat_eq (by omega)
    have e4 : d = d' := BitVec.eq_of_toNat_eq (by omega)
    subst e1 e2 e3 e4
    rfl

/-- C58: new `JaxUUID`s of different numbers are different, and flattening and unflattening (every
jax transformation) preserves a `JaxUUID`. -/
theorem c58_roundtrip (u : JaxUUID) (n m : Nat) (hn : n < 2 ^ 128) (hm : m < 2 ^ 128) :
    JaxUUID.unflatten u.flatten = .ok u ∧ (JaxUUID.new n).ints.length = 4 ∧
    (JaxUUID.new n = JaxUUID.new m → n = m) := by
  refine ⟨rfl, rfl, fun h => ?_⟩
  have h1 := c58_new n hn
  rw [h, c58_new m hm] at h1
  simpa using h1.symm

example : (JaxUUID.new (2 ^ 127 + 5)).asUuid = .ok (2 ^ 127 + 5) := c58_new _ (by decide)

end JaxSgmc
