import Verif.Lemmas.FullData
import Verif.Spec.ToyRng
import Verif.Props.Requests

/-!
# C17-C21, C23, C24: mapping functions over the full dataset

The observation `i` of a dataset is `batchRow data i`: row `i` of every array (by name).
-/

namespace JaxSgmc

open Spec

/-! ### C23 -/

section
variable {S β σ γ : Type}

/-- **C23** (masked maps).  Whatever the data source is: if the map returns, the mapped function was
called once for each of the `q = ceil(N/bs)` batches which the source delivered in this order, first
with the user's carry, then always with the carry it returned for the batch before; its results are
returned in this order together with the last carry. -/
theorem c23_masked (src : S → Except PyErr β × S) (N bs : Nat) (fn : β → List Bool → σ → γ × σ)
    (s s' : S) (carry carry' : σ) (rs : List γ)
    (h : mapMasked src N bs fn s carry = (.ok (rs, carry'), s')) :
    ∃ batches : List β, ∃ carries : Nat → σ,
      batches.length = ceilDiv N bs ∧ rs.length = ceilDiv N bs ∧ Supplies src s batches s' ∧
      carries 0 = carry ∧ carries (ceilDiv N bs) = carry' ∧
      ∀ j (hb : j < batches.length) (hr : j < rs.length),
        fn batches[j] (iterMask N bs j) (carries j) = (rs[j], carries (j + 1)) := by
  simp only [mapMasked] at h
  split at h
  · simp at h
  · rename_i q hq
    simp only [numIterations] at hq
    split at hq
    · simp at hq
    · simp only [Except.ok.injEq] at hq
      subst hq
      obtain ⟨b, c, h1, h2, h3, h4, h5, h6⟩ := scan_inv _ _ _ _ _ _ _ _ _ h
      refine ⟨b, c, h1, h2, h3, h4, h5, ?_⟩
      intro j hb hr
      have := h6 j hb hr
      simpa using this

/-- **C23** (unmasked maps): the same, the results of the batches are concatenated and cut to the
number of observations. -/
theorem c23_unmasked (src : S → Except PyErr β × S) (N bs : Nat)
    (fn : β → σ → Except PyErr (List γ × σ))
    (s s' : S) (carry carry' : σ) (res : List γ)
    (h : mapUnmasked src N bs fn s carry = (.ok (res, carry'), s')) :
    ∃ batches : List β, ∃ carries : Nat → σ, ∃ rs : List (List γ),
      batches.length = ceilDiv N bs ∧ rs.length = ceilDiv N bs ∧ Supplies src s batches s' ∧
      carries 0 = carry ∧ carries (ceilDiv N bs) = carry' ∧
      (∀ j (hb : j < batches.length) (hr : j < rs.length),
        fn batches[j] (carries j) = .ok (rs[j], carries (j + 1))) ∧
      res = rs.flatten.take N := by
  simp only [mapUnmasked] at h
  split at h
  · simp at h
  · rename_i q hq
    simp only [numIterations] at hq
    split at hq
    · simp at hq
    · simp only [Except.ok.injEq] at hq
      subst hq
      split at h
      · simp at h
      · rename_i rs c s'' hscan
        simp only [Prod.mk.injEq, Except.ok.injEq] at h
        obtain ⟨⟨rfl, rfl⟩, rfl⟩ := h
        obtain ⟨b, cs, h1, h2, h3, h4, h5, h6⟩ := scan_inv _ _ _ _ _ _ _ _ _ hscan
        refine ⟨b, cs, rs, h1, h2, h3, h4, h5, ?_, rfl⟩
        intro j hb hr
        have := h6 j hb hr
        simpa using this

/-- The maps return: sources which deliver all batches. -/
theorem mapMasked_ok (src : S → Except PyErr β × S) (N bs : Nat) (hbs : 0 < bs)
    (fn : β → List Bool → σ → γ × σ) (s s' : S) (carry : σ) (batches : List β)
    (hlen : batches.length = ceilDiv N bs) (h : Supplies src s batches s') :
    ∃ rs carry', mapMasked src N bs fn s carry = (.ok (rs, carry'), s') := by
  have gen : ∀ (bl : List β) (it : Nat) (s : S) (c : σ), Supplies src s bl s' →
      ∃ rs c', scanBatches src (fun it b c => .ok (fn b (iterMask N bs it) c)) bl.length it s c =
        (.ok (rs, c'), s') := by
    intro bl
    induction bl with
    | nil => intro it s c h; simp only [Supplies] at h; subst h; exact ⟨[], c, rfl⟩
    | cons b bl ih =>
      intro it s c h
      obtain ⟨s1, h1, h⟩ := h
      obtain ⟨rs, c', h2⟩ := ih (it + 1) s1 (fn b (iterMask N bs it) c).2 h
      exact ⟨(fn b (iterMask N bs it) c).1 :: rs, c', by simp [scanBatches, h1, h2]⟩
  have hne : bs ≠ 0 := by omega
  simp only [mapMasked, numIterations, hne, if_false]
  rw [← hlen]
  exact gen batches 0 s carry h

theorem mapUnmasked_ok (src : S → Except PyErr β × S) (N bs : Nat) (hbs : 0 < bs)
    (fn : β → σ → Except PyErr (List γ × σ)) (s s' : S) (carry : σ) (batches : List β)
    (hlen : batches.length = ceilDiv N bs) (h : Supplies src s batches s')
    (hfn : ∀ b ∈ batches, ∀ c, ∃ r, fn b c = .ok r) :
    ∃ rs carry', mapUnmasked src N bs fn s carry = (.ok (rs, carry'), s') := by
  have gen : ∀ (bl : List β) (it : Nat) (s : S) (c : σ), (∀ b ∈ bl, ∀ c, ∃ r, fn b c = .ok r) →
      Supplies src s bl s' →
      ∃ rs c', scanBatches src (fun _ b c => fn b c) bl.length it s c = (.ok (rs, c'), s') := by
    intro bl
    induction bl with
    | nil => intro it s c _ h; simp only [Supplies] at h; subst h; exact ⟨[], c, rfl⟩
    | cons b bl ih =>
      intro it s c hf h
      obtain ⟨s1, h1, h⟩ := h
      obtain ⟨r, hr⟩ := hf b List.mem_cons_self c
      obtain ⟨rs, c', h2⟩ := ih (it + 1) s1 r.2 (fun b' hb => hf b' (List.mem_cons_of_mem _ hb)) h
      exact ⟨r.1 :: rs, c', by simp [scanBatches, h1, h2, hr]⟩
  have hne : bs ≠ 0 := by omega
  simp only [mapUnmasked, numIterations, hne, if_false]
  rw [← hlen]
  obtain ⟨rs, c', h1⟩ := gen batches 0 s carry hfn h
  exact ⟨_, _, by rw [h1]⟩

end

/-- Two sources with the same batches. -/
theorem Spec.Supplies.unique {S β : Type} {src : S → Except PyErr β × S} :
    ∀ {bs bs' : List β} {s s1 s2 : S}, bs.length = bs'.length → Supplies src s bs s1 →
      Supplies src s bs' s2 → bs = bs' ∧ s1 = s2
  | [], [], _, _, _, _, h1, h2 => ⟨rfl, by simp only [Supplies] at h1 h2; rw [h1, h2]⟩
  | b :: bs, b' :: bs', s, s1, s2, hl, h1, h2 => by
    obtain ⟨a, ha, h1⟩ := h1
    obtain ⟨a', ha', h2⟩ := h2
    rw [ha] at ha'
    simp only [Prod.mk.injEq, Except.ok.injEq] at ha'
    obtain ⟨rfl, rfl⟩ := ha'
    obtain ⟨rfl, h3⟩ := Spec.Supplies.unique (by simpa using hl) h1 h2
    exact ⟨rfl, h3⟩

/-! ### C17, C18 -/

section
variable {σ ρ γ τ : Type} (R : Rng σ)

/-- **C17** (arbitrary functions).  `v` is a data state of a full data map of a numpy loader.  After
any history which draws from `v` only by complete maps (the number of batches drawn so far is a
multiple of the `q` batches of one map; everything else is arbitrary), the next map calls the function
on batches whose row `i % mb` of batch `i / mb` is observation `i`, and result `i` of the map is what
the function returned for this row.  The data state has then been advanced by `q` draws, i.e. the
theorem applies again to the following map. -/
theorem c17_host_map {devices : Nat} (hdev : 1 ≤ devices) {objs : Nat → Loader σ ρ}
    (hobjs : ∀ i, ∃ data, mkLoader data = .ok (objs i)) {s}
    (hs : PReachable (numpyHost R) devices objs s) {cb v : Nat}
    (hinit : (pstep (numpyHost R) devices s (.init cb .ordered v)).2 = .done)
    {cfg : Cfg} (hcfg : s.cfgs cb = some cfg) (hmb : 0 < cfg.mbSize)
    (ops : List (POp NumpyKw)) (hops : ∀ op ∈ ops, Respects [v] cb 1 op)
    (hdraws : ceilDiv (objs cfg.loader).obsCount cfg.mbSize ∣ numDraws v ops)
    (fn : List (String × List ρ) × List Bool → τ → List γ × τ)
    (hfn : ∀ b c, (fn b c).1.length = cfg.mbSize) (carry : τ) :
    let N := (objs cfg.loader).obsCount
    let q := ceilDiv N cfg.mbSize
    let start := (pstep (numpyHost R) devices s (.init cb .ordered v)).1
    ∃ (res : List γ) (batches : List (List (String × List ρ) × List Bool)) (carries : Nat → τ),
      mapUnmasked (hostSource (numpyHost R) devices v 1) N cfg.mbSize (fun b c => .ok (fn b c))
        (prun (numpyHost R) devices start ops).1 carry =
          (.ok (res, carries q),
           (prun (numpyHost R) devices start (ops ++ List.replicate q (.draw v 1))).1) ∧
      res.length = N ∧ batches.length = q ∧ carries 0 = carry ∧
      (∀ j (h : j < batches.length), (fn batches[j] (carries j)).2 = carries (j + 1)) ∧
      ∀ i < N, ∃ h : i / cfg.mbSize < batches.length,
        batchRow batches[i / cfg.mbSize].1 (i % cfg.mbSize) = batchRow (objs cfg.loader).data i ∧
        res[i]? = (fn batches[i / cfg.mbSize] (carries (i / cfg.mbSize))).1[i % cfg.mbSize]? := by
  intro N q start
  obtain ⟨hwf, hle, hsup⟩ := host_pass R hdev hobjs hs hinit hcfg hmb ops hops hdraws
  obtain ⟨res, carry', hmap⟩ := mapUnmasked_ok _ N cfg.mbSize hmb (fun b c => .ok (fn b c)) _ _ carry
    _ (by simp [N]) hsup (fun b _ c => ⟨_, rfl⟩)
  obtain ⟨batches, carries, rs, h1, h2, h3, h4, h5, h6, h7⟩ := c23_unmasked _ _ _ _ _ _ _ _ _ hmap
  obtain ⟨hb, -⟩ := Supplies.unique (by simp [h1, N]) h3 hsup
  have hrs : ∀ r ∈ rs, r.length = cfg.mbSize := by
    intro r hr
    obtain ⟨j, hj, rfl⟩ := List.mem_iff_getElem.1 hr
    have := h6 j (by omega) hj
    simp only [Except.ok.injEq] at this
    have h9 := hfn batches[j] (carries j)
    rw [this] at h9
    exact h9
  have hle2 : N ≤ q * cfg.mbSize := ceilDiv_le hmb
  refine ⟨res, batches, carries, ?_, ?_, h1, h4, ?_, ?_⟩
  · rw [hmap, h5]
  · rw [h7, List.length_take, flatten_length_eq _ _ hrs, h2]
    exact Nat.min_eq_left hle2
  · intro j hj
    have := h6 j hj (by omega)
    simp only [Except.ok.injEq] at this
    rw [this]
  · intro i hi
    have hq : i / cfg.mbSize < batches.length := by
      rw [h1]; exact Nat.div_lt_of_lt_mul (by rw [Nat.mul_comm]; exact lt_of_lt_of_le hi hle2)
    refine ⟨hq, ?_, ?_⟩
    · subst hb
      simp only [List.getElem_map, List.getElem_range]
      rw [passRows_row _ _ _ _ _ hwf hmb hle (Nat.mod_lt _ hmb), Nat.mod_add_div', Nat.mod_eq_of_lt hi]
    · rw [h7, List.getElem?_take, if_pos hi, flatten_get _ hmb _ hrs,
        List.getElem?_eq_getElem (by omega : i / cfg.mbSize < rs.length)]
      have := h6 (i / cfg.mbSize) hq (by omega)
      simp only [Except.ok.injEq] at this
      rw [this]
      rfl

/-- **C17** for functions which compute `φ` for every row (the carry is arbitrary): the map returns
`φ` of the observations `0, …, N-1` in this order, on every pass. -/
theorem c17_rowwise {devices : Nat} (hdev : 1 ≤ devices) {objs : Nat → Loader σ ρ}
    (hobjs : ∀ i, ∃ data, mkLoader data = .ok (objs i)) {s}
    (hs : PReachable (numpyHost R) devices objs s) {cb v : Nat}
    (hinit : (pstep (numpyHost R) devices s (.init cb .ordered v)).2 = .done)
    {cfg : Cfg} (hcfg : s.cfgs cb = some cfg) (hmb : 0 < cfg.mbSize)
    (ops : List (POp NumpyKw)) (hops : ∀ op ∈ ops, Respects [v] cb 1 op)
    (hdraws : ceilDiv (objs cfg.loader).obsCount cfg.mbSize ∣ numDraws v ops)
    (φ : List (String × Option ρ) → γ) (ψ : List (String × List ρ) × List Bool → τ → τ) (carry : τ) :
    let N := (objs cfg.loader).obsCount
    let start := (pstep (numpyHost R) devices s (.init cb .ordered v)).1
    ∃ carry', mapUnmasked (hostSource (numpyHost R) devices v 1) N cfg.mbSize
        (fun b c => .ok ((List.range cfg.mbSize).map (fun j => φ (batchRow b.1 j)), ψ b c))
        (prun (numpyHost R) devices start ops).1 carry =
      (.ok ((List.range N).map (fun i => φ (batchRow (objs cfg.loader).data i)), carry'),
       (prun (numpyHost R) devices start
          (ops ++ List.replicate (ceilDiv N cfg.mbSize) (.draw v 1))).1) := by
  intro N start
  obtain ⟨res, batches, carries, h1, h2, h3, h4, h5, h6⟩ := c17_host_map R hdev hobjs hs hinit hcfg
    hmb ops hops hdraws
    (fun b c => ((List.range cfg.mbSize).map (fun j => φ (batchRow b.1 j)), ψ b c)) (by simp) carry
  refine ⟨carries (ceilDiv N cfg.mbSize), ?_⟩
  rw [h1]
  congr 3
  apply List.ext_getElem?
  intro i
  by_cases hi : i < N
  · obtain ⟨h, h7, h8⟩ := h6 i hi
    rw [h8]
    simp [Nat.mod_lt _ hmb, h7, hi]
  · rw [List.getElem?_eq_none (by rw [h2]; exact Nat.le_of_not_lt hi),
      List.getElem?_eq_none (by simp; omega)]

/-- **C18.** With masking: over one map the function sees, among the rows whose mask is true, the
observations `0, …, N-1` exactly once and in order; the mask it is given is the mask in the batch
information. -/
theorem c18_host_masked {devices : Nat} (hdev : 1 ≤ devices) {objs : Nat → Loader σ ρ}
    (hobjs : ∀ i, ∃ data, mkLoader data = .ok (objs i)) {s}
    (hs : PReachable (numpyHost R) devices objs s) {cb v : Nat}
    (hinit : (pstep (numpyHost R) devices s (.init cb .ordered v)).2 = .done)
    {cfg : Cfg} (hcfg : s.cfgs cb = some cfg) (hmb : 0 < cfg.mbSize)
    (ops : List (POp NumpyKw)) (hops : ∀ op ∈ ops, Respects [v] cb 1 op)
    (hdraws : ceilDiv (objs cfg.loader).obsCount cfg.mbSize ∣ numDraws v ops)
    (fn : List (String × List ρ) × List Bool → List Bool → τ → γ × τ) (carry : τ) :
    let N := (objs cfg.loader).obsCount
    let q := ceilDiv N cfg.mbSize
    let start := (pstep (numpyHost R) devices s (.init cb .ordered v)).1
    ∃ (rs : List γ) (calls : List ((List (String × List ρ) × List Bool) × List Bool))
      (carries : Nat → τ),
      mapMasked (hostSource (numpyHost R) devices v 1) N cfg.mbSize fn
        (prun (numpyHost R) devices start ops).1 carry =
          (.ok (rs, carries q),
           (prun (numpyHost R) devices start (ops ++ List.replicate q (.draw v 1))).1) ∧
      calls.length = q ∧ rs.length = q ∧ carries 0 = carry ∧
      (∀ j (h : j < calls.length) (h' : j < rs.length),
        fn calls[j].1 calls[j].2 (carries j) = (rs[j], carries (j + 1))) ∧
      (∀ c ∈ calls, c.2 = c.1.2 ∧ c.2.length = cfg.mbSize) ∧
      valid (calls.flatMap (fun c => (List.range cfg.mbSize).map (batchRow c.1.1)))
        (calls.flatMap (fun c => c.2)) =
          (List.range N).map (batchRow (objs cfg.loader).data) := by
  intro N q start
  obtain ⟨hwf, hle, hsup⟩ := host_pass R hdev hobjs hs hinit hcfg hmb ops hops hdraws
  obtain ⟨rs, carry', hmap⟩ := mapMasked_ok _ N cfg.mbSize hmb fn _ _ carry
    _ (by simp [N]) hsup
  obtain ⟨batches, carries, h1, h2, h3, h4, h5, h6⟩ := c23_masked _ _ _ _ _ _ _ _ _ hmap
  obtain ⟨hb, -⟩ := Supplies.unique (by simp [h1, N]) h3 hsup
  have hmask : ∀ j, (passRows (objs cfg.loader).data N cfg.mbSize j).2 = iterMask N cfg.mbSize j := by
    intro j
    simp only [passRows, passBatch, iterMask]
    apply List.map_congr_left
    intro i _
    rw [Nat.add_comm]
  refine ⟨rs, (List.range q).map (fun j =>
    (passRows (objs cfg.loader).data N cfg.mbSize j, iterMask N cfg.mbSize j)), carries, ?_,
    by simp, h2, h4, ?_, ?_, ?_⟩
  · rw [hmap, h5]
  · intro j h h'
    subst hb
    have := h6 j (by simpa using h) h'
    simp only [List.getElem_map, List.getElem_range] at this ⊢
    exact this
  · intro c hc
    obtain ⟨j, -, rfl⟩ := List.mem_map.1 hc
    exact ⟨(hmask j).symm, by simp [iterMask]⟩
  · have e1 : ((List.range q).map (fun j =>
        (passRows (objs cfg.loader).data N cfg.mbSize j, iterMask N cfg.mbSize j))).flatMap
        (fun c => (List.range cfg.mbSize).map (batchRow c.1.1)) =
        (((List.range q).map (passBatch N cfg.mbSize)).flatMap (·.1)).map
          (batchRow (objs cfg.loader).data) := by
      rw [List.flatMap_map, List.flatMap_map, List.map_flatMap]
      congr 1
      funext j
      simp only [passBatch, List.map_map]
      apply List.map_congr_left
      intro i hi
      exact passRows_row _ _ _ _ _ hwf hmb hle (List.mem_range.1 hi)
    have e2 : ((List.range q).map (fun j =>
        (passRows (objs cfg.loader).data N cfg.mbSize j, iterMask N cfg.mbSize j))).flatMap
        (fun c => c.2) = ((List.range q).map (passBatch N cfg.mbSize)).flatMap (·.2) := by
      rw [List.flatMap_map, List.flatMap_map]
      congr 1
      funext j
      exact (hmask j).symm
    rw [e1, e2, valid_map, pass_prefix, Nat.min_eq_left (ceilDiv_le hmb)]

end

/-- Hypotheses of C17 and C18 met by the second map of a data state of the toy loader (five
observations, two arrays, batch size 2, cache size 2), with other operations in between. -/
example :
    (∀ i, ∃ data, mkLoader data = .ok (toyObjs i)) ∧
    PReachable (numpyHost toyRng) 3 toyObjs toyReady ∧
    (pstep (numpyHost toyRng) 3 toyReady (.init 0 .ordered 4)).2 = .done ∧
    toyReady.cfgs 0 = some ⟨0, 2, 2, false⟩ ∧
    (∀ op ∈ [POp.draw 4 1, .init 0 .ordered 5, .draw 4 1, .draw 5 1, .draw 4 1, .setup 1 1 1 true],
      Respects (κ := NumpyKw) [4] 0 1 op) ∧
    ceilDiv (toyObjs 0).obsCount 2 ∣ numDraws 4 [POp.draw 4 1, .init 0 NumpyKw.ordered 5, .draw 4 1,
      .draw 5 1, .draw 4 1, .setup 1 1 1 true] := by
  refine ⟨fun _ => ⟨toyData, rfl⟩, toyReady_reachable, by decide, rfl, ?_, by decide⟩
  simp [Respects]

/-! ### C19, C20, C21 -/

section
variable {ρ γ τ : Type}

theorem device_step (data : List ρ) (bs line : Nat) (hbs : 0 < bs) (hN : 0 < data.length) :
    deviceSource data bs line =
      (.ok ((List.range bs).filterMap (fun i => data[(i + line) % data.length]?)),
        (line + bs) % data.length) := by
  have hlast : ((List.range bs).map (fun i => (i + line) % data.length)).getLast? =
      some ((bs - 1 + line) % data.length) := by
    obtain ⟨k, rfl⟩ : ∃ k, bs = k + 1 := ⟨bs - 1, by omega⟩
    rw [List.range_succ, List.map_append]
    simp
  simp only [deviceSource, hlast]
  rw [npTake_filterMap data _ (by
    intro i hi
    obtain ⟨a, -, rfl⟩ := List.mem_map.1 hi
    exact Nat.mod_lt _ hN), List.filterMap_map]
  simp only [Function.comp_def, Prod.mk.injEq, true_and]
  rw [Nat.mod_add_mod]
  congr 1
  omega

/-- The batches of a map which starts at line `o`. -/
def deviceBatch (data : List ρ) (bs o j : Nat) : List ρ :=
  (List.range bs).filterMap (fun i => data[(o + (i + j * bs)) % data.length]?)

theorem device_supplies (data : List ρ) (bs : Nat) (hbs : 0 < bs) (hN : 0 < data.length)
    (n : Nat) : ∀ (o j : Nat),
    Supplies (deviceSource data bs) ((o + j * bs) % data.length)
      ((List.range n).map (fun k => deviceBatch data bs o (j + k)))
      ((o + (j + n) * bs) % data.length) := by
  induction n with
  | zero => intro o j; rfl
  | succ n ih =>
    intro o j
    rw [List.range_succ_eq_map, List.map_cons, List.map_map]
    refine ⟨(o + (j + 1) * bs) % data.length, ?_, ?_⟩
    · rw [device_step data bs _ hbs hN]
      simp only [Prod.mk.injEq, Except.ok.injEq, deviceBatch]
      refine ⟨?_, ?_⟩
      · apply List.filterMap_congr
        intro i _
        rw [Nat.add_mod_mod]
        congr 2
        simp only [Nat.add_zero]
        omega
      · rw [Nat.mod_add_mod, Nat.add_mul, Nat.one_mul, Nat.add_assoc]
    · have := ih o (j + 1)
      rw [show j + (n + 1) = j + 1 + n by omega]
      convert this using 3
      simp only [Function.comp_def, Nat.succ_eq_add_one]
      congr 1
      omega

/-- The dataset rotated to the left by `o`. -/
def rotated (data : List ρ) (o : Nat) : List ρ :=
  (List.range data.length).filterMap (fun k => data[(o + k) % data.length]?)

theorem rotated_eq (data : List ρ) (o : Nat) (ho : o < data.length) :
    rotated data o = data.drop o ++ data.take o := by
  have hget : ∀ k, k < data.length → ∃ x, data[(o + k) % data.length]? = some x := by
    intro k hk
    exact ⟨_, List.getElem?_eq_getElem (Nat.mod_lt _ (by omega))⟩
  have hall : ∀ i ∈ (List.range data.length).map (fun k => (o + k) % data.length), i < data.length := by
    intro i hi
    obtain ⟨a, -, rfl⟩ := List.mem_map.1 hi
    exact Nat.mod_lt _ (by omega)
  apply List.ext_getElem?
  intro k
  have h1 : rotated data o = ((List.range data.length).map
      (fun k => (o + k) % data.length)).filterMap (fun i => data[i]?) := by
    rw [List.filterMap_map]; rfl
  rw [h1, filterMap_rows data _ hall]
  by_cases hk : k < data.length
  · simp only [List.getElem?_map, List.getElem?_range hk, Option.map_some, Option.bind_some]
    by_cases hk2 : k < data.length - o
    · rw [List.getElem?_append_left (by simpa using hk2), List.getElem?_drop,
        Nat.mod_eq_of_lt (by omega)]
    · rw [List.getElem?_append_right (by simp; omega), List.getElem?_take, List.length_drop,
        if_pos (by omega)]
      congr 1
      rw [Nat.mod_eq_sub_mod (by omega), Nat.mod_eq_of_lt (by omega)]
      omega
  · rw [List.getElem?_eq_none (by simp; omega)]
    simp
    omega

/-- Rotating does not change which observations there are (with multiplicity). -/
theorem rotated_perm (data : List ρ) (o : Nat) (ho : o < data.length) :
    (rotated data o).Perm data := by
  rw [rotated_eq data o ho]
  calc (data.drop o ++ data.take o).Perm (data.take o ++ data.drop o) := List.perm_append_comm
    _ = data := List.take_append_drop o data

theorem filterMap_flatMap' {α β ι : Type} (f : α → Option β) (l : List ι) (g : ι → List α) :
    (l.flatMap g).filterMap f = l.flatMap (fun i => (g i).filterMap f) := by
  induction l with
  | nil => rfl
  | cons a l ih => simp [List.flatMap_cons, List.filterMap_append, ih]

theorem deviceBatch_length (data : List ρ) (bs o j : Nat) (hN : 0 < data.length) :
    (deviceBatch data bs o j).length = bs := by
  have : deviceBatch data bs o j = ((List.range bs).map
      (fun i => (o + (i + j * bs)) % data.length)).filterMap (fun i => data[i]?) := by
    rw [List.filterMap_map]; rfl
  rw [this]
  have h2 := npTake_filterMap data ((List.range bs).map
      (fun i => (o + (i + j * bs)) % data.length)) (by
    intro i hi
    obtain ⟨a, -, rfl⟩ := List.mem_map.1 hi
    exact Nat.mod_lt _ hN)
  have h3 := congrArg List.length (npTake_spec _ _ _ h2)
  simpa using h3

theorem deviceBatches_flatten (data : List ρ) (bs o q : Nat) :
    ((List.range q).map (fun k => deviceBatch data bs o (0 + k))).flatten =
      (List.range (q * bs)).filterMap (fun k => data[(o + k) % data.length]?) := by
  have := range_blocks (fun k => k) bs q
  simp only [List.map_id'] at this
  rw [← this, filterMap_flatMap', ← List.flatMap_def]
  congr 1
  funext j
  rw [List.filterMap_map, Nat.zero_add]
  rfl

/-- The valid entries of a list of full rows under the masks of a map are its first `N` entries. -/
theorem valid_iterMask {α : Type} (N bs q : Nat) (xs : List α) (h : xs.length = q * bs) :
    valid xs ((List.range q).flatMap (iterMask N bs)) = xs.take N := by
  have hm : (List.range q).flatMap (iterMask N bs) =
      (List.range (q * bs)).map (fun i => decide (i + 0 < N)) := by
    have := range_blocks (fun k => decide (k + 0 < N)) bs q
    rw [← this]
    congr 1
    funext j
    simp only [iterMask]
    apply List.map_congr_left
    intro i _
    rw [Nat.add_zero, Nat.add_comm]
  rw [hm, valid_prefix_mask xs (q * bs) 0 N h, Nat.sub_zero]

theorem take_rotated (data : List ρ) (o m : Nat) (h : data.length ≤ m) (hN : 0 < data.length) :
    ((List.range m).filterMap (fun k => data[(o + k) % data.length]?)).take data.length =
      rotated data o := by
  obtain ⟨d, rfl⟩ : ∃ d, m = data.length + d := ⟨m - data.length, by omega⟩
  have hlen : (rotated data o).length = data.length := by
    have := deviceBatch_length data data.length o 0 hN
    simpa [deviceBatch, rotated] using this
  rw [List.range_add, List.filterMap_append, List.take_append_of_le_length]
  · have : (rotated data o).take data.length = rotated data o := by
      rw [← hlen, List.take_length]
    exact this
  · exact le_of_eq hlen.symm

/-- **C19** (offsets).  The init function rejects exactly the offsets which are not positions of the
dataset. -/
theorem c19_offset (N offset : Nat) :
    (offset < N → deviceInit N offset = .ok offset) ∧
    (N ≤ offset → deviceInit N offset = .error .valueError) := by
  constructor
  · intro h; simp [deviceInit, Nat.not_le.2 h]
  · intro h; simp [deviceInit, h]

/-- **C19** (one map, with masking), for any position `line` the data state is in: the map returns, the
function is called on batches of `bs` observations, the rows whose mask is true are (over the whole
map) a permutation of the dataset - namely the dataset rotated to the position - and the data state is
again at a position of the dataset, so that the theorem applies to the next map. -/
theorem c19_device_masked (data : List ρ) (bs line : Nat) (hbs : 0 < bs) (hline : line < data.length)
    (fn : List ρ → List Bool → τ → γ × τ) (carry : τ) :
    ∃ (rs : List γ) (calls : List (List ρ × List Bool)) (carries : Nat → τ) (line' : Nat),
      mapMasked (deviceSource data bs) data.length bs fn line carry =
        (.ok (rs, carries calls.length), line') ∧
      line' < data.length ∧ calls.length = ceilDiv data.length bs ∧ rs.length = calls.length ∧
      carries 0 = carry ∧
      (∀ j (h : j < calls.length) (h' : j < rs.length),
        fn calls[j].1 calls[j].2 (carries j) = (rs[j], carries (j + 1))) ∧
      (∀ c ∈ calls, c.1.length = bs ∧ c.2.length = bs) ∧
      valid (calls.flatMap (·.1)) (calls.flatMap (·.2)) = data.drop line ++ data.take line ∧
      (valid (calls.flatMap (·.1)) (calls.flatMap (·.2))).Perm data := by
  have hN : 0 < data.length := by omega
  have hsup := device_supplies data bs hbs hN (ceilDiv data.length bs) line 0
  simp only [Nat.zero_mul, Nat.add_zero] at hsup
  rw [Nat.mod_eq_of_lt hline] at hsup
  obtain ⟨rs, carry', hmap⟩ := mapMasked_ok _ data.length bs hbs fn _ _ carry _ (by simp) hsup
  obtain ⟨batches, carries, h1, h2, h3, h4, h5, h6⟩ := c23_masked _ _ _ _ _ _ _ _ _ hmap
  obtain ⟨hb, -⟩ := Supplies.unique (by simp [h1]) h3 hsup
  have hv : valid (((List.range (ceilDiv data.length bs)).map (fun j =>
        (deviceBatch data bs line (0 + j), iterMask data.length bs j))).flatMap (·.1))
      (((List.range (ceilDiv data.length bs)).map (fun j =>
        (deviceBatch data bs line (0 + j), iterMask data.length bs j))).flatMap (·.2)) =
      data.drop line ++ data.take line := by
    have e1 := deviceBatches_flatten data bs line (ceilDiv data.length bs)
    have hfl : ((List.range (ceilDiv data.length bs)).map (fun j =>
        (deviceBatch data bs line (0 + j), iterMask data.length bs j))).flatMap (·.1) =
        (List.range (ceilDiv data.length bs * bs)).filterMap
          (fun k => data[(line + k) % data.length]?) := by
      rw [← e1, List.flatMap_map, List.flatMap_def]
    have hlen : ((List.range (ceilDiv data.length bs * bs)).filterMap
          (fun k => data[(line + k) % data.length]?)).length = ceilDiv data.length bs * bs := by
      have := deviceBatch_length data (ceilDiv data.length bs * bs) line 0 hN
      simpa [deviceBatch] using this
    rw [hfl, List.flatMap_map, valid_iterMask _ _ _ _ hlen,
      take_rotated data line _ (ceilDiv_le hbs) hN, rotated_eq data line hline]
  refine ⟨rs, (List.range (ceilDiv data.length bs)).map (fun j =>
    (deviceBatch data bs line (0 + j), iterMask data.length bs j)), carries, _, ?_,
    Nat.mod_lt (line + (0 + ceilDiv data.length bs) * bs) hN, by simp, by simp [h2], h4, ?_, ?_, hv, ?_⟩
  · rw [hmap]; simp [h5]
  · intro j h h'
    subst hb
    have := h6 j (by simpa using h) h'
    simp only [List.getElem_map, List.getElem_range] at this ⊢
    exact this
  · intro c hc
    obtain ⟨j, -, rfl⟩ := List.mem_map.1 hc
    exact ⟨deviceBatch_length _ _ _ _ hN, by simp [iterMask]⟩
  · rw [hv, ← rotated_eq data line hline]; exact rotated_perm data line hline

/-- The result of a map without masking of a function which computes `φ` for every observation. -/
theorem device_unmasked (data : List ρ) (bs line : Nat) (hbs : 0 < bs) (hline : line < data.length)
    (φ : ρ → γ) (ψ : List ρ → τ → τ) (carry : τ) :
    ∃ carry', mapUnmasked (deviceSource data bs) data.length bs
        (fun b c => .ok (b.map φ, ψ b c)) line carry =
      (.ok ((data.drop line ++ data.take line).map φ, carry'),
        (line + ceilDiv data.length bs * bs) % data.length) := by
  have hN : 0 < data.length := by omega
  have hsup := device_supplies data bs hbs hN (ceilDiv data.length bs) line 0
  simp only [Nat.zero_mul, Nat.add_zero, Nat.zero_add] at hsup
  rw [Nat.mod_eq_of_lt hline] at hsup
  obtain ⟨res, carry', hmap⟩ := mapUnmasked_ok _ data.length bs hbs
    (fun b c => .ok (b.map φ, ψ b c)) _ _ carry _ (by simp) hsup (fun b _ c => ⟨_, rfl⟩)
  obtain ⟨batches, carries, rs, h1, h2, h3, h4, h5, h6, h7⟩ := c23_unmasked _ _ _ _ _ _ _ _ _ hmap
  obtain ⟨hb, -⟩ := Supplies.unique (by simp [h1]) h3 hsup
  refine ⟨carry', ?_⟩
  rw [hmap]
  congr 3
  have hrs : rs = batches.map (fun b => b.map φ) := by
    apply List.ext_getElem
    · simp [h1, h2]
    · intro j hj hj'
      have := h6 j (by omega) hj
      simp only [Except.ok.injEq, Prod.mk.injEq] at this
      simp [← this.1]
  rw [h7, hrs, hb, ← rotated_eq data line hline]
  have e1 := deviceBatches_flatten data bs line (ceilDiv data.length bs)
  simp only [Nat.zero_add] at e1
  rw [← List.map_flatten, e1, ← List.map_take, take_rotated data line _ (ceilDiv_le hbs) hN]

/-- **C19** (one map, without masking): the results are those of the observations of the dataset, each
exactly once. -/
theorem c19_device_unmasked (data : List ρ) (bs line : Nat) (hbs : 0 < bs)
    (hline : line < data.length) (φ : ρ → γ) (ψ : List ρ → τ → τ) (carry : τ) :
    ∃ res carry' line', mapUnmasked (deviceSource data bs) data.length bs
        (fun b c => .ok (b.map φ, ψ b c)) line carry = (.ok (res, carry'), line') ∧
      res.Perm (data.map φ) ∧ line' < data.length := by
  obtain ⟨carry', h⟩ := device_unmasked data bs line hbs hline φ ψ carry
  refine ⟨_, _, _, h, ?_, Nat.mod_lt _ (by omega)⟩
  rw [← rotated_eq data line hline]
  exact (rotated_perm data line hline).map φ

/-- The position of the data state after `p` maps. -/
def deviceLines (data : List ρ) (bs : Nat) (line : Nat) : Nat → Nat
  | 0 => line
  | p + 1 => (mapUnmasked (deviceSource data bs) data.length bs
      (fun b (c : Unit) => .ok (b, c)) (deviceLines data bs line p) ()).2

/-- The results of the `p`-th consecutive map (of the identity) of a data state initialised without an
offset. -/
def deviceResults (data : List ρ) (bs p : Nat) : Except PyErr (List ρ × Unit) :=
  (mapUnmasked (deviceSource data bs) data.length bs (fun b (c : Unit) => .ok (b, c))
    (deviceLines data bs 0 p) ()).1

/-- **C20** as claimed: result `i` of every map belongs to observation `i`. -/
def C20Statement : Prop :=
  ∀ (data : List Nat) (bs p : Nat), 0 < bs → 0 < data.length →
    deviceResults data bs p = .ok (data, ())

/-- **C20** is false: three observations, batch size two, second map. -/
theorem c20_false : ¬ C20Statement := by
  intro h
  have := h [10, 11, 12] 2 1 (by omega) (by decide)
  revert this
  decide

/-- **C20**, what holds: result `i` of the `p`-th map belongs to observation `(p*q*bs + i) mod N`
(`q` batches per map). -/
theorem c20_rotation_partial (data : List ρ) (bs p : Nat) (hbs : 0 < bs) (hN : 0 < data.length) :
    let o := (p * (ceilDiv data.length bs * bs)) % data.length
    deviceResults data bs p = .ok (data.drop o ++ data.take o, ()) := by
  have hl : ∀ p, deviceLines data bs 0 p = (p * (ceilDiv data.length bs * bs)) % data.length := by
    intro p
    induction p with
    | zero => simp [deviceLines]
    | succ p ih =>
      simp only [deviceLines, ih]
      obtain ⟨c, h⟩ := device_unmasked data bs _ hbs (Nat.mod_lt
        (p * (ceilDiv data.length bs * bs)) hN) (fun x => x) (fun _ (c : Unit) => c) ()
      simp only [List.map_id'] at h
      rw [h, Nat.mod_add_mod, Nat.add_mul, Nat.one_mul]
  intro o
  obtain ⟨c, h⟩ := device_unmasked data bs o hbs (Nat.mod_lt _ hN) (fun x => x)
    (fun _ (c : Unit) => c) ()
  simp only [List.map_id'] at h
  simp only [deviceResults, hl p]
  rw [h]

/-- **C20** holds on every map if the batch size divides the number of observations, and always on the
first map. -/
theorem c20_order_partial (data : List ρ) (bs p : Nat) (hbs : 0 < bs) (hN : 0 < data.length)
    (h : bs ∣ data.length ∨ p = 0) : deviceResults data bs p = .ok (data, ()) := by
  have := c20_rotation_partial data bs p hbs hN
  have ho : (p * (ceilDiv data.length bs * bs)) % data.length = 0 := by
    rcases h with ⟨d, hd⟩ | rfl
    · have : ceilDiv data.length bs = d := by
        unfold ceilDiv
        rw [hd, show bs * d + bs - 1 = bs * d + (bs - 1) by omega, Nat.mul_add_div hbs,
          Nat.div_eq_of_lt (by omega), Nat.add_zero]
      rw [this, Nat.mul_comm d bs, ← hd, Nat.mul_mod_left]
    · simp
  simpa [ho] using this

/-- The second map really is rotated in the witness. -/
example : deviceResults [10, 11, 12] 2 1 = .ok ([11, 12, 10], ()) := by decide

end

/-- The sizes of the batches with which `full_reference_data(loader, cc, mb)` calls the mapped function
in one map of a device data loader with dataset `data`. -/
def deviceBatchSizes {ρ : Type} (data : List ρ) (cc mb : Nat) : Except PyErr (List Nat × Unit) :=
  (mapMasked (deviceSource data (fullBatchSize .device cc mb)) data.length
    (fullBatchSize .device cc mb) (fun b _ (c : Unit) => (b.length, c)) 0 ()).1

/-- **C21** as claimed, for device data loaders: all batches have `mb` observations. -/
def C21Statement : Prop :=
  ∀ (data : List Nat) (cc mb : Nat), 0 < cc → 0 < mb → mb ≤ data.length →
    ∃ sizes, deviceBatchSizes data cc mb = .ok (sizes, ()) ∧ ∀ n ∈ sizes, n = mb

/-- **C21** is false: with `cached_batches_count = 1`, `mb_size = 2` the function gets single
observations. -/
theorem c21_false : ¬ C21Statement := by
  intro h
  obtain ⟨sizes, h1, h2⟩ := h [10, 11] 1 2 (by omega) (by omega) (by decide)
  have : deviceBatchSizes [10, 11] 1 2 = .ok ([1, 1], ()) := by decide
  rw [this] at h1
  simp only [Except.ok.injEq, Prod.mk.injEq, and_true] at h1
  subst h1
  simpa using h2 1 (by simp)

/-- What device data loaders do: batches of `cached_batches_count` observations. -/
theorem c21_device_partial {ρ : Type} (data : List ρ) (cc mb : Nat) (hcc : 0 < cc)
    (hN : 0 < data.length) :
    deviceBatchSizes data cc mb = .ok (List.replicate (ceilDiv data.length cc) cc, ()) := by
  obtain ⟨rs, calls, carries, line', h1, -, h2, h3, h4, h5, h6, -⟩ :=
    c19_device_masked data cc 0 hcc hN (fun b _ (c : Unit) => (b.length, c)) ()
  simp only [deviceBatchSizes, fullBatchSize]
  rw [h1]
  simp only [Except.ok.injEq, Prod.mk.injEq, and_true]
  rw [List.eq_replicate_iff]
  refine ⟨by omega, ?_⟩
  intro n hn
  obtain ⟨j, hj, rfl⟩ := List.mem_iff_getElem.1 hn
  have h7 := h5 j (by omega) hj
  simp only [Prod.mk.injEq] at h7
  rw [← h7.1]
  exact (h6 _ (List.getElem_mem _)).1

/-- **C21** holds for host data loaders: every batch the function is called with consists of `mb_size`
rows of every array. -/
theorem c21_host_partial {σ ρ : Type} (R : Rng σ) {devices : Nat} (hdev : 1 ≤ devices)
    {objs : Nat → Loader σ ρ}
    (hobjs : ∀ i, ∃ data, mkLoader data = .ok (objs i)) {s}
    (hs : PReachable (numpyHost R) devices objs s) {cb v : Nat}
    (hinit : (pstep (numpyHost R) devices s (.init cb .ordered v)).2 = .done)
    {cfg : Cfg} (hcfg : s.cfgs cb = some cfg) (hmb : 0 < cfg.mbSize)
    (ops : List (POp NumpyKw)) (hops : ∀ op ∈ ops, Respects [v] cb 1 op)
    (hdraws : ceilDiv (objs cfg.loader).obsCount cfg.mbSize ∣ numDraws v ops) :
    let N := (objs cfg.loader).obsCount
    let start := (pstep (numpyHost R) devices s (.init cb .ordered v)).1
    ∃ sizes s', mapMasked (hostSource (numpyHost R) devices v 1) N
        (fullBatchSize .host cfg.cacheCount cfg.mbSize)
        (fun b _ (c : Unit) => (b.1.map (fun x => x.2.length), c))
        (prun (numpyHost R) devices start ops).1 () = (.ok (sizes, ()), s') ∧
      sizes.length = ceilDiv N cfg.mbSize ∧ ∀ x ∈ sizes, ∀ n ∈ x, n = cfg.mbSize := by
  intro N start
  obtain ⟨hwf, hle, hsup⟩ := host_pass R hdev hobjs hs hinit hcfg hmb ops hops hdraws
  obtain ⟨rs, carry', hmap⟩ := mapMasked_ok _ N cfg.mbSize hmb
    (fun b _ (c : Unit) => (b.1.map (fun x => x.2.length), c)) _ _ () _ (by simp [N]) hsup
  obtain ⟨batches, carries, h1, h2, h3, h4, h5, h6⟩ := c23_masked _ _ _ _ _ _ _ _ _ hmap
  obtain ⟨hb, -⟩ := Supplies.unique (by simp [h1, N]) h3 hsup
  refine ⟨rs, _, hmap, h2, ?_⟩
  intro x hx n hn
  obtain ⟨j, hj, rfl⟩ := List.mem_iff_getElem.1 hx
  have h7 := h6 j (by omega) hj
  simp only [Prod.mk.injEq] at h7
  rw [← h7.1] at hn
  subst hb
  simp only [List.getElem_map, List.getElem_range, passRows, List.map_map, List.mem_map] at hn
  obtain ⟨y, hy, rfl⟩ := hn
  simp only [Function.comp_def]
  have h2 := npTake_filterMap y.2 (passBatch N cfg.mbSize j).1 (by
    rw [hwf y hy]; exact passBatch_lt _ _ _ hmb hle)
  have h3 := congrArg List.length (npTake_spec _ _ _ h2)
  simp only [List.length_map] at h3
  rw [h3]
  simp [passBatch]

/-! ### C24 -/

/-- Maps only depend on the values of the function on carries which can occur. -/
theorem mapUnmasked_congr {S β σ γ : Type} (src : S → Except PyErr β × S) (N bs : Nat)
    (fn fn' : β → σ → Except PyErr (List γ × σ)) (P : σ → Prop)
    (h : ∀ b c, P c → fn b c = fn' b c ∧ ∀ r, fn b c = .ok r → P r.2) (s : S) (carry : σ)
    (hc : P carry) : mapUnmasked src N bs fn s carry = mapUnmasked src N bs fn' s carry := by
  have gen : ∀ n it s c, P c → scanBatches src (fun _ b c => fn b c) n it s c =
      scanBatches src (fun _ b c => fn' b c) n it s c := by
    intro n
    induction n with
    | zero => intro it s c _; rfl
    | succ n ih =>
      intro it s c hc
      simp only [scanBatches]
      cases src s with
      | mk o s1 =>
        cases o with
        | error e => rfl
        | ok b =>
          simp only
          rw [← (h b c hc).1]
          cases hf : fn b c with
          | error e => rfl
          | ok r =>
            obtain ⟨r1, r2⟩ := r
            simp only
            rw [ih _ _ _ ((h b c hc).2 _ hf)]
  simp only [mapUnmasked]
  cases numIterations N bs with
  | error e => rfl
  | ok q => simp only; rw [gen q 0 s carry hc]

section
variable {σ ρ γ τ : Type} (R : Rng σ)

/-- **C24.** `full_data_mapper` with `batched=False`, any batch size, and a function `f` which carries
no state: the results are those of the single observations, in order. -/
theorem c24_stateless {devices : Nat} (hdev : 1 ≤ devices) {objs : Nat → Loader σ ρ}
    (hobjs : ∀ i, ∃ data, mkLoader data = .ok (objs i)) {s}
    (hs : PReachable (numpyHost R) devices objs s) {cb v : Nat}
    (hinit : (pstep (numpyHost R) devices s (.init cb .ordered v)).2 = .done)
    {cfg : Cfg} (hcfg : s.cfgs cb = some cfg) (hmb : 0 < cfg.mbSize)
    (ops : List (POp NumpyKw)) (hops : ∀ op ∈ ops, Respects [v] cb 1 op)
    (hdraws : ceilDiv (objs cfg.loader).obsCount cfg.mbSize ∣ numDraws v ops)
    (f : List (String × Option ρ) → Option τ → γ × Option τ) (hf : ∀ row, (f row none).2 = none) :
    let N := (objs cfg.loader).obsCount
    let start := (pstep (numpyHost R) devices s (.init cb .ordered v)).1
    (mapUnmasked (hostSource (numpyHost R) devices v 1) N cfg.mbSize
        (fun b c => unbatched cfg.mbSize (batchRow b.1) f c)
        (prun (numpyHost R) devices start ops).1 none).1 =
      .ok ((List.range N).map (fun i => (f (batchRow (objs cfg.loader).data i) none).1), none) := by
  intro N start
  have hcongr := mapUnmasked_congr (hostSource (numpyHost R) devices v 1) N cfg.mbSize
    (fun b c => unbatched cfg.mbSize (batchRow b.1) f c)
    (fun b c => .ok ((List.range cfg.mbSize).map (fun j => (f (batchRow b.1 j) none).1), none))
    (fun c => c = none) (by
      intro b c hc
      subst hc
      have : unbatched cfg.mbSize (batchRow b.1) f none =
          .ok ((List.range cfg.mbSize).map (fun j => (f (batchRow b.1 j) none).1), none) := by
        simp only [unbatched]
        split
        · rename_i h1
          simp [h1, hf]
        · simp [hf]
      refine ⟨this, ?_⟩
      intro r hr
      rw [this] at hr
      simp only [Except.ok.injEq] at hr
      rw [← hr])
    (prun (numpyHost R) devices start ops).1 none rfl
  rw [hcongr]
  obtain ⟨carry', h⟩ := c17_rowwise R hdev hobjs hs hinit hcfg hmb ops hops hdraws
    (fun row => (f row none).1) (fun _ (_ : Option τ) => none) none
  rw [h]
  obtain ⟨batches, carries, rs, h1, h2, h3, h4, h5, h6, h7⟩ := c23_unmasked _ _ _ _ _ _ _ _ _ h
  have hq : 0 < ceilDiv (objs cfg.loader).obsCount cfg.mbSize :=
    ceilDiv_pos hmb (by
      have := (host_pass R hdev hobjs hs hinit hcfg hmb ops hops hdraws).2.1
      omega)
  have := h6 (ceilDiv (objs cfg.loader).obsCount cfg.mbSize - 1) (by omega) (by omega)
  simp only [Except.ok.injEq, Prod.mk.injEq] at this
  rw [Nat.sub_add_cancel hq] at this
  rw [← h5, ← this.2]

/-- **C24**, batch size one with a state: the state is passed on from observation to observation. -/
theorem c24_stateful_one {devices : Nat} (hdev : 1 ≤ devices) {objs : Nat → Loader σ ρ}
    (hobjs : ∀ i, ∃ data, mkLoader data = .ok (objs i)) {s}
    (hs : PReachable (numpyHost R) devices objs s) {cb v : Nat}
    (hinit : (pstep (numpyHost R) devices s (.init cb .ordered v)).2 = .done)
    {cfg : Cfg} (hcfg : s.cfgs cb = some cfg) (hmb : cfg.mbSize = 1)
    (ops : List (POp NumpyKw)) (hops : ∀ op ∈ ops, Respects [v] cb 1 op)
    (hdraws : ceilDiv (objs cfg.loader).obsCount cfg.mbSize ∣ numDraws v ops)
    (f : List (String × Option ρ) → Option τ → γ × Option τ) (carry : Option τ) :
    let N := (objs cfg.loader).obsCount
    let start := (pstep (numpyHost R) devices s (.init cb .ordered v)).1
    ∃ (res : List γ) (carries : Nat → Option τ),
      (mapUnmasked (hostSource (numpyHost R) devices v 1) N cfg.mbSize
        (fun b c => unbatched cfg.mbSize (batchRow b.1) f c)
        (prun (numpyHost R) devices start ops).1 carry).1 = .ok (res, carries N) ∧
      res.length = N ∧ carries 0 = carry ∧
      ∀ i (_ : i < N), ∃ y, res[i]? = some y ∧
        f (batchRow (objs cfg.loader).data i) (carries i) = (y, carries (i + 1)) := by
  intro N start
  have hfun : (fun (b : List (String × List ρ) × List Bool) c =>
      unbatched cfg.mbSize (batchRow b.1) f c) =
      (fun b c => .ok ([(f (batchRow b.1 0) c).1], (f (batchRow b.1 0) c).2)) := by
    funext b c
    simp [unbatched, hmb]
  rw [hfun]
  obtain ⟨res, batches, carries, h1, h2, h3, h4, h5, h6⟩ := c17_host_map R hdev hobjs hs hinit hcfg
    (by omega) ops hops hdraws (fun b c => ([(f (batchRow b.1 0) c).1], (f (batchRow b.1 0) c).2))
    (by simp [hmb]) carry
  have hq : ceilDiv N cfg.mbSize = N := by simp [ceilDiv, hmb]
  refine ⟨res, carries, ?_, h2, h4, ?_⟩
  · rw [h1]; show Except.ok (res, carries (ceilDiv N cfg.mbSize)) = _; rw [hq]
  · intro i hi
    obtain ⟨h, h7, h8⟩ := h6 i hi
    have h9 := h5 i (by rw [h3]; show i < ceilDiv N cfg.mbSize; omega)
    simp only [hmb, Nat.div_one, Nat.mod_one] at h7 h8 h9
    refine ⟨_, h8, ?_⟩
    rw [← h7, ← h9]

/-- What happens for larger batches if the function returns a state: the map raises. -/
theorem c24_stateful_raises (mb : Nat) (hmb : 1 < mb) (rowOf : Nat → ρ) (f : ρ → Option τ → γ × Option τ)
    (c : Option τ) (h : ∃ j < mb, (f (rowOf j) c).2 ≠ none) :
    unbatched mb rowOf f c = .error .valueError := by
  have h1 : mb ≠ 1 := by omega
  simp only [unbatched, h1, if_false]
  obtain ⟨j, hj, hne⟩ := h
  rw [if_neg]
  intro hall
  rw [List.all_eq_true] at hall
  have := hall (f (rowOf j) c) (List.mem_map.2 ⟨j, List.mem_range.2 hj, rfl⟩)
  exact hne (by simpa using this)

/-- A stateless function on the toy data: the sum of the arrays. -/
example :
    (mapUnmasked (hostSource (numpyHost toyRng) 3 4 1) 5 2
      (fun b c => unbatched 2 (batchRow b.1)
        (fun (row : List (String × Option Nat)) (c : Option Nat) =>
          ((row.map (fun x => x.2.getD 0)).sum, c)) c)
      (pstep (numpyHost toyRng) 3 toyReady (.init 0 .ordered 4)).1 none).1 =
    .ok ((List.range 5).map (fun i => ((batchRow toyData i).map (fun x => x.2.getD 0)).sum), none) := by
  decide

end

end JaxSgmc
