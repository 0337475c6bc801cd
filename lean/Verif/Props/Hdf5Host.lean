import Verif.Lemmas.Hdf5Host
import Verif.Spec.Hdf5Host
import Verif.Props.Mapper

/-!
# C126: postprocessing of saved samples
-/

namespace JaxSgmc

open Spec

section
variable {σ α γ τ : Type} (R : Rng σ)

theorem Spec.JustOpened.valid {L : H5Loader σ α} (h : JustOpened L) : H5Valid L ∧ L.chains = [] := by
  obtain ⟨file, subdir, sample, hw, ho, hr⟩ := h
  unfold h5Open at ho
  cases hk : dictKeys sample with
  | error e => simp [hk] at ho
  | ok keys =>
    have hkl := dictKeys_length sample hw keys hk
    simp only [hk] at ho
    cases hm : mapExcept (h5Get file) (keys.map (h5Name subdir)) with
    | error e => simp [hm] at ho
    | ok ds =>
      simp only [hm] at ho
      cases ds with
      | nil => simp at ho
      | cons d ds =>
        simp only [Except.ok.injEq] at ho
        subst ho
        dsimp only at hr
        refine ⟨⟨?_, ?_, ?_, ?_⟩, rfl⟩
        · intro nm hnm
          dsimp only at hnm ⊢
          have : ∃ rows, h5Get file nm = .ok rows := by
            generalize hds : d :: ds = rs at hm
            clear hds hr
            generalize keys.map (h5Name subdir) = nms at hm hnm
            induction nms generalizing rs with
            | nil => simp at hnm
            | cons x xs ih =>
              simp only [mapExcept] at hm
              cases hx : h5Get file x with
              | error e => simp [hx] at hm
              | ok r =>
                cases hy : mapExcept (h5Get file) xs with
                | error e => simp [hx, hy] at hm
                | ok ys =>
                  rcases List.mem_cons.1 hnm with rfl | h
                  · exact ⟨r, hx⟩
                  · exact ih ys hy h
          obtain ⟨rows, h⟩ := this
          exact ⟨rows, h, hr nm hnm rows h⟩
        · simp [Tree.leaves_length_shape, hkl]
        · exact Tree.shape_map _ _
        · intro h0
          dsimp only at h0
          rw [h0] at hm
          simp [mapExcept] at hm

/-- Names for the tree structures of a sequence of loaders. -/
theorem tags_exist (objs : Nat → H5Loader σ α) : ∃ (tag : Tree Unit → String) (untag : String → Tree Unit),
    ∀ i, untag (tag (objs i).structure_) = (objs i).structure_ := by
  classical
  refine ⟨fun S => if h : ∃ i, (objs i).structure_ = S then String.ofList (List.replicate h.choose 'a') else "",
    fun s => (objs s.toList.length).structure_, ?_⟩
  intro i
  have h : ∃ j, (objs j).structure_ = (objs i).structure_ := ⟨i, rfl⟩
  dsimp only
  rw [dif_pos h]
  simp only [String.toList_ofList, List.length_replicate]
  exact h.choose_spec

/-- The row `i` of the translated data. -/
theorem toNumpy_row (tag : Tree Unit → String) (L : H5Loader σ α) (hV : H5Valid L) (i : Nat) (t : Tree α)
    (h : ReadsRow L i t) :
    t.shape = L.structure_ ∧
    batchRow (toNumpy tag L).data i = t.leaves.map (fun a => (tag L.structure_, some a)) := by
  obtain ⟨obs, h1, h2, h3⟩ := h
  rcases h5Slice_sliceAll L (toNumpy tag L) (hV.same tag) [[i]] with ⟨e, g1, -⟩ | ⟨obs', b, g1, g2, g3, g4⟩
  · rw [h1] at g1; simp at g1
  · rw [h1, Except.ok.injEq] at g1
    subst g1
    refine ⟨h2.symm.trans g3, ?_⟩
    have key : ∀ (data : List (String × List α)) (b : List (String × List (List α))) (as : List α),
        sliceAll [[i]] data = .ok b → b.map Prod.snd = as.map (fun a => [[a]]) →
        (∀ d ∈ data, d.1 = tag L.structure_) →
        batchRow data i = as.map (fun a => (tag L.structure_, some a)) := by
      intro data
      induction data with
      | nil =>
        intro b as hb has _
        simp only [sliceAll, Except.ok.injEq] at hb
        subst hb
        have : as = [] := by simpa using has.symm
        subst this
        rfl
      | cons d data ih =>
        intro b as hb has hnm
        obtain ⟨nm, rows⟩ := d
        have hnm1 : nm = tag L.structure_ := hnm (nm, rows) (by simp)
        simp only [sliceAll, takeRows] at hb
        cases hr : npTake rows [i] with
        | error e => simp [hr] at hb
        | ok r =>
          cases hx : sliceAll [[i]] data with
          | error e => simp [hr, hx] at hb
          | ok bs =>
            simp only [hr, hx, Except.ok.injEq] at hb
            subst hb
            cases as with
            | nil => simp at has
            | cons a as =>
              simp only [List.map_cons, List.cons.injEq] at has
              have hra : rows[i]? = some a := by
                have := npTake_spec _ _ _ hr
                have h0 := has.1.1
                subst h0
                simpa using this.symm
              have hih := ih bs as hx has.2 (fun d hd => hnm d (by simp [hd]))
              have e1 : batchRow ((nm, rows) :: data) i = (nm, rows[i]?) :: batchRow data i := rfl
              rw [e1, hih, hnm1, hra]
              rfl
    refine key _ b _ g2 (by rw [← g4, h3]) ?_
    intro d hd
    simp only [toNumpy, List.mem_map] at hd
    obtain ⟨nm, -, rfl⟩ := hd
    rfl

/-- A row of a batch which is a row of the data. -/
theorem batchUn_row (tag : Tree Unit → String) (untag : String → Tree Unit) (b : List (String × List α) × List Bool)
    (j : Nat) (t : Tree α) (hne : t.leaves ≠ []) (hu : untag (tag t.shape) = t.shape)
    (h : batchRow b.1 j = t.leaves.map (fun a => (tag t.shape, some a))) :
    rowTree (batchUn untag b).1 j = t.map some := by
  obtain ⟨cols, mask⟩ := b
  dsimp only at h
  have hl : cols.map (fun x => x.2[j]?) = t.leaves.map some := by
    have := congrArg (List.map Prod.snd) h
    simpa [batchRow, Function.comp_def] using this
  have hlen : cols.length = t.leaves.length := by simpa using congrArg List.length hl
  cases hc : cols with
  | nil => rw [hc] at hlen; exact absurd (List.length_eq_zero_iff.1 hlen.symm) hne
  | cons d ds =>
    have hd : d.1 = tag t.shape := by
      cases hlv : t.leaves with
      | nil => exact absurd hlv hne
      | cons a as =>
        rw [hc, hlv] at h
        simp only [batchRow, List.map_cons, List.cons.injEq, Prod.mk.injEq] at h
        exact h.1.1
    obtain ⟨u, u1, u2, u3⟩ := Tree.unflatten_ok t.shape (cols.map Prod.snd)
      (by simp [hlen, Tree.leaves_length_shape])
    have e : batchUn untag (d :: ds, mask) = (u, mask) := by
      unfold batchUn
      dsimp only
      rw [hd, hu, ← hc, u1]
    rw [e]
    apply Tree.ext
    · rw [rowTree, Tree.shape_map, Tree.shape_map, u3]
      exact Tree.shape_map _ _
    · rw [rowTree, Tree.leaves_map, Tree.leaves_map, u2, List.map_map]
      exact hl

theorem rows_flatten {B : Type} (bs : List B) (ξ : B → Nat → γ) (target : Nat → γ) (mb N : Nat) (hmb : 0 < mb)
    (h : ∀ i < N, ∃ hb : i / mb < bs.length, ξ bs[i / mb] (i % mb) = target i) :
    ((bs.map (fun b => (List.range mb).map (ξ b))).flatten.take N) = (List.range N).map target := by
  have hlen : ∀ r ∈ bs.map (fun b => (List.range mb).map (ξ b)), r.length = mb := by
    intro r hr
    obtain ⟨b, -, rfl⟩ := List.mem_map.1 hr
    simp
  apply List.ext_getElem?
  intro i
  rw [List.getElem?_take]
  by_cases hi : i < N
  · obtain ⟨hb, hrow⟩ := h i hi
    rw [if_pos hi, flatten_get _ hmb _ hlen]
    simp [hb, hi, Nat.mod_lt _ hmb, hrow]
  · rw [if_neg hi, List.getElem?_eq_none (by simp; omega)]

theorem pinit_tr {Λ Λ' μ μ' : Type} (f : Λ → Λ') (g : μ → μ') (objs : Nat → Λ) :
    (pinit objs : PSys Λ μ).tr f g = (pinit (fun i => f (objs i)) : PSys Λ' μ') := rfl

/-- A reachable state of a program with HDF5 loaders is a reachable state of a program with numpy
loaders. -/
theorem h5_reachable (tag : Tree Unit → String) (untag : String → Tree Unit) {devices : Nat}
    {objs : Nat → H5Loader σ α} (hobjs : ∀ i, JustOpened (objs i))
    (htag : ∀ i, untag (tag (objs i).structure_) = (objs i).structure_) {s}
    (hs : PReachable (h5Host R) devices objs s) :
    PReachable (numpyHost R) devices (fun i => toNumpy tag (objs i)) (s.tr (toNumpy tag) (batchTr tag)) ∧
    SInv (fun L => H5Valid L ∧ untag (tag L.structure_) = L.structure_)
      (fun b => b.1.leaves ≠ [] ∧ untag (tag b.1.shape) = b.1.shape) s := by
  obtain ⟨ops, rfl⟩ := hs
  have hv : SInv (fun L : H5Loader σ α => H5Valid L ∧ untag (tag L.structure_) = L.structure_)
      (fun b : Tree (List α) × List Bool => b.1.leaves ≠ [] ∧ untag (tag b.1.shape) = b.1.shape) (pinit objs) :=
    ⟨⟨fun i => ⟨(hobjs i).valid.1, htag i⟩, fun t x h => by simp [pinit] at h⟩, fun t x h => by simp [pinit] at h⟩
  obtain ⟨h1, h2⟩ := prun_tr (h5_hostHom tag untag R) devices ops (pinit objs) hv
  rw [pinit_tr] at h1
  exact ⟨⟨ops, by rw [h1]⟩, h2⟩

/-- Every call of a mapper which has ended returned `φ` of every row of the datasets, in order. -/
theorem h5_mapper {devices base : Nat} (hdev : 1 ≤ devices) {objs : Nat → H5Loader σ α}
    (hobjs : ∀ i, JustOpened (objs i)) {s} (hs : PReachable (h5Host R) devices objs s) {l : Nat} {cc mb : Int}
    {m0 : Mapper (H5Loader σ α) (Tree (List α) × List Bool) τ γ}
    (hm0 : mkMapper (h5Host R) devices base .ordered s l cc mb = some m0)
    (φ : Tree (Option α) → γ) (ψ : Tree (List α) × List Bool → τ → τ) (ops : List (MOp NumpyKw τ))
    (hops : ∀ op ∈ ops, EnvOk base m0.cb op) (row : Nat → Tree α)
    (hrow : ∀ i < (objs l).obsCount, ReadsRow (objs l) i (row i)) :
    ∀ c res carry, (mrun (h5Host R) devices base .ordered (objs l).obsCount
        (ceilDiv (objs l).obsCount mb.toNat)
        (fun b c => ((List.range mb.toNat).map (fun j => φ (rowTree b.1 j)), ψ b c)) m0 ops).finished c =
          some (res, carry) →
      res = (List.range (objs l).obsCount).map (fun i => φ ((row i).map some)) := by
  intro c res carry h
  obtain ⟨tag, untag, htag⟩ := tags_exist objs
  have hh := h5_hostHom (α := α) tag untag R
  obtain ⟨hs', hinv⟩ := h5_reachable R tag untag hobjs htag hs
  obtain ⟨hm0', hinv0⟩ := mkMapper_tr hh devices base .ordered s l cc mb hinv m0 hm0
  have hobjs' : ∀ i, ∃ data, mkLoader data = .ok (toNumpy tag (objs i)) := fun i =>
    ⟨_, (hobjs i).valid.1.mk_loader tag (hobjs i).valid.2⟩
  obtain ⟨hrun, -⟩ := mrun_tr hh devices base .ordered (objs l).obsCount (ceilDiv (objs l).obsCount mb.toNat)
    (fun b c => ((List.range mb.toNat).map (fun j => φ (rowTree b.1 j)), ψ b c))
    (fun b c => ((List.range mb.toNat).map (fun j => φ (rowTree (batchUn untag b).1 j)), ψ (batchUn untag b) c))
    (by intro b c hb; rw [batchUn_tr tag untag b hb.1 hb.2]) ops m0 hinv0
  have hfin : (mrun (numpyHost R) devices base .ordered (objs l).obsCount (ceilDiv (objs l).obsCount mb.toNat)
      (fun b c => ((List.range mb.toNat).map (fun j => φ (rowTree (batchUn untag b).1 j)), ψ (batchUn untag b) c))
      (m0.tr (toNumpy tag) (batchTr tag)) ops).finished c = some (res, carry) := by
    rw [hrun]; exact h
  obtain ⟨I0, -, -⟩ := MInv.init (fn := fun b c => ((List.range mb.toNat).map
    (fun j => φ (rowTree (batchUn untag b).1 j)), ψ (batchUn untag b) c)) hobjs' hs' hm0'
  have hmb : 0 < mb.toNat := I0.mbPos
  obtain ⟨-, -, h1, -⟩ := c22_concurrent R hdev hobjs' hs' hm0'
    (fun b c => ((List.range mb.toNat).map (fun j => φ (rowTree (batchUn untag b).1 j)), ψ (batchUn untag b) c))
    ops hops
  obtain ⟨c0, batches, -, h2, h3, -, rfl⟩ := h1 c res carry hfin
  have hth : ∀ (bs : List (NB α)) c, (thread (fun (b : NB α) (c : τ) =>
      ((List.range mb.toNat).map (fun j => φ (rowTree (batchUn untag b).1 j)), ψ (batchUn untag b) c)) bs c).1 =
      bs.map (fun b => (List.range mb.toNat).map (fun j => φ (rowTree (batchUn untag b).1 j))) := by
    intro bs
    induction bs with
    | nil => intro c; rfl
    | cons b bs ih => intro c; simp [thread, ih]
  rw [hth]
  refine rows_flatten batches (fun b j => φ (rowTree (batchUn untag b).1 j)) _ mb.toNat _ hmb ?_
  intro i hi
  obtain ⟨hb, hr⟩ := h3 i hi
  refine ⟨hb, ?_⟩
  have hV := (hobjs l).valid.1
  obtain ⟨g1, g2⟩ := toNumpy_row tag (objs l) hV i (row i) (hrow i hi)
  rw [g2, ← g1] at hr
  have hne : (row i).leaves ≠ [] := by
    intro h0
    have : (row i).leaves.length = (objs l).structure_.leaves.length := by
      rw [← Tree.leaves_length_shape, g1]
    rw [h0, hV.leaves] at this
    exact hV.nonempty (List.length_eq_zero_iff.1 this.symm)
  rw [batchUn_row tag untag _ _ (row i) hne (by rw [g1]; exact htag l) hr]

/-- The tree of a row of a batch of the numpy loader. -/
def rowUn (untag : String → Tree Unit) (r : List (String × Option α)) : Tree (Option α) :=
  match r with
  | [] => .none
  | d :: _ =>
    match Tree.unflatten (untag d.1) (r.map Prod.snd) with
    | .ok t => t
    | .error _ => .none

theorem rowUn_batchRow (untag : String → Tree Unit) (b : List (String × List α) × List Bool) (j : Nat) :
    rowTree (batchUn untag b).1 j = rowUn untag (batchRow b.1 j) := by
  obtain ⟨cols, mask⟩ := b
  cases cols with
  | nil => rfl
  | cons d ds =>
    have e1 : batchUn untag (d :: ds, mask) =
        (match Tree.unflatten (untag d.1) (d.2 :: ds.map Prod.snd) with
          | .ok t => (t, mask)
          | .error _ => (.none, mask)) := rfl
    have e2 : rowUn untag (batchRow (d :: ds) j) =
        (match Tree.unflatten (untag d.1) (((d :: ds).map (fun x => (x.1, x.2[j]?))).map Prod.snd) with
          | .ok t => t
          | .error _ => .none) := rfl
    have e3 : ((d :: ds).map (fun x => (x.1, x.2[j]?))).map Prod.snd =
        (d.2 :: ds.map Prod.snd).map (fun col => col[j]?) := by
      simp
    rw [e1, e2, e3]
    by_cases hl : (d.2 :: ds.map Prod.snd).length = (untag d.1).leaves.length
    · obtain ⟨u, u1, u2, u3⟩ := Tree.unflatten_ok (untag d.1) _ hl
      obtain ⟨w, w1, w2, w3⟩ := Tree.unflatten_ok (untag d.1)
        ((d.2 :: ds.map Prod.snd).map (fun col => col[j]?)) (by rw [List.length_map]; exact hl)
      rw [u1, w1]
      apply Tree.ext
      · rw [rowTree, Tree.shape_map, u3, w3]
      · rw [rowTree, Tree.leaves_map, u2, w2]
    · have h1 : ∀ u, Tree.unflatten (untag d.1) (d.2 :: ds.map Prod.snd) ≠ .ok u :=
        fun u hu => hl (Tree.unflatten_length hu)
      have h2 : ∀ u, Tree.unflatten (untag d.1) ((d.2 :: ds.map Prod.snd).map (fun col => col[j]?)) ≠ .ok u :=
        fun u hu => hl (by rw [← Tree.unflatten_length hu, List.length_map])
      cases g1 : Tree.unflatten (untag d.1) (d.2 :: ds.map Prod.snd) with
      | ok u => exact absurd g1 (h1 u)
      | error e1 =>
        cases g2 : Tree.unflatten (untag d.1) ((d.2 :: ds.map Prod.snd).map (fun col => col[j]?)) with
        | ok u => exact absurd g2 (h2 u)
        | error e2 => rfl

theorem rowUn_leaves (tag : Tree Unit → String) (untag : String → Tree Unit) (t : Tree α) (hne : t.leaves ≠ [])
    (hu : untag (tag t.shape) = t.shape) :
    rowUn untag (t.leaves.map (fun a => (tag t.shape, some a))) = t.map some := by
  have h := batchUn_row tag untag (t.leaves.map (fun a => (tag t.shape, [a])), []) 0 t hne hu (by
    simp [batchRow])
  rw [rowUn_batchRow] at h
  rw [← h]
  congr 1
  simp [batchRow]

/-- The sum over a masked map and the number of rows counted. -/
theorem h5_masked [AddCommMonoid γ] {devices : Nat} (hdev : 1 ≤ devices) {objs : Nat → H5Loader σ α}
    (hobjs : ∀ i, JustOpened (objs i)) {s} (hs : PReachable (h5Host R) devices objs s) {cb v : Nat}
    (hinit : (pstep (h5Host R) devices s (.init cb .ordered v)).2 = .done)
    {cfg : Cfg} (hcfg : s.cfgs cb = some cfg) (hmb : 0 < cfg.mbSize)
    (ops : List (POp NumpyKw)) (hops : ∀ op ∈ ops, Respects [v] cb 1 op)
    (hdraws : ceilDiv (objs cfg.loader).obsCount cfg.mbSize ∣ numDraws v ops)
    (φ : Tree (Option α) → γ) (row : Nat → Tree α)
    (hrow : ∀ i < (objs cfg.loader).obsCount, ReadsRow (objs cfg.loader) i (row i)) :
    let N := (objs cfg.loader).obsCount
    let start := (pstep (h5Host R) devices s (.init cb .ordered v)).1
    ∃ rs, (mapMasked (hostSource (h5Host R) devices v 1) N cfg.mbSize
        (fun b m count => ((valid ((List.range cfg.mbSize).map (fun j => φ (rowTree b.1 j))) m).sum,
          count + m.count true)) (prun (h5Host R) devices start ops).1 0).1 = .ok (rs, N) ∧
      rs.sum = ((List.range N).map (fun i => φ ((row i).map some))).sum := by
  intro N start
  obtain ⟨tag, untag, htag⟩ := tags_exist objs
  have hh := h5_hostHom (α := α) tag untag R
  obtain ⟨hs', hinv⟩ := h5_reachable R tag untag hobjs htag hs
  have hobjs' : ∀ i, ∃ data, mkLoader data = .ok (toNumpy tag (objs i)) := fun i =>
    ⟨_, (hobjs i).valid.1.mk_loader tag (hobjs i).valid.2⟩
  obtain ⟨p1, p2, -⟩ := pstep_tr hh devices s hinv (.init cb .ordered v)
  have hinit' : (pstep (numpyHost R) devices (s.tr (toNumpy tag) (batchTr tag)) (.init cb .ordered v)).2 = .done := by
    rw [p1]
    dsimp only
    rw [hinit]
    rfl
  obtain ⟨q1, q2⟩ := prun_tr hh devices ops start p2
  have hmt := mapMasked_tr hh devices v 1 N cfg.mbSize
    (fun b m count => ((valid ((List.range cfg.mbSize).map (fun j => φ (rowTree b.1 j))) m).sum,
          count + m.count true))
    (fun b m count => ((valid ((List.range cfg.mbSize).map (fun j => φ (rowTree (batchUn untag b).1 j))) m).sum,
          count + m.count true))
    (by intro b m c hb; rw [batchUn_tr tag untag b hb.1 hb.2]) (prun (h5Host R) devices start ops).1 (0 : Nat) q2
  rw [← hmt]
  obtain ⟨rs, calls, carries, c1, c2, c3, c4, c5, c6, c7⟩ := c18_host_masked R hdev hobjs' hs' hinit' hcfg hmb ops hops
    hdraws (fun b m count => ((valid ((List.range cfg.mbSize).map
      (fun j => φ (rowTree (batchUn untag b).1 j))) m).sum, count + m.count true)) (0 : Nat)
  have hst : (prun (numpyHost R) devices (pstep (numpyHost R) devices (s.tr (toNumpy tag) (batchTr tag))
      (.init cb .ordered v)).1 ops).1 = ((prun (h5Host R) devices start ops).1).tr (toNumpy tag) (batchTr tag) := by
    rw [p1]
    dsimp only
    rw [q1]
  rw [hst] at c1
  have e1 : (toNumpy tag (objs cfg.loader)).obsCount = N := rfl
  rw [e1] at c1 c2 c3 c7
  rw [c1]
  dsimp only
  have hV := (hobjs cfg.loader).valid.1
  -- the results
  have hrs : ∀ j (h : j < calls.length) (h' : j < rs.length),
      rs[j] = ((valid ((List.range cfg.mbSize).map (batchRow calls[j].1.1)) calls[j].2).map
        (fun r => φ (rowUn untag r))).sum ∧ carries (j + 1) = carries j + calls[j].2.count true := by
    intro j h h'
    have := c5 j h h'
    simp only [Prod.mk.injEq] at this
    refine ⟨?_, this.2.symm⟩
    rw [← this.1, ← valid_map, List.map_map]
    congr 2
    apply List.map_congr_left
    intro i _
    simp only [Function.comp_apply, rowUn_batchRow]
  have hrs' : rs = calls.map (fun c => ((valid ((List.range cfg.mbSize).map (batchRow c.1.1)) c.2).map
        (fun r => φ (rowUn untag r))).sum) := by
    apply List.ext_getElem
    · simp [c2, c3]
    · intro j h1 h2
      rw [List.getElem_map]
      exact (hrs j (by simpa using h2) h1).1
  have hsplit : ∀ cs : List ((List (String × List α) × List Bool) × List Bool),
      (∀ c ∈ cs, c.2.length = cfg.mbSize) →
      ((cs.map (fun c => ((valid ((List.range cfg.mbSize).map (batchRow c.1.1)) c.2).map
        (fun r => φ (rowUn untag r))).sum)).sum =
      ((valid (cs.flatMap (fun c => (List.range cfg.mbSize).map (batchRow c.1.1))) (cs.flatMap (fun c => c.2))).map
        (fun r => φ (rowUn untag r))).sum) ∧
      (cs.map (fun c => c.2.count true)).sum =
        (valid (cs.flatMap (fun c => (List.range cfg.mbSize).map (batchRow c.1.1))) (cs.flatMap (fun c => c.2))).length := by
    have hcount : ∀ (xs : List (List (String × Option α))) (ms : List Bool), xs.length = ms.length →
        (valid xs ms).length = ms.count true := by
      intro xs
      induction xs with
      | nil => intro ms h; cases ms with
        | nil => rfl
        | cons m ms => simp at h
      | cons x xs ih =>
        intro ms h
        cases ms with
        | nil => simp at h
        | cons m ms =>
          have := ih ms (by simpa using h)
          cases m <;> simp [valid, this]
    intro cs
    induction cs with
    | nil => intro _; simp [valid]
    | cons c cs ih =>
      intro hc
      obtain ⟨i1, i2⟩ := ih (fun x hx => hc x (by simp [hx]))
      have hl : ((List.range cfg.mbSize).map (batchRow c.1.1)).length = c.2.length := by
        simp [hc c (by simp)]
      simp only [List.map_cons, List.sum_cons, List.flatMap_cons, valid_append _ _ _ _ hl, List.map_append,
        List.sum_append, List.length_append, i1, i2, hcount _ _ hl, and_self]
  obtain ⟨s1, s2⟩ := hsplit calls (fun c hc => (c6 c hc).2)
  have hcar : ∀ k, k ≤ calls.length → carries k = ((calls.take k).map (fun c => c.2.count true)).sum := by
    intro k
    induction k with
    | zero => intro _; simp [c4]
    | succ k ih =>
      intro hk
      rw [(hrs k (by omega) (by omega)).2, ih (by omega), List.take_succ_eq_append_getElem (by omega), List.map_append,
        List.sum_append]
      rfl
  have hN : carries (ceilDiv N cfg.mbSize) = N := by
    rw [← c2, hcar _ le_rfl, List.take_length, s2, c7]
    simp
  refine ⟨rs, by rw [hN], ?_⟩
  rw [hrs', s1, c7, List.map_map]
  congr 1
  apply List.map_congr_left
  intro i hi
  obtain ⟨g1, g2⟩ := toNumpy_row tag (objs cfg.loader) hV i (row i) (hrow i (List.mem_range.1 hi))
  have hne : (row i).leaves ≠ [] := by
    intro h0
    have : (row i).leaves.length = (objs cfg.loader).structure_.leaves.length := by
      rw [← Tree.leaves_length_shape, g1]
    rw [h0, hV.leaves] at this
    exact hV.nonempty (List.length_eq_zero_iff.1 this.symm)
  rw [Function.comp_apply, g2, ← g1, rowUn_leaves tag untag (row i) hne (by rw [g1]; exact htag cfg.loader)]

/-! ### The saved samples -/

/-- Rows of the file written by `HDF5Collector`. -/
theorem reads_saved {β : Type} (zero : α → α) (file0 : H5File α) (ops : List (H5Op α))
    (C : H5Coll α) (hp : H5Protocol ops) (h : h5Run zero (h5New file0) ops = .ok C)
    (c : Nat) (init : Tree α) (n : Int) (hreg : (h5Registered ops)[c]? = some (init, n))
    (hne : init.leaves ≠ []) (sample : Tree β) (hs : sample.shape = init.shape)
    (samples : List (Tree α)) (hshape : ∀ t ∈ samples, t.shape = init.shape)
    (hsaved : h5SavedOf c ops = samples.map Tree.leaves)
    (L : H5Loader σ α) (hL : h5Open C.file (chainDir c) sample = .ok L) :
    L.obsCount = n.toNat ∧ ∀ i < n.toNat, ReadsRow L i (samples.getD i (init.map zero)) := by
  obtain ⟨L', o1, o2, o3⟩ := c50_round_trip (σ := σ) zero file0 ops C hp h c init n hreg hne sample hs
  rw [hL, Except.ok.injEq] at o1
  subst o1
  refine ⟨o2, ?_⟩
  intro i hi
  obtain ⟨obs, s1, s2, s3⟩ := o3 [[i]] (by simpa using hi)
  have hsh : (samples.getD i (init.map zero)).shape = init.shape := by
    rw [List.getD_eq_getElem?_getD]
    cases hx : samples[i]? with
    | none => exact Tree.shape_map _ _
    | some t => exact hshape t (List.mem_of_getElem? hx)
  refine ⟨obs, s1, s2.trans hsh.symm, ?_⟩
  have hlen : (samples.getD i (init.map zero)).leaves.length = init.leaves.length := by
    rw [← Tree.leaves_length_shape, hsh, Tree.leaves_length_shape]
  have holen : obs.leaves.length = init.leaves.length := by
    rw [← Tree.leaves_length_shape, s2, Tree.leaves_length_shape]
  apply List.ext_getElem?
  intro j
  by_cases hj : j < init.leaves.length
  · obtain ⟨leaf, l1, l2⟩ := s3 j _ (List.getElem?_eq_getElem hj)
    rw [l1, List.getElem?_map, List.getElem?_eq_getElem (by rw [hlen]; exact hj), Option.map_some]
    have hcell : cell zero (h5SavedOf c ops) init.leaves[j] i j =
        some ((samples.getD i (init.map zero)).leaves[j]'(by rw [hlen]; exact hj)) := by
      unfold cell
      rw [hsaved, List.getElem?_map]
      cases hx : samples[i]? with
      | none =>
        have : samples.getD i (init.map zero) = init.map zero := by
          rw [List.getD_eq_getElem?_getD, hx]; rfl
        simp only [Option.map_none, this, Tree.leaves_map, List.getElem_map]
      | some t =>
        have e : samples.getD i (init.map zero) = t := by
          rw [List.getD_eq_getElem?_getD, hx]; rfl
        simp only [Option.map_some, e]
        exact List.getElem?_eq_getElem _
    rw [List.map_cons, List.map_nil, List.map_cons, List.map_nil, hcell] at l2
    have : leaf.map (List.map some) = [[(samples.getD i (init.map zero)).leaves[j]'(by rw [hlen]; exact hj)]].map
        (List.map some) := l2
    have hinj : Function.Injective (List.map (List.map (some : α → Option α))) :=
      List.map_injective_iff.2 (List.map_injective_iff.2 (Option.some_injective α))
    rw [hinj this]
  · rw [List.getElem?_eq_none (by omega), List.getElem?_eq_none (by rw [List.length_map]; omega)]

/-- Rows of one entry of the samples written by `HDF5Collector`. -/
theorem reads_entry {β : Type} (zero : α → α) (file0 : H5File α) (ops : List (H5Op α))
    (C : H5Coll α) (hp : H5Protocol ops) (h : h5Run zero (h5New file0) ops = .ok C)
    (c : Nat) (ks : List Key) (ts : List (Tree α)) (n : Int)
    (hreg : (h5Registered ops)[c]? = some (.node (.dict ks) ts, n))
    (samples : List (List (Tree α)))
    (hsaved : h5SavedOf c ops = samples.map (fun ss => (Tree.node (.dict ks) ss).leaves))
    (hshape : ∀ ss ∈ samples, ss.map Tree.shape = ts.map Tree.shape)
    (m : Nat) (k : Key) (u : Tree α) (hk : ks[m]? = some k) (hu : ts[m]? = some u)
    (hne : u.leaves ≠ []) (sample : Tree β) (hs : sample.shape = u.shape)
    (entries : List (Tree α)) (hent : samples.map (fun ss => ss[m]?) = entries.map some)
    (L : H5Loader σ α) (hL : h5Open C.file (chainDir c ++ '/' :: k ++ ['/']) sample = .ok L) :
    L.obsCount = n.toNat ∧ ∀ i (hi : i < entries.length), ReadsRow L i entries[i] := by
  obtain ⟨L', o1, o2, o3⟩ := c50_subdir (σ := σ) zero file0 ops C hp h c ks ts n hreg samples hsaved hshape m k u
    hk hu hne sample hs
  rw [hL, Except.ok.injEq] at o1
  subst o1
  refine ⟨o2, ?_⟩
  intro i hi
  have hlen : samples.length = entries.length := by simpa using congrArg List.length hent
  obtain ⟨obs, s1, s2, s3⟩ := o3 [[i]] (by simpa [hlen] using hi)
  have hent' : (samples[i]'(by omega))[m]? = some entries[i] := by
    have := congrArg (fun l => l[i]?) hent
    simpa [List.getElem?_map, List.getElem?_eq_getElem hi, List.getElem?_eq_getElem (show i < samples.length by omega)]
      using this
  have hsh : entries[i].shape = u.shape := by
    have h1 := hshape _ (List.getElem_mem (show i < samples.length by omega))
    have h2 := congrArg (fun l => l[m]?) h1
    simpa [List.getElem?_map, hent', hu] using h2
  refine ⟨obs, s1, s2.trans hsh.symm, ?_⟩
  have hl1 : entries[i].leaves.length = u.leaves.length := by
    rw [← Tree.leaves_length_shape, hsh, Tree.leaves_length_shape]
  have holen : obs.leaves.length = u.leaves.length := by
    rw [← Tree.leaves_length_shape, s2, Tree.leaves_length_shape]
  apply List.ext_getElem?
  intro j
  by_cases hj : j < u.leaves.length
  · obtain ⟨leaf, l1, l2⟩ := s3 j hj
    rw [l1, List.getElem?_map, List.getElem?_eq_getElem (by rw [hl1]; exact hj), Option.map_some]
    rw [List.map_cons, List.map_nil, List.map_cons, List.map_nil,
      List.getElem?_eq_getElem (show i < samples.length by omega), Option.bind_some, hent', Option.bind_some,
      List.getElem?_eq_getElem (by rw [hl1]; exact hj)] at l2
    have : leaf.map (List.map some) = [[entries[i].leaves[j]'(by rw [hl1]; exact hj)]].map (List.map some) := l2
    have hinj : Function.Injective (List.map (List.map (some : α → Option α))) :=
      List.map_injective_iff.2 (List.map_injective_iff.2 (Option.some_injective α))
    rw [hinj this]
  · rw [List.getElem?_eq_none (by omega), List.getElem?_eq_none (by rw [List.length_map]; omega)]

theorem map_range_getElem {A : Type} (xs : List A) (row : Nat → A) (h : ∀ i (hi : i < xs.length), row i = xs[i])
    (f : A → γ) : (List.range xs.length).map (fun i => f (row i)) = xs.map f := by
  apply List.ext_getElem
  · simp
  · intro i h1 h2
    simp only [List.getElem_map, List.getElem_range]
    rw [h i (by simpa using h1)]

/-- **C126.** The samples of chain `c` have been saved with `HDF5Collector`, the file is opened with
`HDF5Loader` and `full_data_mapper` maps a function which computes `φ` for every row.  For every
interleaving of calls of the mapper and of other operations of the program, every call which has ended
returned `φ` of every saved sample, in the order of saving; if less samples than announced have been saved,
followed by `φ` of zeros. -/
theorem c126_rowwise {β : Type} (zero : α → α) (file0 : H5File α) (wops : List (H5Op α))
    (C : H5Coll α) (hp : H5Protocol wops) (h : h5Run zero (h5New file0) wops = .ok C)
    (c : Nat) (init : Tree α) (n : Int) (hreg : (h5Registered wops)[c]? = some (init, n))
    (hne : init.leaves ≠ []) (sample : Tree β) (hsm : sample.shape = init.shape)
    (samples : List (Tree α)) (hshape : ∀ t ∈ samples, t.shape = init.shape)
    (hsaved : h5SavedOf c wops = samples.map Tree.leaves)
    {devices base : Nat} (hdev : 1 ≤ devices) {objs : Nat → H5Loader σ α}
    (hobjs : ∀ i, JustOpened (objs i)) {l : Nat} (hl : h5Open C.file (chainDir c) sample = .ok (objs l))
    {s} (hs : PReachable (h5Host R) devices objs s) {cc mb : Int}
    {m0 : Mapper (H5Loader σ α) (Tree (List α) × List Bool) τ γ}
    (hm0 : mkMapper (h5Host R) devices base .ordered s l cc mb = some m0)
    (φ : Tree (Option α) → γ) (ψ : Tree (List α) × List Bool → τ → τ) (ops : List (MOp NumpyKw τ))
    (hops : ∀ op ∈ ops, EnvOk base m0.cb op) :
    ∀ call res carry, (mrun (h5Host R) devices base .ordered n.toNat (ceilDiv n.toNat mb.toNat)
        (fun b x => ((List.range mb.toNat).map (fun j => φ (rowTree b.1 j)), ψ b x)) m0 ops).finished call =
          some (res, carry) →
      res = samples.map (fun t => φ (t.map some)) ++
        List.replicate (n.toNat - samples.length) (φ ((init.map zero).map some)) := by
  obtain ⟨r1, r2⟩ := reads_saved zero file0 wops C hp h c init n hreg hne sample hsm samples hshape hsaved _ hl
  have hlen : samples.length ≤ n.toNat := by
    obtain ⟨keys, g1, g2, g3⟩ := c49_rows zero file0 wops C hp h c init n hreg
    have h0 : 0 < init.leaves.length := List.length_pos_iff.2 hne
    have := (g3 0 _ _ (List.getElem?_eq_getElem (by omega)) (List.getElem?_eq_getElem h0)).1
    rw [hsaved] at this
    simpa using this
  intro call res carry hf
  have := h5_mapper R hdev hobjs hs hm0 φ ψ ops hops (fun i => samples.getD i (init.map zero))
    (by rw [r1]; exact r2) call res carry (by rw [r1]; exact hf)
  rw [this, r1]
  apply List.ext_getElem
  · simp; omega
  · intro i h1 h2
    simp only [List.getElem_map, List.getElem_range, List.getElem_append, List.length_map, List.getElem_replicate]
    split
    · rename_i hi
      rw [List.getD_eq_getElem?_getD, List.getElem?_eq_getElem hi]
      rfl
    · rename_i hi
      rw [List.getD_eq_getElem?_getD, List.getElem?_eq_none (by omega)]
      rfl

/-- **C126** for the entry `k` of the samples (`HDF5Loader(file, subdir=f"/chain~{c}/{k}/", sample)`) after all
announced samples have been saved. -/
theorem c126_entry {β : Type} (zero : α → α) (file0 : H5File α) (wops : List (H5Op α))
    (C : H5Coll α) (hp : H5Protocol wops) (h : h5Run zero (h5New file0) wops = .ok C)
    (c : Nat) (ks : List Key) (ts : List (Tree α)) (n : Int)
    (hreg : (h5Registered wops)[c]? = some (.node (.dict ks) ts, n))
    (samples : List (List (Tree α)))
    (hsaved : h5SavedOf c wops = samples.map (fun ss => (Tree.node (.dict ks) ss).leaves))
    (hshape : ∀ ss ∈ samples, ss.map Tree.shape = ts.map Tree.shape) (hall : samples.length = n.toNat)
    (m : Nat) (k : Key) (u : Tree α) (hk : ks[m]? = some k) (hu : ts[m]? = some u)
    (hne : u.leaves ≠ []) (sample : Tree β) (hsm : sample.shape = u.shape)
    (entries : List (Tree α)) (hent : samples.map (fun ss => ss[m]?) = entries.map some)
    {devices base : Nat} (hdev : 1 ≤ devices) {objs : Nat → H5Loader σ α}
    (hobjs : ∀ i, JustOpened (objs i)) {l : Nat}
    (hl : h5Open C.file (chainDir c ++ '/' :: k ++ ['/']) sample = .ok (objs l))
    {s} (hs : PReachable (h5Host R) devices objs s) {cc mb : Int}
    {m0 : Mapper (H5Loader σ α) (Tree (List α) × List Bool) τ γ}
    (hm0 : mkMapper (h5Host R) devices base .ordered s l cc mb = some m0)
    (φ : Tree (Option α) → γ) (ψ : Tree (List α) × List Bool → τ → τ) (ops : List (MOp NumpyKw τ))
    (hops : ∀ op ∈ ops, EnvOk base m0.cb op) :
    ∀ call res carry, (mrun (h5Host R) devices base .ordered n.toNat (ceilDiv n.toNat mb.toNat)
        (fun b x => ((List.range mb.toNat).map (fun j => φ (rowTree b.1 j)), ψ b x)) m0 ops).finished call =
          some (res, carry) →
      res = entries.map (fun t => φ (t.map some)) := by
  obtain ⟨r1, r2⟩ := reads_entry zero file0 wops C hp h c ks ts n hreg samples hsaved hshape m k u hk hu hne sample hsm
    entries hent _ hl
  have hlen : entries.length = n.toNat := by
    rw [← hall]
    simpa using (congrArg List.length hent).symm
  intro call res carry hf
  have := h5_mapper R hdev hobjs hs hm0 φ ψ ops hops (fun i => entries.getD i .none)
    (by
      intro i hi
      rw [r1, ← hlen] at hi
      rw [List.getD_eq_getElem?_getD, List.getElem?_eq_getElem hi]
      exact r2 i hi) call res carry (by rw [r1]; exact hf)
  rw [this, r1, ← hlen]
  exact map_range_getElem entries (fun i => entries.getD i .none) (fun i hi => by
    rw [List.getD_eq_getElem?_getD, List.getElem?_eq_getElem hi]; rfl) (fun t => φ (t.map some))

/-- **C126**, sums (the post-processing of `examples/sgld_rms.md`): mapping `sum over the rows with mask` over
the entry `k` of the saved samples and counting the masked rows gives results whose sum is the sum over all
saved samples, and the number of saved samples.  `ops`: any other operations of the program before this map,
among them any number of complete maps of the same data state. -/
theorem c126_sum [AddCommMonoid γ] {β : Type} (zero : α → α) (file0 : H5File α) (wops : List (H5Op α))
    (C : H5Coll α) (hp : H5Protocol wops) (h : h5Run zero (h5New file0) wops = .ok C)
    (c : Nat) (ks : List Key) (ts : List (Tree α)) (n : Int)
    (hreg : (h5Registered wops)[c]? = some (.node (.dict ks) ts, n))
    (samples : List (List (Tree α)))
    (hsaved : h5SavedOf c wops = samples.map (fun ss => (Tree.node (.dict ks) ss).leaves))
    (hshape : ∀ ss ∈ samples, ss.map Tree.shape = ts.map Tree.shape) (hall : samples.length = n.toNat)
    (m : Nat) (k : Key) (u : Tree α) (hk : ks[m]? = some k) (hu : ts[m]? = some u)
    (hne : u.leaves ≠ []) (sample : Tree β) (hsm : sample.shape = u.shape)
    (entries : List (Tree α)) (hent : samples.map (fun ss => ss[m]?) = entries.map some)
    {devices : Nat} (hdev : 1 ≤ devices) {objs : Nat → H5Loader σ α}
    (hobjs : ∀ i, JustOpened (objs i)) {s} (hs : PReachable (h5Host R) devices objs s) {cb v : Nat}
    (hinit : (pstep (h5Host R) devices s (.init cb .ordered v)).2 = .done)
    {cfg : Cfg} (hcfg : s.cfgs cb = some cfg) (hmb : 0 < cfg.mbSize)
    (hl : h5Open C.file (chainDir c ++ '/' :: k ++ ['/']) sample = .ok (objs cfg.loader))
    (ops : List (POp NumpyKw)) (hops : ∀ op ∈ ops, Respects [v] cb 1 op)
    (hdraws : ceilDiv n.toNat cfg.mbSize ∣ numDraws v ops) (φ : Tree (Option α) → γ) :
    ∃ sums, (mapMasked (hostSource (h5Host R) devices v 1) n.toNat cfg.mbSize
        (fun b mask count => ((valid ((List.range cfg.mbSize).map (fun j => φ (rowTree b.1 j))) mask).sum,
          count + mask.count true))
        (prun (h5Host R) devices (pstep (h5Host R) devices s (.init cb .ordered v)).1 ops).1 0).1 =
          .ok (sums, entries.length) ∧
      sums.sum = (entries.map (fun t => φ (t.map some))).sum := by
  obtain ⟨r1, r2⟩ := reads_entry zero file0 wops C hp h c ks ts n hreg samples hsaved hshape m k u hk hu hne sample hsm
    entries hent _ hl
  have hlen : entries.length = n.toNat := by
    rw [← hall]
    simpa using (congrArg List.length hent).symm
  obtain ⟨rs, h1, h2⟩ := h5_masked R hdev hobjs hs hinit hcfg hmb ops hops (by rw [r1]; exact hdraws) φ
    (fun i => entries.getD i .none) (by
      intro i hi
      rw [r1, ← hlen] at hi
      rw [List.getD_eq_getElem?_getD, List.getElem?_eq_getElem hi]
      exact r2 i hi)
  rw [r1, ← hlen] at h1 h2
  rw [← hlen]
  refine ⟨rs, h1, h2.trans ?_⟩
  rw [map_range_getElem entries (fun i => entries.getD i .none) (fun i hi => by
    rw [List.getD_eq_getElem?_getD, List.getElem?_eq_getElem hi]; rfl) (fun t => φ (t.map some))]

/-- **C126**: no operation of a call of the mapper ever fails: a call which is started runs, every iteration
succeeds, and after all batches the call can end. -/
theorem c126_runs {devices base : Nat} (hdev : 1 ≤ devices) {objs : Nat → H5Loader σ α}
    (hobjs : ∀ i, JustOpened (objs i)) {s} (hs : PReachable (h5Host R) devices objs s) {l : Nat} {cc mb : Int}
    {m0 : Mapper (H5Loader σ α) (Tree (List α) × List Bool) τ γ}
    (hm0 : mkMapper (h5Host R) devices base .ordered s l cc mb = some m0)
    (fn : Tree (List α) × List Bool → τ → List γ × τ) (ops : List (MOp NumpyKw τ))
    (hops : ∀ op ∈ ops, EnvOk base m0.cb op) :
    let N := (objs l).obsCount
    let q := ceilDiv N mb.toNat
    let step := mstep (h5Host R) devices base .ordered N q fn
    let m := mrun (h5Host R) devices base .ordered N q fn m0 ops
    (∀ c carry, m.calls c = none → ((step m (.start c carry)).calls c).isSome) ∧
    (∀ c call, m.calls c = some call → call.iter < q →
      ∃ call', (step m (.iter c)).calls c = some call' ∧ call'.iter = call.iter + 1) ∧
    (∀ c call, m.calls c = some call → call.iter = q → ((step m (.finish c)).finished c).isSome) := by
  intro N q step m
  obtain ⟨tag, untag, htag⟩ := tags_exist objs
  have hh := h5_hostHom (α := α) tag untag R
  obtain ⟨hs', hinv⟩ := h5_reachable R tag untag hobjs htag hs
  obtain ⟨hm0', hinv0⟩ := mkMapper_tr hh devices base .ordered s l cc mb hinv m0 hm0
  have hobjs' : ∀ i, ∃ data, mkLoader data = .ok (toNumpy tag (objs i)) := fun i =>
    ⟨_, (hobjs i).valid.1.mk_loader tag (hobjs i).valid.2⟩
  have hfn : ∀ (b : Tree (List α) × List Bool) (c : τ), b.1.leaves ≠ [] ∧ untag (tag b.1.shape) = b.1.shape →
      fn (batchUn untag (batchTr tag b)) c = fn b c := by
    intro b c hb
    rw [batchUn_tr tag untag b hb.1 hb.2]
  obtain ⟨hrun, hinvm⟩ := mrun_tr hh devices base .ordered N q fn (fun b c => fn (batchUn untag b) c) hfn ops m0 hinv0
  obtain ⟨-, -, -, -, g1, g2, g3⟩ := c22_concurrent R hdev hobjs' hs' hm0' (fun b c => fn (batchUn untag b) c) ops hops
  have hstep : ∀ op, mstep (numpyHost R) devices base .ordered N q (fun b c => fn (batchUn untag b) c)
      (m.tr (toNumpy tag) (batchTr tag)) op = (step m op).tr (toNumpy tag) (batchTr tag) := fun op =>
    (mstep_tr hh devices base .ordered N q fn (fun b c => fn (batchUn untag b) c) hfn m hinvm op).1
  have e1 : (toNumpy tag (objs l)).obsCount = N := rfl
  rw [e1, hrun] at g1 g2 g3
  refine ⟨?_, ?_, ?_⟩
  · intro c carry hc
    have := g1 c carry hc
    rw [hstep] at this
    exact this
  · intro c call hc hlt
    have := g2 c call hc hlt
    rw [hstep] at this
    exact this
  · intro c call hc hlt
    have := g3 c call hc hlt
    rw [hstep] at this
    exact this

/-! ### Example -/

/-- Three samples `{"a": ..., "var": {"w": ..., "x": ...}}` announced and saved. -/
def postOps : List (H5Op Nat) :=
  [.register toyInit 3, .save 0 [1, 2, 3], .save 0 [4, 5, 6], .save 0 [7, 8, 9]]

/-- The structure of `{"w": ..., "x": ...}`. -/
def postSample : Tree Unit := .node (.dict [['w'], ['x']]) [.leaf (), .leaf ()]

/-- The subdirectory of the entry `var`. -/
def postDir : Key := chainDir 0 ++ '/' :: ['v','a','r'] ++ ['/']

/-- The file. -/
def postFile : H5File Nat :=
  match h5Run (fun _ => 0) (h5New []) postOps with
  | .ok C => C.file
  | .error _ => []

/-- The opened loader. -/
def postLoader : H5Loader Nat Nat :=
  match h5Open postFile postDir postSample with
  | .ok L => L
  | .error _ => ⟨[], [], .none, 0, []⟩

/-- Hypotheses of C126: the calls respect the protocol, three samples have been saved. -/
example : H5Protocol postOps ∧ (h5Registered postOps)[0]? = some (toyInit, 3) ∧
    h5SavedOf 0 postOps = [[1, 2, 3], [4, 5, 6], [7, 8, 9]] := by
  refine ⟨?_, rfl, by decide⟩
  intro pre op post h
  unfold postOps at h
  rcases pre with _ | ⟨a, _ | ⟨b, _ | ⟨c, _ | ⟨d, pre⟩⟩⟩⟩ <;>
    simp only [List.nil_append, List.cons_append, List.cons.injEq, List.nil_eq, reduceCtorEq, and_false] at h
  · obtain ⟨rfl, -⟩ := h
    simp [H5Allowed, toyInit, WF, WFL]
    decide
  · obtain ⟨rfl, rfl, -⟩ := h
    exact ⟨toyInit, 3, rfl, rfl⟩
  · obtain ⟨rfl, rfl, rfl, -⟩ := h
    exact ⟨toyInit, 3, rfl, rfl⟩
  · obtain ⟨rfl, rfl, rfl, rfl, -⟩ := h
    exact ⟨toyInit, 3, rfl, rfl⟩
  · simp at h

/-- Hypotheses of C126: the loader is the one opened on the file. -/
example : (h5Run (fun _ => 0) (h5New []) postOps).map (fun C => C.file) = .ok postFile ∧
    JustOpened postLoader ∧ postLoader.obsCount = 3 := by
  refine ⟨by decide +kernel, ⟨postFile, postDir, postSample, ?_, rfl, ?_⟩, by decide +kernel⟩
  · simp [postSample, WF, WFL]
    decide
  · have h1 : postLoader.names = [postDir ++ ['/', 'w'], postDir ++ ['/', 'x']] := by decide +kernel
    have h2 : h5Get postFile (postDir ++ ['/', 'w']) = .ok [2, 5, 8] := by decide +kernel
    have h3 : h5Get postFile (postDir ++ ['/', 'x']) = .ok [3, 6, 9] := by decide +kernel
    have h4 : postLoader.obsCount = 3 := by decide +kernel
    intro nm hnm rows hr
    rw [h1] at hnm
    simp only [List.mem_cons, List.not_mem_nil, or_false] at hnm
    rcases hnm with rfl | rfl
    · rw [h2, Except.ok.injEq] at hr
      rw [← hr, h4]; rfl
    · rw [h3, Except.ok.injEq] at hr
      rw [← hr, h4]; rfl

/-- Two calls of a mapper at the same time. -/
def postRun : Option (Mapper (H5Loader Nat Nat) (Tree (List Nat) × List Bool) Nat (List (Option Nat))) :=
  (mkMapper (h5Host toyRng) 1 100 .ordered (pinit (fun _ => postLoader)) 0 2 2).map (fun m0 =>
    mrun (h5Host toyRng) 1 100 .ordered 3 2
      (fun b c => ((List.range 2).map (fun j => (rowTree b.1 j).leaves), c + 1)) m0
      [.start 0 0, .start 1 7, .iter 0, .iter 1, .iter 0, .finish 0, .iter 1, .finish 1])

example : postRun.bind (·.finished 0) = some ([[some 2, some 3], [some 5, some 6], [some 8, some 9]], 2) ∧
    postRun.bind (·.finished 1) = some ([[some 2, some 3], [some 5, some 6], [some 8, some 9]], 9) := by
  refine ⟨by decide +kernel, by decide +kernel⟩

/-- The sum and the number of the entries `w`. -/
example :
    let s := (prun (h5Host toyRng) 1 (pinit (fun _ => postLoader)) [.setup 0 1 2 true, .init 0 .ordered 5]).1
    (mapMasked (hostSource (h5Host toyRng) 1 5 1) 3 2 (fun b mask count =>
      ((valid ((List.range 2).map (fun j => ((rowTree b.1 j).leaves.getD 0 none).getD 0)) mask).sum,
        count + mask.count true)) s 0).1 = .ok ([7, 8], 3) := by decide +kernel

end

end JaxSgmc
