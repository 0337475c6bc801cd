import Verif.Model.Hdf5Host
import Verif.Lemmas.HostHom
import Verif.Props.Hdf5

/-!
# An `HDF5Loader` translated to a `NumpyDataLoader`
-/

namespace JaxSgmc

open Spec

section
variable {σ α : Type} (tag : Tree Unit → String) (untag : String → Tree Unit)

/-- The rows of a dataset. -/
def h5Rows (L : H5Loader σ α) (nm : Key) : List α :=
  match h5Get L.file nm with
  | .ok rows => rows
  | .error _ => []

/-- A numpy loader with the same arrays, all named by the tree structure. -/
def toNumpy (L : H5Loader σ α) : Loader σ α :=
  { data := L.names.map (fun nm => (tag L.structure_, h5Rows L nm)), obsCount := L.obsCount,
    chains := L.chains }

/-- A batch of the numpy loader. -/
def batchTr (b : Tree (List α) × List Bool) : List (String × List α) × List Bool :=
  (b.1.leaves.map (fun col => (tag b.1.shape, col)), b.2)

/-- The batch of the HDF5 loader. -/
def batchUn (b : List (String × List α) × List Bool) : Tree (List α) × List Bool :=
  match b.1 with
  | [] => (.none, b.2)
  | d :: _ =>
    match Tree.unflatten (untag d.1) (b.1.map Prod.snd) with
    | .ok t => (t, b.2)
    | .error _ => (.none, b.2)

/-- The datasets of a loader exist and have the same number of rows. -/
structure H5Valid (L : H5Loader σ α) : Prop where
  rows : ∀ nm ∈ L.names, ∃ rows, h5Get L.file nm = .ok rows ∧ rows.length = L.obsCount
  leaves : L.structure_.leaves.length = L.names.length
  shape : L.structure_.shape = L.structure_
  nonempty : L.names ≠ []

theorem H5Valid.same {L : H5Loader σ α} (h : H5Valid L) : SameData L (toNumpy tag L) := by
  refine ⟨?_, h.leaves, h.shape, rfl, rfl⟩
  unfold toNumpy
  rw [List.map_map]
  apply List.map_congr_left
  intro nm hnm
  obtain ⟨rows, h1, -⟩ := h.rows nm hnm
  simp [h5Rows, h1]

theorem H5Valid.mk_loader {L : H5Loader σ α} (h : H5Valid L) (hc : L.chains = []) :
    mkLoader (toNumpy tag L).data = .ok (toNumpy tag L) := by
  have hl : ∀ nm ∈ L.names, (h5Rows L nm).length = L.obsCount := by
    intro nm hnm
    obtain ⟨rows, h1, h2⟩ := h.rows nm hnm
    simp [h5Rows, h1, h2]
  cases hn : L.names with
  | nil => exact absurd hn h.nonempty
  | cons nm nms =>
    rw [hn] at hl
    simp only [toNumpy, hn, List.map_cons, mkLoader]
    rw [if_neg, hl nm (by simp), hc]
    simp only [List.any_cons, bne_self_eq_false, Bool.false_or, List.any_map, List.any_eq_true, not_exists]
    rintro x ⟨hx1, hx2⟩
    simp [hl x (by simp [hx1]), hl nm (by simp)] at hx2

theorem batchUn_tr (b : Tree (List α) × List Bool) (h1 : b.1.leaves ≠ [])
    (h2 : untag (tag b.1.shape) = b.1.shape) : batchUn untag (batchTr tag b) = b := by
  obtain ⟨t, mask⟩ := b
  dsimp only at h1 h2
  unfold batchUn batchTr
  cases hl : t.leaves with
  | nil => exact absurd hl h1
  | cons x xs =>
    have : Tree.unflatten (untag (tag t.shape)) t.leaves = .ok t := by
      rw [h2]
      exact Tree.unflatten_leaves _ _ (Tree.shape_map _ _)
    simp only [List.map_cons, List.map_map, Function.comp_def, List.map_id']
    rw [hl] at this
    simp [this]

theorem sliceAll_names_eq {ρ : Type} (sel : List (List Nat)) : ∀ (data : List (String × List ρ)) b,
    sliceAll sel data = .ok b → b.map Prod.fst = data.map Prod.fst := by
  intro data
  induction data with
  | nil => intro b h; simp [sliceAll] at h; subst h; rfl
  | cons d data ih =>
    intro b h
    obtain ⟨nm, d⟩ := d
    unfold sliceAll at h
    cases ht : takeRows d sel with
    | error e => simp [ht] at h
    | ok r =>
      cases hs : sliceAll sel data with
      | error e => simp [ht, hs] at h
      | ok bs =>
        simp only [ht, hs, Except.ok.injEq] at h
        subst h
        simp [ih bs hs]

/-- The translation of HDF5 loaders into numpy loaders. -/
theorem h5_hostHom (R : Rng σ) : HostHom (h5Host (α := α) R) (numpyHost R) (toNumpy tag) (batchTr tag)
    (fun L => H5Valid L ∧ untag (tag L.structure_) = L.structure_)
    (fun b => b.1.leaves ≠ [] ∧ untag (tag b.1.shape) = b.1.shape) where
  obs L _ := rfl
  reg L cs mb kw _ := by
    cases kw with
    | random ie sh seed =>
      show registerRandom R (toNumpy tag L) cs mb ie sh seed =
        ((registerRandom R (h5Base L) cs mb ie sh seed).map
          (fun x => (x.1, { L with chains := x.2.chains }))).map (fun r => (r.1, toNumpy tag r.2))
      unfold registerRandom
      have e1 : (toNumpy tag L).obsCount = L.obsCount := rfl
      have e2 : (h5Base L).obsCount = L.obsCount := rfl
      rw [e1, e2]
      by_cases h1 : mb > L.obsCount
      · rw [if_pos h1, if_pos h1]; rfl
      · rw [if_neg h1, if_neg h1]
        by_cases h2 : (!sh && ie) = true
        · rw [if_pos h2, if_pos h2]; rfl
        · rw [if_neg h2, if_neg h2]
          by_cases h3 : mb = 0
          · rw [if_pos h3, if_pos h3]; rfl
          · rw [if_neg h3, if_neg h3]; rfl
    | ordered =>
      show registerOrdered (toNumpy tag L) cs mb =
        ((registerOrdered (h5Base L) cs mb).map
          (fun x => (x.1, { L with chains := x.2.chains }))).map (fun r => (r.1, toNumpy tag r.2))
      unfold registerOrdered
      have e1 : (toNumpy tag L).obsCount = L.obsCount := rfl
      have e2 : (h5Base L).obsCount = L.obsCount := rfl
      rw [e1, e2]
      by_cases h1 : mb ≤ L.obsCount
      · rw [if_pos h1, if_pos h1]; rfl
      · rw [if_neg h1, if_neg h1]; rfl
  regV L cs mb kw c L' hV h := by
    obtain ⟨hV, hu⟩ := hV
    have key : ∀ r : Except PyErr (Nat × Loader σ α),
        r.map (fun x => (x.1, ({ L with chains := x.2.chains } : H5Loader σ α))) = .ok (c, L') →
        H5Valid L' ∧ untag (tag L'.structure_) = L'.structure_ := by
      intro r hr
      cases r with
      | error e => simp [Except.map] at hr
      | ok x =>
        simp only [Except.map, Except.ok.injEq, Prod.mk.injEq] at hr
        rw [← hr.2]
        exact ⟨⟨hV.rows, hV.leaves, hV.shape, hV.nonempty⟩, hu⟩
    exact key _ h
  get L c hV := by
    obtain ⟨hV, hu⟩ := hV
    simp only [numpyHost, h5Host, h5GetBatches, getBatches]
    have hch : (toNumpy tag L).chains = L.chains := rfl
    rw [hch]
    cases hc : L.chains[c]? with
    | none => rfl
    | some ch =>
      dsimp only
      have ho : (toNumpy tag L).obsCount = L.obsCount := rfl
      rw [ho]
      cases hg : getIndices R L.obsCount ch with
      | error e => rfl
      | ok r =>
        obtain ⟨sel, c'⟩ := r
        dsimp only
        rcases h5Slice_sliceAll L (toNumpy tag L) (hV.same tag) (sel.map (·.1)) with
          ⟨e, h1, h2⟩ | ⟨obs, b, h1, h2, h3, h4⟩
        · rw [h1, h2]; rfl
        · rw [h1, h2]
          dsimp only [Except.map]
          refine Prod.ext ?_ rfl
          dsimp only
          rw [Batches.lines, List.map_map]
          congr 1
          apply List.map_congr_left
          intro i _
          simp only [Batches.line, Function.comp_apply, h5Line, batchTr, Tree.leaves_map, Tree.shape_map, h3, h4,
            List.map_map, Function.comp_def]
          refine Prod.ext ?_ rfl
          apply List.map_congr_left
          intro x hx
          have hn := sliceAll_names_eq _ _ _ h2
          have : x.1 ∈ (toNumpy tag L).data.map Prod.fst := by
            rw [← hn]
            exact List.mem_map.2 ⟨x, hx, rfl⟩
          simp only [toNumpy, List.map_map, List.mem_map, Function.comp_apply] at this
          obtain ⟨nm, -, hx1⟩ := this
          rw [hx1]
  getV L c hV := by
    obtain ⟨hV, hu⟩ := hV
    have : ∀ chs : List (Chain σ), H5Valid { L with chains := chs } ∧ untag (tag L.structure_) = L.structure_ :=
      fun chs => ⟨⟨hV.rows, hV.leaves, hV.shape, hV.nonempty⟩, hu⟩
    have e : ((h5Host (α := α) R).getBatches L c).2 = (h5GetBatches R L c).2 := by
      unfold h5Host
      dsimp only
      cases h5GetBatches R L c with
      | mk r L' => cases r <;> rfl
    show H5Valid ((h5Host (α := α) R).getBatches L c).2 ∧ _ = ((h5Host (α := α) R).getBatches L c).2.structure_
    rw [e]
    unfold h5GetBatches
    cases hc : L.chains[c]? with
    | none => exact ⟨hV, hu⟩
    | some ch =>
      dsimp only
      cases hg : getIndices R L.obsCount ch with
      | error e => exact ⟨hV, hu⟩
      | ok r =>
        dsimp only
        cases hs : h5Slice L (r.1.map (·.1)) with
        | error e => exact this _
        | ok obs => exact this _
  getW L c bs hV h b hb := by
    obtain ⟨hV, hu⟩ := hV
    simp only [h5Host, h5GetBatches] at h
    cases hc : L.chains[c]? with
    | none => simp [hc] at h
    | some ch =>
      simp only [hc] at h
      cases hg : getIndices R L.obsCount ch with
      | error e => simp [hg] at h
      | ok r =>
        simp only [hg] at h
        rcases h5Slice_sliceAll L (toNumpy tag L) (hV.same tag) (r.1.map (·.1)) with
          ⟨e, h1, h2⟩ | ⟨obs, b', h1, h2, h3, h4⟩
        · simp [h1] at h
        · simp only [h1, Except.ok.injEq] at h
          subst h
          obtain ⟨i, -, rfl⟩ := List.mem_map.1 hb
          simp only [h5Line, Tree.leaves_map, Tree.shape_map, h3]
          refine ⟨?_, hu⟩
          intro h0
          have hz : obs.leaves.length = 0 := by simpa using congrArg List.length h0
          have : obs.leaves.length = L.structure_.leaves.length := by
            rw [← Tree.leaves_length_shape, h3]
          rw [hz, hV.leaves] at this
          exact hV.nonempty (List.length_eq_zero_iff.1 this.symm)

end

end JaxSgmc
