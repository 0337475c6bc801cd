import Verif.Spec.Format
import Verif.Spec.DeviceLoader
import Verif.Props.Loader
import Verif.Props.DeviceLoader

/-!
# Formats: C98
-/

namespace JaxSgmc

open Spec

variable {D α σ κ : Type}

theorem full_hasShape (z : α) : ∀ shape : List Nat, HasShape shape (Nd.full z shape) ∧ AllEq z shape (Nd.full z shape)
  | [] => ⟨trivial, rfl⟩
  | n :: shape => by
    refine ⟨⟨List.length_replicate, ?_⟩, ?_⟩
    · intro r hr
      rw [(List.mem_replicate.mp hr).2]; exact (full_hasShape z shape).1
    · intro r hr
      rw [(List.mem_replicate.mp hr).2]; exact (full_hasShape z shape).2

/-- **C98** `initializer_batch` returns arrays with the names, the shape (of one observation, or of a batch)
and the data types of the batches, filled with zeros. -/
theorem c98_initializer (canon : D → D) (zero : α) (data : List (String × NpArray D α)) (mb : Option Nat) :
    Conforms (expectedFormat canon data mb.toList) (initializerBatch canon zero (numpyFormat data) mb) ∧
    List.Forall₂ (fun f (a : String × D × Nd α) => AllEq zero f.2.shape a.2.2) (expectedFormat canon data mb.toList)
      (initializerBatch canon zero (numpyFormat data) mb) := by
  constructor <;>
  · simp only [Conforms, expectedFormat, initializerBatch, numpyFormat, List.map_map,
      List.forall₂_map_left_iff, List.forall₂_map_right_iff, Function.comp_apply]
    refine List.forall₂_same.mpr fun x _ => ?_
    cases mb <;> simp [full_hasShape]

theorem rows_hasShape {shape : List Nat} {rows : List (Nd α)} (hr : ∀ r ∈ rows, HasShape shape r)
    {idx : List Nat} {sel : List (Nd α)} (h : RowsOf rows idx sel) :
    HasShape (idx.length :: shape) (.arr sel) := by
  refine ⟨by simpa using congrArg List.length h, fun r hm => ?_⟩
  have : some r ∈ sel.map some := List.mem_map_of_mem hm
  rw [h] at this
  obtain ⟨i, _, hi⟩ := List.mem_map.mp this
  exact hr r (List.mem_of_getElem? hi)

theorem mem_of_lookup_some {β : Type} : ∀ (l : List (String × β)) (n : String) (d : β), l.lookup n = some d → (n, d) ∈ l
  | [], _, _, h => by simp at h
  | (m, e) :: l, n, d, h => by
    rw [List.lookup_cons] at h
    cases hb : n == m with
    | true => simp [hb] at h; subst h; simp at hb; subst hb; exact List.mem_cons_self
    | false => rw [hb] at h; exact List.mem_cons_of_mem _ (mem_of_lookup_some l n d h)

/-- An answer of the loader, entry by entry. -/
theorem answer_entries {β γ : Type} {Q : β → γ → Prop} : ∀ (data : List (String × β)) (obs : List (String × γ)),
    (data.map (·.1)).Nodup → obs.map (·.1) = data.map (·.1) →
    (∀ name d, data.lookup name = some d → ∃ r, obs.lookup name = some r ∧ Q d r) →
    List.Forall₂ (fun x y => y.1 = x.1 ∧ Q x.2 y.2) data obs
  | [], [], _, _, _ => .nil
  | [], _ :: _, _, h, _ => by simp at h
  | _ :: _, [], _, h, _ => by simp at h
  | (n, d) :: data, (n', r) :: obs, hnd, hnames, h => by
    simp only [List.map_cons, List.cons.injEq] at hnames
    obtain ⟨rfl, hn⟩ := hnames
    simp only [List.map_cons, List.nodup_cons] at hnd
    refine .cons ⟨rfl, ?_⟩ (answer_entries data obs hnd.2 hn fun name d' hd' => ?_)
    · obtain ⟨r', h1, h2⟩ := h n' d (by simp)
      simp at h1; subst h1; exact h2
    · have hne : name ≠ n' := by
        rintro rfl
        refine hnd.1 (List.mem_map.mpr ⟨(name, d'), mem_of_lookup_some data name d' hd', rfl⟩)
      have hb : (name == n') = false := by simp [hne]
      obtain ⟨r', h1, h2⟩ := h name d' (by rw [List.lookup_cons, hb]; exact hd')
      rw [List.lookup_cons, hb] at h1
      exact ⟨r', h1, h2⟩

theorem forall2_zip {β γ δ ε : Type} {Q : β → γ → Prop} {P : δ → ε → Prop} (f : β → δ) (g : β × γ → ε)
    (hfg : ∀ x y, Q x y → P (f x) (g (x, y))) : ∀ {xs : List β} {ys : List γ}, List.Forall₂ Q xs ys →
      List.Forall₂ P (xs.map f) ((xs.zip ys).map g)
  | _, _, .nil => .nil
  | _, _, .cons h t => .cons (hfg _ _ h) (forall2_zip f g hfg t)

theorem forall2_and_mem {β γ : Type} {Q : β → γ → Prop} : ∀ {xs : List β} {ys : List γ},
    List.Forall₂ Q xs ys → List.Forall₂ (fun x y => x ∈ xs ∧ Q x y) xs ys
  | _, _, .nil => .nil
  | _, _, .cons h t => .cons ⟨List.mem_cons_self, h⟩
      ((forall2_and_mem t).imp fun _ _ h' => ⟨List.mem_cons_of_mem _ h'.1, h'.2⟩)

theorem answer_arrays {data : List (String × NpArray D α)} (hnd : (data.map (·.1)).Nodup) {γ : Type}
    {Q : List (Nd α) → γ → Prop} (obs : List (String × γ)) (hn : obs.map (·.1) = (rowsData data).map (·.1))
    (h : ∀ name d, (rowsData data).lookup name = some d → ∃ r, obs.lookup name = some r ∧ Q d r) :
    List.Forall₂ (fun x y => x ∈ data ∧ y.1 = x.1 ∧ Q x.2.rows y.2) data obs := by
  have hnames : (rowsData data).map (·.1) = data.map (·.1) := by simp [rowsData]
  have := answer_entries (rowsData data) obs (hnames ▸ hnd) hn h
  rw [rowsData, List.forall₂_map_left_iff] at this
  exact forall2_and_mem this

theorem batch_arrays {data : List (String × NpArray D α)} (hwf : ArraysWF data)
    (hnd : (data.map (·.1)).Nodup) {cs mb : Nat} {b : Batches (Nd α)} (hb : IsAnswer (rowsData data) cs mb b) :
    List.Forall₂ (fun x y => y.1 = x.1 ∧ y.2.length = cs ∧
      ∀ l ∈ y.2, HasShape (mb :: x.2.rowShape) (.arr l)) data b.obs := by
  obtain ⟨_, _, hn, idx, hi, him, h⟩ := hb
  refine (answer_arrays hnd b.obs hn h).imp fun x y hxy => ⟨hxy.2.1, ?_, ?_⟩
  · rw [← hxy.2.2.length_eq, hi]
  · intro l hl
    obtain ⟨i, hil, hrow⟩ : ∃ i ∈ idx, RowsOf x.2.rows i l := by
      clear hi h
      revert him
      generalize hys : y.2 = ys at hxy hl
      have := hxy.2.2
      clear hxy hys
      induction this with
      | nil => simp at hl
      | cons h1 h2 ih =>
        intro him
        rcases List.mem_cons.mp hl with rfl | hl
        · exact ⟨_, List.mem_cons_self, h1⟩
        · obtain ⟨i, a, b⟩ := ih hl (fun i hi => him i (List.mem_cons_of_mem _ hi))
          exact ⟨i, List.mem_cons_of_mem _ a, b⟩
    rw [← him i hil]
    exact rows_hasShape (hwf x hxy.1) hrow

/-- **C98** Everything a registered chain of a `NumpyDataLoader` delivers has the names, shapes and data types
announced by `batch_format` to the host callback, the mask has the announced shape, and every mini-batch taken
from the cache looks like `initializer_batch(mb_size)`. -/
theorem c98_delivered {R : Rng σ} (hR : R.Lawful) (canon : D → D) {data : List (String × NpArray D α)}
    (hwf : ArraysWF data) (hnd : (data.map (·.1)).Nodup) {s : LSys σ (Nd α)}
    (hs : Reachable R (rowsData data) s) {cs mb cid : Nat} {reg : LOp} {s' : LSys σ (Nd α)}
    (hreg : lstep R s reg = (s', .registered cid))
    (hkind : reg = .regOrdered cs mb ∨ ∃ ie sh seed, reg = .regRandom cs mb ie sh seed)
    (hcs : 0 < cs) (ops : List LOp) (hl : ∀ op ∈ ops, isLoad cid op = false) :
    ∀ o ∈ outcomes cid (lrun R s' ops).2, ∃ b, o = .batches b ∧
      Conforms (callbackFormat canon (numpyFormat data) cs mb) (deliveredArrays canon data b.obs) ∧
      Conforms (expectedFormat canon data [cs, mb]) (deliveredArrays canon data b.obs) ∧
      (b.mask.length = cs ∧ ∀ m ∈ b.mask, m.length = mb) ∧
      ∀ line < cs, Conforms (expectedFormat canon data [mb]) (cacheLine canon data b.obs line) := by
  intro o ho
  obtain ⟨b, rfl, hb⟩ := c04_registered_shape R hs hR hreg hkind hcs ops hl o ho
  have harr := batch_arrays hwf hnd hb
  have hshape : ∀ (x : String × NpArray D α) (y : String × List (List (Nd α))),
      (y.1 = x.1 ∧ y.2.length = cs ∧ ∀ l ∈ y.2, HasShape (mb :: x.2.rowShape) (.arr l)) →
      HasShape (cs :: mb :: x.2.rowShape) (.arr (y.2.map .arr)) := by
    intro x y h
    refine ⟨by simp [h.2.1], fun r hr => ?_⟩
    obtain ⟨l, hl, rfl⟩ := List.mem_map.mp hr
    exact h.2.2 l hl
  refine ⟨b, rfl, ?_, ?_, ⟨hb.1, hb.2.1⟩, ?_⟩
  · simp only [callbackFormat, batchFormat, numpyFormat, List.map_map, deliveredArrays]
    exact forall2_zip _ _ (fun x y h => ⟨h.1, rfl, hshape x y h⟩) harr
  · exact forall2_zip _ _ (fun x y h => ⟨h.1, rfl, hshape x y h⟩) harr
  · intro line hline
    refine forall2_zip _ _ (fun x y h => ⟨h.1, rfl, ?_⟩) harr
    have hlt : line < y.2.length := by rw [h.2.1]; exact hline
    have hget : y.2.getD line [] ∈ y.2 := by
      rw [List.getD_eq_getElem?_getD, List.getElem?_eq_getElem hlt]; exact List.getElem_mem hlt
    exact h.2.2 _ hget

/-- **C98** Random mini-batches of a `DeviceNumpyDataLoader` look like `initializer_batch(mb_size)`. -/
theorem c98_device (P : Prng κ) {I : Randint κ} (hI : I.Lawful) (key0 : κ) (canon : D → D)
    (hcanon : ∀ d, canon (canon d) = canon d) {data : List (String × NpArray D α)} (hwf : ArraysWF data)
    (hnd : (data.map (·.1)).Nodup) {L : Loader Unit (Nd α)}
    (hL : mkLoader (rowsData (onDevice canon data)) = .ok L) (hN : 0 < L.obsCount) (zero : α)
    (mb n : Nat) (key : Option κ) :
    ∀ r ∈ deviceChain P I key0 (rowsData (onDevice canon data)) L.obsCount mb n key, ∃ b, r.2 = .ok b ∧
      Conforms (expectedFormat canon data [mb]) (deviceArrays (onDevice canon data) b.obs) ∧
      Conforms (expectedFormat canon data [mb])
        (initializerBatch canon zero (numpyFormat (onDevice canon data)) (some mb)) := by
  intro r hr
  obtain ⟨b, h1, h2⟩ := (c96_batches P hI key0 hL hN mb n key).2 r hr
  obtain ⟨idx, hlen, _, hrows⟩ := h2.rows
  have hrd : rowsData (onDevice canon data) = rowsData data := by simp [rowsData, onDevice]
  refine ⟨b, h1, ?_, ?_⟩
  · have hobs := h2.names
    rw [hrd] at hobs hrows
    have := answer_arrays hnd b.obs hobs hrows
    simp only [Conforms, expectedFormat, deviceArrays, onDevice, List.zip_map_left, List.map_map]
    refine forall2_zip _ _ (fun x y h => ⟨h.2.1, rfl, ?_⟩) this
    have := rows_hasShape (hwf x h.1) h.2.2
    rwa [hlen] at this
  · have := (c98_initializer canon zero (onDevice canon data) (some mb)).1
    have he : expectedFormat canon (onDevice canon data) (some mb).toList = expectedFormat canon data [mb] := by
      simp [expectedFormat, onDevice, hcanon]
    rwa [he] at this

/-- Arrays meeting the hypotheses: five numbers and five `2 × 1` matrices. -/
def toyArrays : List (String × NpArray String Nat) :=
  [("x", ⟨"int64", [], (List.range 5).map .cell⟩),
   ("y", ⟨"float64", [2, 1], (List.range 5).map fun i => .arr [.arr [.cell i], .arr [.cell (i + 1)]]⟩)]

example : ArraysWF toyArrays ∧ (toyArrays.map (·.1)).Nodup ∧
    ∃ L : Loader Unit (Nd Nat), mkLoader (rowsData (onDevice id toyArrays)) = .ok L ∧ 0 < L.obsCount := by
  refine ⟨?_, by decide, ⟨rowsData toyArrays, 5, []⟩, rfl, by decide⟩
  intro x hx r hr
  simp only [toyArrays, List.mem_cons, List.not_mem_nil, or_false] at hx
  rcases hx with rfl | rfl
  · simp only [List.mem_map] at hr
    obtain ⟨i, _, rfl⟩ := hr
    trivial
  · simp only [List.mem_map] at hr
    obtain ⟨i, _, rfl⟩ := hr
    simp [HasShape]

example : ∃ (s s' : LSys Nat (Nd Nat)), Reachable toyRng (rowsData toyArrays) s ∧
    lstep toyRng s (.regRandom 2 3 false true none) = (s', .registered 0) ∧
    (outcomes 0 (lrun toyRng s' [.get 0, .get 0]).2).length = 2 := by
  refine ⟨⟨⟨rowsData toyArrays, 5, []⟩, fun _ => none⟩, _, ⟨_, [], rfl, rfl⟩, rfl, rfl⟩

end JaxSgmc
