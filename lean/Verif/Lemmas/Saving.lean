import Verif.Lemmas.Tree
import Verif.Spec.Saving

/-!
# Lemmas about saving
-/

namespace JaxSgmc

open Spec

variable {α : Type}

/-! ### Buffers -/

/-- Rows of the buffers. -/
def rowsOf (bufs : List (List α)) (i : Nat) : List (Option α) := bufs.map (fun l => l[i]?)

/-- Leaf-level version of `Holds`. -/
structure HoldsL (zero : α → α) (init : List α) (n : Nat) (kept : List (List α))
    (bufs : List (List α)) : Prop where
  len : bufs.length = init.length
  rows : ∀ l ∈ bufs, l.length = n
  row : ∀ i < n, rowsOf bufs i =
    match kept[i]? with
    | some s => s.map some
    | none => init.map (fun a => some (zero a))

theorem holdsL_init (zero : α → α) (init : List α) (n : Nat) :
    HoldsL zero init n [] (init.map (fun a => List.replicate n (zero a))) where
  len := by simp
  rows := by
    intro l hl
    obtain ⟨a, -, rfl⟩ := List.mem_map.1 hl
    simp
  row := by
    intro i hi
    simp [rowsOf, List.getElem?_replicate, hi]

theorem rowsOf_set (bufs : List (List α)) (vals : List α) (n c i : Nat)
    (hlen : bufs.length = vals.length) (hrows : ∀ l ∈ bufs, l.length = n) (hi : i < n) :
    rowsOf (List.zipWith (fun d x => d.set c x) bufs vals) i
      = if i = c then vals.map some else rowsOf bufs i := by
  unfold rowsOf
  induction bufs generalizing vals with
  | nil => cases vals with
    | nil => simp
    | cons v vs => simp at hlen
  | cons b bufs ih =>
    cases vals with
    | nil => simp at hlen
    | cons v vs =>
      have h1 := ih vs (by simpa using hlen) (fun l hl => hrows l (by simp [hl]))
      have hb := hrows b (by simp)
      simp only [List.zipWith_cons_cons, List.map_cons, h1]
      by_cases hic : i = c
      · subst hic
        simp [hb, hi]
      · simp [hic, List.getElem?_set, Ne.symm hic]

theorem holdsL_step (zero : α → α) (init : List α) (n : Nat) (kept : List (List α))
    (bufs : List (List α)) (vals : List α) (h : HoldsL zero init n kept bufs)
    (hv : vals.length = init.length) :
    HoldsL zero init n (kept ++ [vals]) (List.zipWith (fun d x => d.set kept.length x) bufs vals)
    where
  len := by simp [h.len, hv]
  rows := by
    intro l hl
    obtain ⟨k, hk, rfl⟩ := List.mem_iff_getElem.1 hl
    simp only [List.getElem_zipWith, List.length_set]
    exact h.rows _ (List.getElem_mem _)
  row := by
    intro i hi
    rw [rowsOf_set bufs vals n kept.length i (by rw [h.len, hv]) h.rows hi]
    by_cases hik : i = kept.length
    · subst hik; simp
    · rw [if_neg hik, h.row i hi]
      rcases Nat.lt_or_gt_of_ne hik with hlt | hgt
      · rw [List.getElem?_append_left hlt]
      · have e1 : kept[i]? = none := List.getElem?_eq_none (by omega)
        have e2 : (kept ++ [vals])[i]? = none := List.getElem?_eq_none (by simp; omega)
        rw [e1, e2]

theorem holdsL_unique (zero : α → α) (init : List α) (n : Nat) (kept : List (List α))
    (b b' : List (List α)) (h : HoldsL zero init n kept b) (h' : HoldsL zero init n kept b') :
    b = b' := by
  apply List.ext_getElem (by rw [h.len, h'.len])
  intro k h1 h2
  apply List.ext_getElem?
  intro i
  by_cases hi : i < n
  · have e := (h.row i hi).trans (h'.row i hi).symm
    have := congrArg (fun l => l[k]?) e
    simpa [rowsOf, h1, h2] using this
  · rw [List.getElem?_eq_none (by rw [h.rows _ (List.getElem_mem h1)]; omega),
      List.getElem?_eq_none (by rw [h'.rows _ (List.getElem_mem h2)]; omega)]

theorem match_map (kept : List (Tree α)) (i : Nat) (d : List (Option α)) :
    (match (kept.map Tree.leaves)[i]? with
      | some s => s.map some
      | none => d)
    = match kept[i]? with
      | some s => s.leaves.map some
      | none => d := by
  rw [List.getElem?_map]
  cases kept[i]? <;> rfl

theorem holds_iff (zero : α → α) (init : Tree α) (n : Nat) (kept : List (Tree α))
    (hk : ∀ s ∈ kept, s.shape = init.shape) (data : Tree (List α)) :
    Holds zero init n kept data ↔ data.shape = init.shape ∧
      HoldsL zero init.leaves n (kept.map Tree.leaves) data.leaves := by
  have hrow : ∀ i, data.shape = init.shape →
      ((data.map (fun l => l[i]?) =
        match kept[i]? with
        | some s => s.map some
        | none => init.map (fun a => some (zero a))) ↔
      rowsOf data.leaves i =
        match (kept.map Tree.leaves)[i]? with
        | some s => s.map some
        | none => init.leaves.map (fun a => some (zero a))) := by
    intro i hs
    rw [match_map]
    cases hki : kept[i]? with
    | none =>
      simp only
      constructor
      · intro h
        have := congrArg Tree.leaves h
        simpa [Tree.leaves_map, rowsOf] using this
      · intro h
        apply Tree.ext
        · rw [Tree.shape_map, Tree.shape_map, hs]
        · simpa [Tree.leaves_map, rowsOf] using h
    | some s =>
      have hss := hk s (List.mem_of_getElem? hki)
      simp only
      constructor
      · intro h
        have := congrArg Tree.leaves h
        simpa [Tree.leaves_map, rowsOf] using this
      · intro h
        apply Tree.ext
        · rw [Tree.shape_map, Tree.shape_map, hs, hss]
        · simpa [Tree.leaves_map, rowsOf] using h
  constructor
  · intro h
    refine ⟨h.structure_eq, ?_, h.rows, fun i hi => (hrow i h.structure_eq).1 (h.row i hi)⟩
    rw [← Tree.leaves_length_shape data, ← Tree.leaves_length_shape init, h.structure_eq]
  · rintro ⟨hs, h⟩
    exact ⟨hs, h.rows, fun i hi => (hrow i hs).2 (h.row i hi)⟩

/-- The stacked samples are determined by what they hold. -/
theorem holds_unique (zero : α → α) (init : Tree α) (n : Nat) (kept : List (Tree α))
    (hk : ∀ s ∈ kept, s.shape = init.shape) (d d' : Tree (List α))
    (h : Holds zero init n kept d) (h' : Holds zero init n kept d') : d = d' := by
  rw [holds_iff zero init n kept hk] at h h'
  exact Tree.ext _ _ (h.1.trans h'.1.symm) (holdsL_unique zero _ n _ _ _ h.2 h'.2)

/-! ### no_save -/

theorem zipExcept_ok {α β γ : Type} (f : α → β → γ) (as : List α) (bs : List β) :
    zipExcept (fun a b => .ok (f a b)) as bs = .ok (List.zipWith f as bs) := by
  induction as generalizing bs with
  | nil => simp [zipExcept]
  | cons a as ih =>
    cases bs with
    | nil => simp [zipExcept]
    | cons b bs => simp [zipExcept, ih]

theorem treeMap2_ok {α β γ : Type} (f : α → β → γ) (a : Tree α) (b : Tree β)
    (h : a.shape = b.shape) :
    ∃ c, treeMap2 (fun x y => .ok (f x y)) a b = .ok c ∧ c.shape = a.shape ∧
      c.leaves = List.zipWith f a.leaves b.leaves := by
  have hlen : a.leaves.length = b.leaves.length := by
    rw [← Tree.leaves_length_shape a, ← Tree.leaves_length_shape b, h]
  obtain ⟨c, h1, h2, h3⟩ := Tree.unflatten_ok a (List.zipWith f a.leaves b.leaves) (by simp [hlen])
  exact ⟨c, by simp [treeMap2, h, zipExcept_ok, h1], h3, h2⟩

theorem keptSamples_cons (e : Bool × Tree α) (es : List (Bool × Tree α)) :
    keptSamples (e :: es) = (if e.1 then [e.2] else []) ++ keptSamples es := by
  obtain ⟨k, s⟩ := e
  cases k <;> simp [keptSamples]

theorem keptSamples_shape (es : List (Bool × Tree α)) (s : Tree Unit)
    (h : ∀ e ∈ es, e.2.shape = s) : ∀ t ∈ keptSamples es, t.shape = s := by
  intro t ht
  simp only [keptSamples, List.mem_map, List.mem_filter] at ht
  obtain ⟨e, he, rfl⟩ := ht
  exact h e he.1

theorem noSaveSample_ok (zero : α → α) (init : Tree α) (n : Nat) (kept : List (Tree α))
    (hk : ∀ s ∈ kept, s.shape = init.shape) (st : NoSaveState α) (sample : Tree α)
    (hst : Holds zero init n kept st.data) (hc : st.saved = kept.length)
    (hs : sample.shape = init.shape) :
    ∃ d, noSaveSample st sample = .ok ⟨kept.length + 1, d⟩ ∧
      Holds zero init n (kept ++ [sample]) d := by
  obtain ⟨d, h1, h2, h3⟩ := treeMap2_ok (fun (d : List α) x => d.set kept.length x) st.data sample
    (hst.structure_eq.trans hs.symm)
  refine ⟨d, by simp [noSaveSample, hc, h1], ?_⟩
  rw [holds_iff zero init n kept hk] at hst
  rw [holds_iff zero init n _ (by
    intro s hs'
    rcases List.mem_append.1 hs' with h | h
    · exact hk s h
    · simp at h; rw [h, hs])]
  refine ⟨h2.trans hst.1, ?_⟩
  rw [h3, List.map_append]
  have := holdsL_step zero init.leaves n (kept.map Tree.leaves) st.data.leaves sample.leaves hst.2
    (by rw [← Tree.leaves_length_shape sample, ← Tree.leaves_length_shape init, hs])
  simpa using this

theorem noSave_saveAll (zero : α → α) (init : Tree α) (n : Nat) (events : List (Bool × Tree α))
    (he : ∀ e ∈ events, e.2.shape = init.shape) (kept : List (Tree α))
    (hk : ∀ s ∈ kept, s.shape = init.shape) (st : NoSaveState α)
    (hst : Holds zero init n kept st.data) (hc : st.saved = kept.length) :
    ∃ d, saveAll (noSave zero) () st events
        = .ok ((), ⟨(kept ++ keptSamples events).length, d⟩) ∧
      Holds zero init n (kept ++ keptSamples events) d := by
  induction events generalizing kept st with
  | nil =>
    refine ⟨st.data, ?_, by simpa [keptSamples] using hst⟩
    cases st
    simp_all [saveAll, keptSamples]
  | cons e es ih =>
    have hes := he e (by simp)
    obtain ⟨d, h1, h2⟩ := noSaveSample_ok zero init n kept hk st e.2 hst hc hes
    rw [keptSamples_cons]
    cases hkeep : e.1 with
    | false =>
      obtain ⟨d', g1, g2⟩ := ih (fun e he' => he e (by simp [he'])) kept hk st hst hc
      refine ⟨d', ?_, by simpa using g2⟩
      have hsv : (noSave zero).save () st e.1 e.2 = .ok ((), st) := by
        simp [noSave, noSaveStep, h1, hkeep, Except.map]
      simp only [saveAll, hsv]
      simpa using g1
    | true =>
      obtain ⟨d', g1, g2⟩ := ih (fun e he' => he e (by simp [he'])) (kept ++ [e.2])
        (by
          intro s hs
          rcases List.mem_append.1 hs with h | h
          · exact hk s h
          · simp at h; rw [h, hes]) ⟨kept.length + 1, d⟩ h2 (by simp)
      refine ⟨d', ?_, by simpa using g2⟩
      have hsv : (noSave zero).save () st e.1 e.2 = .ok ((), ⟨kept.length + 1, d⟩) := by
        simp [noSave, noSaveStep, h1, hkeep, Except.map]
      simp only [saveAll, hsv]
      simpa using g1

theorem noSaveInit_ok (zero : α → α) (init : Tree α) (n : Int) (hn : 0 ≤ n) :
    noSaveInit zero init n = .ok ⟨0, init.map (fun a => List.replicate n.toNat (zero a))⟩ ∧
    Holds zero init n.toNat [] (init.map (fun a => List.replicate n.toNat (zero a))) := by
  refine ⟨?_, ?_⟩
  · rw [noSaveInit, if_neg]
    rintro ⟨h, -⟩
    omega
  · rw [holds_iff zero init n.toNat [] (by simp)]
    refine ⟨Tree.shape_map _ _, ?_⟩
    rw [Tree.leaves_map]
    exact holdsL_init zero init.leaves n.toNat

/-! ### MemoryCollector -/

theorem putRows_ok (i n : Nat) (bufs : List (List α)) (vals : List α)
    (hlen : bufs.length = vals.length) (hrows : ∀ l ∈ bufs, l.length = n) (hi : i < n) :
    putRows i bufs vals = .ok (List.zipWith (fun d x => d.set i x) bufs vals) := by
  induction bufs generalizing vals with
  | nil => cases vals <;> simp [putRows]
  | cons b bufs ih =>
    cases vals with
    | nil => simp at hlen
    | cons v vs =>
      have hb := hrows b (by simp)
      rw [putRows, if_pos (by omega), ih vs (by simpa using hlen)
        (fun l hl => hrows l (by simp [hl]))]
      rfl

theorem putRows_full (i n : Nat) (bufs : List (List α)) (vals : List α) (hne : bufs ≠ [])
    (hlen : bufs.length = vals.length) (hrows : ∀ l ∈ bufs, l.length = n) (hi : n ≤ i) :
    putRows i bufs vals = .error .indexError := by
  cases bufs with
  | nil => exact absurd rfl hne
  | cons b bufs =>
    cases vals with
    | nil => simp at hlen
    | cons v vs =>
      have hb := hrows b (by simp)
      rw [putRows, if_neg (by omega)]

/-- What a chain of the collector looks like while (or after) the samples `kept` were saved. -/
structure ChainHolds (zero : α → α) (init : Tree α) (n : Nat) (kept : List (Tree α))
    (ch : MemChain α) : Prop where
  treedef : ch.treedef = init.shape
  count : ch.count = kept.length
  bufs : HoldsL zero init.leaves n (kept.map Tree.leaves) ch.buffers

theorem chSave_ok (zero : α → α) (init : Tree α) (n : Nat) (kept : List (Tree α)) (ch : MemChain α)
    (h : ChainHolds zero init n kept ch) (sample : Tree α) (hs : sample.shape = init.shape)
    (hlt : kept.length < n) :
    ∃ ch', chSave ch sample.leaves = .ok ch' ∧ ChainHolds zero init n (kept ++ [sample]) ch' ∧
      ch'.locked = ch.locked ∧ ch'.names = ch.names := by
  have hl : sample.leaves.length = init.leaves.length := by
    rw [← Tree.leaves_length_shape sample, ← Tree.leaves_length_shape init, hs]
  have h1 := putRows_ok kept.length n ch.buffers sample.leaves (by rw [h.bufs.len, hl]) h.bufs.rows hlt
  refine ⟨{ ch with
      buffers := List.zipWith (fun d x => d.set kept.length x) ch.buffers sample.leaves
      count := kept.length + 1 }, by simp [chSave, h.count, h1],
    ⟨h.treedef, by simp, ?_⟩, rfl, rfl⟩
  have := holdsL_step zero init.leaves n (kept.map Tree.leaves) ch.buffers sample.leaves h.bufs hl
  simpa using this

/-- Saving a sequence of samples of one chain: nothing else in the collector changes. -/
theorem host_saveAll (zero : α → α) (init : Tree α) (n : Nat) (events : List (Bool × Tree α))
    (he : ∀ e ∈ events, e.2.shape = init.shape) (kept : List (Tree α)) (C : MemCollector α)
    (id : Nat) (ch : MemChain α) (hch : C.chains[id]? = some ch)
    (hst : ChainHolds zero init n kept ch) (hn : (kept ++ keptSamples events).length ≤ n)
    (c : Nat) :
    ∃ ch', saveAll (hostSaving zero) C ⟨id, c⟩ events
        = .ok ({ C with chains := C.chains.set id ch' }, ⟨id, c + (keptSamples events).length⟩) ∧
      ChainHolds zero init n (kept ++ keptSamples events) ch' ∧ ch'.locked = ch.locked ∧
      ch'.names = ch.names := by
  induction events generalizing kept C ch c with
  | nil =>
    refine ⟨ch, ?_, by simpa [keptSamples] using hst, rfl, rfl⟩
    obtain ⟨hlt, hget⟩ := List.getElem?_eq_some_iff.1 hch
    simp [saveAll, keptSamples, ← hget]
  | cons e es ih =>
    have hes := he e (by simp)
    rw [keptSamples_cons] at hn ⊢
    cases hkeep : e.1 with
    | false =>
      rw [hkeep] at hn
      obtain ⟨ch', g1, g2, g3, g4⟩ := ih (fun e he' => he e (by simp [he'])) kept C ch hch hst
        (by simpa using hn) c
      refine ⟨ch', ?_, by simpa using g2, g3, g4⟩
      simp only [saveAll, hostSaving, hostSave, hkeep]
      simpa [hostSaving, hostSave] using g1
    | true =>
      rw [hkeep] at hn
      obtain ⟨ch1, k1, k2, k3, k4⟩ := chSave_ok zero init n kept ch hst e.2 hes
        (by simp at hn; omega)
      obtain ⟨hlt, hget⟩ := List.getElem?_eq_some_iff.1 hch
      obtain ⟨ch', g1, g2, g3, g4⟩ := ih (fun e he' => he e (by simp [he'])) (kept ++ [e.2])
        { C with chains := C.chains.set id ch1 } ch1 (by simp [hlt]) k2
        (by simpa using hn) (c + 1)
      refine ⟨ch', ?_, by simpa using g2, g3.trans k3, g4.trans k4⟩
      have hm : memSave C id e.2.leaves = .ok { C with chains := C.chains.set id ch1 } := by
        simp [memSave, hch, k1]
      simp only [saveAll, hostSaving, hostSave, hkeep, if_true, hm]
      simp only [hostSaving, hostSave] at g1
      rw [g1]
      simp only [List.set_set, Except.ok.injEq, Prod.mk.injEq, HostState.mk.injEq, true_and,
        List.length_append, List.length_cons, List.length_nil]
      omega

end JaxSgmc
