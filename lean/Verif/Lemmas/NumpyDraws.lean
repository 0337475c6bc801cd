import Verif.Lemmas.RequestsNumpy
import Verif.Spec.Stream

/-!
Helper lemmas: the mini-batches a chain without shuffling delivers through the cache.
-/

namespace JaxSgmc

open Spec

variable {σ ρ : Type}

theorem nthDraw_shift {α : Type} (f : σ → α × σ) (g : σ) (a k : ℕ) :
    nthDraw f ((fun x => (f x).2)^[a] g) k = nthDraw f g (a + k) := by
  unfold nthDraw
  rw [← Function.iterate_add_apply, Nat.add_comm a k]

theorem draw_steps (R : Rng σ) (N n : ℕ) (c : RandomChain σ) (h1 : c.inEpochs = false) (h2 : c.shuffle = false) :
    indexSteps R N n (.random c) = .ok ((List.range n).map (fun k =>
      (nthDraw (fun g => R.choiceRepl g N c.mbSize) c.rng k, List.replicate c.mbSize true)),
      .random { c with rng := (fun x => (R.choiceRepl x N c.mbSize).2)^[n] c.rng }) := by
  induction n generalizing c with
  | zero => rfl
  | succ n ih =>
    have hstep : indexStep R N (.random c) = .ok (((R.choiceRepl c.rng N c.mbSize).1, List.replicate c.mbSize true),
        .random { c with rng := (R.choiceRepl c.rng N c.mbSize).2 }) := by
      simp only [indexStep, h1, h2, Bool.false_eq_true, if_false, drawIndices]
    have h := ih { c with rng := (R.choiceRepl c.rng N c.mbSize).2 } h1 h2
    simp only [indexSteps, hstep, h]
    simp only [List.range_succ_eq_map, List.map_cons, List.map_map]
    rfl

theorem sliceAll_arrays (data : List (String × List ρ)) (N : ℕ) (hwf : DataWF data N) (idxs : List (List ℕ))
    (h : ∀ b ∈ idxs, ∀ i ∈ b, i < N) : ∃ obs, sliceAll idxs data = .ok obs ∧
      List.Forall₂ (fun c c' => c'.1 = c.1 ∧ List.Forall₂ (RowsOf c.2) idxs c'.2) data obs := by
  induction data with
  | nil => exact ⟨[], rfl, .nil⟩
  | cons x xs ih =>
    obtain ⟨n, d⟩ := x
    have hd : d.length = N := hwf (n, d) List.mem_cons_self
    obtain ⟨rows, r1, r2⟩ := takeRows_spec d idxs (by rw [hd]; exact h)
    obtain ⟨obs, o1, o2⟩ := ih (fun y hy => hwf y (List.mem_cons_of_mem _ hy))
    exact ⟨(n, rows) :: obs, by simp [sliceAll, r1, o1], .cons ⟨rfl, r2⟩ o2⟩

/-- The lines of the answers to a chain which draws with replacement. -/
theorem random_answers (R : Rng σ) (hR : R.Lawful) (L L' : Loader σ ρ) (hwf : DataWF L.data L.obsCount) (cs mb : ℕ) (hcs : 0 < cs)
    (given : Option ℕ) (cid : ℕ) (h : (numpyHost R).register L cs mb (.random false false given) = .ok (cid, L')) (k i : ℕ) (hi : i < cs) :
    ∃ b, (getBatches R (nthLoader (numpyHost R) L' cid k) cid).1 = .ok b ∧ (b.line i).2 = List.replicate mb true ∧
      List.Forall₂ (fun c c' => c'.1 = c.1 ∧ RowsOf c.2 (nthDraw (fun g => R.choiceRepl g L.obsCount mb)
        (R.seed (given.getD L.chains.length)) (k * cs + i)) c'.2) L.data (b.line i).1 := by
  obtain ⟨rfl, hmb, hle, -, rfl⟩ := registerRandom_spec R L L' cs mb cid false false given h
  have hN : 0 < L.obsCount := by omega
  set c := newRandom R L.obsCount L.chains.length cs mb false false given with hc
  -- the chain after `k` requests
  have gen : ∀ k, (nthLoader (numpyHost R) { L with chains := L.chains ++ [.random c] } L.chains.length k).chains[L.chains.length]? =
        some (.random { c with rng := (fun x => (R.choiceRepl x L.obsCount mb).2)^[k * cs] c.rng }) ∧
      (nthLoader (numpyHost R) { L with chains := L.chains ++ [.random c] } L.chains.length k).data = L.data ∧
      (nthLoader (numpyHost R) { L with chains := L.chains ++ [.random c] } L.chains.length k).obsCount = L.obsCount := by
    intro k
    induction k with
    | zero => exact ⟨by simp [nthLoader], rfl, rfl⟩
    | succ k ih =>
      obtain ⟨i1, i5, i6⟩ := ih
      have hlt : L.chains.length < (nthLoader (numpyHost R) { L with chains := L.chains ++ [.random c] }
          L.chains.length k).chains.length := by
        by_contra hge
        rw [List.getElem?_eq_none (by omega)] at i1; simp at i1
      simp only [nthLoader]
      rw [(numpy_get_known R _ _ _ i1).2, i5, i6]
      refine ⟨(List.getElem?_set_self hlt).trans (congrArg some ?_), rfl, rfl⟩
      have hs := draw_steps R L.obsCount cs { c with rng := (fun x => (R.choiceRepl x L.obsCount mb).2)^[k * cs] c.rng } rfl rfl
      obtain ⟨b, b1, -⟩ := chainGet_spec R L.data L.obsCount hwf
        (.random { c with rng := (fun x => (R.choiceRepl x L.obsCount mb).2)^[k * cs] c.rng }) _ _ hcs hs (by
          intro x hx j hj
          obtain ⟨t, -, rfl⟩ := List.mem_map.1 hx
          exact hR.replLt _ _ _ _ hN hj)
      rw [b1]
      show Chain.random _ = Chain.random _
      congr 2
      show (fun x => (R.choiceRepl x L.obsCount mb).2)^[cs] ((fun x => (R.choiceRepl x L.obsCount mb).2)^[k * cs] c.rng) = _
      rw [← Function.iterate_add_apply, show cs + k * cs = (k + 1) * cs by ring]
  obtain ⟨g1, g2, g3⟩ := gen k
  have hs := draw_steps R L.obsCount cs { c with rng := (fun x => (R.choiceRepl x L.obsCount mb).2)^[k * cs] c.rng } rfl rfl
  obtain ⟨obs, o1, o2⟩ := sliceAll_arrays L.data L.obsCount hwf ((List.range cs).map fun t =>
      nthDraw (fun g => R.choiceRepl g L.obsCount mb) ((fun x => (R.choiceRepl x L.obsCount mb).2)^[k * cs] c.rng) t) (by
    intro b hb j hj
    obtain ⟨t, -, rfl⟩ := List.mem_map.1 hb
    exact hR.replLt _ _ _ _ hN hj)
  have hne : cs ≠ 0 := by omega
  refine ⟨⟨obs, (List.range cs).map fun _ => List.replicate mb true⟩, ?_, ?_, ?_⟩
  · unfold getBatches
    rw [g1]
    have hgi : getIndices R L.obsCount (.random { c with rng := (fun x => (R.choiceRepl x L.obsCount mb).2)^[k * cs] c.rng }) = _ :=
      (if_neg hne).trans hs
    dsimp only
    rw [g2, g3, hgi]
    dsimp only
    rw [List.map_map]
    have e : ((fun x : List ℕ × List Bool => x.1) ∘ fun t => (nthDraw (fun g => R.choiceRepl g L.obsCount mb)
        ((fun x => (R.choiceRepl x L.obsCount mb).2)^[k * cs] c.rng) t, List.replicate mb true)) = fun t =>
        nthDraw (fun g => R.choiceRepl g L.obsCount mb) ((fun x => (R.choiceRepl x L.obsCount mb).2)^[k * cs] c.rng) t := rfl
    rw [show c.mbSize = mb from rfl, e, o1]
    simp only [List.map_map]
    rfl
  · show ((List.range cs).map fun _ => List.replicate mb true).getD i [] = _
    rw [List.getD_eq_getElem?_getD, List.getElem?_map, List.getElem?_range hi]
    rfl
  · show List.Forall₂ _ L.data (obs.map fun x => (x.1, x.2.getD i []))
    rw [List.forall₂_map_right_iff]
    refine o2.imp fun c' x hx => ⟨hx.1, ?_⟩
    have hlen := hx.2.length_eq
    rw [List.length_map, List.length_range] at hlen
    have := hx.2.get (i := i) (by simpa using hi) (by omega)
    rw [List.get_eq_getElem, List.get_eq_getElem, List.getElem_map, List.getElem_range, nthDraw_shift] at this
    show RowsOf c'.2 _ (x.2.getD i [])
    rw [List.getD_eq_getElem?_getD, List.getElem?_eq_getElem (by omega), Option.getD_some]
    exact this

end JaxSgmc
