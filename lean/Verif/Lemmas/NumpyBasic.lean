import Verif.Spec.Data
import Mathlib.Data.Nat.ModEq
import Mathlib.Data.List.Basic
import Mathlib.Data.List.Nodup

/-! Helper lemmas: numpy indexing and the chunking of index streams. -/

namespace JaxSgmc

theorem npIndex_eq_ok {α : Type} {xs : List α} {i : Nat} {x : α} :
    npIndex xs i = .ok x ↔ xs[i]? = some x := by
  unfold npIndex; cases h : xs[i]? <;> simp

theorem npTake_spec {α : Type} (xs : List α) (idx : List Nat) (r : List α)
    (h : npTake xs idx = .ok r) : r.map some = idx.map (fun i => xs[i]?) := by
  induction idx generalizing r with
  | nil => simp [npTake] at h; subst h; rfl
  | cons i is ih =>
    simp only [npTake] at h
    split at h
    · simp at h
    · rename_i x hx
      split at h
      · simp at h
      · rename_i r' hr'
        simp at h; subst h
        simp [ih r' hr', npIndex_eq_ok.1 hx]

theorem npTake_ok {α : Type} (xs : List α) (idx : List Nat) (h : ∀ i ∈ idx, i < xs.length) :
    ∃ r, npTake xs idx = .ok r := by
  induction idx with
  | nil => exact ⟨[], rfl⟩
  | cons i is ih =>
    obtain ⟨r, hr⟩ := ih (fun j hj => h j (List.mem_cons_of_mem _ hj))
    have hi := h i List.mem_cons_self
    refine ⟨xs[i] :: r, ?_⟩
    simp [npTake, npIndex, hr, List.getElem?_eq_getElem hi]

theorem npTake_of_spec {α : Type} (xs : List α) (idx : List Nat) (r : List α)
    (h : r.map some = idx.map (fun i => xs[i]?)) : npTake xs idx = .ok r := by
  have hlt : ∀ i ∈ idx, i < xs.length := by
    intro i hi
    have : xs[i]? ∈ r.map some := by rw [h]; exact List.mem_map_of_mem hi
    obtain ⟨x, _, hx⟩ := List.mem_map.1 this
    by_contra hge
    rw [List.getElem?_eq_none (by omega)] at hx
    simp at hx
  obtain ⟨r', hr'⟩ := npTake_ok xs idx hlt
  have := npTake_spec xs idx r' hr'
  rw [hr']
  congr 1
  exact List.map_injective_iff.2 (Option.some_injective α) (this.trans h.symm)

theorem npPut_spec {α : Type} (xs : List α) (idx : List Nat) (vals : List α)
    (hlen : idx.length = vals.length) (hlt : ∀ i ∈ idx, i < xs.length) (hnd : idx.Nodup) :
    ∃ ys, npPut xs idx vals = .ok ys ∧ ys.length = xs.length ∧
      (∀ j, j ∉ idx → ys[j]? = xs[j]?) ∧
      (∀ k, k < idx.length → ys[idx.getD k 0]? = vals[k]?) := by
  induction idx generalizing xs vals with
  | nil =>
    cases vals with
    | nil => exact ⟨xs, rfl, rfl, by simp, by simp⟩
    | cons => simp at hlen
  | cons i is ih =>
    cases vals with
    | nil => simp at hlen
    | cons v vs =>
      have hi := hlt i List.mem_cons_self
      obtain ⟨hni, hnd'⟩ := List.nodup_cons.1 hnd
      obtain ⟨ys, h1, h2, h3, h4⟩ := ih (xs.set i v) vs (by simpa using hlen)
        (by intro j hj; simpa using hlt j (List.mem_cons_of_mem _ hj)) hnd'
      refine ⟨ys, by simp [npPut, hi, h1], by simpa using h2, ?_, ?_⟩
      · intro j hj
        rw [List.mem_cons] at hj; push Not at hj
        rw [h3 j hj.2, List.getElem?_set_ne (fun h => hj.1 h.symm)]
      · intro k hk
        cases k with
        | zero => simp [h3 i hni, List.getElem?_set_self hi]
        | succ k => simpa using h4 k (by simpa using hk)

/-! ### Iterating the index step -/

section
variable {σ : Type} (R : Rng σ) (N : Nat)

theorem indexSteps_add (a b : Nat) (c c1 c2 : Chain σ) (xs ys)
    (h1 : indexSteps R N a c = .ok (xs, c1)) (h2 : indexSteps R N b c1 = .ok (ys, c2)) :
    indexSteps R N (a + b) c = .ok (xs ++ ys, c2) := by
  induction a generalizing c xs with
  | zero => simp [indexSteps] at h1; obtain ⟨rfl, rfl⟩ := h1; simpa using h2
  | succ a ih =>
    rw [Nat.add_right_comm]
    simp only [indexSteps] at h1 ⊢
    cases hs : indexStep R N c with
    | error e => simp [hs] at h1
    | ok r =>
      obtain ⟨x, c'⟩ := r
      simp only [hs] at h1 ⊢
      cases hr : indexSteps R N a c' with
      | error e => simp [hr] at h1
      | ok r2 =>
        obtain ⟨xs', c''⟩ := r2
        simp only [hr, Except.ok.injEq, Prod.mk.injEq] at h1
        obtain ⟨rfl, rfl⟩ := h1
        simp [ih c' xs' hr]

theorem indexSteps_length (a : Nat) (c c1 : Chain σ) (xs)
    (h1 : indexSteps R N a c = .ok (xs, c1)) : xs.length = a := by
  induction a generalizing c xs with
  | zero => simp [indexSteps] at h1; simp [h1.1.symm]
  | succ a ih =>
    simp only [indexSteps] at h1
    cases hs : indexStep R N c with
    | error e => simp [hs] at h1
    | ok r =>
      simp only [hs] at h1
      cases hr : indexSteps R N a r.2 with
      | error e => simp [hr] at h1
      | ok r2 =>
        simp only [hr, Except.ok.injEq, Prod.mk.injEq] at h1
        rw [← h1.1]; simp [ih r.2 r2.1 (by rw [hr]; simp [h1.2.symm])]

/-- replace the cache size -/
def Chain.withCache (cs : Nat) : Chain σ → Chain σ
  | .random c => .random { c with cacheSize := cs }
  | .ordered c => .ordered { c with cacheSize := cs }

theorem withCache_self (c : Chain σ) : c.withCache c.cacheSize = c := by
  cases c <;> rfl

theorem withCache_withCache (c : Chain σ) (a b : Nat) :
    (c.withCache a).withCache b = c.withCache b := by cases c <;> rfl

theorem indexStep_withCache (cs : Nat) (c : Chain σ) :
    indexStep R N (c.withCache cs) =
      (match indexStep R N c with
       | .error e => .error e
       | .ok (x, c') => .ok (x, c'.withCache cs)) := by
  cases c with
  | ordered c =>
    simp only [Chain.withCache, indexStep, orderedIndices]
    split <;> simp
  | random c =>
    simp only [Chain.withCache, indexStep]
    split
    · simp only [shuffleInEpochs]
      by_cases h0 : c.mbSize = 0
      · simp [h0]
      · simp only [h0, if_false]
        by_cases hd : c.draws = ceilDiv N c.mbSize
        · simp only [hd, if_true]
          cases c.randomIndices with
          | none =>
            by_cases hl : ((List.replicate (ceilDiv N c.mbSize * c.mbSize) 0).take N).length
                = (R.choicePerm c.rng N).1.length
            · simp only [hl, if_true]
            · simp only [hl, if_false]
          | some buf =>
            by_cases hl : (buf.take N).length = (R.choicePerm c.rng N).1.length
            · simp only [hl, if_true]
            · simp only [hl, if_false]
        · simp only [hd, if_false]
          cases c.randomIndices <;> simp
    · split
      · simp only [shuffleIndices, shuffleRefresh]
        by_cases h0 : c.mbSize = 0
        · simp [h0]
        · simp only [h0, if_false]
          by_cases hd : c.remainingSamples < c.mbSize
          · simp only [hd, if_true]
            cases hri : c.randomIndices with
            | none =>
              simp only
              generalize npPut _ _ _ = p
              cases p with
              | error e => simp
              | ok b => simp only []; generalize npTake _ _ = q; cases q <;> simp
            | some b =>
              simp only
              generalize npPut _ _ _ = p
              cases p with
              | error e => simp
              | ok b => simp only []; generalize npTake _ _ = q; cases q <;> simp
          · simp only [hd, if_false]
            cases c.randomIndices with
            | none => simp
            | some b => simp only []; generalize npTake _ _ = q; cases q <;> simp
      · simp [drawIndices]

theorem indexSteps_withCache (cs k : Nat) (c : Chain σ) :
    indexSteps R N k (c.withCache cs) =
      (match indexSteps R N k c with
       | .error e => .error e
       | .ok (x, c') => .ok (x, c'.withCache cs)) := by
  induction k generalizing c with
  | zero => simp [indexSteps]
  | succ k ih =>
    simp only [indexSteps, indexStep_withCache]
    cases h : indexStep R N c with
    | error e => rfl
    | ok r =>
      obtain ⟨x, c'⟩ := r
      simp only [ih]
      cases h2 : indexSteps R N k c' with
      | error e => rfl
      | ok r => rfl

theorem indexStep_cacheSize (c c' : Chain σ) (x) (h : indexStep R N c = .ok (x, c')) :
    c'.cacheSize = c.cacheSize := by
  have := indexStep_withCache R N c.cacheSize c
  rw [withCache_self, h] at this
  simp at this
  rw [this]; cases c' <;> rfl

theorem indexSteps_cacheSize (k) (c c' : Chain σ) (x) (h : indexSteps R N k c = .ok (x, c')) :
    c'.cacheSize = c.cacheSize := by
  have := indexSteps_withCache R N c.cacheSize k c
  rw [withCache_self, h] at this
  simp at this
  rw [this]; cases c' <;> rfl

end

end JaxSgmc
