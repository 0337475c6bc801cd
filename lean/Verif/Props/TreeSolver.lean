import Verif.Spec.TreeSolver
import Verif.Props.TreeLeapfrog

/-!
# C111, C112: the solvers on pytrees
-/

namespace JaxSgmc

open Spec

/-! ## mass_matrix on flat arrays -/

section
variable {n : Nat}

theorem flatZip_ofFn (f : ℝ → ℝ → ℝ) (v w : Fin n → ℝ) :
    flatZip f (List.ofFn v) (List.ofFn w) = .ok (List.ofFn fun i => f (v i) (w i)) := by
  simp only [flatZip_same, List.length_ofFn, zipWith_ofFn]

/-- **C111**: `mass_matrix(diagonal=True)`, which works on flat arrays, is the adaption on vectors. -/
theorem c111_mass_matrix_diagonal (burnIn : ℕ) (cov : Fin n → ℝ) :
    SameMassAdaption n (List.ofFn cov) (diagMassFlat burnIn) (diagMassAdaption burnIn cov)
      (fun a a' => a.iteration = a'.iteration ∧ a.mean = List.ofFn a'.mean ∧ a.ssq = List.ofFn a'.ssq ∧
        a.inv = List.ofFn a'.inv ∧ a.sqrt = List.ofFn a'.sqrt) where
  init := by
    intro x
    refine ⟨_, rfl, rfl, ?_, ?_, rfl, ?_⟩
    · simp only [List.map_ofFn]; rfl
    · simp only [List.map_ofFn]; rfl
    · simp only [List.map_ofFn]; rfl
  update := by
    rintro a a' x ⟨h1, h2, h3, h4, h5⟩
    obtain ⟨it, mean, ssq, inv, sq⟩ := a
    dsimp only at h1 h2 h3 h4 h5
    subst h1 h2 h3 h4 h5
    by_cases hb : a'.iteration + 1 = burnIn
    · refine ⟨_, by
        simp only [diagMassFlat, flatDiagUpdate, flatMean, flatZip_ofFn, except_ok_bind, flatDiagCond,
          List.length_ofFn, and_self, if_true, if_pos hb, except_pure]
        rfl, ?_⟩
      unfold diagMassAdaption diagMassUpdate
      dsimp only
      rw [if_pos hb, List.map_ofFn, List.map_ofFn]
      exact ⟨rfl, rfl, rfl, rfl, rfl⟩
    · refine ⟨_, by
        simp only [diagMassFlat, flatDiagUpdate, flatMean, flatZip_ofFn, except_ok_bind, flatDiagCond,
          List.length_ofFn, and_self, if_true, if_neg hb, except_pure]
        rfl, ?_⟩
      unfold diagMassAdaption diagMassUpdate
      dsimp only
      rw [if_neg hb]
      exact ⟨rfl, rfl, rfl, rfl, rfl⟩
  get := by
    rintro a a' ⟨-, -, -, h4, h5⟩
    exact ⟨_, _, rfl, h4, h5⟩

/-! ### Matrices as lists of rows -/

/-- The rows of a matrix. -/
def matRows (a : Matrix (Fin n) (Fin n) ℝ) : List (List ℝ) := List.ofFn fun i => List.ofFn (a i)

theorem matRows_lengths (a : Matrix (Fin n) (Fin n) ℝ) : (matRows a).map List.length = List.replicate n n := by
  rw [matRows, List.map_ofFn]
  apply List.ext_getElem
  · simp
  · intro i h1 h2
    simp

theorem diagRows_ofFn (v : Fin n → ℝ) : diagRows (List.ofFn v) = matRows (Matrix.diagonal v) := by
  apply List.ext_getElem
  · simp [diagRows, matRows]
  · intro i h1 h2
    have hi : i < n := by simpa [matRows] using h2
    simp only [diagRows, matRows, List.length_ofFn, List.getElem_map, List.getElem_range, List.getElem_ofFn]
    apply List.ext_getElem
    · simp
    · intro j h3 h4
      have hj : j < n := by simpa using h4
      simp only [List.getElem_map, List.getElem_range, List.getElem_ofFn, Matrix.diagonal_apply, Fin.mk.injEq]
      by_cases hij : i = j
      · rw [if_pos hij, if_pos hij]
        simp [hi]
      · rw [if_neg hij, if_neg hij]

theorem transposeRows_matRows (a : Matrix (Fin n) (Fin n) ℝ) : transposeRows (matRows a) = matRows a.transpose := by
  apply List.ext_getElem
  · simp [transposeRows, matRows]
  · intro i h1 h2
    have hi : i < n := by simpa [matRows] using h2
    simp only [transposeRows, matRows, List.length_ofFn, List.getElem_map, List.getElem_range, List.getElem_ofFn,
      List.map_ofFn]
    congr 1
    funext j
    simp [Matrix.transpose_apply, hi]

theorem matmulRows_matRows (a b : Matrix (Fin n) (Fin n) ℝ) :
    matmulRows (matRows a) (matRows b) = matRows (a * b) := by
  rw [matmulRows, transposeRows_matRows]
  simp only [matRows, List.map_ofFn]
  congr 1
  funext i
  simp only [Function.comp_apply]
  congr 1
  funext j
  simp only [Function.comp_apply, dotList, zipWith_ofFn, List.sum_ofFn, Matrix.mul_apply, Matrix.transpose_apply]

theorem outerRows_ofFn (v w : Fin n → ℝ) : outerRows (List.ofFn v) (List.ofFn w) = matRows (Matrix.of fun i j => v i * w j) := by
  show _ = List.ofFn fun i => List.ofFn fun j => v i * w j
  simp only [outerRows, List.map_ofFn, Function.comp_def]

theorem rowsZip_matRows (f : ℝ → ℝ → ℝ) (a b : Matrix (Fin n) (Fin n) ℝ) :
    rowsZip f (matRows a) (matRows b) = .ok (matRows (Matrix.of fun i j => f (a i j) (b i j))) := by
  have e : List.zipWith (List.zipWith f) (matRows a) (matRows b) = matRows (Matrix.of fun i j => f (a i j) (b i j)) := by
    apply List.ext_getElem
    · simp [matRows]
    · intro i h1 h2
      simp only [matRows, List.getElem_zipWith, List.getElem_ofFn, zipWith_ofFn]
      rfl
  simp only [rowsZip, matRows_lengths, if_true, e]

/-- **C111**: `mass_matrix(diagonal=False)`, which works on flat arrays, is the adaption on vectors. -/
theorem c111_mass_matrix_full (eighT : List (List ℝ) → List ℝ × List (List ℝ))
    (eigh : Matrix (Fin n) (Fin n) ℝ → (Fin n → ℝ) × Matrix (Fin n) (Fin n) ℝ) (he : SameEigh n eighT eigh)
    (burnIn : ℕ) (cov : Fin n → ℝ) :
    SameMassAdaption n (List.ofFn cov) (fullMassFlat eighT burnIn)
      ⟨fun _ => fullMassInit cov, fullMassUpdate eigh burnIn, fullMassGet⟩
      (fun a a' => a.iteration = a'.iteration ∧ a.mean = List.ofFn a'.mean ∧ a.ssq = matRows a'.ssq ∧
        a.inv = matRows a'.inv ∧ a.sqrt = matRows a'.sqrt) where
  init := by
    intro x
    refine ⟨_, rfl, rfl, ?_, ?_, diagRows_ofFn cov, ?_⟩
    · simp only [List.map_ofFn]; rfl
    · simp only [List.map_ofFn, Function.comp_def]; rfl
    · simp only [List.map_ofFn]; exact diagRows_ofFn _
  update := by
    rintro a a' x ⟨h1, h2, h3, h4, h5⟩
    obtain ⟨it, mean, ssq, inv, sq⟩ := a
    dsimp only at h1 h2 h3 h4 h5
    subst h1 h2 h3 h4 h5
    by_cases hb : a'.iteration + 1 = burnIn
    · refine ⟨_, by
        simp only [fullMassFlat, flatFullUpdate, flatMean, flatZip_ofFn, except_ok_bind, outerRows_ofFn,
          rowsZip_matRows, flatFullCond, matRows_lengths, and_self, if_true, if_pos hb, except_pure]
        rfl, ?_⟩
      unfold fullMassUpdate
      dsimp only
      rw [if_pos hb]
      refine ⟨rfl, rfl, rfl, ?_, ?_⟩
      · simp only [flatFullMatrix, matRows, List.map_ofFn, Function.comp_def]
        rfl
      · have e := he fun i j => (a'.ssq i j + (x i - a'.mean i) * (x j - ((((a'.iteration + 1 : ℕ) : ℝ) - 1) /
          ((a'.iteration + 1 : ℕ) : ℝ) * a'.mean j + 1 / ((a'.iteration + 1 : ℕ) : ℝ) * x j))) /
          ((a'.iteration + 1 : ℕ) : ℝ)
        have em : ∀ (M : Matrix (Fin n) (Fin n) ℝ) (c : ℝ), ((matRows M).map fun row => row.map fun q => q / c) =
            List.ofFn fun i => List.ofFn fun j => M i j / c := by
          intro M c
          simp only [matRows, List.map_ofFn, Function.comp_def]
        simp only [flatFullMatrix]
        rw [em]
        simp only [Matrix.of_apply]
        rw [e, List.map_ofFn]
        have ed := diagRows_ofFn (n := n) (Real.sqrt ∘ (eigh fun i j => (a'.ssq i j + (x i - a'.mean i) *
          (x j - ((((a'.iteration + 1 : ℕ) : ℝ) - 1) /
          ((a'.iteration + 1 : ℕ) : ℝ) * a'.mean j + 1 / ((a'.iteration + 1 : ℕ) : ℝ) * x j))) /
          ((a'.iteration + 1 : ℕ) : ℝ)).1)
        rw [ed]
        simp only [← matRows.eq_1, transposeRows_matRows, matmulRows_matRows]
        rfl
    · refine ⟨_, by
        simp only [fullMassFlat, flatFullUpdate, flatMean, flatZip_ofFn, except_ok_bind, outerRows_ofFn,
          rowsZip_matRows, flatFullCond, matRows_lengths, and_self, if_true, if_neg hb, except_pure]
        rfl, ?_⟩
      unfold fullMassUpdate
      dsimp only
      rw [if_neg hb]
      exact ⟨rfl, rfl, rfl, rfl, rfl⟩
  get := by
    rintro a a' ⟨-, -, -, h4, h5⟩
    exact ⟨_, _, rfl, h4, h5⟩

end

/-! ## amagold and sggmc -/

section
variable {x0 : Tree (Arr ℝ)} {κ δ β μ φ S Ms : Type} {rel : S → Ms → Prop}

theorem massGetT_same (h0 : ValidTree x0) {cov : List ℝ} {F : FlatMass S}
    {M : MassAdaption (Fin (ravel x0).length) Ms} (hF : SameMassAdaption _ cov F M rel)
    {a : AdaptionStateT S} {a' : Ms} (ht : a.template = x0) (ha : rel a.state a') :
    ∃ m, massGetT F a = .ok m ∧ SameMass x0 m (M.get a') := by
  obtain ⟨q1, q2, e, h1, h2⟩ := hF.get _ _ ha
  obtain ⟨t1, k1, k2⟩ := sameQuantity_unravel h0 h1
  obtain ⟨t2, l1, l2⟩ := sameQuantity_unravel h0 h2
  refine ⟨⟨t1, t2⟩, ?_, k2, l2⟩
  simp only [massGetT, e, except_ok_bind, mapExcept, ht, k1, l1, massOfQuantities]

theorem initialMassStateT_same (h0 : ValidTree x0) {initialMass : Tree (Arr ℝ)}
    {F : Option (FlatMass S)} {M : Option (MassAdaption (Fin (ravel x0).length) Ms)}
    (hF : SameMassChoice _ (ravel initialMass) rel F M) :
    ∃ st, initialMassStateT F x0 initialMass = .ok st ∧
      SameMassState x0 rel st (M.map fun m => m.init fun i => (ravel x0)[i]) := by
  cases F with
  | none =>
    cases M with
    | some M => exact hF.elim
    | none => exact ⟨none, rfl, trivial⟩
  | some F =>
    cases M with
    | none => exact hF.elim
    | some M =>
      have hF : SameMassAdaption _ (ravel initialMass) F M rel := hF
      obtain ⟨a, a1, a2⟩ := hF.init fun i => (ravel x0)[i]
      have e : List.ofFn (fun i : Fin (ravel x0).length => (ravel x0)[i]) = ravel x0 := by simp
      rw [e] at a1
      exact ⟨some ⟨a, x0⟩, by simp only [initialMassStateT, massInitT, a1, except_ok_bind, except_pure], rfl, a2⟩

theorem currentMassT_same (h0 : ValidTree x0) {cov : List ℝ}
    {F : Option (FlatMass S)} {M : Option (MassAdaption (Fin (ravel x0).length) Ms)}
    (hF : SameMassChoice _ cov rel F M) {st : Option (AdaptionStateT S)} {st' : Option Ms}
    (hst : SameMassState x0 rel st st') (hs : F.isSome → st.isSome) :
    ∃ m, currentMassT F st = .ok m ∧ SameMassOpt x0 m (currentMass M st') := by
  cases F with
  | none =>
    cases M with
    | some M => exact hF.elim
    | none => exact ⟨none, by cases st <;> rfl, by cases st' <;> trivial⟩
  | some F =>
    cases M with
    | none => exact hF.elim
    | some M =>
      cases st with
      | none => exact absurd (hs rfl) (by simp)
      | some a =>
        cases st' with
        | none => exact hst.elim
        | some a' =>
          obtain ⟨m, m1, m2⟩ := massGetT_same h0 hF hst.1 hst.2
          exact ⟨some m, by simp only [currentMassT, m1, except_ok_bind, except_pure], m2⟩

theorem nextMassStateT_same {cov : List ℝ}
    {F : Option (FlatMass S)} {M : Option (MassAdaption (Fin (ravel x0).length) Ms)}
    (hF : SameMassChoice _ cov rel F M) {st : Option (AdaptionStateT S)} {st' : Option Ms}
    (hst : SameMassState x0 rel st st') (hs : F.isSome → st.isSome) {p : Tree (Arr ℝ)}
    {v : Fin (ravel x0).length → ℝ} (hp : Entries x0 p v) :
    ∃ m, nextMassStateT F st p = .ok m ∧ SameMassState x0 rel m (nextMassState M st' v) ∧
      (F.isSome → m.isSome) := by
  cases F with
  | none =>
    cases M with
    | some M => exact hF.elim
    | none => exact ⟨none, by cases st <;> rfl, by cases st' <;> trivial, fun h => h⟩
  | some F =>
    cases M with
    | none => exact hF.elim
    | some M =>
      cases st with
      | none => exact absurd (hs rfl) (by simp)
      | some a =>
        cases st' with
        | none => exact hst.elim
        | some a' =>
          have hF : SameMassAdaption _ cov F M rel := hF
          obtain ⟨a2, e1, e2⟩ := hF.update _ _ v hst.2
          rw [← hp.2.2] at e1
          exact ⟨some ⟨a2, a.template⟩, by simp only [nextMassStateT, massUpdateT, e1, except_ok_bind, except_pure],
            ⟨hst.1, e2⟩, fun _ => rfl⟩

/-- One update of AMAGOLD on trees is the update on vectors. -/
theorem amagoldUpdateT_same (h0 : ValidTree x0) (P : Prng κ) (friction : ℝ)
    (c : Option (Fin (ravel x0).length → ℝ)) (cm : Option MassMatrixT)
    (c2 : ∀ m m', SameMassOpt x0 m m' → ∀ p v, Entries x0 p v →
      SameMass x0 (resolveMassT m cm p) (resolveMass m' c))
    (steps : ℕ) (getData : δ → δ × β) {sgT : StochGradT β μ} {sg : StochGrad (Fin (ravel x0).length) β μ}
    (hsg : SameStochGrad x0 sgT sg) {fT : FullPotFnT φ μ} {f : FullPotFn (Fin (ravel x0).length) φ μ}
    (hf : SameFullPot x0 fT f) {cov : List ℝ}
    {F : Option (FlatMass S)} {M : Option (MassAdaption (Fin (ravel x0).length) Ms)}
    (hF : SameMassChoice _ cov rel F M) {t : AmagoldStateT κ δ μ φ S}
    {s : AmagoldState (Fin (ravel x0).length) κ δ μ φ Ms} (h : SameAmagold x0 rel t s)
    (hs : F.isSome → t.massState.isSome) (p : Params) :
    ∃ r, amagoldUpdateT P F (revIntegrateT P friction cm steps getData sgT) fT t p = .ok r ∧
      SameAmagold x0 rel r.1
        (amagoldUpdate P M (revForAmagold P (layoutOf x0) friction c steps getData sg) f s p).1 ∧
      r.2 = (amagoldUpdate P M (revForAmagold P (layoutOf x0) friction c steps getData sg) f s p).2 ∧
      (F.isSome → r.1.massState.isSome) := by
  obtain ⟨m, m1, m2⟩ := currentMassT_same h0 hF h.massState hs
  obtain ⟨q, q1, q2⟩ := revIntegrateT_same h0 P friction c cm c2 steps getData hsg p m2
    (s := { t.integratorState with potential := 0 })
    (s' := ⟨0, s.integratorState.key, s.integratorState.positions, s.integratorState.momentum,
      s.integratorState.dataState, s.integratorState.modelState, s.integratorState.drawn⟩)
    ⟨h.positions, h.momentum, rfl, h.integratorKey, h.dataState, h.modelState, h.integratorDrawn⟩
  have q1' : revIntegrateT P friction cm steps getData sgT t.integratorState p m = .ok q := q1
  have hpot := hf _ _ q2.positions s.fullDataState q.modelState
  classical
  by_cases hacc : XF.Lt (XF.logOf (P.uniform (P.split s.key 2 1)))
      (amagoldLogAlpha s.potential (fT q.positions s.fullDataState q.modelState).1 (.fin q.potential))
  · obtain ⟨w, w1, w2, w3⟩ := nextMassStateT_same hF h.massState hs q2.positions
    refine ⟨_, by
      unfold amagoldUpdateT
      simp only [m1, except_ok_bind, q1', h.fullDataState, h.potential, h.key, amagoldChoiceT]
      rw [if_pos hacc]
      simp only [w1, except_ok_bind, except_pure]
      rfl, ?_, ?_, w3⟩
    · rw [hpot, q2.potential, q2.modelState] at hacc ⊢
      unfold amagoldUpdate revForAmagold
      dsimp only
      rw [if_pos hacc]
      exact ⟨q2.positions, q2.momentum.scale _, rfl, q2.key, q2.dataState, rfl, q2.drawn,
        rfl, rfl, rfl, rfl, w2, by dsimp only; rw [h.drawn]⟩
    · rw [hpot, q2.potential, q2.modelState]
      unfold amagoldUpdate revForAmagold
      rfl
  · obtain ⟨w, w1, w2, w3⟩ := nextMassStateT_same hF h.massState hs h.positions
    refine ⟨_, by
      unfold amagoldUpdateT
      simp only [m1, except_ok_bind, q1', h.fullDataState, h.potential, h.key, amagoldChoiceT]
      rw [if_neg hacc]
      simp only [w1, except_ok_bind, except_pure]
      rfl, ?_, ?_, w3⟩
    · rw [hpot, q2.potential, q2.modelState] at hacc ⊢
      unfold amagoldUpdate revForAmagold
      dsimp only
      rw [if_neg hacc]
      exact ⟨h.positions, h.momentum.scale _, h.energy, q2.key, q2.dataState, h.modelState, q2.drawn,
        rfl, rfl, rfl, rfl, w2, by dsimp only; rw [h.drawn]⟩
    · rw [hpot, q2.potential, q2.modelState]
      unfold amagoldUpdate revForAmagold
      rfl

/-- **C111** (AMAGOLD).  On every sample which is a tree of arrays, with or without mass adaption, the solver never
fails; its state after any schedules is, entry by entry, the state of the solver on the vector of the entries, with
the same acceptance decisions, energies, keys and statistics. -/
theorem c111_amagold (h0 : ValidTree x0) (P : Prng κ) (friction : ℝ) (cT : Tree (Arr ℝ))
    (c : Option (Fin (ravel x0).length → ℝ)) (hc : SameConstMass x0 cT c) (hx : c ≠ none → Container x0)
    (steps : ℕ) (getData : δ → δ × β) (sgT : StochGradT β μ) (sg : StochGrad (Fin (ravel x0).length) β μ)
    (hsg : SameStochGrad x0 sgT sg) (fT : FullPotFnT φ μ) (f : FullPotFn (Fin (ravel x0).length) φ μ)
    (hf : SameFullPot x0 fT f) (initialMass : Tree (Arr ℝ))
    (F : Option (FlatMass S)) (M : Option (MassAdaption (Fin (ravel x0).length) Ms))
    (hF : SameMassChoice _ (ravel initialMass) rel F M) (initData : δ) (initFull : φ) (key : κ) (ms : μ)
    (ps : List Params) :
    ∃ cm s t, prepareMass cT = .ok cm ∧
      amagoldInitT P F (revInitT P cm initData) fT initFull x0 initialMass key ms = .ok s ∧
      amagoldRunT P F (revIntegrateT P friction cm steps getData sgT) fT s ps = .ok t ∧
      SameAmagold x0 rel t
        (amagoldRun P M (revForAmagold P (layoutOf x0) friction c steps getData sg) f
          (amagoldInit P M (revInitForAmagold P (layoutOf x0) c initData) f initFull (fun i => (ravel x0)[i]) key ms)
          ps) := by
  obtain ⟨cm, c1, c2⟩ := resolveMassT_same cT c hc hx
  obtain ⟨st, st1, st2⟩ := initialMassStateT_same h0 hF
  have hsome : F.isSome → st.isSome := by
    intro hh
    cases F with
    | none => cases hh
    | some F =>
      cases M with
      | none => exact hF.elim
      | some M =>
        cases st with
        | none => exact st2.elim
        | some a => rfl
  obtain ⟨m, m1, m2⟩ := currentMassT_same h0 hF st2 hsome
  have e := hf _ _ (entries_self h0) initFull ms
  have m2' : SameMassOpt x0 m (M.map fun m => m.get (m.init fun i => (ravel x0)[i])) := by
    cases M with
    | none => exact m2
    | some M => exact m2
  obtain ⟨i, i1, i2⟩ := revInitT_same h0 P c cm c2 initData (P.split key 2 0)
    (f (fun i => (ravel x0)[i]) initFull ms).2.2 m2'
  obtain ⟨t, t1, t2⟩ := foldlM_same (fun t s => SameAmagold x0 rel t s ∧ (F.isSome → t.massState.isSome))
    (fun p p' => p = p')
    (fun s p => do
      let r ← amagoldUpdateT P F (revIntegrateT P friction cm steps getData sgT) fT s p
      return r.1)
    (fun s p => (amagoldUpdate P M (revForAmagold P (layoutOf x0) friction c steps getData sg) f s p).1)
    (by
      rintro s s' p p' ⟨hs, hs2⟩ hp
      subst hp
      obtain ⟨r, r1, r2, -, r3⟩ := amagoldUpdateT_same h0 P friction c cm c2 steps getData hsg hf hF hs hs2 p
      exact ⟨r.1, by simp only [r1, except_ok_bind, except_pure], r2, r3⟩)
    (List.forall₂_eq_eq_eq ▸ rfl : List.Forall₂ (fun p p' => p = p') ps ps)
    ⟨i, (f (fun i => (ravel x0)[i]) initFull ms).1, (f (fun i => (ravel x0)[i]) initFull ms).2.1, P.split key 2 1,
      (.fin 0, 0), st, []⟩
    (amagoldInit P M (revInitForAmagold P (layoutOf x0) c initData) f initFull (fun i => (ravel x0)[i]) key ms)
    ⟨⟨i2.positions, i2.momentum, by rw [i2.potential]; rfl, i2.key, i2.dataState, i2.modelState, i2.drawn, rfl, rfl,
      rfl, rfl, st2, rfl⟩, hsome⟩
  refine ⟨cm, _, t, c1, ?_, t1, t2.1⟩
  simp only [amagoldInitT, st1, m1, e, i1, except_ok_bind, except_pure]

/-- One update of SGGMC on trees is the update on vectors. -/
theorem sggmcUpdateT_same (h0 : ValidTree x0) (P : Prng κ) (friction : ℝ)
    (c : Option (Fin (ravel x0).length → ℝ)) (cm : Option MassMatrixT)
    (c2 : ∀ m m', SameMassOpt x0 m m' → ∀ p v, Entries x0 p v →
      SameMass x0 (resolveMassT m cm p) (resolveMass m' c))
    (steps : ℕ) (getData : δ → δ × β) {sgT : StochGradT β μ} {sg : StochGrad (Fin (ravel x0).length) β μ}
    (hsg : SameStochGrad x0 sgT sg) {fT : FullPotFnT φ μ} {f : FullPotFn (Fin (ravel x0).length) φ μ}
    (hf : SameFullPot x0 fT f) {cov : List ℝ}
    {F : Option (FlatMass S)} {M : Option (MassAdaption (Fin (ravel x0).length) Ms)}
    (hF : SameMassChoice _ cov rel F M) {t : SggmcStateT κ δ μ φ S}
    {s : SggmcState (Fin (ravel x0).length) κ δ μ φ Ms} (h : SameSggmc x0 rel t s)
    (hs : F.isSome → t.massState.isSome) (p : Params) :
    ∃ r, sggmcUpdateT P F (obaboIntegrateT P friction cm steps getData sgT) fT t p = .ok r ∧
      SameSggmc x0 rel r.1
        (sggmcUpdate P M (obaboForSggmc P (layoutOf x0) friction c steps getData sg) f s p).1 ∧
      r.2 = (sggmcUpdate P M (obaboForSggmc P (layoutOf x0) friction c steps getData sg) f s p).2 ∧
      (F.isSome → r.1.massState.isSome) := by
  obtain ⟨m, m1, m2⟩ := currentMassT_same h0 hF h.massState hs
  obtain ⟨q, q1, q2⟩ := obaboIntegrateT_same h0 P friction c cm c2 steps getData hsg p m2
    (s := t.integratorState)
    (s' := ⟨s.integratorState.potential, s.integratorState.key, s.integratorState.positions,
      s.integratorState.momentum, s.integratorState.dataState, s.integratorState.modelState, 0, 0,
      s.integratorState.drawn⟩)
    ⟨h.positions, h.momentum, h.energy, h.integratorKey, h.dataState, h.modelState, h.kineticStart.1,
      h.kineticEnd.1, h.integratorDrawn⟩
  have hpot := hf _ _ q2.positions s.fullDataState q.modelState
  classical
  by_cases hacc : XF.Lt (XF.logOf (P.uniform (P.split s.key 2 1)))
      (sggmcLogAlpha p.temperature s.potential (fT q.positions s.fullDataState q.modelState).1
        (.fin q.kineticStart) (.fin q.kineticEnd))
  · obtain ⟨w, w1, w2, w3⟩ := nextMassStateT_same hF h.massState hs q2.positions
    refine ⟨_, by
      unfold sggmcUpdateT
      simp only [m1, except_ok_bind, q1, h.fullDataState, h.potential, h.key, sggmcChoiceT]
      rw [if_pos hacc]
      simp only [w1, except_ok_bind, except_pure]
      rfl, ?_, ?_, w3⟩
    · rw [hpot, q2.kineticStart, q2.kineticEnd, q2.modelState] at hacc ⊢
      unfold sggmcUpdate obaboForSggmc
      dsimp only
      rw [if_pos hacc]
      exact ⟨q2.positions, q2.momentum, q2.potential, q2.key, q2.dataState, rfl, ⟨rfl, rfl⟩, ⟨rfl, rfl⟩, q2.drawn,
        rfl, rfl, rfl, rfl, w2, by dsimp only; rw [h.drawn]⟩
    · rw [hpot, q2.kineticStart, q2.kineticEnd, q2.modelState]
      unfold sggmcUpdate obaboForSggmc
      rfl
  · obtain ⟨w, w1, w2, w3⟩ := nextMassStateT_same hF h.massState hs h.positions
    refine ⟨_, by
      unfold sggmcUpdateT
      simp only [m1, except_ok_bind, q1, h.fullDataState, h.potential, h.key, sggmcChoiceT]
      rw [if_neg hacc]
      simp only [w1, except_ok_bind, except_pure]
      rfl, ?_, ?_, w3⟩
    · rw [hpot, q2.kineticStart, q2.kineticEnd, q2.modelState] at hacc ⊢
      unfold sggmcUpdate obaboForSggmc
      dsimp only
      rw [if_neg hacc]
      exact ⟨h.positions, h.momentum, h.energy, q2.key, q2.dataState, h.modelState, ⟨rfl, rfl⟩, ⟨rfl, rfl⟩, q2.drawn,
        rfl, rfl, rfl, rfl, w2, by dsimp only; rw [h.drawn]⟩
    · rw [hpot, q2.kineticStart, q2.kineticEnd, q2.modelState]
      unfold sggmcUpdate obaboForSggmc
      rfl

/-- **C111** (SGGMC). -/
theorem c111_sggmc (h0 : ValidTree x0) (P : Prng κ) (friction : ℝ) (cT : Tree (Arr ℝ))
    (c : Option (Fin (ravel x0).length → ℝ)) (hc : SameConstMass x0 cT c) (hx : c ≠ none → Container x0)
    (steps : ℕ) (getData : δ → δ × β) (sgT : StochGradT β μ) (sg : StochGrad (Fin (ravel x0).length) β μ)
    (hsg : SameStochGrad x0 sgT sg) (fT : FullPotFnT φ μ) (f : FullPotFn (Fin (ravel x0).length) φ μ)
    (hf : SameFullPot x0 fT f) (initialMass : Tree (Arr ℝ))
    (F : Option (FlatMass S)) (M : Option (MassAdaption (Fin (ravel x0).length) Ms))
    (hF : SameMassChoice _ (ravel initialMass) rel F M) (initData : δ) (initFull : φ) (key : κ) (ms : μ)
    (ps : List Params) :
    ∃ cm s t, prepareMass cT = .ok cm ∧
      sggmcInitT P F (obaboInitT initData) fT initFull x0 initialMass key ms = .ok s ∧
      sggmcRunT P F (obaboIntegrateT P friction cm steps getData sgT) fT s ps = .ok t ∧
      SameSggmc x0 rel t
        (sggmcRun P M (obaboForSggmc P (layoutOf x0) friction c steps getData sg) f
          (sggmcInit P M (obaboInitForSggmc initData) f initFull (fun i => (ravel x0)[i]) key ms) ps) := by
  obtain ⟨cm, c1, c2⟩ := resolveMassT_same cT c hc hx
  obtain ⟨st, st1, st2⟩ := initialMassStateT_same h0 hF
  have hsome : F.isSome → st.isSome := by
    intro hh
    cases F with
    | none => cases hh
    | some F =>
      cases M with
      | none => exact hF.elim
      | some M =>
        cases st with
        | none => exact st2.elim
        | some a => rfl
  have e := hf _ _ (entries_self h0) initFull ms
  obtain ⟨t, t1, t2⟩ := foldlM_same (fun t s => SameSggmc x0 rel t s ∧ (F.isSome → t.massState.isSome))
    (fun p p' => p = p')
    (fun s p => do
      let r ← sggmcUpdateT P F (obaboIntegrateT P friction cm steps getData sgT) fT s p
      return r.1)
    (fun s p => (sggmcUpdate P M (obaboForSggmc P (layoutOf x0) friction c steps getData sg) f s p).1)
    (by
      rintro s s' p p' ⟨hs, hs2⟩ hp
      subst hp
      obtain ⟨r, r1, r2, -, r3⟩ := sggmcUpdateT_same h0 P friction c cm c2 steps getData hsg hf hF hs hs2 p
      exact ⟨r.1, by simp only [r1, except_ok_bind, except_pure], r2, r3⟩)
    (List.forall₂_eq_eq_eq ▸ rfl : List.Forall₂ (fun p p' => p = p') ps ps)
    ⟨obaboInitT initData x0 (P.split key 2 0) (f (fun i => (ravel x0)[i]) initFull ms).2.2,
      (f (fun i => (ravel x0)[i]) initFull ms).1, (f (fun i => (ravel x0)[i]) initFull ms).2.1, P.split key 2 1,
      (.fin 0, 0, .fin 0), st, []⟩
    (sggmcInit P M (obaboInitForSggmc initData) f initFull (fun i => (ravel x0)[i]) key ms)
    ⟨⟨entries_self h0, (entries_self h0).map fun _ => 0, rfl, rfl, rfl, rfl, ⟨rfl, rfl⟩, ⟨rfl, rfl⟩, rfl, rfl, rfl,
      rfl, rfl, st2, rfl⟩, hsome⟩
  refine ⟨cm, _, t, c1, ?_, t1, t2.1⟩
  simp only [sggmcInitT, st1, e, except_ok_bind, except_pure]

end

/-- The hypotheses of C111 are met by the nested sample with the diagonal and the full mass adaption, started with a
tree of the same structure. -/
example (eighT : List (List ℝ) → List ℝ × List (List ℝ)) (eigh : Matrix (Fin 3) (Fin 3) ℝ → (Fin 3 → ℝ) ×
    Matrix (Fin 3) (Fin 3) ℝ) (he : SameEigh 3 eighT eigh) :
    (∃ rel, SameMassChoice 3 (ravel treeSample) rel (some (diagMassFlat 100))
      (some (diagMassAdaption 100 fun i => (ravel treeSample)[i]))) ∧
    (∃ rel, SameMassChoice 3 (ravel treeSample) rel (some (fullMassFlat eighT 100))
      (some ⟨fun _ => fullMassInit fun i => (ravel treeSample)[i], fullMassUpdate eigh 100, fullMassGet⟩)) ∧
    SameFullPot (φ := Unit) (μ := Unit) treeSample (fun t d m => (.fin ((ravel t).map fun y => y ^ 2).sum, d, m))
      (fun v d m => (.fin ((List.ofFn v).map fun y => y ^ 2).sum, d, m)) := by
  have e : ravel treeSample = List.ofFn fun i : Fin 3 => (ravel treeSample)[i] :=
    (List.ofFn_getElem (xs := ravel treeSample)).symm
  refine ⟨?_, ?_, ?_⟩
  · have h := c111_mass_matrix_diagonal (n := 3) 100 fun i => (ravel treeSample)[i]
    rw [← e] at h
    exact ⟨_, h⟩
  · have h := c111_mass_matrix_full (n := 3) eighT eigh he 100 fun i => (ravel treeSample)[i]
    rw [← e] at h
    exact ⟨_, h⟩
  · intro t v h d m
    dsimp only
    rw [h.2.2]

/-! ## C112: parallel tempering -/

section
variable {x0 : Tree (Arr ℝ)} {κ δ β μ A A' : Type}

/-- One update of parallel tempering on trees is the update on vectors. -/
theorem ptUpdateT_same (P : Prng κ) (sa : ℕ → ℝ) (rel : A → A' → Prop)
    (inv : LangevinState (Fin (ravel x0).length) κ δ μ A' → Prop)
    {uT : LangevinStateT κ δ μ A → Params → Except PyErr (LangevinStateT κ δ μ A)}
    {u : LangevinState (Fin (ravel x0).length) κ δ μ A' → Params → LangevinState (Fin (ravel x0).length) κ δ μ A'}
    (hu : ∀ t s, SameLangevin x0 rel t s → inv s → ∀ p, ∃ t', uT t p = .ok t' ∧ SameLangevin x0 rel t' (u s p) ∧
      inv (u s p)) {t : PtStateT κ δ μ A} {s : PtState (Fin (ravel x0).length) κ δ μ A'} (h : SamePt x0 rel t s)
    (hi : inv s.normal ∧ inv s.hot) (p q : Params) :
    ∃ t', ptUpdateT P sa uT t p q = .ok t' ∧ SamePt x0 rel t' (ptUpdate P sa u s p q) ∧
      inv (ptUpdate P sa u s p q).normal ∧ inv (ptUpdate P sa u s p q).hot := by
  obtain ⟨a, a1, a2, a3⟩ := hu _ _ h.normal hi.1 p
  obtain ⟨b, b1, b2, b3⟩ := hu _ _ h.hot hi.2 q
  have hshape : a.latent.map Arr.shape = b.latent.map Arr.shape :=
    sameShape_trans a2.1.2.1 (sameShape_symm b2.1.2.1)
  have ev := a2.2.2.2.2.2.1
  have ep := a2.2.2.2.2.1
  have eq := b2.2.2.2.2.1
  classical
  by_cases hacc : XF.Lt (XF.logOf (P.uniform (P.split s.key 2 1)))
      (.fin (ptLogS (u s.normal p) (u s.hot q) ((1 - sa (s.step + 1)) * s.ssq + sa (s.step + 1) *
        (u s.normal p).variance) s.F p q))
  · refine ⟨_, by
      unfold ptUpdateT
      simp only [a1, b1, except_ok_bind, ptSwapT, hshape, if_true, h.key, h.ssq, h.step, h.F, ev, ep, eq]
      unfold ptLogS at hacc
      dsimp only at hacc
      rw [if_pos hacc]
      simp only [except_ok_bind, except_pure]
      rfl, ?_⟩
    unfold ptUpdate
    dsimp only
    rw [if_pos hacc]
    exact ⟨⟨a2, b2, rfl, rfl, rfl, rfl, by dsimp only; rw [h.drawn]⟩, a3, b3⟩
  · refine ⟨_, by
      unfold ptUpdateT
      simp only [a1, b1, except_ok_bind, ptSwapT, hshape, if_true, h.key, h.ssq, h.step, h.F, ev, ep, eq]
      unfold ptLogS at hacc
      dsimp only at hacc
      rw [if_neg hacc]
      simp only [except_ok_bind, except_pure]
      rfl, ?_⟩
    unfold ptUpdate
    dsimp only
    rw [if_neg hacc]
    exact ⟨⟨b2, a2, rfl, rfl, rfl, rfl, by dsimp only; rw [h.drawn]⟩, b3, a3⟩

theorem ptRunT_same (P : Prng κ) (sa : ℕ → ℝ) (rel : A → A' → Prop)
    (inv : LangevinState (Fin (ravel x0).length) κ δ μ A' → Prop)
    {uT : LangevinStateT κ δ μ A → Params → Except PyErr (LangevinStateT κ δ μ A)}
    {u : LangevinState (Fin (ravel x0).length) κ δ μ A' → Params → LangevinState (Fin (ravel x0).length) κ δ μ A'}
    (hu : ∀ t s, SameLangevin x0 rel t s → inv s → ∀ p, ∃ t', uT t p = .ok t' ∧ SameLangevin x0 rel t' (u s p) ∧
      inv (u s p)) {t : PtStateT κ δ μ A} {s : PtState (Fin (ravel x0).length) κ δ μ A'} (h : SamePt x0 rel t s)
    (hi : inv s.normal ∧ inv s.hot) (ps : List (Params × Params)) :
    ∃ t', ptRunT P sa uT t ps = .ok t' ∧ SamePt x0 rel t' (ptRun P sa u s ps) := by
  obtain ⟨t', t1, t2⟩ := foldlM_same (fun t s => SamePt x0 rel t s ∧ inv s.normal ∧ inv s.hot) (fun p p' => p = p')
    (fun s p => ptUpdateT P sa uT s p.1 p.2) (fun s p => ptUpdate P sa u s p.1 p.2)
    (by
      rintro s s' p p' ⟨hs, hs2⟩ hp
      subst hp
      exact ptUpdateT_same P sa rel inv hu hs hs2 p.1 p.2)
    (List.forall₂_eq_eq_eq ▸ rfl : List.Forall₂ (fun p p' => p = p') ps ps) t s ⟨h, hi⟩
  exact ⟨t', t1, t2.1⟩

/-- **C112** (reSGLD).  For two samples which are trees of arrays with the same structure and shapes, parallel
tempering never fails and is, entry by entry, parallel tempering on the vectors of the entries. -/
theorem c112_re_sgld (h0 : ValidTree x0) (x1 : Tree (Arr ℝ)) (v1 : Fin (ravel x0).length → ℝ)
    (h1 : Entries x0 x1 v1) (P : Prng κ) (sa : ℕ → ℝ) (flatBatch : β → List ℝ) (getData : δ → δ × β)
    (sgT : StochGradLikT β μ) (sg : StochGradLik (Fin (ravel x0).length) β μ) (hsg : SameGradient x0 sgT sg)
    (d0 d1 : δ) (ssq F : ℝ) (key : κ) (ms : μ) (ps : List (Params × Params)) :
    ∃ t, ptRunT P sa (langevinUpdateT P (none : Option (FlatStrategy A)) flatBatch getData sgT)
        (ptInitT P (fun d x k => langevinInitT none d x k ms) (x0, d0) (x1, d1) ssq key F) ps = .ok t ∧
      SamePt x0 (fun _ _ => True) t
        (ptRun P sa (langevinUpdate P (layoutOf x0) (none : Option (AdaptStrategy _ β A')) getData sg)
          (ptInit P (fun (x : (Fin (ravel x0).length → ℝ) × δ) k => langevinInit x.2 x.1 k none ms)
            (fun i => (ravel x0)[i], d0) (v1, d1) ssq key F) ps) :=
  ptRunT_same P sa _ (fun _ => True)
    (fun t s h _ p => by
      obtain ⟨t', e, h'⟩ := langevinUpdateT_plain h0 P flatBatch getData hsg h p
      exact ⟨t', e, h', trivial⟩)
    ⟨⟨entries_self h0, rfl, rfl, rfl, rfl, rfl, rfl, trivial⟩, ⟨h1, rfl, rfl, rfl, rfl, rfl, rfl, trivial⟩, rfl, rfl,
      rfl, rfl, rfl⟩ ⟨trivial, trivial⟩ ps

/-- **C112** (parallel tempering of two preconditioned chains). -/
theorem c112_adapted (h0 : ValidTree x0) (x1 : Tree (Arr ℝ)) (v1 : Fin (ravel x0).length → ℝ)
    (h1 : Entries x0 x1 v1) (P : Prng κ) (sa : ℕ → ℝ) (flatBatch : β → List ℝ) (getData : δ → δ × β)
    (sgT : StochGradLikT β μ) (sg : StochGradLik (Fin (ravel x0).length) β μ) (hsg : SameGradient x0 sgT sg)
    (S : FlatStrategy A) (ad : AdaptStrategy (Fin (ravel x0).length) β A') (rel : A → A' → Prop)
    (hS : SameStrategy _ flatBatch S ad rel) (adaptInit : (Fin (ravel x0).length → ℝ) → A')
    (hinit : ∀ x, rel (S.init (List.ofFn x)) (adaptInit x))
    (d0 d1 : δ) (ssq F : ℝ) (key : κ) (ms : μ) (ps : List (Params × Params)) :
    ∃ t, ptRunT P sa (langevinUpdateT P (some S) flatBatch getData sgT)
        (ptInitT P (fun d x k => langevinInitT (some S) d x k ms) (x0, d0) (x1, d1) ssq key F) ps = .ok t ∧
      SamePt x0 rel t
        (ptRun P sa (langevinUpdate P (layoutOf x0) (some ad) getData sg)
          (ptInit P (fun (x : (Fin (ravel x0).length → ℝ) × δ) k =>
              langevinInit x.2 x.1 k (some (adaptInit x.1)) ms)
            (fun i => (ravel x0)[i], d0) (v1, d1) ssq key F) ps) := by
  have e0 := hinit fun i => (ravel x0)[i]
  rw [show List.ofFn (fun i : Fin (ravel x0).length => (ravel x0)[i]) = ravel x0 by simp] at e0
  have e1 := hinit v1
  rw [← h1.2.2] at e1
  refine ptRunT_same P sa _ (fun s => s.adaptState.isSome)
    (fun t s h hs p => langevinUpdateT_adapted h0 P flatBatch getData hsg hS h hs p) ?_ ⟨rfl, rfl⟩ ps
  exact ⟨⟨entries_self h0, rfl, rfl, rfl, rfl, rfl, rfl, ⟨_, entries_self h0⟩, e0⟩,
      ⟨h1, rfl, rfl, rfl, rfl, rfl, rfl, ⟨_, h1⟩, e1⟩, rfl, rfl, rfl, rfl, rfl⟩

/-- Two samples of different structure or with different shapes are rejected by the first update (`TypeError` of
`lax.cond`). -/
theorem c112_different (h0 : ValidTree x0) (x1 : Tree (Arr ℝ)) (hv1 : ValidTree x1) (hne : ¬ SameShape x0 x1)
    (P : Prng κ) (sa : ℕ → ℝ) (flatBatch : β → List ℝ) (getData : δ → δ × β)
    (sgT : StochGradLikT β μ) (sg0 : StochGradLik (Fin (ravel x0).length) β μ) (h0sg : SameGradient x0 sgT sg0)
    (sg1 : StochGradLik (Fin (ravel x1).length) β μ) (h1sg : SameGradient x1 sgT sg1)
    (d0 d1 : δ) (ssq F : ℝ) (key : κ) (ms : μ) (p : Params × Params) (ps : List (Params × Params)) :
    ptRunT P sa (langevinUpdateT P (none : Option (FlatStrategy A)) flatBatch getData sgT)
      (ptInitT P (fun d x k => langevinInitT none d x k ms) (x0, d0) (x1, d1) ssq key F) (p :: ps) =
        .error .typeError := by
  obtain ⟨a, a1, a2⟩ := langevinUpdateT_plain (A := A) (A' := Unit) (rel := fun _ _ => True) h0 P flatBatch getData
    h0sg (t := langevinInitT none d0 x0 (P.split key 3 1) ms)
    (s := langevinInit d0 (fun i => (ravel x0)[i]) (P.split key 3 1) none ms)
    ⟨entries_self h0, rfl, rfl, rfl, rfl, rfl, rfl, trivial⟩ p.1
  obtain ⟨b, b1, b2⟩ := langevinUpdateT_plain (A := A) (A' := Unit) (rel := fun _ _ => True) hv1 P flatBatch getData
    h1sg (t := langevinInitT none d1 x1 (P.split key 3 2) ms)
    (s := langevinInit d1 (fun i => (ravel x1)[i]) (P.split key 3 2) none ms)
    ⟨entries_self hv1, rfl, rfl, rfl, rfl, rfl, rfl, trivial⟩ p.2
  have hshape : ¬ a.latent.map Arr.shape = b.latent.map Arr.shape := by
    intro h
    exact hne (sameShape_trans (sameShape_symm a2.1.2.1) (sameShape_trans h b2.1.2.1))
  unfold ptRunT
  rw [List.foldlM_cons]
  have e : ptUpdateT P sa (langevinUpdateT P (none : Option (FlatStrategy A)) flatBatch getData sgT)
      (ptInitT P (fun d x k => langevinInitT none d x k ms) (x0, d0) (x1, d1) ssq key F) p.1 p.2 =
        .error .typeError := by
    unfold ptUpdateT ptInitT
    simp only [a1, b1, except_ok_bind, ptSwapT, hshape, if_false]
    rfl
  rw [e]
  rfl

end

/-- Samples of the same shape with different entries, and of different shape. -/
example : (∃ v, Entries treeSample (treeScale 2 treeSample) v) ∧ ¬ SameShape treeSample (.leaf ⟨[1], [0]⟩) := by
  have hv : ValidTree treeSample := by
    intro a ha
    simp only [treeSample, Tree.leaves, Tree.leavesL, List.nil_append, List.cons_append, List.append_nil,
      List.mem_cons, List.not_mem_nil, or_false] at ha
    rcases ha with rfl | rfl <;> simp [Arr.Valid]
  refine ⟨⟨_, (entries_self hv).scale 2⟩, ?_⟩
  intro h
  unfold SameShape treeSample at h
  cases h

end JaxSgmc
