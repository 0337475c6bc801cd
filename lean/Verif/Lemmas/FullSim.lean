import Verif.Model.Solver

/-!
Helper lemmas: AMAGOLD and SGGMC only observe the values of the full potential, not the state of its data.
-/

namespace JaxSgmc

variable {ι κ δ μ φ φ' Ms : Type}

/-- Two full potentials have the same values from related data states on. -/
structure SimFull (R : φ → φ' → Prop) (f : FullPotFn ι φ μ) (f' : FullPotFn ι φ' μ) : Prop where
  value : ∀ x d d' ms, R d d' → (f' x d' ms).1 = (f x d ms).1
  next : ∀ x d d' ms, R d d' → R (f x d ms).2.1 (f' x d' ms).2.1
  model : ∀ x d d' ms, R d d' → (f' x d' ms).2.2 = (f x d ms).2.2

def AmagoldState.SameFull (R : φ → φ' → Prop) (s : AmagoldState ι κ δ μ φ Ms)
    (s' : AmagoldState ι κ δ μ φ' Ms) : Prop :=
  s'.integratorState = s.integratorState ∧ s'.potential = s.potential ∧ R s.fullDataState s'.fullDataState ∧
    s'.key = s.key ∧ s'.acceptanceRatio = s.acceptanceRatio ∧ s'.massState = s.massState ∧ s'.drawn = s.drawn

def SggmcState.SameFull (R : φ → φ' → Prop) (s : SggmcState ι κ δ μ φ Ms)
    (s' : SggmcState ι κ δ μ φ' Ms) : Prop :=
  s'.integratorState = s.integratorState ∧ s'.potential = s.potential ∧ R s.fullDataState s'.fullDataState ∧
    s'.key = s.key ∧ s'.acceptanceRatio = s.acceptanceRatio ∧ s'.massState = s.massState ∧ s'.drawn = s.drawn

variable {R : φ → φ' → Prop} {f : FullPotFn ι φ μ} {f' : FullPotFn ι φ' μ}

theorem amagoldInit_full (h : SimFull R f f') (P : Prng κ) (ma : Option (MassAdaption ι Ms))
    (ii : (ι → ℝ) → κ → μ → Option (MassMatrix ι) → LeapfrogState ι XF κ δ μ) (d : φ) (d' : φ') (hd : R d d')
    (x : ι → ℝ) (key : κ) (ms : μ) :
    (amagoldInit P ma ii f d x key ms).SameFull R (amagoldInit P ma ii f' d' x key ms) := by
  unfold amagoldInit AmagoldState.SameFull
  dsimp only
  rw [h.value x d d' ms hd, h.model x d d' ms hd]
  exact ⟨rfl, rfl, h.next x d d' ms hd, rfl, rfl, rfl, rfl⟩

theorem amagoldUpdate_full (h : SimFull R f f') (P : Prng κ) (ma : Option (MassAdaption ι Ms))
    (u : LeapfrogState ι XF κ δ μ → Params → Option (MassMatrix ι) → LeapfrogState ι XF κ δ μ)
    (s : AmagoldState ι κ δ μ φ Ms) (s' : AmagoldState ι κ δ μ φ' Ms) (p : Params) (hs : s.SameFull R s') :
    (amagoldUpdate P ma u f s p).1.SameFull R (amagoldUpdate P ma u f' s' p).1 := by
  obtain ⟨h1, h2, h3, h4, h5, h6, h7⟩ := hs
  unfold amagoldUpdate AmagoldState.SameFull
  dsimp only
  rw [h1, h2, h4, h6, h7, h.value _ _ _ _ h3, h.model _ _ _ _ h3]
  exact ⟨rfl, rfl, h.next _ _ _ _ h3, rfl, rfl, rfl, rfl⟩

theorem amagoldRun_full (h : SimFull R f f') (P : Prng κ) (ma : Option (MassAdaption ι Ms))
    (u : LeapfrogState ι XF κ δ μ → Params → Option (MassMatrix ι) → LeapfrogState ι XF κ δ μ)
    (ps : List Params) (s : AmagoldState ι κ δ μ φ Ms) (s' : AmagoldState ι κ δ μ φ' Ms)
    (hs : s.SameFull R s') : (amagoldRun P ma u f s ps).SameFull R (amagoldRun P ma u f' s' ps) := by
  induction ps generalizing s s' with
  | nil => exact hs
  | cons p ps ih => exact ih _ _ (amagoldUpdate_full h P ma u s s' p hs)

theorem sggmcInit_full (h : SimFull R f f') (P : Prng κ) (ma : Option (MassAdaption ι Ms))
    (ii : (ι → ℝ) → κ → μ → ObaboState ι XF κ δ μ) (d : φ) (d' : φ') (hd : R d d')
    (x : ι → ℝ) (key : κ) (ms : μ) :
    (sggmcInit P ma ii f d x key ms).SameFull R (sggmcInit P ma ii f' d' x key ms) := by
  unfold sggmcInit SggmcState.SameFull
  dsimp only
  rw [h.value x d d' ms hd, h.model x d d' ms hd]
  exact ⟨rfl, rfl, h.next x d d' ms hd, rfl, rfl, rfl, rfl⟩

theorem sggmcUpdate_full (h : SimFull R f f') (P : Prng κ) (ma : Option (MassAdaption ι Ms))
    (u : ObaboState ι XF κ δ μ → Params → Option (MassMatrix ι) → ObaboState ι XF κ δ μ)
    (s : SggmcState ι κ δ μ φ Ms) (s' : SggmcState ι κ δ μ φ' Ms) (p : Params) (hs : s.SameFull R s') :
    (sggmcUpdate P ma u f s p).1.SameFull R (sggmcUpdate P ma u f' s' p).1 := by
  obtain ⟨h1, h2, h3, h4, h5, h6, h7⟩ := hs
  unfold sggmcUpdate SggmcState.SameFull
  dsimp only
  rw [h1, h2, h4, h6, h7, h.value _ _ _ _ h3, h.model _ _ _ _ h3]
  exact ⟨rfl, rfl, h.next _ _ _ _ h3, rfl, rfl, rfl, rfl⟩

theorem sggmcRun_full (h : SimFull R f f') (P : Prng κ) (ma : Option (MassAdaption ι Ms))
    (u : ObaboState ι XF κ δ μ → Params → Option (MassMatrix ι) → ObaboState ι XF κ δ μ)
    (ps : List Params) (s : SggmcState ι κ δ μ φ Ms) (s' : SggmcState ι κ δ μ φ' Ms)
    (hs : s.SameFull R s') : (sggmcRun P ma u f s ps).SameFull R (sggmcRun P ma u f' s' ps) := by
  induction ps generalizing s s' with
  | nil => exact hs
  | cons p ps ih => exact ih _ _ (sggmcUpdate_full h P ma u s s' p hs)

end JaxSgmc
