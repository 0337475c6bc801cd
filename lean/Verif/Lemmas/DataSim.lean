import Verif.Model.Samples
import Verif.Props.Langevin

/-!
Helper lemmas: integrators and solvers only observe the mini-batches.  Two data sources which deliver the
same mini-batches give the same results.
-/

namespace JaxSgmc

variable {ι κ δ δ' β μ φ A E Ms : Type}

/-- Two data sources deliver the same from related states on. -/
structure SimData (R : δ → δ' → Prop) (g : δ → δ × β) (g' : δ' → δ' × β) : Prop where
  out : ∀ d d', R d d' → (g d).2 = (g' d').2
  next : ∀ d d', R d d' → R (g d).1 (g' d').1

theorem foldl_sim {S S' π : Type} (rel : S → S' → Prop) (u : S → π → S) (u' : S' → π → S')
    (h : ∀ s s' p, rel s s' → rel (u s p) (u' s' p)) (l : List π) :
    ∀ s s', rel s s' → rel (l.foldl u s) (l.foldl u' s') := by
  induction l with
  | nil => intro s s' hs; exact hs
  | cons p l ih => intro s s' hs; exact ih _ _ (h _ _ _ hs)

/-! ### langevin_diffusion -/

def LangevinState.setData (s : LangevinState ι κ δ μ A) (d : δ') : LangevinState ι κ δ' μ A :=
  ⟨s.latent, s.modelState, s.key, s.adaptState, d, s.potential, s.variance, s.drawn⟩

def LangevinState.Same (R : δ → δ' → Prop) (s : LangevinState ι κ δ μ A) (s' : LangevinState ι κ δ' μ A) :
    Prop := s' = s.setData s'.dataState ∧ R s.dataState s'.dataState

section
variable [Fintype ι] {R : δ → δ' → Prop} {g : δ → δ × β} {g' : δ' → δ' × β}

theorem langevinUpdate_sim (h : SimData R g g') (P : Prng κ) (lay : Layout ι)
    (ad : Option (AdaptStrategy ι β A)) (sg : StochGradLik ι β μ) (s : LangevinState ι κ δ μ A)
    (s' : LangevinState ι κ δ' μ A) (p : Params) (hs : s.Same R s') :
    (langevinUpdate P lay ad g sg s p).Same R (langevinUpdate P lay ad g' sg s' p) := by
  obtain ⟨a, b, c, d, e, f, k, l⟩ := s
  obtain ⟨h1, h2⟩ := hs
  obtain ⟨a', b', c', d', e', f', k', l'⟩ := s'
  simp only [LangevinState.setData, LangevinState.mk.injEq, true_and] at h1 h2
  obtain ⟨rfl, rfl, rfl, rfl, rfl, rfl, rfl⟩ := h1
  refine ⟨?_, h.next _ _ h2⟩
  simp only [langevinUpdate, LangevinState.setData, h.out _ _ h2]

theorem langevinRun_sim (h : SimData R g g') (P : Prng κ) (lay : Layout ι)
    (ad : Option (AdaptStrategy ι β A)) (sg : StochGradLik ι β μ) (ps : List Params)
    (s : LangevinState ι κ δ μ A) (s' : LangevinState ι κ δ' μ A) (hs : s.Same R s') :
    (langevinRun P lay ad g sg s ps).Same R (langevinRun P lay ad g' sg s' ps) :=
  foldl_sim (LangevinState.Same R) _ _ (fun s s' p => langevinUpdate_sim h P lay ad sg s s' p) ps s s' hs

/-! ### parallel_tempering -/

def PtState.Same (R : δ → δ' → Prop) (s : PtState ι κ δ μ A) (s' : PtState ι κ δ' μ A) : Prop :=
  s.normal.Same R s'.normal ∧ s.hot.Same R s'.hot ∧ s'.ssq = s.ssq ∧ s'.F = s.F ∧ s'.step = s.step ∧
    s'.key = s.key ∧ s'.drawn = s.drawn

theorem LangevinState.Same.fields {s : LangevinState ι κ δ μ A} {s' : LangevinState ι κ δ' μ A}
    (h : s.Same R s') : s'.latent = s.latent ∧ s'.modelState = s.modelState ∧ s'.key = s.key ∧
      s'.adaptState = s.adaptState ∧ s'.potential = s.potential ∧ s'.variance = s.variance ∧
      s'.drawn = s.drawn := by
  obtain ⟨h, -⟩ := h
  rw [h]
  exact ⟨rfl, rfl, rfl, rfl, rfl, rfl, rfl⟩

theorem ptUpdate_sim (P : Prng κ) (sa : ℕ → ℝ)
    (u : LangevinState ι κ δ μ A → Params → LangevinState ι κ δ μ A)
    (u' : LangevinState ι κ δ' μ A → Params → LangevinState ι κ δ' μ A)
    (hu : ∀ s s' p, LangevinState.Same R s s' → (u s p).Same R (u' s' p))
    (s : PtState ι κ δ μ A) (s' : PtState ι κ δ' μ A) (p q : Params) (hs : s.Same R s') :
    (ptUpdate P sa u s p q).Same R (ptUpdate P sa u' s' p q) := by
  obtain ⟨h1, h2, h3, h4, h5, h6, h7⟩ := hs
  have hn := hu _ _ p h1
  have hh := hu _ _ q h2
  obtain ⟨-, -, -, -, n5, n6, -⟩ := hn.fields
  obtain ⟨-, -, -, -, m5, -, -⟩ := hh.fields
  have e : ptLogS (u' s'.normal p) (u' s'.hot q)
      ((1 - sa (s'.step + 1)) * s'.ssq + sa (s'.step + 1) * (u' s'.normal p).variance) s'.F p q
      = ptLogS (u s.normal p) (u s.hot q)
      ((1 - sa (s.step + 1)) * s.ssq + sa (s.step + 1) * (u s.normal p).variance) s.F p q := by
    simp only [ptLogS, n5, n6, m5, h3, h4, h5]
  unfold ptUpdate PtState.Same
  dsimp only
  rw [e, n6, h3, h4, h5, h6, h7]
  split_ifs
  · exact ⟨hn, hh, rfl, rfl, rfl, rfl, rfl⟩
  · exact ⟨hh, hn, rfl, rfl, rfl, rfl, rfl⟩

/-! ### reversible_leapfrog and friction_leapfrog -/

def LeapfrogState.setData {E : Type} (s : LeapfrogState ι E κ δ μ) (d : δ') : LeapfrogState ι E κ δ' μ :=
  ⟨s.potential, s.key, s.positions, s.momentum, d, s.modelState, s.drawn⟩

def LeapfrogState.Same (R : δ → δ' → Prop) (s : LeapfrogState ι E κ δ μ) (s' : LeapfrogState ι E κ δ' μ) :
    Prop := s' = s.setData s'.dataState ∧ R s.dataState s'.dataState

theorem revBody_sim (h : SimData R g g') (P : Prng κ) (lay : Layout ι) (friction : ℝ)
    (sg : StochGrad ι β μ) (prm : Params) (m : MassMatrix ι) (s : LeapfrogState ι ℝ κ δ μ)
    (s' : LeapfrogState ι ℝ κ δ' μ) (i : ℕ) (hs : s.Same R s') :
    (revBody P lay friction g sg prm m s i).Same R (revBody P lay friction g' sg prm m s' i) := by
  obtain ⟨a, b, c, d, e, f, k⟩ := s
  obtain ⟨h1, h2⟩ := hs
  obtain ⟨a', b', c', d', e', f', k'⟩ := s'
  simp only [LeapfrogState.setData, LeapfrogState.mk.injEq, true_and] at h1 h2
  obtain ⟨rfl, rfl, rfl, rfl, rfl, rfl⟩ := h1
  refine ⟨?_, h.next _ _ h2⟩
  simp only [revBody, LeapfrogState.setData, h.out _ _ h2]

theorem revIntegrate_sim (h : SimData R g g') (P : Prng κ) (lay : Layout ι) (friction : ℝ)
    (cm : Option (ι → ℝ)) (steps : ℕ) (sg : StochGrad ι β μ) (s : LeapfrogState ι ℝ κ δ μ)
    (s' : LeapfrogState ι ℝ κ δ' μ) (prm : Params) (mass : Option (MassMatrix ι)) (hs : s.Same R s') :
    (revIntegrate P lay friction cm steps g sg s prm mass).Same R
      (revIntegrate P lay friction cm steps g' sg s' prm mass) := by
  obtain ⟨a, b, c, d, e, f, k⟩ := s
  obtain ⟨h1, h2⟩ := hs
  obtain ⟨a', b', c', d', e', f', k'⟩ := s'
  simp only [LeapfrogState.setData, LeapfrogState.mk.injEq, true_and] at h1 h2
  obtain ⟨rfl, rfl, rfl, rfl, rfl, rfl⟩ := h1
  unfold revIntegrate
  dsimp only
  set m := resolveMass mass cm
  have key := foldl_sim (LeapfrogState.Same R) _ _
    (fun s s' i => revBody_sim h P lay friction sg prm m s s' i) (List.range steps)
    ⟨0, b', positionUpdate (0.5 * prm.stepSize) m c' d', d', e, f', k'⟩
    ⟨0, b', positionUpdate (0.5 * prm.stepSize) m c' d', d', e', f', k'⟩ ⟨rfl, h2⟩
  obtain ⟨k1, k2⟩ := key
  refine ⟨?_, k2⟩
  rw [k1]
  rfl

theorem fricBody_sim (h : SimData R g g') (P : Prng κ) (lay : Layout ι) (nm : Option (NoiseFn ι β μ))
    (sg : StochGrad ι β μ) (prm : Params) (fr : ι → ℝ) (m : MassMatrix ι) (s : LeapfrogState ι ℝ κ δ μ)
    (s' : LeapfrogState ι ℝ κ δ' μ) (i : ℕ) (hs : s.Same R s') :
    (fricBody P lay nm g sg prm fr m s i).Same R (fricBody P lay nm g' sg prm fr m s' i) := by
  obtain ⟨a, b, c, d, e, f, k⟩ := s
  obtain ⟨h1, h2⟩ := hs
  obtain ⟨a', b', c', d', e', f', k'⟩ := s'
  simp only [LeapfrogState.setData, LeapfrogState.mk.injEq, true_and] at h1 h2
  obtain ⟨rfl, rfl, rfl, rfl, rfl, rfl⟩ := h1
  refine ⟨?_, h.next _ _ h2⟩
  simp only [fricBody, LeapfrogState.setData, h.out _ _ h2]

theorem fricIntegrate_sim (h : SimData R g g') (P : Prng κ) (lay : Layout ι) (nm : Option (NoiseFn ι β μ))
    (friction : ℝ ⊕ (ι → ℝ)) (cm : Option (ι → ℝ)) (steps : ℕ) (sg : StochGrad ι β μ)
    (s : LeapfrogState ι ℝ κ δ μ) (s' : LeapfrogState ι ℝ κ δ' μ) (prm : Params)
    (mass : Option (MassMatrix ι)) (hs : s.Same R s') :
    (fricIntegrate P lay nm friction cm steps g sg s prm mass).Same R
      (fricIntegrate P lay nm friction cm steps g' sg s' prm mass) := by
  obtain ⟨a, b, c, d, e, f, k⟩ := s
  obtain ⟨h1, h2⟩ := hs
  obtain ⟨a', b', c', d', e', f', k'⟩ := s'
  simp only [LeapfrogState.setData, LeapfrogState.mk.injEq, true_and] at h1 h2
  obtain ⟨rfl, rfl, rfl, rfl, rfl, rfl⟩ := h1
  unfold fricIntegrate
  exact foldl_sim (LeapfrogState.Same R) _ _
    (fun s s' i => fricBody_sim h P lay nm sg prm _ _ s s' i) (List.range steps) _ _ ⟨rfl, h2⟩

/-! ### obabo -/

def ObaboState.setData {E : Type} (s : ObaboState ι E κ δ μ) (d : δ') : ObaboState ι E κ δ' μ :=
  ⟨s.potential, s.key, s.positions, s.momentum, d, s.modelState, s.kineticStart, s.kineticEnd, s.drawn⟩

def ObaboState.Same (R : δ → δ' → Prop) (s : ObaboState ι E κ δ μ) (s' : ObaboState ι E κ δ' μ) : Prop :=
  s' = s.setData s'.dataState ∧ R s.dataState s'.dataState

theorem obaboStep_sim (h : SimData R g g') (P : Prng κ) (lay : Layout ι) (friction : ℝ)
    (sg : StochGrad ι β μ) (prm : Params) (m : MassMatrix ι) (s : ObaboState ι ℝ κ δ μ)
    (s' : ObaboState ι ℝ κ δ' μ) (i : ℕ) (hs : s.Same R s') :
    (obaboStep P lay friction g sg prm m s i).Same R (obaboStep P lay friction g' sg prm m s' i) := by
  obtain ⟨a, b, c, d, e, f, k, l, n⟩ := s
  obtain ⟨h1, h2⟩ := hs
  obtain ⟨a', b', c', d', e', f', k', l', n'⟩ := s'
  simp only [ObaboState.setData, ObaboState.mk.injEq, true_and] at h1 h2
  obtain ⟨rfl, rfl, rfl, rfl, rfl, rfl, rfl, rfl⟩ := h1
  have h3 := h.next _ _ h2
  refine ⟨?_, h.next _ _ h3⟩
  simp only [obaboStep, ObaboState.setData, h.out _ _ h2, h.out _ _ h3]

theorem obaboIntegrate_sim (h : SimData R g g') (P : Prng κ) (lay : Layout ι) (friction : ℝ)
    (cm : Option (ι → ℝ)) (steps : ℕ) (sg : StochGrad ι β μ) (s : ObaboState ι ℝ κ δ μ)
    (s' : ObaboState ι ℝ κ δ' μ) (prm : Params) (mass : Option (MassMatrix ι)) (hs : s.Same R s') :
    (obaboIntegrate P lay friction cm steps g sg s prm mass).Same R
      (obaboIntegrate P lay friction cm steps g' sg s' prm mass) :=
  foldl_sim (ObaboState.Same R) _ _ (fun s s' i => obaboStep_sim h P lay friction sg prm _ s s' i)
    (List.range steps) s s' hs

/-! ### amagold -/

def AmagoldState.Same (R : δ → δ' → Prop) (s : AmagoldState ι κ δ μ φ Ms) (s' : AmagoldState ι κ δ' μ φ Ms) :
    Prop := s.integratorState.Same R s'.integratorState ∧ s'.potential = s.potential ∧
  s'.fullDataState = s.fullDataState ∧ s'.key = s.key ∧ s'.acceptanceRatio = s.acceptanceRatio ∧
  s'.massState = s.massState ∧ s'.drawn = s.drawn

theorem LeapfrogState.Same.fields {s : LeapfrogState ι E κ δ μ} {s' : LeapfrogState ι E κ δ' μ}
    (h : s.Same R s') : s'.potential = s.potential ∧ s'.key = s.key ∧ s'.positions = s.positions ∧
      s'.momentum = s.momentum ∧ s'.modelState = s.modelState ∧ s'.drawn = s.drawn := by
  obtain ⟨h, -⟩ := h
  rw [h]
  exact ⟨rfl, rfl, rfl, rfl, rfl, rfl⟩

theorem revForAmagold_sim (h : SimData R g g') (P : Prng κ) (lay : Layout ι) (friction : ℝ)
    (cm : Option (ι → ℝ)) (steps : ℕ) (sg : StochGrad ι β μ) (s : LeapfrogState ι XF κ δ μ)
    (s' : LeapfrogState ι XF κ δ' μ) (prm : Params) (mass : Option (MassMatrix ι)) (hs : s.Same R s') :
    (revForAmagold P lay friction cm steps g sg s prm mass).Same R
      (revForAmagold P lay friction cm steps g' sg s' prm mass) := by
  obtain ⟨h1, h2, h3, h4, h5, h6⟩ := hs.fields
  have := revIntegrate_sim h P lay friction cm steps sg
    ⟨0, s.key, s.positions, s.momentum, s.dataState, s.modelState, s.drawn⟩
    ⟨0, s'.key, s'.positions, s'.momentum, s'.dataState, s'.modelState, s'.drawn⟩ prm mass
    ⟨by rw [h2, h3, h4, h5, h6]; rfl, hs.2⟩
  obtain ⟨k1, k2⟩ := this
  refine ⟨?_, k2⟩
  unfold revForAmagold
  dsimp only
  rw [k1]
  rfl

theorem amagoldUpdate_sim (P : Prng κ) (ma : Option (MassAdaption ι Ms))
    (u : LeapfrogState ι XF κ δ μ → Params → Option (MassMatrix ι) → LeapfrogState ι XF κ δ μ)
    (u' : LeapfrogState ι XF κ δ' μ → Params → Option (MassMatrix ι) → LeapfrogState ι XF κ δ' μ)
    (hu : ∀ s s' p m, LeapfrogState.Same R s s' → (u s p m).Same R (u' s' p m))
    (fp : FullPotFn ι φ μ) (s : AmagoldState ι κ δ μ φ Ms) (s' : AmagoldState ι κ δ' μ φ Ms) (p : Params)
    (hs : s.Same R s') :
    (amagoldUpdate P ma u fp s p).1.Same R (amagoldUpdate P ma u' fp s' p).1 ∧
      (amagoldUpdate P ma u' fp s' p).2 = (amagoldUpdate P ma u fp s p).2 := by
  obtain ⟨h1, h2, h3, h4, h5, h6, h7⟩ := hs
  have hp := hu _ _ p (currentMass ma s.massState) h1
  obtain ⟨i1, i2, i3, i4, i5, i6⟩ := h1.fields
  obtain ⟨k1, k2, k3, k4, k5, k6⟩ := hp.fields
  unfold amagoldUpdate AmagoldState.Same
  dsimp only
  rw [h6, k1, k2, k3, k5, k6, h2, h3, h4, h7]
  split_ifs
  · refine ⟨⟨⟨?_, hp.2⟩, rfl, rfl, rfl, rfl, ?_, rfl⟩, rfl⟩
    · dsimp only [LeapfrogState.setData]
      rw [k1, k3, k4]
    · dsimp only
      rw [k3]
  · refine ⟨⟨⟨?_, hp.2⟩, rfl, rfl, rfl, rfl, ?_, rfl⟩, rfl⟩
    · dsimp only [LeapfrogState.setData]
      rw [i1, i3, i4, i5]
    · dsimp only
      rw [i3]

theorem amagoldRun_sim (P : Prng κ) (ma : Option (MassAdaption ι Ms))
    (u : LeapfrogState ι XF κ δ μ → Params → Option (MassMatrix ι) → LeapfrogState ι XF κ δ μ)
    (u' : LeapfrogState ι XF κ δ' μ → Params → Option (MassMatrix ι) → LeapfrogState ι XF κ δ' μ)
    (hu : ∀ s s' p m, LeapfrogState.Same R s s' → (u s p m).Same R (u' s' p m))
    (fp : FullPotFn ι φ μ) (ps : List Params) (s : AmagoldState ι κ δ μ φ Ms)
    (s' : AmagoldState ι κ δ' μ φ Ms) (hs : s.Same R s') :
    (amagoldRun P ma u fp s ps).Same R (amagoldRun P ma u' fp s' ps) :=
  foldl_sim (AmagoldState.Same R) _ _ (fun s s' p h => (amagoldUpdate_sim P ma u u' hu fp s s' p h).1)
    ps s s' hs

/-! ### sggmc -/

def SggmcState.Same (R : δ → δ' → Prop) (s : SggmcState ι κ δ μ φ Ms) (s' : SggmcState ι κ δ' μ φ Ms) :
    Prop := s.integratorState.Same R s'.integratorState ∧ s'.potential = s.potential ∧
  s'.fullDataState = s.fullDataState ∧ s'.key = s.key ∧ s'.acceptanceRatio = s.acceptanceRatio ∧
  s'.massState = s.massState ∧ s'.drawn = s.drawn

theorem ObaboState.Same.fields {s : ObaboState ι E κ δ μ} {s' : ObaboState ι E κ δ' μ}
    (h : s.Same R s') : s'.potential = s.potential ∧ s'.key = s.key ∧ s'.positions = s.positions ∧
      s'.momentum = s.momentum ∧ s'.modelState = s.modelState ∧ s'.kineticStart = s.kineticStart ∧
      s'.kineticEnd = s.kineticEnd ∧ s'.drawn = s.drawn := by
  obtain ⟨h, -⟩ := h
  rw [h]
  exact ⟨rfl, rfl, rfl, rfl, rfl, rfl, rfl, rfl⟩

theorem obaboForSggmc_sim (h : SimData R g g') (P : Prng κ) (lay : Layout ι) (friction : ℝ)
    (cm : Option (ι → ℝ)) (steps : ℕ) (sg : StochGrad ι β μ) (s : ObaboState ι XF κ δ μ)
    (s' : ObaboState ι XF κ δ' μ) (prm : Params) (mass : Option (MassMatrix ι)) (hs : s.Same R s') :
    (obaboForSggmc P lay friction cm steps g sg s prm mass).Same R
      (obaboForSggmc P lay friction cm steps g' sg s' prm mass) := by
  obtain ⟨h1, h2, h3, h4, h5, -, -, h6⟩ := hs.fields
  have := obaboIntegrate_sim h P lay friction cm steps sg
    ⟨s.potential, s.key, s.positions, s.momentum, s.dataState, s.modelState, 0, 0, s.drawn⟩
    ⟨s'.potential, s'.key, s'.positions, s'.momentum, s'.dataState, s'.modelState, 0, 0, s'.drawn⟩ prm mass
    ⟨by rw [h1, h2, h3, h4, h5, h6]; rfl, hs.2⟩
  obtain ⟨k1, k2⟩ := this
  refine ⟨?_, k2⟩
  unfold obaboForSggmc
  dsimp only
  rw [k1]
  rfl

theorem sggmcUpdate_sim (P : Prng κ) (ma : Option (MassAdaption ι Ms))
    (u : ObaboState ι XF κ δ μ → Params → Option (MassMatrix ι) → ObaboState ι XF κ δ μ)
    (u' : ObaboState ι XF κ δ' μ → Params → Option (MassMatrix ι) → ObaboState ι XF κ δ' μ)
    (hu : ∀ s s' p m, ObaboState.Same R s s' → (u s p m).Same R (u' s' p m))
    (fp : FullPotFn ι φ μ) (s : SggmcState ι κ δ μ φ Ms) (s' : SggmcState ι κ δ' μ φ Ms) (p : Params)
    (hs : s.Same R s') :
    (sggmcUpdate P ma u fp s p).1.Same R (sggmcUpdate P ma u' fp s' p).1 ∧
      (sggmcUpdate P ma u' fp s' p).2 = (sggmcUpdate P ma u fp s p).2 := by
  obtain ⟨h1, h2, h3, h4, h5, h6, h7⟩ := hs
  have hp := hu _ _ p (currentMass ma s.massState) h1
  obtain ⟨i1, i2, i3, i4, i5, i6, i7, i8⟩ := h1.fields
  obtain ⟨k1, k2, k3, k4, k5, k6, k7, k8⟩ := hp.fields
  unfold sggmcUpdate SggmcState.Same
  dsimp only
  rw [h6, k2, k3, k5, k6, k7, k8, h2, h3, h4, h7]
  split_ifs
  · refine ⟨⟨⟨?_, hp.2⟩, rfl, rfl, rfl, rfl, ?_, rfl⟩, rfl⟩
    · dsimp only [ObaboState.setData]
      rw [k1, k3, k4]
    · dsimp only
      rw [k3]
  · refine ⟨⟨⟨?_, hp.2⟩, rfl, rfl, rfl, rfl, ?_, rfl⟩, rfl⟩
    · dsimp only [ObaboState.setData]
      rw [i1, i3, i4, i5]
    · dsimp only
      rw [i3]

theorem sggmcRun_sim (P : Prng κ) (ma : Option (MassAdaption ι Ms))
    (u : ObaboState ι XF κ δ μ → Params → Option (MassMatrix ι) → ObaboState ι XF κ δ μ)
    (u' : ObaboState ι XF κ δ' μ → Params → Option (MassMatrix ι) → ObaboState ι XF κ δ' μ)
    (hu : ∀ s s' p m, ObaboState.Same R s s' → (u s p m).Same R (u' s' p m))
    (fp : FullPotFn ι φ μ) (ps : List Params) (s : SggmcState ι κ δ μ φ Ms)
    (s' : SggmcState ι κ δ' μ φ Ms) (hs : s.Same R s') :
    (sggmcRun P ma u fp s ps).Same R (sggmcRun P ma u' fp s' ps) :=
  foldl_sim (SggmcState.Same R) _ _ (fun s s' p h => (sggmcUpdate_sim P ma u u' hu fp s s' p h).1)
    ps s s' hs

end

end JaxSgmc
