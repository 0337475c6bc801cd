import Verif.Spec.TreeLeapfrog
import Verif.Props.TreeIntegrator

/-!
# C109, C110: the integrators with momenta on pytrees
-/

namespace JaxSgmc

open Spec

section
variable {x0 : Tree (Arr ℝ)} {κ δ β μ : Type}

theorem except_ok_bind {A B : Type} (a : A) (f : A → Except PyErr B) : (Except.ok a >>= f) = f a := rfl

theorem except_pure {A : Type} (a : A) : (pure a : Except PyErr A) = .ok a := rfl

theorem Spec.Entries.map {a : Tree (Arr ℝ)} {v : Fin (ravel x0).length → ℝ} (ha : Entries x0 a v) (f : ℝ → ℝ) :
    Entries x0 (a.map (Arr.map f)) fun i => f (v i) := by
  refine ⟨?_, ?_, ?_⟩
  · intro c hc
    rw [Tree.leaves_map] at hc
    obtain ⟨b, hb, rfl⟩ := List.mem_map.1 hc
    have := ha.1 b hb
    simpa [Arr.Valid, Arr.map] using this
  · refine sameShape_trans ?_ ha.2.1
    simp only [SameShape, Tree.map_map]
    exact Tree.map_congr _ _ _ (fun b _ => rfl)
  · have e : ravel (a.map (Arr.map f)) = (ravel a).map f := by
      simp only [ravel, Tree.leaves_map, List.flatMap_map, List.map_flatMap, Arr.map]
    rw [e, ha.2.2, List.map_ofFn]
    rfl

theorem initMassT_same {c : Tree (Arr ℝ)} {v : Fin (ravel x0).length → ℝ} (h : Entries x0 c v) :
    SameMass x0 (initMassT c) (initMass v) :=
  ⟨h.map fun x => x ^ (-1 : ℝ), h.map Real.sqrt⟩

/-- The mass used on trees is the mass used on vectors. -/
theorem resolveMassT_same (cT : Tree (Arr ℝ)) (c : Option (Fin (ravel x0).length → ℝ))
    (hc : SameConstMass x0 cT c) (hx : c ≠ none → Container x0) :
    ∃ cm, prepareMass cT = .ok cm ∧ ∀ m m', SameMassOpt x0 m m' → ∀ p v, Entries x0 p v →
      SameMass x0 (resolveMassT m cm p) (resolveMass m' c) := by
  have given : ∀ cm m m', SameMassOpt x0 (some m) m' → ∀ p, SameMass x0 (resolveMassT (some m) cm p)
      (resolveMass m' c) := by
    intro cm m m' h p
    cases m' with
    | none => exact h.elim
    | some m' => exact h
  have ones : ∀ p v, Entries x0 p v → SameMass x0 (initMassT (onesLike p)) (initMass fun _ => 1) :=
    fun p v h => initMassT_same (h.map fun _ => 1)
  cases c with
  | none =>
    refine ⟨none, ?_, ?_⟩
    · have hc : cT = .none := hc
      subst hc
      rfl
    · intro m m' h p v hp
      cases m with
      | some m => exact given _ _ _ h p
      | none =>
        cases m' with
        | some m' => exact h.elim
        | none => exact ones p v hp
  | some w =>
    have hc : Entries x0 cT w := hc
    obtain ⟨k, ts, hk⟩ := hx (by simp)
    have hshape := hc.2.1
    unfold SameShape at hshape
    cases cT with
    | none => rw [hk] at hshape; cases hshape
    | leaf a => rw [hk] at hshape; cases hshape
    | node k' ts' =>
      cases ts' with
      | nil =>
        refine ⟨none, rfl, ?_⟩
        intro m m' h p v hp
        cases m with
        | some m => exact given _ _ _ h p
        | none =>
          cases m' with
          | some m' => exact h.elim
          | none =>
            have h0 : (ravel x0).length = 0 := by
              rw [← hc.length]
              rfl
            have e : w = fun _ => 1 := by
              funext i
              exact absurd i.2 (by omega)
            subst e
            exact ones p v hp
      | cons t ts' =>
        refine ⟨some (initMassT (.node k' (t :: ts'))), rfl, ?_⟩
        intro m m' h p v hp
        cases m with
        | some m => exact given _ _ _ h p
        | none =>
          cases m' with
          | some m' => exact h.elim
          | none => exact initMassT_same hc

/-! ### The parts -/

section
variable {m : MassMatrixT} {m' : MassMatrix (Fin (ravel x0).length)}

theorem positionUpdateT_same (hm : SameMass x0 m m') (c : ℝ) {p q : Tree (Arr ℝ)}
    {v w : Fin (ravel x0).length → ℝ} (hp : Entries x0 p v) (hq : Entries x0 q w) :
    ∃ t, positionUpdateT c m p q = .ok t ∧ Entries x0 t (positionUpdate c m' v w) := by
  obtain ⟨a, a1, a2⟩ := Spec.Entries.tensor hm.1 hq
  obtain ⟨b, b1, b2⟩ := hp.add (a2.scale c)
  exact ⟨b, by simp only [positionUpdateT, a1, except_ok_bind, b1], b2⟩

theorem covScaledNoise_same (h0 : ValidTree x0) (P : Prng κ) (hm : SameMass x0 m m') (key : κ) {p : Tree (Arr ℝ)}
    {v : Fin (ravel x0).length → ℝ} (hp : Entries x0 p v) :
    ∃ t, covScaledNoise P key m p = .ok (t, (randomTree P (layoutOf x0) key).2) ∧
      Entries x0 t (m'.sqrt.mul (randomTree P (layoutOf x0) key).1) := by
  obtain ⟨n, n1, n2⟩ := randomTreeT_entries P key h0 hp
  obtain ⟨a, a1, a2⟩ := Spec.Entries.tensor hm.2 n2
  exact ⟨a, by simp only [covScaledNoise, n1, except_ok_bind, a1, except_pure], a2⟩

theorem leapEnergyT_same (hm : SameMass x0 m m') (c : ℝ) {p q g : Tree (Arr ℝ)}
    {v w u : Fin (ravel x0).length → ℝ} (hp : Entries x0 p v) (hq : Entries x0 q w) (hg : Entries x0 g u) :
    leapEnergyT p q m g c = .ok (leapEnergy v w m' u c) := by
  obtain ⟨a, a1, a2⟩ := hp.add hq
  obtain ⟨b, b1, b2⟩ := Spec.Entries.tensor hm.1 hg
  simp only [leapEnergyT, a1, b1, except_ok_bind, a2.dot b2, except_pure, leapEnergy]

theorem kineticEnergyT_same (hm : SameMass x0 m m') {p : Tree (Arr ℝ)}
    {v : Fin (ravel x0).length → ℝ} (hp : Entries x0 p v) :
    kineticEnergyT m p = .ok (kineticEnergy m' v) := by
  obtain ⟨b, b1, b2⟩ := Spec.Entries.tensor hm.1 hp
  simp only [kineticEnergyT, b1, except_ok_bind, hp.dot b2, except_pure, kineticEnergy]

theorem momentumUpdateT_same (c : ℝ) {p g : Tree (Arr ℝ)}
    {v u : Fin (ravel x0).length → ℝ} (hg : Entries x0 g u) (hp : Entries x0 p v) :
    ∃ t, momentumUpdateT c g p = .ok t ∧ Entries x0 t (momentumUpdate c u v) :=
  (hg.scale (-1.0 * c)).add hp

theorem momentumResamplingT_same (h0 : ValidTree x0) (P : Prng κ) (hm : SameMass x0 m m') (friction : ℝ)
    (prm : Params) (key : κ) {p : Tree (Arr ℝ)} {v : Fin (ravel x0).length → ℝ} (hp : Entries x0 p v) :
    ∃ t, momentumResamplingT P friction prm m p key = .ok (t, (randomTree P (layoutOf x0) key).2) ∧
      Entries x0 t (momentumResampling friction prm m' v (randomTree P (layoutOf x0) key).1) := by
  obtain ⟨n, n1, n2⟩ := randomTreeT_entries P key h0 hp
  obtain ⟨a, a1, a2⟩ := Spec.Entries.tensor hm.2 n2
  obtain ⟨b, b1, b2⟩ := (hp.scale (Real.sqrt (Real.exp (-friction * prm.stepSize)))).add
    (a2.scale (Real.sqrt ((1 - Real.exp (-friction * prm.stepSize)) * prm.temperature)))
  exact ⟨b, by simp only [momentumResamplingT, n1, except_ok_bind, a1, except_pure, b1], b2⟩

/-! ### Single steps -/

theorem revBodyT_same (h0 : ValidTree x0) (P : Prng κ) (hm : SameMass x0 m m') (friction : ℝ)
    (getData : δ → δ × β) {sgT : StochGradT β μ} {sg : StochGrad (Fin (ravel x0).length) β μ}
    (hsg : SameStochGrad x0 sgT sg) (prm : Params) {t : LeapfrogStateT κ δ μ}
    {s : LeapfrogState (Fin (ravel x0).length) ℝ κ δ μ} (h : SameLeapfrog x0 t s) (k : ℕ) :
    ∃ t', revBodyT P friction getData sgT prm m t k = .ok t' ∧
      SameLeapfrog x0 t' (revBody P (layoutOf x0) friction getData sg prm m' s k) := by
  have hpos : ∃ p, revPositionsT prm m t k = .ok p ∧
      Entries x0 p (if k = 0 then s.positions else positionUpdate prm.stepSize m' s.positions s.momentum) := by
    unfold revPositionsT
    by_cases hk : k = 0
    · rw [if_pos hk, if_pos hk]
      exact ⟨_, rfl, h.positions⟩
    · rw [if_neg hk, if_neg hk]
      exact positionUpdateT_same hm _ h.positions h.momentum
  obtain ⟨p, p1, p2⟩ := hpos
  obtain ⟨n, n1, n2⟩ := covScaledNoise_same h0 P hm (P.split s.key 2 1) h.momentum
  obtain ⟨g1, g2⟩ := hsg _ _ p2 (getData s.dataState).2 s.modelState
  obtain ⟨a, a1, a2⟩ := (h.momentum.scale (1 - prm.stepSize * friction)).add (g2.scale (-1.0 * prm.stepSize))
  obtain ⟨b, b1, b2⟩ := a2.add (n2.scale (Real.sqrt (4 * friction * prm.stepSize)))
  have b3 := b2.scale (1 / (1 + prm.stepSize * friction))
  have e := leapEnergyT_same hm (0.5 * prm.stepSize) h.momentum b3 g2
  refine ⟨_, by
    unfold revBodyT
    simp only [p1, except_ok_bind, h.key, h.dataState, h.modelState, n1, a1, b1, e, except_pure]
    rfl, ?_⟩
  exact ⟨p2, b3, by dsimp only; rw [h.potential]; rfl, rfl, rfl, by dsimp only; rw [g1]; rfl,
    by dsimp only; rw [h.drawn]; rfl⟩

theorem obaboStepT_same (h0 : ValidTree x0) (P : Prng κ) (hm : SameMass x0 m m') (friction : ℝ)
    (getData : δ → δ × β) {sgT : StochGradT β μ} {sg : StochGrad (Fin (ravel x0).length) β μ}
    (hsg : SameStochGrad x0 sgT sg) (prm : Params) {t : ObaboStateT κ δ μ}
    {s : ObaboState (Fin (ravel x0).length) ℝ κ δ μ} (h : SameObabo x0 t s) (k : ℕ) :
    ∃ t', obaboStepT P friction getData sgT prm m t k = .ok t' ∧
      SameObabo x0 t' (obaboStep P (layoutOf x0) friction getData sg prm m' s k) := by
  obtain ⟨r, r1, r2⟩ := momentumResamplingT_same h0 P hm friction prm (P.split s.key 3 1) h.momentum
  have e1 := kineticEnergyT_same hm r2
  obtain ⟨g1, g2⟩ := hsg _ _ h.positions (getData s.dataState).2 s.modelState
  obtain ⟨f, f1, f2⟩ := momentumUpdateT_same (0.5 * prm.stepSize) g2 r2
  obtain ⟨p, p1, p2⟩ := positionUpdateT_same hm prm.stepSize h.positions f2
  obtain ⟨k1, k2⟩ := hsg _ _ p2 (getData (getData s.dataState).1).2
    (sg s.positions (getData s.dataState).2 s.modelState).1.2
  obtain ⟨q, q1, q2⟩ := momentumUpdateT_same (0.5 * prm.stepSize) k2 f2
  obtain ⟨w, w1, w2⟩ := momentumResamplingT_same h0 P hm friction prm (P.split s.key 3 2) q2
  have e2 := kineticEnergyT_same hm q2
  refine ⟨_, by
    unfold obaboStepT
    simp only [h.key, h.dataState, h.modelState, r1, except_ok_bind, e1, g1, f1, p1, q1, w1, e2,
      except_pure]
    rfl, ?_⟩
  refine ⟨p2, w2, by dsimp only; rw [k1]; rfl, rfl, rfl, by dsimp only; rw [k1]; rfl,
    by dsimp only; rw [h.kineticStart]; rfl, by dsimp only; rw [h.kineticEnd]; rfl,
    by dsimp only; rw [h.drawn]; rfl⟩

theorem fricNoiseT_same {nT : Option (NoiseFnT β μ)} {n : Option (NoiseFn (Fin (ravel x0).length) β μ)}
    (hn : SameNoise x0 nT n) (prm : Params) {p g f z : Tree (Arr ℝ)} {v u w y : Fin (ravel x0).length → ℝ}
    (hp : Entries x0 p v) (hg : Entries x0 g u) (hf : Entries x0 f w) (hz : Entries x0 z y) (b : β) (ms : μ) :
    ∃ t, fricNoiseT nT prm p g f z b ms = .ok t ∧ Entries x0 t (match (generalizing := false) n with
      | some nm => vscale (Real.sqrt (2 * prm.stepSize)) ((nm v u w b prm.stepSize ms).mul y)
      | none => vmul w (vscale (Real.sqrt (2 * prm.stepSize)) y)) := by
  cases nT with
  | none =>
    cases n with
    | some n => exact hn.elim
    | none => exact hf.multiply (hz.scale _)
  | some nT =>
    cases n with
    | none => exact hn.elim
    | some n =>
      obtain ⟨T, t1, t2⟩ := hn _ _ hp _ _ hg _ _ hf b prm.stepSize ms
      obtain ⟨c, c1, c2⟩ := Spec.Entries.tensor t2 hz
      exact ⟨_, by simp only [fricNoiseT, t1, except_ok_bind, c1, except_pure], c2.scale _⟩

theorem fricBodyT_same (h0 : ValidTree x0) (P : Prng κ) (hm : SameMass x0 m m')
    {nT : Option (NoiseFnT β μ)} {n : Option (NoiseFn (Fin (ravel x0).length) β μ)} (hn : SameNoise x0 nT n)
    (getData : δ → δ × β) {sgT : StochGradT β μ} {sg : StochGrad (Fin (ravel x0).length) β μ}
    (hsg : SameStochGrad x0 sgT sg) (prm : Params) {f : Tree (Arr ℝ)} {fv : Fin (ravel x0).length → ℝ}
    (hf : Entries x0 f fv) {t : LeapfrogStateT κ δ μ}
    {s : LeapfrogState (Fin (ravel x0).length) ℝ κ δ μ} (h : SameLeapfrog x0 t s) (k : ℕ) :
    ∃ t', fricBodyT P nT getData sgT prm f m t k = .ok t' ∧
      SameLeapfrog x0 t' (fricBody P (layoutOf x0) n getData sg prm fv m' s k) := by
  obtain ⟨a, a1, a2⟩ := Spec.Entries.tensor hm.1 h.momentum
  obtain ⟨p, p1, p2⟩ := h.positions.add (a2.scale prm.stepSize)
  obtain ⟨d, d1, d2⟩ := (hf.scale (-prm.stepSize)).multiply a2
  obtain ⟨b, b1, b2⟩ := h.momentum.add d2
  obtain ⟨g1, g2⟩ := hsg _ _ p2 (getData s.dataState).2 s.modelState
  obtain ⟨c, c1, c2⟩ := b2.add (g2.scale (-prm.stepSize))
  obtain ⟨z, z1, z2⟩ := randomTreeT_entries P (P.split s.key 2 1) h0 h.momentum
  obtain ⟨y, y1, y2⟩ := fricNoiseT_same hn prm p2 g2 hf z2 (getData s.dataState).2 s.modelState
  obtain ⟨w, w1, w2⟩ := c2.add y2
  refine ⟨_, by
    unfold fricBodyT
    simp only [h.key, h.dataState, h.modelState, a1, except_ok_bind, p1, d1, b1, c1, z1, y1, w1,
      except_pure]
    rfl, ?_⟩
  cases n with
  | none =>
    exact ⟨p2, w2, by dsimp only; rw [g1]; rfl, rfl, rfl, by dsimp only; rw [g1]; rfl,
      by dsimp only; rw [h.drawn]; rfl⟩
  | some n =>
    exact ⟨p2, w2, by dsimp only; rw [g1]; rfl, rfl, rfl, by dsimp only; rw [g1]; rfl,
      by dsimp only; rw [h.drawn]; rfl⟩

end

/-! ### Loops -/

theorem foldlM_same {S S' I I' : Type} (R : S → S' → Prop) (Q : I → I' → Prop) (f : S → I → Except PyErr S)
    (f' : S' → I' → S') (hf : ∀ s s' i i', R s s' → Q i i' → ∃ t, f s i = .ok t ∧ R t (f' s' i')) {l : List I}
    {l' : List I'} (hl : List.Forall₂ Q l l') : ∀ s s', R s s' →
      ∃ t, l.foldlM f s = .ok t ∧ R t (l'.foldl f' s') := by
  induction hl with
  | nil => intro s s' h; exact ⟨s, rfl, h⟩
  | cons hq _ ih =>
    intro s s' h
    obtain ⟨t, t1, t2⟩ := hf _ _ _ _ h hq
    obtain ⟨u, u1, u2⟩ := ih _ _ t2
    refine ⟨u, ?_, u2⟩
    rw [List.foldlM_cons, t1, except_ok_bind, u1]

theorem scanSteps_same {S S' : Type} (R : S → S' → Prop) (f : S → ℕ → Except PyErr S) (f' : S' → ℕ → S')
    (hf : ∀ s s' k, R s s' → ∃ t, f s k = .ok t ∧ R t (f' s' k)) (steps : ℕ) (s : S) (s' : S') (h : R s s') :
    ∃ t, scanSteps f steps s = .ok t ∧ R t ((List.range steps).foldl f' s') :=
  foldlM_same R (fun i i' => i = i') f f' (fun s s' i i' hs hi => by subst hi; exact hf s s' i hs)
    (List.forall₂_eq_eq_eq ▸ rfl) s s' h

/-- One call of OBABO on trees is the call on vectors. -/
theorem obaboIntegrateT_same (h0 : ValidTree x0) (P : Prng κ) (friction : ℝ)
    (c : Option (Fin (ravel x0).length → ℝ)) (cm : Option MassMatrixT)
    (c2 : ∀ m m', SameMassOpt x0 m m' → ∀ p v, Entries x0 p v →
      SameMass x0 (resolveMassT m cm p) (resolveMass m' c))
    (steps : ℕ) (getData : δ → δ × β) {sgT : StochGradT β μ} {sg : StochGrad (Fin (ravel x0).length) β μ}
    (hsg : SameStochGrad x0 sgT sg) (p : Params) {m : Option MassMatrixT}
    {m' : Option (MassMatrix (Fin (ravel x0).length))} (hm : SameMassOpt x0 m m') {s : ObaboStateT κ δ μ}
    {s' : ObaboState (Fin (ravel x0).length) ℝ κ δ μ} (hs : SameObabo x0 s s') :
    ∃ t, obaboIntegrateT P friction cm steps getData sgT s p m = .ok t ∧
      SameObabo x0 t (obaboIntegrate P (layoutOf x0) friction c steps getData sg s' p m') :=
  scanSteps_same (SameObabo x0) _ _
    (fun _ _ k ha => obaboStepT_same h0 P (c2 m m' hm _ _ hs.positions) friction getData hsg p ha k) steps
    s s' hs

/-- One call of the reversible leapfrog integrator on trees is the call on vectors. -/
theorem revIntegrateT_same (h0 : ValidTree x0) (P : Prng κ) (friction : ℝ)
    (c : Option (Fin (ravel x0).length → ℝ)) (cm : Option MassMatrixT)
    (c2 : ∀ m m', SameMassOpt x0 m m' → ∀ p v, Entries x0 p v →
      SameMass x0 (resolveMassT m cm p) (resolveMass m' c))
    (steps : ℕ) (getData : δ → δ × β) {sgT : StochGradT β μ} {sg : StochGrad (Fin (ravel x0).length) β μ}
    (hsg : SameStochGrad x0 sgT sg) (p : Params) {m : Option MassMatrixT}
    {m' : Option (MassMatrix (Fin (ravel x0).length))} (hm : SameMassOpt x0 m m') {s : LeapfrogStateT κ δ μ}
    {s' : LeapfrogState (Fin (ravel x0).length) ℝ κ δ μ} (hs : SameLeapfrog x0 s s') :
    ∃ t, revIntegrateT P friction cm steps getData sgT s p m = .ok t ∧
      SameLeapfrog x0 t (revIntegrate P (layoutOf x0) friction c steps getData sg s' p m') := by
  have hmass := c2 m m' hm _ _ hs.positions
  obtain ⟨q, q1, q2⟩ := positionUpdateT_same hmass (0.5 * p.stepSize) hs.positions hs.momentum
  obtain ⟨a, a1, a2⟩ := scanSteps_same (SameLeapfrog x0) _ _
    (fun a a' k ha => revBodyT_same h0 P hmass friction getData hsg p ha k) steps
    { s with positions := q, potential := 0 }
    { s' with positions := positionUpdate (0.5 * p.stepSize) (resolveMass m' c) s'.positions s'.momentum,
              potential := 0 } ⟨q2, hs.momentum, rfl, hs.key, hs.dataState, hs.modelState, hs.drawn⟩
  obtain ⟨w, w1, w2⟩ := positionUpdateT_same hmass (0.5 * p.stepSize) a2.positions a2.momentum
  refine ⟨_, by simp only [revIntegrateT, q1, except_ok_bind, a1, w1, except_pure]; rfl, ?_⟩
  exact ⟨w2, a2.momentum, a2.potential, a2.key, a2.dataState, a2.modelState, a2.drawn⟩

/-- The initial state of the reversible leapfrog integrator on trees is the one on vectors. -/
theorem revInitT_same' (h0 : ValidTree x0) (P : Prng κ) (c : Option (Fin (ravel x0).length → ℝ))
    (cm : Option MassMatrixT)
    (c2 : ∀ m m', SameMassOpt x0 m m' → ∀ p v, Entries x0 p v →
      SameMass x0 (resolveMassT m cm p) (resolveMass m' c)) (initData : δ) (key : κ) (ms : μ)
    {m0 : Option MassMatrixT} {m0' : Option (MassMatrix (Fin (ravel x0).length))} (hm0 : SameMassOpt x0 m0 m0')
    {x : Tree (Arr ℝ)} {v : Fin (ravel x0).length → ℝ} (hx : Entries x0 x v) :
    ∃ s, revInitT P cm initData x key ms m0 = .ok s ∧
      SameLeapfrog x0 s (revInit P (layoutOf x0) c initData v key ms m0') := by
  obtain ⟨n, n1, n2⟩ := covScaledNoise_same h0 P (c2 m0 m0' hm0 _ _ hx) (P.split key 2 1) hx
  exact ⟨⟨0, P.split key 2 0, x, n, initData, ms, (randomTree P (layoutOf x0) (P.split key 2 1)).2⟩,
    by simp only [revInitT, n1, except_ok_bind, except_pure], hx, n2, rfl, rfl, rfl, rfl, rfl⟩

theorem revInitT_same (h0 : ValidTree x0) (P : Prng κ) (c : Option (Fin (ravel x0).length → ℝ))
    (cm : Option MassMatrixT)
    (c2 : ∀ m m', SameMassOpt x0 m m' → ∀ p v, Entries x0 p v →
      SameMass x0 (resolveMassT m cm p) (resolveMass m' c)) (initData : δ) (key : κ) (ms : μ)
    {m0 : Option MassMatrixT} {m0' : Option (MassMatrix (Fin (ravel x0).length))} (hm0 : SameMassOpt x0 m0 m0') :
    ∃ s, revInitT P cm initData x0 key ms m0 = .ok s ∧
      SameLeapfrog x0 s (revInit P (layoutOf x0) c initData (fun i => (ravel x0)[i]) key ms m0') :=
  revInitT_same' h0 P c cm c2 initData key ms hm0 (entries_self h0)

/-- **C109** (OBABO).  On every sample which is a tree of arrays, consecutive calls of the integrator never fail and
give on the entries what the integrator on vectors gives; structure and shapes do not change. -/
theorem c109_obabo (h0 : ValidTree x0) (P : Prng κ) (friction : ℝ) (cT : Tree (Arr ℝ))
    (c : Option (Fin (ravel x0).length → ℝ)) (hc : SameConstMass x0 cT c) (hx : c ≠ none → Container x0)
    (steps : ℕ) (getData : δ → δ × β) (sgT : StochGradT β μ) (sg : StochGrad (Fin (ravel x0).length) β μ)
    (hsg : SameStochGrad x0 sgT sg) (initData : δ) (key : κ) (ms : μ)
    (ps : List (Params × Option MassMatrixT)) (ps' : List (Params × Option (MassMatrix (Fin (ravel x0).length))))
    (hps : SameCalls x0 ps ps') :
    ∃ cm t, prepareMass cT = .ok cm ∧
      runT (obaboIntegrateT P friction cm steps getData sgT) (obaboInitT initData x0 key ms) ps = .ok t ∧
      SameObabo x0 t (ps'.foldl (fun s p => obaboIntegrate P (layoutOf x0) friction c steps getData sg s p.1 p.2)
        (obaboInit initData (fun i => (ravel x0)[i]) key ms)) := by
  obtain ⟨cm, c1, c2⟩ := resolveMassT_same cT c hc hx
  obtain ⟨t, t1, t2⟩ := foldlM_same (SameObabo x0) _
    (fun s p => obaboIntegrateT P friction cm steps getData sgT s p.1 p.2)
    (fun s p => obaboIntegrate P (layoutOf x0) friction c steps getData sg s p.1 p.2)
    (by
      rintro s s' ⟨p, m⟩ ⟨p', m'⟩ hs ⟨hp, hm⟩
      dsimp only at hp hm
      subst hp
      exact obaboIntegrateT_same h0 P friction c cm c2 steps getData hsg p hm hs) hps (obaboInitT initData x0 key ms) (obaboInit initData (fun i => (ravel x0)[i]) key ms)
    ⟨entries_self h0, (entries_self h0).map fun _ => 0, rfl, rfl, rfl, rfl, rfl, rfl, rfl⟩
  exact ⟨cm, t, c1, t1, t2⟩

/-- **C109** (reversible leapfrog of AMAGOLD). -/
theorem c109_reversible (h0 : ValidTree x0) (P : Prng κ) (friction : ℝ) (cT : Tree (Arr ℝ))
    (c : Option (Fin (ravel x0).length → ℝ)) (hc : SameConstMass x0 cT c) (hx : c ≠ none → Container x0)
    (steps : ℕ) (getData : δ → δ × β) (sgT : StochGradT β μ) (sg : StochGrad (Fin (ravel x0).length) β μ)
    (hsg : SameStochGrad x0 sgT sg) (initData : δ) (key : κ) (ms : μ)
    (m0 : Option MassMatrixT) (m0' : Option (MassMatrix (Fin (ravel x0).length))) (hm0 : SameMassOpt x0 m0 m0')
    (ps : List (Params × Option MassMatrixT)) (ps' : List (Params × Option (MassMatrix (Fin (ravel x0).length))))
    (hps : SameCalls x0 ps ps') :
    ∃ cm s t, prepareMass cT = .ok cm ∧ revInitT P cm initData x0 key ms m0 = .ok s ∧
      runT (revIntegrateT P friction cm steps getData sgT) s ps = .ok t ∧
      SameLeapfrog x0 t (ps'.foldl
        (fun s p => revIntegrate P (layoutOf x0) friction c steps getData sg s p.1 p.2)
        (revInit P (layoutOf x0) c initData (fun i => (ravel x0)[i]) key ms m0')) := by
  obtain ⟨cm, c1, c2⟩ := resolveMassT_same cT c hc hx
  obtain ⟨s, s1, s2⟩ := revInitT_same h0 P c cm c2 initData key ms hm0
  obtain ⟨t, t1, t2⟩ := foldlM_same (SameLeapfrog x0) _
    (fun s p => revIntegrateT P friction cm steps getData sgT s p.1 p.2)
    (fun s p => revIntegrate P (layoutOf x0) friction c steps getData sg s p.1 p.2)
    (by
      rintro s s' ⟨p, m⟩ ⟨p', m'⟩ hs ⟨hp, hm⟩
      dsimp only at hp hm
      subst hp
      exact revIntegrateT_same h0 P friction c cm c2 steps getData hsg p hm hs) hps s _ s2
  exact ⟨cm, s, t, c1, s1, t1, t2⟩

theorem broadcastTo_self (a : Arr ℝ) (ha : a.Valid) : Arr.broadcastTo a.shape a = .ok a := by
  rw [Arr.broadcastTo, if_pos (bcast_self _), broadcastData_self a ha]

theorem broadcastTo_shape {s : List Nat} {a b : Arr ℝ} (h : Arr.broadcastTo s a = .ok b) : b.shape = s := by
  unfold Arr.broadcastTo at h
  split_ifs at h
  cases h
  rfl

theorem mapExcept_of_map {α β : Type} {f : α → Except PyErr β} : ∀ (xs : List α) (ys : List β),
    ys.map .ok = xs.map f → mapExcept f xs = .ok ys := by
  intro xs
  induction xs with
  | nil =>
    intro ys h
    obtain rfl : ys = [] := by simpa using h
    rfl
  | cons x xs ih =>
    intro ys h
    cases ys with
    | nil => simp at h
    | cons y ys =>
      simp only [List.map_cons, List.cons.injEq] at h
      simp only [mapExcept, ← h.1, ih ys h.2]

/-- The friction used for the sample is the friction on vectors. -/
theorem multiscalarFriction_same (fT : ℝ ⊕ Tree (Arr ℝ)) (f : ℝ ⊕ (Fin (ravel x0).length → ℝ)) (hf : SameFriction x0 fT f)
    {p : Tree (Arr ℝ)} {v : Fin (ravel x0).length → ℝ} (hp : Entries x0 p v) :
    ∃ fr, multiscalarFriction fT p = .ok fr ∧ Entries x0 fr (match (generalizing := false) f with
      | .inl f => fun _ => f
      | .inr f => f) := by
  cases fT with
  | inl a =>
    cases f with
    | inr b => exact hf.elim
    | inl b =>
      have hf : a = b := hf
      subst hf
      exact ⟨_, rfl, hp.map fun _ => a⟩
  | inr t =>
    cases f with
    | inl b => exact hf.elim
    | inr b =>
      have array : ∀ (a : Arr ℝ) (u : Tree (Arr ℝ)), Entries x0 u b →
          u.leaves.map .ok = x0.leaves.map (fun y => Arr.broadcastTo y.shape a) →
          multiscalarFriction (.inr (.leaf a)) p = .ok u := by
        intro a u hu he
        have hl : x0.leaves.map (fun y => Arr.broadcastTo y.shape a) = p.leaves.map fun y => Arr.broadcastTo y.shape a := by
          have := congrArg (List.map fun s => Arr.broadcastTo s a) hp.2.1.leaves
          simp only [List.map_map] at this
          exact this.symm
        simp only [multiscalarFriction, mapExcept_of_map _ _ (he.trans hl)]
        exact Tree.unflatten_leaves p u (hp.2.1.shape.trans hu.2.1.shape.symm)
      rcases hf with hf | ⟨a, u, rfl, hu, he⟩
      · cases t with
        | none => exact ⟨_, rfl, hf⟩
        | node n ts => exact ⟨_, rfl, hf⟩
        | leaf a =>
          refine ⟨_, array a (.leaf a) hf ?_, hf⟩
          have h1 := hf.2.1.leaves
          have h2 : a.Valid := hf.1 a (by simp [Tree.leaves])
          have h3 : x0.leaves.map (fun y => Arr.broadcastTo y.shape a) =
              (Tree.leaf a).leaves.map fun y => Arr.broadcastTo y.shape a := by
            have := congrArg (List.map fun s => Arr.broadcastTo s a) h1
            simp only [List.map_map] at this
            exact this.symm
          rw [h3]
          simp only [Tree.leaves, List.map_cons, List.map_nil, broadcastTo_self a h2]
      · exact ⟨u, array a u hu he, hu⟩

/-- One call of the leapfrog integrator with friction on trees is the call on vectors. -/
theorem fricIntegrateT_same (h0 : ValidTree x0) (P : Prng κ) {nT : Option (NoiseFnT β μ)}
    {n : Option (NoiseFn (Fin (ravel x0).length) β μ)} (hn : SameNoise x0 nT n)
    (fT : ℝ ⊕ Tree (Arr ℝ)) (f : ℝ ⊕ (Fin (ravel x0).length → ℝ)) (hf : SameFriction x0 fT f)
    (c : Option (Fin (ravel x0).length → ℝ)) (cm : Option MassMatrixT)
    (c2 : ∀ m m', SameMassOpt x0 m m' → ∀ p v, Entries x0 p v →
      SameMass x0 (resolveMassT m cm p) (resolveMass m' c))
    (steps : ℕ) (getData : δ → δ × β) {sgT : StochGradT β μ} {sg : StochGrad (Fin (ravel x0).length) β μ}
    (hsg : SameStochGrad x0 sgT sg) (p : Params) {m : Option MassMatrixT}
    {m' : Option (MassMatrix (Fin (ravel x0).length))} (hm : SameMassOpt x0 m m') {s : LeapfrogStateT κ δ μ}
    {s' : LeapfrogState (Fin (ravel x0).length) ℝ κ δ μ} (hs : SameLeapfrog x0 s s') :
    ∃ t, fricIntegrateT P nT fT cm steps getData sgT s p m = .ok t ∧
      SameLeapfrog x0 t (fricIntegrate P (layoutOf x0) n f c steps getData sg s' p m') := by
  obtain ⟨fr, fr1, hfr⟩ := multiscalarFriction_same fT f hf hs.positions
  have hmass := c2 m m' hm _ _ hs.positions
  obtain ⟨z, z1, z2⟩ := covScaledNoise_same h0 P hmass (P.split s'.key 2 1) hs.momentum
  obtain ⟨a, a1, a2⟩ := scanSteps_same (SameLeapfrog x0) _ _
    (fun a a' k ha => fricBodyT_same h0 P hmass hn getData hsg p hfr ha k) steps
    ⟨0, P.split s'.key 2 0, s.positions, z, s.dataState, s.modelState,
      s.drawn ++ (randomTree P (layoutOf x0) (P.split s'.key 2 1)).2⟩
    { s' with
      momentum := (resolveMass m' c).sqrt.mul (randomTree P (layoutOf x0) (P.split s'.key 2 1)).1
      key := P.split s'.key 2 0
      potential := 0
      drawn := s'.drawn ++ (randomTree P (layoutOf x0) (P.split s'.key 2 1)).2 }
    ⟨hs.positions, z2, rfl, rfl, hs.dataState, hs.modelState, by dsimp only; rw [hs.drawn]⟩
  refine ⟨a, by simp only [fricIntegrateT, hs.key, fr1, z1, except_ok_bind, a1], ?_⟩
  cases f with
  | inl f => exact a2
  | inr f => exact a2

/-- **C109** (friction leapfrog of SGHMC). -/
theorem c109_friction (h0 : ValidTree x0) (P : Prng κ) (nT : Option (NoiseFnT β μ))
    (n : Option (NoiseFn (Fin (ravel x0).length) β μ)) (hn : SameNoise x0 nT n)
    (fT : ℝ ⊕ Tree (Arr ℝ)) (f : ℝ ⊕ (Fin (ravel x0).length → ℝ)) (hf : SameFriction x0 fT f) (cT : Tree (Arr ℝ))
    (c : Option (Fin (ravel x0).length → ℝ)) (hc : SameConstMass x0 cT c) (hx : c ≠ none → Container x0)
    (steps : ℕ) (getData : δ → δ × β) (sgT : StochGradT β μ) (sg : StochGrad (Fin (ravel x0).length) β μ)
    (hsg : SameStochGrad x0 sgT sg) (initData : δ) (key : κ) (ms : μ)
    (ps : List (Params × Option MassMatrixT)) (ps' : List (Params × Option (MassMatrix (Fin (ravel x0).length))))
    (hps : SameCalls x0 ps ps') :
    ∃ cm t, prepareMass cT = .ok cm ∧
      runT (fricIntegrateT P nT fT cm steps getData sgT) (fricInitT initData x0 key ms) ps = .ok t ∧
      SameLeapfrog x0 t (ps'.foldl
        (fun s p => fricIntegrate P (layoutOf x0) n f c steps getData sg s p.1 p.2)
        (fricInit initData (fun i => (ravel x0)[i]) key ms)) := by
  obtain ⟨cm, c1, c2⟩ := resolveMassT_same cT c hc hx
  obtain ⟨t, t1, t2⟩ := foldlM_same (SameLeapfrog x0) _
    (fun s p => fricIntegrateT P nT fT cm steps getData sgT s p.1 p.2)
    (fun s p => fricIntegrate P (layoutOf x0) n f c steps getData sg s p.1 p.2)
    (by
      rintro s s' ⟨p, m⟩ ⟨p', m'⟩ hs ⟨hp, hm⟩
      dsimp only at hp hm
      subst hp
      exact fricIntegrateT_same h0 P hn fT f hf c cm c2 steps getData hsg p hm hs) hps
    (fricInitT initData x0 key ms) (fricInit initData (fun i => (ravel x0)[i]) key ms)
    ⟨entries_self h0, entries_self h0, rfl, rfl, rfl, rfl, rfl⟩
  exact ⟨cm, t, c1, t1, t2⟩

/-- **C109** (friction arrays).  An array which cannot be broadcast to a leaf of the sample raises `ValueError`. -/
theorem c109_friction_rejected (P : Prng κ) (nT : Option (NoiseFnT β μ)) (a : Arr ℝ) (cm m : Option MassMatrixT)
    (steps : ℕ) (getData : δ → δ × β) (sgT : StochGradT β μ) (s : LeapfrogStateT κ δ μ) (p : Params)
    (y : Arr ℝ) (hy : y ∈ s.positions.leaves)
    (hf : ¬ Arr.bcast a.shape.reverse y.shape.reverse = some y.shape.reverse) :
    fricIntegrateT P nT (.inr (.leaf a)) cm steps getData sgT s p m = .error .valueError := by
  have h : ∀ l : List (Arr ℝ), y ∈ l →
      mapExcept (fun y : Arr ℝ => Arr.broadcastTo y.shape a) l = .error .valueError := by
    intro l hl
    induction l with
    | nil => cases hl
    | cons x l ih =>
      simp only [mapExcept, Arr.broadcastTo]
      split_ifs with hx
      · rcases List.mem_cons.1 hl with rfl | hl
        · exact absurd hx hf
        · have := ih hl
          simp only [Arr.broadcastTo] at this
          simp only [this]
      · rfl
  simp only [fricIntegrateT, multiscalarFriction, h _ hy]
  rfl

/-- A friction array with two entries, used for a vector and for every row of a matrix. -/
example : SameFriction (.node .list [.leaf ⟨[2], [1, 2]⟩, .leaf ⟨[1, 2], [3, 4]⟩]) (.inr (.leaf ⟨[2], [5, 6]⟩))
    (.inr fun i => if i.val % 2 = 0 then 5 else 6) := by
  refine Or.inr ⟨⟨[2], [5, 6]⟩, .node .list [.leaf ⟨[2], [5, 6]⟩, .leaf ⟨[1, 2], [5, 6]⟩], rfl, ⟨?_, rfl, ?_⟩, ?_⟩
  · intro a ha
    simp only [Tree.leaves, Tree.leavesL, List.nil_append, List.cons_append, List.append_nil,
      List.mem_cons, List.not_mem_nil, or_false] at ha
    rcases ha with rfl | rfl <;> simp [Arr.Valid]
  · rfl
  · simp [Tree.leaves, Tree.leavesL, Arr.broadcastTo, Arr.bcast, Arr.broadcastData, Arr.bcastIndex, List.range_succ]

end

/-- The hypotheses are met by the nested sample, a constant mass of the same structure and a call with an adapted
full mass matrix. -/
example : SameConstMass treeSample (treeScale 2 treeSample) (some fun i => 2 * (ravel treeSample)[i]) ∧
    Container treeSample ∧
    SameMassOpt treeSample (some ⟨.full [[1, 0, 0], [0, 1, 0], [0, 0, 1]], .diagonal treeSample⟩)
      (some ⟨.full (1 : Matrix (Fin 3) (Fin 3) ℝ), .diag fun i => (ravel treeSample)[i]⟩) ∧
    SameStochGrad (β := Unit) (μ := Unit) treeSample (fun t _ m => ((((ravel t).map fun y => y ^ 2).sum, m), treeScale 2 t))
      (fun v _ m => ((((List.ofFn v).map fun y => y ^ 2).sum, m), vscale 2 v)) := by
  have hv : ValidTree treeSample := by
    intro a ha
    simp only [treeSample, Tree.leaves, Tree.leavesL, List.nil_append, List.cons_append, List.append_nil,
      List.mem_cons, List.not_mem_nil, or_false] at ha
    rcases ha with rfl | rfl <;> simp [Arr.Valid]
  refine ⟨(entries_self hv).scale 2, ⟨_, _, rfl⟩, ⟨?_, entries_self hv⟩, ?_⟩
  · show ([[1, 0, 0], [0, 1, 0], [0, 0, 1]] : List (List ℝ)) =
      List.ofFn fun i : Fin 3 => List.ofFn ((1 : Matrix (Fin 3) (Fin 3) ℝ) i)
    simp [List.ofFn_succ, Matrix.one_apply]
  · intro t v h b m
    exact ⟨by dsimp only; rw [h.2.2], h.scale 2⟩

/-! ## C110 -/

/-- **C110** in full: a constant mass with the structure and shapes of the sample is accepted and used. -/
def C110Statement : Prop :=
  ∀ (x0 : Tree (Arr ℝ)), ValidTree x0 → ∀ (cT : Tree (Arr ℝ)) (c : Fin (ravel x0).length → ℝ), Entries x0 cT c →
    (∀ i, 0 < c i) → ∃ cm, prepareMass cT = .ok cm ∧ ∀ p v, Entries x0 p v →
      SameMass x0 (resolveMassT none cm p) (initMass c)

/-- **C110 is false**: the sample is an array with two entries.  The constructor of the integrator evaluates the
truth value of the mass, which raises `ValueError`. -/
theorem c110_false : ¬ C110Statement := by
  intro h
  have hv : ValidTree (.leaf ⟨[2], [1, 1]⟩ : Tree (Arr ℝ)) := by
    intro a ha
    simp only [Tree.leaves, List.mem_cons, List.not_mem_nil, or_false] at ha
    subst ha
    simp [Arr.Valid]
  obtain ⟨cm, h1, -⟩ := h (.leaf ⟨[2], [1, 1]⟩) hv (.leaf ⟨[2], [1, 1]⟩) _ (entries_self hv) (by
    intro i
    have : (ravel (.leaf ⟨[2], [1, 1]⟩ : Tree (Arr ℝ))) = [1, 1] := rfl
    have hi : ∀ y ∈ ravel (.leaf ⟨[2], [1, 1]⟩ : Tree (Arr ℝ)), (0 : ℝ) < y := by
      rw [this]; simp
    exact hi _ (List.getElem_mem _))
  have e : prepareMass (.leaf ⟨[2], [1, 1]⟩) = .error .valueError := rfl
  rw [e] at h1
  cases h1

/-- Exactly the single arrays with several entries are rejected. -/
theorem c110_rejected (cT : Tree (Arr ℝ)) :
    prepareMass cT = .error .valueError ↔ ∃ s x y l, cT = .leaf ⟨s, x :: y :: l⟩ := by
  constructor
  · intro h
    cases cT with
    | none => cases h
    | node k ts => cases h
    | leaf a =>
      obtain ⟨s, d⟩ := a
      match d with
      | [] => cases h
      | [x] => cases h
      | x :: y :: l => exact ⟨s, x, y, l, rfl⟩
  · rintro ⟨s, x, y, l, rfl⟩
    rfl

/-- **C110** for samples which are containers, and for single arrays with at most one entry. -/
theorem c110_partial (x0 : Tree (Arr ℝ)) (cT : Tree (Arr ℝ)) (c : Fin (ravel x0).length → ℝ)
    (hc : Entries x0 cT c) (hpos : ∀ i, 0 < c i)
    (hx : Container x0 ∨ (ravel x0).length ≤ 1) :
    ∃ cm, prepareMass cT = .ok cm ∧ ∀ p v, Entries x0 p v → SameMass x0 (resolveMassT none cm p) (initMass c) := by
  rcases hx with hx | hx
  · obtain ⟨cm, h1, h2⟩ := resolveMassT_same cT (some c) hc (fun _ => hx)
    exact ⟨cm, h1, fun p v hp => h2 none none trivial p v hp⟩
  · cases cT with
    | none =>
      refine ⟨none, rfl, fun p v hp => ?_⟩
      have e : c = fun _ => 1 := by
        funext i
        have := hc.length
        have h0 : (ravel (.none : Tree (Arr ℝ))).length = 0 := rfl
        exact absurd i.2 (by omega)
      subst e
      exact initMassT_same (hp.map fun _ => 1)
    | node k ts =>
      have hk : Container x0 := by
        have := hc.2.1
        unfold SameShape at this
        cases x0 with
        | none => cases this
        | leaf a => cases this
        | node k ts => exact ⟨k, ts, rfl⟩
      obtain ⟨cm, h1, h2⟩ := resolveMassT_same (.node k ts) (some c) hc (fun _ => hk)
      exact ⟨cm, h1, fun p v hp => h2 none none trivial p v hp⟩
    | leaf a =>
      obtain ⟨s, d⟩ := a
      have hr : ravel (.leaf ⟨s, d⟩ : Tree (Arr ℝ)) = d := by simp [ravel, Tree.leaves]
      match d with
      | [] =>
        refine ⟨none, rfl, fun p v hp => ?_⟩
        have e : c = fun _ => 1 := by
          funext i
          have := hc.length
          rw [hr] at this
          exact absurd i.2 (by simp at this; omega)
        subst e
        exact initMassT_same (hp.map fun _ => 1)
      | [x] =>
        have hl := hc.length
        rw [hr] at hl
        have hx0 : x ≠ 0 := by
          have e := hc.2.2
          rw [hr] at e
          have hi : x ∈ List.ofFn c := by rw [← e]; simp
          obtain ⟨i, rfl⟩ := (List.mem_ofFn' _ _).1 hi
          exact (hpos i).ne'
        refine ⟨some (initMassT (.leaf ⟨s, [x]⟩)), ?_, fun p v hp => initMassT_same hc⟩
        simp only [prepareMass, treeTruth, except_ok_bind, except_pure, decide_eq_true hx0, if_true]
      | x :: y :: l =>
        have hl := hc.length
        rw [hr] at hl
        simp only [List.length_cons] at hl
        omega

/-- A sample in a dict and an array with one entry satisfy the hypothesis. -/
example : Container treeSample ∧ (ravel (.leaf ⟨[1], [3]⟩ : Tree (Arr ℝ))).length ≤ 1 :=
  ⟨⟨_, _, rfl⟩, by simp [ravel, Tree.leaves]⟩

end JaxSgmc
