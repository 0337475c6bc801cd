import Verif.Lemmas.Oracle

/-!
# Lemmas: chains driven by independent random numbers
-/

namespace JaxSgmc

open MeasureTheory ProbabilityTheory

variable {ι κ δ β Ω S Acc E Q : Type}

/-- A chain with transitions `next`, driven by `V n, V (n + 1), …`, and a statistic accumulated over the visited
states. -/
def drive (next : Q → E → S → S) (acc : Acc → S → Acc) : List Q → ℕ → (ℕ → E) → Acc × S → Acc × S
  | [], _, _, h => h
  | p :: ps, n, V, h => drive next acc ps (n + 1) V (acc h.1 (next p (V n) h.2), next p (V n) h.2)

/-- The expectation of a function of the statistic if the chain is driven by independent numbers with law `lam`. -/
noncomputable def drivePath [MeasurableSpace E] (next : Q → E → S → S) (acc : Acc → S → Acc) (lam : Measure E)
    (F : Acc → ENNReal) : List Q → Acc × S → ENNReal
  | [], h => F h.1
  | p :: ps, h => ∫⁻ v, drivePath next acc lam F ps (acc h.1 (next p v h.2), next p v h.2) ∂lam

section
variable [MeasurableSpace E] [MeasurableSpace S] [MeasurableSpace Acc] {next : Q → E → S → S}
  {acc : Acc → S → Acc} (hacc : Measurable fun q : Acc × S => acc q.1 q.2)

include hacc in
theorem driveStep_measurable {p : Q} (hnext : Measurable fun q : E × S => next p q.1 q.2) :
    Measurable fun q : (Acc × S) × E => (acc q.1.1 (next p q.2 q.1.2), next p q.2 q.1.2) := by
  have h1 : Measurable fun q : (Acc × S) × E => next p q.2 q.1.2 :=
    hnext.comp (by fun_prop : Measurable fun q : (Acc × S) × E => (q.2, q.1.2))
  exact (hacc.comp ((measurable_fst.comp measurable_fst).prodMk h1)).prodMk h1

include hacc in
theorem drivePath_measurable {lam : Measure E} [SFinite lam] {F : Acc → ENNReal} (hF : Measurable F)
    (prms : List Q) (hnext : ∀ p ∈ prms, Measurable fun q : E × S => next p q.1 q.2) :
    Measurable (drivePath next acc lam F prms) := by
  induction prms with
  | nil => exact hF.comp measurable_fst
  | cons p ps ih =>
    have h1 := ih fun q hq => hnext q (List.mem_cons_of_mem _ hq)
    exact Measurable.lintegral_prod_right' (ν := lam)
      (h1.comp (driveStep_measurable hacc (hnext p List.mem_cons_self)))

theorem drivePath_mono {lam : Measure E} {F F' : Acc → ENNReal} (h : ∀ a, F a ≤ F' a) (prms : List Q) :
    ∀ q, drivePath next acc lam F prms q ≤ drivePath next acc lam F' prms q := by
  induction prms with
  | nil => intro q; exact h _
  | cons p ps ih => intro q; exact lintegral_mono fun v => ih _

end

section
variable [Fintype ι] [MeasurableSpace Ω] [MeasurableSpace β] {prob : Measure Ω} [IsProbabilityMeasure prob]
  {P : Ω → Prng κ} {data : Ω → δ → δ × β} {d₀ : δ} {L : ℕ} {w : (Fin L → β) → ENNReal} {sp : κ → ℕ → ℕ → κ}
  (hR : Spec.IdealRandom prob P data d₀ L w sp) {lay : Layout ι} (hlay : Spec.Layout.Valid lay) (key : κ)
  [Countable β] [MeasurableSingletonClass β]

include hR hlay key in
theorem innovLaw_prob : IsProbabilityMeasure (innovLaw ι L w) := by
  rw [← runInnov_law hR hlay key 0]
  have hm := (runInnov_measurable (P := P) (data := data) (d₀ := d₀) (L := L) (sp := sp) (key := key) (n := 0)
    (T := Set.univ) (T' := Set.univ) hlay (fun _ _ => Set.mem_univ _) (Set.mem_univ _)).mono (known_le hR _) le_rfl
  exact Measure.isProbabilityMeasure_map hm.aemeasurable

/-- The keys used before update `n`. -/
def pastKeys (lay : Layout ι) (sp : κ → ℕ → ℕ → κ) (key : κ) (L n : ℕ) : Set (κ ⊕ ℕ) :=
  usedKeys lay sp key (Set.Iio (1 + n * L)) (Set.Iio n)

include hR hlay in
/-- The numbers of update `n` are independent of what happened before. -/
theorem past_indep {α : Type} [MeasurableSpace α] {n : ℕ} {H : Ω → α}
    (hH : Measurable[known P data d₀ L (pastKeys lay sp key L n)] H) {Φ : α × ((Fin L → β) × (Fin L × ι → ℝ) × ℝ) → ENNReal}
    (hΦ : Measurable Φ) :
    ∫⁻ ω, Φ (H ω, runInnov lay sp key d₀ L n (P ω) (data ω)) ∂prob =
      ∫⁻ ω, ∫⁻ v, Φ (H ω, v) ∂innovLaw ι L w ∂prob := by
  have hs := splitPrng_ideal hR
  have hlaw := runInnov_law hR hlay key n
  have := innovLaw_prob hR hlay key
  have hV := runInnov_measurable (P := P) (data := data) (d₀ := d₀) (L := L) (sp := sp) (key := key) (n := n)
    (T := Set.Ici (1 + n * L)) (T' := Set.Ici n) hlay (fun _ _ => Nat.le_add_right _ _) (Set.self_mem_Ici)
  have hdis : Disjoint (pastKeys lay sp key L n) (usedKeys lay sp key (Set.Ici (1 + n * L)) (Set.Ici n)) :=
    usedKeys_disjoint hs (Set.Iio_disjoint_Ici le_rfl) (Set.Iio_disjoint_Ici le_rfl)
  have hi := known_indepFun hR hdis hH hV
  have mH := hH.mono (known_le hR _) le_rfl
  have mV := hV.mono (known_le hR _) le_rfl
  have e := hi.map_prod_eq_prod_map_map mH.aemeasurable mV.aemeasurable
  rw [hlaw] at e
  have h1 : ∫⁻ ω, Φ (H ω, runInnov lay sp key d₀ L n (P ω) (data ω)) ∂prob =
      ∫⁻ q, Φ q ∂prob.map (fun ω => (H ω, runInnov lay sp key d₀ L n (P ω) (data ω))) :=
    (lintegral_map hΦ (mH.prodMk mV)).symm
  have hpm : IsProbabilityMeasure (prob.map H) := Measure.isProbabilityMeasure_map mH.aemeasurable
  rw [h1, e, lintegral_prod _ hΦ.aemeasurable, lintegral_map hΦ.lintegral_prod_right' mH]

include hR hlay in
/-- The distribution of a statistic over a chain which is driven by the numbers of a run. -/
theorem drive_law [MeasurableSpace S] [MeasurableSpace Acc]
    {next : Q → ((Fin L → β) × (Fin L × ι → ℝ) × ℝ) → S → S} {acc : Acc → S → Acc}
    (hacc : Measurable fun q : Acc × S => acc q.1 q.2) {F : Acc → ENNReal} (hF : Measurable F) (prms : List Q) :
    ∀ (_ : ∀ p ∈ prms, Measurable fun q : ((Fin L → β) × (Fin L × ι → ℝ) × ℝ) × S => next p q.1 q.2)
      (n : ℕ) (H : Ω → Acc × S), Measurable[known P data d₀ L (pastKeys lay sp key L n)] H →
      ∫⁻ ω, F (drive next acc prms n (fun m => runInnov lay sp key d₀ L m (P ω) (data ω)) (H ω)).1 ∂prob =
        ∫⁻ ω, drivePath next acc (innovLaw ι L w) F prms (H ω) ∂prob := by
  have := innovLaw_prob hR hlay key
  induction prms with
  | nil => intro _ n H _; rfl
  | cons p ps ih =>
    intro hnext n H hH
    have hn' : ∀ q ∈ ps, Measurable fun r : ((Fin L → β) × (Fin L × ι → ℝ) × ℝ) × S => next q r.1 r.2 :=
      fun q hq => hnext q (List.mem_cons_of_mem _ hq)
    have hst := driveStep_measurable hacc (hnext p List.mem_cons_self)
    have hsub : pastKeys lay sp key L n ⊆ pastKeys lay sp key L (n + 1) := by
      refine usedKeys_mono (Set.Iio_subset_Iio ?_) (Set.Iio_subset_Iio (Nat.le_succ n))
      rw [Nat.add_mul]; omega
    have hV := runInnov_measurable (P := P) (data := data) (d₀ := d₀) (L := L) (sp := sp) (key := key) (n := n)
      (T := Set.Iio (1 + (n + 1) * L)) (T' := Set.Iio (n + 1)) hlay
      (fun j hj => by rw [Set.mem_Iio, Nat.add_mul]; omega) (Set.mem_Iio.2 (Nat.lt_succ_self n))
    have hH' := hH.mono (known_mono hsub) le_rfl
    have hnew := hst.comp (hH'.prodMk hV)
    refine (ih hn' (n + 1) _ hnew).trans ?_
    exact past_indep hR hlay key hH (Φ := fun q => drivePath next acc (innovLaw ι L w) F ps
      (acc q.1.1 (next p q.2 q.1.2), next p q.2 q.1.2)) ((drivePath_measurable hacc hF ps hn').comp hst)

omit [IsProbabilityMeasure prob] [Countable β] [MeasurableSingletonClass β] in
include hR hlay in
/-- The statistic is a random variable. -/
theorem drive_measurable [MeasurableSpace S] [MeasurableSpace Acc]
    {next : Q → ((Fin L → β) × (Fin L × ι → ℝ) × ℝ) → S → S} {acc : Acc → S → Acc}
    (hacc : Measurable fun q : Acc × S => acc q.1 q.2) (prms : List Q) :
    ∀ (_ : ∀ p ∈ prms, Measurable fun q : ((Fin L → β) × (Fin L × ι → ℝ) × ℝ) × S => next p q.1 q.2)
      (n : ℕ) (H : Ω → Acc × S), Measurable H →
      Measurable fun ω => drive next acc prms n (fun m => runInnov lay sp key d₀ L m (P ω) (data ω)) (H ω) := by
  induction prms with
  | nil => intro _ n H hH; exact hH
  | cons p ps ih =>
    intro hnext n H hH
    have hst := driveStep_measurable hacc (hnext p List.mem_cons_self)
    have hV := (runInnov_measurable (P := P) (data := data) (d₀ := d₀) (L := L) (sp := sp) (key := key) (n := n)
      (T := Set.univ) (T' := Set.univ) hlay (fun _ _ => Set.mem_univ _) (Set.mem_univ _)).mono (known_le hR _) le_rfl
    exact ih (fun q hq => hnext q (List.mem_cons_of_mem _ hq)) (n + 1) _ (hst.comp (hH.prodMk hV))

omit [IsProbabilityMeasure prob] [Countable β] [MeasurableSingletonClass β] in
include hlay in
/-- The statistic depends only on the numbers drawn so far. -/
theorem drive_known [MeasurableSpace S] [MeasurableSpace Acc]
    {next : Q → ((Fin L → β) × (Fin L × ι → ℝ) × ℝ) → S → S} {acc : Acc → S → Acc}
    (hacc : Measurable fun q : Acc × S => acc q.1 q.2) (prms : List Q) :
    ∀ (_ : ∀ p ∈ prms, Measurable fun q : ((Fin L → β) × (Fin L × ι → ℝ) × ℝ) × S => next p q.1 q.2)
      (n : ℕ) (H : Ω → Acc × S), Measurable[known P data d₀ L (pastKeys lay sp key L n)] H →
      Measurable[known P data d₀ L (pastKeys lay sp key L (n + prms.length))] fun ω =>
        drive next acc prms n (fun m => runInnov lay sp key d₀ L m (P ω) (data ω)) (H ω) := by
  induction prms with
  | nil => intro _ n H hH; exact hH
  | cons p ps ih =>
    intro hnext n H hH
    have hst := driveStep_measurable hacc (hnext p List.mem_cons_self)
    have hsub : pastKeys lay sp key L n ⊆ pastKeys lay sp key L (n + 1) := by
      refine usedKeys_mono (Set.Iio_subset_Iio ?_) (Set.Iio_subset_Iio (Nat.le_succ n))
      rw [Nat.add_mul]; omega
    have hV := runInnov_measurable (P := P) (data := data) (d₀ := d₀) (L := L) (sp := sp) (key := key) (n := n)
      (T := Set.Iio (1 + (n + 1) * L)) (T' := Set.Iio (n + 1)) hlay
      (fun j hj => by rw [Set.mem_Iio, Nat.add_mul]; omega) (Set.mem_Iio.2 (Nat.lt_succ_self n))
    have hH' := hH.mono (known_mono hsub) le_rfl
    have := ih (fun q hq => hnext q (List.mem_cons_of_mem _ hq)) (n + 1) _ (hst.comp (hH'.prodMk hV))
    rw [List.length_cons, show n + (ps.length + 1) = n + 1 + ps.length by omega]
    exact this

theorem drive_append (next : Q → E → S → S) (acc : Acc → S → Acc) (V : ℕ → E) (l l' : List Q) :
    ∀ (n : ℕ) (h : Acc × S), drive next acc (l ++ l') n V h =
      drive next acc l' (n + l.length) V (drive next acc l n V h) := by
  induction l with
  | nil => intro n h; rfl
  | cons p l ih =>
    intro n h
    rw [List.cons_append, drive, ih, List.length_cons, drive, show n + (l.length + 1) = n + 1 + l.length by omega]

end

end JaxSgmc
