import Verif.Model.FullSetup
import Verif.Props.MapperRelease

/-!
# C153: `full_data_mapper` and device data loaders; C154: argument checks of `full_reference_data`
-/

namespace JaxSgmc

open Spec

/-! ### C153 -/

/-- The full statement of C153: `full_data_mapper` accepts every data loader if the sizes are valid: data loaders
on the device (first part) and on the host (second part). -/
def C153Statement : Prop :=
  (∀ N cc mb : Nat, 1 ≤ cc → 1 ≤ mb → mb ≤ N → ∃ f, deviceMapperFormat N cc (some mb) = .ok f) ∧
  (∀ (σ ρ τ γ : Type) (R : Rng σ) (devices base : Nat) (objs : Nat → Loader σ ρ) (s : PSys (Loader σ ρ) (NB ρ))
    (l : Nat) (cc mb : Int), (∀ i, ∃ data, mkLoader data = .ok (objs i)) →
    PReachable (numpyHost R) devices objs s → 1 ≤ cc → 1 ≤ mb → mb ≤ (objs l).obsCount →
    ∃ m0 : Mapper (Loader σ ρ) (NB ρ) τ γ,
      mkMapper (numpyHost R) devices base .ordered s l cc mb = some m0)

/-- **C153 fails for every device data loader**: whatever the sizes, `full_data_mapper` raises, and for valid
sizes the exception is an `AttributeError` (the default offset is a Python integer without `dtype`). -/
theorem c153_false_device (N cc : Nat) (mb : Option Nat) :
    (∃ e, deviceMapperFormat N cc mb = .error e) ∧
    (∀ m, mb = some m → 1 ≤ cc → 1 ≤ m → m ≤ N → deviceMapperFormat N cc mb = .error .attributeError) := by
  cases mb with
  | none => exact ⟨⟨_, rfl⟩, by simp⟩
  | some m =>
    have h2 : ∀ m', some m = some m' → 1 ≤ cc → 1 ≤ m' → m' ≤ N →
        deviceMapperFormat N cc (some m) = .error .attributeError := by
      intro m' e h1 h2 h3
      rw [← Option.some.inj e] at h2 h3
      have hN : 0 < N := by omega
      simp [deviceMapperFormat, numIterations, fullBatchSize, deviceInit, deviceStateLeaves, stateFormat,
        leafFormat, Except.bind, show ¬ N < m by omega, show cc ≠ 0 by omega, show ¬ N = 0 by omega]
    refine ⟨?_, h2⟩
    simp only [deviceMapperFormat]
    split_ifs
    · exact ⟨_, rfl⟩
    · cases numIterations N (fullBatchSize .device cc m) with
      | error e => exact ⟨_, rfl⟩
      | ok _ =>
        cases deviceInit N 0 with
        | error e => exact ⟨_, rfl⟩
        | ok _ => exact ⟨_, rfl⟩

/-- **C153** is false. -/
theorem c153_false : ¬ C153Statement := by
  rintro ⟨h, -⟩
  obtain ⟨f, hf⟩ := h 3 1 1 (by omega) (by omega) (by omega)
  rw [(c153_false_device 3 1 (some 1)).2 1 rfl (by omega) (by omega) (by omega)] at hf
  cases hf

/-- **C153**, the part which holds: for numpy data loaders on the host a mapper is created in every reachable
state of the program if the sizes are valid, and the format of its data states can be computed.  (Missing: device
data loaders.) -/
theorem c153_partial {σ ρ τ γ : Type} (R : Rng σ) {devices base : Nat} {objs : Nat → Loader σ ρ}
    (hobjs : ∀ i, ∃ data, mkLoader data = .ok (objs i)) {s : PSys (Loader σ ρ) (NB ρ)}
    (hs : PReachable (numpyHost R) devices objs s) {l : Nat} {cc mb : Int} (hcc : 1 ≤ cc) (hmb : 1 ≤ mb)
    (hle : mb ≤ (objs l).obsCount) (fmt : List (String × List Nat)) :
    (∃ m0 : Mapper (Loader σ ρ) (NB ρ) τ γ,
      mkMapper (numpyHost R) devices base .ordered s l cc mb = some m0) ∧
    ∃ f, stateFormat (hostStateLeaves fmt cc.toNat mb.toNat) = .ok f := by
  refine ⟨?_, ?_⟩
  · have hs1 : PReachable (numpyHost R) devices objs
        (pstep (numpyHost R) devices s (.setup l cc mb true)).1 := reachable_step hs _
    have hN : (numpyHost R).obsCount (s.host.objs l) = (objs l).obsCount := (numpy_data_const R hs l).2
    have hset : pstep (numpyHost R) devices s (.setup l cc mb true) =
        ({ s with
          host := { s.host with next := s.host.next + 1, loaders := upd s.host.loaders s.host.next (some l) }
          cfgs := upd s.cfgs s.host.next (some ⟨l, cc.toNat, mb.toNat, true⟩) }, .ready s.host.next) := by
      simp only [pstep, setupFn, hN]
      rw [if_neg (by omega), if_neg (by omega)]
    rw [hset] at hs1
    obtain ⟨hdone, -⟩ := At.new (v := slotVar base 0) (cb := s.host.next)
      (cfg := ⟨l, cc.toNat, mb.toNat, true⟩) hobjs hs1 (by simp) (by show 0 < mb.toNat; omega) (by simp)
      (by show mb.toNat ≤ (objs l).obsCount; omega)
    simp only [mkMapper, hset, newSlot]
    cases hq : pstep (numpyHost R) devices
        ({ s with
          host := { s.host with next := s.host.next + 1, loaders := upd s.host.loaders s.host.next (some l) }
          cfgs := upd s.cfgs s.host.next (some ⟨l, cc.toNat, mb.toNat, true⟩) } :
          PSys (Loader σ ρ) (NB ρ)) (.init s.host.next .ordered (slotVar base 0)) with
    | mk s'' o =>
      rw [hq] at hdone
      dsimp only at hdone
      subst hdone
      exact ⟨_, rfl⟩
  · have key : ∀ ls : List StateLeaf, (∀ x ∈ ls, ∃ d sh, x = .array d sh) → ∃ f, stateFormat ls = .ok f := by
      intro ls
      induction ls with
      | nil => intro _; exact ⟨_, rfl⟩
      | cons x xs ih =>
        intro h
        obtain ⟨d, sh, rfl⟩ := h x (by simp)
        obtain ⟨f, hf⟩ := ih (fun y hy => h y (by simp [hy]))
        exact ⟨_, by simp only [stateFormat, leafFormat, hf, Except.bind]; rfl⟩
    apply key
    intro x hx
    simp only [hostStateLeaves, List.mem_cons, List.mem_append, List.mem_map, List.not_mem_nil, or_false] at hx
    rcases hx with rfl | ⟨f, -, rfl⟩ | rfl | rfl | rfl | rfl | rfl <;> exact ⟨_, _, rfl⟩

/-- The toy loader: a mapper of batches of two observations. -/
example : ∃ m0 : Mapper (Loader Nat Nat) (NB Nat) Nat Nat,
    mkMapper (numpyHost toyRng) 3 100 .ordered toyReady 1 2 2 = some m0 :=
  (c153_partial toyRng (objs := toyObjs) (hobjs := fun _ => ⟨toyData, rfl⟩) ⟨_, rfl⟩ (by omega) (by omega) (by decide)
    []).1

/-! ### C154 -/

section
variable {Λ κ μ : Type} {H : HostLoader Λ κ μ}

/-- The full statement of C154: sizes with which a dataset cannot be mapped (no batch size, empty batches, more
observations per batch than there are, an empty cache) are rejected with `ValueError`, and nothing is
registered. -/
def C154Statement (H : HostLoader Λ κ μ) : Prop :=
  ∀ (s : PSys Λ μ) (l cc : Nat) (mb : Option Nat),
    (∀ m, mb = some m → m = 0 ∨ H.obsCount (s.host.objs l) < m ∨ cc = 0) →
    fullSetupFn H s l cc mb = (s, .raised .valueError)

/-- **C154 fails for the default batch size**: `full_reference_data` without `mb_size` raises `TypeError`. -/
theorem c154_false_default (s : PSys Λ μ) (l cc : Nat) :
    fullSetupFn H s l cc none = (s, .raised .typeError) := rfl

/-- **C154 fails for empty batches**: `ZeroDivisionError`, after the data loader has been registered under a new
callback for which no `release` function has been returned: it stays registered whatever happens later, unless
that callback is released. -/
theorem c154_false_zero (s : PSys Λ μ) (l cc : Nat) :
    ∃ s', fullSetupFn H s l cc (some 0) = (s', .raised .zeroDivisionError) ∧
      s'.cfgs = s.cfgs ∧
      ∀ devices (ops : List (POp κ)), (∀ op ∈ ops, op ≠ .release s.host.next) →
        (prun H devices s' ops).1.host.loaders s.host.next = some l := by
  refine ⟨_, rfl, rfl, ?_⟩
  intro devices ops hops
  have gen : ∀ (ops : List (POp κ)) (s1 : PSys Λ μ) (cb : Nat), cb < s1.host.next →
      s1.host.loaders cb = some l → (∀ op ∈ ops, op ≠ .release cb) →
      (prun H devices s1 ops).1.host.loaders cb = some l := by
    intro ops
    induction ops with
    | nil => intro s1 cb _ h _; exact h
    | cons op ops ih =>
      intro s1 cb hcb h hops
      obtain ⟨h1, -, h3⟩ := pstep_registry (H := H) devices s1 op cb hcb
      refine ih _ cb (lt_of_lt_of_le hcb h1) ?_ (fun o ho => hops o (by simp [ho]))
      rw [h3 (by rintro c rfl e; subst e; exact hops (.release c) (by simp) rfl)]
      exact h
  exact gen ops _ s.host.next (by simp) (by simp [upd]) hops

/-- **C154 fails for empty caches**: they are accepted. -/
theorem c154_false_cache (s : PSys Λ μ) (l m : Nat) (hm : 1 ≤ m) (hle : m ≤ H.obsCount (s.host.objs l)) :
    ∃ s' cb, fullSetupFn H s l 0 (some m) = (s', .ready cb) := by
  simp only [fullSetupFn, numIterations]
  rw [if_neg (by omega), if_neg (by omega)]
  exact ⟨_, _, rfl⟩

/-- **C154** is false for every host data loader and every state of the program. -/
theorem c154_false (s : PSys Λ μ) : ¬ C154Statement H := by
  intro h
  have := h s 0 1 none (by simp)
  rw [c154_false_default] at this
  simp at this

/-- **C154**, the part which holds: too large batches are rejected with `ValueError` and nothing is registered;
for valid sizes the outcome is that of `random_reference_data` with verified calls (`setup` of C10–C24), so that
the properties of full data maps apply.  (Missing: `None`, empty batches and empty caches.) -/
theorem c154_partial (devices : Nat) (s : PSys Λ μ) (l cc m : Nat) :
    (H.obsCount (s.host.objs l) < m → fullSetupFn H s l cc (some m) = (s, .raised .valueError)) ∧
    (1 ≤ m → m ≤ H.obsCount (s.host.objs l) → 1 ≤ cc →
      fullSetupFn H s l cc (some m) = pstep H devices s (.setup l cc m true) ∧
      ∃ s', fullSetupFn H s l cc (some m) = (s', .ready s.host.next)) := by
  refine ⟨?_, ?_⟩
  · intro h
    simp [fullSetupFn, h]
  · intro h1 h2 h3
    have e : fullSetupFn H s l cc (some m) =
        ({ s with
          host := { s.host with next := s.host.next + 1, loaders := upd s.host.loaders s.host.next (some l) }
          cfgs := upd s.cfgs s.host.next (some ⟨l, cc, m, true⟩) }, .ready s.host.next) := by
      simp only [fullSetupFn, numIterations]
      rw [if_neg (by omega), if_neg (by omega)]
    refine ⟨?_, _, e⟩
    rw [e]
    simp only [pstep, setupFn]
    rw [if_neg (by omega), if_neg (by omega)]
    simp

/-- With the toy loader of five observations. -/
example : (numpyHost toyRng).obsCount (toyReady.host.objs 1) = 5 ∧
    (fullSetupFn (numpyHost toyRng) toyReady 1 1 (some 0)).2 = .raised .zeroDivisionError ∧
    (fullSetupFn (numpyHost toyRng) toyReady 1 1 (some 6)).2 = .raised .valueError ∧
    (fullSetupFn (numpyHost toyRng) toyReady 1 1 (some 2)).2 = .ready 1 := by
  exact ⟨rfl, rfl, rfl, rfl⟩

end

end JaxSgmc
