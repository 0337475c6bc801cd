import Verif.Spec.DeviceLoader
import Verif.Spec.ToyRng
import Verif.Lemmas.NumpySys
import Verif.Props.Keys

/-!
# Random data on the device: C96, C97
-/

namespace JaxSgmc

variable {κ ρ : Type}

theorem indexAll_spec (data : List (String × List ρ)) (N : Nat) (hwf : DataWF data N) (idx : List Nat)
    (h : ∀ i ∈ idx, i < N) :
    ∃ obs, indexAll idx data = .ok obs ∧ obs.map (·.1) = data.map (·.1) ∧
      ∀ name d, data.lookup name = some d → ∃ r, obs.lookup name = some r ∧ Spec.RowsOf d idx r := by
  induction data with
  | nil => exact ⟨[], rfl, rfl, by simp⟩
  | cons x xs ih =>
    obtain ⟨n, d⟩ := x
    have hd : d.length = N := hwf (n, d) List.mem_cons_self
    obtain ⟨r, hr⟩ := npTake_ok d idx (by rw [hd]; exact h)
    obtain ⟨obs, o1, o2, o3⟩ := ih (fun y hy => hwf y (List.mem_cons_of_mem _ hy))
    refine ⟨(n, r) :: obs, by simp [indexAll, hr, o1], by simp [o2], ?_⟩
    intro name d' hl
    rw [List.lookup_cons] at hl ⊢
    cases hb : name == n with
    | true => simp [hb] at hl ⊢; subst hl; exact npTake_spec d idx r hr
    | false => simp [hb] at hl ⊢; exact o3 name d' hl

theorem deviceRandomGet_spec (P : Prng κ) {I : Randint κ} (hI : I.Lawful) (data : List (String × List ρ))
    (N mb : Nat) (hwf : DataWF data N) (hN : 0 < N) (s : κ) :
    ∃ b, (deviceRandomGet P I data N mb s).2.2 = .ok b ∧ Spec.IsRandomBatch data N mb b := by
  obtain ⟨obs, o1, o2, o3⟩ := indexAll_spec data N hwf (I.randint (P.split s 2 1) mb N)
    (fun i hi => hI.lt _ _ _ i hN hi)
  refine ⟨⟨obs, N, mb, List.replicate mb true⟩, ?_, ⟨o2, ⟨_, hI.length _ _ _ hN, ?_, o3⟩, ?_, rfl, rfl⟩⟩
  · simp only [deviceRandomGet, o1, Except.map]
  · exact fun i hi => hI.lt _ _ _ i hN hi
  · exact ⟨List.length_replicate, fun m hm => (List.mem_replicate.mp hm).2⟩

/-- **C96** Every call of `batch_fn` returns a mini-batch of the requested size with valid observations, and
the requested number of batches is returned. -/
theorem c96_batches (P : Prng κ) {I : Randint κ} (hI : I.Lawful) (key0 : κ) {data : List (String × List ρ)}
    {L : Loader Unit ρ} (hL : mkLoader data = .ok L) (hN : 0 < L.obsCount) (mb n : Nat) (key : Option κ) :
    (deviceChain P I key0 data L.obsCount mb n key).length = n ∧
    ∀ r ∈ deviceChain P I key0 data L.obsCount mb n key,
      ∃ b, r.2 = .ok b ∧ Spec.IsRandomBatch data L.obsCount mb b := by
  have hwf := (mkLoader_spec data L hL).2.1
  suffices H : ∀ (n : Nat) (s : κ), (deviceDraws P I data L.obsCount mb n s).length = n ∧
      ∀ r ∈ deviceDraws P I data L.obsCount mb n s,
        ∃ b, r.2 = .ok b ∧ Spec.IsRandomBatch data L.obsCount mb b from H n _
  intro n
  induction n with
  | zero => intro s; exact ⟨rfl, by simp [deviceDraws]⟩
  | succ n ih =>
    intro s
    obtain ⟨h1, h2⟩ := ih (deviceRandomGet P I data L.obsCount mb s).1
    refine ⟨by simp [deviceDraws, h1], ?_⟩
    intro r hr
    simp only [deviceDraws, List.mem_cons] at hr
    rcases hr with rfl | hr
    · exact deviceRandomGet_spec P hI data _ mb hwf hN s
    · exact h2 r hr

/-- **C96** The indices of a batch are those drawn with its own key: a batch does not depend on the batches
drawn before it except through the key. -/
theorem c96_own_key (P : Prng κ) {I : Randint κ} (hI : I.Lawful) (key0 : κ) {data : List (String × List ρ)}
    {L : Loader Unit ρ} (hL : mkLoader data = .ok L) (hN : 0 < L.obsCount) (mb n : Nat) (key : Option κ) :
    ∀ r ∈ deviceChain P I key0 data L.obsCount mb n key, ∀ name d, data.lookup name = some d →
      ∃ b rows, r.2 = .ok b ∧ b.obs.lookup name = some rows ∧
        Spec.RowsOf d (I.randint r.1 mb L.obsCount) rows := by
  have hwf := (mkLoader_spec data L hL).2.1
  suffices H : ∀ (n : Nat) (s : κ), ∀ r ∈ deviceDraws P I data L.obsCount mb n s,
      ∀ name d, data.lookup name = some d →
      ∃ b rows, r.2 = .ok b ∧ b.obs.lookup name = some rows ∧
        Spec.RowsOf d (I.randint r.1 mb L.obsCount) rows from H n _
  intro n
  induction n with
  | zero => intro s; simp [deviceDraws]
  | succ n ih =>
    intro s r hr name d hd
    simp only [deviceDraws, List.mem_cons] at hr
    rcases hr with rfl | hr
    · obtain ⟨obs, o1, o2, o3⟩ := indexAll_spec data L.obsCount hwf (I.randint (P.split s 2 1) mb L.obsCount)
        (fun i hi => hI.lt _ _ _ i hN hi)
      obtain ⟨rows, r1, r2⟩ := o3 name d hd
      refine ⟨⟨obs, L.obsCount, mb, List.replicate mb true⟩, rows, ?_, r1, r2⟩
      simp only [deviceRandomGet, o1, Except.map]
    · exact ih _ r hr name d hd

theorem deviceDraws_keys (P : Prng κ) (I : Randint κ) (data : List (String × List ρ)) (N mb : Nat) :
    ∀ (n : Nat) (s : κ), (deviceDraws P I data N mb n s).map Prod.fst =
      (List.range n).map fun i => P.split ((fun k => P.split k 2 0)^[i] s) 2 1 := by
  intro n
  induction n with
  | zero => intro s; rfl
  | succ n ih =>
    intro s
    rw [deviceDraws, List.map_cons, ih, List.range_succ_eq_map, List.map_cons, List.map_map]
    rfl

theorem deviceDraws_append (P : Prng κ) (I : Randint κ) (data : List (String × List ρ)) (N mb : Nat) :
    ∀ (n m : Nat) (s : κ), deviceDraws P I data N mb (n + m) s =
      deviceDraws P I data N mb n s ++ deviceDraws P I data N mb m ((fun k => P.split k 2 0)^[n] s) := by
  intro n
  induction n with
  | zero => intro m s; simp [deviceDraws]
  | succ n ih =>
    intro m s
    rw [Nat.succ_add, deviceDraws, ih, deviceDraws, Function.iterate_succ_apply]
    rfl

/-- **C96** A chain which is stopped after `n` batches and continued with its state (a key) later delivers the
batches it would have delivered without the interruption. -/
theorem c96_resume (P : Prng κ) (I : Randint κ) (key0 : κ) (data : List (String × List ρ)) (N mb n : Nat)
    (key : Option κ) : ∃ state : κ, ∀ m,
      deviceChain P I key0 data N mb (n + m) key =
        deviceChain P I key0 data N mb n key ++ deviceChain P I key0 data N mb m (some state) :=
  ⟨_, fun m => deviceDraws_append P I data N mb n m _⟩

/-- Non-vacuity of `c96_batches` and `c96_own_key`: three batches of two observations. -/
example : ∃ L : Loader Unit Nat, mkLoader Spec.toyData = .ok L ∧ 0 < L.obsCount ∧
      (deviceChain (Spec.pathPrng (fun _ _ _ => 0) (fun _ => 0)) Spec.toyRandint [] Spec.toyData L.obsCount 2 3
        (some [3])).map (fun r => r.2.toOption.map (·.obs)) =
      [some [("x", [11, 12]), ("y", [21, 22])], some [("x", [12, 13]), ("y", [22, 23])],
        some [("x", [13, 14]), ("y", [23, 24])]] :=
  ⟨⟨Spec.toyData, 5, []⟩, rfl, by decide, by decide +kernel⟩

/-! ### C97 -/

/-- **C97** (full statement) Different chains use different keys for drawing their mini-batches, whether or not
the user passes keys: chains with keys which are missing or independent. -/
def C97Statement : Prop :=
  ∀ (κ ρ : Type) (P : Prng κ) (I : Randint κ) (key0 : κ) (data : List (String × List ρ)) (N mb n m : Nat)
    (k k' : Option κ), Spec.IdealSplit P → I.Lawful →
    (∀ a ∈ k, ∀ b ∈ k', Spec.Independent P a b) →
    ∀ r ∈ deviceChain P I key0 data N mb n k, ∀ r' ∈ deviceChain P I key0 data N mb m k', r.1 ≠ r'.1

/-- **C97** is false: all chains initialised without a key draw the same sequence of mini-batches
(`PRNGKey(0)` is the default). -/
theorem c97_false_default_key (P : Prng κ) (I : Randint κ) (key0 : κ) (data : List (String × List ρ))
    (N mb n : Nat) :
    deviceChain P I key0 data N mb n none = deviceChain P I key0 data N mb n (some key0) := rfl

theorem c97_false : ¬ C97Statement := by
  intro h
  have := h (List ℕ) Nat (Spec.pathPrng (fun _ _ _ => 0) (fun _ => 0)) Spec.toyRandint [] Spec.toyData 5 2 1 1
    none none (Spec.pathPrng_ideal _ _) Spec.toyRandint_lawful (by simp)
  simp [deviceChain, deviceDraws] at this

theorem derived_iterate (P : Prng κ) (s : κ) : ∀ i, Spec.Derived P s ((fun k => P.split k 2 0)^[i] s) := by
  intro i
  induction i with
  | zero => exact .refl
  | succ i ih =>
    rw [Function.iterate_succ_apply']
    exact .tail ih ⟨2, 0, by norm_num, rfl⟩

theorem derived_draw (P : Prng κ) (s : κ) (i : ℕ) :
    Spec.Derived P s (P.split ((fun k => P.split k 2 0)^[i] s) 2 1) :=
  .tail (derived_iterate P s i) ⟨2, 1, by norm_num, rfl⟩

/-- **C97** (partial) For an ideal generator the mini-batches of one chain are drawn with pairwise different
keys, and chains with independent keys share no key.  Missing: chains without an explicit key. -/
theorem c97_partial {P : Prng κ} (hP : Spec.IdealSplit P) (I : Randint κ) (key0 : κ)
    (data : List (String × List ρ)) (N mb n m : Nat) (k k' : κ) :
    ((deviceChain P I key0 data N mb n (some k)).map Prod.fst).Nodup ∧
    (Spec.Independent P k k' → ∀ r ∈ deviceChain P I key0 data N mb n (some k),
      ∀ r' ∈ deviceChain P I key0 data N mb m (some k'), r.1 ≠ r'.1) := by
  constructor
  · have : ∀ i j s, i < j → P.split ((fun k => P.split k 2 0)^[i] s) 2 1 ≠
        P.split ((fun k => P.split k 2 0)^[j] s) 2 1 := by
      intro i j s hij heq
      obtain ⟨d, rfl⟩ : ∃ d, j = d + 1 + i := ⟨j - i - 1, by omega⟩
      set t := (fun k => P.split k 2 0)^[i] s with ht
      rw [Function.iterate_add_apply, ← ht, Function.iterate_succ_apply] at heq
      refine hP t 2 1 0 (by norm_num) (by norm_num) (by norm_num) (P.split t 2 1) ⟨.refl, ?_⟩
      rw [heq]
      exact derived_draw P _ d
    show ((deviceDraws P I data N mb n k).map Prod.fst).Nodup
    rw [deviceDraws_keys]
    refine List.Nodup.map_on ?_ List.nodup_range
    intro i _ j _ hEq
    rcases Nat.lt_trichotomy i j with h | h | h
    · exact absurd hEq (this i j k h)
    · exact h
    · exact absurd hEq.symm (this j i k h)
  · intro hind r hr r' hr' hEq
    have mem : ∀ (n : Nat) (k : κ), ∀ r ∈ deviceDraws P I data N mb n k, Spec.Derived P k r.1 := by
      intro n k r hr
      have : r.1 ∈ (deviceDraws P I data N mb n k).map Prod.fst := List.mem_map_of_mem hr
      rw [deviceDraws_keys] at this
      obtain ⟨i, _, hi⟩ := List.mem_map.mp this
      rw [← hi]
      exact derived_draw P k i
    exact hind r.1 ⟨mem n k r hr, by rw [hEq]; exact mem m k' r' hr'⟩

/-- Independent keys exist: two keys split from one key. -/
example (normal : List ℕ → ℕ → ℕ → ℝ) (uniform : List ℕ → ℝ) :
    Spec.Independent (Spec.pathPrng normal uniform) [0] [1] :=
  Spec.pathPrng_ideal normal uniform [] 2 0 1 (by norm_num) (by norm_num) (by norm_num)

end JaxSgmc
