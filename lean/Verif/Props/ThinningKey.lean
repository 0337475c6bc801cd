import Verif.Props.Keys
import Verif.Model.AliasRun

/-!
# C162: the key of the random thinning
-/

namespace JaxSgmc

open Spec

variable {ι κ δ β μ A φ Ms : Type} [Fintype ι]

/-- The thinning of the alias solvers draws with the key which is passed as initial key of the chains too (`key0` in
`runSgld` and the other functions of `Model/AliasRun`), and with no other key. -/
theorem c162_key_partial (gumbel gumbel' : κ → Nat → ℝ) (key0 : κ) (first last : ℝ) (burnIn accepted its : Nat)
    (bar : Bool) (h : gumbel key0 = gumbel' key0) :
    (aliasThinned gumbel key0 first last burnIn accepted bar).thinning.init its default =
      (aliasThinned gumbel' key0 first last burnIn accepted bar).thinning.init its default := by
  have hk : ((default : ThinKw κ).key.getD key0) = key0 := rfl
  simp only [aliasThinned, randomThinning, choiceNoReplace, hk, h]

/-- The full statement of C162: the key of the thinning and the keys with which a chain draws its noise are
independent. -/
def C162Statement : Prop :=
  ∀ {κ : Type} (P : Prng κ), IdealSplit P → ∀ (lay : Layout (Fin 1)) (getData : Unit → Unit × Unit)
    (sg : StochGradLik (Fin 1) Unit Unit) (x : Fin 1 → ℝ) (key0 : κ) (ps : List Params),
    ∀ k ∈ (langevinRun P lay (none : Option (AdaptStrategy (Fin 1) Unit Unit)) getData sg
      (langevinInit () x key0 none ()) ps).drawn, Independent P key0 k

/-- A key is not independent of a key derived from it. -/
theorem derived_not_independent {P : Prng κ} {a b : κ} (h : Derived P a b) : ¬ Independent P a b :=
  fun hi => hi b ⟨h, .refl⟩

/-- C162 is false of the code: every key of a chain is derived from the key of the thinning. -/
theorem c162_false : ¬ C162Statement := by
  intro h
  let P := pathPrng (fun _ _ _ => 0) (fun _ => 0)
  have hP : IdealSplit P := pathPrng_ideal _ _
  let lay : Layout (Fin 1) := ⟨1, fun _ => 0, fun _ => 1, fun _ => 0⟩
  let s := langevinRun P lay (none : Option (AdaptStrategy (Fin 1) Unit Unit)) (fun d => (d, ()))
    (fun _ _ m => ((0, ([], m)), fun _ => 0)) (langevinInit () (fun _ => 0) [] none ()) [⟨1, 1⟩]
  obtain ⟨-, h2, h3⟩ := c74_langevin hP lay (none : Option (AdaptStrategy (Fin 1) Unit Unit)) (fun d => (d, ()))
    (fun _ _ m => ((0, ([], m)), fun _ => 0)) () (fun _ => 0) [] none () [⟨1, 1⟩]
  obtain ⟨k, hk⟩ : ∃ k, k ∈ s.drawn := List.exists_mem_of_length_pos (by rw [h2]; exact Nat.one_pos)
  exact derived_not_independent (h3 k hk) (h P hP lay _ _ _ [] _ k hk)

/-- No key is derived from a key which is derived from it by `random.split(key, 2)`. -/
theorem not_derived_back {P : Prng κ} (hP : IdealSplit P) (k : κ) (i : Nat) (hi : i < 2) :
    ¬ Derived P (P.split k 2 i) k := by
  intro h
  have h1 : Derived P (P.split k 2 i) (P.split k 2 (1 - i)) := h.tail ⟨2, 1 - i, by omega, rfl⟩
  exact hP k 2 i (1 - i) hi (by omega) (by omega) _ ⟨h1, .refl⟩

/-- **C162** (partial).  The key of the thinning is none of the keys with which a chain of `sgld` draws its noise,
although they are derived from it. -/
theorem c162_distinct_partial {P : Prng κ} (hP : IdealSplit P) (lay : Layout ι) (ad : Option (AdaptStrategy ι β A))
    (getData : δ → δ × β) (sg : StochGradLik ι β μ) (d : δ) (x : ι → ℝ) (key0 : κ) (a : Option A) (ms : μ)
    (ps : List Params) :
    key0 ∉ (langevinRun P lay ad getData sg (langevinInit d x key0 a ms) ps).drawn := by
  cases ps with
  | nil => simp [langevinRun, langevinInit]
  | cons p ps =>
    have h : ∀ (s : LangevinState ι κ δ μ A) (ps : List Params), Refines P (s.key :: s.drawn)
        ((langevinRun P lay ad getData sg s ps).key :: (langevinRun P lay ad getData sg s ps).drawn) := by
      intro s ps
      induction ps using List.reverseRecOn with
      | nil => exact Refines.refl _ _
      | append_singleton ps p ih =>
        rw [langevinRun_snoc]
        exact ih.trans (refines_langevin hP lay ad getData sg _ p)
    intro hmem
    obtain ⟨y, hy, hd⟩ := (h (langevinUpdate P lay ad getData sg (langevinInit d x key0 a ms) p) ps).2 key0
      (List.mem_cons_of_mem _ hmem)
    rcases List.mem_cons.1 hy with rfl | hy
    · exact not_derived_back hP key0 0 (by omega) hd
    · have hy' : y ∈ (randomTree P lay (P.split key0 2 1)).2 := by
        simpa [langevinUpdate, langevinInit] using hy
      obtain ⟨z, hz, hzy⟩ := (refines_tree hP lay (P.split key0 2 1)).2 y hy'
      obtain rfl := List.mem_singleton.1 hz
      exact not_derived_back hP key0 1 (by omega) (hzy.trans hd)

/-- **C162** (partial).  If `random_thinning` gets a key of its own, independent of the initial key of a chain (for example
the other result of a split), it is independent of all keys with which the chain draws random numbers, for all
solvers. -/
theorem c162_own_key_partial {P : Prng κ} (hP : IdealSplit P) (lay : Layout ι) (ad : Option (AdaptStrategy ι β A))
    (getData : δ → δ × β) (sgLik : StochGradLik ι β μ) (sg : StochGrad ι β μ) (γ : ℝ) (fr : ℝ ⊕ (ι → ℝ))
    (nm : Option (NoiseFn ι β μ)) (cm : Option (ι → ℝ)) (L : ℕ) (mass : Option (MassMatrix ι))
    (ma : Option (MassAdaption ι Ms)) (fullPot : FullPotFn ι φ μ) (f : φ) (d : δ) (x : ι → ℝ) (a : Option A) (ms : μ)
    (thinKey key : κ) (hkey : Independent P thinKey key) (ps : List Params) :
    let lang := langevinRun P lay ad getData sgLik (langevinInit d x key a ms) ps
    let fric := ps.foldl (fun s p => fricIntegrate P lay nm fr cm L getData sg s p mass) (fricInit d x key ms)
    let ama := amagoldRun P ma (revForAmagold P lay γ cm L getData sg) fullPot
      (amagoldInit P ma (revInitForAmagold P lay cm d) fullPot f x key ms) ps
    let sgg := sggmcRun P ma (obaboForSggmc P lay γ cm L getData sg) fullPot
      (sggmcInit P ma (obaboInitForSggmc d) fullPot f x key ms) ps
    ∀ k ∈ lang.drawn ++ fric.drawn ++ (ama.drawn ++ ama.integratorState.drawn) ++
      (sgg.drawn ++ sgg.integratorState.drawn), Independent P thinKey k := by
  intro lang fric ama sgg k hk
  have hd : Derived P key k := by
    rcases List.mem_append.1 hk with hk | hk
    · rcases List.mem_append.1 hk with hk | hk
      · rcases List.mem_append.1 hk with hk | hk
        · exact (c74_langevin hP lay ad getData sgLik d x key a ms ps).2.2 k hk
        · exact (c74_friction hP lay nm fr cm L getData sg d x key ms mass ps).2.2 k hk
      · exact (c74_amagold hP lay γ cm L getData sg ma fullPot f d x key ms ps).2.2 k hk
    · exact (c74_sggmc hP lay γ cm L getData sg ma fullPot f d x key ms ps).2.2 k hk
  exact fun y hy => hkey y ⟨hy.1, hd.trans hy.2⟩

/-- Two results of one split are such keys. -/
example (normal : List ℕ → ℕ → ℕ → ℝ) (uniform : List ℕ → ℝ) :
    IdealSplit (pathPrng normal uniform) ∧ Independent (pathPrng normal uniform)
      ((pathPrng normal uniform).split [] 2 0) ((pathPrng normal uniform).split [] 2 1) :=
  ⟨pathPrng_ideal _ _, pathPrng_ideal _ _ [] 2 0 1 (by decide) (by decide) (by decide)⟩

end JaxSgmc
