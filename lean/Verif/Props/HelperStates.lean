import Verif.Model.HelperStates
import Verif.Props.ListMapArr
import Verif.Props.HelperSchedulers

/-!
# C166: which overrides can be used for additional schedulers
-/

namespace JaxSgmc

open Spec

section
variable {κ Ks' σs' Kb' σb' : Type} [Inhabited Ks'] [Inhabited Kb']

/-- The shapes of the leaves of a tree. -/
def Spec.leafShapes (t : Tree (Arr XF)) : List (List Nat) := t.leaves.map Arr.shape

/-- The shapes of the states of a schedule depend only on the number of iterations: not on the overrides, the statistics and
the iteration. -/
def Spec.UniformParam {K σ V : Type} (P : ParamSched K σ V) (tree : σ → Tree (Arr XF)) : Prop :=
  ∃ shape : Nat → List (List Nat), ∀ its kw s, P.init its kw = .ok s → ∀ fb i,
    leafShapes (tree (ParamAfter P s fb i)) = shape its

/-- The same for a schedule selecting samples. -/
def Spec.UniformSelect {K σ : Type} (P : SelectSched K σ) (tree : σ → Tree (Arr XF)) : Prop :=
  ∃ shape : Nat → List (List Nat), ∀ its kw s n, P.init its kw = .ok (s, n) → ∀ fb i,
    leafShapes (tree (SelectAfter P s fb i)) = shape its

/-- The schedulers considered by C166: step size, temperature and burn in are uniform. -/
structure Spec.StandardScheduler {Ks σs Vs Kt σt Vt Kb σb Kh σh : Type} (S : Scheduler Ks σs Vs Kt σt Vt Kb σb Kh σh)
    (T : SchedTrees σs σt σb σh) : Prop where
  stepSize : UniformParam S.stepSize T.stepSize
  temperature : UniformParam S.temperature T.temperature
  burnIn : UniformSelect S.burnIn T.burnIn

/-- The full statement of C166: overrides which are accepted by the init functions can be used. -/
def C166Statement : Prop :=
  ∀ (gumbel : Unit → Nat → ℝ) (ss : ParamSched PolyKw (List XF) XF) (bi : SelectSched (Option Int) Int) (sel : Nat)
    (S : Scheduler PolyKw (List XF) XF (Option ℝ) ℝ ℝ (Option Int) Int (ThinKw Unit) (List Nat)),
    StandardScheduler S polyTrees → S.thinning = randomThinning gumbel ss bi sel () →
    ∀ its helpers scheds n, mcmcSchedulers S its helpers = .ok (scheds, n) → stackSchedulers polyTrees scheds = .ok ()

/-! ### The schedules of the package are uniform -/

/-- **C166** (package).  The shapes of the states of all step size, temperature and burn in schedules of the package depend
only on the number of iterations. -/
theorem c166_package_partial :
    (∀ a b g, UniformParam (polynomialStepSize a b g) polyTree) ∧
    (∀ first last g, UniformParam (polynomialFirstLast first last g) polyTree) ∧
    (∀ p, UniformParam (adaptiveStepSize p) adaptiveTree) ∧
    (∀ tau : ℝ, UniformParam (constantTemperature tau) fun t => numberLeaf (.fin t)) ∧
    (∀ n, UniformSelect (initialBurnIn n) fun n => numberLeaf (.fin n)) := by
  have hp : ∀ (its : Nat) (a b : XF) (g : ℝ) s, polySteps its a b g = .ok s → s.length = its := by
    intro its a b g s h
    simp only [polySteps] at h
    split_ifs at h
    simp only [Except.ok.injEq] at h
    rw [← h]
    simp
  refine ⟨fun a b g => ⟨fun its => [[its]], ?_⟩, fun first last g => ⟨fun its => [[its]], ?_⟩,
    fun p => ⟨fun _ => List.replicate 8 [], fun _ _ _ _ _ _ => rfl⟩, fun tau => ⟨fun _ => [[]], fun _ _ _ _ _ _ => rfl⟩,
    fun n => ⟨fun _ => [[]], fun _ _ _ _ _ _ _ => rfl⟩⟩
  · intro its kw s h fb i
    rw [paramAfter_static _ (fun _ _ _ => rfl)]
    have := hp _ _ _ _ _ h
    simp [leafShapes, polyTree, Tree.leaves, this]
  · intro its kw s h fb i
    rw [paramAfter_static _ (fun _ _ _ => rfl)]
    simp only [polynomialFirstLast] at h
    have : s.length = its := by
      split_ifs at h <;> first | exact hp _ _ _ _ _ h | skip
    simp [leafShapes, polyTree, Tree.leaves, this]

theorem barTree_shapes (b : BarState) : leafShapes (barTree (some b)) = [[], [], [1], [], []] := by
  simp [barTree, numberLeaf, Tree.leaves, Tree.leavesL, leafShapes]

theorem schedTree_shapes {σs σt σb σh : Type} (T : SchedTrees σs σt σb σh) (st : SchedState σs σt σb σh) :
    leafShapes (schedTree T st) =
      [[], []] ++ (leafShapes (T.stepSize st.stepSize) ++ (leafShapes (T.temperature st.temperature) ++
        (leafShapes (T.burnIn st.burnIn) ++ (leafShapes (T.thinning st.thinning) ++ leafShapes (barTree st.bar))))) := by
  simp [schedTree, numberLeaf, Tree.leaves, Tree.leavesL, leafShapes]

theorem randomThinning_length (gumbel : κ → Nat → ℝ) (ss : ParamSched Ks' σs' XF) (bi : SelectSched Kb' σb')
    (sel : Nat) (key : κ) {its : Nat} {kw : ThinKw κ} {t : List Nat} {k : Int}
    (h : (randomThinning gumbel ss bi sel key).init its kw = .ok (t, k)) : t.length = kw.selections.getD sel := by
  simp only [randomThinning] at h
  split at h
  · simp at h
  · split at h
    · simp at h
    · split at h
      · simp at h
      · rename_i hk
        simp only [Except.ok.injEq, Prod.mk.injEq] at h
        obtain ⟨rfl, -⟩ := h
        obtain ⟨-, h2, -⟩ := choice_facts gumbel (kw.key.getD key) (thinningProbs ss bi its 0 _ _) (kw.selections.getD sel)
        rw [h2]
        apply min_eq_left
        refine le_trans (not_lt.1 hk) ?_
        exact List.length_filter_le _ _

theorem schedAfter_bar {Ks σs Vs Kt σt Vt Kb σb Kh σh : Type} (S : Scheduler Ks σs Vs Kt σt Vt Kb σb Kh σh)
    (st : SchedState σs σt σb σh) (fb : Nat → Stats) : ∀ i, (schedAfter S st fb i).bar.isSome = st.bar.isSome
  | 0 => rfl
  | i + 1 => by
    rw [← schedAfter_bar S st fb i]
    simp [schedAfter, schedUpdate]

/-- The shapes of the state of a chain after any number of iterations: only the thinning depends on the overrides. -/
theorem schedTree_same {Ks σs Vs Kt σt Vt Kb σb Kh σh : Type} {S : Scheduler Ks σs Vs Kt σt Vt Kb σb Kh σh}
    {T : SchedTrees σs σt σb σh} (hS : StandardScheduler S T) (its : Nat) :
    ∃ pre post, ∀ (kw : SchedKw Ks Kt Kb Kh) (st : SchedState σs σt σb σh) n, schedInit S its kw = .ok (st, n) →
      ∀ fb i, leafShapes (schedTree T (schedAfter S st fb i)) =
        pre ++ (leafShapes (T.thinning (SelectAfter S.thinning st.thinning fb i)) ++ post) := by
  obtain ⟨f1, h1⟩ := hS.stepSize
  obtain ⟨f2, h2⟩ := hS.temperature
  obtain ⟨f3, h3⟩ := hS.burnIn
  refine ⟨[[], []] ++ (f1 its ++ (f2 its ++ f3 its)), if S.progressBar then [[], [], [1], [], []] else [], ?_⟩
  intro kw st n h fb i
  obtain ⟨h0, -, nh, nb, -, g3, -, g1, g2, gb⟩ := schedInit_spec S its kw st n h
  obtain ⟨-, e1, e2, e3, e4⟩ := schedAfter_spec S st fb h0 i
  have hb := schedAfter_bar S st fb i
  rw [schedTree_shapes, e1, e2, e3, e4, h1 its _ _ g1, h2 its _ _ g2, h3 its _ _ _ g3]
  have : leafShapes (barTree (schedAfter S st fb i).bar) = if S.progressBar then [[], [], [1], [], []] else [] := by
    rw [gb] at hb
    cases hs : (schedAfter S st fb i).bar with
    | none =>
      rw [hs] at hb
      cases hp : S.progressBar
      · rfl
      · simp [hp] at hb
    | some b =>
      rw [hs] at hb
      cases hp : S.progressBar
      · simp [hp] at hb
      · exact barTree_shapes b
  rw [this]
  simp only [List.append_assoc]

theorem stackSchedulers_iff {σs σt σb σh : Type} (T : SchedTrees σs σt σb σh) (main : SchedState σs σt σb σh)
    (hs : List (SchedState σs σt σb σh)) :
    stackSchedulers T (main :: hs) = .ok () ↔
      ∀ st ∈ hs, leafShapes (schedTree T main) <+: leafShapes (schedTree T st) := by
  rw [stackSchedulers]
  split_ifs with h1
  · have : hs = [] := by simpa using h1
    simp [this]
  · have := c163_stacked_partial (schedTree T main) (hs.map (schedTree T))
    simp only [List.mem_map, forall_exists_index, and_imp, forall_apply_eq_imp_iff₂] at this
    unfold leafShapes
    rw [← this, List.map_cons]
    cases stackTrees (schedTree T main :: hs.map (schedTree T)) with
    | error e => simp
    | ok u => simp

/-- **C166** (partial, any thinning).  The scheduler states can be stacked in an iteration exactly if the shapes of the state
of the thinning of every chain continue those of the main chain. -/
theorem c166_stacked_partial {Ks σs Vs Kt σt Vt Kb σb Kh σh : Type} [Inhabited Ks] [Inhabited Kt] [Inhabited Kb]
    [Inhabited Kh] (S : Scheduler Ks σs Vs Kt σt Vt Kb σb Kh σh) (T : SchedTrees σs σt σb σh) (hS : StandardScheduler S T)
    (hlen : ∀ s s' : σh, (leafShapes (T.thinning s)).length = (leafShapes (T.thinning s')).length) (its : Nat)
    (helpers : List (SchedKw Ks Kt Kb Kh)) (main : SchedState σs σt σb σh) (hs : List (SchedState σs σt σb σh)) (n : Int)
    (h : mcmcSchedulers S its helpers = .ok (main :: hs, n)) (fb : Nat → Stats) (i : Nat) :
    stackSchedulers T ((main :: hs).map fun st => schedAfter S st fb i) = .ok () ↔
      ∀ st ∈ hs, leafShapes (T.thinning (SelectAfter S.thinning st.thinning fb i)) =
        leafShapes (T.thinning (SelectAfter S.thinning main.thinning fb i)) := by
  obtain ⟨main', hs', h1, he, h2⟩ := c42_schedulers S helpers its _ n h
  obtain ⟨rfl, rfl⟩ := List.cons.inj he
  obtain ⟨pre, post, hsh⟩ := schedTree_same hS its
  rw [List.map_cons, stackSchedulers_iff]
  simp only [List.mem_map, forall_exists_index, and_imp, forall_apply_eq_imp_iff₂]
  refine forall₂_congr fun st hst => ?_
  obtain ⟨k, hk, rfl⟩ := List.getElem_of_mem hst
  have hk' : k < helpers.length := h2.length_eq ▸ hk
  obtain ⟨n', hn'⟩ := h2.get hk' hk
  have hn' : schedInit S its helpers[k] = .ok (hs[k], n') := hn'
  rw [hsh _ _ _ h1 fb i, hsh _ _ _ hn' fb i, List.prefix_append_right_inj]
  constructor
  · intro hp
    have l := hlen (SelectAfter S.thinning main.thinning fb i) (SelectAfter S.thinning hs[k].thinning fb i)
    have := hp.eq_of_length (by rw [List.length_append, List.length_append, l])
    exact (List.append_inj_left this l).symm
  · intro he
    rw [he]

/-- **C166** (partial, random thinning).  Exactly those overrides can be used which do not change the number of selected
samples; the others raise an exception in every iteration. -/
theorem c166_random_thinning_partial {Ks σs Vs Kt σt Vt Kb σb : Type} [Inhabited Ks] [Inhabited Kt] [Inhabited Kb]
    (gumbel : κ → Nat → ℝ) (ss : ParamSched Ks' σs' XF) (bi : SelectSched Kb' σb') (sel : Nat) (key : κ)
    (S : Scheduler Ks σs Vs Kt σt Vt Kb σb (ThinKw κ) (List Nat)) (T : SchedTrees σs σt σb (List Nat))
    (hS : StandardScheduler S T) (hT : T.thinning = thinTree) (ht : S.thinning = randomThinning gumbel ss bi sel key)
    (its : Nat) (helpers : List (SchedKw Ks Kt Kb (ThinKw κ))) (scheds : List (SchedState σs σt σb (List Nat))) (n : Int)
    (h : mcmcSchedulers S its helpers = .ok (scheds, n)) (fb : Nat → Stats) (i : Nat) :
    stackSchedulers T (scheds.map fun st => schedAfter S st fb i) = .ok () ↔
      ∀ kw ∈ helpers, kw.thinning.selections.getD sel = sel := by
  obtain ⟨main, hs, h1, rfl, h2⟩ := c42_schedulers S helpers its scheds n h
  rw [c166_stacked_partial S T hS (by intro s s'; simp [hT, leafShapes, thinTree, Tree.leaves]) its helpers main hs n h fb i]
  have hl : ∀ (kw : SchedKw Ks Kt Kb (ThinKw κ)) (st : SchedState σs σt σb (List Nat)) n', schedInit S its kw = .ok (st, n') →
      leafShapes (T.thinning (SelectAfter S.thinning st.thinning fb i)) = [[kw.thinning.selections.getD sel]] := by
    intro kw st n' hst
    obtain ⟨-, -, nh, nb, g, -⟩ := schedInit_spec S its kw st n' hst
    rw [ht] at g
    have := randomThinning_length gumbel ss bi sel key g
    rw [ht, selectAfter_static _ (fun _ _ _ => rfl), hT]
    simp [leafShapes, thinTree, Tree.leaves, this]
  have hm := hl _ _ _ h1
  have hm : leafShapes (T.thinning (SelectAfter S.thinning main.thinning fb i)) = [[sel]] := hm
  rw [hm]
  constructor
  · intro hp kw hkw
    obtain ⟨k, hk, rfl⟩ := List.getElem_of_mem hkw
    have hk' : k < hs.length := h2.length_eq ▸ hk
    obtain ⟨n', hn'⟩ := h2.get hk hk'
    have := hp _ (List.getElem_mem hk')
    have h3 := hl _ _ _ hn'
    simp only [List.get_eq_getElem] at h3
    rw [h3] at this
    simpa using this
  · intro hp st hst
    obtain ⟨k, hk, rfl⟩ := List.getElem_of_mem hst
    have hk' : k < helpers.length := h2.length_eq ▸ hk
    obtain ⟨n', hn'⟩ := h2.get hk' hk
    have h3 := hl _ _ _ hn'
    simp only [List.get_eq_getElem] at h3
    rw [h3, hp _ (List.getElem_mem hk')]

/-- **C166** (partial, no thinning).  All overrides which are accepted by the init functions can be used. -/
theorem c166_no_thinning_partial {Ks σs Vs Kt σt Vt Kb σb : Type} [Inhabited Ks] [Inhabited Kt] [Inhabited Kb]
    (S : Scheduler Ks σs Vs Kt σt Vt Kb σb Unit Unit) (T : SchedTrees σs σt σb Unit) (hS : StandardScheduler S T)
    (its : Nat) (helpers : List (SchedKw Ks Kt Kb Unit)) (scheds : List (SchedState σs σt σb Unit)) (n : Int)
    (h : mcmcSchedulers S its helpers = .ok (scheds, n)) (fb : Nat → Stats) (i : Nat) :
    stackSchedulers T (scheds.map fun st => schedAfter S st fb i) = .ok () := by
  obtain ⟨main, hs, h1, rfl, h2⟩ := c42_schedulers S helpers its scheds n h
  rw [c166_stacked_partial S T hS (fun _ _ => rfl) its helpers main hs n h fb i]
  intro _ _
  rfl

end

/-- A scheduler which selects one of two iterations. -/
noncomputable def oneOfTwo : Scheduler PolyKw (List XF) XF (Option ℝ) ℝ ℝ (Option Int) Int (ThinKw Unit) (List Nat) where
  stepSize := polynomialStepSize (.fin 1) (.fin 1) 0
  temperature := constantTemperature 1
  burnIn := initialBurnIn 0
  thinning := randomThinning (fun _ _ => 0) (polynomialStepSize (.fin 1) (.fin 1) 0) (initialBurnIn 0) 1 ()
  progressBar := true
  barSteps := 20

theorem oneOfTwo_standard : StandardScheduler oneOfTwo polyTrees :=
  ⟨c166_package_partial.1 _ _ _, c166_package_partial.2.2.2.1 _, c166_package_partial.2.2.2.2 _⟩

theorem oneOfTwo_init (sel : Option Nat) (h : sel.getD 1 ≤ 2) : ∃ st n, schedInit oneOfTwo 2
    { (default : SchedKw PolyKw (Option ℝ) (Option Int) (ThinKw Unit)) with thinning := ⟨sel, none⟩ } = .ok (st, n) := by
  obtain ⟨s, hs, hp, -⟩ := overrideScheduler_steps 2
  obtain ⟨hA, -⟩ := c33_random_thinning (fun (_ : Unit) _ => 0) (polynomialStepSize (.fin 1) (.fin 1) 0)
    (initialBurnIn 0) 1 () 2 ⟨sel, none⟩ s hs 0 2 rfl hp
  obtain ⟨t, h1, -⟩ := hA h
  obtain ⟨st, h2, -⟩ := schedInit_mk oneOfTwo 2
    { (default : SchedKw PolyKw (Option ℝ) (Option Int) (ThinKw Unit)) with thinning := ⟨sel, none⟩ } h1
    (burn := 0) (collected := 2) rfl hs (ts := 1) rfl
  exact ⟨st, _, h2⟩

theorem oneOfTwo_schedulers (sel : Option Nat) (h : sel.getD 1 ≤ 2) : ∃ scheds n, mcmcSchedulers oneOfTwo 2
    [{ (default : SchedKw PolyKw (Option ℝ) (Option Int) (ThinKw Unit)) with thinning := ⟨sel, none⟩ }] =
      .ok (scheds, n) := by
  obtain ⟨st, n, h1⟩ := oneOfTwo_init none (by decide)
  obtain ⟨st', n', h2⟩ := oneOfTwo_init sel h
  have h1 : schedInit oneOfTwo 2 default = .ok (st, n) := h1
  exact ⟨[st, st'], n, by simp only [mcmcSchedulers, h1, mapExcept, h2, Except.map]⟩

/-- C166 is false of the code: another number of selections for a helper chain is accepted by the init functions, but the
scheduler states cannot be stacked. -/
theorem c166_false : ¬ C166Statement := by
  intro h
  obtain ⟨scheds, n, hs⟩ := oneOfTwo_schedulers (some 2) (by decide)
  have h1 := h (fun (_ : Unit) _ => 0) (polynomialStepSize (.fin 1) (.fin 1) 0)
    (initialBurnIn 0) 1 oneOfTwo oneOfTwo_standard rfl 2 _ scheds n hs
  have h2 := (c166_random_thinning_partial (fun (_ : Unit) _ => 0) (polynomialStepSize (.fin 1) (.fin 1) 0)
    (initialBurnIn 0) 1 () oneOfTwo polyTrees oneOfTwo_standard rfl rfl 2 _ scheds n hs (fun _ => none) 0).1
    (by simpa [schedAfter] using h1)
  have := h2 _ (List.mem_singleton_self _)
  revert this
  decide

/-- The same number of selections can be used. -/
example (fb : Nat → Stats) (i : Nat) : ∃ scheds n, mcmcSchedulers oneOfTwo 2
    [{ (default : SchedKw PolyKw (Option ℝ) (Option Int) (ThinKw Unit)) with thinning := ⟨some 1, none⟩ }] =
      .ok (scheds, n) ∧ stackSchedulers polyTrees (scheds.map fun st => schedAfter oneOfTwo st fb i) = .ok () := by
  obtain ⟨scheds, n, hs⟩ := oneOfTwo_schedulers (some 1) (by decide)
  refine ⟨scheds, n, hs, (c166_random_thinning_partial (fun (_ : Unit) _ => 0) (polynomialStepSize (.fin 1) (.fin 1) 0)
    (initialBurnIn 0) 1 () oneOfTwo polyTrees oneOfTwo_standard rfl rfl 2 _ scheds n hs fb i).2 ?_⟩
  intro kw hkw
  rw [List.mem_singleton.1 hkw]
  rfl

end JaxSgmc
