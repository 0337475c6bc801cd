import Verif.Spec.TreeIntegrator
import Verif.Props.TreeUtil
import Verif.Props.Langevin
import Verif.Model.Adaption

/-!
# C108: samples which are pytrees are treated as the vector of their entries
-/

namespace JaxSgmc

open Spec

section
variable {x0 : Tree (Arr ℝ)}

theorem sameShape_trans {R : Type} {a b c : Tree (Arr R)} (h : SameShape a b) (h' : SameShape b c) :
    SameShape a c := h.trans h'

theorem sameShape_symm {R : Type} {a b : Tree (Arr R)} (h : SameShape a b) : SameShape b a := Eq.symm h

theorem zipWith_ofFn {n : Nat} (f : ℝ → ℝ → ℝ) (v w : Fin n → ℝ) :
    List.zipWith f (List.ofFn v) (List.ofFn w) = List.ofFn fun i => f (v i) (w i) := by
  apply List.ext_getElem
  · simp
  · intro i h1 h2
    simp

theorem flatZip_same (f : ℝ → ℝ → ℝ) (a b : List ℝ) (h : a.length = b.length) :
    flatZip f a b = .ok (List.zipWith f a b) := by
  simp [flatZip, arr_zipWith_same f ⟨[a.length], a⟩ ⟨[b.length], b⟩ (by simp [Arr.Valid]) (by simp [Arr.Valid])
    (by simp [h]), Except.map]

theorem entries_self (h : ValidTree x0) : Entries x0 x0 fun i => (ravel x0)[i] :=
  ⟨h, rfl, by simp⟩

theorem Spec.Entries.add {a b : Tree (Arr ℝ)} {v w : Fin (ravel x0).length → ℝ} (ha : Entries x0 a v)
    (hb : Entries x0 b w) : ∃ c, treeAdd a b = .ok c ∧ Entries x0 c (vadd v w) := by
  obtain ⟨c, h1, h2, h3, h4⟩ := c56_add a b ha.1 hb.1 (sameShape_trans ha.2.1 (sameShape_symm hb.2.1))
  refine ⟨c, h1, h2, sameShape_trans h3 ha.2.1, ?_⟩
  rw [h4, ha.2.2, hb.2.2, zipWith_ofFn]
  rfl

theorem Spec.Entries.multiply {a b : Tree (Arr ℝ)} {v w : Fin (ravel x0).length → ℝ} (ha : Entries x0 a v)
    (hb : Entries x0 b w) : ∃ c, treeMultiply a b = .ok c ∧ Entries x0 c (vmul v w) := by
  obtain ⟨c, h1, h2, h3, h4⟩ := c56_multiply a b ha.1 hb.1 (sameShape_trans ha.2.1 (sameShape_symm hb.2.1))
  refine ⟨c, h1, h2, sameShape_trans h3 ha.2.1, ?_⟩
  rw [h4, ha.2.2, hb.2.2, zipWith_ofFn]
  rfl

theorem Spec.Entries.scale {a : Tree (Arr ℝ)} {v : Fin (ravel x0).length → ℝ} (ha : Entries x0 a v) (c : ℝ) :
    Entries x0 (treeScale c a) (vscale c v) := by
  obtain ⟨h1, h2, h3⟩ := c56_scale c a ha.1
  refine ⟨h1, sameShape_trans h2 ha.2.1, ?_⟩
  rw [h3, ha.2.2, List.map_ofFn]
  rfl

theorem Spec.Entries.dot {a b : Tree (Arr ℝ)} {v w : Fin (ravel x0).length → ℝ} (ha : Entries x0 a v)
    (hb : Entries x0 b w) : treeDot a b = .ok (vdot v w) := by
  rw [c56_dot a b ha.1 hb.1 (sameShape_trans ha.2.1 (sameShape_symm hb.2.1)), ha.2.2, hb.2.2, zipWith_ofFn,
    List.sum_ofFn]
  rfl

theorem entries_unravel (h : ValidTree x0) (v : Fin (ravel x0).length → ℝ) :
    ∃ t, unravel x0 (List.ofFn v) = .ok t ∧ Entries x0 t v := by
  obtain ⟨t, h1, h2, h3, h4⟩ := (c56_unravel x0 h (List.ofFn v)).1 (by simp)
  exact ⟨t, h1, h2, h3, h4⟩

theorem entries_unravel' {y : Tree (Arr ℝ)} (h : ValidTree y) (hs : SameShape y x0)
    (hl : (ravel y).length = (ravel x0).length) (v : Fin (ravel x0).length → ℝ) :
    ∃ t, unravel y (List.ofFn v) = .ok t ∧ Entries x0 t v := by
  obtain ⟨t, h1, h2, h3, h4⟩ := (c56_unravel y h (List.ofFn v)).1 (by simp [hl])
  exact ⟨t, h1, h2, sameShape_trans h3 hs, h4⟩

theorem Spec.Entries.length {a : Tree (Arr ℝ)} {v : Fin (ravel x0).length → ℝ} (ha : Entries x0 a v) :
    (ravel a).length = (ravel x0).length := by
  rw [ha.2.2, List.length_ofFn]

theorem Spec.Entries.tensor {T : Tensor ℝ} {T' : VTensor (Fin (ravel x0).length)} (hT : SameTensor x0 T T')
    {a : Tree (Arr ℝ)} {v : Fin (ravel x0).length → ℝ} (ha : Entries x0 a v) :
    ∃ c, tensorMatmul T a = .ok c ∧ Entries x0 c (T'.mul v) := by
  cases T with
  | scalar c => exact hT.elim
  | other n => exact hT.elim
  | diagonal t =>
    cases T' with
    | full m => exact hT.elim
    | diag d => exact Spec.Entries.multiply hT ha
  | full m =>
    cases T' with
    | diag d => exact hT.elim
    | full M =>
      have hm : m = List.ofFn fun i => List.ofFn (M i) := hT
      subst hm
      obtain ⟨c, h1, h2, h3, h4⟩ := c56_matmul (List.ofFn fun i => List.ofFn (M i)) a ha.1
        (by rw [List.length_ofFn, ha.length])
        (by
          intro row hr
          obtain ⟨i, rfl⟩ := (List.mem_ofFn' _ _).1 hr
          rw [List.length_ofFn, ha.length])
      refine ⟨c, h1, h2, sameShape_trans h3 ha.2.1, ?_⟩
      rw [h4, ha.2.2, List.map_ofFn]
      congr 1
      funext i
      simp only [Function.comp_apply, VTensor.mul, Matrix.mulVec, dotProduct]
      rw [zipWith_ofFn, List.sum_ofFn]

/-! ### random_tree -/

theorem flat_place (f : Nat → Nat → Nat → ℝ) (ns : List Nat) : ∀ k,
    (ns.zipIdx k).flatMap (fun p => (List.range p.1).map (f p.2 p.1)) =
      (List.range ns.sum).map fun i => f (k + (entryPlace ns i).1) ((ns[(entryPlace ns i).1]?).getD 0)
        (entryPlace ns i).2 := by
  induction ns with
  | nil => intro k; simp
  | cons n ns ih =>
    intro k
    rw [List.zipIdx_cons, List.flatMap_cons, ih, List.sum_cons, List.range_add, List.map_append, List.map_map]
    congr 1
    · apply List.map_congr_left
      intro i hi
      have := List.mem_range.1 hi
      simp [entryPlace, this]
    · apply List.map_congr_left
      intro i _
      have h1 : ¬ n + i < n := by omega
      simp only [Function.comp_apply, entryPlace, h1, if_false, Nat.add_sub_cancel_left,
        List.getElem?_cons_succ]
      congr 1
      omega

theorem ofFn_val {n : Nat} (g : Nat → ℝ) : (List.ofFn fun i : Fin n => g i) = (List.range n).map g := by
  apply List.ext_getElem
  · simp
  · intro i h1 h2
    simp

theorem leaf_sizes {R : Type} {a b : Tree (Arr R)} (ha : ValidTree a) (hb : ValidTree b) (h : SameShape a b) :
    a.leaves.map (fun x => x.data.length) = b.leaves.map (fun x => x.data.length) := by
  have e1 : ∀ t : Tree (Arr R), ValidTree t →
      t.leaves.map (fun x => x.data.length) = (t.leaves.map Arr.shape).map List.prod := by
    intro t ht
    rw [List.map_map]
    exact List.map_congr_left fun x hx => ht x hx
  rw [e1 a ha, e1 b hb, h.leaves]

theorem randomTreeT_entries {κ : Type} (P : Prng κ) (key : κ) {a : Tree (Arr ℝ)} (h0 : ValidTree x0)
    {v : Fin (ravel x0).length → ℝ} (ha : Entries x0 a v) :
    ∃ t, randomTreeT P key a = .ok (t, (randomTree P (layoutOf x0) key).2) ∧
      Entries x0 t (randomTree P (layoutOf x0) key).1 := by
  have hsz := leaf_sizes ha.1 h0 ha.2.1
  have hlen : a.leaves.length = x0.leaves.length := by simpa using congrArg List.length hsz
  have hl : (List.zipWith (normalLike P) ((List.range a.leaves.length).map (P.split key a.leaves.length))
      a.leaves).length = a.leaves.length := by simp
  obtain ⟨t, g1, g2, g3⟩ := Tree.unflatten_ok a _ hl
  have hshape : t.leaves.map Arr.shape = a.leaves.map Arr.shape := by
    rw [g2]
    apply List.ext_getElem
    · simp
    · intro i h1 h2
      simp [normalLike]
  refine ⟨t, ?_, ?_, ?_, ?_⟩
  · unfold randomTreeT
    dsimp only
    rw [g1]
    simp only [randomTree, layoutOf, hlen]
  · intro x hx
    rw [g2] at hx
    obtain ⟨i, hi, rfl⟩ := List.getElem_of_mem hx
    simp [Arr.Valid, normalLike]
  · exact sameShape_trans (sameShape_of g3 hshape) ha.2.1
  · rw [ravel, g2]
    have hf := flat_place (fun j n i => P.normal (P.split key x0.leaves.length j) n i)
      (x0.leaves.map fun x => x.data.length) 0
    have hsum : (x0.leaves.map fun x => x.data.length).sum = (ravel x0).length := by
      rw [ravel, List.length_flatMap]
    rw [hsum] at hf
    have e := ofFn_val (n := (ravel x0).length) fun i => P.normal (P.split key x0.leaves.length (0 +
          (entryPlace (x0.leaves.map fun x => x.data.length) i).1))
          (((x0.leaves.map fun x => x.data.length)[(entryPlace
            (x0.leaves.map fun x => x.data.length) i).1]?).getD 0)
          (entryPlace (x0.leaves.map fun x => x.data.length) i).2
    have e2 := Eq.trans (a := List.ofFn (randomTree P (layoutOf x0) key).1)
      (by simp only [randomTree, layoutOf, Nat.zero_add]) e
    rw [e2, ← hf, ← hsz, ← hlen]
    have hv := ha.1
    unfold ValidTree at hv
    clear hf e e2 hsz hlen hl g1 g2 g3 hshape hsum ha
    have gen : ∀ (l : List (Arr ℝ)) (n k : Nat), (∀ x ∈ l, x.Valid) →
        (List.zipWith (normalLike P) ((List.range' k l.length).map (P.split key n)) l).flatMap Arr.data =
          ((l.map fun x => x.data.length).zipIdx k).flatMap
            fun p => (List.range p.1).map (P.normal (P.split key n p.2) p.1) := by
      intro l
      induction l with
      | nil => intro n k _; rfl
      | cons x l ih =>
        intro n k hv
        rw [List.length_cons, List.range'_succ, List.map_cons, List.zipWith_cons_cons, List.flatMap_cons,
          ih n (k + 1) (fun y hy => hv y (List.mem_cons_of_mem _ hy)), List.map_cons, List.zipIdx_cons,
          List.flatMap_cons]
        have := hv x List.mem_cons_self
        unfold Arr.Valid at this
        simp only [normalLike, this]
    have := gen a.leaves a.leaves.length 0 hv
    rw [← List.range_eq_range'] at this
    exact this

/-! ### langevin_diffusion -/

section
variable {κ δ β μ A A' : Type}

theorem sameQuantity_unravel' {y : Tree (Arr ℝ)} (hy : ∃ v, Entries x0 y v) {q : List ℝ ⊕ List (List ℝ)}
    {T : VTensor (Fin (ravel x0).length)} (h : SameQuantity q T) :
    ∃ t, unravelQuantity y q = .ok t ∧ SameTensor x0 t T := by
  obtain ⟨v, hv⟩ := hy
  cases q with
  | inl q =>
    cases T with
    | full m => exact h.elim
    | diag d =>
      have hq : q = List.ofFn d := h
      subst hq
      obtain ⟨t, h1, h2⟩ := entries_unravel' hv.1 hv.2.1 hv.length d
      exact ⟨.diagonal t, by simp only [unravelQuantity, h1], h2⟩
  | inr m =>
    cases T with
    | diag d => exact h.elim
    | full a => exact ⟨.full m, rfl, h⟩

theorem sameQuantity_unravel (h0 : ValidTree x0) {q : List ℝ ⊕ List (List ℝ)}
    {T : VTensor (Fin (ravel x0).length)} (h : SameQuantity q T) :
    ∃ t, unravelQuantity x0 q = .ok t ∧ SameTensor x0 t T :=
  sameQuantity_unravel' ⟨_, entries_self h0⟩ h

theorem unravelQuantity_inl {y : Tree (Arr ℝ)} {q : List ℝ} {t : Tree (Arr ℝ)} (h : unravel y q = .ok t) :
    unravelQuantity y (.inl q) = .ok (.diagonal t) := by simp only [unravelQuantity, h]

/-- One update of SGLD on trees is the update on vectors. -/
theorem langevinUpdateT_plain (h0 : ValidTree x0) (P : Prng κ) (flatBatch : β → List ℝ)
    (getData : δ → δ × β) {sgT : StochGradLikT β μ} {sg : StochGradLik (Fin (ravel x0).length) β μ}
    (hsg : SameGradient x0 sgT sg) {rel : A → A' → Prop} {t : LangevinStateT κ δ μ A}
    {s : LangevinState (Fin (ravel x0).length) κ δ μ A'} (h : SameLangevin x0 rel t s) (prm : Params) :
    ∃ t', langevinUpdateT P none flatBatch getData sgT t prm = .ok t' ∧
      SameLangevin x0 rel t' (langevinUpdate P (layoutOf x0) none getData sg s prm) := by
  obtain ⟨h1, h2, h3, h4, h5, h6, h7, -⟩ := h
  obtain ⟨n, n1, n2⟩ := randomTreeT_entries P (P.split s.key 2 1) h0 h1
  obtain ⟨g1, g2⟩ := hsg _ _ h1 (getData s.dataState).2 s.modelState
  obtain ⟨u, u1, u2⟩ := (g2.scale (-prm.stepSize)).add (n2.scale (Real.sqrt (2 * prm.temperature * prm.stepSize)))
  obtain ⟨w, w1, w2⟩ := h1.add u2
  refine ⟨⟨w, (sg s.latent (getData s.dataState).2 s.modelState).1.2.2, P.split s.key 2 0, none,
    (getData s.dataState).1, (sg s.latent (getData s.dataState).2 s.modelState).1.1,
    jnpVar (sg s.latent (getData s.dataState).2 s.modelState).1.2.1,
    s.drawn ++ (randomTree P (layoutOf x0) (P.split s.key 2 1)).2⟩, by simp only [langevinUpdateT, h2, h3, h4, n1, langevinStepT, u1, w1, g1, h7], ?_⟩
  unfold langevinUpdate SameLangevin
  exact ⟨w2, rfl, rfl, rfl, rfl, rfl, rfl, trivial⟩

/-- One update of the preconditioned variant on trees is the update on vectors. -/
theorem langevinUpdateT_adapted (h0 : ValidTree x0) (P : Prng κ) (flatBatch : β → List ℝ)
    (getData : δ → δ × β) {sgT : StochGradLikT β μ} {sg : StochGradLik (Fin (ravel x0).length) β μ}
    (hsg : SameGradient x0 sgT sg) {S : FlatStrategy A} {ad : AdaptStrategy (Fin (ravel x0).length) β A'}
    {rel : A → A' → Prop} (hS : SameStrategy _ flatBatch S ad rel) {t : LangevinStateT κ δ μ A}
    {s : LangevinState (Fin (ravel x0).length) κ δ μ A'} (h : SameLangevin x0 rel t s)
    (hs : s.adaptState.isSome) (prm : Params) :
    ∃ t', langevinUpdateT P (some S) flatBatch getData sgT t prm = .ok t' ∧
      SameLangevin x0 rel t' (langevinUpdate P (layoutOf x0) (some ad) getData sg s prm) ∧
      (langevinUpdate P (layoutOf x0) (some ad) getData sg s prm).adaptState.isSome := by
  obtain ⟨h1, h2, h3, h4, h5, h6, h7, h8⟩ := h
  cases ha' : s.adaptState with
  | none => rw [ha'] at hs; cases hs
  | some a' =>
  cases ha : t.adaptState with
  | none => rw [ha, ha'] at h8; exact h8.elim
  | some a =>
  rw [ha, ha'] at h8
  obtain ⟨ht, hrel⟩ := h8
  obtain ⟨n, n1, n2⟩ := randomTreeT_entries P (P.split s.key 2 1) h0 h1
  obtain ⟨g1, g2⟩ := hsg _ _ h1 (getData s.dataState).2 s.modelState
  obtain ⟨a2, p1, p2⟩ := hS.update _ _ s.latent (sg s.latent (getData s.dataState).2 s.modelState).2
    (getData s.dataState).2 hrel
  obtain ⟨q1, q2, r1, r2, r3⟩ := hS.get _ _ s.latent (sg s.latent (getData s.dataState).2 s.modelState).2
    (getData s.dataState).2 p2
  obtain ⟨T1, k1, k2⟩ := sameQuantity_unravel' ht r2
  obtain ⟨T2, l1, l2⟩ := sameQuantity_unravel' ht r3
  obtain ⟨tv, htv⟩ := ht
  obtain ⟨gm, m1, m2⟩ := entries_unravel' htv.1 htv.2.1 htv.length (ad.get (ad.update a' s.latent
    (sg s.latent (getData s.dataState).2 s.modelState).2 (getData s.dataState).2) s.latent
    (sg s.latent (getData s.dataState).2 s.modelState).2 (getData s.dataState).2).gamma
  have m3 := unravelQuantity_inl m1
  obtain ⟨c1, d1, d2⟩ := Spec.Entries.tensor k2 (g2.scale (-prm.stepSize))
  obtain ⟨c2, e1, e2⟩ := Spec.Entries.tensor l2 (n2.scale (Real.sqrt (2 * prm.temperature * prm.stepSize)))
  obtain ⟨b1, f1, f2⟩ := (m2.scale prm.stepSize).add d2
  obtain ⟨b2, o1, o2⟩ := f2.add e2
  obtain ⟨w, w1, w2⟩ := h1.add o2
  refine ⟨⟨w, (sg s.latent (getData s.dataState).2 s.modelState).1.2.2, P.split s.key 2 0, some ⟨a2, a.template⟩,
    (getData s.dataState).1, (sg s.latent (getData s.dataState).2 s.modelState).1.1,
    jnpVar (sg s.latent (getData s.dataState).2 s.modelState).1.2.1,
    s.drawn ++ (randomTree P (layoutOf x0) (P.split s.key 2 1)).2⟩, by
    simp only [langevinUpdateT, g1, h7, h2, h3, h4, n1, langevinStepT, ha, h1.2.2, g2.2.2, adaptUpdateT, p1, adaptGetT,
      r1, mapExcept, k1, l1, m3, d1, e1, f1, o1, w1], ?_, ?_⟩
  · unfold langevinUpdate SameLangevin
    dsimp only
    rw [ha']
    exact ⟨w2, rfl, rfl, rfl, rfl, rfl, rfl, ⟨tv, htv⟩, p2⟩
  · simp only [langevinUpdate, ha', Option.isSome_some]

/-- **C108** (SGLD).  For every initial sample which is a pytree of arrays, a run of SGLD never raises an exception;
all samples are trees of the shape of the initial sample, and the run is the run on the vector of all entries
(the model for which the other properties are proved), whatever the nesting of the tree is. -/
theorem c108_sgld (h0 : ValidTree x0) (P : Prng κ) (flatBatch : β → List ℝ) (getData : δ → δ × β)
    (sgT : StochGradLikT β μ) (sg : StochGradLik (Fin (ravel x0).length) β μ) (hsg : SameGradient x0 sgT sg)
    (initData : δ) (key : κ) (ms : μ) (ps : List Params) :
    ∃ t, langevinRunT P (none : Option (FlatStrategy A)) flatBatch getData sgT
        (langevinInitT none initData x0 key ms) ps = .ok t ∧
      let s := langevinRun P (layoutOf x0) (none : Option (AdaptStrategy _ β A')) getData sg
        (langevinInit initData (fun i => (ravel x0)[i]) key none ms) ps
      Entries x0 t.latent s.latent ∧ t.modelState = s.modelState ∧ t.key = s.key ∧
        t.dataState = s.dataState ∧ t.potential = s.potential ∧ t.variance = s.variance ∧ t.drawn = s.drawn := by
  have gen : ∀ (ps : List Params) (t : LangevinStateT κ δ μ A)
      (s : LangevinState (Fin (ravel x0).length) κ δ μ A'),
      SameLangevin x0 (fun _ _ => True) t s →
      ∃ t', langevinRunT P none flatBatch getData sgT t ps = .ok t' ∧
        SameLangevin x0 (fun _ _ => True) t' (langevinRun P (layoutOf x0) none getData sg s ps) := by
    intro ps
    induction ps with
    | nil => intro t s h; exact ⟨t, rfl, h⟩
    | cons p ps ih =>
      intro t s h
      obtain ⟨t1, e1, h1⟩ := langevinUpdateT_plain h0 P flatBatch getData hsg h p
      obtain ⟨t2, e2, h2⟩ := ih t1 _ h1
      exact ⟨t2, by simp only [langevinRunT, e1, e2], h2⟩
  obtain ⟨t, e, h1, h2, h3, h4, h5, h6, h7, -⟩ := gen ps (langevinInitT none initData x0 key ms)
    (langevinInit initData (fun i => (ravel x0)[i]) key none ms)
    ⟨entries_self h0, rfl, rfl, rfl, rfl, rfl, rfl, trivial⟩
  exact ⟨t, e, h1, h2, h3, h4, h5, h6, h7⟩

/-- **C108** (preconditioned SGLD with any strategy on flat arrays). -/
theorem c108_adapted (h0 : ValidTree x0) (P : Prng κ) (flatBatch : β → List ℝ) (getData : δ → δ × β)
    (sgT : StochGradLikT β μ) (sg : StochGradLik (Fin (ravel x0).length) β μ) (hsg : SameGradient x0 sgT sg)
    (S : FlatStrategy A) (ad : AdaptStrategy (Fin (ravel x0).length) β A') (rel : A → A' → Prop)
    (hS : SameStrategy _ flatBatch S ad rel) (a0 : A') (ha0 : rel (S.init (ravel x0)) a0)
    (initData : δ) (key : κ) (ms : μ) (ps : List Params) :
    ∃ t, langevinRunT P (some S) flatBatch getData sgT (langevinInitT (some S) initData x0 key ms) ps = .ok t ∧
      let s := langevinRun P (layoutOf x0) (some ad) getData sg
        (langevinInit initData (fun i => (ravel x0)[i]) key (some a0) ms) ps
      Entries x0 t.latent s.latent ∧ t.modelState = s.modelState ∧ t.key = s.key ∧
        t.dataState = s.dataState ∧ t.potential = s.potential ∧ t.variance = s.variance ∧ t.drawn = s.drawn ∧
        ∃ a a', t.adaptState = some a ∧ s.adaptState = some a' ∧ rel a.state a' := by
  have gen : ∀ (ps : List Params) (t : LangevinStateT κ δ μ A)
      (s : LangevinState (Fin (ravel x0).length) κ δ μ A'),
      SameLangevin x0 rel t s → s.adaptState.isSome →
      ∃ t', langevinRunT P (some S) flatBatch getData sgT t ps = .ok t' ∧
        SameLangevin x0 rel t' (langevinRun P (layoutOf x0) (some ad) getData sg s ps) ∧
        (langevinRun P (layoutOf x0) (some ad) getData sg s ps).adaptState.isSome := by
    intro ps
    induction ps with
    | nil => intro t s h hs; exact ⟨t, rfl, h, hs⟩
    | cons p ps ih =>
      intro t s h hs
      obtain ⟨t1, e1, h1, hs1⟩ := langevinUpdateT_adapted h0 P flatBatch getData hsg hS h hs p
      obtain ⟨t2, e2, h2⟩ := ih t1 _ h1 hs1
      exact ⟨t2, by simp only [langevinRunT, e1, e2], h2⟩
  obtain ⟨t, e, ⟨h1, h2, h3, h4, h5, h6, h7, h8⟩, hsome⟩ := gen ps (langevinInitT (some S) initData x0 key ms)
    (langevinInit initData (fun i => (ravel x0)[i]) key (some a0) ms)
    ⟨entries_self h0, rfl, rfl, rfl, rfl, rfl, rfl, ⟨_, entries_self h0⟩, ha0⟩ rfl
  refine ⟨t, e, h1, h2, h3, h4, h5, h6, h7, ?_⟩
  obtain ⟨a', ha'⟩ := Option.isSome_iff_exists.1 hsome
  rw [ha'] at h8
  cases ha : t.adaptState with
  | none => rw [ha] at h8; exact h8.elim
  | some a => rw [ha] at h8; exact ⟨a, a', rfl, ha', h8.2⟩

/-- The strategy `rms_prop` on flat arrays and on vectors. -/
theorem rms_same (n : Nat) (alpha lmbd : ℝ) (flatBatch : β → List ℝ) :
    SameStrategy n flatBatch (rmsFlat alpha lmbd) (rmsStrategy (ι := Fin n) (β := β))
      (fun v s => v = List.ofFn s.v ∧ s.alpha = alpha ∧ s.lmbd = lmbd) where
  update := by
    rintro v s x g b ⟨rfl, h1, h2⟩
    refine ⟨List.ofFn fun i => alpha * s.v i + (1 - alpha) * (g i * g i), ?_, ?_, ?_, ?_⟩
    · simp only [rmsFlat, flatZip_same, List.length_ofFn, zipWith_ofFn]
    · simp only [rmsStrategy, rmsUpdate, h1]
    · exact h1
    · exact h2
  get := by
    rintro v s x g b ⟨rfl, h1, h2⟩
    refine ⟨.inl (List.ofFn fun i => (lmbd + Real.sqrt (s.v i)) ^ (-1 : ℝ)),
      .inl (List.ofFn fun i => Real.sqrt ((lmbd + Real.sqrt (s.v i)) ^ (-1 : ℝ))), ?_, ?_, ?_⟩
    · simp only [rmsFlat, List.map_ofFn, Function.comp_def, rmsStrategy, rmsGet]
    · simp only [rmsStrategy, rmsGet, SameQuantity, h2]
    · simp only [rmsStrategy, rmsGet, SameQuantity, h2]

/-- **C108** (pSGLD, `rms_prop`). -/
theorem c108_psgld (h0 : ValidTree x0) (P : Prng κ) (flatBatch : β → List ℝ) (getData : δ → δ × β)
    (sgT : StochGradLikT β μ) (sg : StochGradLik (Fin (ravel x0).length) β μ) (hsg : SameGradient x0 sgT sg)
    (alpha lmbd : ℝ) (initData : δ) (key : κ) (ms : μ) (ps : List Params) :
    ∃ t, langevinRunT P (some (rmsFlat alpha lmbd)) flatBatch getData sgT
        (langevinInitT (some (rmsFlat alpha lmbd)) initData x0 key ms) ps = .ok t ∧
      let s := langevinRun P (layoutOf x0) (some rmsStrategy) getData sg
        (langevinInit initData (fun i => (ravel x0)[i]) key
          (some (rmsInit (fun i => (ravel x0)[i]) alpha lmbd)) ms) ps
      Entries x0 t.latent s.latent ∧ t.modelState = s.modelState ∧ t.key = s.key ∧
        t.dataState = s.dataState ∧ t.potential = s.potential ∧ t.variance = s.variance ∧ t.drawn = s.drawn := by
  obtain ⟨t, e, h1, h2, h3, h4, h5, h6, h7, -⟩ := c108_adapted h0 P flatBatch getData sgT sg hsg
    (rmsFlat alpha lmbd) rmsStrategy _ (rms_same _ alpha lmbd flatBatch)
    (rmsInit (fun i => (ravel x0)[i]) alpha lmbd)
    ⟨by
      apply List.ext_getElem
      · simp [rmsFlat]
      · intro i g1 g2
        simp [rmsFlat, rmsInit], rfl, rfl⟩ initData key ms ps
  exact ⟨t, e, h1, h2, h3, h4, h5, h6, h7⟩

end

end

/-- A nested tree with a vector and a scalar. -/
def treeSample : Tree (Arr ℝ) :=
  Tree.node (Kind.dict ["a".toList, "b".toList]) [Tree.leaf ⟨[2], [1, 2]⟩, Tree.node .list [Tree.leaf ⟨[], [3]⟩]]

/-- The hypotheses are met by a nested tree and a potential which is the sum of squares of all entries. -/
example : ValidTree treeSample ∧ ravel treeSample = [1, 2, 3] ∧
    SameGradient (β := Unit) (μ := Unit) treeSample
      (fun t _ m => ((((ravel t).map fun y => y ^ 2).sum, ([], m)), treeScale 2 t))
      (fun v _ m => ((((List.ofFn v).map fun y => y ^ 2).sum, ([], m)), vscale 2 v)) := by
  refine ⟨?_, rfl, ?_⟩
  · intro a ha
    simp only [treeSample, Tree.leaves, Tree.leavesL, List.nil_append, List.cons_append, List.append_nil,
      List.mem_cons, List.not_mem_nil, or_false] at ha
    rcases ha with rfl | rfl <;> simp [Arr.Valid]
  · intro t v h b m
    exact ⟨by dsimp only; rw [h.2.2], h.scale 2⟩

end JaxSgmc
