import Verif.Spec.Keys
import Verif.Model.Solver
import Verif.Props.Langevin

/-!
# Keys: C74, C75
-/

namespace JaxSgmc

variable {κ : Type}

/-- Every two keys of the list are independent. -/
def Indep (P : Prng κ) (l : List κ) : Prop := l.Pairwise (Spec.Independent P)

theorem independent_symm {P : Prng κ} {a b : κ} (h : Spec.Independent P a b) : Spec.Independent P b a :=
  fun x hx => h x ⟨hx.2, hx.1⟩

theorem Indep.perm {P : Prng κ} {l l' : List κ} (h : Indep P l) (hp : l.Perm l') : Indep P l' :=
  (hp.pairwise_iff (fun {_ _} => independent_symm)).mp h

theorem Indep.nodup {P : Prng κ} {l : List κ} (h : Indep P l) : l.Nodup :=
  List.Pairwise.imp (fun {a b} (hab : Spec.Independent P a b) (hEq : a = b) =>
    hab a ⟨.refl, hEq ▸ .refl⟩) h

/-- The keys `l'` are derived from the keys `l` in such a way that independence is kept. -/
def Refines (P : Prng κ) (l l' : List κ) : Prop :=
  (Indep P l → Indep P l') ∧ ∀ x ∈ l', ∃ y ∈ l, Spec.Derived P y x

theorem Refines.refl (P : Prng κ) (l : List κ) : Refines P l l :=
  ⟨id, fun x hx => ⟨x, hx, .refl⟩⟩

theorem Refines.trans {P : Prng κ} {l l' l'' : List κ} (h : Refines P l l') (h' : Refines P l' l'') :
    Refines P l l'' :=
  ⟨h'.1 ∘ h.1, fun x hx => by
    obtain ⟨y, hy, h1⟩ := h'.2 x hx
    obtain ⟨z, hz, h2⟩ := h.2 y hy
    exact ⟨z, hz, h2.trans h1⟩⟩

theorem Refines.perm {P : Prng κ} {l l' : List κ} (h : l.Perm l') : Refines P l l' :=
  ⟨fun hi => hi.perm h, fun x hx => ⟨x, h.mem_iff.mpr hx, .refl⟩⟩

theorem Refines.append {P : Prng κ} {l l' : List κ} (h : Refines P l l') (r : List κ) :
    Refines P (l ++ r) (l' ++ r) := by
  refine ⟨fun hi => ?_, fun x hx => ?_⟩
  · obtain ⟨h1, h2, h3⟩ := List.pairwise_append.mp hi
    refine List.pairwise_append.mpr ⟨h.1 h1, h2, fun a ha b hb x hx => ?_⟩
    obtain ⟨y, hy, hd⟩ := h.2 a ha
    exact h3 y hy b hb x ⟨hd.trans hx.1, hx.2⟩
  · rcases List.mem_append.mp hx with hx | hx
    · obtain ⟨y, hy, hd⟩ := h.2 x hx
      exact ⟨y, List.mem_append_left _ hy, hd⟩
    · exact ⟨x, List.mem_append_right _ hx, .refl⟩

theorem Refines.append_left {P : Prng κ} {l l' : List κ} (h : Refines P l l') (r : List κ) :
    Refines P (r ++ l) (r ++ l') :=
  (Refines.perm List.perm_append_comm).trans ((h.append r).trans (.perm List.perm_append_comm))

/-- Splitting a key. -/
theorem Refines.split {P : Prng κ} (hP : Spec.IdealSplit P) (k : κ) (n : ℕ) :
    Refines P [k] ((List.range n).map (P.split k n)) := by
  refine ⟨fun _ => ?_, fun x hx => ?_⟩
  · refine List.pairwise_map.mpr (List.Pairwise.imp_of_mem ?_ (List.nodup_range (n := n)))
    intro i j hi hj hij
    exact hP k n i j (List.mem_range.mp hi) (List.mem_range.mp hj) hij
  · obtain ⟨i, hi, rfl⟩ := List.mem_map.mp hx
    exact ⟨k, List.mem_singleton_self _, .single ⟨n, i, List.mem_range.mp hi, rfl⟩⟩

variable {ι δ β μ A φ Ms : Type} [Fintype ι]

section
variable {P : Prng κ} (hP : Spec.IdealSplit P) (lay : Layout ι)
include hP

omit [Fintype ι] in
theorem refines_tree (k : κ) : Refines P [k] (randomTree P lay k).2 :=
  Refines.split hP k lay.leaves

omit [Fintype ι] in
/-- Splitting a key in a new key and a key used for one tree of random numbers. -/
theorem refines_step2 (k : κ) (d : List κ) :
    Refines P (k :: d) (P.split k 2 0 :: (d ++ (randomTree P lay (P.split k 2 1)).2)) := by
  have h1 : Refines P [k] [P.split k 2 0, P.split k 2 1] := Refines.split hP k 2
  have h2 := h1.append d
  refine h2.trans ?_
  have h3 := ((refines_tree hP lay (P.split k 2 1)).append_left [P.split k 2 0]).append d
  refine h3.trans (Refines.perm ?_)
  simp only [List.singleton_append]
  exact (List.perm_append_comm).cons _

omit [Fintype ι] in
theorem refines_step3 (k : κ) (d : List κ) :
    Refines P (k :: d) (P.split k 3 0 :: (d ++ (randomTree P lay (P.split k 3 1)).2 ++
      (randomTree P lay (P.split k 3 2)).2)) := by
  have h1 : Refines P [k] [P.split k 3 0, P.split k 3 1, P.split k 3 2] := Refines.split hP k 3
  have h2 := h1.append d
  refine h2.trans ?_
  have h3 := ((refines_tree hP lay (P.split k 3 1)).append_left [P.split k 3 0]).append [P.split k 3 2]
  have h4 := (refines_tree hP lay (P.split k 3 2)).append_left
    ([P.split k 3 0] ++ (randomTree P lay (P.split k 3 1)).2)
  refine (h3.append d).trans ((h4.append d).trans (Refines.perm ?_))
  simp only [List.append_assoc, List.cons_append, List.nil_append]
  refine List.Perm.cons _ ?_
  rw [← List.append_assoc, ← List.append_assoc]
  exact List.perm_append_comm.trans (by rw [List.append_assoc])

/-- `langevin_diffusion` -/
theorem refines_langevin (ad : Option (AdaptStrategy ι β A)) (getData : δ → δ × β)
    (sg : StochGradLik ι β μ) (s : LangevinState ι κ δ μ A) (prm : Params) :
    Refines P (s.key :: s.drawn) ((langevinUpdate P lay ad getData sg s prm).key ::
      (langevinUpdate P lay ad getData sg s prm).drawn) :=
  refines_step2 hP lay s.key s.drawn

/-- `reversible_leapfrog` -/
theorem refines_rev (γ : ℝ) (cm : Option (ι → ℝ)) (L : ℕ) (getData : δ → δ × β) (sg : StochGrad ι β μ)
    (s : LeapfrogState ι ℝ κ δ μ) (prm : Params) (mass : Option (MassMatrix ι)) :
    Refines P (s.key :: s.drawn) ((revIntegrate P lay γ cm L getData sg s prm mass).key ::
      (revIntegrate P lay γ cm L getData sg s prm mass).drawn) := by
  have body : ∀ (l : List ℕ) (s : LeapfrogState ι ℝ κ δ μ), Refines P (s.key :: s.drawn)
      ((l.foldl (revBody P lay γ getData sg prm (resolveMass mass cm)) s).key ::
        (l.foldl (revBody P lay γ getData sg prm (resolveMass mass cm)) s).drawn) := by
    intro l
    induction l with
    | nil => intro s; exact Refines.refl _ _
    | cons i l ih =>
      intro s
      exact (refines_step2 hP lay s.key s.drawn).trans
        (ih (revBody P lay γ getData sg prm (resolveMass mass cm) s i))
  exact body (List.range L) { s with
    positions := positionUpdate (0.5 * prm.stepSize) (resolveMass mass cm) s.positions s.momentum
    potential := 0 }

/-- `obabo` -/
theorem refines_obabo (γ : ℝ) (cm : Option (ι → ℝ)) (L : ℕ) (getData : δ → δ × β) (sg : StochGrad ι β μ)
    (s : ObaboState ι ℝ κ δ μ) (prm : Params) (mass : Option (MassMatrix ι)) :
    Refines P (s.key :: s.drawn) ((obaboIntegrate P lay γ cm L getData sg s prm mass).key ::
      (obaboIntegrate P lay γ cm L getData sg s prm mass).drawn) := by
  unfold obaboIntegrate
  generalize List.range L = l
  induction l generalizing s with
  | nil => exact Refines.refl _ _
  | cons i l ih =>
    exact (refines_step3 hP lay s.key s.drawn).trans
      (ih (obaboStep P lay γ getData sg prm (resolveMass mass cm) s i))

/-- `friction_leapfrog` -/
theorem refines_fric (nm : Option (NoiseFn ι β μ)) (fr : ℝ ⊕ (ι → ℝ)) (cm : Option (ι → ℝ)) (L : ℕ)
    (getData : δ → δ × β) (sg : StochGrad ι β μ) (s : LeapfrogState ι ℝ κ δ μ) (prm : Params)
    (mass : Option (MassMatrix ι)) :
    Refines P (s.key :: s.drawn) ((fricIntegrate P lay nm fr cm L getData sg s prm mass).key ::
      (fricIntegrate P lay nm fr cm L getData sg s prm mass).drawn) := by
  have body : ∀ (f : ι → ℝ) (l : List ℕ) (s : LeapfrogState ι ℝ κ δ μ), Refines P (s.key :: s.drawn)
      ((l.foldl (fricBody P lay nm getData sg prm f (resolveMass mass cm)) s).key ::
        (l.foldl (fricBody P lay nm getData sg prm f (resolveMass mass cm)) s).drawn) := by
    intro f l
    induction l with
    | nil => intro s; exact Refines.refl _ _
    | cons i l ih =>
      intro s
      exact (refines_step2 hP lay s.key s.drawn).trans
        (ih (fricBody P lay nm getData sg prm f (resolveMass mass cm) s i))
  exact (refines_step2 hP lay s.key s.drawn).trans (body _ (List.range L) { s with
    momentum := (resolveMass mass cm).sqrt.mul (randomTree P lay (P.split s.key 2 1)).1
    key := P.split s.key 2 0
    potential := 0
    drawn := s.drawn ++ (randomTree P lay (P.split s.key 2 1)).2 })

end

/-- The conclusion about a run: the keys with which random numbers have been drawn are pairwise different
and derived from the initial key. -/
theorem keys_conclusion {P : Prng κ} {k : κ} {live drawn : List κ} (h : Refines P [k] (live ++ drawn)) :
    drawn.Nodup ∧ ∀ x ∈ drawn, Spec.Derived P k x := by
  have hi : Indep P (live ++ drawn) := h.1 (List.pairwise_singleton _ _)
  refine ⟨Indep.nodup (List.pairwise_append.mp hi).2.1, fun x hx => ?_⟩
  obtain ⟨y, hy, hd⟩ := h.2 x (List.mem_append_right _ hx)
  rw [List.mem_singleton] at hy
  exact hy ▸ hd

/-- C74 for `langevin_diffusion` (sgld). -/
theorem c74_langevin {P : Prng κ} (hP : Spec.IdealSplit P) (lay : Layout ι)
    (ad : Option (AdaptStrategy ι β A)) (getData : δ → δ × β) (sg : StochGradLik ι β μ) (d : δ)
    (x : ι → ℝ) (key : κ) (a : Option A) (ms : μ) (ps : List Params) :
    let s := langevinRun P lay ad getData sg (langevinInit d x key a ms) ps
    s.drawn.Nodup ∧ s.drawn.length = lay.leaves * ps.length ∧ ∀ k ∈ s.drawn, Spec.Derived P key k := by
  have h : ∀ ps : List Params, Refines P [key]
      ([(langevinRun P lay ad getData sg (langevinInit d x key a ms) ps).key] ++
        (langevinRun P lay ad getData sg (langevinInit d x key a ms) ps).drawn) := by
    intro ps
    induction ps using List.reverseRecOn with
    | nil => exact Refines.refl _ _
    | append_singleton ps p ih =>
      rw [langevinRun_snoc]
      exact ih.trans (refines_langevin hP lay ad getData sg _ p)
  have hl : (langevinRun P lay ad getData sg (langevinInit d x key a ms) ps).drawn.length =
      lay.leaves * ps.length := by
    clear h
    induction ps using List.reverseRecOn with
    | nil => rfl
    | append_singleton ps p ih =>
      rw [langevinRun_snoc]
      show (_ ++ _ : List κ).length = _
      rw [List.length_append, ih, List.length_append, List.length_singleton]
      simp [randomTree, Nat.mul_succ]
  exact ⟨(keys_conclusion (h ps)).1, hl, (keys_conclusion (h ps)).2⟩

/-- C74 for `friction_leapfrog` (sghmc). -/
theorem c74_friction {P : Prng κ} (hP : Spec.IdealSplit P) (lay : Layout ι)
    (nm : Option (NoiseFn ι β μ)) (fr : ℝ ⊕ (ι → ℝ)) (cm : Option (ι → ℝ)) (L : ℕ)
    (getData : δ → δ × β) (sg : StochGrad ι β μ) (d : δ) (x : ι → ℝ) (key : κ) (ms : μ)
    (mass : Option (MassMatrix ι)) (ps : List Params) :
    let s := ps.foldl (fun s p => fricIntegrate P lay nm fr cm L getData sg s p mass)
      (fricInit d x key ms)
    s.drawn.Nodup ∧ s.drawn.length = lay.leaves * (L + 1) * ps.length ∧
      ∀ k ∈ s.drawn, Spec.Derived P key k := by
  have h : ∀ (ps : List Params) (s : LeapfrogState ι ℝ κ δ μ), Refines P (s.key :: s.drawn)
      ((ps.foldl (fun s p => fricIntegrate P lay nm fr cm L getData sg s p mass) s).key ::
        (ps.foldl (fun s p => fricIntegrate P lay nm fr cm L getData sg s p mass) s).drawn) := by
    intro ps
    induction ps with
    | nil => intro s; exact Refines.refl _ _
    | cons p ps ih =>
      intro s
      exact (refines_fric hP lay nm fr cm L getData sg s p mass).trans (ih _)
  have hf : ∀ (f : ι → ℝ) (m : MassMatrix ι) (p : Params) (l : List ℕ) (s : LeapfrogState ι ℝ κ δ μ),
      (l.foldl (fricBody P lay nm getData sg p f m) s).drawn.length =
        s.drawn.length + lay.leaves * l.length := by
    intro f m p l
    induction l with
    | nil => intro s; rfl
    | cons i l ih =>
      intro s
      rw [List.foldl_cons, ih]
      show (_ ++ _ : List κ).length + _ = _
      simp [randomTree, Nat.mul_succ]; ring
  have hl : ∀ (ps : List Params) (s : LeapfrogState ι ℝ κ δ μ),
      (ps.foldl (fun s p => fricIntegrate P lay nm fr cm L getData sg s p mass) s).drawn.length =
        s.drawn.length + lay.leaves * (L + 1) * ps.length := by
    intro ps
    induction ps with
    | nil => intro s; rfl
    | cons p ps ih =>
      intro s
      rw [List.foldl_cons, ih]
      unfold fricIntegrate
      rw [hf]
      simp [randomTree]; ring
  have hc := keys_conclusion (live := [_]) (h ps (fricInit d x key ms))
  refine ⟨hc.1, ?_, hc.2⟩
  have := hl ps (fricInit d x key ms)
  rw [this]
  simp [fricInit]

/-- C74 for parallel tempering: the keys of both chains and of the swaps. -/
theorem c74_tempering {P : Prng κ} (hP : Spec.IdealSplit P) (lay : Layout ι)
    (ad : Option (AdaptStrategy ι β A)) (getData : δ → δ × β) (sg : StochGradLik ι β μ) (d : δ)
    (x y : ι → ℝ) (a : Option A) (ms : μ) (ssq F : ℝ) (key : κ) (sa : ℕ → ℝ)
    (ps : List (Params × Params)) :
    let s := ps.foldl (fun s p => ptUpdate P sa (langevinUpdate P lay ad getData sg) s p.1 p.2)
      (ptInit P (fun x k => langevinInit d x k a ms) x y ssq key F)
    (s.drawn ++ s.normal.drawn ++ s.hot.drawn).Nodup ∧
      s.drawn.length = ps.length ∧
      ∀ k ∈ s.drawn ++ s.normal.drawn ++ s.hot.drawn, Spec.Derived P key k := by
  let keys : PtState ι κ δ μ A → List κ := fun s =>
    (s.key :: s.drawn) ++ (s.normal.key :: s.normal.drawn) ++ (s.hot.key :: s.hot.drawn)
  have step : ∀ (s : PtState ι κ δ μ A) (p q : Params), Refines P (keys s)
      (keys (ptUpdate P sa (langevinUpdate P lay ad getData sg) s p q)) := by
    intro s p q
    have h1 := refines_langevin hP lay ad getData sg s.normal p
    have h2 := refines_langevin hP lay ad getData sg s.hot q
    have h3 : Refines P (s.key :: s.drawn) (P.split s.key 2 0 :: (s.drawn ++ [P.split s.key 2 1])) := by
      have h4 : Refines P [s.key] [P.split s.key 2 0, P.split s.key 2 1] := Refines.split hP s.key 2
      refine (h4.append s.drawn).trans (Refines.perm ?_)
      exact List.Perm.cons _ (List.perm_append_comm (l₁ := [_]))
    have h5 := ((h3.append (s.normal.key :: s.normal.drawn)).append (s.hot.key :: s.hot.drawn)).trans
      (((h1.append_left (P.split s.key 2 0 :: (s.drawn ++ [P.split s.key 2 1]))).append
        (s.hot.key :: s.hot.drawn)).trans (h2.append_left _))
    refine h5.trans ?_
    show Refines P _ (keys (ptUpdate P sa (langevinUpdate P lay ad getData sg) s p q))
    simp only [keys, ptUpdate]
    split
    · exact Refines.refl _ _
    · refine Refines.perm ?_
      simp only [List.append_assoc]
      exact List.perm_append_comm.append_left _
  have run : ∀ (ps : List (Params × Params)) (s : PtState ι κ δ μ A), Refines P (keys s)
      (keys (ps.foldl (fun s p => ptUpdate P sa (langevinUpdate P lay ad getData sg) s p.1 p.2) s)) := by
    intro ps
    induction ps with
    | nil => intro s; exact Refines.refl _ _
    | cons p ps ih => intro s; exact (step s p.1 p.2).trans (ih _)
  have hinit : Refines P [key] (keys (ptInit P (fun x k => langevinInit d x k a ms) x y ssq key F)) :=
    Refines.split hP key 3
  intro s
  have hR : Refines P [key] (keys s) := hinit.trans (run ps _)
  have hR' : Refines P [key] ([s.key, s.normal.key, s.hot.key] ++
      (s.drawn ++ s.normal.drawn ++ s.hot.drawn)) := by
    refine hR.trans (Refines.perm ?_)
    simp only [keys, List.cons_append, List.append_assoc, List.nil_append]
    refine List.Perm.cons _ ?_
    refine (List.perm_middle).trans (List.Perm.cons _ ?_)
    rw [← List.append_assoc, ← List.append_assoc]
    exact List.perm_middle
  refine ⟨(keys_conclusion hR').1, ?_, (keys_conclusion hR').2⟩
  have hl : ∀ (ps : List (Params × Params)) (s : PtState ι κ δ μ A),
      (ps.foldl (fun s p => ptUpdate P sa (langevinUpdate P lay ad getData sg) s p.1 p.2) s).drawn.length =
        s.drawn.length + ps.length := by
    intro ps
    induction ps with
    | nil => intro s; rfl
    | cons p ps ih =>
      intro s
      rw [List.foldl_cons, ih]
      simp [ptUpdate]; ring
  have := hl ps (ptInit P (fun x k => langevinInit d x k a ms) x y ssq key F)
  show s.drawn.length = _
  rw [this]
  simp [ptInit]

/-- C74 for AMAGOLD with the reversible leapfrog integrator: momentum, noise and acceptance. -/
theorem c74_amagold {P : Prng κ} (hP : Spec.IdealSplit P) (lay : Layout ι) (γ : ℝ)
    (cm : Option (ι → ℝ)) (L : ℕ) (getData : δ → δ × β) (sg : StochGrad ι β μ)
    (ma : Option (MassAdaption ι Ms)) (fullPot : FullPotFn ι φ μ) (f : φ) (d : δ) (x : ι → ℝ) (key : κ)
    (ms : μ) (ps : List Params) :
    let s := amagoldRun P ma (revForAmagold P lay γ cm L getData sg) fullPot
      (amagoldInit P ma (revInitForAmagold P lay cm d) fullPot f x key ms) ps
    (s.drawn ++ s.integratorState.drawn).Nodup ∧ s.drawn.length = ps.length ∧
      ∀ k ∈ s.drawn ++ s.integratorState.drawn, Spec.Derived P key k := by
  let keys : AmagoldState ι κ δ μ φ Ms → List κ := fun s =>
    (s.key :: s.drawn) ++ (s.integratorState.key :: s.integratorState.drawn)
  have step : ∀ (s : AmagoldState ι κ δ μ φ Ms) (p : Params), Refines P (keys s)
      (keys (amagoldUpdate P ma (revForAmagold P lay γ cm L getData sg) fullPot s p).1) := by
    intro s p
    have h1 : Refines P (s.integratorState.key :: s.integratorState.drawn)
        ((revForAmagold P lay γ cm L getData sg s.integratorState p
          (currentMass ma s.massState)).key ::
          (revForAmagold P lay γ cm L getData sg s.integratorState p
          (currentMass ma s.massState)).drawn) :=
      refines_rev hP lay γ cm L getData sg ⟨0, s.integratorState.key, s.integratorState.positions,
        s.integratorState.momentum, s.integratorState.dataState, s.integratorState.modelState,
        s.integratorState.drawn⟩ p (currentMass ma s.massState)
    have h3 : Refines P (s.key :: s.drawn) (P.split s.key 2 0 :: (s.drawn ++ [P.split s.key 2 1])) := by
      have h4 : Refines P [s.key] [P.split s.key 2 0, P.split s.key 2 1] := Refines.split hP s.key 2
      refine (h4.append s.drawn).trans (Refines.perm ?_)
      exact List.Perm.cons _ (List.perm_append_comm (l₁ := [_]))
    exact (h3.append _).trans (h1.append_left _)
  have run : ∀ (ps : List Params) (s : AmagoldState ι κ δ μ φ Ms), Refines P (keys s)
      (keys (amagoldRun P ma (revForAmagold P lay γ cm L getData sg) fullPot s ps)) := by
    intro ps
    induction ps with
    | nil => intro s; exact Refines.refl _ _
    | cons p ps ih => intro s; exact (step s p).trans (ih _)
  have hinit : Refines P [key]
      (keys (amagoldInit P ma (revInitForAmagold P lay cm d) fullPot f x key ms)) := by
    have h1 : Refines P [key] [P.split key 2 0, P.split key 2 1] := Refines.split hP key 2
    have h2 := refines_step2 hP lay (P.split key 2 0) []
    exact h1.trans ((Refines.perm (List.Perm.swap _ _ _)).trans (h2.append_left [P.split key 2 1]))
  intro s
  have hR : Refines P [key] (keys s) := hinit.trans (run ps _)
  have hR' : Refines P [key] ([s.key, s.integratorState.key] ++ (s.drawn ++ s.integratorState.drawn)) := by
    refine hR.trans (Refines.perm ?_)
    simp only [keys, List.cons_append, List.nil_append]
    exact List.Perm.cons _ List.perm_middle
  refine ⟨(keys_conclusion hR').1, ?_, (keys_conclusion hR').2⟩
  have hl : ∀ (ps : List Params) (s : AmagoldState ι κ δ μ φ Ms),
      (amagoldRun P ma (revForAmagold P lay γ cm L getData sg) fullPot s ps).drawn.length =
        s.drawn.length + ps.length := by
    intro ps
    induction ps with
    | nil => intro s; rfl
    | cons p ps ih =>
      intro s
      have := ih (amagoldUpdate P ma (revForAmagold P lay γ cm L getData sg) fullPot s p).1
      refine this.trans ?_
      show (s.drawn ++ [_]).length + _ = _
      simp; ring
  have := hl ps (amagoldInit P ma (revInitForAmagold P lay cm d) fullPot f x key ms)
  show s.drawn.length = _
  rw [this]
  simp [amagoldInit]

/-- C74 for SGGMC with the OBABO integrator: both momentum refreshments and the acceptance. -/
theorem c74_sggmc {P : Prng κ} (hP : Spec.IdealSplit P) (lay : Layout ι) (γ : ℝ)
    (cm : Option (ι → ℝ)) (L : ℕ) (getData : δ → δ × β) (sg : StochGrad ι β μ)
    (ma : Option (MassAdaption ι Ms)) (fullPot : FullPotFn ι φ μ) (f : φ) (d : δ) (x : ι → ℝ) (key : κ)
    (ms : μ) (ps : List Params) :
    let s := sggmcRun P ma (obaboForSggmc P lay γ cm L getData sg) fullPot
      (sggmcInit P ma (obaboInitForSggmc d) fullPot f x key ms) ps
    (s.drawn ++ s.integratorState.drawn).Nodup ∧ s.drawn.length = ps.length ∧
      ∀ k ∈ s.drawn ++ s.integratorState.drawn, Spec.Derived P key k := by
  let keys : SggmcState ι κ δ μ φ Ms → List κ := fun s =>
    (s.key :: s.drawn) ++ (s.integratorState.key :: s.integratorState.drawn)
  have step : ∀ (s : SggmcState ι κ δ μ φ Ms) (p : Params), Refines P (keys s)
      (keys (sggmcUpdate P ma (obaboForSggmc P lay γ cm L getData sg) fullPot s p).1) := by
    intro s p
    have h1 : Refines P (s.integratorState.key :: s.integratorState.drawn)
        ((obaboForSggmc P lay γ cm L getData sg s.integratorState p
          (currentMass ma s.massState)).key ::
          (obaboForSggmc P lay γ cm L getData sg s.integratorState p
          (currentMass ma s.massState)).drawn) :=
      refines_obabo hP lay γ cm L getData sg ⟨s.integratorState.potential, s.integratorState.key,
        s.integratorState.positions, s.integratorState.momentum, s.integratorState.dataState,
        s.integratorState.modelState, 0, 0, s.integratorState.drawn⟩ p (currentMass ma s.massState)
    have h3 : Refines P (s.key :: s.drawn) (P.split s.key 2 0 :: (s.drawn ++ [P.split s.key 2 1])) := by
      have h4 : Refines P [s.key] [P.split s.key 2 0, P.split s.key 2 1] := Refines.split hP s.key 2
      refine (h4.append s.drawn).trans (Refines.perm ?_)
      exact List.Perm.cons _ (List.perm_append_comm (l₁ := [_]))
    exact (h3.append _).trans (h1.append_left _)
  have run : ∀ (ps : List Params) (s : SggmcState ι κ δ μ φ Ms), Refines P (keys s)
      (keys (sggmcRun P ma (obaboForSggmc P lay γ cm L getData sg) fullPot s ps)) := by
    intro ps
    induction ps with
    | nil => intro s; exact Refines.refl _ _
    | cons p ps ih => intro s; exact (step s p).trans (ih _)
  have hinit : Refines P [key]
      (keys (sggmcInit P ma (obaboInitForSggmc d) fullPot f x key ms)) := by
    have h1 : Refines P [key] [P.split key 2 0, P.split key 2 1] := Refines.split hP key 2
    exact h1.trans (Refines.perm (List.Perm.swap _ _ _))
  intro s
  have hR : Refines P [key] (keys s) := hinit.trans (run ps _)
  have hR' : Refines P [key] ([s.key, s.integratorState.key] ++ (s.drawn ++ s.integratorState.drawn)) := by
    refine hR.trans (Refines.perm ?_)
    simp only [keys, List.cons_append, List.nil_append]
    exact List.Perm.cons _ List.perm_middle
  refine ⟨(keys_conclusion hR').1, ?_, (keys_conclusion hR').2⟩
  have hl : ∀ (ps : List Params) (s : SggmcState ι κ δ μ φ Ms),
      (sggmcRun P ma (obaboForSggmc P lay γ cm L getData sg) fullPot s ps).drawn.length =
        s.drawn.length + ps.length := by
    intro ps
    induction ps with
    | nil => intro s; rfl
    | cons p ps ih =>
      intro s
      have := ih (sggmcUpdate P ma (obaboForSggmc P lay γ cm L getData sg) fullPot s p).1
      refine this.trans ?_
      show (s.drawn ++ [_]).length + _ = _
      simp; ring
  have := hl ps (sggmcInit P ma (obaboInitForSggmc d) fullPot f x key ms)
  show s.drawn.length = _
  rw [this]
  simp [sggmcInit]

/-- The hypothesis of the theorems can be met, with arbitrary random numbers. -/
example (normal : List ℕ → ℕ → ℕ → ℝ) (uniform : List ℕ → ℝ) :
    ∃ P : Prng (List ℕ), Spec.IdealSplit P ∧ P.normal = normal ∧ P.uniform = uniform :=
  ⟨Spec.pathPrng normal uniform, Spec.pathPrng_ideal normal uniform, rfl, rfl⟩

end JaxSgmc
