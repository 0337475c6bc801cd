import Verif.Props.Loader
import Verif.Spec.Stream

/-!
# Property C81: random chains consume their generator

The observations a random chain delivers are the successive outputs of one generator, seeded with
the given seed (or the chain id): no draw and no re-shuffle uses a generator state twice, whatever
else happens with the loader.
-/

namespace JaxSgmc

open Spec

section
variable {σ ρ : Type} (R : Rng σ) {data : List (String × List ρ)} {s : LSys σ ρ}

theorem permAt_eq_nthDraw (N : Nat) (g : σ) (e : Nat) :
    permAt R N g e = nthDraw (fun x => R.choicePerm x N) g e := by
  have : rngAt R N g e = (fun x => (R.choicePerm x N).2)^[e] g := by
    induction e with
    | zero => rfl
    | succ e ih => rw [Function.iterate_succ_apply', ← ih]; rfl
  simp only [permAt, nthDraw, this]

/-- **C81.** Without shuffling, the `k`-th mini-batch ever delivered consists of the observations with
the indices of the `k`-th successive draw (with replacement) from the seeded generator; all masks are
`true`. -/
theorem c81_draws (hs : Reachable R data s) (hR : R.Lawful) {cs mb cid : Nat}
    {seed : Option Nat} {s' : LSys σ ρ}
    (hreg : lstep R s (.regRandom cs mb false false seed) = (s', .registered cid))
    (hcs : 0 < cs) (ops : List LOp) (hl : ∀ op ∈ ops, isLoad cid op = false) :
    let os := outcomes cid (lrun R s' ops).2
    (∀ o ∈ os, ∃ b, o = .batches b) ∧
    masks os = List.replicate (os.length * cs) (List.replicate mb true) ∧
    ∀ name d, data.lookup name = some d →
      (miniBatches name os).length = os.length * cs ∧
      ∀ k rows, (miniBatches name os)[k]? = some rows →
        RowsOf d (nthDraw (fun g => R.choiceRepl g s.loader.obsCount mb)
          (R.seed (seed.getD cid)) k) rows := by
  intro os
  obtain ⟨rfl, hmb, hmbN, _, hch, hdat, hobs, _⟩ := registered_random hreg
  have hs' : Reachable R data s' := by
    have := hs.step R [.regRandom cs mb false false seed]
    simpa [lrun, hreg] using this
  obtain ⟨sel, ⟨c', hsel⟩, hlen, hok, hmask, hrows⟩ := stream_facts R hs' hR _ _ hch hcs ops hl
  rw [hobs] at hsel
  set N := s.loader.obsCount with hN
  set g := R.seed (seed.getD s.loader.chains.length) with hg
  have key : ∀ n (c : RandomChain σ), c.inEpochs = false → c.shuffle = false → c.mbSize = mb →
      ∃ c', indexSteps R N n (.random c) = .ok ((List.range n).map (fun k =>
        (nthDraw (fun g => R.choiceRepl g N mb) c.rng k, List.replicate mb true)), c') := by
    intro n
    induction n with
    | zero => intro c _ _ _; exact ⟨_, rfl⟩
    | succ n ih =>
      intro c h1 h2 h3
      obtain ⟨c', h⟩ := ih { c with rng := (R.choiceRepl c.rng N c.mbSize).2 } h1 h2 h3
      refine ⟨c', ?_⟩
      have hstep : indexStep R N (.random c) = .ok (((R.choiceRepl c.rng N c.mbSize).1,
          List.replicate c.mbSize true),
          .random { c with rng := (R.choiceRepl c.rng N c.mbSize).2 }) := by
        simp only [indexStep, h1, h2, Bool.false_eq_true, if_false, drawIndices]
      simp only [indexSteps, hstep, h]
      simp only [List.range_succ_eq_map, List.map_cons, List.map_map, h3]
      rfl
  obtain ⟨c1, h1⟩ := key (os.length * cs)
    (newRandom R N s.loader.chains.length cs mb false false seed) rfl rfl rfl
  change indexSteps R N (os.length * cs) _ = _ at hsel
  rw [h1] at hsel
  simp only [Except.ok.injEq, Prod.mk.injEq] at hsel
  obtain ⟨rfl, _⟩ := hsel
  change masks os = _ at hmask
  refine ⟨hok, ?_, ?_⟩
  · rw [hmask, List.map_map, List.eq_replicate_iff]
    refine ⟨by simp, ?_⟩
    intro m hm
    obtain ⟨k, _, rfl⟩ := List.mem_map.1 hm
    rfl
  · intro name d hd
    have hf := hrows name d hd
    change List.Forall₂ _ _ (miniBatches name os) at hf
    have hml : (miniBatches name os).length = os.length * cs := by
      rw [← hf.length_eq]; simp
    refine ⟨hml, ?_⟩
    intro k rows hk
    have hlt : k < os.length * cs := by
      rw [← hml]; exact (List.getElem?_eq_some_iff.1 hk).1
    have := hf.get (i := k) (by simpa using hlt) (by omega)
    rw [List.getElem?_eq_some_iff] at hk
    obtain ⟨hk', rfl⟩ := hk
    simpa [newRandom] using this

/-- **C81.** Shuffling in epochs, epoch `e` uses the `e`-th successive permutation of the seeded
generator. -/
theorem c81_epochs (hs : Reachable R data s) (hR : R.Lawful) {cs mb cid : Nat}
    {seed : Option Nat} {s' : LSys σ ρ}
    (hreg : lstep R s (.regRandom cs mb true true seed) = (s', .registered cid))
    (hcs : 0 < cs) (ops : List LOp) (hl : ∀ op ∈ ops, isLoad cid op = false) :
    let os := outcomes cid (lrun R s' ops).2
    let q := (s.loader.obsCount + mb - 1) / mb
    ∀ e, e * q + q ≤ (masks os).length → ∀ name d, data.lookup name = some d →
      RowsOf d (nthDraw (fun g => R.choicePerm g s.loader.obsCount) (R.seed (seed.getD cid)) e)
        (valid (((miniBatches name os).drop (e * q)).take q).flatten
          (((masks os).drop (e * q)).take q).flatten) := by
  intro os q e he name d hd
  rw [← permAt_eq_nthDraw]
  exact (in_epochs_strong R hs hR hreg hcs ops hl).2.2.1 e he name d hd

/-- **C81.** Shuffling without epochs, the observations delivered are a prefix of the concatenation of
the successive permutations of the seeded generator. -/
theorem c81_shuffle (hs : Reachable R data s) (hR : R.Lawful) {cs mb cid : Nat}
    {seed : Option Nat} {s' : LSys σ ρ}
    (hreg : lstep R s (.regRandom cs mb false true seed) = (s', .registered cid))
    (hcs : 0 < cs) (ops : List LOp) (hl : ∀ op ∈ ops, isLoad cid op = false) :
    let os := outcomes cid (lrun R s' ops).2
    ∃ n, ∃ drawn : List Nat, drawn <+: ((List.range n).map (nthDraw
          (fun g => R.choicePerm g s.loader.obsCount) (R.seed (seed.getD cid)))).flatten ∧
      drawn.length = os.length * cs * mb ∧
      ∀ name d, data.lookup name = some d → RowsOf d drawn (miniBatches name os).flatten := by
  intro os
  obtain ⟨_, _, n, h⟩ := shuffle_strong R hs hR hreg hcs ops hl
  refine ⟨n, ?_⟩
  have : nthDraw (fun g => R.choicePerm g s.loader.obsCount) (R.seed (seed.getD cid)) =
      permAt R s.loader.obsCount (R.seed (seed.getD cid)) := by
    funext e; rw [permAt_eq_nthDraw]
  rw [this]
  exact h

/-- The hypotheses of C81 are met (with another chain used in between); the draws differ. -/
example : Reachable toyRng toyData toySys ∧
    (lstep toyRng toySys (.regRandom 2 2 false false (some 1))).2 = .registered 0 ∧
    miniBatches "x" (outcomes 0 (lrun toyRng
      (lstep toyRng toySys (.regRandom 2 2 false false (some 1))).1
      [.get 0, .regRandom 1 2 false true none, .get 1, .get 0]).2) =
        [[11, 11], [12, 12], [13, 13], [14, 14]] ∧
    nthDraw (fun g => toyRng.choiceRepl g 5 2) (toyRng.seed 1) 3 = [4, 4] ∧
    nthDraw (fun g => toyRng.choicePerm g 5) (toyRng.seed 1) 1 = [2, 3, 4, 0, 1] := by
  refine ⟨⟨toySys.loader, [], by rfl, rfl⟩, by decide, by decide, by decide, by decide⟩

end

end JaxSgmc
