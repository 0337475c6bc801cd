import Verif.Model.Pmap
import Verif.Props.Vmap

/-!
# Runs on several devices (C123)
-/

namespace JaxSgmc

open Spec

section
variable {Ks σs Vs Kt σt Vt Kb σb Kh σh S α H σ ρ : Type}

theorem scanPmap_append (saving : Saving H σ ρ α) (solver : Solver S Vs Vt α)
    (sched : Scheduler Ks σs Vs Kt σt Vt Kb σb Kh σh) (o1 o2 : List Nat)
    (st : H × List ((S × List (SchedState σs σt σb σh)) × σ)) :
    mcmcScanPmap saving solver sched (o1 ++ o2) st =
      match mcmcScanPmap saving solver sched o1 st with
      | .error e => .error e
      | .ok st' => mcmcScanPmap saving solver sched o2 st' := by
  induction o1 generalizing st with
  | nil => rfl
  | cons i o1 ih =>
    rw [List.cons_append, mcmcScanPmap, mcmcScanPmap]
    cases pmapStep saving solver sched st i with
    | error e => rfl
    | ok st' => exact ih st'

/-! ### Saving on the device -/

theorem scan_succ (zero : α → α) (solver : Solver S Vs Vt α)
    (sched : Scheduler Ks σs Vs Kt σt Vt Kb σb Kh σh) (x : S × List (SchedState σs σt σb σh))
    (sv : NoSaveState α) :
    ∀ n, mcmcScan (noSave zero) solver sched (n + 1) () x sv =
      match mcmcScan (noSave zero) solver sched n () x sv with
      | .error e => .error e
      | .ok (_, sv') => (noSave zero).save () sv' (isKept solver sched x n)
          (solver.get (trajectory solver sched x (n + 1)).1) := by
  intro n
  induction n generalizing x sv with
  | zero =>
    rw [mcmcScan, mcmcScan]
    have := mcmcStep_trajectory solver sched x 0
    simp only [trajectory] at this
    rw [this]
    dsimp only [trajectory]
    cases (noSave zero).save () sv (isKept solver sched x 0) _ with
    | error e => rfl
    | ok p => rfl
  | succ n ih =>
    rw [mcmcScan]
    have hrhs : mcmcScan (noSave zero) solver sched (n + 1) () x sv =
      (match (noSave zero).save () sv (mcmcStep solver sched x).2.1 (mcmcStep solver sched x).2.2 with
      | .error e => .error e
      | .ok (h', sv') => mcmcScan (noSave zero) solver sched n h' (mcmcStep solver sched x).1 sv') := by
      rw [mcmcScan]
      cases (noSave zero).save () sv (mcmcStep solver sched x).2.1 (mcmcStep solver sched x).2.2 <;> rfl
    rw [hrhs]
    cases (noSave zero).save () sv (mcmcStep solver sched x).2.1 (mcmcStep solver sched x).2.2 with
    | error e => rfl
    | ok p =>
      obtain ⟨u, sv'⟩ := p
      dsimp only
      rw [ih]
      have h1 : isKept solver sched (mcmcStep solver sched x).1 n = isKept solver sched x (n + 1) := by
        simp only [isKept, trajectory_step]
      have h2 : trajectory solver sched (mcmcStep solver sched x).1 (n + 1) =
        trajectory solver sched x (n + 1 + 1) := trajectory_step solver sched x (n + 1)
      rw [h1, h2]

/-- With saving on the device every device computes what the chain computes on its own. -/
theorem noSave_scanPmap (zero : α → α) (solver : Solver S Vs Vt α)
    (sched : Scheduler Ks σs Vs Kt σt Vt Kb σb Kh σh)
    (lanes : List ((S × List (SchedState σs σt σb σh)) × NoSaveState α)) (order : List Nat) :
    (∀ lanes', mcmcScanPmap (noSave zero) solver sched order ((), lanes) = .ok ((), lanes') →
      lanes'.length = lanes.length ∧ ∀ i l, lanes[i]? = some l → ∃ sv,
        mcmcScan (noSave zero) solver sched (order.count i) () l.1 l.2 = .ok ((), sv) ∧
        lanes'[i]? = some (trajectory solver sched l.1 (order.count i), sv)) ∧
    ((∀ i l, lanes[i]? = some l → ∃ sv,
        mcmcScan (noSave zero) solver sched (order.count i) () l.1 l.2 = .ok ((), sv)) →
      ∃ lanes', mcmcScanPmap (noSave zero) solver sched order ((), lanes) = .ok ((), lanes')) := by
  induction order using List.reverseRecOn with
  | nil =>
    refine ⟨?_, fun _ => ⟨lanes, rfl⟩⟩
    intro lanes' h
    simp only [mcmcScanPmap, Except.ok.injEq, Prod.mk.injEq, true_and] at h
    subst h
    exact ⟨rfl, fun i l hl => ⟨l.2, by simp [mcmcScan], by simpa [trajectory] using hl⟩⟩
  | append_singleton order j ih =>
    obtain ⟨ih1, ih2⟩ := ih
    have hcount : ∀ i, (order ++ [j]).count i = order.count i + if i = j then 1 else 0 := by
      intro i
      rw [List.count_append, List.count_singleton]
      by_cases h : i = j
      · rw [if_pos h, if_pos (by simp [h])]
      · rw [if_neg h, if_neg (by simpa using fun e => h e.symm)]
    -- the last step
    have hstep : ∀ mid : List ((S × List (SchedState σs σt σb σh)) × NoSaveState α),
        mcmcScanPmap (noSave zero) solver sched order ((), lanes) = .ok ((), mid) →
        ∀ l, lanes[j]? = some l → ∀ sv,
          mcmcScan (noSave zero) solver sched (order.count j) () l.1 l.2 = .ok ((), sv) →
          pmapStep (noSave zero) solver sched ((), mid) j =
            match mcmcScan (noSave zero) solver sched (order.count j + 1) () l.1 l.2 with
            | .error e => .error e
            | .ok (_, sv') => .ok ((), mid.set j
                (trajectory solver sched l.1 (order.count j + 1), sv')) := by
      intro mid hm l hl sv hsv
      obtain ⟨sv2, g1, g2⟩ := (ih1 mid hm).2 j l hl
      rw [hsv] at g1
      simp only [Except.ok.injEq, Prod.mk.injEq, true_and] at g1
      subst g1
      rw [scan_succ, hsv]
      unfold pmapStep
      dsimp only
      rw [g2]
      dsimp only
      rw [mcmcStep_trajectory]
      dsimp only
      cases (noSave zero).save () sv (isKept solver sched l.1 (order.count j)) _ with
      | error e => rfl
      | ok p => rfl
    constructor
    · intro lanes' h
      rw [scanPmap_append] at h
      cases hm : mcmcScanPmap (noSave zero) solver sched order ((), lanes) with
      | error e => rw [hm] at h; cases h
      | ok p =>
        obtain ⟨u, mid⟩ := p
        rw [hm] at h
        obtain ⟨hlen, hmid⟩ := ih1 mid hm
        dsimp only at h
        rw [mcmcScanPmap] at h
        cases hj : lanes[j]? with
        | none =>
          have hmj : mid[j]? = none := by
            rw [List.getElem?_eq_none_iff] at hj ⊢
            omega
          have hp : pmapStep (noSave zero) solver sched (u, mid) j = .ok (u, mid) := by
            unfold pmapStep
            dsimp only
            rw [hmj]
          rw [hp] at h
          simp only [mcmcScanPmap, Except.ok.injEq, Prod.mk.injEq, true_and] at h
          subst h
          refine ⟨hlen, fun i l hl => ?_⟩
          have hij : i ≠ j := fun e => by rw [e, hj] at hl; cases hl
          rw [hcount, if_neg hij, Nat.add_zero]
          exact hmid i l hl
        | some l =>
          obtain ⟨sv, g1, g2⟩ := hmid j l hj
          have hp := hstep mid hm l hj sv g1
          rw [hp] at h
          cases hs : mcmcScan (noSave zero) solver sched (order.count j + 1) () l.1 l.2 with
          | error e => rw [hs] at h; cases h
          | ok q =>
            obtain ⟨v, sv'⟩ := q
            rw [hs] at h
            simp only [mcmcScanPmap, Except.ok.injEq, Prod.mk.injEq, true_and] at h
            subst h
            refine ⟨by simpa using hlen, fun i l' hl' => ?_⟩
            rw [hcount]
            by_cases hij : i = j
            · subst hij
              rw [hj] at hl'
              cases hl'
              rw [if_pos rfl]
              refine ⟨sv', hs, ?_⟩
              have : i < mid.length := by
                have := (List.getElem?_eq_some_iff.1 hj).1
                omega
              simp [this]
            · rw [if_neg hij, Nat.add_zero]
              obtain ⟨sv2, k1, k2⟩ := hmid i l' hl'
              exact ⟨sv2, k1, by rw [List.getElem?_set_ne (Ne.symm hij)]; exact k2⟩
    · intro hall
      obtain ⟨mid, hm⟩ := ih2 (by
        intro i l hl
        obtain ⟨sv, h⟩ := hall i l hl
        rw [hcount] at h
        by_cases hij : i = j
        · rw [if_pos hij, scan_succ] at h
          cases hs : mcmcScan (noSave zero) solver sched (order.count i) () l.1 l.2 with
          | error e => rw [hs] at h; cases h
          | ok p => exact ⟨p.2, rfl⟩
        · rw [if_neg hij, Nat.add_zero] at h
          exact ⟨sv, h⟩)
      rw [scanPmap_append, hm]
      dsimp only
      rw [mcmcScanPmap]
      cases hj : lanes[j]? with
      | none =>
        have hmj : mid[j]? = none := by
          have := (ih1 mid hm).1
          rw [List.getElem?_eq_none_iff] at hj ⊢
          omega
        have hp : pmapStep (noSave zero) solver sched ((), mid) j = .ok ((), mid) := by
          unfold pmapStep
          dsimp only
          rw [hmj]
        rw [hp]
        exact ⟨mid, rfl⟩
      | some l =>
        obtain ⟨sv, g1, -⟩ := (ih1 mid hm).2 j l hj
        rw [hstep mid hm l hj sv g1]
        obtain ⟨sv', h⟩ := hall j l hj
        rw [hcount, if_pos rfl] at h
        rw [h]
        exact ⟨_, rfl⟩

variable [Inhabited Ks] [Inhabited Kt] [Inhabited Kb] [Inhabited Kh]

/-- **C123** (saving on the device).  With enough devices the strategy `pmap` returns what the strategy
`map` returns, whatever the order in which the devices proceed; one of them fails iff the other
fails. -/
theorem c123_device (zero : α → α) (solver : Solver S Vs Vt α)
    (sched : Scheduler Ks σs Vs Kt σt Vt Kb σb Kh σh) (helpers : List (SchedKw Ks Kt Kb Kh))
    (its devices : Nat) (order : List Nat) (states : List S) (hne : states ≠ [])
    (hdev : states.length ≤ devices) (horder : ∀ i < states.length, order.count i = its)
    (rs : List (SaveResult α)) :
    mcmcPmap devices (noSave zero) solver sched helpers its order () states = .ok ((), rs) ↔
      mcmcMap (noSave zero) solver sched helpers its () states = .ok ((), rs) := by
  rw [← c44_vmap_eq_map zero solver sched helpers its states hne rs, mcmcPmap, mcmcVmap, if_neg hne,
    if_neg hne]
  cases h1 : mcmcInitAll (noSave zero) solver sched helpers its () states with
  | error e => simp
  | ok p =>
    obtain ⟨u, lanes⟩ := p
    have hlen : lanes.length = states.length :=
      ((initAll_iff zero solver sched helpers its states lanes).1 h1).length_eq.symm
    dsimp only
    rw [if_neg (by omega)]
    obtain ⟨k1, k2⟩ := noSave_scanPmap zero solver sched lanes order
    have hcnt : ∀ i l, lanes[i]? = some l → order.count i = its := fun i l hl =>
      horder i (by have := (List.getElem?_eq_some_iff.1 hl).1; omega)
    -- both scans succeed together and give the same saving states
    have key : ∀ svs, mcmcScanVmap (noSave zero) solver sched its () lanes = .ok ((), svs) ↔
        ∃ lanes', mcmcScanPmap (noSave zero) solver sched order ((), lanes) = .ok ((), lanes') ∧
          svs = lanes'.map Prod.snd := by
      intro svs
      rw [scanVmap_iff]
      constructor
      · intro hf
        have hget : ∀ (i : Nat) (l : (S × List (SchedState σs σt σb σh)) × NoSaveState α), lanes[i]? = some l → ∃ sv, svs[i]? = some sv ∧
            mcmcScan (noSave zero) solver sched its () l.1 l.2 = .ok ((), sv) := by
          intro i l hl
          obtain ⟨hi, he⟩ := List.getElem?_eq_some_iff.1 hl
          have hi' : i < svs.length := by rw [← hf.length_eq]; exact hi
          refine ⟨svs[i], by simp [hi'], ?_⟩
          have := (List.forall₂_iff_get.1 hf).2 i hi hi'
          simpa [← he] using this
        obtain ⟨lanes', hp⟩ := k2 (fun i l hl => by
          obtain ⟨sv, -, h⟩ := hget i l hl
          exact ⟨sv, by rw [hcnt i l hl]; exact h⟩)
        refine ⟨lanes', hp, ?_⟩
        obtain ⟨g1, g2⟩ := k1 lanes' hp
        apply List.ext_getElem?
        intro i
        rw [List.getElem?_map]
        cases hl : lanes[i]? with
        | none =>
          rw [List.getElem?_eq_none_iff] at hl
          rw [List.getElem?_eq_none (by rw [← hf.length_eq]; exact hl),
            List.getElem?_eq_none (by rw [g1]; exact hl)]
          rfl
        | some l =>
          obtain ⟨sv, e1, e2⟩ := hget i l hl
          obtain ⟨sv', e3, e4⟩ := g2 i l hl
          rw [hcnt i l hl, e2] at e3
          simp only [Except.ok.injEq, Prod.mk.injEq, true_and] at e3
          rw [e1, e4, e3]
          rfl
      · rintro ⟨lanes', hp, rfl⟩
        obtain ⟨g1, g2⟩ := k1 lanes' hp
        rw [List.forall₂_iff_get]
        refine ⟨by simp [g1], fun i hi hi' => ?_⟩
        obtain ⟨sv, e3, e4⟩ := g2 i lanes[i] (by simp [hi])
        rw [hcnt i lanes[i] (by simp [hi])] at e3
        have e5 : lanes'[i]'(by omega) = (trajectory solver sched lanes[i].1 (order.count i), sv) :=
          (List.getElem?_eq_some_iff.1 e4).2
        simpa [e5] using e3
    cases hv : mcmcScanVmap (noSave zero) solver sched its u lanes with
    | ok q =>
      obtain ⟨v, svs⟩ := q
      obtain ⟨lanes', hp, rfl⟩ := (key svs).1 hv
      rw [hp]
    | error e =>
      cases hp : mcmcScanPmap (noSave zero) solver sched order (u, lanes) with
      | error e' => simp
      | ok q =>
        obtain ⟨v, lanes'⟩ := q
        have := (key _).2 ⟨lanes', hp, rfl⟩
        rw [hv] at this
        cases this

end

/-! ### Saving to the host -/

section
variable {Ks σs Vs Kt σt Vt Kb σb Kh σh S α : Type}

theorem keptOfRun_succ (solver : Solver S Vs Vt α) (sched : Scheduler Ks σs Vs Kt σt Vt Kb σb Kh σh)
    (x : S × List (SchedState σs σt σb σh)) (n : Nat) :
    keptOfRun solver sched x (n + 1) = keptOfRun solver sched x n ++
      if isKept solver sched x n then [solver.get (trajectory solver sched x (n + 1)).1] else [] := by
  unfold keptOfRun
  rw [List.range_succ, List.filter_append, List.map_append]
  congr 1
  cases h : isKept solver sched x n <;> simp [h]

theorem keptOfRun_mono (solver : Solver S Vs Vt α) (sched : Scheduler Ks σs Vs Kt σt Vt Kb σb Kh σh)
    (x : S × List (SchedState σs σt σb σh)) (n m : Nat) (h : n ≤ m) :
    (keptOfRun solver sched x n).length ≤ (keptOfRun solver sched x m).length := by
  induction m, h using Nat.le_induction with
  | base => exact le_refl _
  | succ m _ ih => rw [keptOfRun_succ, List.length_append]; omega

theorem keptOfRun_shape (solver : Solver S Vs Vt α) (hp : PreservesStructure solver)
    (sched : Scheduler Ks σs Vs Kt σt Vt Kb σb Kh σh)
    (x : S × List (SchedState σs σt σb σh)) (n : Nat) :
    ∀ t ∈ keptOfRun solver sched x n, t.shape = (solver.get x.1).shape := by
  intro t ht
  obtain ⟨j, -, rfl⟩ := List.mem_map.1 ht
  exact trajectory_shape solver hp sched x (j + 1)

/-- The state of the collector and the devices after `cnt i` iterations on device `i`. -/
structure PmapInv (zero : α → α) (solver : Solver S Vs Vt α)
    (sched : Scheduler Ks σs Vs Kt σt Vt Kb σb Kh σh) (scheds : List (SchedState σs σt σb σh))
    (n : Nat) (C0 : MemCollector α) (states : List S) (cnt : Nat → Nat) (C : MemCollector α)
    (lanes : List ((S × List (SchedState σs σt σb σh)) × HostState)) : Prop where
  dir : C.saveDir = C0.saveDir
  files : C.files = C0.files
  size : lanes.length = states.length
  chainsSize : C.chains.length = C0.chains.length + states.length
  before : C.chains.take C0.chains.length = C0.chains
  lane : ∀ i s, states[i]? = some s → ∃ ch, C.chains[C0.chains.length + i]? = some ch ∧
    lanes[i]? = some (trajectory solver sched (s, scheds) (cnt i),
      ⟨C0.chains.length + i, (keptOfRun solver sched (s, scheds) (cnt i)).length⟩) ∧
    ChainHolds zero (solver.get s) n (keptOfRun solver sched (s, scheds) (cnt i)) ch ∧
    ch.locked = true

theorem host_scanPmap (zero : α → α) (solver : Solver S Vs Vt α) (hp : PreservesStructure solver)
    (sched : Scheduler Ks σs Vs Kt σt Vt Kb σb Kh σh) (scheds : List (SchedState σs σt σb σh))
    (n its : Nat) (C0 : MemCollector α) (states : List S)
    (hfit : ∀ s ∈ states, (keptOfRun solver sched (s, scheds) its).length ≤ n)
    (C : MemCollector α) (lanes : List ((S × List (SchedState σs σt σb σh)) × HostState))
    (h0 : PmapInv zero solver sched scheds n C0 states (fun _ => 0) C lanes)
    (order : List Nat) (horder : ∀ i < states.length, order.count i ≤ its) :
    ∃ C' lanes', mcmcScanPmap (hostSaving zero) solver sched order (C, lanes) = .ok (C', lanes') ∧
      PmapInv zero solver sched scheds n C0 states (fun i => order.count i) C' lanes' := by
  induction order using List.reverseRecOn with
  | nil => exact ⟨C, lanes, rfl, by simpa using h0⟩
  | append_singleton order j ih =>
    have hcount : ∀ i, (order ++ [j]).count i = order.count i + if i = j then 1 else 0 := by
      intro i
      rw [List.count_append, List.count_singleton]
      by_cases h : i = j
      · rw [if_pos h, if_pos (by simp [h])]
      · rw [if_neg h, if_neg (by simpa using fun e => h e.symm)]
    obtain ⟨C1, l1, k1, hi⟩ := ih (fun i hi => by
      have := horder i hi
      rw [hcount] at this
      omega)
    rw [scanPmap_append, k1]
    dsimp only
    rw [mcmcScanPmap]
    cases hj : states[j]? with
    | none =>
      have hl : l1[j]? = none := by
        rw [List.getElem?_eq_none_iff] at hj ⊢
        rw [hi.size]
        exact hj
      have hs : pmapStep (hostSaving zero) solver sched (C1, l1) j = .ok (C1, l1) := by
        unfold pmapStep
        dsimp only
        rw [hl]
      rw [hs]
      refine ⟨C1, l1, rfl, ⟨hi.dir, hi.files, hi.size, hi.chainsSize, hi.before, ?_⟩⟩
      intro i s hs'
      have hij : i ≠ j := fun e => by rw [e, hj] at hs'; cases hs'
      rw [hcount, if_neg hij, Nat.add_zero]
      exact hi.lane i s hs'
    | some s =>
      obtain ⟨hjlt, hjs⟩ := List.getElem?_eq_some_iff.1 hj
      obtain ⟨ch, g1, g2, g3, g4⟩ := hi.lane j s hj
      have hmem : s ∈ states := by rw [← hjs]; exact List.getElem_mem hjlt
      have hle : order.count j + 1 ≤ its := by
        have := horder j hjlt
        rwa [hcount, if_pos rfl] at this
      have hlen := keptOfRun_mono solver sched (s, scheds) _ _ hle
      have hfits := hfit s hmem
      have hjl : j < l1.length := by rw [hi.size]; exact hjlt
      by_cases hk : isKept solver sched (s, scheds) (order.count j) = true
      · -- the sample is saved
        have hke : keptOfRun solver sched (s, scheds) (order.count j + 1) =
            keptOfRun solver sched (s, scheds) (order.count j) ++
              [solver.get (trajectory solver sched (s, scheds) (order.count j + 1)).1] := by
          rw [keptOfRun_succ, if_pos hk]
        obtain ⟨ch', m1, m2, m3, -⟩ := chSave_ok zero (solver.get s) n _ ch g3
          (solver.get (trajectory solver sched (s, scheds) (order.count j + 1)).1)
          (trajectory_shape solver hp sched (s, scheds) (order.count j + 1))
          (by rw [hke, List.length_append, List.length_singleton] at hlen; omega)
        have hs : pmapStep (hostSaving zero) solver sched (C1, l1) j =
            .ok ({ C1 with chains := C1.chains.set (C0.chains.length + j) ch' },
              l1.set j (trajectory solver sched (s, scheds) (order.count j + 1),
                ⟨C0.chains.length + j,
                  (keptOfRun solver sched (s, scheds) (order.count j)).length + 1⟩)) := by
          unfold pmapStep
          dsimp only
          rw [g2]
          dsimp only
          rw [mcmcStep_trajectory]
          dsimp only
          have hm : memSave C1 (C0.chains.length + j)
              (solver.get (trajectory solver sched (s, scheds) (order.count j + 1)).1).leaves =
              .ok { C1 with chains := C1.chains.set (C0.chains.length + j) ch' } := by
            simp [memSave, g1, m1]
          simp only [hostSaving, hostSave, hk, if_true, hm]
        rw [hs]
        refine ⟨_, _, rfl, ⟨hi.dir, hi.files, by simpa using hi.size, by simpa using hi.chainsSize,
          ?_, ?_⟩⟩
        · dsimp only
          rw [List.take_set_of_le (by omega)]
          exact hi.before
        · intro i s' hs'
          dsimp only
          rw [hcount]
          by_cases hij : i = j
          · subst hij
            rw [hj] at hs'
            cases hs'
            rw [if_pos rfl]
            have hlt : C0.chains.length + i < C1.chains.length := by rw [hi.chainsSize]; omega
            refine ⟨ch', by simp [hlt], ?_, by rw [hke]; exact m2, m3.trans g4⟩
            rw [hke, List.length_append, List.length_singleton]
            simp [hjl]
          · rw [if_neg hij, Nat.add_zero]
            obtain ⟨c, e1, e2, e3⟩ := hi.lane i s' hs'
            refine ⟨c, ?_, ?_, e3⟩
            · rw [List.getElem?_set_ne (by omega)]; exact e1
            · rw [List.getElem?_set_ne (Ne.symm hij)]; exact e2
      · have hke : keptOfRun solver sched (s, scheds) (order.count j + 1) =
            keptOfRun solver sched (s, scheds) (order.count j) := by
          rw [keptOfRun_succ, if_neg hk, List.append_nil]
        have hk' : isKept solver sched (s, scheds) (order.count j) = false := by simpa using hk
        have hs : pmapStep (hostSaving zero) solver sched (C1, l1) j =
            .ok (C1, l1.set j (trajectory solver sched (s, scheds) (order.count j + 1),
                ⟨C0.chains.length + j,
                  (keptOfRun solver sched (s, scheds) (order.count j)).length⟩)) := by
          unfold pmapStep
          dsimp only
          rw [g2]
          dsimp only
          rw [mcmcStep_trajectory]
          simp [hostSaving, hostSave, hk']
        rw [hs]
        refine ⟨_, _, rfl, ⟨hi.dir, hi.files, by simpa using hi.size, hi.chainsSize, hi.before, ?_⟩⟩
        intro i s' hs'
        rw [hcount]
        by_cases hij : i = j
        · subst hij
          rw [hj] at hs'
          cases hs'
          rw [if_pos rfl, hke]
          exact ⟨ch, g1, by simp [hjl], g3, g4⟩
        · rw [if_neg hij, Nat.add_zero]
          obtain ⟨c, e1, e2, e3⟩ := hi.lane i s' hs'
          exact ⟨c, e1, by rw [List.getElem?_set_ne (Ne.symm hij)]; exact e2, e3⟩

/-- The saving states at the end of the run. -/
def hostEnds (solver : Solver S Vs Vt α) (sched : Scheduler Ks σs Vs Kt σt Vt Kb σb Kh σh)
    (scheds : List (SchedState σs σt σb σh)) (its : Nat) : Nat → List S → List HostState
  | _, [] => []
  | b, s :: ss => ⟨b, (keptOfRun solver sched (s, scheds) its).length⟩ ::
      hostEnds solver sched scheds its (b + 1) ss

theorem hostEnds_get (solver : Solver S Vs Vt α) (sched : Scheduler Ks σs Vs Kt σt Vt Kb σb Kh σh)
    (scheds : List (SchedState σs σt σb σh)) (its b : Nat) (states : List S) (i : Nat) :
    (hostEnds solver sched scheds its b states)[i]? = states[i]?.map (fun s =>
      ⟨b + i, (keptOfRun solver sched (s, scheds) its).length⟩) := by
  induction states generalizing b i with
  | nil => simp [hostEnds]
  | cons s states ih =>
    cases i with
    | zero => simp [hostEnds]
    | succ i =>
      simp only [hostEnds, List.getElem?_cons_succ, ih]
      congr 1
      funext s'
      congr 1
      omega

theorem hostPost_kept (zero : α → α) (solver : Solver S Vs Vt α) (hp : PreservesStructure solver)
    (sched : Scheduler Ks σs Vs Kt σt Vt Kb σb Kh σh)
    (scheds : List (SchedState σs σt σb σh)) (n its : Nat) (states : List S)
    (d : Bool) (files : List (Nat × List (Key × List α))) (pre chs : List (MemChain α))
    (h : List.Forall₂ (fun s ch =>
      ChainHolds zero (solver.get s) n (keptOfRun solver sched (s, scheds) its) ch ∧
      ch.locked = true) states chs) :
    ∃ C' rs, mcmcPostAll (hostSaving zero) ⟨d, pre ++ chs, files⟩
        (hostEnds solver sched scheds its pre.length states) = .ok (C', rs) ∧
      List.Forall₂ (fun s r => r.sampleCount = (keptOfRun solver sched (s, scheds) its).length ∧
        Holds zero (solver.get s) n (keptOfRun solver sched (s, scheds) its) r.samples)
        states rs := by
  induction h generalizing pre files with
  | nil => exact ⟨_, [], rfl, .nil⟩
  | @cons s ch states chs hs hrest ih =>
    obtain ⟨hc, hl⟩ := hs
    obtain ⟨files', h7, -⟩ := memFinalize_ok ⟨d, pre ++ ch :: chs, files⟩ pre.length ch (by simp) hl
    have hset : (pre ++ ch :: chs).set pre.length { ch with locked := false }
        = pre ++ [{ ch with locked := false }] ++ chs := by
      rw [List.set_append_right _ _ (le_refl _)]; simp
    dsimp only at h7
    rw [hset] at h7
    obtain ⟨D, h8, h9, -⟩ := memResult_ok zero (solver.get s) n _
      (keptOfRun_shape solver hp sched (s, scheds) its)
      ⟨d, pre ++ [{ ch with locked := false }] ++ chs, files'⟩ pre.length
      { ch with locked := false } (by simp) ⟨hc.treedef, hc.count, hc.bufs⟩
    obtain ⟨C', rs, g1, g2⟩ := ih files' (pre ++ [{ ch with locked := false }])
    rw [List.length_append, List.length_singleton] at g1
    have hpost : (hostSaving zero).post ⟨d, pre ++ ch :: chs, files⟩
        ⟨pre.length, (keptOfRun solver sched (s, scheds) its).length⟩
        = .ok (⟨d, pre ++ [{ ch with locked := false }] ++ chs, files'⟩,
          ⟨(keptOfRun solver sched (s, scheds) its).length, D⟩) := by
      simp only [hostSaving, h7, h8]
    refine ⟨C', ⟨(keptOfRun solver sched (s, scheds) its).length, D⟩ :: rs, ?_, .cons ⟨rfl, h9⟩ g2⟩
    simp only [hostEnds, mcmcPostAll, hpost, g1]

theorem lanesAt_get (solver : Solver S Vs Vt α) (sched : Scheduler Ks σs Vs Kt σt Vt Kb σb Kh σh)
    (scheds : List (SchedState σs σt σb σh)) (k b : Nat) (states : List S) (i : Nat) :
    (lanesAt solver sched scheds k b states)[i]? = states[i]?.map (fun s =>
      (trajectory solver sched (s, scheds) k, ⟨b + i, k⟩)) := by
  induction states generalizing b i with
  | nil => simp [lanesAt]
  | cons s states ih =>
    cases i with
    | zero => simp [lanesAt]
    | succ i =>
      simp only [lanesAt, List.getElem?_cons_succ, ih]
      congr 1
      funext s'
      congr 2
      omega

variable [Inhabited Ks] [Inhabited Kt] [Inhabited Kb] [Inhabited Kh]

/-- **C123** (saving to the host).  With enough devices the strategy `pmap` returns what the strategy
`map` returns, for every order in which the callbacks of the devices reach the collector, with burn in
and thinning. -/
theorem c123_host (zero : α → α) (solver : Solver S Vs Vt α) (hp : PreservesStructure solver)
    (sched : Scheduler Ks σs Vs Kt σt Vt Kb σb Kh σh) (helpers : List (SchedKw Ks Kt Kb Kh))
    (its devices : Nat) (order : List Nat) (scheds : List (SchedState σs σt σb σh)) (n : Int)
    (hs : mcmcSchedulers sched its helpers = .ok (scheds, n)) (hn : 0 ≤ n)
    (C : MemCollector α) (states : List S) (hne : states ≠ [])
    (hdev : states.length ≤ devices) (horder : ∀ i < states.length, order.count i = its)
    (hname : ∀ s ∈ states, Nameable C.saveDir (solver.get s))
    (hfit : ∀ s ∈ states, ((keptOfRun solver sched (s, scheds) its).length : Int) ≤ n) :
    ∃ C' C'' rs,
      mcmcPmap devices (hostSaving zero) solver sched helpers its order C states = .ok (C', rs) ∧
      mcmcMap (hostSaving zero) solver sched helpers its C states = .ok (C'', rs) := by
  obtain ⟨C'', rs, g1, g2⟩ := mcmcMap_host zero solver hp sched helpers its scheds n hs hn C states
    hname hfit
  obtain ⟨chs, h1, h2⟩ := hostInitAll_ok zero solver sched helpers its scheds n hs hn states C hname
  have hlen : (lanesAt solver sched scheds 0 C.chains.length states).length = states.length := by
    have : ∀ b (ss : List S), (lanesAt solver sched scheds 0 b ss).length = ss.length := by
      intro b ss
      induction ss generalizing b with
      | nil => rfl
      | cons s ss ih => simp [lanesAt, ih]
    exact this _ _
  have h0 : PmapInv zero solver sched scheds n.toNat C states (fun _ => 0)
      { C with chains := C.chains ++ chs } (lanesAt solver sched scheds 0 C.chains.length states) := by
    refine ⟨rfl, rfl, hlen, by simp [h2.length_eq], by simp, ?_⟩
    intro i s hi
    obtain ⟨hlt, he⟩ := List.getElem?_eq_some_iff.1 hi
    have hlt' : i < chs.length := by rw [← h2.length_eq]; exact hlt
    have hf := (List.forall₂_iff_get.1 h2).2 i hlt hlt'
    simp only [List.get_eq_getElem, he] at hf
    refine ⟨chs[i], ?_, ?_, ?_, hf.2⟩
    · dsimp only
      rw [List.getElem?_append_right (by omega), Nat.add_sub_cancel_left]
      simp [hlt']
    · rw [lanesAt_get, hi]
      simp [keptOfRun]
    · simpa [firstSamples, keptOfRun] using hf.1
  obtain ⟨C1, l1, h3, hi⟩ := host_scanPmap zero solver hp sched scheds n.toNat its C states
    (fun s hs' => by have := hfit s hs'; omega) _ _ h0 order (fun i hi => (horder i hi).le)
  -- the end of the run
  have hends : l1.map Prod.snd = hostEnds solver sched scheds its C.chains.length states := by
    apply List.ext_getElem?
    intro i
    rw [List.getElem?_map, hostEnds_get]
    cases hsi : states[i]? with
    | none =>
      rw [List.getElem?_eq_none_iff] at hsi
      rw [List.getElem?_eq_none (by rw [hi.size]; exact hsi)]
      rfl
    | some s =>
      obtain ⟨c, -, e2, -⟩ := hi.lane i s hsi
      rw [e2, horder i (List.getElem?_eq_some_iff.1 hsi).1]
      rfl
  have hsplit : C1.chains = C.chains ++ C1.chains.drop C.chains.length := by
    conv_lhs => rw [← List.take_append_drop C.chains.length C1.chains, hi.before]
  have hf : List.Forall₂ (fun s ch =>
      ChainHolds zero (solver.get s) n.toNat (keptOfRun solver sched (s, scheds) its) ch ∧
      ch.locked = true) states (C1.chains.drop C.chains.length) := by
    rw [List.forall₂_iff_get]
    refine ⟨by simp [hi.chainsSize], fun i hlt hlt' => ?_⟩
    obtain ⟨c, e1, -, e3, e4⟩ := hi.lane i states[i] (by simp [hlt])
    rw [horder i hlt] at e3
    have he : (C1.chains.drop C.chains.length)[i] = c := by
      rw [List.getElem_drop]
      exact (List.getElem?_eq_some_iff.1 e1).2
    simp only [List.get_eq_getElem, he]
    exact ⟨e3, e4⟩
  obtain ⟨C', rs', h5, h6⟩ := hostPost_kept zero solver hp sched scheds n.toNat its states C1.saveDir
    C1.files C.chains _ hf
  rw [← hsplit] at h5
  refine ⟨C', C'', rs, ?_, g1⟩
  have hrs : rs' = rs := by
    clear g1 h1 h2 h3 h5 hne hname hfit hf horder hends hdev hlen h0 hi
    induction g2 generalizing rs' with
    | nil => cases h6; rfl
    | @cons s r states rs hr hrs ih =>
      cases h6 with
      | @cons _ r' _ rs' hr' hrs' =>
        rw [ih rs' hrs']
        have hd := holds_unique zero (solver.get s) n.toNat _
          (keptOfRun_shape solver hp sched (s, scheds) its) _ _ hr.2 hr'.2
        obtain ⟨c, dd⟩ := r
        obtain ⟨c', dd'⟩ := r'
        have hc := hr.1
        have hc' := hr'.1
        simp only at hd hc hc'
        rw [hc, hc', hd]
  rw [mcmcPmap, if_neg hne, h1]
  dsimp only
  rw [if_neg (by omega), h3]
  dsimp only
  rw [hends, h5, hrs]

/-- **C123**: more chains than devices are rejected. -/
theorem c123_devices {H σ ρ : Type} (saving : Saving H σ ρ α) (solver : Solver S Vs Vt α)
    (sched : Scheduler Ks σs Vs Kt σt Vt Kb σb Kh σh) (helpers : List (SchedKw Ks Kt Kb Kh))
    (its devices : Nat) (order : List Nat) (h : H) (states : List S)
    (hdev : devices < states.length) :
    ∃ e, mcmcPmap devices saving solver sched helpers its order h states = .error e := by
  have hlen : ∀ (ss : List S) h h1 lanes,
      mcmcInitAll saving solver sched helpers its h ss = .ok (h1, lanes) →
      lanes.length = ss.length := by
    intro ss
    induction ss with
    | nil =>
      intro h h1 lanes hi
      simp only [mcmcInitAll, Except.ok.injEq, Prod.mk.injEq] at hi
      simp [← hi.2]
    | cons s ss ih =>
      intro h h1 lanes hi
      rw [mcmcInitAll] at hi
      cases k1 : mcmcInit saving solver sched helpers its h s with
      | error e => rw [k1] at hi; cases hi
      | ok p =>
        obtain ⟨h2, x, sv⟩ := p
        rw [k1] at hi
        dsimp only at hi
        cases k2 : mcmcInitAll saving solver sched helpers its h2 ss with
        | error e => rw [k2] at hi; cases hi
        | ok q =>
          obtain ⟨h3, r⟩ := q
          rw [k2] at hi
          simp only [Except.ok.injEq, Prod.mk.injEq] at hi
          rw [← hi.2, List.length_cons, List.length_cons, ih _ _ _ k2]
  unfold mcmcPmap
  by_cases hne : states = []
  · rw [if_pos hne]; exact ⟨_, rfl⟩
  · rw [if_neg hne]
    cases h1 : mcmcInitAll saving solver sched helpers its h states with
    | error e => exact ⟨e, rfl⟩
    | ok p =>
      obtain ⟨h1', lanes⟩ := p
      dsimp only
      rw [if_pos (by rw [hlen _ _ _ _ h1]; exact hdev)]
      exact ⟨_, rfl⟩

end

/-- Two chains with a burn in of one iteration on two devices, which proceed in different orders. -/
example : (mcmcPmap 2 (hostSaving (fun _ => 0)) countSolver (burnScheduler 1) [] 3 [1, 0, 1, 1, 0, 0]
    (memNew false) [0, 10]).map (fun r => r.2.map (fun s => (s.sampleCount, s.samples.leaves)))
      = .ok [(2, [[2, 3]]), (2, [[12, 13]])] := rfl

example : ∃ scheds, mcmcSchedulers (burnScheduler 1) 3 [] = .ok (scheds, 2) ∧
    PreservesStructure countSolver ∧
    (∀ i < [0, 10].length, [1, 0, 1, 1, 0, 0].count i = 3) ∧
    (∀ s ∈ [0, 10], ((keptOfRun countSolver (burnScheduler 1) (s, scheds) 3).length : Int) ≤ 2) := by
  refine ⟨_, rfl, fun s _ => rfl, by decide, by decide⟩

end JaxSgmc
