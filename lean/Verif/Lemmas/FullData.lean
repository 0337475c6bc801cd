import Verif.Spec.FullData
import Verif.Lemmas.RequestsNumpy

/-! Helper lemmas for the full data maps. -/

namespace JaxSgmc

open Spec

/-! ### Sources -/

section
variable {S β σ γ : Type}

theorem scan_of_supplies (src : S → Except PyErr β × S) (f : Nat → β → σ → Except PyErr (γ × σ))
    (bs : List β) : ∀ (it : Nat) (s s' : S) (c : σ) (rs : List γ) (cs : Nat → σ),
    Supplies src s bs s' → cs it = c → rs.length = bs.length →
    (∀ i (h : i < bs.length) (h' : i < rs.length),
      f (it + i) bs[i] (cs (it + i)) = .ok (rs[i], cs (it + i + 1))) →
    scanBatches src f bs.length it s c = (.ok (rs, cs (it + bs.length)), s') := by
  induction bs with
  | nil =>
    intro it s s' c rs cs h1 h2 h3 h4
    simp only [Supplies] at h1
    subst h1 h2
    have : rs = [] := List.length_eq_zero_iff.1 h3
    subst this
    rfl
  | cons b bs ih =>
    intro it s s' c rs cs h1 h2 h3 h4
    obtain ⟨s1, hs, h1⟩ := h1
    cases rs with
    | nil => simp at h3
    | cons r rs =>
      have h0 := h4 0 (by simp) (by simp)
      simp only [Nat.add_zero, List.getElem_cons_zero] at h0
      have := ih (it + 1) s1 s' (cs (it + 1)) rs cs h1 rfl (by simpa using h3) (by
        intro i h h'
        have := h4 (i + 1) (by simpa using h) (by simpa using h')
        simpa [Nat.add_comm, Nat.add_left_comm, Nat.add_assoc] using this)
      simp only [List.length_cons, scanBatches, hs]
      rw [← h2, h0]
      simp only [this]
      simp [Nat.add_comm, Nat.add_left_comm]

/-- Whatever a scan returns: the batches delivered by the source and the sequence of carries. -/
theorem scan_inv (src : S → Except PyErr β × S) (f : Nat → β → σ → Except PyErr (γ × σ)) (n : Nat) :
    ∀ (it : Nat) (s s' : S) (c c' : σ) (rs : List γ),
    scanBatches src f n it s c = (.ok (rs, c'), s') →
    ∃ bs : List β, ∃ cs : Nat → σ, bs.length = n ∧ rs.length = n ∧ Supplies src s bs s' ∧
      cs 0 = c ∧ cs n = c' ∧
      ∀ i (h : i < bs.length) (h' : i < rs.length),
        f (it + i) bs[i] (cs i) = .ok (rs[i], cs (i + 1)) := by
  induction n with
  | zero =>
    intro it s s' c c' rs h
    simp only [scanBatches, Prod.mk.injEq, Except.ok.injEq] at h
    obtain ⟨⟨rfl, rfl⟩, rfl⟩ := h
    exact ⟨[], fun _ => c, rfl, rfl, rfl, rfl, rfl, fun i h => absurd h (by simp)⟩
  | succ n ih =>
    intro it s s' c c' rs h
    simp only [scanBatches] at h
    split at h
    · simp at h
    · rename_i b s1 hsrc
      split at h
      · simp at h
      · rename_i res c1 hf
        split at h
        · simp at h
        · rename_i rs' c'' s'' hrec
          simp only [Prod.mk.injEq, Except.ok.injEq] at h
          obtain ⟨⟨rfl, rfl⟩, rfl⟩ := h
          obtain ⟨bs, cs, h1, h2, h3, h4, h5, h6⟩ := ih _ _ _ _ _ _ hrec
          refine ⟨b :: bs, fun i => match i with | 0 => c | i + 1 => cs i, by simp [h1],
            by simp [h2], ⟨s1, hsrc, h3⟩, rfl, h5, ?_⟩
          intro i h h'
          cases i with
          | zero => simpa [h4] using hf
          | succ i =>
            have := h6 i (by simpa using h) (by simpa using h')
            simpa [Nat.add_comm, Nat.add_left_comm, Nat.add_assoc] using this

theorem Spec.Supplies.append {src : S → Except PyErr β × S} : ∀ {bs : List β} {s s1 s2 : S} {bs' : List β},
    Supplies src s bs s1 → Supplies src s1 bs' s2 → Supplies src s (bs ++ bs') s2
  | [], s, s1, s2, bs', h, h' => by simp only [Supplies] at h; subst h; exact h'
  | b :: bs, s, s1, s2, bs', h, h' => by
    obtain ⟨s0, h0, h⟩ := h
    exact ⟨s0, h0, Spec.Supplies.append h h'⟩

end

/-! ### The ordered chain of the numpy loader -/

section
variable {σ ρ : Type} (R : Rng σ)

/-- Mini-batch `j` of a pass over the dataset: rows and mask. -/
def passRows (data : List (String × List ρ)) (N mb j : Nat) : List (String × List ρ) × List Bool :=
  (data.map (fun x => (x.1, (passBatch N mb j).1.filterMap (fun i => x.2[i]?))),
   (passBatch N mb j).2)

theorem npTake_filterMap {α : Type} (xs : List α) (idx : List Nat) (h : ∀ i ∈ idx, i < xs.length) :
    npTake xs idx = .ok (idx.filterMap (fun i => xs[i]?)) := by
  apply npTake_of_spec
  induction idx with
  | nil => rfl
  | cons i is ih =>
    have hi := h i List.mem_cons_self
    rw [List.filterMap_cons, List.getElem?_eq_getElem hi]
    simp only [List.map_cons, List.getElem?_eq_getElem hi]
    rw [ih (fun j hj => h j (List.mem_cons_of_mem _ hj))]

theorem takeRows_eq (d : List ρ) (idxs : List (List Nat)) (h : ∀ b ∈ idxs, ∀ i ∈ b, i < d.length) :
    takeRows d idxs = .ok (idxs.map (fun b => b.filterMap (fun i => d[i]?))) := by
  induction idxs with
  | nil => rfl
  | cons b bs ih =>
    simp only [takeRows, npTake_filterMap d b (h b List.mem_cons_self),
      ih (fun b' hb => h b' (List.mem_cons_of_mem _ hb)), List.map_cons]

theorem sliceAll_eq (idxs : List (List Nat)) (N : Nat) (h : ∀ b ∈ idxs, ∀ i ∈ b, i < N)
    (data : List (String × List ρ)) (hwf : DataWF data N) :
    sliceAll idxs data = .ok (data.map (fun x =>
      (x.1, idxs.map (fun b => b.filterMap (fun i => x.2[i]?))))) := by
  induction data with
  | nil => rfl
  | cons x xs ih =>
    have hx : x.2.length = N := hwf x List.mem_cons_self
    simp only [sliceAll, takeRows_eq x.2 idxs (by rw [hx]; exact h),
      ih (fun y hy => hwf y (List.mem_cons_of_mem _ hy)), List.map_cons]

theorem ordered_get (data : List (String × List ρ)) (N : Nat) (hwf : DataWF data N) (mb cs j : Nat)
    (hmb : 0 < mb) (hN : mb ≤ N) (hcs : 0 < cs) (hj : j < ceilDiv N mb) :
    chainGet R data N (.ordered ⟨j * mb, mb, cs⟩) =
      (.batches ⟨data.map (fun x => (x.1, (List.range cs).map (fun k =>
          (passBatch N mb ((j + k) % ceilDiv N mb)).1.filterMap (fun i => x.2[i]?)))),
        (List.range cs).map (fun k => (passBatch N mb ((j + k) % ceilDiv N mb)).2)⟩,
       .ordered ⟨((j + cs) % ceilDiv N mb) * mb, mb, cs⟩) := by
  have hne : cs ≠ 0 := by omega
  have hs := sliceAll_eq ((List.range cs).map
      (fun k => (passBatch N mb ((j + k) % ceilDiv N mb)).1)) N (by
    intro b hb
    obtain ⟨k, -, rfl⟩ := List.mem_map.1 hb
    exact passBatch_lt N mb _ hmb hN) data hwf
  simp only [chainGet, getIndices, Chain.cacheSize, hne, if_false,
    ordered_steps R N mb cs hmb cs j hj, List.map_map, Function.comp_def] at hs ⊢
  rw [hs]

/-- The `k`-th answer of a freshly registered ordered chain. -/
theorem ordered_answers (L L' : Loader σ ρ) (hwf : DataWF L.data L.obsCount) (cs mb : Nat)
    (hcs : 0 < cs) (hmb : 0 < mb) (cid : Nat)
    (h : (numpyHost R).register L cs mb .ordered = .ok (cid, L')) (k : Nat) :
    nthAnswer (numpyHost R) L' cid k = .ok ((List.range cs).map (fun i =>
      passRows L.data L.obsCount mb ((k * cs + i) % ceilDiv L.obsCount mb))) := by
  obtain ⟨rfl, hle, rfl⟩ := registerOrdered_spec L L' cs mb cid h
  have hq : 0 < ceilDiv L.obsCount mb := ceilDiv_pos hmb (by omega)
  have hv : (numpyContract R).view { L with chains := L.chains ++ [.ordered ⟨0, mb, cs⟩] }
      L.chains.length = some (L.data, L.obsCount, .ordered ⟨0, mb, cs⟩) := by
    simp [numpyContract]
  have hstate : ∀ k, chainState (numpyContract R) (L.data, L.obsCount, .ordered ⟨0, mb, cs⟩) k =
      (L.data, L.obsCount, .ordered ⟨((k * cs) % ceilDiv L.obsCount mb) * mb, mb, cs⟩) := by
    intro k
    induction k with
    | zero => simp [chainState]
    | succ k ih =>
      rw [chainState, ih]
      dsimp only [numpyContract]
      rw [ordered_get R _ _ hwf _ _ _ hmb hle hcs (Nat.mod_lt _ hq)]
      simp only [Prod.mk.injEq, true_and]
      congr 3
      rw [Nat.mod_add_mod, Nat.add_mul, Nat.one_mul]
  rw [(nthLoader_view _ hv k).2, hstate k]
  simp only [numpyContract]
  rw [ordered_get R _ _ hwf _ _ _ hmb hle hcs (Nat.mod_lt _ hq)]
  simp only [LOut.answer, Batches.lines, Except.ok.injEq, List.length_map, List.length_range]
  apply List.map_congr_left
  intro i hi
  rw [List.mem_range] at hi
  simp only [Batches.line, passRows, List.map_map, Function.comp_def]
  simp [List.getD_eq_getElem?_getD, hi]

end

/-! ### Draws from an ordered chain -/

section
variable {Λ κ μ : Type} {H : HostLoader Λ κ μ} {χ : Type} (C : Contract H χ)

theorem prun_append_one (devices : Nat) (ops : List (POp κ)) : ∀ (s : PSys Λ μ) (ops' : List (POp κ)),
    (prun H devices s (ops ++ ops')).1 = (prun H devices (prun H devices s ops).1 ops').1 := by
  induction ops with
  | nil => intro s ops'; rfl
  | cons op ops ih => intro s ops'; exact ih _ _

theorem numDraws_append (v : Nat) (ops ops' : List (POp κ)) :
    numDraws v (ops ++ ops') = numDraws v ops + numDraws v ops' := by
  induction ops with
  | nil => simp [numDraws]
  | cons op ops ih =>
    cases op <;> simp [numDraws, ih, Nat.add_assoc]

theorem numDraws_replicate (v dc n : Nat) :
    numDraws v (List.replicate n (.draw v dc : POp κ)) = n := by
  induction n with
  | zero => rfl
  | succ n ih => simp [List.replicate_succ, numDraws, ih]; omega

/-- A group with one member supplies the batches of its chain. -/
theorem grp_supplies {G : Grp μ χ} {v : Nat} (hvs : G.vs = [v]) (W : G.WF C) {devices : Nat}
    (hdev : 1 ≤ devices) (n : Nat) : ∀ {s : PSys Λ μ} {m q ln t : Nat → Nat} {P : Nat},
    GInv C s → GrpInv C G s m q ln t P →
    ∃ bs : List μ, bs.length = n ∧
      (∀ i, (h : i < bs.length) → (G.r ((m v + i) / G.n))[(m v + i) % G.n]? = some bs[i]) ∧
      Supplies (hostSource H devices v 1) s bs
        (prun H devices s (List.replicate n (.draw v 1))).1 := by
  induction n with
  | zero => intro s m q ln t P g I; exact ⟨[], rfl, by simp, rfl⟩
  | succ n ih =>
    intro s m q ln t P g I
    have hlen : G.vs.length = 1 := by rw [hvs]; rfl
    obtain ⟨⟨b, hb, ho⟩, q', ln', t', P', I', -⟩ := I.step_in W g devices (by omega)
      (v := v) (by rw [hvs]; simp)
    rw [hlen] at ho I'
    obtain ⟨bs, h1, h2, h3⟩ := ih (g.step C devices (.draw v 1)) I'
    refine ⟨b :: bs, by simp [h1], ?_, ?_⟩
    · intro i hi
      cases i with
      | zero => simpa using hb
      | succ i =>
        have := h2 i (by simpa using hi)
        simp only [upd_self] at this
        rw [show m v + 1 + i = m v + (i + 1) by omega] at this
        simpa using this
    · refine ⟨(pstep H devices s (.draw v 1)).1, ?_, h3⟩
      simp only [hostSource]
      cases hp : pstep H devices s (.draw v 1) with
      | mk s1 o =>
        rw [hp] at ho
        simp only at ho
        subst ho
        rfl

end

/-! ### One pass -/

section
variable {ρ σ : Type} (R : Rng σ)

/-- Initial data state `v` of an ordered chain; after any history with a multiple of `q` draws the
next `q` draws are one pass over the dataset. -/
theorem host_pass {devices : Nat} (hdev : 1 ≤ devices) {objs : Nat → Loader σ ρ}
    (hobjs : ∀ i, ∃ data, mkLoader data = .ok (objs i)) {s}
    (hs : PReachable (numpyHost R) devices objs s) {cb v : Nat}
    (hinit : (pstep (numpyHost R) devices s (.init cb .ordered v)).2 = .done)
    {cfg : Cfg} (hcfg : s.cfgs cb = some cfg) (hmb : 0 < cfg.mbSize)
    (ops : List (POp NumpyKw)) (hops : ∀ op ∈ ops, Respects [v] cb 1 op)
    (hdraws : ceilDiv (objs cfg.loader).obsCount cfg.mbSize ∣ numDraws v ops) :
    DataWF (objs cfg.loader).data (objs cfg.loader).obsCount ∧
    cfg.mbSize ≤ (objs cfg.loader).obsCount ∧
    Supplies (hostSource (numpyHost R) devices v 1)
      (prun (numpyHost R) devices (pstep (numpyHost R) devices s (.init cb .ordered v)).1 ops).1
      ((List.range (ceilDiv (objs cfg.loader).obsCount cfg.mbSize)).map
        (passRows (objs cfg.loader).data (objs cfg.loader).obsCount cfg.mbSize))
      (prun (numpyHost R) devices (pstep (numpyHost R) devices s (.init cb .ordered v)).1
        (ops ++ List.replicate (ceilDiv (objs cfg.loader).obsCount cfg.mbSize) (.draw v 1))).1 := by
  have hpos := (hs.ginv (numpyContract R)).cfgPos _ _ hcfg
  have hdat := numpy_data_const R hs cfg.loader
  have hwf : DataWF (s.host.objs cfg.loader).data (s.host.objs cfg.loader).obsCount := by
    obtain ⟨data, hd⟩ := hobjs cfg.loader
    obtain ⟨h1, h3, -⟩ := mkLoader_spec data _ hd
    rw [hdat.1, hdat.2, h1]
    exact h3
  have g := hs.ginv (numpyContract R)
  obtain ⟨cfg', chain, L, resp, hc', hl, hreg, -, -⟩ :=
    init_spec (numpyContract R) g devices cb .ordered v hinit
  rw [hcfg] at hc'
  cases hc'
  have hle := (numpy_register R _ _ _ _ _ _ hreg).2.1
  have hans := ordered_answers R _ L hwf _ _ hpos hmb chain hreg
  obtain ⟨G, t, rfl, rfl, hl, hn, hvs, hr, W, I, -, -, -⟩ :=
    GrpInv.start (numpyContract R) g devices cb .ordered v [] (by simp) hinit hcfg hreg
      hans (fun k => by simp)
  have g1 := g.step (numpyContract R) devices (.init G.cb .ordered v)
  obtain ⟨-, q', ln', t', P', I', -⟩ := GrpInv.run W devices (by rw [hvs]; simpa using hdev) ops
    (by rw [hvs]; simpa using hops) g1 I
  have g2 := g1.run (numpyContract R) devices ops
  obtain ⟨bs, h1, h2, h3⟩ := grp_supplies (numpyContract R) hvs W hdev
    (ceilDiv (objs cfg.loader).obsCount cfg.mbSize) g2 I'
  rw [hdat.1, hdat.2] at hwf
  rw [hdat.2] at hle
  refine ⟨hwf, hle, ?_⟩
  rw [prun_append_one]
  have hbs : bs = (List.range (ceilDiv (objs cfg.loader).obsCount cfg.mbSize)).map
        (passRows (objs cfg.loader).data (objs cfg.loader).obsCount cfg.mbSize) := by
    apply List.ext_getElem
    · simp [h1]
    · intro i hi hi'
      have h4 := h2 i hi
      rw [hr, hn] at h4
      rw [List.getElem?_map, List.getElem?_range (Nat.mod_lt _ hpos)] at h4
      simp only [Option.map_some, Option.some.injEq, Nat.zero_add, hdat.1, hdat.2] at h4
      rw [← h4, Nat.div_add_mod', List.getElem_map, List.getElem_range]
      obtain ⟨p, hp⟩ := hdraws
      rw [hp, Nat.mul_add_mod, Nat.mod_eq_of_lt (by rw [← h1]; exact hi)]
  rw [← hbs]
  exact h3

end

/-! ### Rows of a pass -/

section
variable {ρ : Type}

theorem filterMap_rows (d : List ρ) (idx : List Nat) (h : ∀ i ∈ idx, i < d.length) (j : Nat) :
    (idx.filterMap (fun i => d[i]?))[j]? = (idx[j]?).bind (fun i => d[i]?) := by
  induction idx generalizing j with
  | nil => simp
  | cons i is ih =>
    have hi := h i List.mem_cons_self
    rw [List.filterMap_cons, List.getElem?_eq_getElem hi]
    cases j with
    | zero => simp [List.getElem?_eq_getElem hi]
    | succ j => simpa using ih (fun k hk => h k (List.mem_cons_of_mem _ hk)) j

theorem passRows_row (data : List (String × List ρ)) (N mb j i : Nat) (hwf : DataWF data N)
    (hmb : 0 < mb) (hN : mb ≤ N) (hi : i < mb) :
    batchRow (passRows data N mb j).1 i = batchRow data ((i + j * mb) % N) := by
  simp only [batchRow, passRows, List.map_map]
  apply List.map_congr_left
  intro x hx
  simp only [Function.comp_def, Prod.mk.injEq, true_and]
  rw [filterMap_rows x.2 _ (by
    rw [hwf x hx]; exact passBatch_lt N mb j hmb hN)]
  simp [passBatch, hi]

theorem range_blocks {γ : Type} (F : Nat → γ) (mb q : Nat) :
    (List.range q).flatMap (fun j => (List.range mb).map (fun i => F (i + j * mb))) =
      (List.range (q * mb)).map F := by
  induction q with
  | zero => simp
  | succ q ih =>
    rw [List.range_succ, List.flatMap_append, ih, Nat.add_mul, Nat.one_mul, List.range_add,
      List.map_append]
    simp [Function.comp_def, Nat.add_comm]

theorem take_blocks {γ : Type} (F : Nat → γ) (mb q N : Nat) (h : N ≤ q * mb) :
    ((List.range q).flatMap (fun j => (List.range mb).map (fun i => F (i + j * mb)))).take N =
      (List.range N).map F := by
  rw [range_blocks, ← List.map_take, List.take_range, Nat.min_eq_left h]

/-- Entry `i` of blocks of equal length. -/
theorem flatten_get {γ : Type} (mb : Nat) (hmb : 0 < mb) (rs : List (List γ))
    (h : ∀ r ∈ rs, r.length = mb) (i : Nat) :
    rs.flatten[i]? = (rs[i / mb]?).bind (fun r => r[i % mb]?) := by
  induction rs generalizing i with
  | nil => simp
  | cons r rs ih =>
    have hr := h r List.mem_cons_self
    rw [List.flatten_cons]
    by_cases hi : i < mb
    · rw [List.getElem?_append_left (by omega), Nat.div_eq_of_lt hi, Nat.mod_eq_of_lt hi]; simp
    · rw [List.getElem?_append_right (by omega), hr,
        ih (fun r' hr' => h r' (List.mem_cons_of_mem _ hr'))]
      have h1 : i = (i - mb) + mb := by omega
      have h2 : i / mb = (i - mb) / mb + 1 := by
        conv_lhs => rw [h1]
        rw [Nat.add_div_right _ hmb]
      have h3 : i % mb = (i - mb) % mb := by
        conv_lhs => rw [h1]
        rw [Nat.add_mod_right]
      rw [h2, h3, List.getElem?_cons_succ]

theorem flatten_length_eq {γ : Type} (mb : Nat) (rs : List (List γ)) (h : ∀ r ∈ rs, r.length = mb) :
    rs.flatten.length = rs.length * mb := by
  induction rs with
  | nil => simp
  | cons r rs ih =>
    rw [List.flatten_cons, List.length_append, h r List.mem_cons_self,
      ih (fun r' hr' => h r' (List.mem_cons_of_mem _ hr'))]
    simp [Nat.add_mul, Nat.add_comm]

end

end JaxSgmc
