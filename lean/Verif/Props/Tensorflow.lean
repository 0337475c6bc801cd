import Verif.Spec.Tensorflow
import Verif.Spec.ToyRng
import Verif.Lemmas.FullData
import Mathlib.Data.List.Nodup
import Mathlib.Data.Int.CardIntervalMod
import Mathlib.Data.List.Induction

/-!
# TensorflowDataLoader: C99, C100, C101
-/

namespace JaxSgmc

open Spec

variable {σ ρ : Type}

/-! ### the shuffle buffer -/

/-- The elements `ts` of the stream have been returned, the others are in the buffer. -/
structure TfInv (N B : Nat) (ts : List Nat) (c : TfChain σ) : Prop where
  pulled : c.pulled = ts.length + B
  buffer : ∃ bt : List Nat, bt.length = B ∧ c.buffer = bt.map (· % N) ∧ (ts ++ bt).Perm (List.range c.pulled)
  early : ∀ j t, ts[j]? = some t → t < j + B

theorem TfInv.init (R : TfRng σ) (N B seed cs mb : Nat) :
    TfInv N B [] (⟨B, (List.range B).map (· % N), R.seed seed, cs, mb⟩ : TfChain σ) :=
  ⟨by simp, ⟨List.range B, by simp, rfl, by simp⟩, by simp⟩

theorem TfInv.next {R : TfRng σ} (hR : R.Lawful) {N B : Nat} (hB : 0 < B) {ts : List Nat} {c : TfChain σ}
    (h : TfInv N B ts c) : ∃ t, (tfNext R N c).1 = t % N ∧ TfInv N B (ts ++ [t]) (tfNext R N c).2 := by
  obtain ⟨bt, h1, h2, h3⟩ := h.buffer
  have hp : (R.pick c.rng c.buffer.length).1 < bt.length := by
    have : c.buffer.length = bt.length := by rw [h2, List.length_map]
    rw [this, h1]; exact hR.lt _ _ hB
  set p := (R.pick c.rng c.buffer.length).1 with hpdef
  refine ⟨bt[p], ?_, ?_, ⟨bt.set p c.pulled, by simp [h1], ?_, ?_⟩, ?_⟩
  · show c.buffer.getD p 0 = _
    rw [List.getD_eq_getElem?_getD, h2, List.getElem?_map, List.getElem?_eq_getElem hp]
    rfl
  · show c.pulled + 1 = _
    rw [h.pulled, List.length_append, List.length_singleton]; omega
  · show c.buffer.set p (c.pulled % N) = _
    rw [h2, List.map_set]
  · show (ts ++ [bt[p]] ++ bt.set p c.pulled).Perm (List.range (c.pulled + 1))
    have e1 : (bt.set p c.pulled).Perm (c.pulled :: bt.eraseIdx p) := List.set_perm_cons_eraseIdx hp _
    have e2 : (bt[p] :: bt.eraseIdx p).Perm bt := List.getElem_cons_eraseIdx_perm hp
    rw [List.range_succ]
    calc (ts ++ [bt[p]] ++ bt.set p c.pulled).Perm (ts ++ [bt[p]] ++ (c.pulled :: bt.eraseIdx p)) :=
          List.Perm.append_left _ e1
      _ = ts ++ (bt[p] :: c.pulled :: bt.eraseIdx p) := by simp
      _ |>.Perm (ts ++ (c.pulled :: bt[p] :: bt.eraseIdx p)) := List.Perm.append_left _ (List.Perm.swap _ _ _)
      _ |>.Perm (ts ++ (c.pulled :: bt)) := List.Perm.append_left _ (List.Perm.cons _ e2)
      _ |>.Perm (c.pulled :: (ts ++ bt)) := List.perm_middle
      _ |>.Perm ((ts ++ bt) ++ [c.pulled]) := (List.perm_append_singleton _ _).symm
      _ |>.Perm (List.range c.pulled ++ [c.pulled]) := List.Perm.append_right _ h3
  · intro j t hj
    rcases Nat.lt_or_ge j ts.length with hlt | hge
    · rw [List.getElem?_append_left hlt] at hj
      exact h.early j t hj
    · rw [List.getElem?_append_right hge] at hj
      have hj0 : j = ts.length := by
        by_contra hne
        have : 1 ≤ j - ts.length := by omega
        rw [List.getElem?_eq_none (by simpa using this)] at hj
        cases hj
      subst hj0
      simp at hj
      subst hj
      have : bt[p] ∈ List.range c.pulled := h3.mem_iff.mp (List.mem_append_right _ (List.getElem_mem hp))
      rw [List.mem_range, h.pulled] at this
      exact this

theorem TfInv.shuffle {N B : Nat} {ts : List Nat} {c : TfChain σ} (h : TfInv N B ts c) : BufferedShuffle B ts := by
  obtain ⟨bt, _, _, h3⟩ := h.buffer
  exact ⟨((h3.nodup_iff.mpr List.nodup_range).sublist (List.sublist_append_left _ _)), h.early⟩

theorem tfTake_inv {R : TfRng σ} (hR : R.Lawful) {N B : Nat} (hB : 0 < B) : ∀ (n : Nat) {ts : List Nat}
    {c : TfChain σ}, TfInv N B ts c → ∃ ts', ts'.length = n ∧ (tfTake R N n c).1 = ts'.map (· % N) ∧
      TfInv N B (ts ++ ts') (tfTake R N n c).2 ∧ (tfTake R N n c).2.cacheSize = c.cacheSize ∧
      (tfTake R N n c).2.mbSize = c.mbSize
  | 0, ts, c, h => ⟨[], rfl, rfl, by simpa [tfTake] using h, rfl, rfl⟩
  | n + 1, ts, c, h => by
    obtain ⟨t, ht, h'⟩ := h.next hR hB
    obtain ⟨ts', h1, h2, h3, h4, h5⟩ := tfTake_inv hR hB n h'
    refine ⟨t :: ts', by simp [h1], ?_, ?_, h4, h5⟩
    · show (tfNext R N c).1 :: (tfTake R N n (tfNext R N c).2).1 = _
      rw [ht, h2]; rfl
    · rw [List.append_cons]; exact h3

theorem tfTakeBatches_inv {R : TfRng σ} (hR : R.Lawful) {N B : Nat} (hB : 0 < B) (mb : Nat) : ∀ (n : Nat)
    {ts : List Nat} {c : TfChain σ}, TfInv N B ts c → ∃ tss : List (List Nat), tss.length = n ∧
      (∀ l ∈ tss, l.length = mb) ∧ (tfTakeBatches R N mb n c).1 = tss.map (fun l => l.map (· % N)) ∧
      TfInv N B (ts ++ tss.flatten) (tfTakeBatches R N mb n c).2 ∧
      (tfTakeBatches R N mb n c).2.cacheSize = c.cacheSize ∧ (tfTakeBatches R N mb n c).2.mbSize = c.mbSize
  | 0, ts, c, h => ⟨[], rfl, by simp, rfl, by simpa [tfTakeBatches] using h, rfl, rfl⟩
  | n + 1, ts, c, h => by
    obtain ⟨t, k1, k2, k3, k4, k5⟩ := tfTake_inv hR hB mb h
    obtain ⟨tss, h1, h2, h3, h4, h5, h6⟩ := tfTakeBatches_inv hR hB mb n k3
    refine ⟨t :: tss, by simp [h1], ?_, ?_, ?_, by rw [← k4]; exact h5, by rw [← k5]; exact h6⟩
    · intro l hl
      rcases List.mem_cons.mp hl with rfl | hl
      · exact k1
      · exact h2 l hl
    · show (tfTake R N mb c).1 :: (tfTakeBatches R N mb n (tfTake R N mb c).2).1 = _
      rw [k2, h3]; rfl
    · rw [List.flatten_cons, ← List.append_assoc]; exact h4

/-! ### excluded keys -/

theorem tfDelete_ok {β : Type} : ∀ (ks : List String) (b : List (String × β)), ks.Nodup →
    (∀ k ∈ ks, k ∈ b.map (·.1)) → tfDelete ks b = .ok (b.filter fun x => !ks.contains x.1)
  | [], b, _, _ => by simp [tfDelete]
  | k :: ks, b, hnd, hmem => by
    have hk : b.any (fun x => x.1 == k) = true := by
      obtain ⟨x, hx, rfl⟩ := List.mem_map.mp (hmem k List.mem_cons_self)
      exact List.any_eq_true.mpr ⟨x, hx, by simp⟩
    rw [List.nodup_cons] at hnd
    rw [tfDelete, if_pos hk, tfDelete_ok ks _ hnd.2, List.filter_filter]
    · congr 1
      refine List.filter_congr fun x _ => ?_
      by_cases h : x.1 = k <;> simp [h, bne]
    · intro k' hk'
      obtain ⟨x, hx, rfl⟩ := List.mem_map.mp (hmem k' (List.mem_cons_of_mem _ hk'))
      refine List.mem_map.mpr ⟨x, List.mem_filter.mpr ⟨hx, ?_⟩, rfl⟩
      simp only [bne_iff_ne, ne_eq]
      rintro rfl
      exact hnd.1 hk'

theorem tfDelete_error {β : Type} : ∀ (ks : List String) (b : List (String × β)),
    ¬ (ks.Nodup ∧ ∀ k ∈ ks, k ∈ b.map (·.1)) → tfDelete ks b = .error .keyError
  | [], b, h => absurd ⟨List.nodup_nil, by simp⟩ h
  | k :: ks, b, h => by
    rw [tfDelete]
    split
    · rename_i hk
      refine tfDelete_error ks _ fun ⟨h1, h2⟩ => h ⟨List.nodup_cons.mpr ⟨fun hkk => ?_, h1⟩, ?_⟩
      · obtain ⟨x, hx, hxk⟩ := List.mem_map.mp (h2 k hkk)
        have := (List.mem_filter.mp hx).2
        simp [hxk] at this
      · intro k' hk'
        rcases List.mem_cons.mp hk' with rfl | hk'
        · obtain ⟨x, hx, hxk⟩ := List.any_eq_true.mp hk
          exact List.mem_map.mpr ⟨x, hx, by simpa using hxk⟩
        · obtain ⟨x, hx, hxk⟩ := List.mem_map.mp (h2 k' hk')
          exact List.mem_map.mpr ⟨x, (List.mem_filter.mp hx).1, hxk⟩
    · rfl

theorem mem_of_lookup_eq {β : Type} : ∀ (l : List (String × β)) (n : String) (d : β), l.lookup n = some d → (n, d) ∈ l
  | [], _, _, h => by simp at h
  | (m, e) :: l, n, d, h => by
    rw [List.lookup_cons] at h
    cases hb : n == m with
    | true => simp [hb] at h; subst h; simp at hb; subst hb; exact List.mem_cons_self
    | false => rw [hb] at h; exact List.mem_cons_of_mem _ (mem_of_lookup_eq l n d h)

/-! ### one call of `get_batches` -/

/-- The batches assembled from the elements `tss` of the stream. -/
def tfAssemble (data : List (String × List ρ)) (N : Nat) (tss : List (List Nat)) :
    List (String × List (List ρ)) :=
  data.map fun x => (x.1, tss.map fun l => l.filterMap fun t => x.2[t % N]?)

theorem tfGet_spec {R : TfRng σ} (hR : R.Lawful) {L : TfLoader σ ρ} {B : Nat} (hB : 0 < B)
    (hN : 0 < L.obsCount) (hwf : DataWF L.data L.obsCount) {cid : Nat} {c : TfChain σ} {ts : List Nat}
    (hc : L.chains[cid]? = some c) (h : TfInv L.obsCount B ts c) :
    ∃ (tss : List (List Nat)) (c' : TfChain σ), tss.length = c.cacheSize ∧ (∀ l ∈ tss, l.length = c.mbSize) ∧
      TfInv L.obsCount B (ts ++ tss.flatten) c' ∧ c'.cacheSize = c.cacheSize ∧ c'.mbSize = c.mbSize ∧
      tfGetBatches R L cid = (tfDelete L.exclude (tfAssemble L.data L.obsCount tss),
        { L with chains := L.chains.set cid c' }) := by
  obtain ⟨tss, h1, h2, h3, h4, h5, h6⟩ := tfTakeBatches_inv hR hB c.mbSize c.cacheSize h
  refine ⟨tss, _, h1, h2, h4, h5, h6, ?_⟩
  unfold tfGetBatches
  rw [hc]
  dsimp only
  rw [h3, sliceAll_eq _ L.obsCount _ L.data hwf]
  · dsimp only
    congr 2
    refine List.map_congr_left fun x _ => ?_
    rw [List.map_map]
    congr 1
    refine List.map_congr_left fun l _ => ?_
    rw [Function.comp_apply, List.filterMap_map]
    rfl
  · intro b hb i hi
    obtain ⟨l, _, rfl⟩ := List.mem_map.mp hb
    obtain ⟨t, _, rfl⟩ := List.mem_map.mp hi
    exact Nat.mod_lt _ hN

theorem filterMap_mod {N : Nat} (hN : 0 < N) (d : List ρ) (hd : d.length = N) : ∀ l : List Nat,
    (l.filterMap fun t => d[t % N]?).length = l.length ∧
    (l.filterMap fun t => d[t % N]?).map some = l.map fun t => d[t % N]?
  | [] => ⟨rfl, rfl⟩
  | t :: l => by
    have := Nat.mod_lt t hN
    rw [← hd] at this
    obtain ⟨h1, h2⟩ := filterMap_mod hN d hd l
    rw [hd] at this
    have hg : d[t % N]? = some (d[t % N]'(by rw [hd]; exact this)) := List.getElem?_eq_getElem _
    rw [List.filterMap_cons, hg]
    refine ⟨by simp [h1], ?_⟩
    rw [List.map_cons, h2, List.map_cons, hg]

theorem lookup_filter_map {β γ : Type} (p : String → Bool) (g : String × β → γ) (name : String) (hp : p name = true) :
    ∀ l : List (String × β), ((l.map fun x => (x.1, g x)).filter fun x => p x.1).lookup name =
      (l.lookup name).map fun d => g (name, d)
  | [] => rfl
  | (n, d) :: l => by
    have ih := lookup_filter_map p g name hp l
    by_cases hn : name = n
    · subst hn
      simp [hp, List.lookup_cons]
    · have hb : (name == n) = false := by simp [hn]
      rw [List.map_cons, List.filter_cons, List.lookup_cons, hb]
      split
      · rw [List.lookup_cons, hb]; exact ih
      · exact ih

theorem tfStep_static (R : TfRng σ) (L : TfLoader σ ρ) (op : TfOp) :
    (tfStep R L op).1.data = L.data ∧ (tfStep R L op).1.obsCount = L.obsCount ∧
    (tfStep R L op).1.exclude = L.exclude ∧ (tfStep R L op).1.shuffleCache = L.shuffleCache := by
  have hg : ∀ cid, (tfGetBatches R L cid).2.data = L.data ∧ (tfGetBatches R L cid).2.obsCount = L.obsCount ∧
      (tfGetBatches R L cid).2.exclude = L.exclude ∧ (tfGetBatches R L cid).2.shuffleCache = L.shuffleCache := by
    intro cid
    unfold tfGetBatches
    split
    · exact ⟨rfl, rfl, rfl, rfl⟩
    · dsimp only; split <;> exact ⟨rfl, rfl, rfl, rfl⟩
  cases op with
  | register cs mb => exact ⟨rfl, rfl, rfl, rfl⟩
  | registerOrdered cs mb => exact ⟨rfl, rfl, rfl, rfl⟩
  | get cid =>
    have := hg cid
    unfold tfStep
    dsimp only
    split <;> (rename_i h; rw [h] at this; exact this)

theorem tfRun_static (R : TfRng σ) : ∀ (ops : List TfOp) (L : TfLoader σ ρ),
    (tfRun R L ops).1.data = L.data ∧ (tfRun R L ops).1.obsCount = L.obsCount ∧
    (tfRun R L ops).1.exclude = L.exclude ∧ (tfRun R L ops).1.shuffleCache = L.shuffleCache
  | [], L => ⟨rfl, rfl, rfl, rfl⟩
  | op :: ops, L => by
    obtain ⟨a, b, c, d⟩ := tfStep_static R L op
    obtain ⟨a', b', c', d'⟩ := tfRun_static R ops (tfStep R L op).1
    exact ⟨a'.trans a, b'.trans b, c'.trans c, d'.trans d⟩

theorem tfStep_other (R : TfRng σ) (L : TfLoader σ ρ) (op : TfOp) (cid : Nat) (c : TfChain σ)
    (hc : L.chains[cid]? = some c) (hop : ∀ k, op = .get k → k ≠ cid) :
    (tfStep R L op).1.chains[cid]? = some c := by
  have hlt : cid < L.chains.length := by
    by_contra h
    rw [List.getElem?_eq_none (by omega)] at hc; cases hc
  cases op with
  | register cs mb =>
    show (L.chains ++ _)[cid]? = _
    rw [List.getElem?_append_left hlt, hc]
  | registerOrdered cs mb => exact hc
  | get k =>
    have hk := hop k rfl
    have hg : (tfGetBatches R L k).2.chains[cid]? = some c := by
      unfold tfGetBatches
      split
      · exact hc
      · dsimp only
        split <;> (show (L.chains.set k _)[cid]? = _; rw [List.getElem?_set_ne hk, hc])
    unfold tfStep
    dsimp only
    split <;> (rename_i h; rw [h] at hg; exact hg)

theorem tfOutcomes_cons_other {op : TfOp} {o : TfOut ρ} {cid : Nat} (h : List (TfOp × TfOut ρ))
    (hop : ∀ k, op = .get k → k ≠ cid) : tfOutcomes cid ((op, o) :: h) = tfOutcomes cid h := by
  cases op with
  | register => rfl
  | registerOrdered => rfl
  | get k => rw [tfOutcomes, if_neg (hop k rfl)]

theorem tfRun_chain {R : TfRng σ} (hR : R.Lawful) {B : Nat} (hB : 0 < B) {cid cs mb : Nat} :
    ∀ (ops : List TfOp) (L : TfLoader σ ρ) (c : TfChain σ) (ts : List Nat), 0 < L.obsCount →
      DataWF L.data L.obsCount → L.exclude.Nodup → (∀ k ∈ L.exclude, k ∈ L.data.map (·.1)) →
      L.chains[cid]? = some c → c.cacheSize = cs → c.mbSize = mb → TfInv L.obsCount B ts c →
      ∃ ts', BufferedShuffle B (ts ++ ts') ∧
        ts'.length = (tfOutcomes cid (tfRun R L ops).2).length * (cs * mb) ∧
        (∀ o ∈ tfOutcomes cid (tfRun R L ops).2, TfShape (tfFormatKeys L) cs mb o) ∧
        ∀ name d, name ∉ L.exclude → L.data.lookup name = some d →
          (tfStream name (tfOutcomes cid (tfRun R L ops).2)).map some =
            ts'.map fun t => d[t % L.obsCount]? := by
  intro ops
  induction ops with
  | nil =>
    intro L c ts _ _ _ _ _ _ _ hinv
    exact ⟨[], by simpa using hinv.shuffle, by simp [tfRun, tfOutcomes], by simp [tfRun, tfOutcomes],
      by simp [tfRun, tfOutcomes, tfStream]⟩
  | cons op ops ih =>
    intro L c ts hN hwf hnd hmem hc hcs hmb hinv
    obtain ⟨s1, s2, s3, _⟩ := tfStep_static R L op
    have hkeys : tfFormatKeys (tfStep R L op).1 = tfFormatKeys L := by
      unfold tfFormatKeys; rw [s1, s3]
    by_cases hop : op = .get cid
    · subst hop
      obtain ⟨tss, c', t1, t2, t3, t4, t5, t6⟩ := tfGet_spec hR hB hN hwf hc hinv
      have hdel := tfDelete_ok L.exclude (tfAssemble L.data L.obsCount tss) hnd (by
        simpa [tfAssemble] using hmem)
      rw [hdel] at t6
      have hstep : tfStep R L (.get cid) = ({ L with chains := L.chains.set cid c' },
          .batches ((tfAssemble L.data L.obsCount tss).filter fun x => !L.exclude.contains x.1)) := by
        unfold tfStep
        dsimp only
        rw [t6]
      have hlt : cid < L.chains.length := by
        by_contra h
        rw [List.getElem?_eq_none (by omega)] at hc; cases hc
      obtain ⟨ts', i1, i2, i3, i4⟩ := ih { L with chains := L.chains.set cid c' } c' _ hN hwf hnd hmem
        (by simp [hlt]) (t4.trans hcs) (t5.trans hmb) t3
      have hrun : tfOutcomes cid (tfRun R L (.get cid :: ops)).2 =
          .batches ((tfAssemble L.data L.obsCount tss).filter fun x => !L.exclude.contains x.1) ::
            tfOutcomes cid (tfRun R { L with chains := L.chains.set cid c' } ops).2 := by
        simp only [tfRun, hstep, tfOutcomes, if_true]
      have hflat : tss.flatten.length = cs * mb := by
        rw [List.length_flatten, ← hcs, ← hmb, ← t1]
        have : tss.map List.length = List.replicate tss.length c.mbSize :=
          List.eq_replicate_iff.mpr ⟨by simp, fun n hn => by
            obtain ⟨l, hl, rfl⟩ := List.mem_map.mp hn; exact t2 l hl⟩
        rw [this, List.sum_replicate_nat]
      refine ⟨tss.flatten ++ ts', by rw [← List.append_assoc]; exact i1, ?_, ?_, ?_⟩
      · rw [hrun, List.length_append, i2, hflat, List.length_cons]; ring
      · rw [hrun]
        intro o ho
        rcases List.mem_cons.mp ho with rfl | ho
        · refine ⟨_, rfl, ?_, ?_⟩
          · rw [tfFormatKeys, tfAssemble, List.filter_map, List.map_map, List.filter_map]
            rfl
          · intro x hx
            obtain ⟨y, hy, rfl⟩ := List.mem_map.mp (List.mem_filter.mp hx).1
            refine ⟨by simp [t1, hcs], fun l hl => ?_⟩
            obtain ⟨l', hl', rfl⟩ := List.mem_map.mp hl
            rw [(filterMap_mod hN y.2 (hwf y hy) l').1, t2 l' hl', hmb]
        · exact i3 o ho
      · intro name d hname hd
        have hdl : d.length = L.obsCount := hwf (name, d) (mem_of_lookup_eq L.data name d hd)
        rw [hrun, tfStream, tfAssemble, lookup_filter_map (fun k => !L.exclude.contains k)
          (fun x : String × List ρ => tss.map fun l => l.filterMap fun t => x.2[t % L.obsCount]?) name
          (by simp [hname]), hd]
        rw [List.map_append, i4 name d hname hd, List.map_append]
        congr 1
        show ((tss.map fun l => l.filterMap fun t => d[t % L.obsCount]?).flatten).map some = _
        rw [List.map_flatten, List.map_flatten, List.map_map]
        congr 1
        exact List.map_congr_left fun l _ => (filterMap_mod hN d hdl l).2
    · have hop' : ∀ k, op = .get k → k ≠ cid := by
        rintro k rfl rfl; exact hop rfl
      have hc' := tfStep_other R L op cid c hc hop'
      obtain ⟨ts', i1, i2, i3, i4⟩ := ih (tfStep R L op).1 c ts (by rw [s2]; exact hN)
        (by rw [s1, s2]; exact hwf) (by rw [s3]; exact hnd) (by rw [s3, s1]; exact hmem) hc' hcs hmb
        (by rw [s2]; exact hinv)
      have hrun : tfOutcomes cid (tfRun R L (op :: ops)).2 = tfOutcomes cid (tfRun R (tfStep R L op).1 ops).2 :=
        tfOutcomes_cons_other _ hop'
      rw [hrun]
      rw [hkeys] at i3
      rw [s1, s2, s3] at i4
      exact ⟨ts', i1, i2, i3, i4⟩

/-- **C99** A random chain of a `TensorflowDataLoader` delivers, in every history, batches of the registered
shape with the keys which are not excluded; all arrays contribute the same observations, and these are a
buffered shuffle of the repeated dataset. -/
theorem c99_stream {R : TfRng σ} (hR : R.Lawful) {data : List (String × List ρ)} {N B : Nat} (hN : 0 < N)
    (hB : 0 < B) (hwf : ∀ x ∈ data, x.2.length = N) {ex : Option (List String)} (hnd : (ex.getD []).Nodup)
    (hmem : ∀ k ∈ ex.getD [], k ∈ data.map (·.1)) (ops : List TfOp) {cs mb cid : Nat} {L : TfLoader σ ρ}
    (hreg : tfStep R (tfRun R (tfMk data N ex B) ops).1 (.register cs mb) = (L, .registered cid))
    (ops' : List TfOp) :
    ∃ times : List Nat, BufferedShuffle B times ∧
      times.length = (tfOutcomes cid (tfRun R L ops').2).length * (cs * mb) ∧
      (∀ o ∈ tfOutcomes cid (tfRun R L ops').2,
        TfShape ((data.map (·.1)).filter fun k => !(ex.getD []).contains k) cs mb o) ∧
      ∀ name d, name ∉ ex.getD [] → data.lookup name = some d →
        (tfStream name (tfOutcomes cid (tfRun R L ops').2)).map some = times.map fun t => d[t % N]? := by
  obtain ⟨s1, s2, s3, s4⟩ := tfRun_static R ops (tfMk data N ex B : TfLoader σ ρ)
  generalize (tfRun R (tfMk data N ex B) ops).1 = L0 at s1 s2 s3 s4 hreg
  obtain ⟨dat, n, exc, sc, ch⟩ := L0
  dsimp only [tfMk] at s1 s2 s3 s4
  subst s1 s2 s3 s4
  simp only [tfStep, tfRegister, Prod.mk.injEq, TfOut.registered.injEq] at hreg
  obtain ⟨rfl, rfl⟩ := hreg
  obtain ⟨ts', i1, i2, i3, i4⟩ := tfRun_chain hR hB (cid := ch.length) (cs := cs) (mb := mb) ops'
    (⟨dat, n, ex.getD [], sc, ch ++ [⟨sc, (List.range sc).map (· % n), R.seed ch.length, cs, mb⟩]⟩ : TfLoader σ ρ)
    ⟨sc, (List.range sc).map (· % n), R.seed ch.length, cs, mb⟩ [] hN hwf hnd hmem
    (by simp) rfl rfl (TfInv.init R n sc ch.length cs mb)
  exact ⟨ts', by simpa using i1, i2, i3, i4⟩

/-! ### how often an observation is delivered -/

theorem shuffle_counts {B N : Nat} (hN : 0 < N) {times : List Nat} (h : BufferedShuffle B times) (hB : 0 < B)
    {i : Nat} (hi : i < N) :
    (times.length + B - 1) / N ≤ (times.map (· % N)).count i + (B - 1) ∧
    (times.map (· % N)).count i ≤ (times.length + B - 1) / N + 1 := by
  set M := times.length + B - 1 with hM
  have hsub : times.toFinset ⊆ Finset.range M := by
    intro t ht
    obtain ⟨j, hj⟩ := List.mem_iff_getElem?.mp (List.mem_toFinset.mp ht)
    have h1 := h.early j t hj
    have h2 : j < times.length := by
      by_contra hge
      rw [List.getElem?_eq_none (by omega)] at hj; cases hj
    rw [Finset.mem_range]; omega
  have hcard : times.toFinset.card = times.length := List.toFinset_card_of_nodup h.nodup
  have hcount : (times.map (· % N)).count i = (times.toFinset.filter fun t => t % N = i).card := by
    have e : (times.toFinset.filter fun t => t % N = i) = (times.filter fun t => t % N == i).toFinset := by
      ext t; simp
    rw [e, List.toFinset_card_of_nodup (h.nodup.filter _), List.count, List.countP_map,
      List.countP_eq_length_filter]
    rfl
  have htotal : ((Finset.range M).filter fun t => t % N = i).card = M / N + if i % N < M % N then 1 else 0 := by
    rw [← Nat.count_modEq_card M hN i, Nat.count_eq_card_filter_range]
    congr 1
    refine Finset.filter_congr fun t _ => ?_
    rw [Nat.ModEq, Nat.mod_eq_of_lt hi]
  rw [hcount]
  constructor
  · have h1 : ((Finset.range M).filter fun t => t % N = i) ⊆
        (times.toFinset.filter fun t => t % N = i) ∪ (Finset.range M \ times.toFinset) := by
      intro t ht
      obtain ⟨a, b⟩ := Finset.mem_filter.mp ht
      rw [Finset.mem_union, Finset.mem_filter, Finset.mem_sdiff]
      by_cases hh : t ∈ times.toFinset
      · exact .inl ⟨hh, b⟩
      · exact .inr ⟨a, hh⟩
    have h2 := (Finset.card_le_card h1).trans (Finset.card_union_le _ _)
    rw [htotal, Finset.card_sdiff_of_subset hsub, hcard, Finset.card_range] at h2
    omega
  · have h1 := Finset.card_le_card (Finset.filter_subset_filter (fun t => t % N = i) hsub)
    rw [htotal] at h1
    split at h1 <;> omega

theorem count_rows [DecidableEq ρ] {N : Nat} {d : List ρ} (hd : d.length = N) (hnd : d.Nodup) {i : Nat}
    (hi : i < d.length) : ∀ (times : List Nat) (rows : List ρ), rows.map some = times.map (fun t => d[t % N]?) →
      rows.count d[i] = (times.map (· % N)).count i
  | [], rows, h => by
    have : rows = [] := by simpa using h
    subst this; rfl
  | t :: times, [], h => by simp at h
  | t :: times, r :: rows, h => by
    simp only [List.map_cons, List.cons.injEq] at h
    have ih := count_rows hd hnd hi times rows h.2
    rw [List.count_cons, List.map_cons, List.count_cons, ih]
    congr 1
    obtain ⟨hlt, hget⟩ := List.getElem?_eq_some_iff.mp h.1.symm
    by_cases hti : t % N = i
    · have : r = d[i] := by rw [← hget]; simp [hti]
      simp [hti, this]
    · have : r ≠ d[i] := by
        rw [← hget]
        exact fun he => hti ((List.Nodup.getElem_inj_iff hnd).mp he)
      simp [hti, this]

/-- **C99** If the dataset contains no observation twice, every observation has been delivered
`(n + B - 1) / N` times after `n` draws, up to `B - 1` deliveries too few or one too many. -/
theorem c99_counts [DecidableEq ρ] {R : TfRng σ} (hR : R.Lawful) {data : List (String × List ρ)} {N B : Nat}
    (hN : 0 < N) (hB : 0 < B) (hwf : ∀ x ∈ data, x.2.length = N) {ex : Option (List String)}
    (hnd : (ex.getD []).Nodup) (hmem : ∀ k ∈ ex.getD [], k ∈ data.map (·.1)) (ops : List TfOp)
    {cs mb cid : Nat} {L : TfLoader σ ρ}
    (hreg : tfStep R (tfRun R (tfMk data N ex B) ops).1 (.register cs mb) = (L, .registered cid))
    (ops' : List TfOp) {name : String} {d : List ρ} (hname : name ∉ ex.getD [])
    (hd : data.lookup name = some d) (hdup : d.Nodup) {r : ρ} (hr : r ∈ d) :
    let stream := tfStream name (tfOutcomes cid (tfRun R L ops').2)
    (stream.length + B - 1) / N ≤ stream.count r + (B - 1) ∧
      stream.count r ≤ (stream.length + B - 1) / N + 1 := by
  intro stream
  obtain ⟨times, h1, _, _, h4⟩ := c99_stream hR hN hB hwf hnd hmem ops hreg ops'
  have hst := h4 name d hname hd
  have hlen : stream.length = times.length := by simpa using congrArg List.length hst
  have hdl : d.length = N := hwf (name, d) (mem_of_lookup_eq data name d hd)
  obtain ⟨i, hi, rfl⟩ := List.mem_iff_getElem.mp hr
  rw [hlen, show stream.count d[i] = _ from count_rows hdl hdup hi times stream hst]
  exact shuffle_counts hN h1 hB (hdl ▸ hi)

/-- A program meeting the hypotheses: two chains are registered, both deliver batches, the array `y` is
excluded. -/
example : toyTfRng.Lawful ∧ (∀ x ∈ toyData, x.2.length = 5) ∧
    (∃ L, tfStep toyTfRng (tfRun toyTfRng (tfMk toyData 5 (some ["y"]) 3) [.register 1 1, .get 0]).1
      (.register 2 2) = (L, .registered 1) ∧
      tfStream "x" (tfOutcomes 1 (tfRun toyTfRng L [.get 1, .get 0, .get 1]).2) =
        [11, 10, 14, 10, 11, 12, 13, 14]) :=
  ⟨toyTfRng_lawful, by decide, _, rfl, by decide +kernel⟩

/-! ### C100 -/

/-- **C100** (full statement) As the observations are shuffled, each pass over the dataset delivers every
observation once: the first `N` delivered observations are a permutation of the dataset. -/
def C100Statement : Prop :=
  ∀ (σ : Type) (R : TfRng σ) (d : List Nat) (B : Nat) (ops : List TfOp), R.Lawful → 0 < d.length → d.Nodup →
    0 < B → ∀ cs mb (L : TfLoader σ Nat),
    tfStep R (tfMk [("x", d)] d.length none B) (.register cs mb) = (L, .registered 0) →
    d.length ≤ (tfStream "x" (tfOutcomes 0 (tfRun R L ops).2)).length →
    ((tfStream "x" (tfOutcomes 0 (tfRun R L ops).2)).take d.length).Perm d

/-- **C100** is false: the dataset is repeated before it is shuffled, so an observation can be drawn twice
before another one is drawn for the first time. -/
theorem c100_false : ¬ C100Statement := by
  intro h
  have := h (List Nat) toyTfRng [7, 8] 2 [.get 0] toyTfRng_lawful (by decide) (by decide) (by decide) 1 2 _ rfl
    (by decide +kernel)
  have h2 : (tfStream "x" (tfOutcomes 0 (tfRun toyTfRng (tfStep toyTfRng
      (tfMk [("x", [7, 8])] 2 none 2) (.register 1 2)).1 [.get 0]).2)) = [7, 7] := by decide +kernel
  have h3 : (List.take 2 [7, 7]).Perm [7, 8] := by
    rw [← h2]; exact this
  exact absurd h3 (by decide)

theorem shuffle_one {times : List Nat} (h : BufferedShuffle 1 times) : times = List.range times.length := by
  have key : ∀ j, j < times.length → times[j]? = some j := by
    intro j
    induction j using Nat.strong_induction_on with
    | _ j ih =>
      intro hj
      have hget : times[j]? = some times[j] := List.getElem?_eq_getElem hj
      have hle := h.early j _ hget
      by_contra hne
      have hlt : times[j] < j := by
        rcases Nat.lt_or_ge times[j] j with h' | h'
        · exact h'
        · exact absurd (by rw [hget]; congr 1; omega) hne
      have := ih times[j] hlt (by omega)
      rw [List.getElem?_eq_getElem (by omega)] at this
      have hEq : times[times[j]]'(by omega) = times[j] := by simpa using this
      have := (List.Nodup.getElem_inj_iff h.nodup).mp hEq
      omega
  refine List.ext_getElem? fun j => ?_
  rcases Nat.lt_or_ge j times.length with hj | hj
  · rw [key j hj, List.getElem?_range hj]
  · rw [List.getElem?_eq_none hj, List.getElem?_eq_none (by simpa using hj)]

/-- **C100** (partial) Without shuffling (`shuffle_cache=1`) the observations are delivered in the order of the
dataset, again and again.  Missing: with a larger buffer only the bounds of `c99_counts` hold. -/
theorem c100_sequential_partial {R : TfRng σ} (hR : R.Lawful) {data : List (String × List ρ)} {N : Nat}
    (hN : 0 < N) (hwf : ∀ x ∈ data, x.2.length = N) {ex : Option (List String)}
    (hnd : (ex.getD []).Nodup) (hmem : ∀ k ∈ ex.getD [], k ∈ data.map (·.1)) (ops : List TfOp)
    {cs mb cid : Nat} {L : TfLoader σ ρ}
    (hreg : tfStep R (tfRun R (tfMk data N ex 1) ops).1 (.register cs mb) = (L, .registered cid))
    (ops' : List TfOp) {name : String} {d : List ρ} (hname : name ∉ ex.getD [])
    (hd : data.lookup name = some d) :
    let stream := tfStream name (tfOutcomes cid (tfRun R L ops').2)
    ∀ j < stream.length, stream[j]? = d[j % N]? := by
  intro stream j hj
  obtain ⟨times, h1, _, _, h4⟩ := c99_stream hR hN Nat.one_pos hwf hnd hmem ops hreg ops'
  have hst := h4 name d hname hd
  have hlen : stream.length = times.length := by simpa using congrArg List.length hst
  rw [shuffle_one h1] at hst
  have := congrArg (fun l => l[j]?) hst
  simp only [List.getElem?_map] at this
  rw [List.getElem?_range (by omega)] at this
  rw [List.getElem?_eq_getElem hj] at this ⊢
  simpa using this

/-! ### C101 -/

theorem sliceAll_names (idxs : List (List Nat)) : ∀ (data : List (String × List ρ)) (obs),
    sliceAll idxs data = .ok obs → obs.map (·.1) = data.map (·.1)
  | [], obs, h => by
    simp only [sliceAll, Except.ok.injEq] at h; subst h; rfl
  | (n, d) :: data, obs, h => by
    rw [sliceAll] at h
    split at h
    · cases h
    · split at h
      · cases h
      · rename_i bs hbs
        simp only [Except.ok.injEq] at h
        subst h
        simp [sliceAll_names idxs data _ hbs]

/-- **C101** Whenever a batch is delivered, its keys are those announced by the format of the observations. -/
theorem c101_keys (R : TfRng σ) (L L' : TfLoader σ ρ) (cid : Nat) (obs : List (String × List (List ρ)))
    (h : tfStep R L (.get cid) = (L', .batches obs)) : obs.map (·.1) = tfFormatKeys L := by
  have hget : (tfGetBatches R L cid).1 = .ok obs := by
    simp only [tfStep] at h
    split at h
    · simp at h
    · rename_i b L'' hb
      rw [hb]
      simp only [Prod.mk.injEq, TfOut.batches.injEq] at h
      rw [h.2]
  unfold tfGetBatches at hget
  split at hget
  · cases hget
  · dsimp only at hget
    split at hget
    · cases hget
    · rename_i o ho
      have hn := sliceAll_names _ _ _ ho
      dsimp only at hget
      by_cases hk : L.exclude.Nodup ∧ ∀ k ∈ L.exclude, k ∈ o.map (·.1)
      · rw [tfDelete_ok _ _ hk.1 hk.2, Except.ok.injEq] at hget
        rw [← hget, tfFormatKeys, show L.data.map Prod.fst = o.map (·.1) from hn.symm, List.filter_map]
        rfl
      · rw [tfDelete_error _ _ hk] at hget
        cases hget

theorem tfRun_inv {R : TfRng σ} (hR : R.Lawful) : ∀ (ops : List TfOp) (L : TfLoader σ ρ), 0 < L.obsCount →
    0 < L.shuffleCache → DataWF L.data L.obsCount →
    (∀ c ∈ L.chains, ∃ ts, TfInv L.obsCount L.shuffleCache ts c) →
    ∀ c ∈ (tfRun R L ops).1.chains, ∃ ts, TfInv L.obsCount L.shuffleCache ts c
  | [], _, _, _, _, h => h
  | op :: ops, L, hN, hB, hwf, h => by
    obtain ⟨s1, s2, s3, s4⟩ := tfStep_static R L op
    have := tfRun_inv hR ops (tfStep R L op).1 (s2 ▸ hN) (s4 ▸ hB) (by rw [s1, s2]; exact hwf) ?_
    · rwa [s2, s4] at this
    · rw [s2, s4]
      cases op with
      | register cs mb =>
        intro c hc
        rcases List.mem_append.mp (show c ∈ L.chains ++ _ from hc) with hc | hc
        · exact h c hc
        · rw [List.mem_singleton.mp hc]
          exact ⟨[], TfInv.init R _ _ _ _ _⟩
      | registerOrdered cs mb => exact h
      | get cid =>
        have hstep : (tfStep R L (.get cid)).1 = (tfGetBatches R L cid).2 := by
          simp only [tfStep]
          split <;> rename_i hb <;> rw [hb]
        rw [hstep]
        cases hc : L.chains[cid]? with
        | none =>
          have : (tfGetBatches R L cid).2 = L := by unfold tfGetBatches; rw [hc]
          rw [this]; exact h
        | some c =>
          obtain ⟨ts, hts⟩ := h c (List.mem_of_getElem? hc)
          obtain ⟨tss, c', _, _, t3, _, _, t6⟩ := tfGet_spec hR hB hN hwf hc hts
          rw [t6]
          intro x hx
          rcases List.mem_or_eq_of_mem_set (show x ∈ L.chains.set cid c' from hx) with hx | rfl
          · exact h x hx
          · exact ⟨_, t3⟩

/-- **C101** A key which is excluded but not part of the dataset (or excluded twice) makes every request of
every chain fail with a `KeyError`, although the announced format simply ignores the key. -/
theorem c101_missing_key {R : TfRng σ} (hR : R.Lawful) {data : List (String × List ρ)} {N B : Nat} (hN : 0 < N)
    (hB : 0 < B) (hwf : ∀ x ∈ data, x.2.length = N) {ex : List String}
    (hbad : ¬ (ex.Nodup ∧ ∀ k ∈ ex, k ∈ data.map (·.1))) (ops : List TfOp) (cid : Nat)
    (hc : cid < (tfRun R (tfMk data N (some ex) B) ops).1.chains.length) :
    (tfStep R (tfRun R (tfMk data N (some ex) B) ops).1 (.get cid)).2 = .raised .keyError ∧
    tfFormatKeys (tfRun R (tfMk data N (some ex) B) ops).1 =
      (data.map (·.1)).filter fun k => !ex.contains k := by
  have hinv := tfRun_inv hR ops (tfMk data N (some ex) B) hN hB hwf (by simp [tfMk])
  obtain ⟨s1, s2, s3, s4⟩ := tfRun_static R ops (tfMk data N (some ex) B : TfLoader σ ρ)
  generalize (tfRun R (tfMk data N (some ex) B) ops).1 = L at hinv s1 s2 s3 s4 hc
  obtain ⟨dat, n, exc, sc, ch⟩ := L
  dsimp only [tfMk, Option.getD_some] at s1 s2 s3 s4 hc hinv
  subst s1 s2 s3 s4
  obtain ⟨ts, hts⟩ := hinv ch[cid] (List.getElem_mem hc)
  obtain ⟨tss, c', _, _, _, _, _, t6⟩ := tfGet_spec (L := ⟨dat, n, exc, sc, ch⟩) hR hB hN hwf
    (List.getElem?_eq_getElem hc) hts
  refine ⟨?_, rfl⟩
  simp only [tfStep]
  rw [t6, tfDelete_error]
  intro hh
  exact hbad ⟨hh.1, by simpa [tfAssemble] using hh.2⟩

/-- **C101** Ordered pipelines are rejected without a side effect. -/
theorem c101_ordered (R : TfRng σ) (L : TfLoader σ ρ) (cs mb : Nat) :
    tfStep R L (.registerOrdered cs mb) = (L, .raised .notImplementedError) := rfl

example : ¬ (["z"].Nodup ∧ ∀ k ∈ ["z"], k ∈ toyData.map (·.1)) ∧
    0 < (tfRun toyTfRng (tfMk toyData 5 (some ["z"]) 3) [.register 1 1]).1.chains.length := by decide

end JaxSgmc
