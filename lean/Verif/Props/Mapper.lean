import Verif.Lemmas.MapperInv
import Verif.Props.FullData

/-!
# C22: `full_data_mapper` used concurrently
-/

namespace JaxSgmc

open Spec

section
variable {σ ρ γ τ : Type} (R : Rng σ)

/-- **C22.** A mapper of the numpy loader `l` is created in any reachable program state.  For every
interleaving `ops` of starts, iterations and ends of mapping calls and of other operations of the
program:
1. no two running calls hold the same data state, and no running call holds an unused one;
2. every call which has ended called the function on a sequence of batches in which row `i % mb` of
   batch `i / mb` is observation `i`, starting with the carry passed to the call, and returned the
   concatenated results cut to `N` and the last carry;
3. chains have been registered at the data loader for at most as many data states as there have been
   calls running at the same time (at least one);
4. no operation of a call ever fails: a call which is started runs, every iteration succeeds, and after
   `q` iterations it can end. -/
theorem c22_concurrent {devices base : Nat} (hdev : 1 ≤ devices) {objs : Nat → Loader σ ρ}
    (hobjs : ∀ i, ∃ data, mkLoader data = .ok (objs i)) {s}
    (hs : PReachable (numpyHost R) devices objs s) {l : Nat} {cc mb : Int}
    {m0 : Mapper (Loader σ ρ) (NB ρ) τ γ}
    (hm0 : mkMapper (numpyHost R) devices base .ordered s l cc mb = some m0)
    (fn : NB ρ → τ → List γ × τ) (ops : List (MOp NumpyKw τ))
    (hops : ∀ op ∈ ops, EnvOk base m0.cb op) :
    let N := (objs l).obsCount
    let q := ceilDiv N mb.toNat
    let step := mstep (numpyHost R) devices base .ordered N q fn
    let m := mrun (numpyHost R) devices base .ordered N q fn m0 ops
    (∀ c c' a b, m.calls c = some a → m.calls c' = some b → a.slot = b.slot → c = c') ∧
    (∀ c call, m.calls c = some call → call.slot ∉ m.pool) ∧
    (∀ c res carry, m.finished c = some (res, carry) →
      ∃ carry0 batches, MOp.start c carry0 ∈ ops ∧ batches.length = q ∧
        (∀ i < N, ∃ h : i / mb.toNat < batches.length,
          batchRow batches[i / mb.toNat].1 (i % mb.toNat) = batchRow (objs l).data i) ∧
        carry = (thread fn batches carry0).2 ∧
        res = (thread fn batches carry0).1.flatten.take N) ∧
    (m.created ≤ 1 ∨ ∃ before after, ∃ ids : List Nat,
      ops = before ++ after ∧ ids.Nodup ∧ ids.length = m.created ∧
      ∀ c ∈ ids, ((mrun (numpyHost R) devices base .ordered N q fn m0 before).calls c).isSome) ∧
    (∀ c carry, m.calls c = none → ((step m (.start c carry)).calls c).isSome) ∧
    (∀ c call, m.calls c = some call → call.iter < q →
      ∃ call', (step m (.iter c)).calls c = some call' ∧ call'.iter = call.iter + 1) ∧
    (∀ c call, m.calls c = some call → call.iter = q → ((step m (.finish c)).finished c).isSome) := by
  intro N q step m
  obtain ⟨I0, -, -⟩ := MInv.init (fn := fn) hobjs hs hm0
  have I := MInv.run hdev hobjs ops I0 rfl hops
  rw [List.nil_append] at I
  refine ⟨I.callInj, I.callPool, ?_, ?_, ?_, ?_, ?_⟩
  · intro c res carry h
    obtain ⟨c0, h1, h2⟩ := I.fin c _ h
    simp only [Prod.mk.injEq] at h2
    refine ⟨c0, _, h1, ?_, ?_, h2.2, h2.1⟩
    · simp [q, N]
    · intro i hi
      have hmb : 0 < mb.toNat := I.mbPos
      have hle : mb.toNat ≤ N := I.mbLe
      have hwf : DataWF (objs l).data (objs l).obsCount := by
        obtain ⟨data, hd⟩ := hobjs l
        obtain ⟨h1, h3, -⟩ := mkLoader_spec data _ hd
        rw [h1]
        exact h3
      have hq : i / mb.toNat < q :=
        Nat.div_lt_of_lt_mul (by rw [Nat.mul_comm]; exact lt_of_lt_of_le hi (ceilDiv_le hmb))
      refine ⟨by simpa using hq, ?_⟩
      simp only [List.getElem_map, List.getElem_range]
      rw [passRows_row _ _ _ _ _ hwf hmb hle (Nat.mod_lt _ hmb), Nat.mod_add_div', Nat.mod_eq_of_lt hi]
  · rcases I.peak with h | ⟨before, after, h1, ids, h2⟩
    · exact .inl h
    · exact .inr ⟨before, after, ids, h1, h2⟩
  · intro c carry hc
    cases hp : m.pool.getLast? with
    | some slot => simp [step, mstep, hc, hp]
    | none =>
      have := (I.start_new hobjs c carry rfl hc (List.getLast?_eq_none_iff.1 hp)).1
      exact Option.isSome_iff_ne_none.2 this
  · intro c call hc hlt
    obtain ⟨hle, ⟨p, hat⟩, -⟩ := I.callAt c call hc
    obtain ⟨hsrc, -⟩ := hat.draw (I.reach.ginv (numpyContract R)) hdev
    have hst : ((step m (.iter c)).calls c).map (·.iter) = some (call.iter + 1) := by
      simp only [step, mstep]
      rw [show m.calls c = some call from hc]
      simp only [hlt, if_true]
      rw [show hostSource (numpyHost R) devices call.slot 1 m.sys = _ from hsrc]
      simp
    exact Option.map_eq_some_iff.1 hst
  · intro c call hc hit
    simp [step, mstep, show m.calls c = some call from hc, hit]

/-- **C22** for functions which compute `φ` for every row: every call which has ended returned `φ` of
the observations `0, …, N-1` in this order. -/
theorem c22_rowwise {devices base : Nat} (hdev : 1 ≤ devices) {objs : Nat → Loader σ ρ}
    (hobjs : ∀ i, ∃ data, mkLoader data = .ok (objs i)) {s}
    (hs : PReachable (numpyHost R) devices objs s) {l : Nat} {cc mb : Int}
    {m0 : Mapper (Loader σ ρ) (NB ρ) τ γ}
    (hm0 : mkMapper (numpyHost R) devices base .ordered s l cc mb = some m0)
    (φ : List (String × Option ρ) → γ) (ψ : NB ρ → τ → τ) (ops : List (MOp NumpyKw τ))
    (hops : ∀ op ∈ ops, EnvOk base m0.cb op) :
    ∀ c res carry, (mrun (numpyHost R) devices base .ordered (objs l).obsCount
        (ceilDiv (objs l).obsCount mb.toNat)
        (fun b c => ((List.range mb.toNat).map (fun j => φ (batchRow b.1 j)), ψ b c)) m0 ops).finished c =
          some (res, carry) →
      res = (List.range (objs l).obsCount).map (fun i => φ (batchRow (objs l).data i)) := by
  intro c res carry h
  obtain ⟨I0, -, -⟩ := MInv.init (fn := fun b c => ((List.range mb.toNat).map
    (fun j => φ (batchRow b.1 j)), ψ b c)) hobjs hs hm0
  have hmb : 0 < mb.toNat := I0.mbPos
  obtain ⟨-, -, h1, -⟩ := c22_concurrent R hdev hobjs hs hm0
    (fun b c => ((List.range mb.toNat).map (fun j => φ (batchRow b.1 j)), ψ b c)) ops hops
  obtain ⟨c0, batches, -, h2, h3, -, rfl⟩ := h1 c res carry h
  have hth : ∀ (bs : List (NB ρ)) c, (thread (fun (b : NB ρ) (c : τ) =>
      ((List.range mb.toNat).map (fun j => φ (batchRow b.1 j)), ψ b c)) bs c).1 =
      bs.map (fun b => (List.range mb.toNat).map (fun j => φ (batchRow b.1 j))) := by
    intro bs
    induction bs with
    | nil => intro c; rfl
    | cons b bs ih => intro c; simp [thread, ih]
  rw [hth]
  have hlen : ∀ r ∈ batches.map (fun b => (List.range mb.toNat).map (fun j => φ (batchRow b.1 j))),
      r.length = mb.toNat := by
    intro r hr
    obtain ⟨b, -, rfl⟩ := List.mem_map.1 hr
    simp
  apply List.ext_getElem?
  intro i
  rw [List.getElem?_take]
  by_cases hi : i < (objs l).obsCount
  · obtain ⟨hb, hrow⟩ := h3 i hi
    rw [if_pos hi, flatten_get _ hmb _ hlen]
    simp [hb, hi, Nat.mod_lt _ hmb, hrow]
  · rw [if_neg hi, List.getElem?_eq_none (by simp; omega)]

/-- Two calls of a mapper of the toy loader run at the same time, a third one after the first: two
data states have been created, all three results are complete. -/
def toyMapperRun : Option (Mapper (Loader Nat Nat) (NB Nat) Nat (Option Nat)) :=
  (mkMapper (numpyHost toyRng) 3 100 .ordered toyReady 1 2 2).map (fun m0 =>
    mrun (numpyHost toyRng) 3 100 .ordered 5 3
        (fun b c => ((List.range 2).map (fun j => ((batchRow b.1 j).lookup "x").join), c + 1)) m0
        [.start 0 0, .iter 0, .start 1 7, .iter 1, .iter 0, .iter 0, .env (.setup 1 1 1 true),
         .finish 0, .start 2 0, .iter 2, .iter 1, .iter 1, .iter 2, .finish 1, .iter 2, .finish 2])

example : toyMapperRun.map (·.created) = some 2 ∧
    toyMapperRun.bind (·.finished 0) = some ([some 10, some 11, some 12, some 13, some 14], 3) ∧
    toyMapperRun.bind (·.finished 1) = some ([some 10, some 11, some 12, some 13, some 14], 10) ∧
    toyMapperRun.bind (·.finished 2) = some ([some 10, some 11, some 12, some 13, some 14], 3) := by
  refine ⟨by decide, by decide, by decide, by decide⟩

end

end JaxSgmc
