import Verif.Spec.CollectorCalls
import Verif.Lemmas.Mcmc

/-!
# C160: a memory collector called in any order
-/

namespace JaxSgmc

open Spec

variable {α : Type}

/-- A chain of the collector is as expected. -/
def ChainExpected (zero : α → α) (c : ExpectedChain α) (ch : MemChain α) : Prop :=
  ChainHolds zero c.init c.size c.kept ch ∧ (∀ s ∈ c.kept, s.shape = c.init.shape) ∧
    ch.locked = !c.finalized ∧ c.init.leaves ≠ []

/-- All chains of the collector are as expected. -/
def CollectorExpected (zero : α → α) (chains : List (ExpectedChain α)) (C : MemCollector α) : Prop :=
  List.Forall₂ (ChainExpected zero) chains C.chains

theorem forall2_get {β γ : Type} {R : β → γ → Prop} : ∀ {as : List β} {bs : List γ}, List.Forall₂ R as bs →
    ∀ i : Nat, (as[i]? = none ∧ bs[i]? = none) ∨ ∃ a b, as[i]? = some a ∧ bs[i]? = some b ∧ R a b := by
  intro as bs h
  induction h with
  | nil => intro i; left; simp
  | cons hab _ ih =>
    intro i
    cases i with
    | zero => right; exact ⟨_, _, rfl, rfl, hab⟩
    | succ i => simpa using ih i

theorem forall2_set {β γ : Type} {R : β → γ → Prop} {as : List β} {bs : List γ} (h : List.Forall₂ R as bs)
    {a : β} {b : γ} (hab : R a b) : ∀ i : Nat, List.Forall₂ R (as.set i a) (bs.set i b) := by
  induction h with
  | nil => intro i; simp
  | cons h0 hrest ih =>
    intro i
    cases i with
    | zero => exact .cons hab hrest
    | succ i => exact .cons h0 (ih i)

theorem forall2_snoc {β γ : Type} {R : β → γ → Prop} {as : List β} {bs : List γ} (h : List.Forall₂ R as bs)
    {a : β} {b : γ} (hab : R a b) : List.Forall₂ R (as ++ [a]) (bs ++ [b]) := by
  induction h with
  | nil => exact .cons hab .nil
  | cons h0 _ ih => exact .cons h0 ih

theorem memCall_expected (zero : α → α) {chains : List (ExpectedChain α)} {C : MemCollector α}
    (h : CollectorExpected zero chains C) (c : MemCall α) (hc : Sensible C.saveDir chains c) :
    CollectorExpected zero (expectedCall chains c).1 (memCall zero C c).1 ∧
      (memCall zero C c).2 = (expectedCall chains c).2 ∧ (memCall zero C c).1.saveDir = C.saveDir := by
  cases c with
  | register sample n =>
    obtain ⟨hn, hname, hleaf⟩ := hc
    obtain ⟨ch, h1, h2, h3, -⟩ := memRegister_ok zero C sample n hn hname
    simp only [memCall, h1, expectedCall, and_true]
    exact forall2_snoc h ⟨h2, by simp, by simpa using h3, hleaf⟩
  | save id sample =>
    rcases forall2_get h id with ⟨h1, h2⟩ | ⟨c, ch, h1, h2, h3, h4, h5, h6⟩
    · simp only [memCall, memSave, h2, expectedCall, h1, and_true]
      exact h
    · have hs := hc c h1
      have hl : sample.leaves.length = c.init.leaves.length := by
        rw [← Tree.leaves_length_shape sample, ← Tree.leaves_length_shape c.init, hs]
      by_cases hlt : c.kept.length < c.size
      · obtain ⟨ch', k1, k2, k3, -⟩ := chSave_ok zero c.init c.size c.kept ch h3 sample hs hlt
        simp only [memCall, memSave, h2, k1, expectedCall, h1, hlt, if_true, and_true]
        refine forall2_set h (a := { c with kept := c.kept ++ [sample] }) ⟨k2, ?_, k3.trans h5, h6⟩ id
        intro s hmem
        rcases List.mem_append.1 hmem with hm | hm
        · exact h4 s hm
        · rw [List.mem_singleton.1 hm]; exact hs
      · have hne : ch.buffers ≠ [] := by
          intro hnil
          have := h3.bufs.len
          rw [hnil] at this
          exact h6 (List.length_eq_zero_iff.1 this.symm)
        have hf := putRows_full ch.count c.size ch.buffers sample.leaves hne (by rw [h3.bufs.len, hl]) h3.bufs.rows
          (by rw [h3.count]; omega)
        simp only [memCall, memSave, h2, chSave, hf, expectedCall, h1, hlt, if_false, and_true]
        exact h
  | finalize id =>
    rcases forall2_get h id with ⟨h1, h2⟩ | ⟨c, ch, h1, h2, h3, h4, h5, h6⟩
    · simp only [memCall, memFinalize, memRelease, h2, expectedCall, h1, and_true]
      exact h
    · cases hfin : c.finalized with
      | true =>
        have hlock : ch.locked = false := by simpa [hfin] using h5
        simp only [memCall, memFinalize, memRelease, h2, hlock, expectedCall, h1, hfin, if_true, and_true,
          Bool.false_eq_true, if_false]
        exact h
      | false =>
        have hlock : ch.locked = true := by simpa [hfin] using h5
        obtain ⟨files, k1, -⟩ := memFinalize_ok C id ch h2 hlock
        simp only [memCall, k1, expectedCall, h1, hfin, Bool.false_eq_true, if_false, and_true]
        exact forall2_set h (a := { c with finalized := true }) (b := { ch with locked := false })
          ⟨⟨h3.treedef, h3.count, h3.bufs⟩, h4, rfl, h6⟩ id

theorem memCalls_expected (zero : α → α) (cs : List (MemCall α)) : ∀ (chains : List (ExpectedChain α))
    (C : MemCollector α), CollectorExpected zero chains C → AllSensible C.saveDir chains cs →
    CollectorExpected zero (expectedCalls chains cs).1 (memCalls zero C cs).1 ∧
      (memCalls zero C cs).2 = (expectedCalls chains cs).2 := by
  induction cs with
  | nil => intro chains C h _; exact ⟨h, rfl⟩
  | cons c cs ih =>
    intro chains C h hs
    obtain ⟨h1, h2, h3⟩ := memCall_expected zero h c hs.1
    obtain ⟨h4, h5⟩ := ih _ _ h1 (by rw [h3]; exact hs.2)
    refine ⟨h4, ?_⟩
    simp only [memCalls, expectedCalls, h2, h5]

/-- **C160.** Whatever calls a memory collector gets, in any order and although some of them fail: each call raises
exactly what is expected (`IndexError` for a chain which does not exist or is full, `RuntimeError` for a chain which has
already been finalized), and the result of every chain consists of the samples saved to it in order, followed by zeros;
the result of a chain which does not exist is an `IndexError`. -/
theorem c160_any_order (zero : α → α) (saveDir : Bool) (cs : List (MemCall α)) (hs : AllSensible saveDir [] cs) :
    let r := memCalls zero (memNew saveDir) cs
    let e := expectedCalls [] cs
    r.2 = e.2 ∧ ∀ id,
      (e.1[id]? = none → memResult r.1 id = .error .indexError) ∧
      ∀ c, e.1[id]? = some c → ∃ d, memResult r.1 id = .ok d ∧ Holds zero c.init c.size c.kept d := by
  intro r e
  obtain ⟨h1, h2⟩ := memCalls_expected zero cs [] (memNew saveDir) .nil hs
  refine ⟨h2, fun id => ⟨fun hid => ?_, fun c hid => ?_⟩⟩
  · rcases forall2_get h1 id with ⟨-, k⟩ | ⟨c, ch, k, -⟩
    · show memResult (memCalls zero (memNew saveDir) cs).1 id = _
      simp only [memResult, k]
    · exact absurd (k.symm.trans hid) (by simp)
  · rcases forall2_get h1 id with ⟨k, -⟩ | ⟨c', ch, k, k2, k3, k4, -⟩
    · exact absurd (k.symm.trans hid) (by simp)
    · obtain rfl : c' = c := Option.some.inj (k.symm.trans hid)
      obtain ⟨d, m1, m2, -⟩ := memResult_ok zero c'.init c'.size c'.kept k4 _ id ch k2 k3
      exact ⟨d, m1, m2⟩

/-- A chain for one sample: the second sample, the second `finalize` and the unknown chains are rejected, the first
sample is kept. -/
example : (memCalls (fun _ => 0) (memNew false) [.register (.leaf 7) 1, .save 0 (.leaf 1), .save 0 (.leaf 2),
      .save 1 (.leaf 3), .finalize 0, .finalize 0, .finalize 5] : MemCollector Nat × _).2 =
    [none, none, some .indexError, some .indexError, none, some .runtimeError, some .indexError] ∧
    AllSensible false ([] : List (ExpectedChain Nat)) [.register (.leaf 7) 1, .save 0 (.leaf 1), .save 0 (.leaf 2),
      .save 1 (.leaf 3), .finalize 0, .finalize 0, .finalize 5] := by
  refine ⟨by decide +kernel, ⟨by decide, ⟨by simp, [], rfl⟩, by simp [Tree.leaves]⟩, ?_⟩
  simp [AllSensible, Sensible, expectedCall, Tree.shape, Tree.map]

end JaxSgmc
