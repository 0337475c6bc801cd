import Verif.Props.Hdf5
import Verif.Props.Callbacks

/-!
# Asynchronous writing of HDF5 files (C76)
-/

namespace JaxSgmc

open Spec

variable {α : Type}

/-- **C76** as stated: when `finished(c)` returns after `finalize(c)`, row `i` of every dataset of the
chain is the `i`-th kept sample. -/
def C76Statement : Prop :=
  ∀ {α : Type} (zero : α → α) (file0 : H5File α) (cmds : List (Cmd α)) (c : Nat)
    (s : AsyncState (H5Coll α) α), Protocol (cmds ++ [.finished c]) →
    (∀ x ∈ registered cmds, WF x.1) → .finalize c ∈ cmds →
    asyncRun (h5Async zero) (asyncStart (h5New file0)) (cmds ++ [.finished c]) = some s →
    ∀ (init : Tree α) (n : Int) (keys : List Path) (j : Nat) (key : Path) (a : α),
        (registered cmds)[c]? = some (init, n) → dictKeys init = .ok keys →
      keys[j]? = some key → init.leaves[j]? = some a →
      ∃ rows, h5Get s.coll.file (h5Name (chainDir c) key) = .ok rows ∧
        ∀ (i : Nat) (t : Tree α), (samplesOf c cmds)[i]? = some t → rows[i]? = t.leaves[j]?

/-- The samples in pending callbacks. -/
def pendingSaves (q : List (Callback α)) : List (List α) :=
  q.filterMap (fun cb => match cb with
    | .save v => some v
    | _ => none)

/-- The state of the file at any time of a schedule: the calls executed so far. -/
structure H5AsyncInv (zero : α → α) (file0 : H5File α) (cmds : List (Cmd α))
    (s : AsyncState (H5Coll α) α) (ops : List (H5Op α)) : Prop where
  run : h5Run zero (h5New file0) ops = .ok s.coll
  proto : H5Protocol ops
  reg : h5Registered ops = registered cmds
  saved : ∀ c, h5SavedOf c ops ++ pendingSaves (s.queue c) = (samplesOf c cmds).map Tree.leaves
  only : ∀ c, ∀ cb ∈ s.queue c, ∃ v, cb = .save v
  raised : s.raised = []

theorem h5Run_append (zero : α → α) (C C1 C' : H5Coll α) (ops : List (H5Op α)) (op : H5Op α)
    (h : h5Run zero C ops = .ok C1) (h' : h5Step zero C1 op = .ok C') :
    h5Run zero C (ops ++ [op]) = .ok C' := by
  induction ops generalizing C with
  | nil =>
    simp only [h5Run, Except.ok.injEq] at h
    subst h
    simp [h5Run, h']
  | cons x xs ih =>
    simp only [List.cons_append, h5Run] at h ⊢
    cases hs : h5Step zero C x with
    | error e => simp [hs] at h
    | ok C2 => rw [hs] at h; exact ih C2 h

theorem h5Protocol_append (ops : List (H5Op α)) (x : H5Op α) (h : H5Protocol ops)
    (hx : H5Allowed ops x) : H5Protocol (ops ++ [x]) := by
  intro pre y post he
  rcases List.eq_nil_or_concat post with rfl | ⟨post', z, rfl⟩
  · have h1 := List.append_inj_right' (s₁ := ops) (t₁ := [x]) (s₂ := pre) (t₂ := [y]) he rfl
    have h2 := List.append_inj_left' (s₁ := ops) (t₁ := [x]) (s₂ := pre) (t₂ := [y]) he rfl
    simp only [List.cons.injEq, and_true] at h1
    subst h1 h2
    exact hx
  · refine h pre y post' ?_
    have he' : ops ++ [x] = (pre ++ y :: post') ++ [z] := by simpa using he
    exact List.append_inj_left' he' rfl

theorem samplesOf_snoc' (c : Nat) (cmds : List (Cmd α)) (x : Cmd α) :
    samplesOf c (cmds ++ [x]) = samplesOf c cmds ++ (match x with
      | .sample c' t => if c' = c then [t] else []
      | _ => []) := by
  rw [samplesOf, List.filterMap_append, ← samplesOf]
  cases x with
  | sample c' t => by_cases h : c' = c <;> simp [h]
  | _ => simp

theorem registered_snoc' (cmds : List (Cmd α)) (x : Cmd α) :
    registered (cmds ++ [x]) = registered cmds ++ (match x with
      | .register t n => [(t, n)]
      | _ => []) := by
  rw [registered, List.filterMap_append, ← registered]
  cases x <;> simp

theorem samplesOf_facts (cmds : List (Cmd α)) (hp : Protocol cmds) (c : Nat) (init : Tree α) (n : Int)
    (hr : (registered cmds)[c]? = some (init, n)) :
    ((samplesOf c cmds).length : Int) ≤ max n 0 ∧ ∀ t ∈ samplesOf c cmds, t.shape = init.shape := by
  induction cmds using List.reverseRecOn generalizing init n with
  | nil => simp [registered] at hr
  | append_singleton cmds x ih =>
    have hp1 : Protocol cmds := by
      rintro pre y post rfl
      exact hp pre y (post ++ [x]) (by simp)
    have hx : Allowed cmds x := hp cmds x [] rfl
    have hnone : ∀ c, (registered cmds).length ≤ c → samplesOf c cmds = [] := by
      intro c hc
      by_contra hne
      obtain ⟨t, ht⟩ := List.exists_mem_of_ne_nil _ hne
      obtain ⟨y, hy, hty⟩ := List.mem_filterMap.1 ht
      cases y with
      | sample c' t' =>
        obtain ⟨pre, post, rfl⟩ := List.append_of_mem hy
        by_cases hcc : c' = c
        · subst hcc
          obtain ⟨-, init', n', h', -⟩ := hp1 pre _ post rfl
          have := (List.getElem?_eq_some_iff.1 h').1
          have hl : (registered pre).length ≤ (registered (pre ++ Cmd.sample c' t' :: post)).length := by
            simp [registered, List.filterMap_append]
          omega
        · simp [hcc] at hty
      | _ => simp at hty
    rw [registered_snoc'] at hr
    rw [samplesOf_snoc']
    cases x with
    | register t m =>
      simp only [List.append_nil]
      by_cases hlt : c < (registered cmds).length
      · rw [List.getElem?_append_left hlt] at hr
        exact ih hp1 init n hr
      · rw [hnone c (by omega)]
        simp
    | sample c' t =>
      simp only [List.append_nil] at hr
      obtain ⟨h1, h2⟩ := ih hp1 init n hr
      by_cases hcc : c' = c
      · subst hcc
        obtain ⟨-, init', n', h', hs, hlt⟩ := hx
        rw [hr] at h'
        simp only [Option.some.injEq, Prod.mk.injEq] at h'
        obtain ⟨rfl, rfl⟩ := h'
        simp only [if_true]
        refine ⟨by simp; omega, ?_⟩
        intro u hu
        rcases List.mem_append.1 hu with hu | hu
        · exact h2 u hu
        · simp only [List.mem_singleton] at hu
          rw [hu, hs]
      · simp only [hcc, if_false, List.append_nil]
        exact ⟨h1, h2⟩
    | finalize c' => simp only [List.append_nil] at hr ⊢; exact ih hp1 init n hr
    | callback c' => simp only [List.append_nil] at hr ⊢; exact ih hp1 init n hr
    | finished c' => simp only [List.append_nil] at hr ⊢; exact ih hp1 init n hr

theorem h5Register_step (zero : α → α) (C C' : H5Coll α) (t : Tree α) (n : Int) (k : Nat)
    (h : h5Register zero C t n = .ok (C', k)) : h5Step zero C (.register t n) = .ok C' := by
  simp [h5Step, h]

theorem h5AsyncInv (zero : α → α) (file0 : H5File α) (cmds : List (Cmd α))
    (s : AsyncState (H5Coll α) α) (hp : Protocol cmds) (hw : ∀ x ∈ registered cmds, WF x.1)
    (h : asyncRun (h5Async zero) (asyncStart (h5New file0)) cmds = some s) :
    ∃ ops, H5AsyncInv zero file0 cmds s ops := by
  induction cmds using List.reverseRecOn generalizing s with
  | nil =>
    simp only [asyncRun, Option.some.injEq] at h
    subst h
    exact ⟨[], rfl, by intro pre x post h; simp at h, rfl, by intro c; rfl,
      by intro c cb hcb; simp [asyncStart] at hcb, rfl⟩
  | append_singleton cmds x ih =>
    have hp1 : Protocol cmds := by
      rintro pre y post rfl
      exact hp pre y (post ++ [x]) (by simp)
    have hx : Allowed cmds x := hp cmds x [] rfl
    rw [asyncRun_append] at h
    cases h1 : asyncRun (h5Async zero) (asyncStart (h5New file0)) cmds with
    | none => simp [h1] at h
    | some s1 =>
      rw [h1] at h
      have hstep : asyncStep (h5Async zero) s1 x = some s := by
        simp only [Option.bind_some, asyncRun] at h
        cases hs : asyncStep (h5Async zero) s1 x with
        | none => simp [hs] at h
        | some s2 => simpa [hs] using h
      obtain ⟨ops, hi⟩ := ih s1 hp1 (fun y hy => hw y (by
        rw [registered_snoc']; exact List.mem_append.2 (Or.inl hy))) h1
      cases x with
      | register t n =>
        simp only [asyncStep] at hstep
        cases hr : (h5Async zero).register s1.coll t n with
        | error e => simp [hr] at hstep
        | ok r =>
          obtain ⟨C', k⟩ := r
          simp only [hr, Option.some.injEq] at hstep
          subst hstep
          refine ⟨ops ++ [.register t n], h5Run_append _ _ _ _ _ _ hi.run
            (h5Register_step _ _ _ _ _ _ hr), h5Protocol_append _ _ hi.proto ?_, ?_, ?_, hi.only,
            hi.raised⟩
          · exact hw (t, n) (by rw [registered_snoc']; simp)
          · rw [h5Registered_snoc, registered_snoc', hi.reg]
          · intro c
            rw [h5SavedOf_snoc, samplesOf_snoc']
            simpa using hi.saved c
      | sample c0 t =>
        simp only [asyncStep, Option.some.injEq] at hstep
        subst hstep
        refine ⟨ops, hi.run, hi.proto, ?_, ?_, ?_, hi.raised⟩
        · rw [registered_snoc', hi.reg]; simp
        · intro c
          rw [samplesOf_snoc']
          by_cases hc : c = c0
          · subst hc
            simp only [setQueue_self, if_true, List.map_append, ← hi.saved c]
            simp [pendingSaves]
          · simp only [setQueue_ne _ _ _ _ hc, Ne.symm hc, if_false, List.append_nil]
            exact hi.saved c
        · intro c cb hcb
          by_cases hc : c = c0
          · subst hc
            simp only [setQueue_self, List.mem_append, List.mem_singleton] at hcb
            rcases hcb with hcb | rfl
            · exact hi.only c cb hcb
            · exact ⟨_, rfl⟩
          · simp only [setQueue_ne _ _ _ _ hc] at hcb
            exact hi.only c cb hcb
      | finalize c0 =>
        simp only [asyncStep, Option.some.injEq] at hstep
        subst hstep
        have hq : setQueue s1.queue c0 (s1.queue c0 ++ (List.range
            (h5Async (α := α) zero).finalize.length).map .finalizeStep) = s1.queue := by
          funext c
          by_cases hc : c = c0
          · subst hc; simp [setQueue, h5Async]
          · rw [setQueue_ne _ _ _ _ hc]
        refine ⟨ops, hi.run, hi.proto, ?_, ?_, ?_, hi.raised⟩
        · rw [registered_snoc', hi.reg]; simp
        · intro c
          rw [samplesOf_snoc', hq]
          simpa using hi.saved c
        · rw [hq]; exact hi.only
      | finished c0 =>
        simp only [asyncStep, h5Async, if_true, Option.some.injEq] at hstep
        subst hstep
        refine ⟨ops, hi.run, hi.proto, ?_, ?_, hi.only, hi.raised⟩
        · rw [registered_snoc', hi.reg]; simp
        · intro c
          rw [samplesOf_snoc']
          simpa using hi.saved c
      | callback c0 =>
        simp only [asyncStep] at hstep
        cases hq : s1.queue c0 with
        | nil => simp [hq] at hstep
        | cons cb rest =>
          obtain ⟨v, rfl⟩ := hi.only c0 cb (by rw [hq]; simp)
          rw [hq] at hstep
          dsimp only [runCallback] at hstep
          have hsv := hi.saved c0
          rw [hq] at hsv
          have hpend : pendingSaves (Callback.save v :: rest) = v :: pendingSaves rest := by
            simp [pendingSaves]
          rw [hpend] at hsv
          -- the chain is registered
          have hmem : v ∈ (samplesOf c0 cmds).map Tree.leaves := by rw [← hsv]; simp
          obtain ⟨t, ht, hvt⟩ := List.mem_map.1 hmem
          have hreg : ∃ init n, (registered cmds)[c0]? = some (init, n) := by
            obtain ⟨y, hy, hty⟩ := List.mem_filterMap.1 ht
            cases y with
            | sample c' t' =>
              by_cases hcc : c' = c0
              · subst hcc
                obtain ⟨pre, post, rfl⟩ := List.append_of_mem hy
                obtain ⟨-, init', n', h', -⟩ := hp1 pre _ post rfl
                refine ⟨init', n', ?_⟩
                rw [registered, List.filterMap_append, ← registered, List.getElem?_append_left
                  (List.getElem?_eq_some_iff.1 h').1]
                exact h'
              · simp [hcc] at hty
            | _ => simp at hty
          obtain ⟨init, n, hr⟩ := hreg
          obtain ⟨f1, f2⟩ := samplesOf_facts cmds hp1 c0 init n hr
          have hvl : v.length = init.leaves.length := by
            rw [← hvt, ← Tree.leaves_length_shape t, f2 t ht, Tree.leaves_length_shape]
          have hlt : (h5SavedOf c0 ops).length < n.toNat := by
            have := congrArg List.length hsv
            simp only [List.length_append, List.length_cons, List.length_map] at this
            omega
          have hok : ∃ C', (h5Async zero).save s1.coll c0 v = .ok C' := by
            by_cases hne : init.leaves = []
            · obtain ⟨keys, g1, g2, g3, g4, g5, g6⟩ :=
                (h5Inv zero file0 ops s1.coll hi.proto hi.run).chain c0 init n (by rw [hi.reg]; exact hr)
              have hvn : v = [] := List.length_eq_zero_iff.1 (by rw [hvl, hne]; rfl)
              subst hvn
              have : ∀ l : List Key, h5PutAll (h5SavedOf c0 ops).length s1.coll.file l ([] : List α)
                  = .ok s1.coll.file := by
                intro l; cases l <;> rfl
              exact ⟨{ s1.coll with counts := s1.coll.counts.set c0 ((h5SavedOf c0 ops).length + 1) },
                by simp only [h5Async, h5Save, g3, g4, this]⟩
            · exact (c49_overflow zero file0 ops s1.coll hi.proto hi.run c0 init n
                (by rw [hi.reg]; exact hr) hne v hvl).1 hlt
          obtain ⟨C', hC'⟩ := hok
          rw [hC'] at hstep
          simp only [Option.some.injEq] at hstep
          subst hstep
          refine ⟨ops ++ [.save c0 v], h5Run_append _ _ _ _ _ (.save c0 v) hi.run hC',
            h5Protocol_append ops (.save c0 v) hi.proto ⟨init, n, by rw [hi.reg]; exact hr, hvl⟩, ?_, ?_, ?_,
            hi.raised⟩
          · rw [h5Registered_snoc, registered_snoc', hi.reg]
          · intro c
            rw [h5SavedOf_snoc, samplesOf_snoc']
            simp only [List.append_nil]
            by_cases hc : c = c0
            · subst hc
              simp only [setQueue_self, if_true]
              rw [← hsv]
              simp
            · simp only [setQueue_ne _ _ _ _ hc, Ne.symm hc, if_false, List.append_nil]
              exact hi.saved c
          · intro c cb hcb
            by_cases hc : c = c0
            · subst hc
              simp only [setQueue_self] at hcb
              exact hi.only c cb (by rw [hq]; simp [hcb])
            · simp only [setQueue_ne _ _ _ _ hc] at hcb
              exact hi.only c cb hcb

/-- **C76**, proved part: no callback raises an exception, and as soon as the pending callbacks of the
chain have been executed, row `i` of every dataset of the chain is the `i`-th kept sample.  Missing:
`finished` does not wait for this. -/
theorem c76_after_callbacks_partial (zero : α → α) (file0 : H5File α) (cmds : List (Cmd α)) (c : Nat)
    (s : AsyncState (H5Coll α) α) (hp : Protocol cmds) (hw : ∀ x ∈ registered cmds, WF x.1)
    (h : asyncRun (h5Async zero) (asyncStart (h5New file0)) cmds = some s) :
    s.raised = [] ∧ (s.queue c = [] →
      ∀ (init : Tree α) (n : Int) (keys : List Path) (j : Nat) (key : Path) (a : α),
        (registered cmds)[c]? = some (init, n) → dictKeys init = .ok keys →
        keys[j]? = some key → init.leaves[j]? = some a →
        ∃ rows, h5Get s.coll.file (h5Name (chainDir c) key) = .ok rows ∧
          ∀ (i : Nat) (t : Tree α), (samplesOf c cmds)[i]? = some t → rows[i]? = t.leaves[j]?) := by
  obtain ⟨ops, hi⟩ := h5AsyncInv zero file0 cmds s hp hw h
  refine ⟨hi.raised, ?_⟩
  intro hq init n keys j key a hr hk hj ha
  have hsv := hi.saved c
  rw [hq] at hsv
  simp only [pendingSaves, List.filterMap_nil, List.append_nil] at hsv
  obtain ⟨keys', g1, -, g3⟩ := c49_rows zero file0 ops s.coll hi.proto hi.run c init n
    (by rw [hi.reg]; exact hr)
  rw [hk] at g1
  simp only [Except.ok.injEq] at g1
  subst g1
  obtain ⟨hle, rows, r1, r2, r3⟩ := g3 j key a hj ha
  refine ⟨rows, r1, ?_⟩
  intro i t ht
  have hlt : i < (samplesOf c cmds).length := (List.getElem?_eq_some_iff.1 ht).1
  have hl2 := congrArg List.length hsv
  simp only [List.length_map] at hl2
  rw [r3 i (by omega), hsv]
  simp [cell, ht]

/-- One sample, the callback of which is not executed before `finished` returns. -/
def lateSchedule : List (Cmd Nat) :=
  [.register (.leaf 0) 1, .sample 0 (.leaf 7), .finalize 0]

theorem lateSchedule_protocol : Protocol (lateSchedule ++ [.finished 0]) := by
  have h1 := protocol_append [] (.register (.leaf (0 : Nat)) 1) protocol_nil (by simp [Allowed])
  have h2 := protocol_append _ (.sample 0 (.leaf 7)) h1
    (by simp [Allowed, registered, samplesOf, Tree.shape, Tree.map])
  have h3 := protocol_append _ (.finalize 0) h2 (by simp [Allowed, registered])
  exact protocol_append _ (.finished 0) h3 (by simp [Allowed])

/-- **C76 is false of the code**: `finished` returns although the sample has not been written. -/
theorem c76_false : ¬ C76Statement := by
  intro h
  obtain ⟨s, hs⟩ : ∃ s, asyncRun (h5Async (fun _ => 0)) (asyncStart (h5New []))
      (lateSchedule ++ [.finished 0]) = some s := ⟨_, rfl⟩
  have h1 : (asyncRun (h5Async (fun _ => 0)) (asyncStart (h5New []))
      (lateSchedule ++ [.finished 0])).map
        (fun s => h5Get s.coll.file (h5Name (chainDir 0) [])) = some (.ok [0]) := by decide +kernel
  rw [hs] at h1
  simp only [Option.map_some, Option.some.injEq] at h1
  obtain ⟨rows, hr, hv⟩ := h (fun _ => 0) [] lateSchedule 0 s lateSchedule_protocol
    (by simp [registered, lateSchedule, WF]) (by simp [lateSchedule]) hs (.leaf 0) 1 [[]] 0 [] 0
    rfl rfl rfl rfl
  rw [h1] at hr
  simp only [Except.ok.injEq] at hr
  subst hr
  have := hv 0 (.leaf 7) rfl
  simp [Tree.leaves] at this

/-- The partial theorem applies once the callback is executed. -/
example : ((asyncRun (h5Async (fun _ => 0)) (asyncStart (h5New []))
    (lateSchedule ++ [.callback 0, .finished 0])).map
      (fun s => h5Get s.coll.file (h5Name (chainDir 0) []))) = some (.ok [7]) := by decide +kernel

end JaxSgmc
