import Verif.Lemmas.Callbacks

/-!
# Asynchronous callbacks (C46, C47)
-/

namespace JaxSgmc

open Spec

section
variable {α : Type}

theorem asyncInv_ready (zero : α → α) (d : Bool) (cmds : List (Cmd α))
    (s : AsyncState (MemCollector α) α) (hi : AsyncInv zero d cmds s) (c : Nat)
    (h : (memAsync zero).ready s.coll c = true) :
    .finalize c ∈ cmds ∧ ∃ init n ch, (registered cmds)[c]? = some (init, n) ∧
      s.coll.chains[c]? = some ch ∧ memNames d init = .ok ch.names ∧
      (∀ t ∈ samplesOf c cmds, t.shape = init.shape) ∧ 0 ≤ n ∧
      ChainHolds zero init n.toNat (samplesOf c cmds) ch := by
  have hlt : c < s.coll.chains.length := by
    by_contra hge
    have : s.coll.chains[c]? = none := by simp; omega
    simp [memAsync, this] at h
  rw [hi.len] at hlt
  obtain ⟨⟨init, n⟩, hreg⟩ : ∃ p, (registered cmds)[c]? = some p :=
    ⟨_, List.getElem?_eq_getElem hlt⟩
  obtain ⟨g1, g2, g3, ch, g4, g5, g6⟩ := hi.chain c init n hreg
  have hl : ch.locked = false := by simpa [memAsync, g4] using h
  generalize hq : s.queue c = q at g6
  generalize hF : (Cmd.finalize c ∈ cmds) = F at g6 ⊢
  cases g6 with
  | running k _ fin hk hh hlk hf => rw [hl] at hlk; simp at hlk
  | released _ h1 h2 h3 => exact ⟨h1, init, n, ch, hreg, g4, g5, g3, g1, h2⟩
  | done _ h1 h2 h3 h4 => exact ⟨h1, init, n, ch, hreg, g4, g5, g3, g1, h2⟩

/-- **C46.** For every schedule of the main thread and of the callback threads: when `finished(c)`
returns, `finalize(c)` was called and the returned samples are all kept samples of chain `c`, in
order; no callback raised an exception. -/
theorem c46_finished_waits (zero : α → α) (d : Bool) (cmds : List (Cmd α)) (c : Nat)
    (s : AsyncState (MemCollector α) α) (hp : Protocol (cmds ++ [.finished c]))
    (hs : asyncRun (memAsync zero) (asyncStart (memNew d)) (cmds ++ [.finished c]) = some s) :
    .finalize c ∈ cmds ∧ s.raised = [] ∧
    ∃ init n data, (registered cmds)[c]? = some (init, n) ∧ memResult s.coll c = .ok data ∧
      Holds zero init n.toNat (samplesOf c cmds) data := by
  obtain ⟨s1, h1, h2⟩ := asyncRun_snoc _ _ _ _ _ hs
  obtain ⟨p1, -⟩ := protocol_snoc _ _ hp
  have hi := asyncInv zero d cmds s1 p1 h1
  simp only [asyncStep] at h2
  split at h2
  · rename_i hr
    simp only [Option.some.injEq] at h2
    subst h2
    obtain ⟨k1, init, n, ch, k2, k3, -, k4, k5, k6⟩ := asyncInv_ready zero d cmds s1 hi c hr
    obtain ⟨data, m1, m2, -⟩ := memResult_ok zero init n.toNat _ k4 s1.coll c ch k3 k6
    exact ⟨k1, hi.raised, init, n, data, k2, m1, m2⟩
  · cases h2

/-- The returned samples are those which saving on the device would return. -/
theorem c46_same_as_device (zero : α → α) (d : Bool) (cmds : List (Cmd α)) (c : Nat)
    (s : AsyncState (MemCollector α) α) (hp : Protocol (cmds ++ [.finished c]))
    (hs : asyncRun (memAsync zero) (asyncStart (memNew d)) (cmds ++ [.finished c]) = some s) :
    ∃ init n r, (registered cmds)[c]? = some (init, n) ∧
      runSaving (noSave zero) () init n ((samplesOf c cmds).map (fun t => (true, t)))
        = .ok ((), r) ∧ memResult s.coll c = .ok r.samples := by
  obtain ⟨s1, h1, h2⟩ := asyncRun_snoc _ _ _ _ _ hs
  obtain ⟨p1, -⟩ := protocol_snoc _ _ hp
  have hi := asyncInv zero d cmds s1 p1 h1
  simp only [asyncStep] at h2
  split at h2
  · rename_i hr
    simp only [Option.some.injEq] at h2
    subst h2
    obtain ⟨k1, init, n, ch, k2, k3, -, k4, k5, k6⟩ := asyncInv_ready zero d cmds s1 hi c hr
    obtain ⟨data, m1, m2, -⟩ := memResult_ok zero init n.toNat _ k4 s1.coll c ch k3 k6
    obtain ⟨r, e1, -, e2⟩ := noSave_run zero init n k5
      ((samplesOf c cmds).map (fun t => (true, t))) (by
        intro e he
        obtain ⟨t, ht, rfl⟩ := List.mem_map.1 he
        exact k4 t ht)
    have hk : keptSamples ((samplesOf c cmds).map (fun t => (true, t))) = samplesOf c cmds := by
      simp [keptSamples, List.filter_map, Function.comp_def]
    rw [hk] at e2
    exact ⟨init, n, r, k2, e1, by rw [m1, holds_unique zero init n.toNat _ k4 _ _ m2 e2]⟩
  · cases h2

theorem callbacks_drain (zero : α → α) (m : Nat) (c : Nat) (s : AsyncState (MemCollector α) α)
    (h : (s.queue c).length = m) :
    ∃ s', asyncRun (memAsync zero) s (List.replicate m (.callback c)) = some s' ∧
      s'.queue c = [] := by
  induction m generalizing s with
  | zero => exact ⟨s, rfl, List.length_eq_zero_iff.1 h⟩
  | succ m ih =>
    cases hq : s.queue c with
    | nil => simp [hq] at h
    | cons cb rest =>
      have hrest : rest.length = m := by simpa [hq] using h
      cases hc : runCallback (memAsync zero) s.coll c cb with
      | error e =>
        obtain ⟨s', h1, h2⟩ := ih ⟨s.coll, setQueue s.queue c rest, (c, e) :: s.raised⟩
          (by simpa [setQueue] using hrest)
        refine ⟨s', ?_, h2⟩
        simp [List.replicate_succ, asyncRun, asyncStep, hq, hc, h1]
      | ok coll =>
        obtain ⟨s', h1, h2⟩ := ih ⟨coll, setQueue s.queue c rest, s.raised⟩
          (by simpa [setQueue] using hrest)
        refine ⟨s', ?_, h2⟩
        simp [List.replicate_succ, asyncRun, asyncStep, hq, hc, h1]

theorem protocol_append_callbacks (cmds : List (Cmd α)) (m c : Nat) (h : Protocol cmds) :
    Protocol (cmds ++ List.replicate m (.callback c)) := by
  induction m with
  | zero => simpa using h
  | succ m ih =>
    rw [List.replicate_succ', ← List.append_assoc]
    intro pre x post he
    rcases List.eq_nil_or_concat post with rfl | ⟨post', y, rfl⟩
    · have := List.append_inj_right' (s₁ := cmds ++ List.replicate m (Cmd.callback c))
        (t₁ := [Cmd.callback c]) (s₂ := pre) (t₂ := [x]) he rfl
      simp only [List.cons.injEq, and_true] at this
      subst this
      trivial
    · refine ih pre x post' ?_
      have he' : (cmds ++ List.replicate m (Cmd.callback c)) ++ [Cmd.callback c]
          = (pre ++ x :: post') ++ [y] := by simpa using he
      exact List.append_inj_left' he' rfl

/-- Progress: after `finalize(c)` was called, `finished(c)` returns once the pending callbacks of the
chain are executed. -/
theorem c46_progress (zero : α → α) (d : Bool) (cmds : List (Cmd α)) (c : Nat)
    (s : AsyncState (MemCollector α) α) (hp : Protocol cmds)
    (hs : asyncRun (memAsync zero) (asyncStart (memNew d)) cmds = some s)
    (hf : .finalize c ∈ cmds) :
    ∃ m s', asyncRun (memAsync zero) (asyncStart (memNew d))
      (cmds ++ List.replicate m (.callback c) ++ [.finished c]) = some s' := by
  obtain ⟨s', h1, h2⟩ := callbacks_drain zero _ c s rfl
  refine ⟨(s.queue c).length, s', ?_⟩
  have hrun : asyncRun (memAsync zero) (asyncStart (memNew d))
      (cmds ++ List.replicate (s.queue c).length (.callback c)) = some s' := by
    rw [asyncRun_append, hs]; exact h1
  have hi := asyncInv zero d _ s' (protocol_append_callbacks cmds _ c hp) hrun
  rw [asyncRun_append, hrun]
  have hreg : c < (registered (cmds ++ List.replicate (s.queue c).length (.callback c))).length := by
    by_contra hge
    obtain ⟨-, -, k⟩ := hi.fresh c (by omega)
    exact k (.finalize c) (by simp [hf]) rfl
  obtain ⟨⟨init, n⟩, hr⟩ : ∃ p, (registered (cmds ++
      List.replicate (s.queue c).length (.callback c)))[c]? = some p :=
    ⟨_, List.getElem?_eq_getElem hreg⟩
  obtain ⟨g1, g2, g3, ch, g4, g5, g6⟩ := hi.chain c init n hr
  have hF : (Cmd.finalize c ∈ cmds ++ List.replicate (s.queue c).length (.callback c)) := by
    simp [hf]
  have hl : ch.locked = false := by
    generalize hq : s'.queue c = q at g6
    rw [h2] at hq
    generalize (Cmd.finalize c ∈ cmds ++ List.replicate (s.queue c).length (.callback c)) = F
      at g6 hF
    cases g6 with
    | running k _ fin hk hh hlk hfin =>
      rcases hfin with ⟨h, -⟩ | ⟨-, rfl⟩
      · exact absurd hF h
      · simp at hq
    | released _ k1 k2 k3 => exact k3
    | done _ k1 k2 k3 k4 => exact k3
  have hready : (memAsync zero).ready s'.coll c = true := by simp [memAsync, g4, hl]
  simp [asyncRun, asyncStep, hready]

/-- **C47** as stated: when `finished(c)` returns, the file of the chain is written. -/
def C47Statement : Prop :=
  ∀ {α : Type} (zero : α → α) (cmds : List (Cmd α)) (c : Nat)
    (s : AsyncState (MemCollector α) α), Protocol (cmds ++ [.finished c]) →
    asyncRun (memAsync zero) (asyncStart (memNew true)) (cmds ++ [.finished c]) = some s →
    ∃ file, s.coll.files.lookup c = some file

/-- **C47**, proved part: the file of chain `c`, with all samples under the names of the leaves, is
written once `finalize(c)` was called and the pending callbacks of the chain were executed.  Missing:
at the time `finished(c)` returns, `finalize(c)` may not have written the file. -/
theorem c47_after_callbacks_partial (zero : α → α) (cmds : List (Cmd α)) (c : Nat)
    (s : AsyncState (MemCollector α) α) (hp : Protocol cmds)
    (hs : asyncRun (memAsync zero) (asyncStart (memNew true)) cmds = some s)
    (hf : .finalize c ∈ cmds) (hq : s.queue c = []) :
    ∃ init n data names, (registered cmds)[c]? = some (init, n) ∧
      (dictKeys init).map (List.map joinPath) = .ok names ∧
      Holds zero init n.toNat (samplesOf c cmds) data ∧
      s.coll.files.lookup c = some (names.zip data.leaves) := by
  have hi := asyncInv zero true _ s hp hs
  have hreg : c < (registered cmds).length := by
    by_contra hge
    obtain ⟨-, -, k⟩ := hi.fresh c (by omega)
    exact k (.finalize c) hf rfl
  obtain ⟨⟨init, n⟩, hr⟩ : ∃ p, (registered cmds)[c]? = some p :=
    ⟨_, List.getElem?_eq_getElem hreg⟩
  obtain ⟨g1, g2, g3, ch, g4, g5, g6⟩ := hi.chain c init n hr
  have h4 : ChainHolds zero init n.toNat (samplesOf c cmds) ch ∧
      s.coll.files.lookup c = some (ch.names.zip ch.buffers) := by
    generalize hqq : s.queue c = q at g6
    rw [hqq] at hq
    subst hq
    generalize hFF : (Cmd.finalize c ∈ cmds) = F at g6 hf
    generalize hqe : ([] : List (Callback α)) = q0 at g6
    cases g6 with
    | running k _ fin hk hh hlk hfin =>
      rcases hfin with ⟨h, -⟩ | ⟨-, rfl⟩
      · exact absurd hf h
      · simp at hqe
    | released _ k1 k2 k3 => simp at hqe
    | done _ k1 k2 k3 k4 => exact ⟨k2, k4 rfl⟩
  obtain ⟨k2, k4⟩ := h4
  obtain ⟨data, e1, e2, e3⟩ := Tree.unflatten_ok ch.treedef ch.buffers (by
    rw [k2.bufs.len, k2.treedef, Tree.leaves_length_shape])
  refine ⟨init, n, data, ch.names, hr, g5, ?_, by rw [k4, e2]⟩
  rw [holds_iff zero init n.toNat _ g3, e2]
  refine ⟨?_, k2.bufs⟩
  rw [e3, k2.treedef, Tree.shape, Tree.shape, Tree.map_map]

end

/-! ### A schedule -/

/-- One chain with two samples: the second sample is reached before the first is stored; the main
thread proceeds between the steps of `finalize`. -/
def toySchedule : List (Cmd Nat) :=
  [.register (.node (.dict [['a']]) [.leaf 0]) 2, .sample 0 (.node (.dict [['a']]) [.leaf 5]),
   .sample 0 (.node (.dict [['a']]) [.leaf 6]), .callback 0, .finalize 0, .callback 0, .callback 0]

theorem protocol_append {α : Type} (cmds : List (Cmd α)) (x : Cmd α) (h : Protocol cmds)
    (hx : Allowed cmds x) : Protocol (cmds ++ [x]) := by
  intro pre y post he
  rcases List.eq_nil_or_concat post with rfl | ⟨post', z, rfl⟩
  · have h1 := List.append_inj_right' (s₁ := cmds) (t₁ := [x]) (s₂ := pre) (t₂ := [y]) he rfl
    have h2 := List.append_inj_left' (s₁ := cmds) (t₁ := [x]) (s₂ := pre) (t₂ := [y]) he rfl
    simp only [List.cons.injEq, and_true] at h1
    subst h1 h2
    exact hx
  · refine h pre y post' ?_
    have he' : cmds ++ [x] = (pre ++ y :: post') ++ [z] := by simpa using he
    exact List.append_inj_left' he' rfl

theorem protocol_nil {α : Type} : Protocol ([] : List (Cmd α)) := by
  intro pre x post h
  simp at h

theorem toySchedule_protocol : Protocol (toySchedule ++ [.finished 0]) := by
  have h1 := protocol_append [] (.register (.node (.dict [['a']]) [.leaf 0]) 2) protocol_nil
    (by simp [Allowed])
  have h2 := protocol_append _ (.sample 0 (.node (.dict [['a']]) [.leaf 5])) h1
    (by simp [Allowed, registered, samplesOf, Tree.shape, Tree.map, Tree.mapL])
  have h3 := protocol_append _ (.sample 0 (.node (.dict [['a']]) [.leaf 6])) h2
    (by simp [Allowed, registered, samplesOf, Tree.shape, Tree.map, Tree.mapL])
  have h4 := protocol_append _ (.callback 0) h3 (by simp [Allowed])
  have h5 := protocol_append _ (.finalize 0) h4 (by simp [Allowed, registered])
  have h6 := protocol_append _ (.callback 0) h5 (by simp [Allowed])
  have h7 := protocol_append _ (.callback 0) h6 (by simp [Allowed])
  exact protocol_append _ (.finished 0) h7 (by simp [Allowed])

/-- The schedule can be executed; `finished` returns both samples. -/
example : ((asyncRun (memAsync (fun _ => 0)) (asyncStart (memNew true))
    (toySchedule ++ [.finished 0])).map (fun s => memResult s.coll 0))
      = some (.ok (.node (.dict [['a']]) [.leaf [5, 6]])) := rfl

/-- **C47 is false of the code**: the lock is released before the file is written, `finished` may
return in between. -/
theorem c47_false : ¬ C47Statement := by
  intro h
  obtain ⟨s, hs⟩ : ∃ s, asyncRun (memAsync (fun _ => 0)) (asyncStart (memNew true))
      (toySchedule ++ [.finished 0]) = some s := ⟨_, rfl⟩
  have h1 : (asyncRun (memAsync (fun _ => 0)) (asyncStart (memNew true))
      (toySchedule ++ [.finished 0])).map (fun s => s.coll.files) = some [] := rfl
  rw [hs] at h1
  simp only [Option.map_some, Option.some.injEq] at h1
  obtain ⟨file, hf⟩ := h (fun _ => 0) toySchedule 0 s toySchedule_protocol hs
  rw [h1] at hf
  simp at hf

end JaxSgmc
