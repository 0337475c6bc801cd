import Verif.Spec.Callbacks
import Verif.Lemmas.Mcmc

/-!
# Invariant of asynchronous saving with the memory collector
-/

namespace JaxSgmc

open Spec

variable {C α : Type}

theorem asyncRun_append (A : AsyncCollector C α) (s : AsyncState C α) (xs ys : List (Cmd α)) :
    asyncRun A s (xs ++ ys) = (asyncRun A s xs).bind (fun s' => asyncRun A s' ys) := by
  induction xs generalizing s with
  | nil => rfl
  | cons x xs ih =>
    simp only [List.cons_append, asyncRun]
    cases asyncStep A s x with
    | none => rfl
    | some s' => exact ih s'

theorem asyncRun_snoc (A : AsyncCollector C α) (s s' : AsyncState C α) (xs : List (Cmd α))
    (x : Cmd α) (h : asyncRun A s (xs ++ [x]) = some s') :
    ∃ s1, asyncRun A s xs = some s1 ∧ asyncStep A s1 x = some s' := by
  rw [asyncRun_append] at h
  cases h1 : asyncRun A s xs with
  | none => simp [h1] at h
  | some s1 =>
    refine ⟨s1, rfl, ?_⟩
    rw [h1] at h
    simp only [Option.bind_some, asyncRun] at h
    cases h2 : asyncStep A s1 x with
    | none => simp [h2] at h
    | some s2 => rw [h2] at h; simpa [asyncRun] using h

theorem protocol_snoc (cmds : List (Cmd α)) (x : Cmd α) (h : Protocol (cmds ++ [x])) :
    Protocol cmds ∧ Allowed cmds x := by
  refine ⟨?_, h cmds x [] rfl⟩
  rintro pre y post rfl
  exact h pre y (post ++ [x]) (by simp)

theorem samplesOf_snoc (c : Nat) (cmds : List (Cmd α)) (x : Cmd α) :
    samplesOf c (cmds ++ [x]) = samplesOf c cmds ++ (match x with
      | .sample c' t => if c' = c then [t] else []
      | _ => []) := by
  rw [samplesOf, List.filterMap_append, ← samplesOf]
  cases x with
  | sample c' t => by_cases h : c' = c <;> simp [h]
  | _ => simp

theorem registered_snoc (cmds : List (Cmd α)) (x : Cmd α) :
    registered (cmds ++ [x]) = registered cmds ++ (match x with
      | .register t n => [(t, n)]
      | _ => []) := by
  rw [registered, List.filterMap_append, ← registered]
  cases x <;> simp

theorem memRegister_inv (zero : α → α) (C C' : MemCollector α) (init : Tree α) (n : Int) (id : Nat)
    (hn : 0 ≤ n) (h : memRegister zero C init n = .ok (C', id)) :
    ∃ ch, C' = ⟨C.saveDir, C.chains ++ [ch], C.files⟩ ∧
      ChainHolds zero init n.toNat [] ch ∧ ch.locked = true ∧
      memNames C.saveDir init = .ok ch.names := by
  have hneg : ¬ (n < 0 ∧ init.leaves ≠ []) := fun h => by omega
  have hne : init ≠ .none := by
    rintro rfl
    simp [memRegister] at h
  have h' : (match memNames C.saveDir init with
      | .error e => .error e
      | .ok names =>
        .ok ({ C with chains := C.chains ++ [⟨init.leaves.map
          (fun a => List.replicate n.toNat (zero a)), init.shape, 0, true, names⟩] },
          C.chains.length)) = Except.ok (C', id) := by
    cases init with
    | none => exact absurd rfl hne
    | leaf a => simp only [memRegister, if_neg hneg] at h; exact h
    | node k ts => simp only [memRegister, if_neg hneg] at h; exact h
  cases hnm : memNames C.saveDir init with
  | error e => simp [hnm] at h'
  | ok names =>
    rw [hnm] at h'
    simp only [Except.ok.injEq, Prod.mk.injEq] at h'
    refine ⟨⟨init.leaves.map (fun a => List.replicate n.toNat (zero a)), init.shape, 0, true, names⟩,
      h'.1.symm, ⟨rfl, rfl, holdsL_init zero init.leaves n.toNat⟩, rfl, rfl⟩

/-- What has happened to a chain: its samples `D`, whether `finalize` was enqueued (`F`), the pending
callbacks `q`, the chain `ch` and the file. -/
inductive Phase (zero : α → α) (init : Tree α) (n : Nat) (D : List (Tree α)) (ch : MemChain α)
    (d : Bool) (file : Option (List (Key × List α))) : Prop → List (Callback α) → Prop
  | running (k : Nat) (F : Prop) (fin : List (Callback α)) :
      k ≤ D.length → ChainHolds zero init n (D.take k) ch → ch.locked = true →
      (¬ F ∧ fin = [] ∨ F ∧ fin = [.finalizeStep 0, .finalizeStep 1]) →
      Phase zero init n D ch d file F ((D.drop k).map (fun t => .save t.leaves) ++ fin)
  | released (F : Prop) : F → ChainHolds zero init n D ch → ch.locked = false →
      Phase zero init n D ch d file F [.finalizeStep 1]
  | done (F : Prop) : F → ChainHolds zero init n D ch → ch.locked = false →
      (d = true → file = some (ch.names.zip ch.buffers)) →
      Phase zero init n D ch d file F []

/-- The invariant. -/
structure AsyncInv (zero : α → α) (d : Bool) (cmds : List (Cmd α))
    (s : AsyncState (MemCollector α) α) : Prop where
  len : s.coll.chains.length = (registered cmds).length
  dir : s.coll.saveDir = d
  raised : s.raised = []
  fresh : ∀ c, (registered cmds).length ≤ c →
    s.queue c = [] ∧ samplesOf c cmds = [] ∧ ∀ x ∈ cmds, x ≠ .finalize c
  chain : ∀ c init n, (registered cmds)[c]? = some (init, n) →
    0 ≤ n ∧ ((samplesOf c cmds).length : Int) ≤ n ∧
    (∀ t ∈ samplesOf c cmds, t.shape = init.shape) ∧
    ∃ ch, s.coll.chains[c]? = some ch ∧ memNames d init = .ok ch.names ∧
      Phase zero init n.toNat (samplesOf c cmds) ch d (s.coll.files.lookup c)
        (.finalize c ∈ cmds) (s.queue c)

theorem setQueue_self (q : Nat → List (Callback α)) (c : Nat) (l : List (Callback α)) :
    setQueue q c l c = l := by simp [setQueue]

theorem setQueue_ne (q : Nat → List (Callback α)) (c c' : Nat) (l : List (Callback α))
    (h : c' ≠ c) : setQueue q c l c' = q c' := by simp [setQueue, h]

theorem phase_congr {zero : α → α} {init : Tree α} {n : Nat} {D : List (Tree α)} {ch : MemChain α}
    {d : Bool} {file : Option (List (Key × List α))} {F F' : Prop} {q : List (Callback α)}
    (h : Phase zero init n D ch d file F q) (hF : F ↔ F') :
    Phase zero init n D ch d file F' q := by
  rwa [propext hF] at h

theorem asyncInv_step (zero : α → α) (d : Bool) (cmds : List (Cmd α)) (x : Cmd α)
    (s s' : AsyncState (MemCollector α) α) (hi : AsyncInv zero d cmds s)
    (hx : Allowed cmds x) (hs : asyncStep (memAsync zero) s x = some s') :
    AsyncInv zero d (cmds ++ [x]) s' := by
  cases x with
  | register t n =>
    simp only [asyncStep, memAsync] at hs
    cases hr : memRegister zero s.coll t n with
    | error e => simp [hr] at hs
    | ok p =>
      obtain ⟨coll, id⟩ := p
      rw [hr] at hs
      simp only [Option.some.injEq] at hs
      subst hs
      obtain ⟨ch, rfl, h1, h2, h3⟩ := memRegister_inv zero s.coll coll t n id hx hr
      have hreg := registered_snoc cmds (.register t n)
      have hsam : ∀ c, samplesOf c (cmds ++ [.register t n]) = samplesOf c cmds := by
        intro c; rw [samplesOf_snoc]; simp
      have hfin : ∀ c, (.finalize c ∈ cmds ++ [.register t n] ↔ Cmd.finalize c ∈ cmds) := by
        intro c; simp
      refine ⟨by simp [hreg, hi.len], hi.dir, hi.raised, ?_, ?_⟩
      · intro c hc
        obtain ⟨k1, k2, k3⟩ := hi.fresh c (by simp [hreg] at hc; omega)
        refine ⟨k1, by rw [hsam, k2], ?_⟩
        intro y hy
        rcases List.mem_append.1 hy with h | h
        · exact k3 y h
        · simp only [List.mem_singleton] at h; subst h; simp
      · intro c init m hc
        rw [hreg] at hc
        rw [hsam]
        by_cases hlt : c < (registered cmds).length
        · rw [List.getElem?_append_left hlt] at hc
          obtain ⟨g1, g2, g3, ch', g4, g5, g6⟩ := hi.chain c init m hc
          refine ⟨g1, g2, g3, ch', ?_, g5, phase_congr g6 (hfin c).symm⟩
          show (s.coll.chains ++ [ch])[c]? = some ch'
          rw [List.getElem?_append_left (by rw [hi.len]; exact hlt)]
          exact g4
        · have hceq : c = (registered cmds).length := by
            have := (List.getElem?_eq_some_iff.1 hc).1
            simp at this; omega
          subst hceq
          simp at hc
          obtain ⟨rfl, rfl⟩ := hc
          obtain ⟨k1, k2, k3⟩ := hi.fresh _ (le_refl (registered cmds).length)
          refine ⟨hx, by rw [k2]; exact hx, by simp [k2], ch, ?_, by rw [← hi.dir]; exact h3, ?_⟩
          · show (s.coll.chains ++ [ch])[_]? = some ch
            rw [← hi.len]; simp
          · rw [k2]
            show Phase zero t n.toNat [] ch d _ _ (s.queue _)
            rw [k1]
            exact .running 0 _ [] (le_refl _) h1 h2 (Or.inl ⟨by
              rw [hfin]; exact fun h => k3 _ h rfl, rfl⟩)
  | sample c0 t =>
    simp only [asyncStep, Option.some.injEq] at hs
    subst hs
    obtain ⟨hnf, init0, n0, hreg0, hshape, hlt⟩ := hx
    have hreg : registered (cmds ++ [.sample c0 t]) = registered cmds := by
      rw [registered_snoc]; simp
    have hfin : ∀ c, (.finalize c ∈ cmds ++ [.sample c0 t] ↔ Cmd.finalize c ∈ cmds) := by
      intro c; simp
    have hc0 : c0 < (registered cmds).length := (List.getElem?_eq_some_iff.1 hreg0).1
    refine ⟨by rw [hreg]; exact hi.len, hi.dir, hi.raised, ?_, ?_⟩
    · intro c hc
      rw [hreg] at hc
      obtain ⟨k1, k2, k3⟩ := hi.fresh c hc
      have hne : c ≠ c0 := by omega
      refine ⟨(setQueue_ne _ _ _ _ hne).trans k1, by
        rw [samplesOf_snoc, k2]; simp [Ne.symm hne], ?_⟩
      intro y hy
      rcases List.mem_append.1 hy with h | h
      · exact k3 y h
      · simp only [List.mem_singleton] at h; subst h; simp
    · intro c init n hc
      rw [hreg] at hc
      obtain ⟨g1, g2, g3, ch, g4, g5, g6⟩ := hi.chain c init n hc
      by_cases hcc : c0 = c
      · subst hcc
        rw [hreg0] at hc
        simp only [Option.some.injEq, Prod.mk.injEq] at hc
        obtain ⟨rfl, rfl⟩ := hc
        have hsam : samplesOf c0 (cmds ++ [.sample c0 t]) = samplesOf c0 cmds ++ [t] := by
          rw [samplesOf_snoc]; simp
        have hF : ¬ (Cmd.finalize c0 ∈ cmds) := fun h => hnf _ h rfl
        rw [hsam]
        refine ⟨g1, by simp; omega, ?_, ch, g4, g5, ?_⟩
        · intro t' ht'
          rcases List.mem_append.1 ht' with h | h
          · exact g3 t' h
          · simp only [List.mem_singleton] at h; rw [h]; exact hshape
        · dsimp only
          rw [setQueue_self]
          refine phase_congr ?_ (hfin c0).symm
          generalize s.queue c0 = q at g6
          generalize (Cmd.finalize c0 ∈ cmds) = F at g6 hF
          cases g6 with
          | running k _ fin hk hh hl hf =>
            rcases hf with ⟨-, rfl⟩ | ⟨h, -⟩
            · have h2 := Phase.running (zero := zero) (init := init0) (n := n0.toNat)
                (D := samplesOf c0 cmds ++ [t]) (ch := ch) (d := d)
                (file := s.coll.files.lookup c0) k F []
                (by simp; omega) (by rw [List.take_append_of_le_length hk]; exact hh) hl
                (Or.inl ⟨hF, rfl⟩)
              rw [List.drop_append_of_le_length hk] at h2
              simpa using h2
            · exact absurd h hF
          | released _ h => exact absurd h hF
          | done _ h => exact absurd h hF
      · have hsam : samplesOf c (cmds ++ [.sample c0 t]) = samplesOf c cmds := by
          rw [samplesOf_snoc]; simp [hcc]
        rw [hsam]
        refine ⟨g1, g2, g3, ch, g4, g5, ?_⟩
        dsimp only
        rw [setQueue_ne _ _ _ _ (Ne.symm hcc)]
        exact phase_congr g6 (hfin c).symm
  | finalize c0 =>
    simp only [asyncStep, Option.some.injEq] at hs
    subst hs
    obtain ⟨hnf, hc0⟩ := hx
    have hreg : registered (cmds ++ [.finalize c0]) = registered cmds := by
      rw [registered_snoc]; simp
    have hsam : ∀ c, samplesOf c (cmds ++ [.finalize c0]) = samplesOf c cmds := by
      intro c; rw [samplesOf_snoc]; simp
    refine ⟨by rw [hreg]; exact hi.len, hi.dir, hi.raised, ?_, ?_⟩
    · intro c hc
      rw [hreg] at hc
      obtain ⟨k1, k2, k3⟩ := hi.fresh c hc
      have hne : c ≠ c0 := by omega
      refine ⟨(setQueue_ne _ _ _ _ hne).trans k1, by rw [hsam, k2], ?_⟩
      intro y hy
      rcases List.mem_append.1 hy with h | h
      · exact k3 y h
      · simp only [List.mem_singleton] at h; subst h; simp [Ne.symm hne]
    · intro c init n hc
      rw [hreg] at hc
      rw [hsam]
      obtain ⟨g1, g2, g3, ch, g4, g5, g6⟩ := hi.chain c init n hc
      refine ⟨g1, g2, g3, ch, g4, g5, ?_⟩
      by_cases hcc : c0 = c
      · subst hcc
        have hF : ¬ (Cmd.finalize c0 ∈ cmds) := fun h => hnf _ h rfl
        dsimp only
        rw [setQueue_self]
        have hfs : (List.range (memAsync zero).finalize.length).map
            (Callback.finalizeStep (α := α)) = [.finalizeStep 0, .finalizeStep 1] := rfl
        rw [hfs]
        generalize s.queue c0 = q at g6
        generalize hFF : (Cmd.finalize c0 ∈ cmds) = F at g6 hF
        cases g6 with
        | running k _ fin hk hh hl hf =>
          rcases hf with ⟨-, rfl⟩ | ⟨h, -⟩
          · rw [List.append_nil]
            exact .running k _ _ hk hh hl (Or.inr ⟨by simp, rfl⟩)
          · exact absurd h hF
        | released _ h => exact absurd h hF
        | done _ h => exact absurd h hF
      · dsimp only
        rw [setQueue_ne _ _ _ _ (Ne.symm hcc)]
        exact phase_congr g6 (by simp [Ne.symm hcc])
  | callback c0 =>
    have hreg : registered (cmds ++ [.callback c0]) = registered cmds := by
      rw [registered_snoc]; simp
    have hsam : ∀ c, samplesOf c (cmds ++ [.callback c0]) = samplesOf c cmds := by
      intro c; rw [samplesOf_snoc]; simp
    have hfin : ∀ c, (.finalize c ∈ cmds ++ [.callback c0] ↔ Cmd.finalize c ∈ cmds) := by
      intro c; simp
    have hc0 : c0 < (registered cmds).length := by
      by_contra hge
      obtain ⟨k1, -, -⟩ := hi.fresh c0 (by omega)
      simp [asyncStep, k1] at hs
    obtain ⟨⟨init0, n0⟩, hreg0⟩ : ∃ p, (registered cmds)[c0]? = some p :=
      ⟨_, List.getElem?_eq_getElem hc0⟩
    obtain ⟨g1, g2, g3, ch, g4, g5, g6⟩ := hi.chain c0 init0 n0 hreg0
    have hcl : c0 < s.coll.chains.length := by rw [hi.len]; exact hc0
    -- it is enough to describe the effect on chain `c0`
    suffices hsuff : ∃ coll q ch', s' = ⟨coll, setQueue s.queue c0 q, s.raised⟩ ∧ coll.saveDir = d ∧
        coll.chains = s.coll.chains.set c0 ch' ∧ ch'.names = ch.names ∧
        (∀ c, c ≠ c0 → coll.files.lookup c = s.coll.files.lookup c) ∧
        Phase zero init0 n0.toNat (samplesOf c0 cmds) ch' d (coll.files.lookup c0)
          (.finalize c0 ∈ cmds) q by
      obtain ⟨coll, q, ch', rfl, e1, e2, e3, e4, e5⟩ := hsuff
      refine ⟨by simp [e2, hreg, hi.len], e1, hi.raised, ?_, ?_⟩
      · intro c hc
        rw [hreg] at hc
        obtain ⟨k1, k2, k3⟩ := hi.fresh c hc
        have hne : c ≠ c0 := by omega
        refine ⟨by show setQueue s.queue c0 q c = []; rw [setQueue_ne _ _ _ _ hne]; exact k1,
          by rw [hsam, k2], ?_⟩
        intro y hy
        rcases List.mem_append.1 hy with h | h
        · exact k3 y h
        · simp only [List.mem_singleton] at h; subst h; simp
      · intro c init n hc
        rw [hreg] at hc
        rw [hsam]
        by_cases hcc : c = c0
        · subst hcc
          rw [hreg0] at hc
          simp only [Option.some.injEq, Prod.mk.injEq] at hc
          obtain ⟨rfl, rfl⟩ := hc
          refine ⟨g1, g2, g3, ch', by simp [e2, hcl], by rw [e3]; exact g5, ?_⟩
          dsimp only
          rw [setQueue_self]
          exact phase_congr e5 (hfin c).symm
        · obtain ⟨m1, m2, m3, chc, m4, m5, m6⟩ := hi.chain c init n hc
          refine ⟨m1, m2, m3, chc, ?_, m5, ?_⟩
          · dsimp only
            rw [e2, List.getElem?_set_ne (Ne.symm hcc)]
            exact m4
          · dsimp only
            rw [setQueue_ne _ _ _ _ hcc, e4 c hcc]
            exact phase_congr m6 (hfin c).symm
    have hself : s.coll.chains.set c0 ch = s.coll.chains := by
      rw [← (List.getElem?_eq_some_iff.1 g4).2]
      simp
    simp only [asyncStep] at hs
    generalize hq : s.queue c0 = q at g6 hs
    generalize hFF : (Cmd.finalize c0 ∈ cmds) = F at g6 ⊢
    cases g6 with
    | running k _ fin hk hh hl hf =>
      by_cases hkl : k < (samplesOf c0 cmds).length
      · -- a sample is stored
        obtain ⟨t, ht⟩ : ∃ t, (samplesOf c0 cmds)[k]? = some t := ⟨_, List.getElem?_eq_getElem hkl⟩
        have htg := (List.getElem?_eq_some_iff.1 ht).2
        have hdrop : (samplesOf c0 cmds).drop k = t :: (samplesOf c0 cmds).drop (k + 1) := by
          rw [List.drop_eq_getElem_cons hkl, htg]
        have htake : (samplesOf c0 cmds).take (k + 1) = (samplesOf c0 cmds).take k ++ [t] := by
          rw [List.take_succ_eq_append_getElem hkl, htg]
        obtain ⟨ch', c1, c2, c3, c4⟩ := chSave_ok zero init0 n0.toNat _ ch hh t
          (g3 t (List.mem_of_getElem? ht)) (by simp; omega)
        rw [hdrop] at hs
        simp only [List.map_cons, List.cons_append, runCallback] at hs
        have hsv : (memAsync zero).save s.coll c0 t.leaves
            = .ok { s.coll with chains := s.coll.chains.set c0 ch' } := by
          simp [memAsync, memSave, g4, c1]
        rw [hsv] at hs
        simp only [Option.some.injEq] at hs
        refine ⟨_, _, ch', hs.symm, hi.dir, rfl, c4, fun _ _ => rfl, ?_⟩
        refine .running (k + 1) _ fin (by omega) ?_ (c3.trans hl) hf
        rw [htake]
        exact c2
      · -- `finalize` starts
        have hkeq : k = (samplesOf c0 cmds).length := by omega
        subst hkeq
        rw [List.drop_length, List.map_nil, List.nil_append] at hs
        rcases hf with ⟨-, rfl⟩ | ⟨hF, rfl⟩
        · simp at hs
        · simp only [runCallback, memAsync, List.getElem?_cons_zero, memRelease, g4, hl,
            if_true, Option.some.injEq] at hs
          refine ⟨_, _, { ch with locked := false }, hs.symm, hi.dir, rfl, rfl,
            fun _ _ => rfl, ?_⟩
          rw [List.take_length] at hh
          exact .released _ hF ⟨hh.treedef, hh.count, hh.bufs⟩ rfl
    | released _ hF hh hl =>
      simp only [runCallback, memAsync, List.getElem?_cons_succ, List.getElem?_cons_zero,
        memWrite] at hs
      by_cases hd : s.coll.saveDir = true
      · simp only [hd, if_true, g4, Option.some.injEq] at hs
        refine ⟨_, _, ch, hs.symm, hd.symm.trans hi.dir, ?_, rfl, ?_, ?_⟩
        · dsimp only
          rw [hself]
        · intro c hc
          simp [List.lookup, beq_eq_false_iff_ne.2 hc]
        · exact .done _ hF hh hl (fun _ => by simp [List.lookup])
      · have hdf : d = false := by rw [← hi.dir]; simpa using hd
        rw [if_neg hd] at hs
        simp only [Option.some.injEq] at hs
        refine ⟨_, _, ch, hs.symm, hi.dir, ?_, rfl, fun _ _ => rfl, ?_⟩
        · rw [hself]
        · exact .done _ hF hh hl (fun h => by rw [hdf] at h; simp at h)
    | done _ hF hh hl hfile => simp at hs
  | finished c0 =>
    simp only [asyncStep] at hs
    split at hs
    · simp only [Option.some.injEq] at hs
      subst hs
      have hreg : registered (cmds ++ [.finished c0]) = registered cmds := by
        rw [registered_snoc]; simp
      have hsam : ∀ c, samplesOf c (cmds ++ [.finished c0]) = samplesOf c cmds := by
        intro c; rw [samplesOf_snoc]; simp
      have hfin : ∀ c, (.finalize c ∈ cmds ++ [.finished c0] ↔ Cmd.finalize c ∈ cmds) := by
        intro c; simp
      refine ⟨by rw [hreg]; exact hi.len, hi.dir, hi.raised, ?_, ?_⟩
      · intro c hc
        rw [hreg] at hc
        obtain ⟨k1, k2, k3⟩ := hi.fresh c hc
        refine ⟨k1, by rw [hsam, k2], ?_⟩
        intro y hy
        rcases List.mem_append.1 hy with h | h
        · exact k3 y h
        · simp only [List.mem_singleton] at h; subst h; simp
      · intro c init n hc
        rw [hreg] at hc
        rw [hsam]
        obtain ⟨g1, g2, g3, ch, g4, g5, g6⟩ := hi.chain c init n hc
        exact ⟨g1, g2, g3, ch, g4, g5, phase_congr g6 (hfin c).symm⟩
    · cases hs

theorem asyncInv (zero : α → α) (d : Bool) (cmds : List (Cmd α))
    (s : AsyncState (MemCollector α) α) (hp : Protocol cmds)
    (hs : asyncRun (memAsync zero) (asyncStart (memNew d)) cmds = some s) :
    AsyncInv zero d cmds s := by
  induction cmds using List.reverseRecOn generalizing s with
  | nil =>
    simp only [asyncRun, Option.some.injEq] at hs
    subst hs
    exact ⟨rfl, rfl, rfl, fun c _ => ⟨rfl, rfl, by simp⟩, by simp [registered]⟩
  | append_singleton cmds x ih =>
    obtain ⟨s1, h1, h2⟩ := asyncRun_snoc _ _ _ _ _ hs
    obtain ⟨p1, p2⟩ := protocol_snoc _ _ hp
    exact asyncInv_step zero d cmds x s1 s (ih s1 p1 h1) p2 h2

end JaxSgmc
