import Verif.Model.Hdf5Crash
import Verif.Props.Hdf5

/-!
# Interrupted saving to HDF5 files (C119, C120)
-/

namespace JaxSgmc

open Spec

variable {α : Type}

/-! ### C119: no torn samples -/

/-- **C119**, full statement: if saving a sample is interrupted after any number of leaves, every row
of the file (taken over all datasets of the chain) is as before or holds the new sample. -/
def C119Statement : Prop :=
  ∀ (zero : Nat → Nat) (ops : List (H5Op Nat)) (C C' : H5Coll Nat) (c : Nat) (init : Tree Nat) (n : Int)
    (v : List Nat) (k : Nat) (keys : List Path),
    H5Protocol ops → h5Run zero (h5New []) ops = .ok C → (h5Registered ops)[c]? = some (init, n) →
    v.length = init.leaves.length → h5SaveStopped C c v k = .ok C' → dictKeys init = .ok keys →
    ∀ i < n.toNat,
      (∀ (j : Nat) (key : Path) (a : Nat), keys[j]? = some key → init.leaves[j]? = some a →
        ∃ rows, h5Get C'.file (h5Name (chainDir c) key) = .ok rows ∧
          rows[i]? = cell zero (h5SavedOf c ops) a i j) ∨
      (∀ (j : Nat) (key : Path), keys[j]? = some key →
        ∃ rows, h5Get C'.file (h5Name (chainDir c) key) = .ok rows ∧ rows[i]? = v[j]?)

/-- **C119** (partial).  If saving a sample is interrupted after `k` leaves, all rows except the row
of this sample are as before; in this row, the first `k` leaves are those of the new sample and the
others are untouched. -/
theorem c119_torn_partial (zero : α → α) (file0 : H5File α) (ops : List (H5Op α)) (C : H5Coll α)
    (hp : H5Protocol ops) (h : h5Run zero (h5New file0) ops = .ok C)
    (c : Nat) (init : Tree α) (n : Int) (hreg : (h5Registered ops)[c]? = some (init, n))
    (v : List α) (hv : v.length = init.leaves.length) (hlt : (h5SavedOf c ops).length < n.toNat)
    (k : Nat) :
    ∃ C', h5SaveStopped C c v k = .ok C' ∧ C'.names = C.names ∧ C'.counts = C.counts ∧
    ∃ keys, dictKeys init = .ok keys ∧ keys.length = init.leaves.length ∧
      (∀ q, (∀ key ∈ keys, q ≠ h5Path (h5Name (chainDir c) key)) →
        C'.file.lookup q = C.file.lookup q) ∧
      ∀ j key a, keys[j]? = some key → init.leaves[j]? = some a →
        ∃ rows, h5Get C'.file (h5Name (chainDir c) key) = .ok rows ∧ rows.length = n.toNat ∧
          ∀ i < n.toNat, rows[i]? =
            if i = (h5SavedOf c ops).length ∧ j < k then v[j]?
            else cell zero (h5SavedOf c ops) a i j := by
  have hi := h5Inv zero file0 ops C hp h
  obtain ⟨keys, g1, g2, g3, g4, g5, g6⟩ := hi.chain c init n hreg
  have hkl := dictKeys_length init g1 keys g2
  have hin : ∀ nm ∈ keys.map (h5Name (chainDir c)), nm ∈ C.names.flatten := fun nm hnm =>
    List.mem_flatten.2 ⟨_, List.mem_of_getElem? g3, hnm⟩
  have hnd : ((keys.map (h5Name (chainDir c))).map h5Path).Nodup := by
    have h := hi.nodup
    rw [List.map_flatten] at h
    exact (List.nodup_flatten.1 h).1 _ (List.mem_map.2 ⟨_, List.mem_of_getElem? g3, rfl⟩)
  have hrows := bufsOf_rows C.file (keys.map (h5Name (chainDir c))) n.toNat
    (fun nm hnm => hi.present nm (hin nm hnm)) g6.rows
  obtain ⟨file', w1, w2, w3, w4⟩ := h5PutAll_ok (h5SavedOf c ops).length n.toNat C.file
    ((keys.map (h5Name (chainDir c))).take k) (v.take k) (by simp [hkl, hv])
    (by rw [List.map_take]; exact hnd.sublist (List.take_sublist _ _))
    (fun nm hnm => hrows nm (List.mem_of_mem_take hnm)) hlt
  refine ⟨{ C with file := file' }, by simp only [h5SaveStopped, g3, g4, w1], rfl, rfl, keys, g2, hkl,
    ?_, ?_⟩
  · intro q hq
    refine w3 q ?_
    intro hm
    obtain ⟨nm, hnm, rfl⟩ := List.mem_map.1 hm
    obtain ⟨key, hk, rfl⟩ := List.mem_map.1 (List.mem_of_mem_take hnm)
    exact hq key hk rfl
  · intro j key a hj ha
    have hjn : (keys.map (h5Name (chainDir c)))[j]? = some (h5Name (chainDir c) key) := by simp [hj]
    obtain ⟨old, ho1, ho2⟩ := hrows _ (List.mem_of_getElem? hjn)
    have hbuf : (bufsOf C.file (keys.map (h5Name (chainDir c))))[j]? = some old := by
      simp [bufsOf, hj, ho1]
    have hold : ∀ i < n.toNat, old[i]? = cell zero (h5SavedOf c ops) a i j := fun i hin =>
      holdsL_cell zero init.leaves n.toNat _ _ g6 j a ha old hbuf i hin
    by_cases hjk : j < k
    · -- written
      have hvj : ∃ x, v[j]? = some x := by
        have : j < v.length := by
          rw [hv]; exact (List.getElem?_eq_some_iff.1 ha).1
        exact ⟨_, List.getElem?_eq_getElem this⟩
      obtain ⟨x, hx⟩ := hvj
      have h4 := congrArg (fun l => l[j]?) w4
      have ht : ((keys.map (h5Name (chainDir c))).take k)[j]? = some (h5Name (chainDir c) key) := by
        rw [List.getElem?_take_of_lt hjk, hjn]
      simp only [bufsOf, List.getElem?_map, ht, Option.map_some, List.getElem?_zipWith,
        List.getElem?_take_of_lt hjk, hx, ho1, Option.getD_some] at h4
      have hmem : h5Path (h5Name (chainDir c) key) ∈ file'.map Prod.fst := by
        rw [w2]; exact hi.present _ (hin _ (List.mem_of_getElem? hjn))
      obtain ⟨new, hnew⟩ := lookup_isSome_of_mem file' _ hmem
      rw [hnew] at h4
      simp only [Option.getD_some, Option.some.injEq] at h4
      refine ⟨new, by simp [h5Get, hnew], by rw [h4]; simp [ho2], ?_⟩
      intro i hin
      rw [h4]
      by_cases hic : i = (h5SavedOf c ops).length
      · subst hic
        rw [if_pos ⟨rfl, hjk⟩, hx, List.getElem?_set_self (by omega)]
      · rw [if_neg (fun e => hic e.1), List.getElem?_set_ne (fun e => hic e.symm)]
        exact hold i hin
    · -- untouched
      have hnot : h5Path (h5Name (chainDir c) key) ∉
          ((keys.map (h5Name (chainDir c))).take k).map h5Path := by
        rw [List.map_take]
        intro hm
        obtain ⟨j', hj'⟩ := List.mem_iff_getElem?.1 hm
        have hj'k : j' < k := by
          by_contra hge
          rw [List.getElem?_take_eq_none (by omega)] at hj'
          simp at hj'
        rw [List.getElem?_take_of_lt hj'k] at hj'
        have hjp : ((keys.map (h5Name (chainDir c))).map h5Path)[j]? =
            some (h5Path (h5Name (chainDir c) key)) := by simp [hj]
        have hlt1 := (List.getElem?_eq_some_iff.1 hj').1
        have := (hnd.getElem_inj_iff (hi := hlt1)
          (hj := (List.getElem?_eq_some_iff.1 hjp).1)).1
          (by rw [(List.getElem?_eq_some_iff.1 hj').2, (List.getElem?_eq_some_iff.1 hjp).2])
        omega
      refine ⟨old, by simp [h5Get, w3 _ hnot, ho1], ho2, ?_⟩
      intro i hin
      rw [if_neg (fun e => hjk e.2)]
      exact hold i hin

theorem h5PutAll_twice (i m : Nat) (file file' : H5File α) (names : List Key) (vals vals' : List α)
    (hlen : names.length = vals.length) (hlen' : names.length = vals'.length)
    (hnd : (names.map h5Path).Nodup)
    (hex : ∀ nm ∈ names, ∃ r, file.lookup (h5Path nm) = some r ∧ r.length = m) (hi : i < m) (k : Nat)
    (h : h5PutAll i file (names.take k) (vals.take k) = .ok file') :
    h5PutAll i file' names vals' = h5PutAll i file names vals' := by
  -- writing one leaf commutes with writing leaves of other names
  have comm : ∀ (names : List Key) (vals : List α) (file : H5File α) (p : Path) (x : α),
      p ∉ names.map h5Path →
      h5PutAll i (file.map (fun d => if d.1 = p then (d.1, d.2.set i x) else d)) names vals
        = (h5PutAll i file names vals).map
            (fun f => f.map (fun d => if d.1 = p then (d.1, d.2.set i x) else d)) := by
    intro names
    induction names with
    | nil => intro vals file p x _; simp [h5PutAll, Except.map]
    | cons nm names ih =>
      intro vals file p x hp
      cases vals with
      | nil => simp [h5PutAll, Except.map]
      | cons v vals =>
        simp only [List.map_cons, List.mem_cons, not_or] at hp
        simp only [h5PutAll, h5Put]
        rw [lookup_map_set, if_neg (Ne.symm hp.1)]
        cases hl : file.lookup (h5Path nm) with
        | none => simp [Except.map]
        | some rows =>
          dsimp only
          by_cases hlt : i < rows.length
          · rw [if_pos hlt, if_pos hlt]
            dsimp only
            rw [← ih vals _ p x hp.2]
            congr 1
            rw [List.map_map, List.map_map]
            refine List.map_congr_left ?_
            intro d _
            simp only [Function.comp_apply]
            by_cases h1 : d.1 = p
            · have h2 : ¬ d.1 = h5Path nm := fun e => hp.1 (h1.symm.trans e)
              simp [h1, h2, hp.1]
            · by_cases h2 : d.1 = h5Path nm
              · simp [h2, Ne.symm hp.1]
              · simp [h1, h2]
          · rw [if_neg hlt, if_neg hlt]; rfl
  induction names generalizing file file' vals vals' k with
  | nil => simp [h5PutAll] at h; rw [h]
  | cons nm names ih =>
    cases k with
    | zero => simp [h5PutAll] at h; rw [h]
    | succ k =>
      match vals, vals' with
      | [], _ => simp at hlen
      | _ :: _, [] => simp at hlen'
      | v :: vals, v' :: vals' =>
        simp only [List.map_cons, List.nodup_cons] at hnd
        simp only [List.length_cons, Nat.add_right_cancel_iff] at hlen hlen'
        obtain ⟨r, hr1, hr2⟩ := hex nm (by simp)
        simp only [List.take_succ_cons, h5PutAll, h5Put, hr1] at h
        rw [if_pos (by omega)] at h
        dsimp only at h
        rw [comm _ _ _ _ _ (by
          intro hm
          rw [List.map_take] at hm
          exact hnd.1 (List.mem_of_mem_take hm))] at h
        cases hs : h5PutAll i file (names.take k) (vals.take k) with
        | error e => rw [hs] at h; simp [Except.map] at h
        | ok file1 =>
          rw [hs] at h
          simp only [Except.map, Except.ok.injEq] at h
          subst h
          have hex' : ∀ nm ∈ names, ∃ r, file.lookup (h5Path nm) = some r ∧ r.length = m :=
            fun nm' hm => hex nm' (by simp [hm])
          have hih := ih file file1 vals vals' hlen hlen' hnd.2 hex' k hs
          have hl1 : file1.lookup (h5Path nm) = some r := by
            obtain ⟨f2, u1, -, u3, -⟩ := h5PutAll_ok i m file (names.take k) (vals.take k)
              (by simp [hlen])
              (by rw [List.map_take]; exact hnd.2.sublist (List.take_sublist _ _))
              (fun nm' hm => hex' nm' (List.mem_of_mem_take hm)) hi
            rw [hs] at u1
            simp only [Except.ok.injEq] at u1
            subst u1
            rw [u3, hr1]
            intro hm
            rw [List.map_take] at hm
            exact hnd.1 (List.mem_of_mem_take hm)
          simp only [h5PutAll, h5Put]
          rw [lookup_map_set, if_pos rfl, hl1, hr1]
          simp only [Option.map_some, List.length_set]
          rw [if_pos (by omega), if_pos (by omega)]
          dsimp only
          rw [List.map_map]
          have hcomp : (fun d : Path × List α => if d.1 = h5Path nm then (d.1, d.2.set i v') else d) ∘
              (fun d : Path × List α => if d.1 = h5Path nm then (d.1, d.2.set i v) else d)
              = (fun d : Path × List α => if d.1 = h5Path nm then (d.1, d.2.set i v') else d) := by
            funext d
            simp only [Function.comp_apply]
            by_cases hd : d.1 = h5Path nm
            · simp [hd, List.set_set]
            · simp [hd]
          rw [hcomp, comm _ _ _ _ _ hnd.1, comm _ _ _ _ _ hnd.1, hih]

/-- **C119** (retry).  After an interrupted `save`, the next `save` for the same chain overwrites what
has been written: the result is the same as if the interrupted call had not happened. -/
theorem c119_retry (zero : α → α) (file0 : H5File α) (ops : List (H5Op α)) (C : H5Coll α)
    (hp : H5Protocol ops) (h : h5Run zero (h5New file0) ops = .ok C)
    (c : Nat) (init : Tree α) (n : Int) (hreg : (h5Registered ops)[c]? = some (init, n))
    (v v' : List α) (hv : v.length = init.leaves.length) (hv' : v'.length = init.leaves.length)
    (hlt : (h5SavedOf c ops).length < n.toNat) (k : Nat) (C' : H5Coll α)
    (hs : h5SaveStopped C c v k = .ok C') : h5Save C' c v' = h5Save C c v' := by
  have hi := h5Inv zero file0 ops C hp h
  obtain ⟨keys, g1, g2, g3, g4, g5, g6⟩ := hi.chain c init n hreg
  have hkl := dictKeys_length init g1 keys g2
  have hin : ∀ nm ∈ keys.map (h5Name (chainDir c)), nm ∈ C.names.flatten := fun nm hnm =>
    List.mem_flatten.2 ⟨_, List.mem_of_getElem? g3, hnm⟩
  have hnd : ((keys.map (h5Name (chainDir c))).map h5Path).Nodup := by
    have h := hi.nodup
    rw [List.map_flatten] at h
    exact (List.nodup_flatten.1 h).1 _ (List.mem_map.2 ⟨_, List.mem_of_getElem? g3, rfl⟩)
  have hrows := bufsOf_rows C.file (keys.map (h5Name (chainDir c))) n.toNat
    (fun nm hnm => hi.present nm (hin nm hnm)) g6.rows
  simp only [h5SaveStopped, g3, g4] at hs
  cases hw : h5PutAll (h5SavedOf c ops).length C.file ((keys.map (h5Name (chainDir c))).take k)
      (v.take k) with
  | error e => rw [hw] at hs; simp at hs
  | ok file =>
    rw [hw] at hs
    simp only [Except.ok.injEq] at hs
    subst hs
    simp only [h5Save, g3, g4]
    rw [h5PutAll_twice _ n.toNat C.file file _ v v' (by simp [hkl, hv]) (by simp [hkl, hv']) hnd hrows
      hlt k hw]

/-- A chain of samples with two leaves, three samples announced. -/
def tornSample : Tree Nat := Tree.node (Kind.dict [['a'], ['b']]) [.leaf 0, .leaf 0]

/-- One sample has been saved.
(test data) -/
def tornOps : List (H5Op Nat) := [.register tornSample 3, .save 0 [1, 2]]

/-- Saving `[3, 4]` is interrupted between the leaves. -/
theorem c119_example :
    ((h5Run (fun _ => 0) (h5New []) tornOps).bind (fun C => h5SaveStopped C 0 [3, 4] 1)).map
      (fun C => C.file.map Prod.snd) = .ok [[1, 3, 0], [2, 0, 0]] := by decide +kernel

theorem tornOps_protocol : H5Protocol tornOps := by
  intro pre op post h
  match pre, h with
  | [], h =>
    simp only [tornOps, List.nil_append, List.cons.injEq] at h
    rw [← h.1]
    simp [H5Allowed, tornSample, WF, WFL]
    decide
  | [x], h =>
    simp only [tornOps, List.cons_append, List.nil_append, List.cons.injEq] at h
    rw [← h.2.1, ← h.1]
    exact ⟨tornSample, 3, rfl, rfl⟩
  | x :: y :: pre, h =>
    have := congrArg List.length h
    simp [tornOps] at this

/-- The full statement is false. -/
theorem c119_false : ¬ C119Statement := by
  intro h
  cases hr : h5Run (fun _ => 0) (h5New []) tornOps with
  | error e => have := c119_example; rw [hr] at this; simp [Except.bind, Except.map] at this
  | ok C =>
    obtain ⟨C', w1, -, -, keys, w2, w3, -, w4⟩ := c119_torn_partial (fun _ => 0) [] tornOps C
      tornOps_protocol hr 0 tornSample 3 rfl [3, 4] rfl (by decide) 1
    have hl : tornSample.leaves = [0, 0] := by decide
    rw [hl] at w3 w4
    match keys, w3 with
    | [ka, kb], _ =>
      obtain ⟨ra, a1, a2, a3⟩ := w4 0 ka 0 rfl rfl
      obtain ⟨rb, b1, b2, b3⟩ := w4 1 kb 0 rfl rfl
      have ha := a3 1 (by decide)
      have hb := b3 1 (by decide)
      have hsv : h5SavedOf 0 tornOps = [[1, 2]] := rfl
      rw [hsv] at ha hb
      rcases h (fun _ => 0) tornOps C C' 0 tornSample 3 [3, 4] 1 [ka, kb] tornOps_protocol hr rfl rfl w1 w2
        1 (by decide) with hx | hx
      · obtain ⟨r, r1, r2⟩ := hx 0 ka 0 rfl (by rw [hl]; rfl)
        rw [a1] at r1
        simp only [Except.ok.injEq] at r1
        subst r1
        rw [ha] at r2
        simp [cell, hsv] at r2
      · obtain ⟨r, r1, r2⟩ := hx 1 kb rfl
        rw [b1] at r1
        simp only [Except.ok.injEq] at r1
        subst r1
        rw [hb] at r2
        simp [cell] at r2

/-! ### C120: the number of samples -/

/-- **C120**, full statement: the number of samples saved for the first chain can be determined from
the file. -/
def C120Statement : Prop :=
  ∃ number : H5File Nat → Nat, ∀ (zero : Nat → Nat) (ops : List (H5Op Nat)) (C : H5Coll Nat),
    H5Protocol ops → h5Run zero (h5New []) ops = .ok C → number C.file = (h5SavedOf 0 ops).length

/-- The full statement is false: rows which have not been written cannot be distinguished from samples
which are zero. -/
theorem c120_false : ¬ C120Statement := by
  rintro ⟨number, h⟩
  have hp0 : H5Protocol [H5Op.register (Tree.leaf (0 : Nat)) 1] := by
    intro pre op post he
    match pre, he with
    | [], he =>
      simp only [List.nil_append, List.cons.injEq] at he
      rw [← he.1]
      simp [H5Allowed, WF]
    | x :: pre, he => have := congrArg List.length he; simp at this
  have hp1 : H5Protocol [H5Op.register (Tree.leaf (0 : Nat)) 1, .save 0 [0]] := by
    intro pre op post he
    match pre, he with
    | [], he =>
      simp only [List.nil_append, List.cons.injEq] at he
      rw [← he.1]
      simp [H5Allowed, WF]
    | [x], he =>
      simp only [List.cons_append, List.nil_append, List.cons.injEq] at he
      rw [← he.2.1, ← he.1]
      exact ⟨Tree.leaf 0, 1, rfl, rfl⟩
    | x :: y :: pre, he => have := congrArg List.length he; simp at this
  have h0 : ∃ C, h5Run (fun _ => 0) (h5New []) [H5Op.register (Tree.leaf (0 : Nat)) 1] = .ok C ∧
      ∃ C', h5Run (fun _ => 0) (h5New []) [H5Op.register (Tree.leaf (0 : Nat)) 1, .save 0 [0]] = .ok C' ∧
      C.file = C'.file := by
    refine ⟨_, rfl, _, rfl, ?_⟩
    decide +kernel
  obtain ⟨C, e1, C', e2, e3⟩ := h0
  have h1 := h (fun _ => 0) _ C hp0 e1
  have h2 := h (fun _ => 0) _ C' hp1 e2
  rw [e3, h2] at h1
  simp [h5SavedOf] at h1

/-- **C120** (partial).  If there is a leaf which is never zero, the number of saved samples is the
number of rows of its dataset which are not zero — also if saving was interrupted before this leaf
(e.g. the last one) was written. -/
theorem c120_count_partial [DecidableEq α] (zero : α → α) (file0 : H5File α) (ops : List (H5Op α))
    (C : H5Coll α) (hp : H5Protocol ops) (h : h5Run zero (h5New file0) ops = .ok C)
    (c : Nat) (init : Tree α) (n : Int) (hreg : (h5Registered ops)[c]? = some (init, n))
    (v : List α) (hv : v.length = init.leaves.length) (hlt : (h5SavedOf c ops).length < n.toNat)
    (j k : Nat) (hk : k ≤ j) (a : α) (ha : init.leaves[j]? = some a)
    (hnz : ∀ s ∈ h5SavedOf c ops, ∃ x, s[j]? = some x ∧ x ≠ zero a) :
    ∃ C' keys key rows, h5SaveStopped C c v k = .ok C' ∧ dictKeys init = .ok keys ∧
      keys[j]? = some key ∧ h5Get C'.file (h5Name (chainDir c) key) = .ok rows ∧
      rows.countP (fun x => x ≠ zero a) = (h5SavedOf c ops).length := by
  obtain ⟨C', w1, -, -, keys, w2, w3, -, w4⟩ := c119_torn_partial zero file0 ops C hp h c init n hreg
    v hv hlt k
  have hjk : j < keys.length := by rw [w3]; exact (List.getElem?_eq_some_iff.1 ha).1
  obtain ⟨rows, r1, r2, r3⟩ := w4 j _ a (List.getElem?_eq_getElem hjk) ha
  refine ⟨C', keys, _, rows, w1, w2, List.getElem?_eq_getElem hjk, r1, ?_⟩
  have hcell : ∀ i < n.toNat, rows[i]? = cell zero (h5SavedOf c ops) a i j := by
    intro i hi
    rw [r3 i hi, if_neg]
    omega
  have hsplit := List.take_append_drop (h5SavedOf c ops).length rows
  rw [← hsplit, List.countP_append]
  have h1 : (rows.take (h5SavedOf c ops).length).countP (fun x => x ≠ zero a)
      = (h5SavedOf c ops).length := by
    have hall : ∀ x ∈ rows.take (h5SavedOf c ops).length, decide (x ≠ zero a) = true := by
      intro x hx
      obtain ⟨i, hi⟩ := List.mem_iff_getElem?.1 hx
      have hil : i < (h5SavedOf c ops).length := by
        by_contra hge
        rw [List.getElem?_take_eq_none (by omega)] at hi
        simp at hi
      rw [List.getElem?_take_of_lt hil, hcell i (by omega)] at hi
      simp only [cell, List.getElem?_eq_getElem hil] at hi
      obtain ⟨y, hy1, hy2⟩ := hnz _ (List.getElem_mem hil)
      rw [hy1] at hi
      simp only [Option.some.injEq] at hi
      subst hi
      simp [hy2]
    rw [List.countP_eq_length.2 hall, List.length_take]
    omega
  have h2 : (rows.drop (h5SavedOf c ops).length).countP (fun x => x ≠ zero a) = 0 := by
    rw [List.countP_eq_zero]
    intro x hx
    obtain ⟨i, hi⟩ := List.mem_iff_getElem?.1 hx
    rw [List.getElem?_drop] at hi
    have hil := (List.getElem?_eq_some_iff.1 hi).1
    rw [hcell _ (by omega)] at hi
    simp only [cell, List.getElem?_eq_none (Nat.le_add_right (h5SavedOf c ops).length i),
      Option.some.injEq] at hi
    simp [hi]
  rw [h1, h2]
  rfl

/-- The hypotheses are met: one sample saved, the second leaf is not zero. -/
example : H5Protocol tornOps ∧ (∃ C, h5Run (fun _ => 0) (h5New []) tornOps = .ok C) ∧
    (h5Registered tornOps)[0]? = some (tornSample, 3) ∧ (h5SavedOf 0 tornOps).length < 3 ∧
    ∀ s ∈ h5SavedOf 0 tornOps, ∃ x, s[1]? = some x ∧ x ≠ 0 :=
  ⟨tornOps_protocol, ⟨_, rfl⟩, rfl, by decide, by
    intro s hs
    have : s = [1, 2] := by simpa [tornOps, h5SavedOf] using hs
    exact ⟨2, by rw [this]; rfl, by decide⟩⟩

end JaxSgmc
