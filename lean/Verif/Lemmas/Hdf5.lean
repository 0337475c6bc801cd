import Verif.Spec.Hdf5
import Verif.Lemmas.Saving
import Mathlib.Data.List.Induction

/-!
# Lemmas about HDF5 files
-/

namespace JaxSgmc

open Spec

variable {α : Type}

theorem h5Registered_snoc (ops : List (H5Op α)) (op : H5Op α) :
    h5Registered (ops ++ [op]) = h5Registered ops ++ (match op with
      | .register t n => [(t, n)]
      | _ => []) := by
  rw [h5Registered, List.filterMap_append, ← h5Registered]
  cases op <;> simp

theorem h5SavedOf_snoc (c : Nat) (ops : List (H5Op α)) (op : H5Op α) :
    h5SavedOf c (ops ++ [op]) = h5SavedOf c ops ++ (match op with
      | .save c' v => if c' = c then [v] else []
      | _ => []) := by
  rw [h5SavedOf, List.filterMap_append, ← h5SavedOf]
  cases op with
  | save c' t => by_cases h : c' = c <;> simp [h]
  | _ => simp

theorem h5Protocol_snoc (ops : List (H5Op α)) (x : H5Op α) (h : H5Protocol (ops ++ [x])) :
    H5Protocol ops ∧ H5Allowed ops x := by
  refine ⟨?_, h ops x [] rfl⟩
  rintro pre y post rfl
  exact h pre y (post ++ [x]) (by simp)

theorem h5Run_snoc (zero : α → α) (C C' : H5Coll α) (ops : List (H5Op α)) (op : H5Op α)
    (h : h5Run zero C (ops ++ [op]) = .ok C') :
    ∃ C1, h5Run zero C ops = .ok C1 ∧ h5Step zero C1 op = .ok C' := by
  induction ops generalizing C with
  | nil =>
    refine ⟨C, rfl, ?_⟩
    simp only [List.nil_append, h5Run] at h
    cases hs : h5Step zero C op with
    | error e => simp [hs] at h
    | ok C1 => rw [hs] at h; simpa [h5Run] using h
  | cons x xs ih =>
    simp only [List.cons_append, h5Run] at h ⊢
    cases hs : h5Step zero C x with
    | error e => simp [hs] at h
    | ok C1 => rw [hs] at h; exact ih C1 h

/-! ### Effect of the operations on the datasets -/

theorem lookup_map_set (file : H5File α) (p q : Path) (i : Nat) (v : α) :
    (file.map (fun d => if d.1 = p then (d.1, d.2.set i v) else d)).lookup q
      = if q = p then (file.lookup q).map (fun r => r.set i v) else file.lookup q := by
  induction file with
  | nil => simp
  | cons d file ih =>
    obtain ⟨k, r⟩ := d
    simp only [List.map_cons]
    by_cases hk : k = p
    · simp only [hk, if_true]
      by_cases hq : q = p
      · subst hq; simp [List.lookup]
      · have : (q == p) = false := beq_eq_false_iff_ne.2 hq
        simp only [List.lookup, this, ih]
    · simp only [hk, if_false]
      by_cases hqk : q = k
      · subst hqk
        simp [List.lookup, hk]
      · have : (q == k) = false := beq_eq_false_iff_ne.2 hqk
        simp only [List.lookup, this, ih]

theorem lookup_isSome_of_mem (file : H5File α) (p : Path) (h : p ∈ file.map Prod.fst) :
    ∃ r, file.lookup p = some r := by
  induction file with
  | nil => simp at h
  | cons d file ih =>
    by_cases hp : p = d.1
    · subst hp; exact ⟨d.2, by simp [List.lookup]⟩
    · have : (p == d.1) = false := beq_eq_false_iff_ne.2 hp
      simp only [List.lookup, this]
      exact ih (by simpa [hp] using h)

theorem lookup_append (f g : H5File α) (q : Path) :
    (f ++ g).lookup q = (f.lookup q).or (g.lookup q) := by
  induction f with
  | nil => simp
  | cons d f ih =>
    by_cases hq : q = d.1
    · subst hq; simp [List.lookup]
    · have : (q == d.1) = false := beq_eq_false_iff_ne.2 hq
      simp only [List.cons_append, List.lookup, this, ih]

theorem lookup_none_of_notMem (f : H5File α) (q : Path) (h : q ∉ f.map Prod.fst) :
    f.lookup q = none := by
  rw [List.lookup_eq_none_iff]
  intro d hd
  apply bne_iff_ne.2
  rintro rfl
  exact h (List.mem_map.2 ⟨d, hd, rfl⟩)

theorem zipWith_left {β γ δ : Type} (f : β → γ) (l : List β) (m : List δ)
    (h : l.length = m.length) : List.zipWith (fun x (_ : δ) => f x) l m = l.map f := by
  induction l generalizing m with
  | nil => simp
  | cons x l ih =>
    cases m with
    | nil => simp at h
    | cons y m => simp [ih m (by simpa using h)]

/-- The datasets with the given names. -/
def bufsOf (file : H5File α) (names : List Key) : List (List α) :=
  names.map (fun nm => (file.lookup (h5Path nm)).getD [])

theorem h5PutAll_ok (i m : Nat) (file : H5File α) (names : List Key) (vals : List α)
    (hlen : names.length = vals.length) (hnd : (names.map h5Path).Nodup)
    (hex : ∀ nm ∈ names, ∃ r, file.lookup (h5Path nm) = some r ∧ r.length = m) (hi : i < m) :
    ∃ file', h5PutAll i file names vals = .ok file' ∧ file'.map Prod.fst = file.map Prod.fst ∧
      (∀ q, q ∉ names.map h5Path → file'.lookup q = file.lookup q) ∧
      bufsOf file' names = List.zipWith (fun d x => d.set i x) (bufsOf file names) vals := by
  induction names generalizing file vals with
  | nil =>
    refine ⟨file, by simp [h5PutAll], rfl, fun _ _ => rfl, by simp [bufsOf]⟩
  | cons nm names ih =>
    cases vals with
    | nil => simp at hlen
    | cons v vals =>
      obtain ⟨r, hr, hrl⟩ := hex nm (by simp)
      simp only [List.map_cons, List.nodup_cons] at hnd
      have hne : ∀ nm' ∈ names, h5Path nm' ≠ h5Path nm := by
        intro nm' h' e
        exact hnd.1 (e ▸ List.mem_map.2 ⟨nm', h', rfl⟩)
      obtain ⟨file', h1, h2, h3, h4⟩ := ih
        (file.map (fun d : Path × List α => if d.1 = h5Path nm then (d.1, d.2.set i v) else d)) vals
        (by simpa using hlen) hnd.2 (by
          intro nm' h'
          obtain ⟨r', hr', hrl'⟩ := hex nm' (by simp [h'])
          exact ⟨r', by rw [lookup_map_set, if_neg (hne nm' h')]; exact hr', hrl'⟩)
      have hput : h5Put file (h5Path nm) i v
          = .ok (file.map (fun d : Path × List α => if d.1 = h5Path nm then (d.1, d.2.set i v) else d)) := by
        simp [h5Put, hr, hrl, hi]
      refine ⟨file', by simp [h5PutAll, hput, h1], ?_, ?_, ?_⟩
      · rw [h2, List.map_map]
        apply List.map_congr_left
        intro d _
        simp only [Function.comp_apply]
        split <;> rfl
      · intro q hq
        simp only [List.map_cons, List.mem_cons, not_or] at hq
        rw [h3 q hq.2, lookup_map_set, if_neg hq.1]
      · have hb : bufsOf (file.map (fun d : Path × List α => if d.1 = h5Path nm then (d.1, d.2.set i v) else d)) names
            = bufsOf file names := by
          apply List.map_congr_left
          intro nm' h'
          rw [lookup_map_set, if_neg (hne nm' h')]
        rw [hb] at h4
        simp only [bufsOf, List.map_cons, List.zipWith_cons_cons] at h4 ⊢
        rw [h4, h3 _ hnd.1, lookup_map_set]
        simp [hr]

theorem h5PutAll_full (i m : Nat) (file : H5File α) (names : List Key) (vals : List α)
    (hne : names ≠ []) (hlen : names.length = vals.length)
    (hex : ∀ nm ∈ names, ∃ r, file.lookup (h5Path nm) = some r ∧ r.length = m) (hi : m ≤ i) :
    h5PutAll i file names vals = .error .indexError := by
  cases names with
  | nil => exact absurd rfl hne
  | cons nm names =>
    cases vals with
    | nil => simp at hlen
    | cons v vals =>
      obtain ⟨r, hr, hrl⟩ := hex nm (by simp)
      have : ¬ i < m := by omega
      simp [h5PutAll, h5Put, hr, hrl, this]

theorem h5CreateAll_inv (zero : α → α) (n : Int) (file file' : H5File α) (names : List Key)
    (as : List α) (hlen : names.length = as.length)
    (h : h5CreateAll zero n file names as = .ok file') :
    file' = file ++ List.zipWith (fun nm a => (h5Path nm, List.replicate n.toNat (zero a))) names as ∧
      (names.map h5Path).Nodup ∧ (∀ nm ∈ names, h5Path nm ∉ file.map Prod.fst) ∧
      (names ≠ [] → 0 ≤ n) := by
  induction names generalizing file as with
  | nil =>
    simp only [h5CreateAll, Except.ok.injEq] at h
    simp [h]
  | cons nm names ih =>
    cases as with
    | nil => simp at hlen
    | cons a as =>
      simp only [h5CreateAll, h5Create] at h
      split at h
      · simp at h
      · rename_i f1 hc
        split at hc
        · simp at hc
        · rename_i hcond
          simp only [Except.ok.injEq] at hc
          subst hc
          obtain ⟨k1, k2, k3, k4⟩ := ih _ as (by simpa using hlen) h
          push Not at hcond
          obtain ⟨c1, c2, c3⟩ := hcond
          have hnot : h5Path nm ∉ file.map Prod.fst := by
            intro hm
            obtain ⟨d, hd, he⟩ := List.mem_map.1 hm
            apply c3
            rw [List.any_eq_true]
            refine ⟨d, hd, ?_⟩
            rw [he]
            simp [h5Conflict]
          refine ⟨?_, ?_, ?_, fun _ => c1⟩
          · rw [k1]
            simp
          · rw [List.map_cons, List.nodup_cons]
            refine ⟨?_, k2⟩
            intro hm
            obtain ⟨nm', h', he⟩ := List.mem_map.1 hm
            exact k3 nm' h' (by simp [he])
          · intro nm' h'
            rcases List.mem_cons.1 h' with rfl | h'
            · exact hnot
            · intro hm
              exact k3 nm' h' (by simp [List.mem_map.1 hm])

theorem bufsOf_created (zero : α → α) (n : Nat) (file : H5File α) (names : List Key)
    (as : List α) (hlen : names.length = as.length) (hnd : (names.map h5Path).Nodup)
    (hnot : ∀ nm ∈ names, h5Path nm ∉ file.map Prod.fst) :
    bufsOf (file ++ List.zipWith (fun nm a => (h5Path nm, List.replicate n (zero a))) names as) names
      = as.map (fun a => List.replicate n (zero a)) := by
  induction names generalizing file as with
  | nil =>
    cases as with
    | nil => rfl
    | cons a as => simp at hlen
  | cons nm names ih =>
    cases as with
    | nil => simp at hlen
    | cons a as =>
      simp only [List.map_cons, List.nodup_cons] at hnd
      have h1 := ih (file ++ [(h5Path nm, List.replicate n (zero a))]) as (by simpa using hlen) hnd.2
        (by
          intro nm' h' hm
          simp only [List.map_append, List.map_cons, List.map_nil, List.mem_append,
            List.mem_singleton] at hm
          rcases hm with hm | hm
          · exact hnot nm' (by simp [h']) hm
          · exact hnd.1 (hm ▸ List.mem_map.2 ⟨nm', h', rfl⟩))
      simp only [List.zipWith_cons_cons, List.map_cons]
      rw [List.append_assoc] at h1
      simp only [bufsOf, List.map_cons]
      simp only [bufsOf, List.singleton_append] at h1
      rw [h1]
      congr 1
      rw [lookup_append, lookup_none_of_notMem _ _ (hnot nm (by simp))]
      simp [List.lookup]

/-! ### Invariant -/

theorem dictKeys_length (t : Tree α) (h : WF t) (ks : List Path) (hk : dictKeys t = .ok ks) :
    ks.length = t.leaves.length := by
  rw [paths_eq _ _ hk, List.length_map, (namedLeaves_toDict_perm t h).length_eq,
    ← List.length_map (f := Prod.snd), namedLeaves_snd t h]

/-- The state of the collector after a sequence of calls. -/
structure H5Inv (zero : α → α) (file0 : H5File α) (ops : List (H5Op α)) (C : H5Coll α) : Prop where
  names_len : C.names.length = (h5Registered ops).length
  counts_len : C.counts.length = (h5Registered ops).length
  fresh : ∀ c, (h5Registered ops).length ≤ c → h5SavedOf c ops = []
  nodup : (C.names.flatten.map h5Path).Nodup
  present : ∀ nm ∈ C.names.flatten, h5Path nm ∈ C.file.map Prod.fst
  apart : ∀ nm ∈ C.names.flatten, h5Path nm ∉ file0.map Prod.fst
  old : ∀ p ∈ file0.map Prod.fst, C.file.lookup p = file0.lookup p ∧ p ∈ C.file.map Prod.fst
  only : ∀ p ∈ C.file.map Prod.fst, p ∈ file0.map Prod.fst ∨
    ∃ nm ∈ C.names.flatten, p = h5Path nm
  chain : ∀ c init n, (h5Registered ops)[c]? = some (init, n) →
    ∃ keys, WF init ∧ dictKeys init = .ok keys ∧
      C.names[c]? = some (keys.map (h5Name (chainDir c))) ∧
      C.counts[c]? = some (h5SavedOf c ops).length ∧
      (init.leaves ≠ [] → 0 ≤ n ∧ (h5SavedOf c ops).length ≤ n.toNat) ∧
      HoldsL zero init.leaves n.toNat (h5SavedOf c ops)
        (bufsOf C.file (keys.map (h5Name (chainDir c))))

theorem bufsOf_rows (file : H5File α) (names : List Key) (m : Nat)
    (hp : ∀ nm ∈ names, h5Path nm ∈ file.map Prod.fst)
    (hl : ∀ b ∈ bufsOf file names, b.length = m) :
    ∀ nm ∈ names, ∃ r, file.lookup (h5Path nm) = some r ∧ r.length = m := by
  intro nm h
  obtain ⟨r, hr⟩ := lookup_isSome_of_mem file _ (hp nm h)
  refine ⟨r, hr, hl r ?_⟩
  exact List.mem_map.2 ⟨nm, h, by simp [hr]⟩

theorem flatten_disjoint {β : Type} (ls : List (List β)) (h : ls.flatten.Nodup) (c c' : Nat)
    (l l' : List β) (hc : ls[c]? = some l) (hc' : ls[c']? = some l') (hne : c ≠ c') :
    ∀ x ∈ l, x ∉ l' := by
  rw [List.nodup_flatten] at h
  obtain ⟨h1, rfl⟩ := List.getElem?_eq_some_iff.1 hc
  obtain ⟨h2, rfl⟩ := List.getElem?_eq_some_iff.1 hc'
  have hp := List.pairwise_iff_getElem.1 h.2
  intro x hx hx'
  rcases Nat.lt_or_gt_of_ne hne with hlt | hlt
  · exact hp c c' h1 h2 hlt hx hx'
  · exact hp c' c h2 h1 hlt hx' hx

theorem h5Inv (zero : α → α) (file0 : H5File α) (ops : List (H5Op α)) (C : H5Coll α)
    (hp : H5Protocol ops) (h : h5Run zero (h5New file0) ops = .ok C) : H5Inv zero file0 ops C := by
  induction ops using List.reverseRecOn generalizing C with
  | nil =>
    simp only [h5Run, Except.ok.injEq] at h
    subst h
    exact ⟨rfl, rfl, fun _ _ => rfl, by simp [h5New], by simp [h5New], by simp [h5New],
      fun p hp => ⟨rfl, hp⟩, fun p hp => Or.inl hp, by simp [h5Registered]⟩
  | append_singleton ops op ih =>
    obtain ⟨C1, h1, h2⟩ := h5Run_snoc _ _ _ _ _ h
    obtain ⟨p1, p2⟩ := h5Protocol_snoc _ _ hp
    have hi := ih C1 p1 h1
    cases op with
    | register t n =>
      have hreg := h5Registered_snoc ops (.register t n)
      have hsam : ∀ c, h5SavedOf c (ops ++ [.register t n]) = h5SavedOf c ops := by
        intro c; rw [h5SavedOf_snoc]; simp
      simp only [h5Step] at h2
      have hr : ∃ keys file, dictKeys t = .ok keys ∧
          h5CreateAll zero n C1.file (keys.map (h5Name (chainDir C1.names.length))) t.leaves
            = .ok file ∧
          C = ⟨file, C1.names ++ [keys.map (h5Name (chainDir C1.names.length))],
            C1.counts ++ [0]⟩ := by
        cases t with
        | none => simp [h5Register] at h2
        | leaf a =>
          simp only [h5Register] at h2
          cases hk : dictKeys (Tree.leaf a) with
          | error e => simp [hk] at h2
          | ok keys =>
            rw [hk] at h2
            dsimp only at h2
            cases hf : h5CreateAll zero n C1.file (keys.map (h5Name (chainDir C1.names.length)))
                (Tree.leaf a).leaves with
            | error e => simp [hf] at h2
            | ok file =>
              rw [hf] at h2
              simp only [Except.ok.injEq] at h2
              exact ⟨keys, file, rfl, hf, h2.symm⟩
        | node k ts =>
          simp only [h5Register] at h2
          cases hk : dictKeys (Tree.node k ts) with
          | error e => simp [hk] at h2
          | ok keys =>
            rw [hk] at h2
            dsimp only at h2
            cases hf : h5CreateAll zero n C1.file (keys.map (h5Name (chainDir C1.names.length)))
                (Tree.node k ts).leaves with
            | error e => simp [hf] at h2
            | ok file =>
              rw [hf] at h2
              simp only [Except.ok.injEq] at h2
              exact ⟨keys, file, rfl, hf, h2.symm⟩
      obtain ⟨keys, file, hk, hf, rfl⟩ := hr
      have hkl := dictKeys_length t p2 keys hk
      obtain ⟨e1, e2, e3, e4⟩ := h5CreateAll_inv zero n C1.file file _ t.leaves
        (by simpa using hkl) hf
      have hlook : ∀ q ∈ C1.file.map Prod.fst, file.lookup q = C1.file.lookup q := by
        intro q hq
        obtain ⟨r, hr⟩ := lookup_isSome_of_mem C1.file q hq
        rw [e1, lookup_append, hr]
        rfl
      have hmem : ∀ q ∈ C1.file.map Prod.fst, q ∈ file.map Prod.fst := by
        intro q hq
        rw [e1, List.map_append]
        exact List.mem_append.2 (Or.inl hq)
      have hnew : ∀ nm ∈ keys.map (h5Name (chainDir C1.names.length)),
          h5Path nm ∈ file.map Prod.fst := by
        intro nm hnm
        rw [e1, List.map_append, List.map_zipWith]
        refine List.mem_append.2 (Or.inr ?_)
        have : List.zipWith (fun nm (_ : α) => h5Path nm)
            (keys.map (h5Name (chainDir C1.names.length))) t.leaves
            = (keys.map (h5Name (chainDir C1.names.length))).map h5Path := by
          exact zipWith_left h5Path _ _ (by simp [hkl])
        rw [this]
        exact List.mem_map.2 ⟨nm, hnm, rfl⟩
      refine ⟨by simp [hreg, hi.names_len], by simp [hreg, hi.counts_len], ?_, ?_, ?_, ?_, ?_, ?_, ?_⟩
      · intro c hc
        rw [hsam]
        exact hi.fresh c (by simp [hreg] at hc; omega)
      · simp only [List.flatten_append, List.flatten_cons, List.flatten_nil, List.append_nil,
          List.map_append]
        rw [List.nodup_append]
        refine ⟨hi.nodup, e2, ?_⟩
        intro a ha b hb hab
        obtain ⟨nm, hnm, rfl⟩ := List.mem_map.1 ha
        obtain ⟨nm', hnm', rfl⟩ := List.mem_map.1 hb
        exact e3 nm' hnm' (hab ▸ hi.present nm hnm)
      · intro nm hnm
        simp only [List.flatten_append, List.flatten_cons, List.flatten_nil, List.append_nil,
          List.mem_append] at hnm
        rcases hnm with hnm | hnm
        · exact hmem _ (hi.present nm hnm)
        · exact hnew nm hnm
      · intro nm hnm
        simp only [List.flatten_append, List.flatten_cons, List.flatten_nil, List.append_nil,
          List.mem_append] at hnm
        rcases hnm with hnm | hnm
        · exact hi.apart nm hnm
        · intro hm
          exact e3 nm hnm (hi.old _ hm).2
      · intro p hp'
        obtain ⟨o1, o2⟩ := hi.old p hp'
        exact ⟨(hlook p o2).trans o1, hmem p o2⟩
      · intro p hp'
        rw [e1, List.map_append, List.map_zipWith,
          zipWith_left h5Path _ _ (by simp [hkl])] at hp'
        simp only [List.flatten_append, List.flatten_cons, List.flatten_nil, List.append_nil]
        rcases List.mem_append.1 hp' with hp' | hp'
        · rcases hi.only p hp' with h' | ⟨nm, h', rfl⟩
          · exact Or.inl h'
          · exact Or.inr ⟨nm, List.mem_append.2 (Or.inl h'), rfl⟩
        · obtain ⟨nm, h', rfl⟩ := List.mem_map.1 hp'
          exact Or.inr ⟨nm, List.mem_append.2 (Or.inr h'), rfl⟩
      · intro c init m hc
        rw [hreg] at hc
        rw [hsam]
        by_cases hlt : c < (h5Registered ops).length
        · rw [List.getElem?_append_left hlt] at hc
          obtain ⟨keys', g1, g2, g3, g4, g5, g6⟩ := hi.chain c init m hc
          refine ⟨keys', g1, g2, ?_, ?_, g5, ?_⟩
          · show (C1.names ++ _)[c]? = _
            rw [List.getElem?_append_left (by rw [hi.names_len]; exact hlt)]
            exact g3
          · show (C1.counts ++ _)[c]? = _
            rw [List.getElem?_append_left (by rw [hi.counts_len]; exact hlt)]
            exact g4
          · have : bufsOf file (keys'.map (h5Name (chainDir c)))
                = bufsOf C1.file (keys'.map (h5Name (chainDir c))) := by
              apply List.map_congr_left
              intro nm hnm
              rw [hlook]
              exact hi.present nm (List.mem_flatten.2 ⟨_, List.mem_of_getElem? g3, hnm⟩)
            dsimp only
            rw [this]
            exact g6
        · have hceq : c = (h5Registered ops).length := by
            have := (List.getElem?_eq_some_iff.1 hc).1
            simp at this; omega
          rw [hceq] at hc
          simp only [List.getElem?_concat_length, Option.some.injEq, Prod.mk.injEq] at hc
          obtain ⟨rfl, rfl⟩ := hc
          have hsv := hi.fresh c (by omega)
          rw [hsv]
          have hcn : C1.names.length = c := by rw [hi.names_len, hceq]
          have hcc : C1.counts.length = c := by rw [hi.counts_len, hceq]
          rw [hcn] at e1 e2 e3 hnew
          refine ⟨keys, p2, hk, ?_, ?_, ?_, ?_⟩
          · show (C1.names ++ _)[c]? = _
            rw [← hcn]; simp
          · show (C1.counts ++ _)[c]? = _
            rw [← hcc]; simp
          · intro hl
            refine ⟨e4 ?_, by simp⟩
            intro hnil
            have := congrArg List.length hnil
            simp only [List.length_map, hkl, List.length_nil] at this
            exact hl (List.length_eq_zero_iff.1 this)
          · dsimp only
            rw [e1, bufsOf_created zero n.toNat C1.file _ t.leaves (by simpa using hkl) e2 e3]
            exact holdsL_init zero t.leaves n.toNat
    | save c0 v =>
      obtain ⟨init0, n0, hreg0, hv⟩ := p2
      have hreg : h5Registered (ops ++ [.save c0 v]) = h5Registered ops := by
        rw [h5Registered_snoc]; simp
      have hsam0 : h5SavedOf c0 (ops ++ [.save c0 v]) = h5SavedOf c0 ops ++ [v] := by
        rw [h5SavedOf_snoc]; simp
      have hsam : ∀ c, c ≠ c0 → h5SavedOf c (ops ++ [.save c0 v]) = h5SavedOf c ops := by
        intro c hc; rw [h5SavedOf_snoc]; simp [Ne.symm hc]
      have hc0 : c0 < (h5Registered ops).length := (List.getElem?_eq_some_iff.1 hreg0).1
      obtain ⟨keys, g1, g2, g3, g4, g5, g6⟩ := hi.chain c0 init0 n0 hreg0
      have hkl := dictKeys_length init0 g1 keys g2
      have hin : ∀ nm ∈ keys.map (h5Name (chainDir c0)), nm ∈ C1.names.flatten := fun nm hnm =>
        List.mem_flatten.2 ⟨_, List.mem_of_getElem? g3, hnm⟩
      have hnd : ((keys.map (h5Name (chainDir c0))).map h5Path).Nodup := by
        have h := hi.nodup
        rw [List.map_flatten] at h
        exact (List.nodup_flatten.1 h).1 _ (List.mem_map.2 ⟨_, List.mem_of_getElem? g3, rfl⟩)
      have hrows := bufsOf_rows C1.file (keys.map (h5Name (chainDir c0))) n0.toNat
        (fun nm hnm => hi.present nm (hin nm hnm)) g6.rows
      simp only [h5Step, h5Save, g3, g4] at h2
      by_cases hfull : init0.leaves = []
      · -- nothing to store
        have hkn : keys = [] := by
          rw [hfull] at hkl
          exact List.length_eq_zero_iff.1 (by simpa using hkl)
        have hvn : v = [] := List.length_eq_zero_iff.1 (by rw [hv, hfull]; rfl)
        subst hkn hvn
        simp only [List.map_nil, h5PutAll, Except.ok.injEq] at h2
        subst h2
        refine ⟨by rw [hreg]; exact hi.names_len, by simp [hreg, hi.counts_len], ?_, hi.nodup,
          hi.present, hi.apart, hi.old, hi.only, ?_⟩
        · intro c hc
          rw [hreg] at hc
          rw [hsam c (by omega)]
          exact hi.fresh c hc
        · intro c init n hc
          rw [hreg] at hc
          by_cases hcc : c = c0
          · subst hcc
            rw [hreg0] at hc
            simp only [Option.some.injEq, Prod.mk.injEq] at hc
            obtain ⟨rfl, rfl⟩ := hc
            rw [hsam0]
            refine ⟨[], g1, g2, g3, ?_, fun h => absurd hfull h, ?_⟩
            · dsimp only
              rw [List.getElem?_set_self (by rw [hi.counts_len]; exact hc0)]
              simp
            · have hs := holdsL_step zero init0.leaves n0.toNat _ _ [] g6 (by rw [hfull])
              simpa [bufsOf] using hs
          · rw [hsam c hcc]
            obtain ⟨keys', k1, k2, k3, k4, k5, k6⟩ := hi.chain c init n hc
            refine ⟨keys', k1, k2, k3, ?_, k5, k6⟩
            dsimp only
            rw [List.getElem?_set_ne (Ne.symm hcc)]
            exact k4
      · have hkne : keys.map (h5Name (chainDir c0)) ≠ [] := by
          intro hnil
          have := congrArg List.length hnil
          simp only [List.length_map, hkl, List.length_nil] at this
          exact hfull (List.length_eq_zero_iff.1 this)
        by_cases hlt : (h5SavedOf c0 ops).length < n0.toNat
        · obtain ⟨file', w1, w2, w3, w4⟩ := h5PutAll_ok (h5SavedOf c0 ops).length n0.toNat C1.file
            (keys.map (h5Name (chainDir c0))) v (by simp [hkl, hv]) hnd hrows hlt
          rw [w1] at h2
          simp only [Except.ok.injEq] at h2
          subst h2
          refine ⟨by rw [hreg]; exact hi.names_len, by simp [hreg, hi.counts_len], ?_, hi.nodup,
            ?_, hi.apart, ?_, by dsimp only; rw [w2]; exact hi.only, ?_⟩
          · intro c hc
            rw [hreg] at hc
            rw [hsam c (by omega)]
            exact hi.fresh c hc
          · intro nm hnm
            show h5Path nm ∈ file'.map Prod.fst
            rw [w2]
            exact hi.present nm hnm
          · intro p hp'
            obtain ⟨o1, o2⟩ := hi.old p hp'
            refine ⟨?_, by show p ∈ file'.map Prod.fst; rw [w2]; exact o2⟩
            show file'.lookup p = _
            rw [w3 p, o1]
            intro hm
            obtain ⟨nm, hnm, rfl⟩ := List.mem_map.1 hm
            exact hi.apart nm (hin nm hnm) hp'
          · intro c init n hc
            rw [hreg] at hc
            by_cases hcc : c = c0
            · subst hcc
              rw [hreg0] at hc
              simp only [Option.some.injEq, Prod.mk.injEq] at hc
              obtain ⟨rfl, rfl⟩ := hc
              rw [hsam0]
              refine ⟨keys, g1, g2, g3, ?_, ?_, ?_⟩
              · dsimp only
                rw [List.getElem?_set_self (by rw [hi.counts_len]; exact hc0)]
                simp
              · intro hl
                exact ⟨(g5 hl).1, by simp; omega⟩
              · dsimp only
                rw [w4]
                exact holdsL_step zero init0.leaves n0.toNat _ _ v g6 hv
            · rw [hsam c hcc]
              obtain ⟨keys', k1, k2, k3, k4, k5, k6⟩ := hi.chain c init n hc
              refine ⟨keys', k1, k2, k3, ?_, k5, ?_⟩
              · dsimp only
                rw [List.getElem?_set_ne (Ne.symm hcc)]
                exact k4
              · have : bufsOf file' (keys'.map (h5Name (chainDir c)))
                    = bufsOf C1.file (keys'.map (h5Name (chainDir c))) := by
                  apply List.map_congr_left
                  intro nm hnm
                  rw [w3]
                  have h := hi.nodup
                  rw [List.map_flatten] at h
                  have h3 : (C1.names.map (List.map h5Path))[c]?
                      = some ((keys'.map (h5Name (chainDir c))).map h5Path) := by
                    rw [List.getElem?_map, k3]; rfl
                  have h3' : (C1.names.map (List.map h5Path))[c0]?
                      = some ((keys.map (h5Name (chainDir c0))).map h5Path) := by
                    rw [List.getElem?_map, g3]; rfl
                  exact flatten_disjoint _ h c c0 _ _ h3 h3' hcc _ (List.mem_map.2 ⟨nm, hnm, rfl⟩)
                dsimp only
                rw [this]
                exact k6
        · rw [h5PutAll_full (h5SavedOf c0 ops).length n0.toNat C1.file _ v hkne (by simp [hkl, hv])
            hrows (by omega)] at h2
          simp at h2

end JaxSgmc
