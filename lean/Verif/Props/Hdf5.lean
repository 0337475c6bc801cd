import Verif.Lemmas.Hdf5
import Verif.Lemmas.FullData

/-!
# HDF5 files (C49, C50, C77)
-/

namespace JaxSgmc

open Spec

variable {α : Type}

/-! ### Names -/

theorem h5Path_append (a b : Key) : h5Path (a ++ '/' :: b) = h5Path a ++ h5Path b := by
  simp only [h5Path]
  rw [List.splitOn_append_cons_self, List.filter_append]

theorem h5Path_name (s : Key) (p : Path) :
    h5Path (h5Name s p) = h5Path s ++ p.flatMap h5Path := by
  induction p generalizing s with
  | nil => simp [h5Name, joinPath]
  | cons k p ih =>
    have h : h5Name s (k :: p) = s ++ '/' :: h5Name k p := by
      simp [h5Name, joinPath, List.intercalate_cons_cons]
    rw [h, h5Path_append, ih]
    simp

/-- A key which can be a component of an HDF5 name. -/
def CleanKey (k : Key) : Prop := '/' ∉ k ∧ k ≠ [] ∧ k ≠ ['.']

theorem h5Path_clean (k : Key) (h : CleanKey k) : h5Path k = [k] := by
  obtain ⟨h1, h2, h3⟩ := h
  simp [h5Path, List.splitOn_eq_singleton h1, h2, h3]

theorem flatMap_clean (p : Path) (h : ∀ k ∈ p, CleanKey k) : p.flatMap h5Path = p := by
  induction p with
  | nil => rfl
  | cons k p ih =>
    rw [List.flatMap_cons, h5Path_clean k (h k (by simp)), ih (fun k hk => h k (by simp [hk]))]
    rfl

/-- `chain~c`. -/
def chainComp (c : Nat) : Key := ['c','h','a','i','n','~'] ++ Nat.toDigits 10 c

theorem slash_digits (c : Nat) : '/' ∉ Nat.toDigits 10 c := by
  intro h
  have := Nat.isDigit_of_mem_toDigits (by omega) (by omega) h
  simp at this

theorem h5Path_chainDir (c : Nat) : h5Path (chainDir c) = [chainComp c] := by
  have h : chainDir c = [] ++ '/' :: chainComp c := rfl
  rw [h, h5Path_append, h5Path_clean (chainComp c)]
  · simp [h5Path]
  · refine ⟨?_, by simp [chainComp], by simp [chainComp]⟩
    simp [chainComp, slash_digits]

theorem chainComp_injective (c c' : Nat) (h : chainComp c = chainComp c') : c = c' := by
  simp only [chainComp, List.cons_append, List.nil_append, List.cons.injEq, true_and] at h
  have h1 := Nat.ofDigitChars_toDigits (b := 10) (n := c) (by decide) (by decide)
  have h2 := Nat.ofDigitChars_toDigits (b := 10) (n := c') (by decide) (by decide)
  rw [h] at h1
  omega

theorem h5Path_chainName (c : Nat) (p : Path) :
    h5Path (h5Name (chainDir c) p) = chainComp c :: p.flatMap h5Path := by
  rw [h5Path_name, h5Path_chainDir]
  rfl

/-! ### Writing -/

/-- Row `i` of the dataset of leaf `j`. -/
theorem holdsL_cell (zero : α → α) (init : List α) (n : Nat) (kept bufs : List (List α))
    (h : HoldsL zero init n kept bufs) (j : Nat) (a : α) (ha : init[j]? = some a) (b : List α)
    (hb : bufs[j]? = some b) (i : Nat) (hi : i < n) : b[i]? = cell zero kept a i j := by
  have hr := congrArg (fun l => l[j]?) (h.row i hi)
  simp only [rowsOf, List.getElem?_map, hb, Option.map_some] at hr
  unfold cell
  cases hk : kept[i]? with
  | none =>
    simp only [hk, List.getElem?_map, ha, Option.map_some, Option.some.injEq] at hr
    exact hr
  | some s =>
    simp only [hk, List.getElem?_map] at hr
    cases hs : s[j]? with
    | none => simp [hs] at hr
    | some v => simpa [hs] using hr

/-- **C49.** After any sequence of successful calls (any number of chains, interleaved in any way),
the dataset of the `j`-th leaf of chain `c` has the announced number of rows, and row `i` is the `j`-th
leaf of the `i`-th sample saved for this chain (zero, if there is no such sample yet). -/
theorem c49_rows (zero : α → α) (file0 : H5File α) (ops : List (H5Op α)) (C : H5Coll α)
    (hp : H5Protocol ops) (h : h5Run zero (h5New file0) ops = .ok C)
    (c : Nat) (init : Tree α) (n : Int) (hreg : (h5Registered ops)[c]? = some (init, n)) :
    ∃ keys, dictKeys init = .ok keys ∧ keys.length = init.leaves.length ∧
      ∀ j key a, keys[j]? = some key → init.leaves[j]? = some a →
        (h5SavedOf c ops).length ≤ n.toNat ∧
        ∃ rows, h5Get C.file (h5Name (chainDir c) key) = .ok rows ∧ rows.length = n.toNat ∧
          ∀ i < n.toNat, rows[i]? = cell zero (h5SavedOf c ops) a i j := by
  have hi := h5Inv zero file0 ops C hp h
  obtain ⟨keys, g1, g2, g3, g4, g5, g6⟩ := hi.chain c init n hreg
  refine ⟨keys, g2, dictKeys_length init g1 keys g2, ?_⟩
  intro j key a hj ha
  have hmem : h5Name (chainDir c) key ∈ C.names.flatten :=
    List.mem_flatten.2 ⟨_, List.mem_of_getElem? g3, List.mem_map.2 ⟨key, List.mem_of_getElem? hj, rfl⟩⟩
  obtain ⟨rows, hrows⟩ := lookup_isSome_of_mem C.file _ (hi.present _ hmem)
  have hbuf : (bufsOf C.file (keys.map (h5Name (chainDir c))))[j]? = some rows := by
    simp [bufsOf, hj, hrows]
  have hne : init.leaves ≠ [] := by
    rintro e
    rw [e] at ha
    simp at ha
  refine ⟨(g5 hne).2, rows, by simp [h5Get, hrows], g6.rows rows (List.mem_of_getElem? hbuf), ?_⟩
  intro i hin
  exact holdsL_cell zero init.leaves n.toNat _ _ g6 j a ha rows hbuf i hin

/-- Datasets which were in the file before are not touched. -/
theorem c49_untouched (zero : α → α) (file0 : H5File α) (ops : List (H5Op α)) (C : H5Coll α)
    (hp : H5Protocol ops) (h : h5Run zero (h5New file0) ops = .ok C) (p : Path)
    (hpm : p ∈ file0.map Prod.fst) : C.file.lookup p = file0.lookup p :=
  ((h5Inv zero file0 ops C hp h).old p hpm).1

/-- Saving succeeds iff less samples than announced have been saved; otherwise it raises an
`IndexError`. -/
theorem c49_overflow (zero : α → α) (file0 : H5File α) (ops : List (H5Op α)) (C : H5Coll α)
    (hp : H5Protocol ops) (h : h5Run zero (h5New file0) ops = .ok C)
    (c : Nat) (init : Tree α) (n : Int) (hreg : (h5Registered ops)[c]? = some (init, n))
    (hne : init.leaves ≠ []) (v : List α) (hv : v.length = init.leaves.length) :
    ((h5SavedOf c ops).length < n.toNat → ∃ C', h5Save C c v = .ok C') ∧
    (n.toNat ≤ (h5SavedOf c ops).length → h5Save C c v = .error .indexError) := by
  have hi := h5Inv zero file0 ops C hp h
  obtain ⟨keys, g1, g2, g3, g4, g5, g6⟩ := hi.chain c init n hreg
  have hkl := dictKeys_length init g1 keys g2
  have hin : ∀ nm ∈ keys.map (h5Name (chainDir c)), nm ∈ C.names.flatten := fun nm hnm =>
    List.mem_flatten.2 ⟨_, List.mem_of_getElem? g3, hnm⟩
  have hnd : ((keys.map (h5Name (chainDir c))).map h5Path).Nodup := by
    have h := hi.nodup
    rw [List.map_flatten] at h
    exact (List.nodup_flatten.1 h).1 _ (List.mem_map.2 ⟨_, List.mem_of_getElem? g3, rfl⟩)
  have hrows := bufsOf_rows C.file (keys.map (h5Name (chainDir c))) n.toNat
    (fun nm hnm => hi.present nm (hin nm hnm)) g6.rows
  have hkne : keys.map (h5Name (chainDir c)) ≠ [] := by
    intro hnil
    have := congrArg List.length hnil
    simp only [List.length_map, hkl, List.length_nil] at this
    exact hne (List.length_eq_zero_iff.1 this)
  constructor
  · intro hlt
    obtain ⟨file', w1, -⟩ := h5PutAll_ok (h5SavedOf c ops).length n.toNat C.file
      (keys.map (h5Name (chainDir c))) v (by simp [hkl, hv]) hnd hrows hlt
    exact ⟨_, by simp only [h5Save, g3, g4, w1]; rfl⟩
  · intro hge
    have := h5PutAll_full (h5SavedOf c ops).length n.toNat C.file _ v hkne (by simp [hkl, hv])
      hrows hge
    simp only [h5Save, g3, g4, this]

theorem h5CreateAll_ok (zero : α → α) (n : Int) (hn : 0 ≤ n) (file : H5File α) (names : List Key)
    (as : List α) (hne : ∀ nm ∈ names, h5Path nm ≠ [])
    (hpw : (names.map h5Path).Pairwise (fun p q => ¬ p <+: q ∧ ¬ q <+: p))
    (hf : ∀ p ∈ file.map Prod.fst, ∀ nm ∈ names, ¬ p <+: h5Path nm ∧ ¬ h5Path nm <+: p) :
    ∃ file', h5CreateAll zero n file names as = .ok file' := by
  induction names generalizing file as with
  | nil => exact ⟨file, by simp [h5CreateAll]⟩
  | cons nm names ih =>
    cases as with
    | nil => exact ⟨file, by simp [h5CreateAll]⟩
    | cons a as =>
      rw [List.map_cons, List.pairwise_cons] at hpw
      have hany : file.any (fun d => h5Conflict d.1 (h5Path nm)) = false := by
        rw [List.any_eq_false]
        intro d hd
        have := hf d.1 (List.mem_map.2 ⟨d, hd, rfl⟩) nm (by simp)
        simp only [h5Conflict, Bool.or_eq_true, List.isPrefixOf_iff_prefix, not_or]
        exact this
      have hc : h5Create file (h5Path nm) n (zero a)
          = .ok (file ++ [(h5Path nm, List.replicate n.toNat (zero a))]) := by
        unfold h5Create
        rw [if_neg]
        push Not
        exact ⟨hn, hne nm (by simp), by simp [hany]⟩
      obtain ⟨file', h'⟩ := ih (file ++ [(h5Path nm, List.replicate n.toNat (zero a))]) as
        (fun nm' h' => hne nm' (by simp [h'])) hpw.2 (by
          intro p hp nm' h'
          simp only [List.map_append, List.map_cons, List.map_nil, List.mem_append,
            List.mem_singleton] at hp
          rcases hp with hp | rfl
          · exact hf p hp nm' (by simp [h'])
          · exact hpw.1 _ (List.mem_map.2 ⟨nm', h', rfl⟩))
      exact ⟨file', by simp only [h5CreateAll, hc, h']⟩

/-- Registration of a further chain succeeds for every number of chains already registered (with
whatever names), if the sample can be translated to a dict, its keys can be used as names and the file
had nothing below `/chain~c` before. -/
theorem c49_register (zero : α → α) (file0 : H5File α) (ops : List (H5Op α)) (C : H5Coll α)
    (hp : H5Protocol ops) (h : h5Run zero (h5New file0) ops = .ok C)
    (t : Tree α) (hw : WF t) (hnn : t ≠ .none) (hseq : hasEmptySeq t = false)
    (hclean : ∀ x ∈ namedLeaves t, ∀ k ∈ x.1, CleanKey k) (n : Int) (hn : 0 ≤ n)
    (hfile : ∀ p ∈ file0.map Prod.fst, p ≠ [] ∧
      p.head? ≠ some (chainComp (h5Registered ops).length)) :
    ∃ C', h5Register zero C t n = .ok (C', (h5Registered ops).length) := by
  have hi := h5Inv zero file0 ops C hp h
  obtain ⟨keys, hk⟩ := (dictKeys_ok_iff t hw).2 hseq
  have hcl : ∀ key ∈ keys, key.flatMap h5Path = key := by
    intro key hm
    rw [paths_eq _ _ hk] at hm
    obtain ⟨x, hx, rfl⟩ := List.mem_map.1 hm
    exact flatMap_clean _ (hclean x ((namedLeaves_toDict_perm t hw).mem_iff.1 hx))
  obtain ⟨file', hf⟩ := h5CreateAll_ok zero n hn C.file
    (keys.map (h5Name (chainDir C.names.length))) t.leaves (by
      intro nm hm
      obtain ⟨key, -, rfl⟩ := List.mem_map.1 hm
      rw [h5Path_chainName]
      simp) (by
      have hpw := Spec.namedLeaves_pairwise (toDict t) (toDict_wf t hw)
      rw [paths_eq _ _ hk, List.map_map, List.map_map, List.pairwise_map]
      refine List.Pairwise.imp_of_mem ?_ hpw
      intro x y hx hy hxy
      have hkx : x.1 ∈ keys := by rw [paths_eq _ _ hk]; exact List.mem_map.2 ⟨x, hx, rfl⟩
      have hky : y.1 ∈ keys := by rw [paths_eq _ _ hk]; exact List.mem_map.2 ⟨y, hy, rfl⟩
      simp only [Function.comp_apply, h5Path_chainName, hcl _ hkx, hcl _ hky,
        List.cons_prefix_cons, true_and]
      exact hxy) (by
      intro p hpm nm hm
      obtain ⟨key, -, rfl⟩ := List.mem_map.1 hm
      rw [h5Path_chainName]
      have hhead : p ≠ [] ∧ p.head? ≠ some (chainComp C.names.length) := by
        rw [hi.names_len]
        rcases hi.only p hpm with hpm | ⟨nm', hnm', rfl⟩
        · exact hfile p hpm
        · obtain ⟨l, hl, hnl⟩ := List.mem_flatten.1 hnm'
          obtain ⟨c', hc'⟩ := List.mem_iff_getElem?.1 hl
          have hlt : c' < (h5Registered ops).length := by
            rw [← hi.names_len]
            exact (List.getElem?_eq_some_iff.1 hc').1
          obtain ⟨⟨init, m⟩, hr⟩ : ∃ r, (h5Registered ops)[c']? = some r :=
            ⟨_, List.getElem?_eq_getElem hlt⟩
          obtain ⟨keys', -, -, g3, -⟩ := hi.chain c' init m hr
          rw [g3] at hc'
          simp only [Option.some.injEq] at hc'
          subst hc'
          obtain ⟨key', -, rfl⟩ := List.mem_map.1 hnl
          rw [h5Path_chainName]
          refine ⟨by simp, ?_⟩
          simp only [List.head?_cons, ne_eq, Option.some.injEq]
          intro e
          have := chainComp_injective _ _ e
          omega
      cases p with
      | nil => exact absurd rfl hhead.1
      | cons x p =>
        simp only [List.head?_cons, ne_eq, Option.some.injEq] at hhead
        simp only [List.cons_prefix_cons, not_and]
        exact ⟨fun e => absurd e hhead.2, fun e => absurd e.symm hhead.2⟩)
  rw [← hi.names_len]
  cases t with
  | none => exact absurd rfl hnn
  | leaf a => exact ⟨_, by simp only [h5Register, hk, hf]; rfl⟩
  | node k ts => exact ⟨_, by simp only [h5Register, hk, hf]; rfl⟩

/-! ### Reading -/

theorem npTake_error (xs : List α) (idx : List Nat) (h : ¬ ∀ i ∈ idx, i < xs.length) :
    npTake xs idx = .error .indexError := by
  induction idx with
  | nil => exact absurd (by simp) h
  | cons i is ih =>
    simp only [npTake, npIndex]
    by_cases hi : i < xs.length
    · rw [List.getElem?_eq_getElem hi]
      dsimp only
      rw [ih]
      intro hall
      apply h
      intro k hk
      rcases List.mem_cons.1 hk with rfl | hk
      · exact hi
      · exact hall k hk
    · rw [List.getElem?_eq_none (by omega)]

theorem npUnique_mem (idx : List Nat) (i : Nat) : i ∈ npUnique idx ↔ i ∈ idx := by
  simp [npUnique, List.mem_insertionSort]

theorem npUnique_sorted (idx : List Nat) : (npUnique idx).Pairwise (· < ·) := by
  have h1 : (npUnique idx).Pairwise (· ≤ ·) := List.pairwise_insertionSort _ _
  have h2 : (npUnique idx).Nodup := (List.perm_insertionSort _ _).nodup_iff.2 idx.nodup_dedup
  exact (List.pairwise_and_iff.2 ⟨h1, h2⟩).imp (fun h => lt_of_le_of_ne h.1 h.2)

theorem mapExcept_npTake (xs : List α) (idx : List Nat) (f : Nat → Nat)
    (ys : List α) (h : ∀ i ∈ idx, ∃ x, xs[i]? = some x ∧ ys[f i]? = some x) :
    mapExcept (jnpIndex ys) (idx.map f) = npTake xs idx := by
  induction idx with
  | nil => rfl
  | cons i is ih =>
    obtain ⟨x, h1, h2⟩ := h i (by simp)
    have hlt := (List.getElem?_eq_some_iff.1 h2).1
    have hj : jnpIndex ys (f i) = .ok x := by
      have : min (f i) (ys.length - 1) = f i := by omega
      simp [jnpIndex, this, npIndex, h2]
    simp only [List.map_cons, mapExcept, npTake, hj, npIndex, h1,
      ih (fun k hk => h k (by simp [hk]))]
    cases npTake xs is <;> rfl

/-- Reading the sorted distinct rows and distributing them is the same as fancy indexing, for every
list of indices: unsorted, with repetitions, out of range. -/
theorem h5TakeBatch_eq (rows : List α) (idx : List Nat) : h5TakeBatch rows idx = npTake rows idx := by
  unfold h5TakeBatch h5Fancy
  rw [if_pos (npUnique_sorted idx)]
  by_cases h : ∀ i ∈ idx, i < rows.length
  · rw [npTake_filterMap rows _ (fun i hi => h i ((npUnique_mem idx i).1 hi))]
    dsimp only
    have hspec := npTake_spec rows (npUnique idx) _
      (npTake_filterMap rows _ (fun i hi => h i ((npUnique_mem idx i).1 hi)))
    refine mapExcept_npTake rows idx _ _ ?_
    intro i hi
    have hm : i ∈ npUnique idx := (npUnique_mem idx i).2 hi
    have hlt := List.idxOf_lt_length_of_mem hm
    have he := congrArg (fun l => l[(npUnique idx).idxOf i]?) hspec
    simp only [List.getElem?_map, List.getElem?_eq_getElem hlt, Option.map_some,
      List.getElem_idxOf hlt] at he
    rw [List.getElem?_eq_getElem (h i hi)] at he
    refine ⟨rows[i]'(h i hi), List.getElem?_eq_getElem _, ?_⟩
    cases hx : ((npUnique idx).filterMap (fun i => rows[i]?))[(npUnique idx).idxOf i]? with
    | none => rw [hx] at he; simp at he
    | some x =>
      rw [hx] at he
      simp only [Option.map_some, Option.some.injEq] at he
      rw [he]
  · rw [npTake_error rows idx h, npTake_error rows (npUnique idx)]
    intro hall
    exact h (fun i hi => hall i ((npUnique_mem idx i).2 hi))

theorem mapExcept_ok {β γ : Type} (f : β → Except PyErr γ) (g : β → γ) (xs : List β)
    (h : ∀ x ∈ xs, f x = .ok (g x)) : mapExcept f xs = .ok (xs.map g) := mapExcept_eq xs h

/-- The selection of the rows of a dataset. -/
def pick (rows : List α) (sel : List (List Nat)) : List (List α) :=
  sel.map (fun idx => idx.filterMap (fun i => rows[i]?))

theorem h5_read {σ β : Type} (file : H5File α) (subdir : Key) (sample : Tree β)
    (keys : List Path) (hk : dictKeys sample = .ok keys)
    (hkl : keys.length = sample.leaves.length) (hne : sample.leaves ≠ []) (m : Nat)
    (hd : ∀ key ∈ keys, ∃ rows, h5Get file (h5Name subdir key) = .ok rows ∧ rows.length = m) :
    ∃ (L : H5Loader σ α) (datas : List (List α)),
      h5Open file subdir sample = .ok L ∧ L.obsCount = m ∧ L.chains = [] ∧
      datas.map Except.ok = keys.map (fun key => h5Get file (h5Name subdir key)) ∧
      (∀ d ∈ datas, d.length = m) ∧
      ∀ sel, (∀ b ∈ sel, ∀ i ∈ b, i < m) →
        ∃ obs, h5Slice L sel = .ok obs ∧ obs.shape = sample.shape ∧
          obs.leaves = datas.map (fun d => pick d sel) := by
  let g : Key → List α := fun nm => (file.lookup (h5Path nm)).getD []
  have hg : ∀ nm ∈ keys.map (h5Name subdir), h5Get file nm = .ok (g nm) ∧ (g nm).length = m := by
    intro nm hm
    obtain ⟨key, hkm, rfl⟩ := List.mem_map.1 hm
    obtain ⟨rows, h1, h2⟩ := hd key hkm
    unfold h5Get at h1 ⊢
    cases hl : file.lookup (h5Path (h5Name subdir key)) with
    | none => simp [hl] at h1
    | some r =>
      simp only [hl, Except.ok.injEq] at h1
      subst h1
      exact ⟨by simp [g, hl], by simpa [g, hl] using h2⟩
  have hopen := mapExcept_ok (h5Get file) g (keys.map (h5Name subdir)) (fun nm h => (hg nm h).1)
  have hkne : keys ≠ [] := by
    rintro rfl
    exact hne (List.length_eq_zero_iff.1 (by simpa using hkl.symm))
  refine ⟨⟨file, keys.map (h5Name subdir), sample.shape, m, []⟩,
    (keys.map (h5Name subdir)).map g, ?_, rfl, rfl, ?_, ?_, ?_⟩
  · simp only [h5Open, hk, hopen]
    cases keys with
    | nil => exact absurd rfl hkne
    | cons key keys =>
      simp only [List.map_cons]
      rw [(hg _ (by simp)).2]
  · rw [List.map_map, List.map_map]
    apply List.map_congr_left
    intro key hkm
    exact (hg _ (List.mem_map.2 ⟨key, hkm, rfl⟩)).1.symm
  · intro d hdm
    obtain ⟨nm, hm, rfl⟩ := List.mem_map.1 hdm
    exact (hg nm hm).2
  · intro sel hsel
    have hleaf : ∀ nm ∈ keys.map (h5Name subdir), h5TakeLeaf file sel nm = .ok (pick (g nm) sel) := by
      intro nm hm
      obtain ⟨h1, h2⟩ := hg nm hm
      simp only [h5TakeLeaf, h1]
      apply mapExcept_ok
      intro b hb
      rw [h5TakeBatch_eq]
      exact npTake_filterMap _ _ (by rw [h2]; exact hsel b hb)
    have hsl := mapExcept_ok (h5TakeLeaf file sel) (fun nm => pick (g nm) sel) _ hleaf
    simp only [h5Slice, hsl]
    obtain ⟨obs, h1, h2, h3⟩ := Tree.unflatten_ok sample.shape
      ((keys.map (h5Name subdir)).map (fun nm => pick (g nm) sel))
      (by simp [hkl, Tree.leaves_length_shape])
    refine ⟨obs, h1, ?_, ?_⟩
    · rw [h3]
      exact Tree.shape_map _ sample
    · rw [h2, List.map_map (g := fun d => pick d sel)]
      rfl

theorem mkDict_map {β : Type} (f : α → β) (items : List (Key × Tree α)) :
    (mkDict items).map f = mkDict (items.map (fun x => (x.1, x.2.map f))) := by
  have h := List.map_insertionSort (r := fun a b : Key × Tree α => a.1 ≤ b.1)
    (s := fun a b : Key × Tree β => a.1 ≤ b.1) (fun x => (x.1, x.2.map f)) items
    (fun a _ b _ => Iff.rfl)
  simp only [mkDict, Tree.map, Tree.mapL_eq]
  rw [← h]
  simp [Function.comp_def]

theorem toDict_map {β : Type} (f : α → β) (t : Tree α) : toDict (t.map f) = (toDict t).map f := by
  induction t using Tree.ind with
  | hleaf a => simp [toDict, Tree.map]
  | hnone => simp [toDict, Tree.map]
  | hnode k ts ih =>
    by_cases h0 : ts = []
    · subst h0; simp [toDict, Tree.map, Tree.mapL]
    rw [Tree.map, toDict_node k ts h0, Tree.mapL_eq, toDict_node k _ (by simpa using h0)]
    have hl : Tree.leavesL (ts.map (Tree.map f)) = [] ↔ Tree.leavesL ts = [] := by
      have := Tree.leaves_map f (.node k ts)
      simp only [Tree.map, Tree.leaves, Tree.mapL_eq] at this
      rw [this]
      simp
    by_cases hn : Tree.leavesL ts = []
    · rw [if_pos hn, if_pos (hl.2 hn)]
      simp [Tree.map, Tree.mapL]
    · rw [if_neg hn, if_neg (fun h => hn (hl.1 h)), mkDict_map]
      congr 1
      have he : (ts.map (Tree.map f)).map toDict = (ts.map toDict).map (Tree.map f) := by
        rw [List.map_map, List.map_map]
        exact List.map_congr_left (fun t ht => ih t ht)
      rw [List.length_map, he, List.zip_map_right]
      rfl

theorem paths_map {β : Type} (f : α → β) (t : Tree α) : paths (t.map f) = paths t := by
  induction t using Tree.ind with
  | hleaf a => simp [paths, Tree.map]
  | hnone => simp [paths, Tree.map]
  | hnode k ts ih =>
    cases k with
    | list => simp [paths, Tree.map]
    | tuple => simp [paths, Tree.map]
    | ntuple n fs => simp [paths, Tree.map]
    | dict ks =>
      simp only [paths, Tree.map]
      induction ts generalizing ks with
      | nil => cases ks <;> simp [pathsL, Tree.mapL]
      | cons t ts iht =>
        cases ks with
        | nil => simp [pathsL]
        | cons k ks =>
          simp only [pathsL, Tree.mapL, ih t (by simp), iht (fun t ht => ih t (by simp [ht])) ks]

theorem dictKeys_shape {β : Type} (t : Tree α) (u : Tree β) (h : t.shape = u.shape) :
    dictKeys t = dictKeys u := by
  have h1 : dictKeys t.shape = dictKeys t := by
    unfold dictKeys Tree.shape
    rw [toDict_map, paths_map]
  have h2 : dictKeys u.shape = dictKeys u := by
    unfold dictKeys Tree.shape
    rw [toDict_map, paths_map]
  rw [← h1, ← h2, h]

/-- **C50.** A chain written by the collector can be opened by the loader with any sample of the same
structure; the loader has as many observations as samples were announced, and for any selection of
batches of indices (in any order, with repetitions) the `j`-th leaf of entry `[b][k]` is the `j`-th
leaf of the saved sample with index `sel[b][k]`. -/
theorem c50_round_trip {σ β : Type} (zero : α → α) (file0 : H5File α) (ops : List (H5Op α))
    (C : H5Coll α) (hp : H5Protocol ops) (h : h5Run zero (h5New file0) ops = .ok C)
    (c : Nat) (init : Tree α) (n : Int) (hreg : (h5Registered ops)[c]? = some (init, n))
    (hne : init.leaves ≠ []) (sample : Tree β) (hs : sample.shape = init.shape) :
    ∃ L : H5Loader σ α, h5Open C.file (chainDir c) sample = .ok L ∧ L.obsCount = n.toNat ∧
      ∀ sel, (∀ b ∈ sel, ∀ i ∈ b, i < n.toNat) →
        ∃ obs, h5Slice L sel = .ok obs ∧ obs.shape = init.shape ∧
          ∀ j a, init.leaves[j]? = some a → ∃ leaf, obs.leaves[j]? = some leaf ∧
            leaf.map (List.map some)
              = sel.map (fun idx => idx.map (fun i => cell zero (h5SavedOf c ops) a i j)) := by
  obtain ⟨keys, hk, hkl, hcell⟩ := c49_rows zero file0 ops C hp h c init n hreg
  have hks : dictKeys sample = .ok keys := by rw [dictKeys_shape sample init hs, hk]
  have hls : sample.leaves.length = init.leaves.length := by
    rw [← Tree.leaves_length_shape sample, hs, Tree.leaves_length_shape]
  obtain ⟨L, datas, o1, o2, -, o3, o4, o5⟩ := h5_read (σ := σ) C.file (chainDir c) sample keys hks
    (by rw [hkl, hls]) (by intro e; rw [e] at hls; exact hne (List.length_eq_zero_iff.1 hls.symm))
    n.toNat (by
      intro key hm
      obtain ⟨j, hj⟩ := List.mem_iff_getElem?.1 hm
      have hlt : j < init.leaves.length := by rw [← hkl]; exact (List.getElem?_eq_some_iff.1 hj).1
      obtain ⟨-, rows, r1, r2, -⟩ := hcell j key _ hj (List.getElem?_eq_getElem hlt)
      exact ⟨rows, r1, r2⟩)
  refine ⟨L, o1, o2, ?_⟩
  intro sel hsel
  obtain ⟨obs, s1, s2, s3⟩ := o5 sel hsel
  refine ⟨obs, s1, s2.trans hs, ?_⟩
  intro j a ha
  have hlt : j < keys.length := by rw [hkl]; exact (List.getElem?_eq_some_iff.1 ha).1
  obtain ⟨-, rows, r1, r2, r3⟩ := hcell j _ a (List.getElem?_eq_getElem hlt) ha
  have hdj : datas[j]? = some rows := by
    have := congrArg (fun l => l[j]?) o3
    simp only [List.getElem?_map, List.getElem?_eq_getElem hlt, Option.map_some, r1] at this
    cases hd : datas[j]? with
    | none => simp [hd] at this
    | some d => simpa [hd] using this
  refine ⟨pick rows sel, by rw [s3]; simp [hdj], ?_⟩
  unfold pick
  rw [List.map_map]
  apply List.map_congr_left
  intro idx hidx
  have hin : ∀ i ∈ idx, i < rows.length := by rw [r2]; exact hsel idx hidx
  have := npTake_spec _ _ _ (npTake_filterMap rows idx hin)
  simp only [Function.comp_apply]
  rw [this]
  apply List.map_congr_left
  intro i hi
  exact r3 i (hsel idx hidx i hi)

/-! ### Reading a part of the samples -/

/-- The names of the leaves of a dict, child by child. -/
theorem dictKeys_dict (ks : List Key) (ts : List (Tree α)) (hw : WF (.node (.dict ks) ts))
    (keys : List Path) (hk : dictKeys (.node (.dict ks) ts) = .ok keys)
    (hl : (Tree.node (.dict ks) ts).leaves ≠ []) (m : Nat) (k : Key) (u : Tree α)
    (hm : ks[m]? = some k) (hu : ts[m]? = some u) :
    ∃ sub, dictKeys u = .ok sub ∧ sub.length = u.leaves.length ∧
      ∀ j, j < sub.length →
        keys[((ts.take m).flatMap Tree.leaves).length + j]? = (sub[j]?).map (k :: ·) := by
  have h0 : ts ≠ [] := by rintro rfl; simp at hu
  have hlv : Tree.leavesL ts ≠ [] := by simpa [Tree.leaves] using hl
  have hwt : ∀ t ∈ ts, WF t := (WFL_iff ts).1 hw.2
  obtain ⟨hlen, hsort⟩ : ks.length = ts.length ∧ ks.Pairwise (· < ·) := hw.1
  have hkeys : pathsL ks (ts.map toDict) = .ok keys := by
    unfold dictKeys at hk
    rw [toDict_node _ ts h0, if_neg hlv, mkDict_sorted] at hk
    · simp only [childNames, paths] at hk
      rw [List.map_fst_zip (by simp [hlen]), List.map_snd_zip (by simp [hlen])] at hk
      exact hk
    · simp only [childNames]
      have : (((ks.zip (ts.map toDict)).map Prod.fst)).Pairwise (· ≤ ·) := by
        rw [List.map_fst_zip (by simp [hlen])]
        exact hsort.imp le_of_lt
      rw [List.pairwise_map] at this
      exact this
  clear hk hsort hl hlv h0 hw
  induction ts generalizing ks m keys with
  | nil => simp at hu
  | cons t ts ih =>
    cases ks with
    | nil => simp at hm
    | cons k0 ks =>
      simp only [List.map_cons, pathsL] at hkeys
      cases hp : paths (toDict t) with
      | error e => simp [hp] at hkeys
      | ok ps =>
        cases hq : pathsL ks (ts.map toDict) with
        | error e => simp [hp, hq] at hkeys
        | ok qs =>
          simp only [hp, hq, Except.ok.injEq] at hkeys
          subst hkeys
          have hpl := dictKeys_length t (hwt t (by simp)) ps hp
          cases m with
          | zero =>
            simp only [List.getElem?_cons_zero, Option.some.injEq] at hm hu
            subst hm hu
            refine ⟨ps, hp, hpl, ?_⟩
            intro j hj
            simp [List.getElem?_append_left, hj]
          | succ m =>
            simp only [List.getElem?_cons_succ] at hm hu
            obtain ⟨sub, g1, g2, g3⟩ := ih ks qs m hm hu (fun t ht => hwt t (by simp [ht]))
              (by simpa using hlen) hq
            refine ⟨sub, g1, g2, ?_⟩
            intro j hj
            rw [← g3 j hj]
            simp only [List.take_succ_cons, List.flatMap_cons, List.length_append]
            rw [List.getElem?_append_right (by simp [hpl]; omega)]
            congr 1
            simp [hpl]
            omega

/-- The leaves of a child. -/
theorem leaves_child (k : Kind) (ts : List (Tree α)) (m : Nat) (u : Tree α) (hu : ts[m]? = some u)
    (j : Nat) (hj : j < u.leaves.length) :
    (Tree.node k ts).leaves[((ts.take m).flatMap Tree.leaves).length + j]? = u.leaves[j]? := by
  simp only [Tree.leaves, Tree.leavesL_eq]
  have hm := (List.getElem?_eq_some_iff.1 hu).1
  have hsplit : ts.flatMap Tree.leaves
      = (ts.take m).flatMap Tree.leaves ++ (ts.drop m).flatMap Tree.leaves := by
    rw [← List.flatMap_append, List.take_append_drop]
  rw [hsplit, List.getElem?_append_right (by omega)]
  have hd : ts.drop m = u :: ts.drop (m + 1) := by
    obtain ⟨h1, rfl⟩ := List.getElem?_eq_some_iff.1 hu
    exact List.drop_eq_getElem_cons h1
  rw [hd, List.flatMap_cons, Nat.add_sub_cancel_left, List.getElem?_append_left hj]

/-- **C50** (part of a sample).  If the samples are dicts, the loader opened on the sub-directory
`/chain~c/k/` (the default is `/chain~0/variables/`) with a sample of the structure of the entry `k`
delivers, for any selection, the entries `k` of the saved samples. -/
theorem c50_subdir {σ β : Type} (zero : α → α) (file0 : H5File α) (ops : List (H5Op α))
    (C : H5Coll α) (hp : H5Protocol ops) (h : h5Run zero (h5New file0) ops = .ok C)
    (c : Nat) (ks : List Key) (ts : List (Tree α)) (n : Int)
    (hreg : (h5Registered ops)[c]? = some (.node (.dict ks) ts, n))
    (samples : List (List (Tree α)))
    (hsaved : h5SavedOf c ops = samples.map (fun ss => (Tree.node (.dict ks) ss).leaves))
    (hshape : ∀ ss ∈ samples, ss.map Tree.shape = ts.map Tree.shape)
    (m : Nat) (k : Key) (u : Tree α) (hk : ks[m]? = some k) (hu : ts[m]? = some u)
    (hne : u.leaves ≠ []) (sample : Tree β) (hs : sample.shape = u.shape) :
    ∃ L : H5Loader σ α, h5Open C.file (chainDir c ++ '/' :: k ++ ['/']) sample = .ok L ∧
      L.obsCount = n.toNat ∧
      ∀ sel, (∀ b ∈ sel, ∀ i ∈ b, i < samples.length) →
        ∃ obs, h5Slice L sel = .ok obs ∧ obs.shape = u.shape ∧
          ∀ j < u.leaves.length, ∃ leaf, obs.leaves[j]? = some leaf ∧
            leaf.map (List.map some)
              = sel.map (fun idx => idx.map (fun i =>
                  (samples[i]?).bind (fun ss => (ss[m]?).bind (fun v => v.leaves[j]?)))) := by
  obtain ⟨keys, hkeys, hkl, hcell⟩ := c49_rows zero file0 ops C hp h c _ n hreg
  have hi := h5Inv zero file0 ops C hp h
  have hwf : WF (Tree.node (.dict ks) ts) := by
    obtain ⟨_, g1, _⟩ := hi.chain c _ n hreg
    exact g1
  have hlne : (Tree.node (.dict ks) ts).leaves ≠ [] := by
    intro e
    obtain ⟨a, ha⟩ := List.exists_mem_of_ne_nil _ hne
    have : a ∈ (Tree.node (.dict ks) ts).leaves := by
      simp only [Tree.leaves, Tree.leavesL_eq, List.mem_flatMap]
      exact ⟨u, List.mem_of_getElem? hu, ha⟩
    rw [e] at this
    simp at this
  obtain ⟨sub, hsub, hsl, hidx⟩ := dictKeys_dict ks ts hwf keys hkeys hlne m k u hk hu
  have hks : dictKeys sample = .ok sub := by rw [dictKeys_shape sample u hs, hsub]
  have hls : sample.leaves.length = u.leaves.length := by
    rw [← Tree.leaves_length_shape sample, hs, Tree.leaves_length_shape]
  -- the same names
  have hname : ∀ key : Path, h5Get C.file (h5Name (chainDir c ++ '/' :: k ++ ['/']) key)
      = h5Get C.file (h5Name (chainDir c) (k :: key)) := by
    intro key
    have hpe : h5Path (h5Name (chainDir c ++ '/' :: k ++ ['/']) key)
        = h5Path (h5Name (chainDir c) (k :: key)) := by
      rw [h5Path_name, h5Path_name, h5Path_append, h5Path_append]
      simp [h5Path]
    simp only [h5Get, hpe]
  have hrow : ∀ j < u.leaves.length, ∃ key a, sub[j]? = some key ∧ u.leaves[j]? = some a ∧
      ∃ rows, h5Get C.file (h5Name (chainDir c ++ '/' :: k ++ ['/']) key) = .ok rows ∧
        rows.length = n.toNat ∧ (h5SavedOf c ops).length ≤ n.toNat ∧
        ∀ i < n.toNat, rows[i]?
          = cell zero (h5SavedOf c ops) a i (((ts.take m).flatMap Tree.leaves).length + j) := by
    intro j hj
    have hj' : j < sub.length := by omega
    have h1 := hidx j hj'
    rw [List.getElem?_eq_getElem hj', Option.map_some] at h1
    have h2 := leaves_child (.dict ks) ts m u hu j hj
    rw [List.getElem?_eq_getElem hj] at h2
    obtain ⟨r0, rows, r1, r2, r3⟩ := hcell _ _ _ h1 h2
    exact ⟨_, _, List.getElem?_eq_getElem hj', List.getElem?_eq_getElem hj, rows,
      by rw [hname]; exact r1, r2, r0, r3⟩
  obtain ⟨L, datas, o1, o2, -, o3, o4, o5⟩ := h5_read (σ := σ) C.file
    (chainDir c ++ '/' :: k ++ ['/']) sample sub hks
    (by rw [hsl, hls]) (by intro e; rw [e] at hls; exact hne (List.length_eq_zero_iff.1 hls.symm))
    n.toNat (by
      intro key hm
      obtain ⟨j, hj⟩ := List.mem_iff_getElem?.1 hm
      have hlt : j < u.leaves.length := by rw [← hsl]; exact (List.getElem?_eq_some_iff.1 hj).1
      obtain ⟨key', a, e1, -, rows, r1, r2, -⟩ := hrow j hlt
      rw [hj, Option.some.injEq] at e1
      subst e1
      exact ⟨rows, r1, r2⟩)
  refine ⟨L, o1, o2, ?_⟩
  intro sel hsel
  have hlen0 : samples.length ≤ n.toNat := by
    obtain ⟨_, _, _, _, _, _, _, r0, _⟩ := hrow 0 (List.length_pos_iff.2 hne)
    rw [hsaved] at r0
    simpa using r0
  obtain ⟨obs, s1, s2, s3⟩ := o5 sel (fun b hb i hib => lt_of_lt_of_le (hsel b hb i hib) hlen0)
  refine ⟨obs, s1, s2.trans hs, ?_⟩
  intro j hj
  obtain ⟨key, a, e1, e2, rows, r1, r2, -, r3⟩ := hrow j hj
  have hdj : datas[j]? = some rows := by
    have := congrArg (fun l => l[j]?) o3
    simp only [List.getElem?_map, e1, Option.map_some, r1] at this
    cases hd : datas[j]? with
    | none => simp [hd] at this
    | some d => simpa [hd] using this
  refine ⟨pick rows sel, by rw [s3]; simp [hdj], ?_⟩
  unfold pick
  rw [List.map_map]
  apply List.map_congr_left
  intro idx hidx'
  have hin : ∀ i ∈ idx, i < rows.length := by
    rw [r2]
    exact fun i hi => lt_of_lt_of_le (hsel idx hidx' i hi) hlen0
  have := npTake_spec _ _ _ (npTake_filterMap rows idx hin)
  simp only [Function.comp_apply]
  rw [this]
  apply List.map_congr_left
  intro i hi'
  have hil := hsel idx hidx' i hi'
  rw [r3 i (lt_of_lt_of_le hil hlen0), hsaved]
  simp only [cell, List.getElem?_map, List.getElem?_eq_getElem hil, Option.map_some,
    Option.bind_some]
  have hsh := hshape _ (List.getElem_mem hil)
  generalize samples[i] = ss at hsh
  have hum : (ss.map Tree.shape)[m]? = some u.shape := by rw [hsh]; simp [hu]
  rw [List.getElem?_map] at hum
  cases hv : ss[m]? with
  | none => simp [hv] at hum
  | some v =>
    simp only [hv, Option.map_some, Option.some.injEq] at hum
    have hlv : v.leaves.length = u.leaves.length := by
      rw [← Tree.leaves_length_shape v, hum, Tree.leaves_length_shape]
    have hoff : ((ts.take m).flatMap Tree.leaves).length
        = ((ss.take m).flatMap Tree.leaves).length := by
      have : ∀ l : List (Tree α), (l.flatMap Tree.leaves).length
          = ((l.map Tree.shape).flatMap Tree.leaves).length := by
        intro l
        induction l with
        | nil => rfl
        | cons t l ih => simp [ih, Tree.leaves_length_shape]
      rw [this, this (ss.take m), List.map_take, List.map_take, hsh]
    rw [hoff, leaves_child (.dict ks) ss m v hv j (by omega)]
    rfl

/-! ### The same batches as a loader of numpy arrays -/

theorem takeRows_mapExcept (d : List α) (sel : List (List Nat)) :
    takeRows d sel = mapExcept (npTake d) sel := by
  induction sel with
  | nil => rfl
  | cons b bs ih =>
    simp only [takeRows, mapExcept, ih]
    cases npTake d b with
    | error e => rfl
    | ok r => cases mapExcept (npTake d) bs <;> rfl

/-- The outcome of an operation on an HDF5 loader corresponds to the outcome of the same operation on a
numpy loader. -/
def SameOut (structure_ : Tree Unit) : H5Out α → LOut α → Prop
  | .registered c, .registered c' => c = c'
  | .batches obs mask, .batches b => obs.shape = structure_ ∧ obs.leaves = b.obs.map Prod.snd ∧
      mask = b.mask
  | .raised e, .raised e' => e = e'
  | _, _ => False

/-- The HDF5 loader reads the datasets of the numpy loader. -/
structure SameData {σ : Type} (L : H5Loader σ α) (N : Loader σ α) : Prop where
  data : L.names.map (h5Get L.file) = N.data.map (fun d => .ok d.2)
  leaves : L.structure_.leaves.length = L.names.length
  shape : L.structure_.shape = L.structure_
  count : L.obsCount = N.obsCount
  chains : L.chains = N.chains

theorem h5Slice_sliceAll {σ : Type} (L : H5Loader σ α) (N : Loader σ α) (h : SameData L N)
    (sel : List (List Nat)) :
    (∃ e, h5Slice L sel = .error e ∧ sliceAll sel N.data = .error e) ∨
    (∃ obs b, h5Slice L sel = .ok obs ∧ sliceAll sel N.data = .ok b ∧
      obs.shape = L.structure_ ∧ obs.leaves = b.map Prod.snd) := by
  have key : ∀ (names : List Key) (data : List (String × List α)),
      names.map (h5Get L.file) = data.map (fun d => .ok d.2) →
      (∃ e, mapExcept (h5TakeLeaf L.file sel) names = .error e ∧ sliceAll sel data = .error e) ∨
      (∃ b, mapExcept (h5TakeLeaf L.file sel) names = .ok (b.map Prod.snd) ∧
        sliceAll sel data = .ok b) := by
    intro names
    induction names with
    | nil =>
      intro data hd
      cases data with
      | nil => exact Or.inr ⟨[], rfl, rfl⟩
      | cons d data => simp at hd
    | cons nm names ih =>
      intro data hd
      cases data with
      | nil => simp at hd
      | cons d data =>
        simp only [List.map_cons, List.cons.injEq] at hd
        obtain ⟨nmd, d⟩ := d
        have hl : h5TakeLeaf L.file sel nm = takeRows d sel := by
          simp only [h5TakeLeaf, hd.1]
          rw [takeRows_mapExcept]
          congr 1
          funext idx
          exact h5TakeBatch_eq d idx
        simp only [mapExcept, sliceAll, hl]
        cases ht : takeRows d sel with
        | error e => exact Or.inl ⟨e, rfl, rfl⟩
        | ok r =>
          rcases ih data hd.2 with ⟨e, h1, h2⟩ | ⟨b, h1, h2⟩
          · exact Or.inl ⟨e, by simp [h1], by simp [h2]⟩
          · exact Or.inr ⟨(nmd, r) :: b, by simp [h1], by simp [h2]⟩
  rcases key L.names N.data h.data with ⟨e, h1, h2⟩ | ⟨b, h1, h2⟩
  · exact Or.inl ⟨e, by simp [h5Slice, h1], h2⟩
  · have hlen : (b.map Prod.snd).length = L.structure_.leaves.length := by
      have : (b.map Prod.snd).length = L.names.length := by
        clear h2 h
        generalize b.map Prod.snd = r at h1
        generalize L.names = names at h1
        induction names generalizing r with
        | nil => simp [mapExcept] at h1; simp [← h1]
        | cons nm names ih =>
          simp only [mapExcept] at h1
          cases hx : h5TakeLeaf L.file sel nm with
          | error e => simp [hx] at h1
          | ok x =>
            cases hy : mapExcept (h5TakeLeaf L.file sel) names with
            | error e => simp [hx, hy] at h1
            | ok y =>
              simp only [hx, hy, Except.ok.injEq] at h1
              subst h1
              simp [ih y hy]
      rw [this, h.leaves]
    obtain ⟨obs, u1, u2, u3⟩ := Tree.unflatten_ok L.structure_ (b.map Prod.snd) hlen
    exact Or.inr ⟨obs, b, by simp [h5Slice, h1, u1], h2, by rw [u3, h.shape], u2⟩

/-- One operation. -/
theorem h5_step_same {σ : Type} (R : Rng σ) (L : H5Loader σ α) (s : LSys σ α)
    (h : SameData L s.loader) (op : LOp)
    (hop : ∀ c x, op ≠ .save c x ∧ op ≠ .load c x) :
    SameData (h5LStep R L op).1 (lstep R s op).1.loader ∧
      (h5LStep R L op).1.structure_ = L.structure_ ∧
      SameOut L.structure_ (h5LStep R L op).2 (lstep R s op).2 := by
  cases op with
  | save c x => exact absurd rfl (hop c x).1
  | load c x => exact absurd rfl (hop c x).2
  | regRandom cs mb ie sh seed =>
    simp only [h5LStep, lstep, registerRandom, h5Base, h.count, h.chains]
    split_ifs <;> exact ⟨⟨h.data, h.leaves, h.shape, by first | rfl | exact h.count,
          by first | rfl | exact h.chains⟩, rfl, rfl⟩
  | regOrdered cs mb =>
    simp only [h5LStep, lstep, registerOrdered, h5Base, h.count, h.chains]
    split_ifs <;> exact ⟨⟨h.data, h.leaves, h.shape, by first | rfl | exact h.count,
          by first | rfl | exact h.chains⟩, rfl, rfl⟩
  | get cid =>
    simp only [h5LStep, lstep, h5GetBatches, getBatches, h.chains, h.count]
    cases hc : s.loader.chains[cid]? with
    | none => exact ⟨h, rfl, rfl⟩
    | some c =>
      dsimp only
      cases hg : getIndices R s.loader.obsCount c with
      | error e => exact ⟨h, rfl, rfl⟩
      | ok r =>
        obtain ⟨sel, c'⟩ := r
        dsimp only
        rcases h5Slice_sliceAll L s.loader h (sel.map (·.1)) with ⟨e, h1, h2⟩ | ⟨obs, b, h1, h2, h3, h4⟩
        · rw [h1, h2]
          exact ⟨⟨h.data, h.leaves, h.shape, by first | rfl | exact h.count,
          by first | rfl | exact h.chains⟩, rfl, rfl⟩
        · rw [h1, h2]
          exact ⟨⟨h.data, h.leaves, h.shape, by first | rfl | exact h.count,
          by first | rfl | exact h.chains⟩, rfl, h3, h4, rfl⟩

/-- **C77.** For every random number generator and every history of registrations and batch requests,
an `HDF5Loader` and a `NumpyDataLoader` holding the same arrays give the same results: the same chain
ids, the same batches and masks, the same exceptions. -/
theorem c77_same_batches {σ : Type} (R : Rng σ) (L : H5Loader σ α) (s : LSys σ α)
    (h : SameData L s.loader) (ops : List LOp)
    (hops : ∀ op ∈ ops, ∀ c x, op ≠ .save c x ∧ op ≠ .load c x) :
    List.Forall₂ (SameOut L.structure_) (h5LRun R L ops).2 ((lrun R s ops).2.map Prod.snd) := by
  induction ops generalizing L s with
  | nil => exact List.Forall₂.nil
  | cons op ops ih =>
    obtain ⟨h1, h2, h3⟩ := h5_step_same R L s h op (hops op (by simp))
    have := ih (h5LStep R L op).1 (lstep R s op).1 h1 (fun o ho => hops o (by simp [ho]))
    rw [h2] at this
    exact List.Forall₂.cons h3 this

/-- Opening a file with datasets of equal length gives such a loader. -/
theorem c77_open {σ β : Type} (file : H5File α) (subdir : Key) (sample : Tree β) (hw : WF sample)
    (keys : List Path) (hk : dictKeys sample = .ok keys) (hne : sample.leaves ≠ []) (m : Nat)
    (data : List (String × List α)) (hlen : ∀ d ∈ data, d.2.length = m)
    (hd : keys.map (fun key => h5Get file (h5Name subdir key)) = data.map (fun d => .ok d.2)) :
    ∃ (L : H5Loader σ α) (N : Loader σ α), h5Open file subdir sample = .ok L ∧
      mkLoader data = .ok N ∧ SameData L N := by
  have hkl := dictKeys_length sample hw keys hk
  have hdl : keys.length = data.length := by
    have := congrArg List.length hd
    simpa using this
  have hget : ∀ key ∈ keys, ∃ rows, h5Get file (h5Name subdir key) = .ok rows ∧ rows.length = m := by
    intro key hm
    have : h5Get file (h5Name subdir key) ∈ data.map (fun d => Except.ok d.2) := by
      rw [← hd]
      exact List.mem_map.2 ⟨key, hm, rfl⟩
    obtain ⟨d, hdm, he⟩ := List.mem_map.1 this
    exact ⟨d.2, he.symm, hlen d hdm⟩
  obtain ⟨L, datas, o1, o2, o3, o4, -, -⟩ := h5_read (σ := σ) file subdir sample keys hk hkl hne m hget
  have hLn : L.names = keys.map (h5Name subdir) ∧ L.structure_ = sample.shape ∧ L.file = file := by
    simp only [h5Open, hk] at o1
    split at o1
    · simp at o1
    · split at o1
      · simp at o1
      · simp only [Except.ok.injEq] at o1
        subst o1
        exact ⟨rfl, rfl, rfl⟩
  cases data with
  | nil =>
    simp only [List.length_nil, List.length_eq_zero_iff] at hdl
    subst hdl
    exact absurd (List.length_eq_zero_iff.1 (by simpa using hkl.symm)) hne
  | cons d ds =>
    have hmk : mkLoader (σ := σ) (d :: ds) = .ok { data := d :: ds, obsCount := d.2.length, chains := [] } := by
      simp only [mkLoader]
      rw [if_neg]
      simp only [List.any_eq_true, not_exists, not_and, bne_iff_ne, ne_eq, not_not]
      intro x hx
      rw [hlen x hx, hlen d (by simp)]
    refine ⟨L, _, o1, hmk, ?_, ?_, ?_, ?_, o3⟩
    · rw [hLn.1, hLn.2.2, List.map_map]
      exact hd
    · rw [hLn.1, hLn.2.1, Tree.leaves_length_shape, List.length_map, hkl]
    · rw [hLn.2.1]
      exact Tree.shape_map _ sample
    · show L.obsCount = d.2.length
      rw [o2, hlen d (by simp)]

/-! ### Example -/

/-- Two chains; samples `{"a": ..., "variables": {"w": ..., "x": ...}}` and a single array. -/
def toyInit : Tree Nat :=
  .node (.dict [['a'], ['v','a','r']]) [.leaf 0, .node (.dict [['w'], ['x']]) [.leaf 0, .leaf 0]]

def toyH5 : List (H5Op Nat) :=
  [.register toyInit 3, .save 0 [1, 2, 3], .register (.leaf 0) 1, .save 0 [4, 5, 6], .save 1 [9]]

example : (h5Run (fun _ => 0) (h5New []) toyH5).map (fun C =>
      (h5Get C.file (h5Name (chainDir 0) [['v','a','r'], ['x']]),
       (h5Open (σ := Unit) C.file (chainDir 0 ++ ['/','v','a','r','/'])
        (.node (.dict [['w'], ['x']]) [.leaf (), .leaf ()])).bind (fun L =>
          (h5Slice L [[1, 0, 1], [0, 0, 0]]).map Tree.leaves)))
    = .ok (.ok [3, 6, 0], .ok [[[5, 2, 5], [2, 2, 2]], [[6, 3, 6], [3, 3, 3]]]) := by decide +kernel

/-- HDF5 ignores components `.` of a name: the samples `{".": {"a": 1}, "a": 2}` cannot be saved, because
both leaves would be the dataset `/chain~0/a`. -/
example : (h5Register (fun _ => 0) (h5New [])
      (.node (.dict [['.'], ['a']]) [.node (.dict [['a']]) [.leaf 1], .leaf 2] : Tree Nat) 3).map
        (fun p => p.2) = .error .valueError := by decide +kernel

end JaxSgmc
