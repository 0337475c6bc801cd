import Verif.Props.Callbacks
import Verif.Props.Hdf5
import Verif.Props.Tree
import Verif.Model.Npz

/-!
# The arrays in the npz files (C122)
-/

namespace JaxSgmc

open Spec

variable {α β : Type}

theorem npzAssign_new (d : List (Key × β)) (x : Key × β) (h : x.1 ∉ d.map Prod.fst) :
    npzAssign d x = d ++ [x] := by
  unfold npzAssign
  rw [if_neg h]

theorem npzFold_nodup (items d : List (Key × β)) (h : ((d ++ items).map Prod.fst).Nodup) :
    items.foldl npzAssign d = d ++ items := by
  induction items generalizing d with
  | nil => simp
  | cons x items ih =>
    have hx : x.1 ∉ d.map Prod.fst := by
      intro hm
      rw [List.map_append, List.map_cons] at h
      exact (List.nodup_append.1 h).2.2 _ hm _ (List.mem_cons_self) rfl
    rw [List.foldl_cons, npzAssign_new d x hx, ih (d ++ [x]) (by simpa using h)]
    simp

/-- With distinct names nothing is replaced. -/
theorem npzDict_nodup (items : List (Key × β)) (h : (items.map Prod.fst).Nodup) :
    npzDict items = items := by
  unfold npzDict
  rw [npzFold_nodup items [] (by simpa using h)]
  simp

theorem npzAssign_keys (d : List (Key × β)) (x : Key × β) (k : Key) :
    k ∈ (npzAssign d x).map Prod.fst ↔ k ∈ d.map Prod.fst ∨ k = x.1 := by
  unfold npzAssign
  split_ifs with h
  · rw [List.map_map]
    have e : d.map (Prod.fst ∘ fun y : Key × β => if y.1 = x.1 then x else y) = d.map Prod.fst := by
      apply List.map_congr_left
      intro y _
      by_cases hy : y.1 = x.1 <;> simp [hy]
    rw [e]
    constructor
    · exact Or.inl
    · rintro (h' | rfl)
      · exact h'
      · exact h
  · simp

theorem npzFold_keys (items d : List (Key × β)) (k : Key) :
    k ∈ (items.foldl npzAssign d).map Prod.fst ↔
      k ∈ d.map Prod.fst ∨ k ∈ items.map Prod.fst := by
  induction items generalizing d with
  | nil => simp
  | cons x items ih =>
    rw [List.foldl_cons, ih, npzAssign_keys, List.map_cons, List.mem_cons, or_assoc]

theorem joinPath_param (p : Path) (h : joinPath p = savezParam) : p = [savezParam] := by
  match p with
  | [] => simp [joinPath, savezParam] at h
  | [k] => simpa [joinPath] using h
  | k :: l :: p =>
    have hs : '/' ∈ joinPath (k :: l :: p) := by
      unfold joinPath
      simp [List.intercalate]
    rw [h] at hs
    exact absurd hs (by decide)

theorem nodup_lookup (items : List (Key × β)) (h : (items.map Prod.fst).Nodup) (k : Key) (v : β) :
    items.lookup k = some v ↔ (k, v) ∈ items := by
  induction items with
  | nil => simp
  | cons x items ih =>
    obtain ⟨a, b⟩ := x
    rw [List.map_cons, List.nodup_cons] at h
    by_cases hk : k = a
    · subst hk
      rw [List.lookup_cons_self]
      constructor
      · intro e; cases e; exact List.mem_cons_self
      · intro hm
        rcases List.mem_cons.1 hm with e | hm
        · cases e; rfl
        · exact absurd (List.mem_map.2 ⟨_, hm, rfl⟩) h.1
    · have hk' : (k == a) = false := by simpa using hk
      rw [List.lookup_cons, hk', ih h.2]
      constructor
      · exact List.mem_cons_of_mem _
      · intro hm
        rcases List.mem_cons.1 hm with e | hm
        · cases e; exact absurd rfl hk
        · exact hm

/-! ### Facts which depend on the structure only -/

theorem mapL_length (f : α → β) (ts : List (Tree α)) : (Tree.mapL f ts).length = ts.length := by
  induction ts with
  | nil => rfl
  | cons t ts ih => simp [Tree.mapL, ih]

theorem wf_map (f : α → β) (t : Tree α) : WF (t.map f) ↔ WF t := by
  refine Tree.ind (P := fun t => WF (t.map f) ↔ WF t) ?_ ?_ ?_ t
  · intro a; simp [Tree.map, WF]
  · simp [Tree.map, WF]
  · intro k ts ih
    have hl : WFL (Tree.mapL f ts) ↔ WFL ts := by
      clear k
      induction ts with
      | nil => simp [Tree.mapL, WFL]
      | cons t ts ih2 =>
        simp only [Tree.mapL, WFL]
        rw [ih t (by simp), ih2 (fun u hu => ih u (by simp [hu]))]
    simp only [Tree.map, WF, mapL_length, hl]

theorem ordered_map (f : α → β) (t : Tree α) : Ordered (t.map f) ↔ Ordered t := by
  refine Tree.ind (P := fun t => Ordered (t.map f) ↔ Ordered t) ?_ ?_ ?_ t
  · intro a; simp [Tree.map, Ordered]
  · simp [Tree.map, Ordered]
  · intro k ts ih
    have hl : OrderedL (Tree.mapL f ts) ↔ OrderedL ts := by
      clear k
      induction ts with
      | nil => simp [Tree.mapL, OrderedL]
      | cons t ts ih2 =>
        simp only [Tree.mapL, OrderedL]
        rw [ih t (by simp), ih2 (fun u hu => ih u (by simp [hu]))]
    simp only [Tree.map, Ordered, mapL_length, hl]

theorem namedLeaves_map_fst (f : α → β) (t : Tree α) :
    (namedLeaves (t.map f)).map Prod.fst = (namedLeaves t).map Prod.fst := by
  refine Tree.ind (P := fun t => (namedLeaves (t.map f)).map Prod.fst =
    (namedLeaves t).map Prod.fst) ?_ ?_ ?_ t
  · intro a; simp [Tree.map, namedLeaves]
  · simp [Tree.map, namedLeaves]
  · intro k ts ih
    have hl : ∀ ns : List Key, (namedLeavesL ns (Tree.mapL f ts)).map Prod.fst =
        (namedLeavesL ns ts).map Prod.fst := by
      clear k
      induction ts with
      | nil => intro ns; cases ns <;> simp [Tree.mapL, namedLeavesL]
      | cons t ts ih2 =>
        intro ns
        cases ns with
        | nil => simp [Tree.mapL, namedLeavesL]
        | cons n ns =>
          simp only [Tree.mapL, namedLeavesL, List.map_append, List.map_map]
          rw [ih2 (fun u hu => ih u (by simp [hu]))]
          congr 1
          have := congrArg (List.map (fun p : Path => n :: p)) (ih t (by simp))
          simpa [List.map_map, Function.comp_def] using this
    simp only [Tree.map, namedLeaves, mapL_length, hl]

theorem wf_shape (t : Tree α) (u : Tree β) (h : t.shape = u.shape) : WF t ↔ WF u := by
  rw [← wf_map (fun _ => ()) t, ← wf_map (fun _ => ()) u]
  exact iff_of_eq (congrArg WF h)

theorem ordered_shape (t : Tree α) (u : Tree β) (h : t.shape = u.shape) : Ordered t ↔ Ordered u := by
  rw [← ordered_map (fun _ => ()) t, ← ordered_map (fun _ => ()) u]
  exact iff_of_eq (congrArg Ordered h)

theorem namedLeaves_shape (t : Tree α) (u : Tree β) (h : t.shape = u.shape) :
    (namedLeaves t).map Prod.fst = (namedLeaves u).map Prod.fst := by
  rw [← namedLeaves_map_fst (fun _ => ()) t, ← namedLeaves_map_fst (fun _ => ()) u]
  exact congrArg (fun x => (namedLeaves x).map Prod.fst) h

/-! ### C122 -/

/-- **C122** as stated: every leaf of the collected samples can be read from the npz file under its
path joined with `/`. -/
def C122Statement : Prop :=
  ∀ data : Tree (List Nat), WF data → hasEmptySeq data = false →
    ∃ ks content, dictKeys data = .ok ks ∧
      npzFile ((ks.map joinPath).zip data.leaves) = .ok content ∧
      ∀ x ∈ namedLeaves data, content.lookup (joinPath x.1) = some x.2

/-- C122 is false of the code: a sample with the key `file` cannot be written. -/
theorem c122_false_file : ∃ data : Tree (List Nat), WF data ∧
    dictKeys data = .ok [[['f','i','l','e']]] ∧
    npzFile (([[['f','i','l','e']]].map joinPath).zip data.leaves) = .error .typeError :=
  ⟨.node (.dict [['f','i','l','e']]) [.leaf [1, 2]], by simp [WF, WFL], rfl, rfl⟩

/-- C122 is false of the code: of `{"a": {"b": [1]}, "a/b": [2]}` only one array is written. -/
theorem c122_false_lost : ∃ data : Tree (List Nat), WF data ∧
    namedLeaves data = [([['a'], ['b']], [1]), ([['a', '/', 'b']], [2])] ∧
    ∃ ks, dictKeys data = .ok ks ∧
    npzFile ((ks.map joinPath).zip data.leaves) = .ok [(['a', '/', 'b'], [2])] :=
  ⟨.node (.dict [['a'], ['a', '/', 'b']]) [.node (.dict [['b']]) [.leaf [1]], .leaf [2]],
    by simp only [WF, WFL]; decide, rfl, _, rfl, rfl⟩

/-- C122 is false of the code. -/
theorem c122_false : ¬ C122Statement := by
  intro h
  obtain ⟨ks, content, h1, h2, -⟩ := h (.node (.dict [['f','i','l','e']]) [.leaf [1, 2]])
    (by simp [WF, WFL]) (by decide)
  have hk : dictKeys (.node (.dict [['f','i','l','e']]) [.leaf [1, 2]] : Tree (List Nat)) =
    .ok [[['f','i','l','e']]] := rfl
  rw [hk] at h1
  cases h1
  have : npzFile (([[['f','i','l','e']]].map joinPath).zip
    (Tree.node (.dict [['f','i','l','e']]) [.leaf [1, 2]] : Tree (List Nat)).leaves) =
    .error .typeError := rfl
  rw [this] at h2
  cases h2

/-- **C122**, exact condition for the error: the file cannot be written if and only if the sample is
(or contains at the top) an entry with the key `file`. -/
theorem c122_type_error (data : Tree β) (h : WF data) (ks : List Path)
    (hk : dictKeys data = .ok ks) :
    (∃ e, npzFile ((ks.map joinPath).zip data.leaves) = .error e) ↔ [savezParam] ∈ ks := by
  have hlen := (c53_unique data h ks hk).1
  have hkeys : savezParam ∈ (npzDict ((ks.map joinPath).zip data.leaves)).map Prod.fst ↔
      [savezParam] ∈ ks := by
    unfold npzDict
    rw [npzFold_keys, List.map_fst_zip (by simp [hlen])]
    simp only [List.map_nil, List.not_mem_nil, false_or, List.mem_map]
    constructor
    · rintro ⟨p, hp, e⟩
      rwa [joinPath_param p e] at hp
    · intro hm
      exact ⟨_, hm, by simp [joinPath]⟩
  unfold npzFile savez
  by_cases hm : [savezParam] ∈ ks
  · rw [if_pos (hkeys.2 hm)]
    exact ⟨fun _ => hm, fun _ => ⟨_, rfl⟩⟩
  · rw [if_neg (fun hx => hm (hkeys.1 hx))]
    constructor
    · rintro ⟨e, he⟩; cases he
    · exact fun hx => absurd hx hm

/-- The content of the file of an ordered tree. -/
theorem npzFile_named (data : Tree β) (h : WF data) (ho : Ordered data)
    (ks : List Path) (hk : dictKeys data = .ok ks) (hsep : ∀ p ∈ ks, ∀ k ∈ p, '/' ∉ k)
    (hf : [savezParam] ∉ ks) :
    ∃ content, npzFile ((ks.map joinPath).zip data.leaves) = .ok content ∧
      ∀ name v, content.lookup name = some v ↔
        ∃ x ∈ namedLeaves data, name = joinPath x.1 ∧ v = x.2 := by
  have hlen := (c53_unique data h ks hk).1
  have hnd : (((ks.map joinPath).zip data.leaves).map Prod.fst).Nodup := by
    rw [List.map_fst_zip (by simp [hlen])]
    exact c53_joined_partial data h ks hk hsep
  have hz : ks.zip data.leaves = namedLeaves data := by
    obtain ⟨ks', hk', hz⟩ := c51_names_partial data h ho ((dictKeys_ok_iff data h).1 ⟨ks, hk⟩)
    rw [hk] at hk'
    cases hk'
    exact hz
  refine ⟨(ks.map joinPath).zip data.leaves, ?_, ?_⟩
  · have hne : ¬ ∃ e, npzFile ((ks.map joinPath).zip data.leaves) = .error e :=
      fun he => hf ((c122_type_error data h ks hk).1 he)
    unfold npzFile savez at hne ⊢
    rw [npzDict_nodup _ hnd] at hne ⊢
    split_ifs at hne ⊢ with hc
    · exact absurd ⟨_, rfl⟩ hne
    · rfl
  · intro name v
    rw [nodup_lookup _ hnd, List.zip_map_left, hz]
    simp only [List.mem_map, Prod.exists, Prod.map_apply, id_eq, Prod.mk.injEq]
    constructor
    · rintro ⟨p, a, hm, e1, e2⟩
      exact ⟨p, a, hm, e1.symm, e2.symm⟩
    · rintro ⟨p, a, hm, e1, e2⟩
      exact ⟨p, a, hm, e1.symm, e2.symm⟩

/-- **C122**, proved part: for every schedule of the callbacks, after `finalize(c)` was called and the
pending callbacks of the chain were executed, the npz file of the chain has exactly one array for each
leaf, under its path joined with `/`, and it holds the values of that leaf of all samples; for samples
whose children are in the order of their names, without the separator in a key and without the
top-level key `file`.  Missing: other samples, for which the claim is false. -/
theorem c122_file_partial (zero : α → α) (cmds : List (Cmd α)) (c : Nat)
    (s : AsyncState (MemCollector α) α) (hp : Protocol cmds)
    (hs : asyncRun (memAsync zero) (asyncStart (memNew true)) cmds = some s)
    (hf : .finalize c ∈ cmds) (hq : s.queue c = [])
    (hgood : ∀ init n, (registered cmds)[c]? = some (init, n) → WF init ∧ Ordered init ∧
      ∀ x ∈ namedLeaves init, x.1 ≠ [savezParam] ∧ ∀ k ∈ x.1, '/' ∉ k) :
    ∃ init n data items content, (registered cmds)[c]? = some (init, n) ∧
      Holds zero init n.toNat (samplesOf c cmds) data ∧
      s.coll.files.lookup c = some items ∧ npzFile items = .ok content ∧
      ∀ name v, content.lookup name = some v ↔
        ∃ x ∈ namedLeaves data, name = joinPath x.1 ∧ v = x.2 := by
  obtain ⟨init, n, data, names, h1, h2, h3, h4⟩ :=
    c47_after_callbacks_partial zero cmds c s hp hs hf hq
  obtain ⟨hw', ho', hx⟩ := hgood init n h1
  have hw := (wf_shape data init h3.structure_eq).2 hw'
  have ho := (ordered_shape data init h3.structure_eq).2 ho'
  rw [← dictKeys_shape data init h3.structure_eq] at h2
  cases hk : dictKeys data with
  | error e => rw [hk] at h2; cases h2
  | ok ks =>
    rw [hk] at h2
    have h2' : names = ks.map joinPath := by
      simpa [Except.map] using h2.symm
    have hmem : ∀ p ∈ ks, ∃ x ∈ namedLeaves init, x.1 = p := by
      intro p hpk
      have := ((c51_permuted_partial data hw).2 ks hk).mem_iff.1 hpk
      rw [namedLeaves_shape data init h3.structure_eq] at this
      simpa using List.mem_map.1 this
    obtain ⟨content, k1, k2⟩ := npzFile_named data hw ho ks hk
      (fun p hpk => by
        obtain ⟨x, hxm, rfl⟩ := hmem p hpk
        exact (hx x hxm).2)
      (fun hpk => by
        obtain ⟨x, hxm, e⟩ := hmem _ hpk
        exact (hx x hxm).1 e)
    exact ⟨init, n, data, _, content, h1, h3, h4, h2' ▸ k1, k2⟩

/-- The hypotheses are met by the schedule with one chain and two samples, after all callbacks. -/
example : Protocol (toySchedule ++ [.callback 0]) ∧ .finalize 0 ∈ toySchedule ++ [.callback 0] ∧
    (∃ s, asyncRun (memAsync (fun _ => 0)) (asyncStart (memNew true))
      (toySchedule ++ [.callback 0]) = some s ∧ s.queue 0 = []) ∧
    (registered (toySchedule ++ [.callback 0]))[0]? = some (.node (.dict [['a']]) [.leaf 0], 2) := by
  refine ⟨?_, by simp [toySchedule], ⟨_, rfl, rfl⟩, rfl⟩
  refine protocol_append _ _ ?_ (by simp [Allowed])
  intro pre x post he
  exact toySchedule_protocol pre x (post ++ [.finished 0]) (by rw [he]; simp)

example : WF exampleNested ∧ Ordered exampleNested ∧
    ∀ x ∈ namedLeaves exampleNested, x.1 ≠ [savezParam] ∧ ∀ k ∈ x.1, '/' ∉ k := by
  refine ⟨?_, ?_, by decide +kernel⟩
  · simp only [exampleNested, WF, WFL]; decide
  · simp only [exampleNested, Ordered, OrderedL]; decide

end JaxSgmc
