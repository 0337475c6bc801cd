import Verif.Lemmas.Tree

/-!
# Pytrees as dictionaries (C51, C52, C53)
-/

namespace JaxSgmc

open Spec

variable {α β : Type}

/-- A named tuple whose fields are not in alphabetical order. -/
def exampleBA : Tree Nat := .node (.ntuple ['S'] [['b'], ['a']]) [.leaf 1, .leaf 2]

/-- A nested sample: `{"a": [10, (20, None)], "b": {"c": 30}}`. -/
def exampleNested : Tree Nat :=
  .node (.dict [['a'], ['b']]) [.node .list [.leaf 10, .node .tuple [.leaf 20, .none]],
    .node (.dict [['c']]) [.leaf 30]]

/-- C51: the names under which `HDF5Collector` and `MemoryCollector` store the leaves
(`tree_leaves(sample)` zipped with `pytree_dict_keys(sample)`) are the names of these leaves. -/
def C51Statement : Prop :=
  ∀ t : Tree Nat, WF t → ∃ ks, dictKeys t = .ok ks ∧ ks.zip t.leaves = namedLeaves t

/-- C51 is false of the code: the leaves of the named tuple `S(b=1, a=2)` are stored under
exchanged names. -/
theorem c51_false_swapped : WF exampleBA ∧ ∃ ks, dictKeys exampleBA = .ok ks ∧
    ks.zip exampleBA.leaves = [([['a']], 1), ([['b']], 2)] ∧
    namedLeaves exampleBA = [([['b']], 1), ([['a']], 2)] := by
  refine ⟨?_, [[['a']], [['b']]], ?_, ?_, ?_⟩
  · simp [exampleBA, WF, WFL]
  · rfl
  · rfl
  · rfl

/-- C51 is false of the code for samples with an empty list: no names are found at all. -/
theorem c51_false_empty : dictKeys (.node (.dict [['a'], ['b']]) [.leaf 1, .node .list []])
    = .error .attributeError := rfl

/-- C51 is false of the code. -/
theorem c51_false : ¬ C51Statement := by
  intro h
  obtain ⟨ks, h1, h2⟩ := h exampleBA c51_false_swapped.1
  obtain ⟨-, ks', h1', h2', h3'⟩ := c51_false_swapped
  rw [h1] at h1'
  cases h1'
  rw [h2, h3'] at h2'
  exact absurd h2' (by decide)

/-- C51 (partial): every leaf is stored under its own name if children appear in the order of their
names and there are no empty lists or tuples. -/
theorem c51_names_partial (t : Tree α) (h : WF t) (ho : Ordered t) (he : hasEmptySeq t = false) :
    ∃ ks, dictKeys t = .ok ks ∧ ks.zip t.leaves = namedLeaves t := by
  obtain ⟨ks, hk⟩ := (dictKeys_ok_iff t h).2 he
  refine ⟨ks, hk, ?_⟩
  have := paths_eq (toDict t) ks hk
  rw [namedLeaves_toDict_eq t h ho] at this
  rw [this, ← namedLeaves_snd t h, List.zip_map']
  simp

example : WF exampleNested ∧ Ordered exampleNested ∧ hasEmptySeq exampleNested = false := by
  refine ⟨?_, ?_, ?_⟩
  · simp only [exampleNested, WF, WFL]; decide
  · simp only [exampleNested, Ordered, OrderedL]; decide
  · rfl

/-- C51 (partial, every tree): the names are the names of the leaves in some order, and an exception
is raised exactly for trees with an empty list, tuple or named tuple. -/
theorem c51_permuted_partial (t : Tree α) (h : WF t) :
    (hasEmptySeq t = false ↔ ∃ ks, dictKeys t = .ok ks) ∧
    ∀ ks, dictKeys t = .ok ks → ks.Perm ((namedLeaves t).map Prod.fst) := by
  refine ⟨(dictKeys_ok_iff t h).symm, fun ks hk => ?_⟩
  rw [paths_eq _ _ hk]
  exact (namedLeaves_toDict_perm t h).map _

/-- C52: restoring a tree from its dictionary. -/
def C52Statement : Prop := ∀ t : Tree Nat, WF t → dictToTree (toDict t) t = .ok t

/-- C52 is false of the code: `S(b=1, a=2)` is restored as `S(b=2, a=1)`. -/
theorem c52_false_swapped : dictToTree (toDict exampleBA) exampleBA
    = .ok (.node (.ntuple ['S'] [['b'], ['a']]) [.leaf 2, .leaf 1]) := rfl

/-- C52 is false of the code: `[0, …, 10]` is restored as `[0, 1, 10, 2, …, 9]` because
`list_element_10` is sorted before `list_element_2`. -/
theorem c52_false_list :
    dictToTree (toDict (.node .list ((List.range 11).map Tree.leaf)))
      (.node .list ((List.range 11).map Tree.leaf) : Tree Nat)
    = .ok (.node .list ([0, 1, 10, 2, 3, 4, 5, 6, 7, 8, 9].map Tree.leaf)) := by
  rfl

/-- C52 is false of the code. -/
theorem c52_false : ¬ C52Statement := by
  intro h
  have h1 := h exampleBA c51_false_swapped.1
  rw [c52_false_swapped] at h1
  simp [exampleBA] at h1

theorem dictToTree_toDict (t : Tree α) (h : WF t) (ks : List Path) (hk : dictKeys t = .ok ks) :
    mapExcept (getPath (toDict t)) ks = .ok ((toDict t).leaves.map Tree.leaf) := by
  have h1 := paths_eq _ _ hk
  have h2 := getPath_namedLeaves (toDict t) (toDict_wf t h) ks hk
  rw [← namedLeaves_snd _ (toDict_wf t h), h1]
  generalize namedLeaves (toDict t) = nl at h2
  induction nl with
  | nil => rfl
  | cons x nl ih =>
    simp only [List.map_cons, mapExcept, h2 x (by simp), ih (fun y hy => h2 y (by simp [hy]))]

/-- C52 (partial): the round trip is the identity if children appear in the order of their names
and there are no empty lists or tuples. -/
theorem c52_roundtrip_partial (t : Tree α) (h : WF t) (ho : Ordered t)
    (he : hasEmptySeq t = false) : dictToTree (toDict t) t = .ok t := by
  obtain ⟨ks, hk⟩ := (dictKeys_ok_iff t h).2 he
  have hl : (toDict t).leaves = t.leaves := by
    rw [← namedLeaves_snd _ (toDict_wf t h), namedLeaves_toDict_eq t h ho, namedLeaves_snd _ h]
  rw [dictToTree, hk]
  dsimp only
  rw [dictToTree_toDict t h ks hk, hl]
  dsimp only
  have := Tree.unflatten_leaves t (t.map Tree.leaf) (Tree.shape_map _ _).symm
  rw [Tree.leaves_map] at this
  rw [this]
  simp [Except.map, graft_map_leaf]

/-- C52 (partial, every tree without empty lists or tuples): the restored tree has the original
structure and the same leaves, but possibly permuted. -/
theorem c52_permuted_partial (t : Tree α) (h : WF t) (he : hasEmptySeq t = false) :
    ∃ r, dictToTree (toDict t) t = .ok r ∧ r.shape = t.shape ∧ r.leaves.Perm t.leaves := by
  obtain ⟨ks, hk⟩ := (dictKeys_ok_iff t h).2 he
  have hl : (toDict t).leaves.Perm t.leaves := by
    rw [← namedLeaves_snd _ (toDict_wf t h), ← namedLeaves_snd _ h]
    exact (namedLeaves_toDict_perm t h).map _
  obtain ⟨r, h1, h2, h3⟩ := Tree.unflatten_ok t (toDict t).leaves hl.length_eq
  refine ⟨r, ?_, h3, h2 ▸ hl⟩
  rw [dictToTree, hk]
  dsimp only
  rw [dictToTree_toDict t h ks hk]
  dsimp only
  have := Tree.unflatten_leaves t (r.map Tree.leaf) ((Tree.shape_map _ _).trans h3).symm
  rw [Tree.leaves_map, h2] at this
  rw [this]
  simp [Except.map, graft_map_leaf]

/-- C53: the key tuples of different leaves are different; none is a prefix of another one (a
dataset of an HDF5 file is never a group at the same time). -/
theorem c53_unique (t : Tree α) (h : WF t) (ks : List Path) (hk : dictKeys t = .ok ks) :
    ks.length = t.leaves.length ∧ ks.Nodup ∧ ks.Pairwise (fun p q => ¬ p <+: q ∧ ¬ q <+: p) := by
  have hpw := namedLeaves_pairwise (toDict t) (toDict_wf t h)
  have hks := paths_eq _ _ hk
  refine ⟨?_, ?_, ?_⟩
  · rw [hks, ← namedLeaves_snd t h, List.length_map, List.length_map,
      (namedLeaves_toDict_perm t h).length_eq]
  · rw [hks, List.Nodup, List.pairwise_map]
    refine hpw.imp (fun {x y} hxy (e : x.1 = y.1) => hxy.1 ?_)
    rw [e]
    exact List.prefix_refl _
  · rw [hks, List.pairwise_map]
    exact hpw

/-- C53 for joined names: the full statement. -/
def C53JoinedStatement : Prop :=
  ∀ t : Tree Nat, WF t → ∀ ks, dictKeys t = .ok ks → (ks.map joinPath).Nodup

/-- C53 is false of the code for joined names: `{"a": {"b": 0}, "a/b": 1}`. -/
theorem c53_false_joined : ¬ C53JoinedStatement := by
  intro h
  have := h (.node (.dict [['a'], ['a', '/', 'b']]) [.node (.dict [['b']]) [.leaf 0], .leaf 1])
    (by simp only [WF, WFL]; decide) [[['a'], ['b']], [['a', '/', 'b']]] rfl
  revert this
  decide

/-- C53 (partial): the joined names are different if no key contains the separator. -/
theorem c53_joined_partial (t : Tree α) (h : WF t) (ks : List Path) (hk : dictKeys t = .ok ks)
    (hsep : ∀ p ∈ ks, ∀ k ∈ p, '/' ∉ k) : (ks.map joinPath).Nodup := by
  obtain ⟨-, hnd, hpre⟩ := c53_unique t h ks hk
  rw [List.Nodup, List.pairwise_map]
  refine (List.Pairwise.and_mem.1 hpre).imp ?_
  rintro p q ⟨hp, hq, h1, h2⟩ e
  have hpn : p ≠ [] := fun e0 => h1 (e0 ▸ List.nil_prefix)
  have hqn : q ≠ [] := fun e0 => h2 (e0 ▸ List.nil_prefix)
  exact h1 (joinPath_injective p q (hsep p hp) (hsep q hq) hpn hqn e ▸ List.prefix_refl _)

example : ∃ ks, dictKeys exampleNested = .ok ks ∧ ks.length = 3 ∧ ∀ p ∈ ks, ∀ k ∈ p, '/' ∉ k := by
  refine ⟨_, rfl, ?_, ?_⟩ <;> decide +kernel

/-! ### C84: restoring from a dictionary that is not the one of the target -/

theorem AllDictsL_iff (ts : List (Tree α)) : AllDictsL ts ↔ ∀ t ∈ ts, AllDicts t := by
  induction ts with
  | nil => simp [AllDictsL]
  | cons t ts ih => simp [AllDictsL, ih]

theorem paths_of_allDicts (d : Tree α) (h : WF d) (hd : AllDicts d) : ∃ ks, paths d = .ok ks := by
  induction d using Tree.ind with
  | hleaf a => exact ⟨_, rfl⟩
  | hnone => exact ⟨_, rfl⟩
  | hnode k ts ih =>
    cases k with
    | dict ks =>
      simp only [AllDicts, AllDictsL_iff] at hd
      have hw : ∀ t ∈ ts, WF t := (WFL_iff ts).1 h.2
      simp only [paths]
      exact (pathsL_ok ks ts h.1.1).2 (fun t ht => ih t ht (hw t ht) (hd t ht))
    | list => simp [AllDicts] at hd
    | tuple => simp [AllDicts] at hd
    | ntuple n fs => simp [AllDicts] at hd

theorem mapExcept_map {β γ : Type} (f : β → Except PyErr γ) (g : β → γ) (xs : List β)
    (h : ∀ x ∈ xs, f x = .ok (g x)) : mapExcept f xs = .ok (xs.map g) := by
  induction xs with
  | nil => simp [mapExcept]
  | cons x xs ih => simp [mapExcept, h x (by simp), ih (fun y hy => h y (by simp [hy]))]

theorem mapExcept_fails {β γ : Type} (f : β → Except PyErr γ) (xs : List β) (x : β) (hx : x ∈ xs)
    (e : PyErr) (h : f x = .error e) : ∃ e', mapExcept f xs = .error e' := by
  induction xs with
  | nil => simp at hx
  | cons y xs ih =>
    simp only [mapExcept]
    cases hy : f y with
    | error e' => exact ⟨e', rfl⟩
    | ok v =>
      rcases List.mem_cons.1 hx with rfl | hx
      · rw [h] at hy; cases hy
      · obtain ⟨e', he⟩ := ih hx
        exact ⟨e', by simp [he]⟩

/-- C84: a tree is restored only from a dictionary which has an entry for each of its leaves. -/
def C84Statement : Prop := ∀ (d target r : Tree Nat), WF d → AllDicts d → WF target →
  dictToTree d target = .ok r → ∀ x ∈ namedLeaves target, ∃ v, (x.1, v) ∈ namedLeaves d

/-- C84 is false of the code: `dict_to_pytree({"a": 1}, {"a": 0, "b": 0})` is `{"a": 1, "b": None}`
instead of an exception. -/
theorem c84_false_none : dictToTree (.node (.dict [['a']]) [.leaf 1] : Tree Nat)
    (.node (.dict [['a'], ['b']]) [.leaf 0, .leaf 0] : Tree Nat)
      = .ok (.node (.dict [['a'], ['b']]) [.leaf 1, .none]) := rfl

/-- C84 is false of the code. -/
theorem c84_false : ¬ C84Statement := by
  intro h
  obtain ⟨v, hv⟩ := h _ _ _ (by simp [WF, WFL]) (by simp [AllDicts, AllDictsL])
    (by simp only [WF, WFL]; decide) c84_false_none
    ([['b']], 0) (by simp [namedLeaves, namedLeavesL, childNames])
  simp [namedLeaves, namedLeavesL, childNames] at hv

/-- C84 (partial, complete dictionaries): if the dictionary has an entry for every leaf of the target
— and possibly other entries — the target is restored with the values of these entries. -/
theorem c84_complete_partial {β : Type} (d : Tree α) (hd : WF d) (hn : AllDicts d) (target : Tree β)
    (ht : WF target) (ho : Ordered target) (he : hasEmptySeq target = false) (f : Path → α)
    (hf : ∀ x ∈ namedLeaves target, (x.1, f x.1) ∈ namedLeaves d) :
    ∃ r, dictToTree d target = .ok r ∧ r.shape = target.shape ∧
      r.leaves = (namedLeaves target).map (fun x => f x.1) := by
  obtain ⟨ks, hk, hz⟩ := c51_names_partial target ht ho he
  have hlen := (c53_unique target ht ks hk).1
  have hks : ks = (namedLeaves target).map Prod.fst := by
    rw [← hz, List.map_fst_zip (by omega)]
  obtain ⟨ps, hps⟩ := paths_of_allDicts d hd hn
  have hget := getPath_namedLeaves d hd ps hps
  have hm : mapExcept (getPath d) ks = .ok ((ks.map f).map Tree.leaf) := by
    rw [List.map_map]
    refine mapExcept_map _ _ _ ?_
    intro p hp
    rw [hks] at hp
    obtain ⟨x, hx, rfl⟩ := List.mem_map.1 hp
    exact hget _ (hf x hx)
  obtain ⟨r, g1, g2, g3⟩ := Tree.unflatten_ok target (ks.map f) (by simp [hlen])
  refine ⟨r, ?_, g3, by rw [g2, hks, List.map_map]; rfl⟩
  rw [dictToTree, hk]
  dsimp only
  rw [hm]
  dsimp only
  have := Tree.unflatten_leaves target (r.map Tree.leaf) ((Tree.shape_map _ _).trans g3).symm
  rw [Tree.leaves_map, g2] at this
  rw [this]
  simp [Except.map, graft_map_leaf]

/-- C84 (partial, missing containers): if a whole top-level container is missing, an exception is
raised. -/
theorem c84_missing_partial {β : Type} (names : List Key) (ts : List (Tree α)) (target : Tree β)
    (ks : List Path) (hk : dictKeys target = .ok ks) (k j : Key) (p : Path)
    (hp : k :: j :: p ∈ ks) (hm : k ∉ names) :
    ∃ e, dictToTree (.node (.dict names) ts) target = .error e := by
  have hlook : (names.zip ts).lookup k = none := by
    rw [List.lookup_eq_none_iff]
    rintro ⟨a, b⟩ hab
    apply bne_iff_ne.2
    rintro (rfl : k = a)
    exact hm (List.of_mem_zip hab).1
  obtain ⟨e, he⟩ := mapExcept_fails (getPath (.node (.dict names) ts)) ks _ hp .attributeError
    (by simp [getPath, dictGet, hlook])
  exact ⟨e, by simp [dictToTree, hk, he]⟩

/-- A dictionary with an additional entry. -/
example : ∃ f : Path → Nat, ∀ x ∈ namedLeaves (.node (.dict [['a'], ['b']])
      [.leaf 0, .node .list [.leaf 0, .leaf 0]] : Tree Nat),
    (x.1, f x.1) ∈ namedLeaves (.node (.dict [['a'], ['b'], ['c']])
      [.leaf 1, .node (.dict [elemName 0, elemName 1]) [.leaf 2, .leaf 3], .leaf 4] : Tree Nat) := by
  refine ⟨fun p => if p = [['a']] then 1 else if p = [['b'], elemName 0] then 2 else 3, ?_⟩
  decide +kernel

end JaxSgmc
