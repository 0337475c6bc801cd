import Verif.Lemmas.Registry
import Verif.Props.Tree

/-!
# Rules for custom nodes: C114, C115, C116
-/

namespace JaxSgmc

open Spec

variable {α : Type}

/-! ### C114: the rule of a registered type -/

/-- C114: a rule that was registered successfully is used for all nodes of its type (with leaves),
whatever was registered before and is registered later. -/
def C114Statement : Prop :=
  ∀ (ct : ClassTable), PythonClasses ct → ∀ (before later : List (PyClass × Rule Nat)) (c : PyClass)
    (r : Rule Nat) (reg : Registry Nat), register (registryAfter ct before) c r = .ok reg →
    ∀ (k : Kind) (ts : List (Tree Nat)) (n : Nat), k.cls = c → Tree.leavesL ts ≠ [] →
    toDictR ct (registryAfter ct (before ++ (c, r) :: later)) (n + 1) (.node k ts) =
      (r k ts).bind (translated (toDictR ct (registryAfter ct (before ++ (c, r) :: later)) n))

/-- Classes of the example: every class with a name is a subclass of `tuple` with fields. -/
def exampleClasses : ClassTable where
  isSub a b := a == b || (match a, b with | .other _, .tuple => true | _, _ => false)
  hasFields c := match c with | .other _ => true | _ => false

theorem exampleClasses_ok : PythonClasses exampleClasses where
  refl c := by simp [exampleClasses]
  list_tuple := rfl
  list_dict := rfl
  tuple_list := rfl
  tuple_dict := rfl
  dict_list := rfl
  dict_tuple := rfl
  tuple_fields := rfl

/-- A rule of the user which adds a prefix to the names of the fields. -/
def examplePrefixRule : Rule Nat := fun k ts => .ok ((k.ownNames.map (fun n => 'x' :: n)).zip ts)

/-- C114 is false of the code: the rule for a named tuple is registered without an error, but the
rule for tuples is used, because it was registered first. -/
theorem c114_false : ¬ C114Statement := by
  intro h
  have h1 := h exampleClasses exampleClasses_ok [] [] (.other ['P']) examplePrefixRule
    (builtinRules exampleClasses ++ [(.other ['P'], examplePrefixRule)])
    rfl (.ntuple ['P'] [['a']]) [.leaf 1] 1 rfl (by simp [Tree.leavesL, Tree.leaves])
  have h2 : toDictR exampleClasses
      (registryAfter exampleClasses [(PyClass.other ['P'], examplePrefixRule)]) (1 + 1)
      (.node (.ntuple ['P'] [['a']]) [.leaf 1]) = .ok (.node (.dict [['a']]) [.leaf 1]) := rfl
  have h3 : translated (toDictR exampleClasses
      (registryAfter exampleClasses [(PyClass.other ['P'], examplePrefixRule)]) 1)
      [(['x', 'a'], .leaf 1)] = .ok (.node (.dict [['x', 'a']]) [.leaf 1]) := rfl
  have h4 : examplePrefixRule (.ntuple ['P'] [['a']]) [.leaf 1]
      = .ok [(['x', 'a'], Tree.leaf 1)] := rfl
  rw [List.nil_append, h2, h4, Except.bind, h3] at h1
  simp at h1

/-- C114 (partial): the rule is used for all instances (with leaves) of its type for which no earlier
registered type is a superclass. -/
theorem c114_used_partial (ct : ClassTable) (before later : List (PyClass × Rule α)) (c : PyClass)
    (r : Rule α) (k : Kind) (ts : List (Tree α)) (n : Nat) (hc : ct.isSub k.cls c = true)
    (hfirst : UnknownNode ct before k) (hl : Tree.leavesL ts ≠ []) :
    toDictR ct (registryAfter ct (before ++ (c, r) :: later)) (n + 1) (.node k ts) =
      (r k ts).bind (translated (toDictR ct (registryAfter ct (before ++ (c, r) :: later)) n)) := by
  rw [toDictR_node ct _ n k ts (ne_nil_of_leavesL hl)]
  have hnone : ∀ e ∈ registryAfter ct before, ct.isSub k.cls e.1 = false := by
    obtain ⟨more, h1, h2⟩ := registryAfter_eq ct before
    rw [h1]
    intro e he
    rcases List.mem_append.1 he with hb | hm
    · simp only [builtinRules, List.mem_cons, List.not_mem_nil, or_false] at hb
      rcases hb with rfl | rfl | rfl
      · exact hfirst.2.2.1
      · exact hfirst.1
      · exact hfirst.2.1
    · exact hfirst.2.2.2 e (h2.subset hm)
  have hnew : c ∉ (registryAfter ct before).map Prod.fst := by
    intro hm
    obtain ⟨e, he, rfl⟩ := List.mem_map.1 hm
    rw [hnone e he] at hc
    cases hc
  obtain ⟨more, h1, -⟩ := registryAfter_append ct (before ++ [(c, r)]) later
  rw [registryAfter_snoc, if_neg hnew, List.append_assoc, List.singleton_append] at h1
  have hd : dictionize ct (registryAfter ct (before ++ (c, r) :: later)) k ts = r k ts := by
    rw [dictionize, if_neg hl, h1, List.append_assoc, List.find?_append,
      List.find?_eq_none.2 (fun e he => by simp [hnone e he]), Option.none_or,
      List.singleton_append, List.find?_cons_of_pos (by simpa using hc)]
  rw [hd]

/-- Classes of the example: `['C']` is a class without superclasses, `['D']` its subclass. -/
def customClasses : ClassTable where
  isSub a b := a == b || (a == .other ['D'] && b == .other ['C'])
  hasFields _ := false

theorem customClasses_ok : PythonClasses customClasses where
  refl c := by simp [customClasses]
  list_tuple := rfl
  list_dict := rfl
  tuple_list := rfl
  tuple_dict := rfl
  dict_list := rfl
  dict_tuple := rfl
  tuple_fields := rfl

example : customClasses.isSub (Kind.cls (.ntuple ['D'] [])) (.other ['C']) = true ∧
    UnknownNode customClasses [(PyClass.other ['E'], examplePrefixRule)] (.ntuple ['D'] []) ∧
    Tree.leavesL [Tree.leaf 3] ≠ [] := by
  refine ⟨rfl, ⟨rfl, rfl, rfl, ?_⟩, by simp [Tree.leavesL, Tree.leaves]⟩
  intro e he
  rw [List.mem_singleton] at he
  subst he
  rfl

/-- C114: a second registration for the same type raises an `AssertionError`, and a registration
for a new type succeeds. -/
theorem c114_register (ct : ClassTable) (calls : List (PyClass × Rule α)) (c : PyClass)
    (r : Rule α) :
    ((c = .list ∨ c = .tuple ∨ c = .dict ∨ c ∈ calls.map Prod.fst) →
      register (registryAfter ct calls) c r = .error .assertionError) ∧
    (¬ (c = .list ∨ c = .tuple ∨ c = .dict ∨ c ∈ calls.map Prod.fst) →
      register (registryAfter ct calls) c r = .ok (registryAfter ct (calls ++ [(c, r)]))) := by
  constructor
  · intro h
    rw [register, if_pos]
    rcases h with rfl | rfl | rfl | h
    · exact registryAfter_builtin ct calls _ (by simp [builtinRules])
    · exact registryAfter_builtin ct calls _ (by simp [builtinRules])
    · exact registryAfter_builtin ct calls _ (by simp [builtinRules])
    · obtain ⟨e, he, rfl⟩ := List.mem_map.1 h
      exact registryAfter_mem ct calls e he
  · intro h
    have hn : c ∉ (registryAfter ct calls).map Prod.fst := by
      obtain ⟨more, h1, h2⟩ := registryAfter_eq ct calls
      rw [h1, List.map_append, List.mem_append]
      rintro (hb | hm)
      · simp only [builtinRules, List.map_cons, List.map_nil, List.mem_cons, List.not_mem_nil,
          or_false] at hb
        tauto
      · exact h (.inr (.inr (.inr ((h2.map Prod.fst).subset hm))))
    rw [register, if_neg hn, registryAfter_snoc, if_neg hn]

theorem registryAfter_childrenOnly (ct : ClassTable) (calls : List (PyClass × Rule α))
    (h : ∀ e ∈ calls, ChildrenOnly e.2) : ∀ e ∈ registryAfter ct calls, ChildrenOnly e.2 := by
  obtain ⟨more, h1, h2⟩ := registryAfter_eq ct calls
  rw [h1]
  intro e he
  have henum : ∀ (ts : List (Tree α)), ∀ x ∈ enumItems ts, x.2 ∈ ts :=
    fun ts x hx => (List.of_mem_zip hx).2
  rcases List.mem_append.1 he with hb | hm
  · simp only [builtinRules, List.mem_cons, List.not_mem_nil, or_false] at hb
    rcases hb with rfl | rfl | rfl
    · intro k ts items hi x hx
      cases hi
      exact (List.of_mem_zip hx).2
    · intro k ts items hi x hx
      cases hi
      exact henum ts x hx
    · intro k ts items hi x hx
      dsimp only [tupleRule] at hi
      split at hi
      · cases hi
        exact (List.of_mem_zip hx).2
      · cases hi
        exact henum ts x hx
  · exact h e (h2.subset hm)

theorem mapExcept_congr {β γ : Type} (f g : β → Except PyErr γ) (xs : List β)
    (h : ∀ x ∈ xs, f x = g x) : mapExcept f xs = mapExcept g xs := by
  induction xs with
  | nil => rfl
  | cons x xs ih =>
    rw [mapExcept, mapExcept, h x (by simp), ih (fun y hy => h y (by simp [hy]))]

/-- C114: the registration of a rule does not change the dictionaries of trees without instances of
its type, if the rules registered before return only children of the node. -/
theorem c114_local (ct : ClassTable) (calls : List (PyClass × Rule α)) (c : PyClass) (r : Rule α)
    (hco : ∀ e ∈ calls, ChildrenOnly e.2) (t : Tree α) (ht : NoInstance ct c t) (n : Nat) :
    toDictR ct (registryAfter ct (calls ++ [(c, r)])) n t = toDictR ct (registryAfter ct calls) n t := by
  rw [registryAfter_snoc]
  split
  · rfl
  have hco' := registryAfter_childrenOnly ct calls hco
  generalize registryAfter ct calls = reg at hco'
  induction n generalizing t with
  | zero => rfl
  | succ n ih =>
    cases t with
    | leaf a => rfl
    | none => rfl
    | node k ts =>
      by_cases h0 : ts = []
      · subst h0; rfl
      have hts := (NoInstanceL_iff ct c ts).1 ht.2
      rw [toDictR_node ct _ n k ts h0, toDictR_node ct _ n k ts h0]
      have hd : dictionize ct (reg ++ [(c, r)]) k ts = dictionize ct reg k ts := by
        rw [dictionize, dictionize, List.find?_append,
          List.find?_cons_of_neg (by simp [ht.1]), List.find?_nil, Option.or_none]
      rw [hd]
      cases hi : dictionize ct reg k ts with
      | error e => rfl
      | ok items =>
        dsimp only [translated, Except.bind]
        congr 1
        refine mapExcept_congr _ _ _ (fun x hx => ?_)
        have hx2 : NoInstance ct c x.2 := by
          rw [dictionize] at hi
          split at hi
          · cases hi; simp at hx
          · split at hi
            · rename_i e he
              exact hts _ (hco' e (List.mem_of_find?_eq_some he) k ts items hi x hx)
            · cases hi
              have h2 := (List.of_mem_zip hx).2
              obtain ⟨a, -, ha⟩ := List.mem_map.1 h2
              rw [← ha]
              trivial
        rw [ih x.2 hx2]

/-- The conditions can be met: a dict, a list and an object of class `['C']`; the new rule is for
class `['E']`. -/
example : NoInstance customClasses (.other ['E'])
    (.node .list [.node (.ntuple ['C'] []) [.leaf 1], .node (.dict [['a']]) [.leaf 2]] : Tree Nat) ∧
    ∀ e ∈ [(PyClass.other ['C'], (examplePrefixRule : Rule Nat))], ChildrenOnly e.2 := by
  refine ⟨⟨rfl, ⟨rfl, trivial, trivial⟩, ⟨rfl, trivial, trivial⟩, trivial⟩, ?_⟩
  intro e he
  rw [List.mem_singleton] at he
  subst he
  intro k ts items hi x hx
  cases hi
  exact (List.of_mem_zip hx).2

/-- C114: rules of the user never change the dictionaries of trees of lists, tuples, dicts and named
tuples: they are those of C51 to C53. -/
theorem c114_standard (ct : ClassTable) (hpc : PythonClasses ct) (calls : List (PyClass × Rule α))
    (t : Tree α) (hw : WF t) (hs : StandardNodes ct t) (n : Nat) (hn : height t ≤ n) :
    toDictR ct (registryAfter ct calls) n t = .ok (toDict t) := by
  induction t using Tree.ind generalizing n with
  | hleaf a =>
    obtain ⟨m, rfl⟩ : ∃ m, n = m + 1 := ⟨n - 1, by simp [height] at hn; omega⟩
    simp [toDictR, toDict]
  | hnone =>
    obtain ⟨m, rfl⟩ : ∃ m, n = m + 1 := ⟨n - 1, by simp [height] at hn; omega⟩
    simp [toDictR, toDict]
  | hnode k ts ih =>
    obtain ⟨m, rfl⟩ : ∃ m, n = m + 1 := ⟨n - 1, by simp [height] at hn; omega⟩
    have hm : heightL ts ≤ m := by simpa [height] using hn
    by_cases h0 : ts = []
    · subst h0; simp [toDictR, toDict]
    have hws : ∀ t ∈ ts, WF t := (WFL_iff ts).1 hw.2
    have hss : ∀ t ∈ ts, StandardNodes ct t := (AllNodesL_iff _ ts).1 hs.2
    rw [toDictR_node ct _ m k ts h0, toDict_node k ts h0]
    by_cases hl : Tree.leavesL ts = []
    · rw [dictionize, if_pos hl, if_pos hl]
      simp [translated, mapExcept, Except.bind, Except.map, dictComp, mkDict]
    rw [if_neg hl]
    obtain ⟨more, hreg, -⟩ := registryAfter_eq ct calls
    have hitems : dictionize ct (registryAfter ct calls) k ts
        = .ok ((childNames k ts.length).zip ts) := by
      rw [dictionize, if_neg hl, hreg, List.find?_append]
      have hst := hs.1
      cases k with
      | list =>
        simp only [builtinRules, Kind.cls, List.find?_cons, hpc.list_dict, hpc.refl]
        rfl
      | tuple =>
        simp only [builtinRules, Kind.cls, List.find?_cons, hpc.tuple_dict, hpc.tuple_list, hpc.refl]
        simp only [Option.some_or, tupleRule, Kind.cls, hpc.tuple_fields]
        rfl
      | dict ks =>
        simp only [builtinRules, Kind.cls, List.find?_cons, hpc.refl]
        rfl
      | ntuple nm fs =>
        simp only [Kind.cls, reduceCtorEq, false_or] at hst
        simp only [builtinRules, Kind.cls, List.find?_cons, hst.1, hst.2.2.1, hst.2.2.2]
        simp only [Option.some_or, tupleRule, Kind.cls, hst.2.1]
        rfl
    rw [hitems]
    dsimp only [translated, Except.bind]
    rw [mapExcept_eq (g := fun x => (x.1, toDict x.2))]
    · rw [Except.map, dictComp_nodup]
      · congr 2
        rw [List.zip_map_right]
        rfl
      · rw [List.map_map]
        have : (Prod.fst ∘ fun x : Key × Tree α => (x.1, toDict x.2)) = Prod.fst := rfl
        rw [this, List.map_fst_zip (childNames_length k ts hw).le]
        exact childNames_nodup k ts hw
    · intro x hx
      have hx2 := (List.of_mem_zip hx).2
      rw [ih x.2 hx2 (hws _ hx2) (hss _ hx2) m ((height_le_heightL ts _ hx2).trans hm)]
      rfl

example : PythonClasses exampleClasses ∧ WF exampleBA ∧ StandardNodes exampleClasses exampleBA ∧
    height exampleBA = 2 := by
  refine ⟨exampleClasses_ok, c51_false_swapped.1, ⟨?_, ?_⟩, rfl⟩
  · exact .inr (.inr (.inr ⟨rfl, rfl, rfl, rfl⟩))
  · exact ⟨trivial, trivial, trivial⟩

theorem lookup_perm_nodup {s s' : List (Key × Tree α)} (hp : s.Perm s') (h : (s.map Prod.fst).Nodup)
    (k : Key) : s.lookup k = s'.lookup k := by
  induction hp with
  | nil => rfl
  | cons x _ ih =>
    rw [List.map_cons, List.nodup_cons] at h
    rw [show x = (x.1, x.2) from rfl, List.lookup_cons, List.lookup_cons, ih h.2]
  | swap x y l =>
    rw [show x = (x.1, x.2) from rfl, show y = (y.1, y.2) from rfl]
    simp only [List.lookup_cons]
    by_cases hx : (k == x.1) = true <;> by_cases hy : (k == y.1) = true
    · have : x.1 = y.1 := by rw [← beq_iff_eq.1 hx, ← beq_iff_eq.1 hy]
      simp [this] at h
    · simp [hx, hy]
    · simp [hx, hy]
    · simp [hx, hy]
  | trans h1 _ ih1 ih2 => rw [ih1 h, ih2 ((h1.map Prod.fst).nodup_iff.1 h)]

theorem assignItem_spec (d : List (Key × Tree α)) (x : Key × Tree α) (h : (d.map Prod.fst).Nodup) :
    ((assignItem d x).map Prod.fst).Nodup ∧
      ∀ k, (assignItem d x).lookup k = if k = x.1 then some x.2 else d.lookup k := by
  unfold assignItem
  split
  · rename_i hx
    have hfst : (d.map (fun y => if y.1 = x.1 then x else y)).map Prod.fst = d.map Prod.fst := by
      rw [List.map_map]
      refine List.map_congr_left (fun y _ => ?_)
      dsimp only [Function.comp]
      split
      · rename_i e; exact e.symm
      · rfl
    refine ⟨hfst ▸ h, fun k => ?_⟩
    clear hfst h
    induction d with
    | nil => simp at hx
    | cons y d ih =>
      rw [List.map_cons]
      by_cases hy : y.1 = x.1
      · rw [if_pos hy, show x = (x.1, x.2) from rfl, List.lookup_cons]
        by_cases hk : k = x.1
        · simp [hk]
        · rw [beq_false_of_ne hk, if_neg hk, show y = (y.1, y.2) from rfl, List.lookup_cons,
            beq_false_of_ne (by rw [hy]; exact hk)]
          dsimp only
          by_cases hx' : x.1 ∈ d.map Prod.fst
          · rw [ih hx', if_neg hk]
          · congr 1
            conv_rhs => rw [← List.map_id d]
            refine List.map_congr_left (fun z hz => ?_)
            rw [if_neg]
            · rfl
            · exact fun e => hx' (e ▸ List.mem_map_of_mem (f := Prod.fst) hz)
      · have hx' : x.1 ∈ d.map Prod.fst := by
          rw [List.map_cons, List.mem_cons] at hx
          exact hx.resolve_left (fun e => hy e.symm)
        rw [if_neg hy, show y = (y.1, y.2) from rfl, List.lookup_cons, List.lookup_cons]
        by_cases hk : k = y.1
        · rw [if_neg (by rw [hk]; exact hy)]
          simp [hk]
        · rw [beq_false_of_ne hk]
          exact ih hx'
  · rename_i hx
    refine ⟨?_, fun k => ?_⟩
    · rw [List.map_append, List.map_cons, List.map_nil, List.nodup_append]
      refine ⟨h, by simp, fun a ha b hb e => hx ?_⟩
      rw [List.mem_singleton] at hb
      rw [← hb, ← e]
      exact ha
    · clear h
      induction d with
      | nil =>
        rw [List.nil_append, show x = (x.1, x.2) from rfl, List.lookup_cons]
        by_cases hk : k = x.1
        · simp [hk]
        · rw [beq_false_of_ne hk, if_neg hk]
      | cons y d ih =>
        rw [List.map_cons, List.mem_cons, not_or] at hx
        rw [List.cons_append, show y = (y.1, y.2) from rfl, List.lookup_cons, List.lookup_cons]
        by_cases hk : k = y.1
        · rw [if_neg (by rw [hk]; exact fun e => hx.1 e.symm)]
          simp [hk]
        · rw [beq_false_of_ne hk]
          exact ih hx.2

/-- C114: if a rule returns several values for one name, the last one is stored. -/
theorem c114_last_wins (translate : Tree α → Except PyErr (Tree α)) (items : List (Key × Tree α))
    (d : Tree α) (h : translated translate items = .ok d) (k : Key) :
    (∃ u v, items.reverse.lookup k = some u ∧ translate u = .ok v ∧ dictGet d k = .ok v) ∨
    (items.reverse.lookup k = none ∧ dictGet d k = .ok .none) := by
  rw [translated] at h
  have key : ∀ ds, mapExcept (fun x : Key × Tree α => (translate x.2).map (fun d => (x.1, d))) items
      = .ok ds → (∃ u v, items.reverse.lookup k = some u ∧ translate u = .ok v ∧
        ds.reverse.lookup k = some v) ∨ (items.reverse.lookup k = none ∧ ds.reverse.lookup k = none) := by
    clear h
    induction items with
    | nil =>
      intro ds hds
      simp only [mapExcept, Except.ok.injEq] at hds
      subst hds
      exact .inr ⟨rfl, rfl⟩
    | cons x items ih =>
      intro ds hds
      rw [mapExcept] at hds
      cases hx : translate x.2 with
      | error e => rw [hx] at hds; simp [Except.map] at hds
      | ok v =>
        rw [hx, Except.map] at hds
        dsimp only at hds
        cases hr : mapExcept (fun x : Key × Tree α => (translate x.2).map (fun d => (x.1, d))) items with
        | error e => rw [hr] at hds; simp at hds
        | ok ds' =>
          rw [hr] at hds
          simp only [Except.ok.injEq] at hds
          subst hds
          rw [List.reverse_cons, List.reverse_cons, List.lookup_append, List.lookup_append]
          rcases ih ds' hr with ⟨u, w, h1, h2, h3⟩ | ⟨h1, h2⟩
          · exact .inl ⟨u, w, by rw [h1]; rfl, h2, by rw [h3]; rfl⟩
          · rw [h1, h2, Option.none_or, Option.none_or, show x = (x.1, x.2) from rfl, List.lookup_cons,
              List.lookup_cons]
            by_cases hk : k = x.1
            · exact .inl ⟨x.2, v, by simp [hk], hx, by simp [hk]⟩
            · rw [beq_false_of_ne hk]
              exact .inr ⟨rfl, rfl⟩
  cases hm : mapExcept (fun x : Key × Tree α => (translate x.2).map (fun d => (x.1, d))) items with
  | error e => rw [hm] at h; simp [Except.map] at h
  | ok ds =>
    rw [hm, Except.map] at h
    cases h
    have hfold : ((ds.foldl assignItem []).map Prod.fst).Nodup ∧
        (ds.foldl assignItem []).lookup k = ds.reverse.lookup k := by
      clear hm key
      induction ds using List.reverseRecOn with
      | nil => simp
      | append_singleton ds x ih =>
        rw [List.foldl_append, List.foldl_cons, List.foldl_nil, List.reverse_append,
          List.reverse_singleton, List.singleton_append]
        obtain ⟨h1, h2⟩ := assignItem_spec _ x ih.1
        refine ⟨h1, ?_⟩
        rw [h2 k, ih.2]
        rw [show x = (x.1, x.2) from rfl, List.lookup_cons]
        by_cases hk : k = x.1
        · simp [hk]
        · rw [beq_false_of_ne hk, if_neg hk]
    obtain ⟨s, hp, -, he⟩ := mkDict_items (ds.foldl assignItem [])
    have hget : dictGet (dictComp ds) k = .ok ((ds.reverse.lookup k).getD .none) := by
      rw [dictComp, he, dictGet, zip_fst_snd,
        lookup_perm_nodup hp ((hp.map Prod.fst).nodup_iff.2 hfold.1), hfold.2]
    rcases key ds hm with ⟨u, v, h1, h2, h3⟩ | ⟨h1, h2⟩
    · exact .inl ⟨u, v, h1, h2, by rw [hget, h3]; rfl⟩
    · exact .inr ⟨h1, by rw [hget, h2]; rfl⟩

example : translated (fun t => .ok t) [(['a'], Tree.leaf 1), (['b'], Tree.leaf 2), (['a'], Tree.leaf 3)]
    = .ok (.node (.dict [['a'], ['b']]) [.leaf 3, .leaf 2]) := rfl

/-! ### C115: no leaf is lost -/

/-- An object of a class without a registered rule with two children, in a list. -/
def exampleUnknown : Tree Nat :=
  .node .list [.node (.ntuple ['C'] []) [.leaf 5, .node .tuple [.leaf 6, .none]], .leaf 7]

/-- C115: for every tree with nodes of any class, whatever was registered, the dictionary is built
and has the leaves of the tree. -/
theorem c115_leaves (ct : ClassTable) (calls : List (PyClass × Rule α))
    (t : Tree α) (hw : WFC ct t) (hr : RulesNameChildren ct calls t) (n : Nat) (hn : height t ≤ n) :
    ∃ d, toDictR ct (registryAfter ct calls) n t = .ok d ∧ d.leaves.Perm t.leaves := by
  obtain ⟨u, h1, h2, h3, -⟩ := toDictR_flat ct calls t n hw hr hn
  refine ⟨_, h2, List.Perm.trans ?_ h3⟩
  rw [← namedLeaves_snd _ (toDict_wf u h1), ← namedLeaves_snd u h1]
  exact (namedLeaves_toDict_perm u h1).map _

/-- C115: the key tuples of the leaves are unique, there is one for every leaf, and none is a prefix of
another one. -/
theorem c115_unique (ct : ClassTable) (calls : List (PyClass × Rule α))
    (t : Tree α) (hw : WFC ct t) (hr : RulesNameChildren ct calls t) (he : hasEmptySeq t = false)
    (n : Nat) (hn : height t ≤ n) :
    ∃ ks, dictKeysR ct (registryAfter ct calls) n t = .ok ks ∧ ks.length = t.leaves.length ∧ ks.Nodup ∧
      ks.Pairwise (fun p q => ¬ p <+: q ∧ ¬ q <+: p) := by
  obtain ⟨u, h1, h2, h3, h4, -⟩ := toDictR_flat ct calls t n hw hr hn
  obtain ⟨ks, hk⟩ := (dictKeys_ok_iff u h1).2 (h4 he)
  obtain ⟨h5, h6, h7⟩ := c53_unique u h1 ks hk
  refine ⟨ks, ?_, h5.trans h3.length_eq, h6, h7⟩
  rw [dictKeysR, h2]
  exact hk

/-- C115: the leaves of an object of an unregistered class are stored in order under the names
`unknown~pytree~leaf~0`, `unknown~pytree~leaf~1`, …. -/
theorem c115_unknown (ct : ClassTable) (calls : List (PyClass × Rule α)) (k : Kind)
    (ts : List (Tree α)) (hk : UnknownNode ct calls k) (hl : Tree.leavesL ts ≠ []) (n : Nat) :
    ∃ d, toDictR ct (registryAfter ct calls) (n + 2) (.node k ts) = .ok d ∧
      (∀ i a, (Tree.leavesL ts)[i]? = some a → dictGet d (unknownName i) = .ok (.leaf a)) ∧
      d.leaves.length = (Tree.leavesL ts).length := by
  have hfind : (registryAfter ct calls).find? (fun e => ct.isSub k.cls e.1) = none := by
    rw [List.find?_eq_none]
    obtain ⟨more, h1, h2⟩ := registryAfter_eq ct calls
    rw [h1]
    intro e he
    rw [Bool.not_eq_true]
    rcases List.mem_append.1 he with hb | hm
    · simp only [builtinRules, List.mem_cons, List.not_mem_nil, or_false] at hb
      rcases hb with rfl | rfl | rfl
      · exact hk.2.2.1
      · exact hk.1
      · exact hk.2.1
    · exact hk.2.2.2 e (h2.subset hm)
  have hsnd : (defaultItems ts).map Prod.snd = (Tree.leavesL ts).map Tree.leaf := by
    rw [defaultItems, List.map_snd_zip (by simp)]
  have hfst : (defaultItems ts).map Prod.fst
      = (List.range (Tree.leavesL ts).length).map unknownName := by
    rw [defaultItems, List.map_fst_zip (by simp)]
  have hnd : ((defaultItems ts).map Prod.fst).Nodup := by
    rw [hfst]; exact List.nodup_range.map unknownName_injective
  refine ⟨mkDict (defaultItems ts), ?_, ?_, ?_⟩
  · rw [toDictR_node ct _ _ k ts (ne_nil_of_leavesL hl), dictionize, if_neg hl, hfind]
    dsimp only [translated, Except.bind]
    rw [mapExcept_eq (g := id), List.map_id, Except.map, dictComp_nodup _ hnd]
    intro x hx
    have : x.2 ∈ (Tree.leavesL ts).map Tree.leaf := hsnd ▸ List.mem_map_of_mem hx
    obtain ⟨a, -, ha⟩ := List.mem_map.1 this
    rw [← ha, toDictR, Except.map, ha]
    rfl
  · intro i a ha
    obtain ⟨s, hp, -, he⟩ := mkDict_items (defaultItems ts)
    rw [he, dictGet, zip_fst_snd]
    have hmem : (unknownName i, Tree.leaf a) ∈ s := by
      rw [hp.mem_iff, defaultItems, List.mem_iff_getElem?]
      refine ⟨i, ?_⟩
      have hi : i < (Tree.leavesL ts).length := (List.getElem?_eq_some_iff.1 ha).1
      rw [List.getElem?_zip_eq_some]
      exact ⟨by simp [hi], by rw [List.getElem?_map, ha]; rfl⟩
    have hnds : (s.map Prod.fst).Nodup := (hp.map Prod.fst).nodup_iff.2 hnd
    have : s.lookup (unknownName i) = some (.leaf a) := by
      clear he hp
      induction s with
      | nil => simp at hmem
      | cons x s ih =>
        rw [List.map_cons, List.nodup_cons] at hnds
        rw [show x = (x.1, x.2) from rfl, List.lookup_cons]
        rcases List.mem_cons.1 hmem with h | h
        · rw [← h]; simp
        · have hne : unknownName i ≠ x.1 := fun e =>
            hnds.1 (e ▸ List.mem_map_of_mem (f := Prod.fst) h)
          rw [beq_false_of_ne hne]
          exact ih h hnds.2
    rw [this]
    rfl
  · obtain ⟨s, hp, -, he⟩ := mkDict_items (defaultItems ts)
    rw [he, Tree.leaves, Tree.leavesL_eq]
    have h1 := (hp.map Prod.snd).flatMap_right Tree.leaves
    rw [h1.length_eq, hsnd, List.flatMap_map]
    simp [Tree.leaves]

/-- The conditions of C115 and C116 can be met. -/
example : WFC customClasses exampleUnknown ∧ RulesNameChildren customClasses [] exampleUnknown ∧
    RulesInOrder customClasses [] exampleUnknown ∧
    hasEmptySeq exampleUnknown = false ∧ height exampleUnknown = 4 ∧
    UnknownNode customClasses ([] : List (PyClass × Rule Nat)) (.ntuple ['C'] []) ∧
    toDictR customClasses (registryAfter customClasses []) 4 exampleUnknown =
      .ok (.node (.dict [elemName 0, elemName 1]) [.node (.dict [unknownName 0, unknownName 1])
        [.leaf 5, .leaf 6], .leaf 7]) := by
  refine ⟨?_, ?_, ?_, rfl, rfl, ⟨rfl, rfl, rfl, by simp⟩, rfl⟩
  · simp [exampleUnknown, WFC, AllNodes, AllNodesL, HasNames, customClasses, Kind.cls, Kind.ownNames]
  · simp [RulesNameChildren, exampleUnknown, AllNodes, AllNodesL]
  · simp [RulesInOrder, exampleUnknown, AllNodes, AllNodesL, Kind.ownNames, Tree.leavesL, Tree.leaves]

/-- The conditions can be met with a rule of the user. -/
example : RulesNameChildren customClasses [(PyClass.other ['C'], examplePrefixRule)]
    (.node .list [.node (.ntuple ['D'] [['a'], ['b']]) [.leaf 5, .leaf 6], .leaf 7] : Tree Nat) ∧
    RulesInOrder customClasses [(PyClass.other ['C'], examplePrefixRule)]
    (.node .list [.node (.ntuple ['D'] [['a'], ['b']]) [.leaf 5, .leaf 6], .leaf 7] : Tree Nat) := by
  have hlist : customClasses.isSub (Kind.cls .list) (.other ['C']) = false := rfl
  have h1 : NamesChildrenInOrder examplePrefixRule (.ntuple ['D'] [['a'], ['b']])
      [Tree.leaf 5, Tree.leaf 6] := ⟨_, rfl, rfl, by decide +kernel⟩
  have h2 : NamesChildren examplePrefixRule (.ntuple ['D'] [['a'], ['b']])
      [Tree.leaf 5, Tree.leaf 6] := ⟨_, rfl, .refl _, by decide +kernel⟩
  constructor
  · refine ⟨?_, ⟨?_, trivial, trivial, trivial⟩, trivial, trivial⟩
    · intro e he hs
      rw [List.mem_singleton] at he
      subst he
      rw [hlist] at hs
      cases hs
    · intro e he _
      rw [List.mem_singleton] at he
      subst he
      exact h2
  · refine ⟨⟨?_, ?_, by simp, ?_⟩, ⟨⟨?_, ?_, by simp, ?_⟩, trivial, trivial, trivial⟩, trivial, trivial⟩
    · intro e he hs
      rw [List.mem_singleton] at he
      subst he
      rw [hlist] at hs
      cases hs
    · intro _
      simp [Kind.ownNames]
    · intro _
      decide +kernel
    · intro e he _
      rw [List.mem_singleton] at he
      subst he
      exact h1
    · intro _
      decide +kernel
    · intro _
      decide +kernel

/-! ### C116: restoring trees with custom nodes -/

/-- C116: `dict_to_pytree(pytree_to_dict(tree), tree)` is the tree. -/
def C116Statement : Prop :=
  ∀ (ct : ClassTable), PythonClasses ct → ∀ (calls : List (PyClass × Rule Nat)) (t : Tree Nat), WFC ct t →
    RulesNameChildren ct calls t → ∀ n, height t ≤ n →
    ∃ d, toDictR ct (registryAfter ct calls) n t = .ok d ∧
      dictToTreeR ct (registryAfter ct calls) n d t = .ok t

/-- C116 is false of the code: for an object of an unregistered class with eleven leaves. -/
theorem c116_false_eleven :
    ∃ d, toDictR customClasses (registryAfter customClasses []) 2
        (.node (.ntuple ['C'] []) ((List.range 11).map Tree.leaf)) = .ok d ∧
      dictToTreeR customClasses (registryAfter customClasses []) 2 d
        (.node (.ntuple ['C'] []) ((List.range 11).map Tree.leaf)) =
      .ok (.node (.ntuple ['C'] []) ([0, 1, 10, 2, 3, 4, 5, 6, 7, 8, 9].map Tree.leaf)) := by
  exact ⟨_, rfl, rfl⟩

theorem c116_false : ¬ C116Statement := by
  intro h
  have hw : WFC customClasses
      (.node (.ntuple ['C'] []) ((List.range 11).map Tree.leaf) : Tree Nat) := by
    simp [WFC, AllNodes, AllNodesL_iff, HasNames, customClasses, Kind.cls, Kind.ownNames]
  have hr : RulesNameChildren customClasses []
      (.node (.ntuple ['C'] []) ((List.range 11).map Tree.leaf) : Tree Nat) := by
    simp [RulesNameChildren, AllNodes, AllNodesL_iff]
  obtain ⟨d, h1, h2⟩ := h customClasses customClasses_ok [] _ hw hr 2 (by decide +kernel)
  obtain ⟨d', h1', h2'⟩ := c116_false_eleven
  rw [h1] at h1'
  cases h1'
  rw [h2] at h2'
  simp [List.range_succ] at h2'

theorem restore_flat (ct : ClassTable) (reg : Registry α) (n : Nat) (t u : Tree α) (h1 : WF u)
    (h2 : toDictR ct reg n t = .ok (toDict u)) (h3 : u.leaves.Perm t.leaves)
    (h4 : hasEmptySeq u = false) : ∃ r, dictToTreeR ct reg n (toDict u) t = .ok r ∧
      r.shape = t.shape ∧ r.leaves = (toDict u).leaves := by
  obtain ⟨ks, hk⟩ := (dictKeys_ok_iff u h1).2 h4
  have hl : (toDict u).leaves.Perm u.leaves := by
    rw [← namedLeaves_snd _ (toDict_wf u h1), ← namedLeaves_snd _ h1]
    exact (namedLeaves_toDict_perm u h1).map _
  obtain ⟨r, hr1, hr2, hr3⟩ := Tree.unflatten_ok t (toDict u).leaves (hl.trans h3).length_eq
  refine ⟨r, ?_, hr3, hr2⟩
  have hk' : dictKeysR ct reg n t = .ok ks := by rw [dictKeysR, h2]; exact hk
  rw [dictToTreeR, hk']
  dsimp only
  rw [dictToTree_toDict u h1 ks hk]
  dsimp only
  have := Tree.unflatten_leaves t (r.map Tree.leaf) ((Tree.shape_map _ _).trans hr3).symm
  rw [Tree.leaves_map, hr2] at this
  rw [this]
  simp [Except.map, graft_map_leaf]

/-- C116 (partial): the restored tree has the structure of the tree and its leaves, but possibly
permuted. -/
theorem c116_permuted_partial (ct : ClassTable)  (calls : List (PyClass × Rule α))
    (t : Tree α) (hw : WFC ct t) (hr : RulesNameChildren ct calls t)
    (he : hasEmptySeq t = false) (n : Nat) (hn : height t ≤ n) :
    ∃ d r, toDictR ct (registryAfter ct calls) n t = .ok d ∧
      dictToTreeR ct (registryAfter ct calls) n d t = .ok r ∧ r.shape = t.shape ∧
      r.leaves.Perm t.leaves := by
  obtain ⟨u, h1, h2, h3, h4, -⟩ := toDictR_flat ct calls t n hw hr hn
  obtain ⟨r, hr1, hr2, hr3⟩ := restore_flat ct _ n t u h1 h2 h3 (h4 he)
  refine ⟨_, r, h2, hr1, hr2, ?_⟩
  rw [hr3]
  refine List.Perm.trans ?_ h3
  rw [← namedLeaves_snd _ (toDict_wf u h1), ← namedLeaves_snd _ h1]
  exact (namedLeaves_toDict_perm u h1).map _

/-- C116 (partial): the round trip is the identity if the names are in the order of the leaves. -/
theorem c116_roundtrip_partial (ct : ClassTable)  (calls : List (PyClass × Rule α))
    (t : Tree α) (hw : WFC ct t) (hr : RulesNameChildren ct calls t)
    (ho : RulesInOrder ct calls t) (he : hasEmptySeq t = false) (n : Nat) (hn : height t ≤ n) :
    ∃ d, toDictR ct (registryAfter ct calls) n t = .ok d ∧
      dictToTreeR ct (registryAfter ct calls) n d t = .ok t := by
  obtain ⟨u, h1, h2, h3, h4, h5⟩ := toDictR_flat ct calls t n hw hr hn
  obtain ⟨r, hr1, hr2, hr3⟩ := restore_flat ct _ n t u h1 h2 h3 (h4 he)
  refine ⟨_, h2, ?_⟩
  rw [hr1]
  congr 1
  refine Tree.ext r t hr2 ?_
  rw [hr3, ← (h5 ho).2, ← namedLeaves_snd _ (toDict_wf u h1), namedLeaves_toDict_eq u h1 (h5 ho).1,
    namedLeaves_snd _ h1]

end JaxSgmc
