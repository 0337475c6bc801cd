import Verif.Spec.Registry
import Verif.Lemmas.Tree
import Mathlib.Data.List.Induction

/-!
# Lemmas about the registered rules
-/

namespace JaxSgmc

open Spec

variable {α : Type}

theorem Spec.AllNodesL_iff (P : Kind → List (Tree α) → Prop) (ts : List (Tree α)) :
    AllNodesL P ts ↔ ∀ t ∈ ts, AllNodes P t := by
  induction ts with
  | nil => simp [AllNodesL]
  | cons t ts ih => simp [AllNodesL, ih]

theorem Spec.NoInstanceL_iff (ct : ClassTable) (c : PyClass) (ts : List (Tree α)) :
    NoInstanceL ct c ts ↔ ∀ t ∈ ts, NoInstance ct c t := by
  induction ts with
  | nil => simp [NoInstanceL]
  | cons t ts ih => simp [NoInstanceL, ih]

theorem Spec.height_le_heightL (ts : List (Tree α)) (t : Tree α) (h : t ∈ ts) :
    height t ≤ heightL ts := by
  induction ts with
  | nil => simp at h
  | cons u us ih =>
    rcases List.mem_cons.1 h with rfl | h
    · exact le_max_left _ _
    · exact (ih h).trans (le_max_right _ _)

theorem Spec.one_le_heightL (ts : List (Tree α)) : 1 ≤ heightL ts := by
  induction ts with
  | nil => simp [heightL]
  | cons t ts ih => exact ih.trans (le_max_right _ _)

/-! ### Histories of registrations -/

/-- The registry consists of the rules of the module followed by some of the given calls. -/
theorem registryAfter_eq (ct : ClassTable) (calls : List (PyClass × Rule α)) :
    ∃ more, registryAfter ct calls = builtinRules ct ++ more ∧ more.Sublist calls := by
  induction calls using List.reverseRecOn with
  | nil => exact ⟨[], by simp [registryAfter], .slnil⟩
  | append_singleton calls e ih =>
    obtain ⟨more, h1, h2⟩ := ih
    unfold registryAfter at h1 ⊢
    rw [List.foldl_append, List.foldl_cons, List.foldl_nil, h1]
    unfold register
    split
    · split at *
      · simp at *
      · exact ⟨more ++ [e], by simp_all, h2.append (List.Sublist.refl _)⟩
    · exact ⟨more, rfl, h2.trans (List.sublist_append_left _ _)⟩

theorem registryAfter_append (ct : ClassTable) (calls later : List (PyClass × Rule α)) :
    ∃ more, registryAfter ct (calls ++ later) = registryAfter ct calls ++ more ∧
      more.Sublist later := by
  induction later using List.reverseRecOn with
  | nil => exact ⟨[], by simp, .slnil⟩
  | append_singleton later e ih =>
    obtain ⟨more, h1, h2⟩ := ih
    unfold registryAfter at h1 ⊢
    rw [← List.append_assoc, List.foldl_append, List.foldl_cons, List.foldl_nil, h1]
    unfold register
    split
    · split at *
      · simp at *
      · exact ⟨more ++ [e], by simp_all, h2.append (List.Sublist.refl _)⟩
    · exact ⟨more, rfl, h2.trans (List.sublist_append_left _ _)⟩

theorem registryAfter_builtin (ct : ClassTable) (calls : List (PyClass × Rule α)) (c : PyClass)
    (h : c ∈ (builtinRules (α := α) ct).map Prod.fst) :
    c ∈ (registryAfter ct calls).map Prod.fst := by
  obtain ⟨more, h1, -⟩ := registryAfter_eq ct calls
  rw [h1, List.map_append]
  exact List.mem_append_left _ h

theorem registryAfter_snoc (ct : ClassTable) (calls : List (PyClass × Rule α))
    (e : PyClass × Rule α) : registryAfter ct (calls ++ [e]) =
      if e.1 ∈ (registryAfter ct calls).map Prod.fst then registryAfter ct calls
      else registryAfter ct calls ++ [e] := by
  unfold registryAfter
  rw [List.foldl_append, List.foldl_cons, List.foldl_nil, register]
  split
  · split at * <;> simp_all
  · split at * <;> simp_all

/-- The type of every call is registered, by this or by an earlier call. -/
theorem registryAfter_mem (ct : ClassTable) (calls : List (PyClass × Rule α))
    (e : PyClass × Rule α) (h : e ∈ calls) : e.1 ∈ (registryAfter ct calls).map Prod.fst := by
  induction calls using List.reverseRecOn with
  | nil => simp at h
  | append_singleton calls e' ih =>
    rw [registryAfter_snoc]
    rcases List.mem_append.1 h with h | h
    · split
      · exact ih h
      · rw [List.map_append]
        exact List.mem_append_left _ (ih h)
    · rw [List.mem_singleton] at h
      subst h
      split
      · assumption
      · simp

/-! ### Dictionaries -/

theorem foldl_assignItem (items acc : List (Key × Tree α))
    (h : ((acc ++ items).map Prod.fst).Nodup) : items.foldl assignItem acc = acc ++ items := by
  induction items generalizing acc with
  | nil => simp
  | cons x items ih =>
    have hx : x.1 ∉ acc.map Prod.fst := by
      rw [List.map_append, List.map_cons, List.nodup_append] at h
      exact fun hm => h.2.2 _ hm _ (by simp) rfl
    rw [List.foldl_cons, assignItem, if_neg hx, ih _ (by simpa using h)]
    simp

theorem dictComp_nodup (items : List (Key × Tree α)) (h : (items.map Prod.fst).Nodup) :
    dictComp items = mkDict items := by
  rw [dictComp, foldl_assignItem items [] (by simpa using h)]
  simp

theorem toDictR_node (ct : ClassTable) (reg : Registry α) (n : Nat) (k : Kind)
    (ts : List (Tree α)) (h : ts ≠ []) :
    toDictR ct reg (n + 1) (.node k ts) =
      (dictionize ct reg k ts).bind (translated (toDictR ct reg n)) := by
  cases ts with
  | nil => exact absurd rfl h
  | cons t ts =>
    rw [toDictR]
    cases dictionize ct reg k (t :: ts) with
    | error e => rfl
    | ok items =>
      dsimp only [translated, Except.bind]
      cases mapExcept (fun x => (toDictR ct reg n x.2).map (fun d => (x.1, d))) items <;> rfl

theorem ne_nil_of_leavesL {ts : List (Tree α)} (h : Tree.leavesL ts ≠ []) : ts ≠ [] := by
  rintro rfl
  simp [Tree.leavesL] at h

theorem unknownName_injective : Function.Injective unknownName := by
  intro i j h
  simp only [unknownName, List.append_cancel_left_eq] at h
  have h1 := Nat.ofDigitChars_toDigits (b := 10) (n := i) (by decide) (by decide)
  have h2 := Nat.ofDigitChars_toDigits (b := 10) (n := j) (by decide) (by decide)
  rw [h] at h1
  omega

theorem unknownName_sorted : ((List.range 10).map unknownName).Pairwise (· < ·) := by
  decide +kernel

theorem range_pairwise_of_le {f : Nat → Key} {m n : Nat} (h : m ≤ n)
    (hp : ((List.range n).map f).Pairwise (· < ·)) : ((List.range m).map f).Pairwise (· < ·) :=
  hp.sublist ((List.range_sublist.2 h).map f)

/-- The built-in rules name the children of well-formed nodes. -/
theorem builtin_namesChildren (ct : ClassTable) (k : Kind) (ts : List (Tree α))
    (h : HasNames ct k → k.ownNames.length = ts.length ∧ k.ownNames.Nodup)
    (e : PyClass × Rule α) (he : e ∈ builtinRules ct)
    (hs : ct.isSub k.cls e.1 = true) : NamesChildren e.2 k ts ∧
    ((HasNames ct k → k.ownNames.Pairwise (· < ·)) →
      (ct.isSub k.cls .list = true ∨ ct.isSub k.cls .tuple = true → ts.length ≤ 10) →
      NamesChildrenInOrder e.2 k ts) := by
  have henum : ∀ r : Rule α, r k ts = .ok (enumItems ts) → NamesChildren r k ts ∧
      (ts.length ≤ 10 → NamesChildrenInOrder r k ts) := by
    intro r hr
    have h1 : (enumItems ts).map Prod.fst = (List.range ts.length).map elemName := by
      rw [enumItems, List.map_fst_zip (by simp)]
    have h2 : (enumItems ts).map Prod.snd = ts := by
      rw [enumItems, List.map_snd_zip (by simp)]
    refine ⟨⟨_, hr, by rw [h2], by rw [h1]; exact List.nodup_range.map elemName_injective⟩,
      fun hl => ⟨_, hr, h2, ?_⟩⟩
    rw [h1]
    exact range_pairwise_of_le hl elemName_sorted
  have hown : ∀ r : Rule α, r k ts = .ok (k.ownNames.zip ts) → k.ownNames.length = ts.length →
      k.ownNames.Nodup → NamesChildren r k ts ∧
      (k.ownNames.Pairwise (· < ·) → NamesChildrenInOrder r k ts) := by
    intro r hr hl hnd
    have h1 : (k.ownNames.zip ts).map Prod.fst = k.ownNames := List.map_fst_zip hl.le
    have h2 : (k.ownNames.zip ts).map Prod.snd = ts := List.map_snd_zip hl.ge
    exact ⟨⟨_, hr, by rw [h2], by rw [h1]; exact hnd⟩, fun hp => ⟨_, hr, h2, by rw [h1]; exact hp⟩⟩
  simp only [builtinRules, List.mem_cons, List.not_mem_nil, or_false] at he
  rcases he with rfl | rfl | rfl
  · have hk : HasNames ct k := .inl hs
    obtain ⟨h1, h2⟩ := hown dictRule rfl (h hk).1 (h hk).2
    exact ⟨h1, fun h3 _ => h2 (h3 hk)⟩
  · obtain ⟨h1, h2⟩ := henum listRule rfl
    exact ⟨h1, fun _ h3 => h2 (h3 (.inl hs))⟩
  · by_cases hf : ct.hasFields k.cls = true
    · have hk : HasNames ct k := .inr ⟨hs, hf⟩
      obtain ⟨h1, h2⟩ := hown (tupleRule ct) (by rw [tupleRule, if_pos hf]) (h hk).1 (h hk).2
      exact ⟨h1, fun h3 _ => h2 (h3 hk)⟩
    · obtain ⟨h1, h2⟩ := henum (tupleRule ct) (by rw [tupleRule, if_neg hf])
      exact ⟨h1, fun _ h3 => h2 (h3 (.inr hs))⟩

theorem leavesL_flatMap_perm (us ts : List (Tree α)) (f : Tree α → Tree α)
    (hp : us.Perm ts) (hf : ∀ t ∈ ts, (f t).leaves.Perm t.leaves) :
    (Tree.leavesL (us.map f)).Perm (Tree.leavesL ts) := by
  rw [Tree.leavesL_eq, Tree.leavesL_eq, List.flatMap_map]
  refine (hp.flatMap_right _).trans ?_
  clear hp us
  induction ts with
  | nil => simp
  | cons t ts ih =>
    simp only [List.flatMap_cons]
    exact (hf t (by simp)).append (ih (fun u hu => hf u (by simp [hu])))

theorem hasEmptySeq_node (k : Kind) (ts : List (Tree α)) (h0 : ts ≠ []) : hasEmptySeq (.node k ts)
    = if Tree.leavesL ts = [] then false else hasEmptySeqL ts := by
  cases ts with
  | nil => exact absurd rfl h0
  | cons t ts => simp [hasEmptySeq, hasEmptySeqL]

theorem hasEmptySeqL_false (ts : List (Tree α)) :
    hasEmptySeqL ts = false ↔ ∀ t ∈ ts, hasEmptySeq t = false := by
  rw [← Bool.not_eq_true, hasEmptySeqL_iff]
  push Not
  simp

/-- The dictionary of a tree with nodes of any class is the dictionary of a tree of named tuples. -/
theorem toDictR_flat (ct : ClassTable) (calls : List (PyClass × Rule α))
    (t : Tree α) : ∀ (n : Nat), WFC ct t → RulesNameChildren ct calls t → height t ≤ n →
    ∃ u, WF u ∧ toDictR ct (registryAfter ct calls) n t = .ok (toDict u) ∧
      u.leaves.Perm t.leaves ∧ (hasEmptySeq t = false → hasEmptySeq u = false) ∧
      (RulesInOrder ct calls t → Ordered u ∧ u.leaves = t.leaves) := by
  induction t using Tree.ind with
  | hleaf a =>
    intro n _ _ hn
    obtain ⟨m, rfl⟩ : ∃ m, n = m + 1 := ⟨n - 1, by simp [height] at hn; omega⟩
    exact ⟨.leaf a, by simp [WF], by simp [toDictR, toDict], .refl _, id, fun _ => ⟨by simp [Ordered], rfl⟩⟩
  | hnone =>
    intro n _ _ hn
    obtain ⟨m, rfl⟩ : ∃ m, n = m + 1 := ⟨n - 1, by simp [height] at hn; omega⟩
    exact ⟨.none, by simp [WF], by simp [toDictR, toDict], .refl _, id, fun _ => ⟨by simp [Ordered], rfl⟩⟩
  | hnode k ts ih =>
    intro n hw hr hn
    obtain ⟨m, rfl⟩ : ∃ m, n = m + 1 := ⟨n - 1, by simp [height] at hn; omega⟩
    have hm : heightL ts ≤ m := by simpa [height] using hn
    by_cases h0 : ts = []
    · subst h0
      have hnn := hw.1.2.2 rfl
      refine ⟨.node k [], ⟨?_, trivial⟩, by simp [toDictR, toDict], .refl _, id,
        fun ho => ⟨⟨?_, trivial⟩, rfl⟩⟩
      · cases k with
        | list => trivial
        | tuple => trivial
        | dict ks => dsimp only [Kind.ownNames] at hnn; subst hnn; simp
        | ntuple n fs => dsimp only [Kind.ownNames] at hnn; subst hnn; simp
      · cases k with
        | list => simp
        | tuple => simp
        | dict ks => trivial
        | ntuple n fs => dsimp only [Kind.ownNames] at hnn; subst hnn; simp
    by_cases hl : Tree.leavesL ts = []
    · refine ⟨.node .list [.none], by simp [WF, WFL], ?_, ?_, ?_, ?_⟩
      · rw [toDictR_node ct _ m k ts h0, dictionize, if_pos hl]
        simp [translated, mapExcept, Except.bind, Except.map, dictComp, mkDict, toDict, Tree.leavesL, Tree.leaves]
      · simp [Tree.leaves, Tree.leavesL, hl]
      · intro _
        simp [hasEmptySeq, Tree.leavesL, Tree.leaves]
      · intro _
        simp [Ordered, OrderedL, Tree.leaves, Tree.leavesL, hl]
    have hws : ∀ t ∈ ts, WFC ct t := (AllNodesL_iff _ ts).1 hw.2
    have hrs : ∀ t ∈ ts, RulesNameChildren ct calls t := (AllNodesL_iff _ ts).1 hr.2
    -- the case of a rule
    have hrule : ∀ r : Rule α, NamesChildren r k ts →
        (RulesInOrder ct calls (.node k ts) → NamesChildrenInOrder r k ts) →
        dictionize ct (registryAfter ct calls) k ts = r k ts →
        ∃ u, WF u ∧ toDictR ct (registryAfter ct calls) (m + 1) (.node k ts) = .ok (toDict u) ∧
        u.leaves.Perm (Tree.node k ts).leaves ∧
        (hasEmptySeq (.node k ts) = false → hasEmptySeq u = false) ∧
        (RulesInOrder ct calls (.node k ts) → Ordered u ∧ u.leaves = (Tree.node k ts).leaves) := by
      intro r hnc hio hdict
      obtain ⟨items, hi, hperm, hnd⟩ := hnc
      have hch : ∀ t, ∃ u, t ∈ ts → WF u ∧ toDictR ct (registryAfter ct calls) m t = .ok (toDict u) ∧
          u.leaves.Perm t.leaves ∧ (hasEmptySeq t = false → hasEmptySeq u = false) ∧
          (RulesInOrder ct calls t → Ordered u ∧ u.leaves = t.leaves) := by
        intro t
        by_cases ht : t ∈ ts
        · obtain ⟨u, hu⟩ := ih t ht m (hws t ht) (hrs t ht) ((height_le_heightL ts t ht).trans hm)
          exact ⟨u, fun _ => hu⟩
        · exact ⟨t, fun h => absurd h ht⟩
      choose f hf using hch
      have hmem : ∀ x ∈ items, x.2 ∈ ts := fun x hx =>
        hperm.mem_iff.1 (List.mem_map_of_mem hx)
      have hmap : mapExcept (fun x => (toDictR ct (registryAfter ct calls) m x.2).map
          (fun d => (x.1, d))) items = .ok (items.map (fun x => (x.1, toDict (f x.2)))) := by
        refine mapExcept_eq items (fun x hx => ?_)
        rw [(hf x.2 (hmem x hx)).2.1]
        rfl
      have hlen : items.length = ts.length := by
        have := hperm.length_eq
        simpa using this
      have hleaves : (Tree.leavesL ((items.map Prod.snd).map f)).Perm (Tree.leavesL ts) :=
        leavesL_flatMap_perm _ _ f hperm (fun t ht => (hf t ht).2.2.1)
      have hne : items ≠ [] := by
        intro e
        rw [e] at hlen
        exact h0 (List.length_eq_zero_iff.1 hlen.symm)
      have hus : (items.map Prod.snd).map f ≠ [] := by simpa using hne
      have hlu : Tree.leavesL ((items.map Prod.snd).map f) ≠ [] := by
        intro e
        rw [e] at hleaves
        exact hl hleaves.nil_eq.symm
      refine ⟨.node (.ntuple [] (items.map Prod.fst)) ((items.map Prod.snd).map f), ?_, ?_, ?_, ?_, ?_⟩
      · refine ⟨⟨by simp, hnd⟩, (WFL_iff _).2 (fun u hu => ?_)⟩
        obtain ⟨t, ht, rfl⟩ := List.mem_map.1 hu
        exact (hf t (hperm.mem_iff.1 ht)).1
      · rw [toDictR_node ct _ m k ts h0, hdict, hi]
        dsimp only [translated, Except.bind]
        rw [hmap, Except.map, dictComp_nodup _ (by simpa [Function.comp_def] using hnd),
          toDict_node _ _ hus, if_neg hlu, childNames, List.map_map, List.map_map, List.zip_map']
        rfl
      · exact hleaves
      · rw [hasEmptySeq_node k ts h0, if_neg hl, hasEmptySeq_node _ _ hus, if_neg hlu,
          hasEmptySeqL_false, hasEmptySeqL_false]
        intro hall u hu
        obtain ⟨t, ht, rfl⟩ := List.mem_map.1 hu
        have ht' := hperm.mem_iff.1 ht
        exact (hf t ht').2.2.2.1 (hall t ht')
      · intro ho
        obtain ⟨items', hi', hsnd, hsort⟩ := hio ho
        rw [hi] at hi'
        cases hi'
        have hos : ∀ t ∈ ts, RulesInOrder ct calls t := (AllNodesL_iff _ ts).1 ho.2
        refine ⟨⟨hsort, (OrderedL_iff _).2 (fun u hu => ?_)⟩, ?_⟩
        · obtain ⟨t, ht, rfl⟩ := List.mem_map.1 hu
          have ht' := hperm.mem_iff.1 ht
          exact ((hf t ht').2.2.2.2 (hos t ht')).1
        · rw [hsnd]
          simp only [Tree.leaves, Tree.leavesL_eq, List.flatMap_map]
          refine List.flatMap_congr (fun t ht => ?_)
          exact ((hf t ht).2.2.2.2 (hos t ht)).2
    obtain ⟨more, hreg, hsub⟩ := registryAfter_eq ct calls
    cases hfind : (registryAfter ct calls).find? (fun e => ct.isSub k.cls e.1) with
    | some e =>
      have hd : dictionize ct (registryAfter ct calls) k ts = e.2 k ts := by
        rw [dictionize, if_neg hl, hfind]
      have hsube : ct.isSub k.cls e.1 = true := by simpa using List.find?_some hfind
      have hmem := List.mem_of_find?_eq_some hfind
      rw [hreg, List.mem_append] at hmem
      rcases hmem with hb | hmore
      · obtain ⟨h1, h2⟩ := builtin_namesChildren ct k ts hw.1.1 e hb hsube
        exact hrule e.2 h1 (fun ho => h2 ho.1.2.1 ho.1.2.2.1) hd
      · have hc := hsub.subset hmore
        exact hrule e.2 (hr.1 e hc hsube) (fun ho => ho.1.1 e hc hsube) hd
    | none =>
      have hd : dictionize ct (registryAfter ct calls) k ts = .ok (defaultItems ts) := by
        rw [dictionize, if_neg hl, hfind]
      have hfst : (defaultItems ts).map Prod.fst
          = (List.range (Tree.leavesL ts).length).map unknownName := by
        rw [defaultItems, List.map_fst_zip (by simp)]
      have hsnd : (defaultItems ts).map Prod.snd = (Tree.leavesL ts).map Tree.leaf := by
        rw [defaultItems, List.map_snd_zip (by simp)]
      have hnd : ((defaultItems ts).map Prod.fst).Nodup := by
        rw [hfst]; exact List.nodup_range.map unknownName_injective
      have hm1 : 1 ≤ m := (one_le_heightL ts).trans hm
      obtain ⟨m', rfl⟩ : ∃ m', m = m' + 1 := ⟨m - 1, by omega⟩
      have hmap : mapExcept (fun x => (toDictR ct (registryAfter ct calls) (m' + 1) x.2).map
          (fun d => (x.1, d))) (defaultItems ts) = .ok (defaultItems ts) := by
        have := mapExcept_eq (f := fun x : Key × Tree α =>
          (toDictR ct (registryAfter ct calls) (m' + 1) x.2).map (fun d => (x.1, d))) (g := id)
          (defaultItems ts) (fun x hx => ?_)
        · rw [this, List.map_id]
        · have : x.2 ∈ (Tree.leavesL ts).map Tree.leaf := hsnd ▸ List.mem_map_of_mem hx
          obtain ⟨a, -, ha⟩ := List.mem_map.1 this
          rw [← ha, toDictR, Except.map, ha]
          rfl
      have hll : Tree.leavesL ((Tree.leavesL ts).map Tree.leaf) = Tree.leavesL ts := by
        rw [Tree.leavesL_eq, List.flatMap_map]
        simp [Tree.leaves]
      refine ⟨.node (.ntuple [] ((List.range (Tree.leavesL ts).length).map unknownName))
        ((Tree.leavesL ts).map Tree.leaf), ?_, ?_, ?_, ?_, ?_⟩
      · refine ⟨⟨by simp, List.nodup_range.map unknownName_injective⟩, (WFL_iff _).2 (fun u hu => ?_)⟩
        obtain ⟨a, -, rfl⟩ := List.mem_map.1 hu
        simp [WF]
      · rw [toDictR_node ct _ _ k ts h0, hd]
        dsimp only [translated, Except.bind]
        rw [hmap, Except.map, dictComp_nodup _ hnd, toDict_node _ _ (by simpa using hl), hll, if_neg hl,
          childNames, List.map_map]
        congr 2
      · rw [Tree.leaves, hll]
        exact .refl _
      · intro _
        rw [hasEmptySeq_node _ _ (by simpa using hl), hll, if_neg hl, hasEmptySeqL_false]
        intro u hu
        obtain ⟨a, -, rfl⟩ := List.mem_map.1 hu
        simp [hasEmptySeq]
      · intro ho
        refine ⟨⟨?_, (OrderedL_iff _).2 (fun u hu => ?_)⟩, by rw [Tree.leaves, hll]; rfl⟩
        · refine range_pairwise_of_le (ho.1.2.2.2 ?_) unknownName_sorted
          have hall := List.find?_eq_none.1 hfind
          have hreg' : ∀ c ∈ (registryAfter ct calls).map Prod.fst, ct.isSub k.cls c = false := by
            intro c hc
            obtain ⟨e, he, rfl⟩ := List.mem_map.1 hc
            simpa using hall e he
          exact ⟨hreg' _ (registryAfter_builtin ct calls _ (by simp [builtinRules])),
            hreg' _ (registryAfter_builtin ct calls _ (by simp [builtinRules])),
            hreg' _ (registryAfter_builtin ct calls _ (by simp [builtinRules])),
            fun e he => hreg' _ (registryAfter_mem ct calls e he)⟩
        · obtain ⟨a, -, rfl⟩ := List.mem_map.1 hu
          simp [Ordered]

end JaxSgmc
