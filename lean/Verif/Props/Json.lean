import Verif.Spec.Json
import Verif.Lemmas.Tree
import Verif.Props.ListMap
import Mathlib.Data.List.Induction

/-!
# JSON files (C48)
-/

namespace JaxSgmc

open Spec

variable {α : Type}

theorem isDigit_toDigits (n : Nat) : ∀ ch ∈ Nat.toDigits 10 n, ch.isDigit = true := by
  intro ch h
  exact Nat.isDigit_of_mem_toDigits (by omega) (by omega) h

theorem toDigits_inj (m n : Nat) (h : Nat.toDigits 10 m = Nat.toDigits 10 n) : m = n := by
  have h1 := Nat.ofDigitChars_toDigits (b := 10) (n := m) (by decide) (by decide)
  have h2 := Nat.ofDigitChars_toDigits (b := 10) (n := n) (by decide) (by decide)
  rw [h] at h1
  omega

/-- Splitting a string after its leading digits. -/
theorem digits_append_inj (a b : List Char) (x y : Char) (u v : List Char)
    (ha : ∀ ch ∈ a, ch.isDigit = true) (hb : ∀ ch ∈ b, ch.isDigit = true)
    (hx : x.isDigit = false) (hy : y.isDigit = false)
    (h : a ++ x :: u = b ++ y :: v) : a = b ∧ u = v := by
  induction a generalizing b with
  | nil =>
    cases b with
    | nil => simp at h; exact ⟨rfl, h.2⟩
    | cons c b =>
      simp only [List.nil_append, List.cons_append, List.cons.injEq] at h
      have := hb c (by simp)
      rw [← h.1, hx] at this
      simp at this
  | cons c a ih =>
    cases b with
    | nil =>
      simp only [List.nil_append, List.cons_append, List.cons.injEq] at h
      have := ha c (by simp)
      rw [h.1, hy] at this
      simp at this
    | cons c' b =>
      simp only [List.cons_append, List.cons.injEq] at h
      obtain ⟨h1, h2⟩ := ih b (fun ch hc => ha ch (by simp [hc])) (fun ch hc => hb ch (by simp [hc]))
        h.2
      exact ⟨by rw [h.1, h1], h2⟩

/-- **C48** (names).  Different chains or iterations have different files. -/
theorem c48_names (c i c' i' : Nat) (h : jsonName c i = jsonName c' i') : c = c' ∧ i = i' := by
  simp only [jsonName, List.append_assoc, List.cons_append, List.nil_append, List.cons.injEq,
    true_and] at h
  obtain ⟨h1, h2⟩ := digits_append_inj _ _ '_' '_' _ _ (isDigit_toDigits c) (isDigit_toDigits c')
    (by decide) (by decide) h
  simp only [List.cons.injEq, true_and] at h2
  obtain ⟨h3, -⟩ := digits_append_inj _ _ '.' '.' _ _ (isDigit_toDigits i) (isDigit_toDigits i')
    (by decide) (by decide) h2
  exact ⟨toDigits_inj _ _ h1, toDigits_inj _ _ h3⟩

theorem savedOf_snoc (c : Nat) (ops : List (JsonOp α)) (op : JsonOp α) :
    savedOf c (ops ++ [op]) = savedOf c ops ++ (match op with
      | .save c' v => if c' = c then [v] else []
      | _ => []) := by
  rw [savedOf, List.filterMap_append, ← savedOf]
  cases op with
  | save c' t => by_cases h : c' = c <;> simp [h]
  | _ => simp

theorem savedOf_prefix (c : Nat) (pre post : List (JsonOp α)) :
    savedOf c (pre ++ post) = savedOf c pre ++ savedOf c post := by
  simp [savedOf]

theorem due_le (freq : Nat) (ops : List (JsonOp α)) (c i : Nat) (h : Due freq ops c i) :
    0 < i ∧ i ≤ (savedOf c ops).length := by
  obtain ⟨pre, op, post, rfl, h⟩ := h
  have hl : (savedOf c (pre ++ op :: post)).length
      = (savedOf c pre).length + (savedOf c (op :: post)).length := by simp [savedOf_prefix]
  rw [hl]
  rcases h with ⟨⟨v, rfl⟩, rfl, -, -⟩ | ⟨rfl, rfl, hi⟩
  · have : savedOf c (JsonOp.save c v :: post) = v :: savedOf c post := by simp [savedOf]
    rw [this]
    simp
  · omega

theorem due_snoc (freq : Nat) (ops : List (JsonOp α)) (op : JsonOp α) (c i : Nat) :
    Due freq (ops ++ [op]) c i ↔ Due freq ops c i ∨
      (((∃ v, op = .save c v) ∧ i = (savedOf c ops).length + 1 ∧ 0 < freq ∧ freq ∣ i) ∨
       (op = .finalize c ∧ i = (savedOf c ops).length ∧ 0 < i)) := by
  constructor
  · rintro ⟨pre, x, post, he, h⟩
    rcases List.eq_nil_or_concat post with rfl | ⟨post', z, rfl⟩
    · have h1 := List.append_inj_right' (s₁ := ops) (t₁ := [op]) (s₂ := pre) (t₂ := [x]) he rfl
      have h2 := List.append_inj_left' (s₁ := ops) (t₁ := [op]) (s₂ := pre) (t₂ := [x]) he rfl
      simp only [List.cons.injEq, and_true] at h1
      subst h1 h2
      exact Or.inr h
    · have he' : ops ++ [op] = (pre ++ x :: post') ++ [z] := by simpa using he
      have h2 := List.append_inj_left' he' rfl
      exact Or.inl ⟨pre, x, post', h2, h⟩
  · rintro (⟨pre, x, post, rfl, h⟩ | h)
    · exact ⟨pre, x, post ++ [op], by simp, h⟩
    · exact ⟨ops, op, [], rfl, h⟩

theorem jsonRun_snoc (C C' : JsonColl α) (ops : List (JsonOp α)) (op : JsonOp α)
    (h : jsonRun C (ops ++ [op]) = .ok C') :
    ∃ C1, jsonRun C ops = .ok C1 ∧ jsonStep C1 op = .ok C' := by
  induction ops generalizing C with
  | nil =>
    refine ⟨C, rfl, ?_⟩
    simp only [List.nil_append, jsonRun] at h
    cases hs : jsonStep C op with
    | error e => simp [hs] at h
    | ok C1 => rw [hs] at h; simpa [jsonRun] using h
  | cons x xs ih =>
    simp only [List.cons_append, jsonRun] at h ⊢
    cases hs : jsonStep C x with
    | error e => simp [hs] at h
    | ok C1 => rw [hs] at h; exact ih C1 h

/-- The state of the collector after a sequence of calls. -/
structure JsonInv (freq : Nat) (ops : List (JsonOp α)) (C : JsonColl α) : Prop where
  freq_eq : C.freq = freq
  chains : ∀ c, C.chains[c]? = none ∧ savedOf c ops = [] ∨ C.chains[c]? = some (savedOf c ops)
  written : ∀ c i, Due freq ops c i →
    C.files.lookup (jsonName c i) = some (pyZip ((savedOf c ops).take i)) ∧
    Stacked ((savedOf c ops).take i) (pyZip ((savedOf c ops).take i))
  only : ∀ name content, (name, content) ∈ C.files → ∃ c i, name = jsonName c i ∧ Due freq ops c i

theorem jsonWrite_inv (C C' : JsonColl α) (c i : Nat) (samples : List (List α))
    (h : jsonWrite C c i samples = .ok C') :
    C' = { C with files := (jsonName c i, pyZip samples) :: C.files } ∧
      Stacked samples (pyZip samples) := by
  cases samples with
  | nil => simp [jsonWrite] at h
  | cons s ss =>
    simp only [jsonWrite] at h
    split at h
    · rename_i hall
      simp only [Except.ok.injEq] at h
      refine ⟨h.symm, ?_⟩
      have hl : ∀ r ∈ s :: ss, r.length = s.length := by
        intro r hr
        simpa using List.all_eq_true.1 hall r hr
      obtain ⟨z1, z2, z3⟩ := pyZip_spec (s :: ss) s.length (by simp) hl
      exact ⟨fun r hr => by rw [hl r hr, z1], z2, z3⟩
    · simp at h

theorem jsonInv (freq : Nat) (ops : List (JsonOp α)) (C : JsonColl α)
    (h : jsonRun (jsonNew freq) ops = .ok C) : JsonInv freq ops C := by
  induction ops using List.reverseRecOn generalizing C with
  | nil =>
    simp only [jsonRun, Except.ok.injEq] at h
    subst h
    refine ⟨rfl, fun c => Or.inl ⟨by simp [jsonNew], rfl⟩, ?_, by simp [jsonNew]⟩
    rintro c i ⟨pre, op, post, he, -⟩
    simp at he
  | append_singleton ops op ih =>
    obtain ⟨C1, h1, h2⟩ := jsonRun_snoc _ _ _ _ h
    have hi := ih C1 h1
    -- a file is written for chain `c0`
    have write : ∀ c0 (samples : List (List α)) (chains : List (List (List α))),
        savedOf c0 (ops ++ [op]) = samples →
        (∀ c, c ≠ c0 → savedOf c (ops ++ [op]) = savedOf c ops) →
        (∀ c, chains[c]? = none ∧ savedOf c (ops ++ [op]) = [] ∨
          chains[c]? = some (savedOf c (ops ++ [op]))) →
        (∀ c i, Due freq (ops ++ [op]) c i ↔ Due freq ops c i ∨ (c = c0 ∧ i = samples.length)) →
        jsonWrite { C1 with chains := chains } c0 samples.length samples = .ok C →
        JsonInv freq (ops ++ [op]) C := by
      intro c0 samples chains hs hne hch hdue hw
      obtain ⟨rfl, hst⟩ := jsonWrite_inv _ _ _ _ _ hw
      refine ⟨hi.freq_eq, hch, ?_, ?_⟩
      · intro c i hd
        by_cases hc : c = c0 ∧ i = samples.length
        · obtain ⟨rfl, rfl⟩ := hc
          rw [hs, List.take_length]
          exact ⟨by simp [List.lookup], hst⟩
        · have hd' : Due freq ops c i := ((hdue c i).1 hd).resolve_right hc
          obtain ⟨w1, w2⟩ := hi.written c i hd'
          have htake : (savedOf c (ops ++ [op])).take i = (savedOf c ops).take i := by
            rw [savedOf_prefix, List.take_append_of_le_length (due_le _ _ _ _ hd').2]
          rw [htake]
          refine ⟨?_, w2⟩
          have hnn : (jsonName c i == jsonName c0 samples.length) = false := by
            apply beq_eq_false_iff_ne.2
            intro e
            exact hc (c48_names _ _ _ _ e)
          simp only [List.lookup, hnn]
          exact w1
      · intro name content hm
        rcases List.mem_cons.1 hm with hm | hm
        · simp only [Prod.mk.injEq] at hm
          exact ⟨c0, samples.length, hm.1, (hdue _ _).2 (Or.inr ⟨rfl, rfl⟩)⟩
        · obtain ⟨c, i, e1, e2⟩ := hi.only name content hm
          exact ⟨c, i, e1, (hdue _ _).2 (Or.inl e2)⟩
    -- no file is written
    have nowrite : ∀ (chains : List (List (List α))),
        (∀ c, chains[c]? = none ∧ savedOf c (ops ++ [op]) = [] ∨
          chains[c]? = some (savedOf c (ops ++ [op]))) →
        (∀ c i, Due freq (ops ++ [op]) c i ↔ Due freq ops c i) →
        JsonInv freq (ops ++ [op]) { C1 with chains := chains } := by
      intro chains hch hdue
      refine ⟨hi.freq_eq, hch, ?_, ?_⟩
      · intro c i hd
        have hd' := (hdue c i).1 hd
        obtain ⟨w1, w2⟩ := hi.written c i hd'
        have htake : (savedOf c (ops ++ [op])).take i = (savedOf c ops).take i := by
          rw [savedOf_prefix, List.take_append_of_le_length (due_le _ _ _ _ hd').2]
        rw [htake]
        exact ⟨w1, w2⟩
      · intro name content hm
        obtain ⟨c, i, e1, e2⟩ := hi.only name content hm
        exact ⟨c, i, e1, (hdue _ _).2 e2⟩
    cases op with
    | register =>
      have hsam : ∀ c, savedOf c (ops ++ [.register]) = savedOf c ops := by
        intro c; rw [savedOf_snoc]; simp
      simp only [jsonStep, jsonRegister, Except.ok.injEq] at h2
      subst h2
      refine nowrite _ ?_ ?_
      · intro c
        rw [hsam]
        rcases hi.chains c with ⟨h3, h4⟩ | h3
        · rw [h4]
          by_cases hc : c = C1.chains.length
          · subst hc; exact Or.inr (by simp)
          · refine Or.inl ⟨?_, rfl⟩
            simp at h3 ⊢; omega
        · refine Or.inr ?_
          have hlt := (List.getElem?_eq_some_iff.1 h3).1
          rw [List.getElem?_append_left hlt, h3]
      · intro c i
        rw [due_snoc]
        simp
    | save c0 v =>
      have hsam0 : savedOf c0 (ops ++ [.save c0 v]) = savedOf c0 ops ++ [v] := by
        rw [savedOf_snoc]; simp
      have hsam : ∀ c, c ≠ c0 → savedOf c (ops ++ [.save c0 v]) = savedOf c ops := by
        intro c hc; rw [savedOf_snoc]; simp [Ne.symm hc]
      simp only [jsonStep, jsonSave] at h2
      rcases hi.chains c0 with ⟨h3, -⟩ | h3
      · simp [h3] at h2
      · rw [h3] at h2
        dsimp only at h2
        have hlt := (List.getElem?_eq_some_iff.1 h3).1
        have hch : ∀ c, (C1.chains.set c0 (savedOf c0 ops ++ [v]))[c]? = none ∧
            savedOf c (ops ++ [.save c0 v]) = [] ∨
            (C1.chains.set c0 (savedOf c0 ops ++ [v]))[c]?
              = some (savedOf c (ops ++ [.save c0 v])) := by
          intro c
          by_cases hc : c = c0
          · subst hc
            rw [hsam0]
            exact Or.inr (by simp [hlt])
          · rw [hsam c hc, List.getElem?_set_ne (Ne.symm hc)]
            exact hi.chains c
        split at h2
        · rename_i hf
          rw [hi.freq_eq] at hf
          refine write c0 (savedOf c0 ops ++ [v]) _ hsam0 hsam hch ?_ (by simpa using h2)
          intro c i
          rw [due_snoc]
          simp only [JsonOp.save.injEq, exists_and_left, reduceCtorEq, false_and, or_false,
            List.length_append, List.length_singleton]
          refine or_congr Iff.rfl ⟨?_, ?_⟩
          · rintro ⟨⟨rfl, -⟩, rfl, -, -⟩
            exact ⟨rfl, rfl⟩
          · rintro ⟨rfl, rfl⟩
            exact ⟨⟨rfl, v, rfl⟩, rfl, hf.1, Nat.dvd_of_mod_eq_zero hf.2⟩
        · rename_i hf
          rw [hi.freq_eq] at hf
          simp only [Except.ok.injEq] at h2
          subst h2
          refine nowrite _ hch ?_
          intro c i
          rw [due_snoc]
          simp only [JsonOp.save.injEq, exists_and_left, reduceCtorEq, false_and, or_false,
            or_iff_left_iff_imp]
          rintro ⟨⟨rfl, -⟩, rfl, k1, k2⟩
          exact absurd ⟨k1, Nat.mod_eq_zero_of_dvd k2⟩ hf
    | finalize c0 =>
      have hsam : ∀ c, savedOf c (ops ++ [.finalize c0]) = savedOf c ops := by
        intro c; rw [savedOf_snoc]; simp
      have hch : ∀ c, C1.chains[c]? = none ∧ savedOf c (ops ++ [.finalize c0]) = [] ∨
          C1.chains[c]? = some (savedOf c (ops ++ [.finalize c0])) := by
        intro c
        rw [hsam]
        exact hi.chains c
      simp only [jsonStep, jsonFinalize] at h2
      rcases hi.chains c0 with ⟨h3, -⟩ | h3
      · simp [h3] at h2
      · rw [h3] at h2
        dsimp only at h2
        split at h2
        · rename_i hpos
          refine write c0 (savedOf c0 ops) C1.chains (hsam c0) (fun c _ => hsam c) hch ?_ h2
          intro c i
          rw [due_snoc]
          simp only [reduceCtorEq, exists_false, false_and, false_or, JsonOp.finalize.injEq]
          refine or_congr Iff.rfl ⟨?_, ?_⟩
          · rintro ⟨rfl, rfl, -⟩
            exact ⟨rfl, rfl⟩
          · rintro ⟨rfl, rfl⟩
            exact ⟨rfl, rfl, hpos⟩
        · rename_i hpos
          simp only [Except.ok.injEq] at h2
          subst h2
          refine nowrite C1.chains hch ?_
          intro c i
          rw [due_snoc]
          simp only [reduceCtorEq, exists_false, false_and, false_or, JsonOp.finalize.injEq,
            or_iff_left_iff_imp]
          rintro ⟨rfl, rfl, k⟩
          exact absurd k hpos

/-- **C48.** For every sequence of calls (any number of chains, interleaved in any way): the file
`chain_{c}_iteration_{i}.json` exists iff it is due, and contains exactly the first `i` samples of
chain `c`, in order. -/
theorem c48_files (freq : Nat) (ops : List (JsonOp α)) (C : JsonColl α)
    (h : jsonRun (jsonNew freq) ops = .ok C) (c i : Nat) :
    (Due freq ops c i → ∃ content, C.files.lookup (jsonName c i) = some content ∧
      ((savedOf c ops).take i).length = i ∧ Stacked ((savedOf c ops).take i) content) ∧
    (¬ Due freq ops c i → C.files.lookup (jsonName c i) = none) := by
  have hi := jsonInv freq ops C h
  constructor
  · intro hd
    obtain ⟨w1, w2⟩ := hi.written c i hd
    have := (due_le _ _ _ _ hd).2
    exact ⟨_, w1, by simp; omega, w2⟩
  · intro hd
    rw [List.lookup_eq_none_iff]
    rintro ⟨name, content⟩ hm
    obtain ⟨c', i', e1, e2⟩ := hi.only name content hm
    apply bne_iff_ne.2
    rintro e
    dsimp only at e
    rw [e1] at e
    obtain ⟨rfl, rfl⟩ := c48_names _ _ _ _ e
    exact hd e2

/-- After `finalize(c)` all samples of the chain are in the file named by their number. -/
theorem c48_finalized (freq : Nat) (ops : List (JsonOp α)) (c : Nat) (C : JsonColl α)
    (h : jsonRun (jsonNew freq) (ops ++ [.finalize c]) = .ok C) (hne : savedOf c ops ≠ []) :
    ∃ content, C.files.lookup (jsonName c (savedOf c ops).length) = some content ∧
      Stacked (savedOf c ops) content := by
  have hd : Due freq (ops ++ [.finalize c]) c (savedOf c ops).length :=
    ⟨ops, _, [], rfl, Or.inr ⟨rfl, rfl, List.length_pos_iff.2 hne⟩⟩
  obtain ⟨content, h1, -, h2⟩ := (c48_files freq _ C h c _).1 hd
  have hs : savedOf c (ops ++ [.finalize c]) = savedOf c ops := by rw [savedOf_snoc]; simp
  rw [hs, List.take_length] at h2
  exact ⟨content, h1, h2⟩

theorem jsonWrite_chains (C C' : JsonColl α) (c i : Nat) (samples : List (List α))
    (h : jsonWrite C c i samples = .ok C') : C'.chains = C.chains := by
  rw [(jsonWrite_inv C C' c i samples h).1]

/-- The number of chains is the number of registrations. -/
theorem json_chains_length (freq : Nat) (ops : List (JsonOp α)) (C : JsonColl α)
    (h : jsonRun (jsonNew freq) ops = .ok C) : C.chains.length = jsonRegistered ops := by
  induction ops using List.reverseRecOn generalizing C with
  | nil =>
    simp only [jsonRun, Except.ok.injEq] at h
    subst h
    rfl
  | append_singleton ops op ih =>
    obtain ⟨C1, h1, h2⟩ := jsonRun_snoc _ _ _ _ h
    have hi := ih C1 h1
    simp only [jsonRegistered, List.countP_append] at hi ⊢
    cases op with
    | register =>
      simp only [jsonStep, jsonRegister, Except.ok.injEq] at h2
      subst h2
      simp [hi]
    | save c v =>
      simp only [jsonStep, jsonSave] at h2
      cases hc : C1.chains[c]? with
      | none => simp [hc] at h2
      | some samples =>
        rw [hc] at h2
        dsimp only at h2
        split at h2
        · rw [jsonWrite_chains _ _ _ _ _ h2]
          simp [hi]
        · simp only [Except.ok.injEq] at h2
          subst h2
          simp [hi]
    | finalize c =>
      simp only [jsonStep, jsonFinalize] at h2
      cases hc : C1.chains[c]? with
      | none => simp [hc] at h2
      | some samples =>
        rw [hc] at h2
        dsimp only at h2
        split at h2
        · rw [jsonWrite_chains _ _ _ _ _ h2]
          simp [hi]
        · simp only [Except.ok.injEq] at h2
          subst h2
          simp [hi]

/-- **C48** (identifiers).  The chains are numbered in the order of their registration: at any time,
`register_chain` returns the number of chains registered before.  Before, samples cannot be saved
under this number (`IndexError`); afterwards, they can be saved and an empty chain can be finalized. -/
theorem c48_ids (freq : Nat) (ops : List (JsonOp α)) (C : JsonColl α)
    (h : jsonRun (jsonNew freq) ops = .ok C) (v : List α) :
    (jsonRegister C).2 = jsonRegistered ops ∧
    jsonSave C (jsonRegister C).2 v = .error .indexError ∧
    jsonFinalize C (jsonRegister C).2 = .error .indexError ∧
    (∃ C', jsonSave (jsonRegister C).1 (jsonRegister C).2 v = .ok C') ∧
    jsonFinalize (jsonRegister C).1 (jsonRegister C).2 = .ok (jsonRegister C).1 := by
  refine ⟨json_chains_length freq ops C h, by simp [jsonRegister, jsonSave],
    by simp [jsonRegister, jsonFinalize], ?_, by simp [jsonRegister, jsonFinalize]⟩
  simp only [jsonRegister, jsonSave, List.getElem?_concat_length]
  by_cases hf : C.freq > 0 ∧ (0 + 1) % C.freq = 0
  · exact ⟨_, by simp [jsonWrite, hf]; rfl⟩
  · exact ⟨_, if_neg hf⟩

/-- **C48** (no spurious failures).  Saving to a registered chain raises an exception only if the
samples of the chain have different numbers of leaves. -/
theorem c48_save_ok (freq : Nat) (ops : List (JsonOp α)) (C : JsonColl α)
    (h : jsonRun (jsonNew freq) ops = .ok C) (c : Nat) (hc : c < jsonRegistered ops) (v : List α)
    (hv : ∀ s ∈ savedOf c ops, s.length = v.length) :
    (∃ C', jsonSave C c v = .ok C') ∧ ∃ C', jsonFinalize C c = .ok C' := by
  have hi := jsonInv freq ops C h
  have hlen := json_chains_length freq ops C h
  have hcs : C.chains[c]? = some (savedOf c ops) := by
    rcases hi.chains c with ⟨h3, -⟩ | h3
    · rw [List.getElem?_eq_none_iff] at h3
      omega
    · exact h3
  have hw : ∀ (C0 : JsonColl α) (i : Nat) (samples : List (List α)), samples ≠ [] →
      (∀ s ∈ samples, s.length = v.length) → ∃ C', jsonWrite C0 c i samples = .ok C' := by
    intro C0 i samples hne hs
    cases samples with
    | nil => exact absurd rfl hne
    | cons s ss =>
      have hall : (s :: ss).all (fun s' => s'.length == s.length) = true := by
        rw [List.all_eq_true]
        intro s' hs'
        rw [hs s' hs', hs s (by simp)]
        simp
      exact ⟨_, by simp only [jsonWrite]; rw [if_pos hall]⟩
  constructor
  · by_cases hf : C.freq > 0 ∧ ((savedOf c ops).length + 1) % C.freq = 0
    · simp only [jsonSave, hcs, hf, and_self, if_true]
      refine hw _ _ _ (by simp) ?_
      intro s hs
      rcases List.mem_append.1 hs with hs | hs
      · exact hv s hs
      · simp only [List.mem_singleton] at hs
        rw [hs]
    · exact ⟨_, by simp only [jsonSave, hcs]; rw [if_neg hf]⟩
  · by_cases hp : (savedOf c ops).length > 0
    · obtain ⟨C', hC'⟩ := hw C (savedOf c ops).length _ (List.length_pos_iff.1 hp) hv
      exact ⟨C', by simp only [jsonFinalize, hcs]; rw [if_pos hp, hC']⟩
    · exact ⟨_, by simp only [jsonFinalize, hcs]; rw [if_neg hp]⟩

/-- Two chains, write frequency two, three samples with two leaves each. -/
def toyJson : List (JsonOp Nat) :=
  [.register, .register, .save 0 [1, 2], .save 1 [7, 8], .save 0 [3, 4], .save 0 [5, 6],
   .finalize 0, .finalize 1]

example : (jsonRun (jsonNew 2) toyJson).map (fun C => C.files) =
    .ok [(jsonName 1 1, [[7], [8]]), (jsonName 0 3, [[1, 3, 5], [2, 4, 6]]),
      (jsonName 0 2, [[1, 3], [2, 4]])] := rfl

end JaxSgmc
