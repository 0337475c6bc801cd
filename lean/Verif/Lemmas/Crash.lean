import Verif.Spec.Crash
import Verif.Props.Json

/-!
# Lemmas on the disk while samples are saved
-/

namespace JaxSgmc

open Spec

variable {α : Type}

theorem diskRun_append (d : Disk) (a b : List DiskOp) :
    diskRun d (a ++ b) = diskRun (diskRun d a) b := by
  induction a generalizing d with
  | nil => rfl
  | cons s a ih => simp only [List.cons_append, diskRun]; exact ih _

theorem diskRun_appends (d : Disk) (f : Key) (t : Key) (w : Key) (h : d f = some t) (g : Key) :
    diskRun d (w.map (.append f)) g = if g = f then some (t ++ w) else d g := by
  induction w generalizing d t with
  | nil =>
    simp only [List.map_nil, diskRun, List.append_nil]
    split
    · rename_i e; rw [e, h]
    · rfl
  | cons ch w ih =>
    simp only [List.map_cons, diskRun]
    rw [ih (diskStep d (.append f ch)) (t ++ [ch]) (by simp [diskStep, h])]
    by_cases hg : g = f
    · simp [hg]
    · simp [hg, diskStep]

/-- The text of a file after `k` steps of writing the samples `s :: ss`. -/
def midText (toList : α → JVal) (old : Option Key) (content : List (List α)) : Nat → Option Key
  | 0 => old
  | 1 => some (old.getD [])
  | k + 2 => some ((jsonDump toList content).take k)

theorem jsonWrite_ok_iff (C C' : JsonColl α) (c i : Nat) (samples : List (List α))
    (h : jsonWrite C c i samples = .ok C') (toList : α → JVal) :
    jsonFileOps toList c i samples = .touch (jsonName c i) :: .truncate (jsonName c i) ::
      (jsonDump toList (pyZip samples)).map (.append (jsonName c i)) := by
  cases samples with
  | nil => simp [jsonWrite] at h
  | cons s ss =>
    simp only [jsonWrite] at h
    split at h
    · rename_i hall
      simp only [jsonFileOps, hall, if_true]
    · simp at h

/-- A file after `k` steps of a successful `_write_file`. -/
theorem diskRun_file (toList : α → JVal) (d : Disk) (f : Key) (content : List (List α)) (k : Nat)
    (g : Key) :
    diskRun d ((.touch f :: .truncate f ::
      (jsonDump toList content).map (.append f)).take k) g =
      if g = f then midText toList (d f) content k else d g := by
  match k with
  | 0 => simp only [List.take_zero, diskRun, midText]; split <;> simp_all
  | 1 => simp only [List.take_succ_cons, List.take_zero, diskRun, midText, diskStep]
  | k + 2 =>
    simp only [List.take_succ_cons, diskRun, midText]
    rw [← List.map_take, diskRun_appends _ f [] _ (by simp [diskStep])]
    by_cases hg : g = f
    · simp [hg]
    · simp [hg, diskStep]

/-- A failing `_write_file` only touches the file. -/
theorem jsonWrite_error_ops (C : JsonColl α) (e : PyErr) (c i : Nat) (samples : List (List α))
    (h : jsonWrite C c i samples = .error e) (toList : α → JVal) :
    jsonFileOps toList c i samples = [.touch (jsonName c i)] := by
  cases samples with
  | nil => simp [jsonFileOps]
  | cons s ss =>
    simp only [jsonWrite] at h
    split at h
    · simp at h
    · rename_i hall
      simp only [jsonFileOps, hall, if_false, Bool.false_eq_true]

theorem jsonTrace_snoc (toList : α → JVal) (C C1 : JsonColl α) (ops : List (JsonOp α)) (op : JsonOp α)
    (h : jsonRun C ops = .ok C1) :
    jsonTrace toList C (ops ++ [op]) = jsonTrace toList C ops ++ jsonCallOps toList C1 op := by
  induction ops generalizing C with
  | nil =>
    simp only [jsonRun, Except.ok.injEq] at h
    subst h
    simp only [List.nil_append, jsonTrace]
    cases jsonStep C op <;> simp
  | cons x xs ih =>
    simp only [List.cons_append, jsonTrace, jsonRun] at h ⊢
    cases hs : jsonStep C x with
    | error e => simp [hs] at h
    | ok C2 =>
      simp only [hs] at h ⊢
      rw [ih C2 h, List.append_assoc]

/-- What a call does to the disk: nothing, or it writes one file. -/
theorem jsonCall_cases (toList : α → JVal) (C : JsonColl α) (op : JsonOp α) :
    (jsonCallOps toList C op = [] ∧ (∀ C', jsonStep C op = .ok C' → C'.files = C.files)) ∨
    ∃ c samples C0, C0.files = C.files ∧
      jsonCallOps toList C op = jsonFileOps toList c samples.length samples ∧
      jsonStep C op = jsonWrite C0 c samples.length samples ∧
      ((∃ v prev, op = .save c v ∧ C.chains[c]? = some prev ∧ samples = prev ++ [v] ∧ 0 < C.freq ∧
          C.freq ∣ samples.length) ∨
       (op = .finalize c ∧ C.chains[c]? = some samples ∧ 0 < samples.length)) := by
  cases op with
  | register =>
    left
    refine ⟨rfl, ?_⟩
    intro C' h
    simp only [jsonStep, jsonRegister, Except.ok.injEq] at h
    subst h; rfl
  | save c v =>
    cases hc : C.chains[c]? with
    | none =>
      left
      exact ⟨by simp [jsonCallOps, hc], by simp [jsonStep, jsonSave, hc]⟩
    | some prev =>
      by_cases hf : C.freq > 0 ∧ (prev.length + 1) % C.freq = 0
      · right
        refine ⟨c, prev ++ [v], { C with chains := C.chains.set c (prev ++ [v]) }, rfl, ?_, ?_, ?_⟩
        · simp [jsonCallOps, hc, hf]
        · simp [jsonStep, jsonSave, hc, hf]
        · exact Or.inl ⟨v, prev, rfl, hc, rfl, hf.1, by
            simpa using Nat.dvd_of_mod_eq_zero hf.2⟩
      · left
        refine ⟨by simp only [jsonCallOps, hc]; rw [if_neg hf], ?_⟩
        intro C' h
        simp only [jsonStep, jsonSave, hc] at h
        rw [if_neg hf] at h
        simp only [Except.ok.injEq] at h
        subst h; rfl
  | finalize c =>
    cases hc : C.chains[c]? with
    | none =>
      left
      exact ⟨by simp [jsonCallOps, hc], by simp [jsonStep, jsonFinalize, hc]⟩
    | some samples =>
      by_cases hp : samples.length > 0
      · right
        refine ⟨c, samples, C, rfl, ?_, ?_, Or.inr ⟨rfl, hc, hp⟩⟩
        · simp only [jsonCallOps, hc]; rw [if_pos hp]
        · simp only [jsonStep, jsonFinalize, hc]; rw [if_pos hp]
      · left
        refine ⟨by simp only [jsonCallOps, hc]; rw [if_neg hp], ?_⟩
        intro C' h
        simp only [jsonStep, jsonFinalize, hc] at h
        rw [if_neg hp] at h
        simp only [Except.ok.injEq] at h
        subst h; rfl

/-- The disk after calls which have returned. -/
theorem disk_after (toList : α → JVal) (d0 : Disk) (freq : Nat) (ops : List (JsonOp α))
    (C : JsonColl α) (h : jsonRun (jsonNew freq) ops = .ok C) (f : Key) :
    diskRun d0 (jsonTrace toList (jsonNew freq) ops) f =
      ((C.files.lookup f).map (jsonDump toList)).or (d0 f) := by
  induction ops using List.reverseRecOn generalizing C with
  | nil =>
    simp only [jsonRun, Except.ok.injEq] at h
    subst h
    simp [jsonTrace, diskRun, jsonNew]
  | append_singleton ops op ih =>
    obtain ⟨C1, h1, h2⟩ := jsonRun_snoc _ _ _ _ h
    have hi := ih C1 h1
    rw [jsonTrace_snoc toList _ C1 ops op h1, diskRun_append]
    rcases jsonCall_cases toList C1 op with ⟨e1, e2⟩ | ⟨c, samples, C0, e0, e1, e2, -⟩
    · rw [e1, e2 C h2]
      exact hi
    · rw [e2] at h2
      rw [e1, jsonWrite_ok_iff _ _ _ _ _ h2 toList]
      obtain ⟨rfl, -⟩ := jsonWrite_inv _ _ _ _ _ h2
      have hf := diskRun_file toList (diskRun d0 (jsonTrace toList (jsonNew freq) ops))
        (jsonName c samples.length) (pyZip samples)
        ((jsonDump toList (pyZip samples)).length + 2) f
      rw [List.take_of_length_le (by simp)] at hf
      rw [hf]
      by_cases hn : f = jsonName c samples.length
      · subst hn
        simp [midText, List.lookup]
      · rw [if_neg hn, hi]
        have hb : (f == jsonName c samples.length) = false := beq_eq_false_iff_ne.2 hn
        simp only [List.lookup, hb, e0]

/-- At the crash a number of calls have returned and at most one is in progress. -/
theorem crash_split (toList : α → JVal) (C0 : JsonColl α) (ops : List (JsonOp α)) (k : Nat) :
    (∃ pre op post C k', ops = pre ++ op :: post ∧ jsonRun C0 pre = .ok C ∧
      k = (jsonTrace toList C0 pre).length + k' ∧
      (jsonTrace toList C0 ops).take k =
        jsonTrace toList C0 pre ++ (jsonCallOps toList C op).take k' ∧
      (k' < (jsonCallOps toList C op).length ∨ ∃ e, jsonStep C op = .error e)) ∨
    (∃ C, jsonRun C0 ops = .ok C ∧ (jsonTrace toList C0 ops).take k = jsonTrace toList C0 ops ∧
      (jsonTrace toList C0 ops).length ≤ k) := by
  induction ops generalizing C0 k with
  | nil => exact Or.inr ⟨C0, rfl, by simp [jsonTrace], by simp [jsonTrace]⟩
  | cons op ops ih =>
    by_cases hk : k < (jsonCallOps toList C0 op).length
    · left
      refine ⟨[], op, ops, C0, k, rfl, rfl, by simp [jsonTrace], ?_, Or.inl hk⟩
      simp only [jsonTrace, List.nil_append]
      rw [List.take_append_of_le_length (by omega)]
    · cases hs : jsonStep C0 op with
      | error e =>
        left
        refine ⟨[], op, ops, C0, k, rfl, rfl, by simp [jsonTrace], ?_, Or.inr ⟨e, hs⟩⟩
        simp [jsonTrace, hs]
      | ok C1 =>
        have hk2 : k = (jsonCallOps toList C0 op).length + (k - (jsonCallOps toList C0 op).length) := by
          omega
        have ht : ∀ l, jsonTrace toList C0 (op :: l)
            = jsonCallOps toList C0 op ++ jsonTrace toList C1 l := by
          intro l; simp only [jsonTrace, hs]
        rcases ih C1 (k - (jsonCallOps toList C0 op).length) with
          ⟨pre, x, post, C, k', e1, e2, e3, e4, e5⟩ | ⟨C, e1, e2, e3⟩
        · left
          refine ⟨op :: pre, x, post, C, k', by simp [e1], by simp only [jsonRun, hs, e2], ?_, ?_, e5⟩
          · rw [ht, List.length_append]; omega
          · rw [ht, ht]
            rw [List.take_append, List.take_of_length_le (by omega), e4, List.append_assoc]
        · right
          refine ⟨C, by simp only [jsonRun, hs, e1], ?_, ?_⟩
          · rw [ht, List.take_append, List.take_of_length_le (by omega), e2]
          · rw [ht, List.length_append]; omega

theorem jsonTrace_length_mono (toList : α → JVal) (C : JsonColl α) (a b : List (JsonOp α)) :
    (jsonTrace toList C a).length ≤ (jsonTrace toList C (a ++ b)).length := by
  induction a generalizing C with
  | nil => simp [jsonTrace]
  | cons x xs ih =>
    simp only [List.cons_append, jsonTrace, List.length_append]
    cases jsonStep C x with
    | error e => simp
    | ok C' => have := ih C'; simp only; omega

theorem jsonRun_prefix (C C' : JsonColl α) (a b : List (JsonOp α))
    (h : jsonRun C (a ++ b) = .ok C') : ∃ C1, jsonRun C a = .ok C1 := by
  induction a generalizing C with
  | nil => exact ⟨C, rfl⟩
  | cons x xs ih =>
    simp only [List.cons_append, jsonRun] at h ⊢
    cases hs : jsonStep C x with
    | error e => simp [hs] at h
    | ok C1 => simp only [hs] at h ⊢; exact ih C1 h

/-- The call in progress is about to write the samples `samples` of chain `c`. -/
def InProgress (C : JsonColl α) (op : JsonOp α) (c : Nat) (samples : List (List α)) : Prop :=
  (∃ v prev, op = .save c v ∧ C.chains[c]? = some prev ∧ samples = prev ++ [v] ∧ 0 < C.freq ∧
      C.freq ∣ samples.length) ∨
  (op = .finalize c ∧ C.chains[c]? = some samples ∧ 0 < samples.length)

/-- The disk at a crash. -/
theorem crash_main (toList : α → JVal) (d0 : Disk) (freq : Nat) (ops : List (JsonOp α)) (k : Nat) :
    ∃ pre post C, ops = pre ++ post ∧ jsonRun (jsonNew freq) pre = .ok C ∧
      (∀ pre0, Returned toList freq ops k pre0 → pre0 <+: pre) ∧
      ((∀ f, jsonCrash toList d0 freq ops k f =
          ((C.files.lookup f).map (jsonDump toList)).or (d0 f)) ∨
       ∃ op post' c samples k', post = op :: post' ∧ InProgress C op c samples ∧
        (k' ≤ 1 ∨ Stacked samples (pyZip samples)) ∧
        k' < (jsonDump toList (pyZip samples)).length + 2 ∧
        ∀ f, jsonCrash toList d0 freq ops k f =
          if f = jsonName c samples.length then
            midText toList (((C.files.lookup f).map (jsonDump toList)).or (d0 f)) (pyZip samples) k'
          else ((C.files.lookup f).map (jsonDump toList)).or (d0 f)) := by
  rcases crash_split toList (jsonNew freq) ops k with
    ⟨pre, op, post, C, k', e1, e2, e3, e4, e5⟩ | ⟨C, e1, e2, e3⟩
  · have hmax : ∀ pre0, Returned toList freq ops k pre0 → pre0 <+: pre := by
      intro pre0 hr
      have hp : pre <+: ops := ⟨op :: post, e1.symm⟩
      rcases List.prefix_or_prefix_of_prefix hr.initial hp with h | h
      · exact h
      · obtain ⟨t, rfl⟩ := h
        cases t with
        | nil => simp
        | cons y t =>
          exfalso
          have hy : y = op := by
            obtain ⟨u, hu⟩ := hr.initial
            rw [e1] at hu
            simp only [List.append_assoc, List.cons_append, List.append_cancel_left_eq,
              List.cons.injEq] at hu
            exact hu.1
          subst hy
          obtain ⟨Cf, hCf⟩ := hr.ok
          have hassoc : pre ++ y :: t = (pre ++ [y]) ++ t := by simp
          rw [hassoc] at hCf
          obtain ⟨C2, hC2⟩ := jsonRun_prefix _ _ _ _ hCf
          obtain ⟨C3, g1, g2⟩ := jsonRun_snoc _ _ _ _ hC2
          rw [e2] at g1
          simp only [Except.ok.injEq] at g1
          subst g1
          have hk : k' < (jsonCallOps toList C y).length := by
            rcases e5 with h | ⟨e, h⟩
            · exact h
            · rw [h] at g2; simp at g2
          have hl := jsonTrace_length_mono toList (jsonNew freq) (pre ++ [y]) t
          rw [← hassoc, jsonTrace_snoc toList _ C pre y e2, List.length_append] at hl
          have := hr.steps
          omega
    refine ⟨pre, op :: post, C, e1, e2, hmax, ?_⟩
    have hd : ∀ f, jsonCrash toList d0 freq ops k f =
        diskRun (diskRun d0 (jsonTrace toList (jsonNew freq) pre))
          ((jsonCallOps toList C op).take k') f := by
      intro f
      rw [jsonCrash, e4, diskRun_append]
    have ha := disk_after toList d0 freq pre C e2
    rcases jsonCall_cases toList C op with ⟨g1, -⟩ | ⟨c, samples, C0, -, g1, g2, g3⟩
    · left
      intro f
      rw [hd, g1, List.take_nil]
      exact ha f
    · right
      cases hw : jsonWrite C0 c samples.length samples with
      | error e =>
        refine ⟨op, post, c, samples, min k' 1, rfl, g3, Or.inl (by omega), by omega, ?_⟩
        intro f
        rw [hd, g1, jsonWrite_error_ops _ _ _ _ _ hw toList]
        match k' with
        | 0 =>
          simp only [List.take_zero, diskRun, ha, Nat.zero_min, midText, ite_self]
        | k' + 1 =>
          have : min (k' + 1) 1 = 1 := by omega
          rw [this]
          simp only [List.take_succ_cons, List.take_nil, diskRun, diskStep, midText, ha]
          by_cases hf : f = jsonName c samples.length
          · simp [hf]
          · simp [hf]
      | ok C' =>
        have hops := jsonWrite_ok_iff _ _ _ _ _ hw toList
        refine ⟨op, post, c, samples, k', rfl, g3, Or.inr (jsonWrite_inv _ _ _ _ _ hw).2, ?_, ?_⟩
        · rcases e5 with h | ⟨e, h⟩
          · rw [g1, hops] at h
            simpa using h
          · rw [g2, hw] at h; simp at h
        · intro f
          rw [hd, g1, hops, diskRun_file]
          by_cases hf : f = jsonName c samples.length
          · simp only [hf, if_true, ha]
          · simp only [hf, if_false, ha]
  · refine ⟨ops, [], C, by simp, e1, fun pre0 h => h.initial, Or.inl ?_⟩
    intro f
    rw [jsonCrash, e2]
    exact disk_after toList d0 freq ops C e1 f

end JaxSgmc
