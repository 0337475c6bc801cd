import Verif.Lemmas.Crash

/-!
# Crashes while samples are saved to JSON files (C117, C118)
-/

namespace JaxSgmc

open Spec

variable {α : Type}

/-! ### C117: what has been written survives a crash -/

/-- **C117**, full statement: whenever the process is killed, every file written by a call which has
returned before is complete. -/
def C117Statement : Prop :=
  ∀ (toList : Nat → JVal) (d0 : Disk) (freq : Nat) (ops pre : List (JsonOp Nat)) (k c i : Nat),
    Returned toList freq ops k pre → Due freq pre c i →
    CompleteFile toList (jsonCrash toList d0 freq ops k) (savedOf c pre) c i

/-- The file of a chain which is due is complete on the disk. -/
theorem due_complete (toList : α → JVal) (freq : Nat) (pre0 pre : List (JsonOp α)) (C : JsonColl α)
    (d d0 : Disk) (h : jsonRun (jsonNew freq) pre = .ok C) (hp : pre0 <+: pre) (c i : Nat)
    (hd : Due freq pre0 c i)
    (he : d (jsonName c i) =
      ((C.files.lookup (jsonName c i)).map (jsonDump toList)).or (d0 (jsonName c i))) :
    CompleteFile toList d (savedOf c pre0) c i := by
  obtain ⟨t, rfl⟩ := hp
  have hd' : Due freq (pre0 ++ t) c i := by
    obtain ⟨a, op, b, e, hx⟩ := hd
    exact ⟨a, op, b ++ t, by rw [e]; simp, hx⟩
  have hle := (due_le _ _ _ _ hd).2
  obtain ⟨content, w1, -, w2⟩ := (c48_files freq _ C h c i).1 hd'
  rw [savedOf_prefix, List.take_append_of_le_length hle] at w2
  exact ⟨hle, content, w2, by rw [he, w1]; simp⟩

/-- The samples of the chain whose file is being written. -/
theorem inProgress_saved (freq : Nat) (pre : List (JsonOp α)) (C : JsonColl α)
    (h : jsonRun (jsonNew freq) pre = .ok C) (op : JsonOp α) (c : Nat) (samples : List (List α))
    (hp : InProgress C op c samples) :
    savedOf c (pre ++ [op]) = samples ∧
    (((∃ v, op = .save c v) ∧ samples.length = (savedOf c pre).length + 1) ∨
     (op = .finalize c ∧ savedOf c pre = samples)) := by
  have hi := jsonInv freq pre C h
  rcases hp with ⟨v, prev, rfl, h1, rfl, -, -⟩ | ⟨rfl, h1, -⟩
  · have : savedOf c pre = prev := by
      rcases hi.chains c with ⟨h3, -⟩ | h3
      · rw [h1] at h3; simp at h3
      · rw [h1] at h3; simpa using h3.symm
    subst this
    exact ⟨by rw [savedOf_snoc]; simp, Or.inl ⟨⟨v, rfl⟩, by simp⟩⟩
  · have : savedOf c pre = samples := by
      rcases hi.chains c with ⟨h3, -⟩ | h3
      · rw [h1] at h3; simp at h3
      · rw [h1] at h3; simpa using h3.symm
    subst this
    exact ⟨by rw [savedOf_snoc]; simp, Or.inr ⟨rfl, rfl⟩⟩

/-- **C117** (partial).  Whenever the process is killed, every file written by a call which has
returned before is complete, unless `finalize` is called later with exactly the number of samples this
file holds: `finalize` truncates the file and writes it again. -/
theorem c117_survives_partial (toList : α → JVal) (d0 : Disk) (freq : Nat)
    (ops pre : List (JsonOp α)) (k c i : Nat) (hr : Returned toList freq ops k pre)
    (hd : Due freq pre c i)
    (hno : ∀ mid post, ops = pre ++ mid ++ .finalize c :: post → (savedOf c (pre ++ mid)).length ≠ i) :
    CompleteFile toList (jsonCrash toList d0 freq ops k) (savedOf c pre) c i := by
  obtain ⟨q, post, C, e1, e2, e3, e4⟩ := crash_main toList d0 freq ops k
  have hq := e3 pre hr
  refine due_complete toList freq pre q C _ d0 e2 hq c i hd ?_
  rcases e4 with h | ⟨op, post', c', samples, k', rfl, hp, -, -, h⟩
  · exact h _
  · rw [h, if_neg]
    intro e
    obtain ⟨rfl, hi⟩ := c48_names _ _ _ _ e
    obtain ⟨hs, hc⟩ := inProgress_saved freq q C e2 op c samples hp
    obtain ⟨t, rfl⟩ := hq
    have hle := (due_le _ _ _ _ hd).2
    rcases hc with ⟨-, hc⟩ | ⟨rfl, hc⟩
    · rw [savedOf_prefix, List.length_append] at hc
      omega
    · exact hno t post' e1 (by rw [hc, hi])

/-- Two samples, write frequency two, killed in `finalize` after the file has been opened: the file
holding all samples has been written before and is empty now. -/
def crashOps : List (JsonOp Nat) := [.register, .save 0 [1], .save 0 [2], .finalize 0]

/-- Prints a single digit.
(test data) -/
def digitVal (n : Nat) : JVal := .num (Nat.toDigits 10 n)

/-- No files.
(test data) -/
def emptyDisk : Disk := fun _ => none

/-- The file is complete after the second call of `save` (nine steps) and empty two steps later. -/
theorem c117_empty_file :
    jsonCrash digitVal emptyDisk 2 crashOps 9 (jsonName 0 2) = some ['[','[','1',',','2',']',']'] ∧
    jsonCrash digitVal emptyDisk 2 crashOps 11 (jsonName 0 2) = some [] := by
  constructor <;> decide +kernel

/-- The full statement is false. -/
theorem c117_false : ¬ C117Statement := by
  intro h
  have hr : Returned digitVal 2 crashOps 11 (crashOps.take 3) :=
    ⟨List.take_prefix _ _, ⟨_, rfl⟩, by decide +kernel⟩
  have hd : Due 2 (crashOps.take 3) 0 2 :=
    ⟨[.register, .save 0 [1]], .save 0 [2], [], rfl, Or.inl ⟨⟨_, rfl⟩, rfl, by decide, by decide⟩⟩
  obtain ⟨-, content, h1, h2⟩ := h digitVal emptyDisk 2 crashOps (crashOps.take 3) 11 0 2 hr hd
  rw [c117_empty_file.2] at h2
  simp only [Option.some.injEq] at h2
  cases content <;> simp [jsonDump, JVal.render] at h2

/-- Every multiple of the write frequency up to the number of saved samples has been written. -/
theorem due_multiple (freq : Nat) (ops : List (JsonOp α)) (c m : Nat) (hf : 0 < freq) (hm : freq ∣ m)
    (h0 : 0 < m) (hle : m ≤ (savedOf c ops).length) : Due freq ops c m := by
  induction ops using List.reverseRecOn with
  | nil => simp [savedOf] at hle; omega
  | append_singleton ops op ih =>
    rw [due_snoc]
    by_cases h : m ≤ (savedOf c ops).length
    · exact Or.inl (ih h)
    · rw [savedOf_snoc] at hle
      cases op with
      | save c' v =>
        by_cases hc : c' = c
        · subst hc
          simp only [if_true, List.length_append, List.length_singleton] at hle
          exact Or.inr (Or.inl ⟨⟨v, rfl⟩, by omega, hf, hm⟩)
        · simp [hc] at hle; omega
      | register => simp at hle; omega
      | finalize c' => simp at hle; omega

/-- **C117** (bound before `finalize`).  If the process is killed before `finalize`, less than
`write_frequency` of the saved samples are lost: a complete file holds the others. -/
theorem c117_lost (toList : α → JVal) (d0 : Disk) (freq : Nat) (hf : 0 < freq)
    (ops pre : List (JsonOp α)) (k c : Nat) (hr : Returned toList freq ops k pre)
    (hno : JsonOp.finalize c ∉ ops) :
    ∃ m, (savedOf c pre).length < m + freq ∧
      (m = 0 ∨ CompleteFile toList (jsonCrash toList d0 freq ops k) (savedOf c pre) c m) := by
  have hmod := Nat.mod_lt (savedOf c pre).length hf
  have hle := Nat.mod_le (savedOf c pre).length freq
  refine ⟨(savedOf c pre).length - (savedOf c pre).length % freq, by omega, ?_⟩
  by_cases h0 : (savedOf c pre).length - (savedOf c pre).length % freq = 0
  · exact Or.inl h0
  · right
    refine c117_survives_partial toList d0 freq ops pre k c _ hr
      (due_multiple freq pre c _ hf (Nat.dvd_sub_mod _) (by omega) (by omega)) ?_
    rintro mid post rfl
    exact absurd (by simp) hno

/-- **C117** (bound for every crash).  Whenever the process is killed, less than twice
`write_frequency` of the saved samples are lost. -/
theorem c117_lost_twice (toList : α → JVal) (d0 : Disk) (freq : Nat) (hf : 0 < freq)
    (ops pre : List (JsonOp α)) (k c : Nat) (hr : Returned toList freq ops k pre) :
    ∃ m, (savedOf c pre).length < m + 2 * freq ∧
      (m = 0 ∨ CompleteFile toList (jsonCrash toList d0 freq ops k) (savedOf c pre) c m) := by
  obtain ⟨q, post, C, e1, e2, e3, e4⟩ := crash_main toList d0 freq ops k
  have hq := e3 pre hr
  have hmod := Nat.mod_lt (savedOf c pre).length hf
  have hle := Nat.mod_le (savedOf c pre).length freq
  have hdvd : freq ∣ (savedOf c pre).length - (savedOf c pre).length % freq := Nat.dvd_sub_mod _
  generalize hM : (savedOf c pre).length - (savedOf c pre).length % freq = M at *
  -- a file which is not being written is complete
  have ok : ∀ m, freq ∣ m → m ≤ M → 0 < m →
      (jsonCrash toList d0 freq ops k (jsonName c m) =
        ((C.files.lookup (jsonName c m)).map (jsonDump toList)).or (d0 (jsonName c m))) →
      CompleteFile toList (jsonCrash toList d0 freq ops k) (savedOf c pre) c m :=
    fun m h1 h2 h3 h4 => due_complete toList freq pre q C _ d0 e2 hq c m
      (due_multiple freq pre c m hf h1 h3 (by omega)) h4
  by_cases h0 : M = 0
  · exact ⟨0, by omega, Or.inl rfl⟩
  rcases e4 with h | ⟨op, post', c', samples, k', rfl, hp, -, -, h⟩
  · exact ⟨M, by omega, Or.inr (ok M hdvd (by omega) (by omega) (h _))⟩
  · by_cases hn : jsonName c M = jsonName c' samples.length
    · have hfM := Nat.le_of_dvd (by omega) hdvd
      refine ⟨M - freq, by omega, ?_⟩
      by_cases h1 : M - freq = 0
      · exact Or.inl h1
      · right
        refine ok _ (Nat.dvd_sub hdvd (Nat.dvd_refl freq)) (by omega) (by omega) ?_
        rw [h, if_neg]
        intro e
        obtain ⟨-, h2⟩ := c48_names _ _ _ _ hn
        obtain ⟨-, h3⟩ := c48_names _ _ _ _ e
        omega
    · exact ⟨M, by omega, Or.inr (ok M hdvd (by omega) (by omega) (by rw [h, if_neg hn]))⟩

/-- The bound is attained: with write frequency two, both saved samples are lost. -/
example : Returned digitVal 2 crashOps 11 (crashOps.take 3) ∧
    (savedOf 0 (crashOps.take 3)).length = 2 ∧
    ∀ m, 0 < m → m ≤ 2 →
      ¬ CompleteFile digitVal (jsonCrash digitVal emptyDisk 2 crashOps 11)
        (savedOf 0 (crashOps.take 3)) 0 m := by
  refine ⟨⟨List.take_prefix _ _, ⟨_, rfl⟩, by decide +kernel⟩, rfl, ?_⟩
  rintro m h0 h2 ⟨-, content, -, h⟩
  obtain rfl | rfl : m = 1 ∨ m = 2 := by omega
  · have : jsonCrash digitVal emptyDisk 2 crashOps 11 (jsonName 0 1) = none := by decide +kernel
    rw [this] at h
    simp at h
  · rw [c117_empty_file.2] at h
    cases content <;> simp [jsonDump, JVal.render] at h

/-! ### C118: incomplete files are recognized -/

mutual
/-- The text of a value followed by a comma, a bracket or nothing determines the value. -/
theorem render_inj : ∀ (a b : JVal) (s t : Key), Spec.JVal.Ok a → Spec.JVal.Ok b →
    (∀ ch, s.head? = some ch → ch = ',' ∨ ch = ']') →
    (∀ ch, t.head? = some ch → ch = ',' ∨ ch = ']') →
    a.render ++ s = b.render ++ t → a = b ∧ s = t := by
  intro a b s t ha hb hs ht h
  match a, b with
  | .num x, .num y =>
    simp only [Spec.JVal.Ok] at ha hb
    simp only [JVal.render] at h
    have : ∀ (x y s t : Key), (∀ ch ∈ x, ch ≠ '[' ∧ ch ≠ ']' ∧ ch ≠ ',') →
        (∀ ch ∈ y, ch ≠ '[' ∧ ch ≠ ']' ∧ ch ≠ ',') →
        (∀ ch, s.head? = some ch → ch = ',' ∨ ch = ']') →
        (∀ ch, t.head? = some ch → ch = ',' ∨ ch = ']') →
        x ++ s = y ++ t → x = y ∧ s = t := by
      intro x
      induction x with
      | nil =>
        intro y s t _ hy hs _ h
        cases y with
        | nil => exact ⟨rfl, by simpa using h⟩
        | cons c y =>
          exfalso
          simp only [List.nil_append, List.cons_append] at h
          have h1 := hs c (by simp [h])
          have h2 := hy c (by simp)
          rcases h1 with rfl | rfl <;> simp at h2
      | cons c x ih =>
        intro y s t hx hy hs ht h
        cases y with
        | nil =>
          exfalso
          simp only [List.nil_append, List.cons_append] at h
          have h1 := ht c (by simp [← h])
          have h2 := hx c (by simp)
          rcases h1 with rfl | rfl <;> simp at h2
        | cons c' y =>
          simp only [List.cons_append, List.cons.injEq] at h
          obtain ⟨h1, h2⟩ := ih y s t (fun ch hc => hx ch (by simp [hc]))
            (fun ch hc => hy ch (by simp [hc])) hs ht h.2
          exact ⟨by rw [h.1, h1], h2⟩
    obtain ⟨h1, h2⟩ := this x y s t ha.2 hb.2 hs ht h
    exact ⟨by rw [h1], h2⟩
  | .num x, .arr ys =>
    exfalso
    simp only [Spec.JVal.Ok] at ha
    cases x with
    | nil => exact ha.1 rfl
    | cons c x =>
      have := ha.2 c (by simp)
      cases ys <;> simp [JVal.render] at h <;> exact this.1 h.1
  | .arr xs, .num y =>
    exfalso
    simp only [Spec.JVal.Ok] at hb
    cases y with
    | nil => exact hb.1 rfl
    | cons c y =>
      have := hb.2 c (by simp)
      cases xs <;> simp [JVal.render] at h <;> exact this.1 h.1.symm
  | .arr xs, .arr ys =>
    obtain ⟨h1, h2⟩ := render_arr_inj xs ys s t (by simpa [Spec.JVal.Ok] using ha)
      (by simpa [Spec.JVal.Ok] using hb) h
    exact ⟨by rw [h1], h2⟩
/-- The text of a list is delimited by its brackets. -/
theorem render_arr_inj : ∀ (xs ys : List JVal) (s t : Key), Spec.JVal.OkList xs → Spec.JVal.OkList ys →
    (JVal.arr xs).render ++ s = (JVal.arr ys).render ++ t → xs = ys ∧ s = t := by
  intro xs ys s t hx hy h
  match xs, ys with
  | [], [] => simpa [JVal.render] using h
  | [], y :: ys =>
    exfalso
    simp only [JVal.render, List.cons_append, List.nil_append, List.cons.injEq, true_and,
      List.append_assoc] at h
    exact render_head y (by simp only [Spec.JVal.OkList] at hy; exact hy.1) _ _ h.symm
  | x :: xs, [] =>
    exfalso
    simp only [JVal.render, List.cons_append, List.nil_append, List.cons.injEq, true_and,
      List.append_assoc] at h
    exact render_head x (by simp only [Spec.JVal.OkList] at hx; exact hx.1) _ _ h
  | x :: xs, y :: ys =>
    simp only [JVal.render, List.cons_append, List.cons.injEq, true_and, List.append_assoc] at h
    simp only [Spec.JVal.OkList] at hx hy
    obtain ⟨h1, h2⟩ := render_inj x y _ _ hx.1 hy.1 (renderTail_head xs s) (renderTail_head ys t) h
    obtain ⟨h3, h4⟩ := renderTail_inj xs ys s t hx.2 hy.2 h2
    exact ⟨by rw [h1, h3], h4⟩
theorem renderTail_inj : ∀ (xs ys : List JVal) (s t : Key), Spec.JVal.OkList xs → Spec.JVal.OkList ys →
    JVal.renderTail xs ++ s = JVal.renderTail ys ++ t → xs = ys ∧ s = t := by
  intro xs ys s t hx hy h
  match xs, ys with
  | [], [] => simpa [JVal.renderTail] using h
  | [], y :: ys => simp [JVal.renderTail] at h
  | x :: xs, [] => simp [JVal.renderTail] at h
  | x :: xs, y :: ys =>
    simp only [JVal.renderTail, List.cons_append, List.cons.injEq, true_and, List.append_assoc] at h
    simp only [Spec.JVal.OkList] at hx hy
    obtain ⟨h1, h2⟩ := render_inj x y _ _ hx.1 hy.1 (renderTail_head xs s) (renderTail_head ys t) h
    obtain ⟨h3, h4⟩ := renderTail_inj xs ys s t hx.2 hy.2 h2
    exact ⟨by rw [h1, h3], h4⟩
/-- No value begins with a closing bracket. -/
theorem render_head : ∀ (a : JVal), Spec.JVal.Ok a → ∀ s t : Key, a.render ++ s ≠ ']' :: t := by
  intro a ha s t h
  match a with
  | .num [] => simp only [Spec.JVal.Ok] at ha; exact ha.1 rfl
  | .num (c :: x) =>
    simp only [Spec.JVal.Ok] at ha
    simp only [JVal.render, List.cons_append, List.cons.injEq] at h
    exact (ha.2 c (by simp)).2.1 h.1
  | .arr [] => simp [JVal.render] at h
  | .arr (x :: xs) => simp [JVal.render] at h
theorem renderTail_head : ∀ (xs : List JVal) (s : Key) (ch : Char),
    (JVal.renderTail xs ++ s).head? = some ch → ch = ',' ∨ ch = ']' := by
  intro xs s ch h
  match xs with
  | [] => simp [JVal.renderTail] at h; exact Or.inr h.symm
  | x :: xs => simp [JVal.renderTail] at h; exact Or.inl h.symm
end

theorem okList_iff (xs : List JVal) : Spec.JVal.OkList xs ↔ ∀ x ∈ xs, Spec.JVal.Ok x := by
  induction xs with
  | nil => simp [Spec.JVal.OkList]
  | cons x xs ih => simp [Spec.JVal.OkList, ih]

theorem dump_ok (toList : α → JVal) (hl : ∀ a, Spec.JVal.Ok (toList a)) (content : List (List α)) :
    Spec.JVal.OkList (content.map fun col => JVal.arr (col.map toList)) := by
  rw [okList_iff]
  intro x hx
  obtain ⟨col, -, rfl⟩ := List.mem_map.1 hx
  simp only [Spec.JVal.Ok, okList_iff]
  intro y hy
  obtain ⟨a, -, rfl⟩ := List.mem_map.1 hy
  exact hl a

/-- **C118** (contents).  The text of a file determines the samples written to it. -/
theorem c118_decode (toList : α → JVal) (hl : ∀ a, Spec.JVal.Ok (toList a))
    (hi : Function.Injective toList) (content content' : List (List α))
    (h : jsonDump toList content = jsonDump toList content') : content = content' := by
  obtain ⟨h1, -⟩ := render_arr_inj _ _ [] [] (dump_ok toList hl content) (dump_ok toList hl content')
    (by simpa [jsonDump] using h)
  refine List.map_injective_iff.2 ?_ h1
  intro a b hab
  simp only [JVal.arr.injEq] at hab
  exact List.map_injective_iff.2 hi hab

/-- A strict beginning of the text of a file is not the text of any value. -/
theorem dump_prefix_unreadable (toList : α → JVal) (hl : ∀ a, Spec.JVal.Ok (toList a))
    (content : List (List α)) (k : Nat) (hk : k < (jsonDump toList content).length) :
    Unreadable ((jsonDump toList content).take k) := by
  intro v hv he
  cases v with
  | num s =>
    simp only [Spec.JVal.Ok] at hv
    simp only [JVal.render] at he
    cases s with
    | nil => exact hv.1 rfl
    | cons ch s =>
      have h1 : ((jsonDump toList content).take k).head? = some ch := by rw [← he]; rfl
      have h2 : (jsonDump toList content).head? = some '[' := by
        cases content <;> simp [jsonDump, JVal.render]
      rw [List.head?_take] at h1
      split at h1
      · simp at h1
      · rw [h2] at h1
        simp only [Option.some.injEq] at h1
        exact (hv.2 ch (by simp)).1 h1.symm
  | arr xs =>
    have h : (JVal.arr xs).render ++ (jsonDump toList content).drop k
        = (JVal.arr (content.map fun col => .arr (col.map toList))).render ++ [] := by
      rw [he, List.take_append_drop, List.append_nil]; rfl
    obtain ⟨-, h2⟩ := render_arr_inj _ _ _ _ (by simpa [Spec.JVal.Ok] using hv)
      (dump_ok toList hl content) h
    have := congrArg List.length h2
    simp at this
    omega

/-- **C118.** Whenever the process is killed, every file `chain_{c}_iteration_{i}.json` either
is as it was before the run, or holds exactly the first `i` samples of chain `c`, or cannot be read (it
is not the text of any value).  At most one file cannot be read, and files with other names are not
touched. -/
theorem c118_recognized (toList : α → JVal) (hl : ∀ a, Spec.JVal.Ok (toList a)) (d0 : Disk) (freq : Nat)
    (ops : List (JsonOp α)) (k : Nat) :
    (∀ f, (∀ c i, f ≠ jsonName c i) → jsonCrash toList d0 freq ops k f = d0 f) ∧
    ∃ c0 i0, ∀ c i,
      jsonCrash toList d0 freq ops k (jsonName c i) = d0 (jsonName c i) ∨
      CompleteFile toList (jsonCrash toList d0 freq ops k) (savedOf c ops) c i ∨
      (c = c0 ∧ i = i0 ∧
        ∃ text, jsonCrash toList d0 freq ops k (jsonName c i) = some text ∧ Unreadable text) := by
  obtain ⟨q, post, C, rfl, e2, -, e4⟩ := crash_main toList d0 freq ops k
  have hempty : Unreadable [] := by
    intro v hv he
    match v with
    | .num s => simp only [Spec.JVal.Ok] at hv; exact hv.1 he
    | .arr [] => simp [JVal.render] at he
    | .arr (x :: xs) => simp [JVal.render] at he
  have hfile : ∀ f, (∀ c i, f ≠ jsonName c i) →
      ((C.files.lookup f).map (jsonDump toList)).or (d0 f) = d0 f := by
    intro f hf
    have : C.files.lookup f = none := by
      rw [List.lookup_eq_none_iff]
      rintro ⟨name, content⟩ hm
      obtain ⟨c, i, e, -⟩ := (jsonInv freq q C e2).only name content hm
      apply bne_iff_ne.2
      rintro rfl
      exact hf c i e
    rw [this]; rfl
  -- a file not being written
  have hother : ∀ (d : Disk) c i,
      d (jsonName c i) = ((C.files.lookup (jsonName c i)).map (jsonDump toList)).or
        (d0 (jsonName c i)) →
      d (jsonName c i) = d0 (jsonName c i) ∨ CompleteFile toList d (savedOf c (q ++ post)) c i := by
    intro d c i h
    by_cases hd : Due freq q c i
    · right
      have hle := (due_le _ _ _ _ hd).2
      obtain ⟨h1, content, h2, h3⟩ := due_complete toList freq q q C d d0 e2 (List.prefix_refl _) c i hd h
      refine ⟨by rw [savedOf_prefix, List.length_append]; omega, content, ?_, h3⟩
      rw [savedOf_prefix, List.take_append_of_le_length hle]
      exact h2
    · left
      rw [h, (c48_files freq q C e2 c i).2 hd]; rfl
  rcases e4 with h | ⟨op, post', c0, samples, k', rfl, hp, hst, hk, h⟩
  · refine ⟨fun f hf => by rw [h, hfile f hf], 0, 0, fun c i => ?_⟩
    rcases hother _ c i (h _) with h1 | h1
    · exact Or.inl h1
    · exact Or.inr (Or.inl h1)
  · refine ⟨fun f hf => by rw [h, if_neg (hf _ _), hfile f hf], c0, samples.length, fun c i => ?_⟩
    by_cases hn : c = c0 ∧ i = samples.length
    · obtain ⟨rfl, rfl⟩ := hn
      have hc := h (jsonName c samples.length)
      rw [if_pos rfl] at hc
      match k', hst, hk with
      | 0, _, _ =>
        rcases hother _ c _ hc with h1 | h1
        · exact Or.inl h1
        · exact Or.inr (Or.inl h1)
      | 1, _, _ =>
        simp only [midText] at hc
        cases hx : ((C.files.lookup (jsonName c samples.length)).map (jsonDump toList)).or
            (d0 (jsonName c samples.length)) with
        | none =>
          rw [hx] at hc
          exact Or.inr (Or.inr ⟨rfl, rfl, [], hc, hempty⟩)
        | some text =>
          rw [hx] at hc
          rcases hother (jsonCrash toList d0 freq (q ++ op :: post') k) c _
            (by rw [hc, hx]; rfl) with h1 | h1
          · exact Or.inl h1
          · exact Or.inr (Or.inl h1)
      | k' + 2, hst, hk =>
        simp only [midText] at hc
        exact Or.inr (Or.inr ⟨rfl, rfl, _, hc,
          dump_prefix_unreadable toList hl _ k' (by omega)⟩)
    · have hne : jsonName c i ≠ jsonName c0 samples.length := fun e => hn (c48_names _ _ _ _ e)
      have hc := h (jsonName c i)
      rw [if_neg hne] at hc
      rcases hother _ c i hc with h1 | h1
      · exact Or.inl h1
      · exact Or.inr (Or.inl h1)

/-- The hypotheses are met by the decimal numbers. -/
example : (∀ n, Spec.JVal.Ok (digitVal n)) ∧ Function.Injective digitVal := by
  constructor
  · intro n
    simp only [digitVal, Spec.JVal.Ok]
    refine ⟨?_, ?_⟩
    · exact Nat.toDigits_ne_nil
    · intro ch h
      have := isDigit_toDigits n ch h
      refine ⟨?_, ?_, ?_⟩ <;> rintro rfl <;> simp at this
  · intro a b h
    simp only [digitVal, JVal.num.injEq] at h
    exact toDigits_inj a b h

/-- A crash while the second of two files is written: the first one is complete, the second one is
not. -/
example : jsonCrash digitVal emptyDisk 1 crashOps 12 (jsonName 0 1) = some ['[','[','1',']',']'] ∧
    jsonCrash digitVal emptyDisk 1 crashOps 12 (jsonName 0 2) = some ['[','[','1'] := by
  constructor <;> decide +kernel

end JaxSgmc
