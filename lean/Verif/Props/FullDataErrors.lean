import Verif.Props.FullData

/-!
# C146: errors during a map over the full dataset

If a batch cannot be fetched or the mapped function raises, the map raises this error and returns no
(partial) result; nothing more is fetched.  For a host data loader whose data has been released the
map works as long as the cache suffices and raises `KeyError` otherwise.
-/

namespace JaxSgmc

open Spec

section
variable {S β σ γ : Type}

/-- A scan stops at the first batch which cannot be fetched. -/
theorem scan_source_error (src : S → Except PyErr β × S) (f : Nat → β → σ → Except PyErr (γ × σ))
    (ok : ∀ it b c, ∃ r, f it b c = .ok r) {e : PyErr} {s1 s2 : S} (herr : src s1 = (.error e, s2))
    (bs : List β) : ∀ (n it : Nat) (s : S) (c : σ), Supplies src s bs s1 → bs.length < n →
    scanBatches src f n it s c = (.error e, s2) := by
  induction bs with
  | nil =>
    intro n it s c hs hn
    simp only [Supplies] at hs
    subst hs
    cases n with
    | zero => simp at hn
    | succ n => simp only [scanBatches, herr]
  | cons b bs ih =>
    intro n it s c hs hn
    obtain ⟨t, ht, hs⟩ := hs
    cases n with
    | zero => simp at hn
    | succ n =>
      obtain ⟨⟨r, c'⟩, hr⟩ := ok it b c
      simp only [scanBatches, ht, hr]
      rw [ih n (it + 1) t c' hs (by simpa using hn)]

/-- The same when the function may raise but does not on the earlier batches. -/
theorem scan_source_error' (src : S → Except PyErr β × S) (f : β → σ → Except PyErr (γ × σ))
    {e : PyErr} {s1 s2 : S} (herr : src s1 = (.error e, s2))
    (bs : List β) : ∀ (n it : Nat) (s : S) (c c1 : σ), Supplies src s bs s1 → Succeeds f bs c c1 →
    bs.length < n → scanBatches src (fun _ => f) n it s c = (.error e, s2) := by
  induction bs with
  | nil =>
    intro n it s c c1 hs _ hn
    simp only [Supplies] at hs
    subst hs
    cases n with
    | zero => simp at hn
    | succ n => simp only [scanBatches, herr]
  | cons b bs ih =>
    intro n it s c c1 hs hf hn
    obtain ⟨t, ht, hs⟩ := hs
    obtain ⟨r, c', hr, hf⟩ := hf
    cases n with
    | zero => simp at hn
    | succ n =>
      simp only [scanBatches, ht, hr]
      rw [ih n (it + 1) t c' c1 hs hf (by simpa using hn)]

/-- A scan stops at the first batch on which the function raises. -/
theorem scan_function_error (src : S → Except PyErr β × S) (f : β → σ → Except PyErr (γ × σ))
    {e : PyErr} {s1 : S} {b0 : β} {c1 : σ} (herr : f b0 c1 = .error e)
    (bs : List β) : ∀ (n it : Nat) (s : S) (c : σ), Supplies src s (bs ++ [b0]) s1 →
    Succeeds f bs c c1 →
    bs.length < n → scanBatches src (fun _ => f) n it s c = (.error e, s1) := by
  induction bs with
  | nil =>
    intro n it s c hs hf hn
    obtain ⟨t, ht, hs⟩ := hs
    simp only [Supplies] at hs
    simp only [Succeeds] at hf
    subst hs hf
    cases n with
    | zero => simp at hn
    | succ n => simp only [scanBatches, ht, herr]
  | cons b bs ih =>
    intro n it s c hs hf hn
    obtain ⟨t, ht, hs⟩ := hs
    obtain ⟨r, c', hr, hf⟩ := hf
    cases n with
    | zero => simp at hn
    | succ n =>
      simp only [scanBatches, ht, hr]
      rw [ih n (it + 1) t c' hs hf (by simpa using hn)]

/-- **C146** (masked maps).  If the source supplies `k` batches, fewer than needed, and raises the
error `e` instead of the next one, then the map raises `e`; the source is not asked again. -/
theorem c146_source_masked (src : S → Except PyErr β × S) (N bs : Nat) (hbs : 0 < bs)
    (fn : β → List Bool → σ → γ × σ) (batches : List β) (s s1 s2 : S) (carry : σ) (e : PyErr)
    (hsup : Supplies src s batches s1) (herr : src s1 = (.error e, s2))
    (hk : batches.length < ceilDiv N bs) :
    mapMasked src N bs fn s carry = (.error e, s2) := by
  simp only [mapMasked, numIterations, if_neg (by omega : ¬ bs = 0)]
  exact scan_source_error src _ (fun it b c => ⟨_, rfl⟩) herr batches _ _ _ _ hsup hk

/-- **C146** (unmasked maps): the same, if the function succeeds on the batches before. -/
theorem c146_source_unmasked (src : S → Except PyErr β × S) (N bs : Nat) (hbs : 0 < bs)
    (fn : β → σ → Except PyErr (List γ × σ)) (batches : List β) (s s1 s2 : S) (carry c1 : σ)
    (e : PyErr) (hsup : Supplies src s batches s1) (hfn : Succeeds fn batches carry c1)
    (herr : src s1 = (.error e, s2)) (hk : batches.length < ceilDiv N bs) :
    mapUnmasked src N bs fn s carry = (.error e, s2) := by
  simp only [mapUnmasked, numIterations, if_neg (by omega : ¬ bs = 0)]
  rw [scan_source_error' src fn herr batches _ _ _ _ _ hsup hfn hk]

/-- **C146** (errors of the mapped function).  If the function raises `e` on a batch, after it
succeeded on the batches before, then the map raises `e` and requests no further batch. -/
theorem c146_function (src : S → Except PyErr β × S) (N bs : Nat) (hbs : 0 < bs)
    (fn : β → σ → Except PyErr (List γ × σ)) (batches : List β) (b : β) (s s1 : S) (carry c1 : σ)
    (e : PyErr) (hsup : Supplies src s (batches ++ [b]) s1) (hfn : Succeeds fn batches carry c1)
    (herr : fn b c1 = .error e) (hk : batches.length < ceilDiv N bs) :
    mapUnmasked src N bs fn s carry = (.error e, s1) := by
  simp only [mapUnmasked, numIterations, if_neg (by omega : ¬ bs = 0)]
  rw [scan_function_error src fn herr batches _ _ _ _ hsup hfn hk]

/-- The result of a masked map depends on the supplied batches only. -/
theorem mapMasked_same {S' : Type} (src : S → Except PyErr β × S) (src' : S' → Except PyErr β × S')
    (N bs : Nat) (hbs : 0 < bs)
    (fn : β → List Bool → σ → γ × σ) (batches : List β) (s s1 : S) (t t1 : S') (carry : σ)
    (h : Supplies src s batches s1) (h' : Supplies src' t batches t1)
    (hk : batches.length = ceilDiv N bs) :
    (mapMasked src N bs fn s carry).2 = s1 ∧ (∃ r, (mapMasked src N bs fn s carry).1 = .ok r) ∧
    (mapMasked src N bs fn s carry).1 = (mapMasked src' N bs fn t carry).1 := by
  simp only [mapMasked, numIterations, if_neg (by omega : ¬ bs = 0)]
  rw [← hk]
  clear hk
  suffices ∀ (it : Nat) (c : σ) (s : S) (t : S'), Supplies src s batches s1 →
      Supplies src' t batches t1 →
      (scanBatches src (fun it b c => .ok (fn b (iterMask N bs it) c)) batches.length it s c).2 = s1 ∧
      (∃ r, (scanBatches src (fun it b c => .ok (fn b (iterMask N bs it) c)) batches.length it s c).1
        = .ok r) ∧
      (scanBatches src (fun it b c => .ok (fn b (iterMask N bs it) c)) batches.length it s c).1 =
      (scanBatches src' (fun it b c => .ok (fn b (iterMask N bs it) c)) batches.length it t c).1 from
    this 0 carry s t h h'
  clear h h'
  induction batches with
  | nil =>
    intro it c s t h h'
    simp only [Supplies] at h
    subst h
    exact ⟨rfl, ⟨_, rfl⟩, rfl⟩
  | cons b bs' ih =>
    intro it c s t h h'
    obtain ⟨u, hu, h⟩ := h
    obtain ⟨u', hu', h'⟩ := h'
    obtain ⟨i1, ⟨r, i2⟩, i3⟩ := ih (it + 1) (fn b (iterMask N bs it) c).2 u u' h h'
    rw [i2] at i3
    simp only [List.length_cons, scanBatches, hu, hu']
    generalize scanBatches src _ bs'.length (it + 1) u (fn b (iterMask N bs it) c).2 = x at i1 i2 ⊢
    generalize scanBatches src' _ bs'.length (it + 1) u' (fn b (iterMask N bs it) c).2 = y at i3 ⊢
    obtain ⟨x1, x2⟩ := x
    obtain ⟨y1, y2⟩ := y
    simp only at i1 i2 i3
    subst i1 i2 i3
    exact ⟨rfl, ⟨_, rfl⟩, rfl⟩

end

/-! ### Host data loaders -/

section
variable {Λ κ μ σ γ : Type} (H : HostLoader Λ κ μ)

/-- **C146** (host data).  If the request for a batch of a host data loader raises `e`, after `k`
batches have been delivered, the map raises `e`, leaving the program as the failed request left it. -/
theorem c146_host (devices v dc N bs : Nat) (hbs : 0 < bs) (fn : μ → List Bool → σ → γ × σ)
    (batches : List μ) (s s1 s2 : PSys Λ μ) (carry : σ) (e : PyErr)
    (hsup : Supplies (hostSource H devices v dc) s batches s1)
    (herr : pstep H devices s1 (.draw v dc) = (s2, .raised e))
    (hk : batches.length < ceilDiv N bs) :
    mapMasked (hostSource H devices v dc) N bs fn s carry = (.error e, s2) :=
  c146_source_masked _ N bs hbs fn batches s s1 s2 carry e hsup (by simp only [hostSource, herr]) hk

/-- The batches left in the cache of a data state are supplied without any request. -/
theorem cached_supplies (devices v : Nat) (hdev : 1 ≤ devices) (k : Nat) :
    ∀ (s : PSys Λ μ) (st : CacheState μ), s.vars v = some st →
    st.batches.length = st.count → st.line + k ≤ st.count →
    Supplies (hostSource H devices v 1) s ((st.batches.drop st.line).take k)
      { s with vars := upd s.vars v (some { st with line := st.line + k }) } := by
  induction k with
  | zero =>
    intro s st hv _ _
    simp only [List.take_zero, Supplies, Nat.add_zero]
    have : upd s.vars v (some st) = s.vars := by
      funext i
      by_cases hi : i = v
      · subst hi; simp [upd, hv]
      · simp [upd, hi]
    rw [this]
  | succ k ih =>
    intro s st hv hlen hk
    have hlt : st.line < st.batches.length := by omega
    rw [List.drop_eq_getElem_cons hlt, List.take_succ_cons]
    refine ⟨{ s with vars := upd s.vars v (some { st with line := st.line + 1 }) }, ?_, ?_⟩
    · have hmod : st.line % st.count = st.line := Nat.mod_eq_of_lt (by omega)
      simp only [hostSource, pstep, hv, batchFn, if_neg (by omega : ¬ 1 > devices),
        if_neg (by omega : ¬ st.line = st.count), hmod, List.getElem?_eq_getElem hlt]
    · have := ih { s with vars := upd s.vars v (some { st with line := st.line + 1 }) }
        { st with line := st.line + 1 } (upd_self _ _ _) hlen (by
          show st.line + 1 + k ≤ st.count
          omega)
      have hup : ∀ x y : Option (CacheState μ), upd (upd s.vars v x) v y = upd s.vars v y := by
        intro x y
        funext i
        by_cases hi : i = v <;> simp [upd, hi]
      simp only [hup] at this
      have harith : st.line + 1 + k = st.line + (k + 1) := by omega
      rw [harith] at this
      exact this

/-- **C146** (released data, cache suffices).  A map over a data state whose cache still contains all
batches of the map returns, changes nothing on the host, and its result is the same as in any other
program with this data state, in particular one in which the loader was not released. -/
theorem c146_cache_suffices (devices v N bs : Nat) (hdev : 1 ≤ devices) (hbs : 0 < bs)
    (fn : μ → List Bool → σ → γ × σ) (s s0 : PSys Λ μ) (st : CacheState μ) (carry : σ)
    (hv : s.vars v = some st) (hv0 : s0.vars v = some st) (hlen : st.batches.length = st.count)
    (hk : st.line + ceilDiv N bs ≤ st.count) :
    (∃ r, (mapMasked (hostSource H devices v 1) N bs fn s carry).1 = .ok r) ∧
    (mapMasked (hostSource H devices v 1) N bs fn s carry).2.host = s.host ∧
    (mapMasked (hostSource H devices v 1) N bs fn s carry).1 =
      (mapMasked (hostSource H devices v 1) N bs fn s0 carry).1 := by
  have h := cached_supplies H devices v hdev (ceilDiv N bs) s st hv hlen hk
  have h0 := cached_supplies H devices v hdev (ceilDiv N bs) s0 st hv0 hlen hk
  obtain ⟨h1, h2, h3⟩ := mapMasked_same _ _ N bs hbs fn _ _ _ _ _ carry h h0 (by
    rw [List.length_take, List.length_drop]; omega)
  exact ⟨h2, by rw [h1], h3⟩

/-- **C146** (released data, cache too small).  A map over a data state of a released loader whose
cache does not contain all batches raises `KeyError` after the cached batches; no data is read from
the loader.  (The token of the data state is the expected one, and no replica of this data state has
left an answer behind.) -/
theorem c146_released (devices v N bs : Nat) (hdev : 1 ≤ devices) (hbs : 0 < bs)
    (fn : μ → List Bool → σ → γ × σ) (s : PSys Λ μ) (st : CacheState μ) (carry : σ)
    (hv : s.vars v = some st) (hlen : st.batches.length = st.count) (hline : st.line ≤ st.count)
    (hk : st.count < st.line + ceilDiv N bs)
    (hrel : s.host.loaders st.cb = none) (hcache : s.host.cached st.token = none)
    (htok : s.host.requests st.cb st.chain = none ∨ s.host.requests st.cb st.chain = some st.token) :
    (mapMasked (hostSource H devices v 1) N bs fn s carry).1 = .error .keyError ∧
    (mapMasked (hostSource H devices v 1) N bs fn s carry).2.host.fetches = s.host.fetches ∧
    (mapMasked (hostSource H devices v 1) N bs fn s carry).2.host.objs = s.host.objs := by
  have h := cached_supplies H devices v hdev (st.count - st.line) s st hv hlen (by omega)
  rw [show st.line + (st.count - st.line) = st.count by omega] at h
  have hno : ¬ (s.host.requests st.cb st.chain ≠ some st.token ∧
      s.host.requests st.cb st.chain ≠ none) := by
    rintro ⟨h1, h2⟩
    rcases htok with h | h
    · exact h2 h
    · exact h1 h
  have herr : pstep H devices
      { s with vars := upd s.vars v (some { st with line := st.count }) } (.draw v 1) =
      ({ s with host := { s.host with next := s.host.next + 1 },
                vars := upd s.vars v (some { st with line := st.count }) }, .raised .keyError) := by
    simp only [pstep, upd_self, batchFn, if_neg (by omega : ¬ 1 > devices), if_true, request, hcache,
      if_neg hno, fetch, hrel]
  have := c146_host H devices v 1 N bs hbs fn _ s _ _ carry .keyError h herr (by
    rw [List.length_take, List.length_drop]; omega)
  rw [this]
  exact ⟨rfl, rfl, rfl⟩

end

/-- The toy program: four observations in batches of two need two batches; the cache has two lines.
The map over a fresh data state of a released loader works, the second map raises `KeyError`; and a
released loader with one batch used up raises `KeyError`, too. -/
example :
    let s := (prun (numpyHost toyRng) 3 (pinit toyObjs)
      [.setup 0 2 2 true, .init 0 .ordered 0, .release 0]).1
    let total : (List (String × List Nat) × List Bool) → List Bool → Nat → Nat × Nat :=
      fun b _ c => (((b.1.lookup "x").getD []).sum, c + 1)
    let first := mapMasked (hostSource (numpyHost toyRng) 3 0 1) 4 2 total s 0
    let second := mapMasked (hostSource (numpyHost toyRng) 3 0 1) 4 2 total first.2 0
    let part := mapMasked (hostSource (numpyHost toyRng) 3 0 1) 4 2 total
      (prun (numpyHost toyRng) 3 s [.draw 0 1]).1 0
    first.1.toOption = some ([21, 25], 2) ∧
    (match second.1 with | .error e => some e | .ok _ => none) = some PyErr.keyError ∧
    (match part.1 with | .error e => some e | .ok _ => none) = some PyErr.keyError := by
  decide

/-- A function which raises on its second batch. -/
example :
    let fn : List Nat → Nat → Except PyErr (List Nat × Nat) := fun b c =>
      if c = 1 then .error .valueError else .ok (b, c + 1)
    (match (mapUnmasked (deviceSource [10, 11, 12, 13] 2) 4 2 fn 0 0).1 with
      | .error e => some e | .ok _ => none) = some PyErr.valueError ∧
    (mapUnmasked (deviceSource [10, 11, 12, 13] 2) 4 2 fn 0 5).1.toOption =
      some ([10, 11, 12, 13], 7) := by
  decide

end JaxSgmc
