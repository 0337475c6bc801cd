import Verif.Model.FullData

/-!
# Vocabulary for stating properties of full data maps
-/

namespace JaxSgmc.Spec

open JaxSgmc

/-- The source delivers the batches `bs` one after the other, starting in `s` and ending in `s'`. -/
def Supplies {S β : Type} (src : S → Except PyErr β × S) : S → List β → S → Prop
  | s, [], s' => s' = s
  | s, b :: bs, s' => ∃ s1, src s = (.ok b, s1) ∧ Supplies src s1 bs s'

/-- The function called on the batches in order, the carry passed on from call to call: the results and
the last carry. -/
def thread {β σ γ : Type} (fn : β → σ → γ × σ) : List β → σ → List γ × σ
  | [], c => ([], c)
  | b :: bs, c =>
    let r := fn b c
    let rest := thread fn bs r.2
    (r.1 :: rest.1, rest.2)

/-- The function, which may raise, called on the batches in order succeeds on all of them and turns the
carry `c` into `c'`. -/
def Succeeds {β σ γ : Type} (fn : β → σ → Except PyErr (γ × σ)) : List β → σ → σ → Prop
  | [], c, c' => c' = c
  | b :: bs, c, c' => ∃ r c1, fn b c = .ok (r, c1) ∧ Succeeds fn bs c1 c'

/-- Operations of the rest of the program while a mapper with callback `cb` exists: arbitrary, except
that the mapper's private data states (variables from `base` on) are not accessible and its data
loader is not released. -/
def EnvOk {κ σ : Type} (base cb : Nat) : MOp κ σ → Prop
  | .env (.setup ..) => True
  | .env (.init _ _ h) => h < base
  | .env (.copy h h') => h < base ∧ h' < base
  | .env (.draw h _) => h < base
  | .env (.release cb') => cb' ≠ cb
  | _ => True

end JaxSgmc.Spec
