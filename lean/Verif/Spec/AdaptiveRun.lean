import Verif.Spec.Alias
import Verif.Spec.Oracle

/-!
# Specification: the samples in the result of a ready to use solver
-/

namespace JaxSgmc.Spec

open JaxSgmc

variable {ι μ : Type}

/-- The vectors in a list of leaves. -/
def vectorLeaves : List (OutLeaf ι μ) → List (ι → ℝ)
  | [] => []
  | .vector v :: l => v :: vectorLeaves l
  | _ :: l => vectorLeaves l

/-- The samples of the latent variables in the result of a chain: `result["samples"]["variables"]`. -/
def returnedVariables (r : SaveResult (OutLeaf ι μ)) : List (ι → ℝ) :=
  match r.samples with
  | .node (.dict names) entries =>
    match (names.zip entries).lookup "variables".toList with
    | some (.leaf l) => vectorLeaves l
    | _ => []
  | _ => []

/-- The samples of the latent variables of chain `j`. -/
def chainVariables (rs : List (SaveResult (OutLeaf ι μ))) (j : Nat) : List (ι → ℝ) :=
  match rs[j]? with
  | some r => returnedVariables r
  | none => []

end JaxSgmc.Spec
