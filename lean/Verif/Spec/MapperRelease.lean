import Verif.Model.MapperRelease
import Verif.Spec.FullData

/-!
# Specification for C152: released mappers
-/

namespace JaxSgmc.Spec

/-- The other operations of the program do not touch the data states of the mapper, which are hidden in it,
and do not release it (only its own `release` does). -/
def EnvOkR {κ σ : Type} (base cb : Nat) : ROp κ σ → Prop
  | .op o => EnvOk base cb o
  | .release => True

/-- What may still happen after a mapper has been released: new calls raise `TypeError`, calls which are
running never return a result, releasing again raises `KeyError`. -/
def ReleasedOutcome {κ σ γ : Type} : ROp κ σ → MOut σ γ → Prop
  | .op (.start _ _), o => o = .raised .typeError
  | .op (.iter _), o => o = .done ∨ ∃ e, o = .raised e
  | .op (.finish _), o => o = .done ∨ o = .raised .attributeError
  | .op (.env _), _ => True
  | .release, o => o = .raised .keyError

/-- Is this an operation of the mapper itself, not one of the surrounding program? -/
def ofMapper {κ σ : Type} : ROp κ σ → Prop
  | .op (.env _) => False
  | _ => True

end JaxSgmc.Spec
