import Verif.Model.Prelude

/-!
# UUIDs as arrays of 32-bit integers

Models `jax_sgmc/util/uuid.py`.  A `uuid.UUID` is a 128-bit number.
-/

namespace JaxSgmc

/-- `JaxUUID`: an array of unsigned 32-bit integers.
(util/uuid.py:25-34) -/
structure JaxUUID where
  ints : List (BitVec 32)
  deriving DecidableEq, Repr

/-- `JaxUUID()` (uuid.py:27-33) for the generated `uuid.uuid4().int`: the words
`(n >> bits) & 0xFFFFFFFF` for `bits in range(0, 128, 32)`. -/
def JaxUUID.new (n : Nat) : JaxUUID :=
  ⟨[0, 32, 64, 96].map (fun bits => BitVec.ofNat 32 ((n >>> bits) &&& 0xFFFFFFFF))⟩

/-- `as_uuid` (uuid.py:35-44): the sum of the shifted words (`zip` stops after four words).  The
hexadecimal detour `uuid.UUID(hex128)` is a `ValueError` if the number has more than 128 bits. -/
def JaxUUID.asUuid (u : JaxUUID) : Except PyErr Nat :=
  let n := (List.zipWith (fun (w : BitVec 32) bits => w.toNat <<< bits) u.ints [0, 32, 64, 96]).sum
  if n < 2 ^ 128 then .ok n else .error .valueError

/-- `tree_flatten` (uuid.py:53-57). -/
def JaxUUID.flatten (u : JaxUUID) : List (List (BitVec 32)) := [u.ints]

/-- `tree_unflatten` (uuid.py:59-62). -/
def JaxUUID.unflatten : List (List (BitVec 32)) → Except PyErr JaxUUID
  | [ints] => .ok ⟨ints⟩
  | _ => .error .valueError

end JaxSgmc
