import Verif.Model.Saving

/-!
# Arbitrary calls of a memory collector

`io.save` calls a `MemoryCollector` in a fixed order.  The class is public, here it is called in any order.
-/

namespace JaxSgmc

variable {α : Type}

/-- The calls `register_chain`, `save` and `finalize` of a `MemoryCollector` (io.py:525-591). -/
inductive MemCall (α : Type)
  | register (sample : Tree α) (samplesCollected : Int)
  | save (id : Nat) (sample : Tree α)
  | finalize (id : Nat)

/-- One call: the collector afterwards and what is raised.  Every check of `register_chain` (io.py:537-553),
the first failing assignment of `save` (all arrays of a chain have the same number of rows, io.py:571-574) and
`release` of `finalize` (io.py:584) come before the first change of the collector, so a call which raises changes nothing.
(io.py:525-591) -/
def memCall (zero : α → α) (C : MemCollector α) : MemCall α → MemCollector α × Option PyErr
  | .register sample n =>
    match memRegister zero C sample n with
    | .ok (C', _) => (C', none)
    | .error e => (C, some e)
  | .save id sample =>
    match memSave C id sample.leaves with
    | .ok C' => (C', none)
    | .error e => (C, some e)
  | .finalize id =>
    match memFinalize C id with
    | .ok C' => (C', none)
    | .error e => (C, some e)

/-- Some calls one after the other, with what each of them raises.  The caller catches the exceptions.
(io.py:525-591) -/
def memCalls (zero : α → α) : MemCollector α → List (MemCall α) → MemCollector α × List (Option PyErr)
  | C, [] => (C, [])
  | C, c :: cs =>
    let r := memCall zero C c
    let rs := memCalls zero r.1 cs
    (rs.1, r.2 :: rs.2)

end JaxSgmc
