import Verif.Model.Saving

/-!
# Asynchronous execution of host callbacks

Models `save` (`jax_sgmc/io.py:626-771`) with callbacks executed by other threads than the main
thread.  `host_callback.id_tap` enqueues a callback; callbacks of one chain are executed in the order
in which they were enqueued (one device executes a chain); there is no order between the callbacks of
different chains and between callbacks and the main thread.  (All chains on one device are in fact
executed in program order: the model allows more schedules.)  A callback raising an exception is
dropped and reported (the exception is logged by `host_callback`).
-/

namespace JaxSgmc

/-- The methods of a data collector with state `C`.  `finalize` is executed in several steps, the
main thread may run between them.  `ready` is the condition under which `finished` returns.
(`DataCollector`, io.py:254-299) -/
structure AsyncCollector (C α : Type) where
  register : C → Tree α → Int → Except PyErr (C × Nat)
  save : C → Nat → List α → Except PyErr C
  finalize : List (C → Nat → Except PyErr C)
  ready : C → Nat → Bool

/-- A pending callback of a chain (io.py:686-694, 765-767): saving a sample or a step of
`finalize`. -/
inductive Callback (α : Type) where
  | save : List α → Callback α
  | finalizeStep : Nat → Callback α

/-- The collector, the pending callbacks of every chain and the exceptions raised by callbacks.
(state of the runtime for the callbacks of io.py:686-773) -/
structure AsyncState (C α : Type) where
  coll : C
  queue : Nat → List (Callback α)
  raised : List (Nat × PyErr)

/-- What may happen next: the main thread registers a chain, the device reaches a kept sample of a
chain, the main thread calls `postprocess` (enqueues `finalize`), a callback thread executes the next
callback of a chain, `finished` returns.
(schedules of the calls at io.py:686-773) -/
inductive Cmd (α : Type) where
  | register : Tree α → Int → Cmd α
  | sample : Nat → Tree α → Cmd α
  | finalize : Nat → Cmd α
  | callback : Nat → Cmd α
  | finished : Nat → Cmd α

variable {C α : Type}

/-- Replaces the pending callbacks of chain `c`.
(runtime queue of the callbacks issued at io.py:702-704, 761-766) -/
def setQueue (queue : Nat → List (Callback α)) (c : Nat) (q : List (Callback α)) :
    Nat → List (Callback α) :=
  fun c' => if c' = c then q else queue c'

/-- Executes a callback.
(io.py:686-694, 761-766) -/
def runCallback (A : AsyncCollector C α) (coll : C) (c : Nat) : Callback α → Except PyErr C
  | .save values => A.save coll c values
  | .finalizeStep k =>
    match A.finalize[k]? with
    | none => .ok coll
    | some f => f coll c

/-- One step; `none` if the command is not enabled: `finished` blocks until `ready`
(io.py:608-609), there is no callback to execute, registering failed.  Functions: `init`
(io.py:718-721), `_save_wrapper` (io.py:696-704), `postprocess` (io.py:761-769). -/
def asyncStep (A : AsyncCollector C α) (s : AsyncState C α) : Cmd α → Option (AsyncState C α)
  | .register sample n =>
    match A.register s.coll sample n with
    | .error _ => none
    | .ok (coll, _) => some ⟨coll, s.queue, s.raised⟩
  | .sample c t =>
    some ⟨s.coll, setQueue s.queue c (s.queue c ++ [.save t.leaves]), s.raised⟩
  | .finalize c =>
    some ⟨s.coll, setQueue s.queue c
      (s.queue c ++ (List.range A.finalize.length).map .finalizeStep), s.raised⟩
  | .callback c =>
    match s.queue c with
    | [] => none
    | cb :: rest =>
      match runCallback A s.coll c cb with
      | .error e => some ⟨s.coll, setQueue s.queue c rest, (c, e) :: s.raised⟩
      | .ok coll => some ⟨coll, setQueue s.queue c rest, s.raised⟩
  | .finished c => if A.ready s.coll c then some s else none

/-- Executes a schedule; `none` if one of the commands is not enabled.
(histories of io.py:706-773) -/
def asyncRun (A : AsyncCollector C α) (s : AsyncState C α) : List (Cmd α) → Option (AsyncState C α)
  | [] => some s
  | x :: xs => (asyncStep A s x).bind (fun s' => asyncRun A s' xs)

/-- No pending callbacks.
(io.py:706-729: before any callback) -/
def asyncStart (coll : C) : AsyncState C α := ⟨coll, fun _ => [], []⟩

/-- `MemoryCollector`: `finalize` releases the lock, then writes the file (io.py:584-591);
`finished` acquires the lock (io.py:608). -/
def memAsync (zero : α → α) : AsyncCollector (MemCollector α) α where
  register := memRegister zero
  save := memSave
  finalize := [memRelease, memWrite]
  ready C id :=
    match C.chains[id]? with
    | none => false
    | some ch => !ch.locked

end JaxSgmc
