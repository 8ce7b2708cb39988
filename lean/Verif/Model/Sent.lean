import Verif.Model.Circuit

/-!
# The gates a circuit builder has sent when it raises (`PyQCodes/codes.py` 359-685)

`Model/Circuit` gives the gates of a call that returns.  Here every builder is a list of steps in program order.  A step
sends gates or raises; the gates sent before an exception stay with the engine (ProjectQ's `Control` passes every command on
at once and is only removed from the engine list when its block is left).  On calls that return, both models agree
(`C88_returns`).
-/

namespace PyQ

open Spec (Gate Op)

/-- What a call leaves behind: the gates sent, and the exception if there is one. (codes.py 359-685) -/
structure Sent where
  gates : List Gate
  raised : Option PyErr
  deriving DecidableEq

/-- Run the steps until one raises. (codes.py 359-685) -/
def sendAll : List (Except PyErr (List Gate)) → Sent
  | [] => ⟨[], none⟩
  | .ok g :: r => ⟨g ++ (sendAll r).gates, (sendAll r).raised⟩
  | .error e :: _ => ⟨[], some e⟩

/-- A list of steps that is known only if something before it does not raise. (codes.py 359-685) -/
def steps {α : Type} (x : Except PyErr α) (f : α → List (Except PyErr (List Gate))) : List (Except PyErr (List Gate)) :=
  match x with
  | .error e => [.error e]
  | .ok a => f a

/-- `encoding_circuit` (codes.py 434-500).  The checks of lines 454-455 come before all gates; the check of an entry of the
state (line 460) comes after the gates for the entries before it. -/
def encodingSent (c : StabCode) (len : ℕ) (state : List ℤ) : Sent :=
  if state.length ≠ c.k then ⟨[], some .assertion⟩
  else if len ≠ c.n then ⟨[], some .assertion⟩
  else sendAll (state.zipIdx.map (prepareBit c.n c.k) ++
    (if c.rank < c.stab.rows then
      if c.logicalX.rows < c.k then [.error .index]
      else [.ok ((List.range c.k).reverse.flatMap (logicalXGates c))]
    else []) ++
    (List.range c.rank).flatMap fun i =>
      .ok [⟨none, .H, i⟩] :: steps (binaryRepToPauliStr (c.normalForm.row i)) fun s => s.zipIdx.map (generatorLetter len i))

/-- `apply_stabilizer_circuit` (codes.py 502-545). -/
def applySent (len : ℕ) (stabilizer : StabArg) : Sent :=
  match stabilizer with
  | .str _ => ⟨[], some .unboundLocal⟩
  | .bin b => sendAll (steps (binaryRepToPauliStr b) fun s => s.zipIdx.map (applyLetter len))

/-- `decoding_circuit` (codes.py 547-617), up to the measurements. -/
def decodingSent (c : StabCode) (len : ℕ) (addAncilla : Bool) : Sent :=
  let base := if addAncilla then len else c.n
  let total := if addAncilla then len + c.k else len
  sendAll (((List.range c.k).flatMap fun i => steps (rowAt c.logicalZ i) fun z =>
      (z.drop c.n).zipIdx.map fun vj =>
        if vj.1 = 1 then do return [(⟨some (← onWire len vj.2), .X, ← onWire total (base + i)⟩ : Gate)] else .ok []) ++
    (List.range c.k).flatMap fun i => steps (rowAt c.logicalX i) fun x => steps (onWire total (base + i)) fun a =>
      steps (binaryRepToPauliStr x) fun s => s.zipIdx.map fun cj => letterGates len (some a) cj.2 cj.1)

/-- `logical_circuit` (codes.py 631-685): everything up to line 676 comes before the gates. -/
def logicalSent (c : StabCode) (len : ℕ) (op : List Char) : Sent :=
  match op with
  | [p, d] => sendAll (steps (do
      pyAssert (p = 'X' ∨ p = 'Y' ∨ p = 'Z')
      let i ← intOfChar d
      pyAssert (i < c.k)
      let row ← logicalRow c p i
      binaryRepToPauliStr row) fun s => s.zipIdx.map fun cj => letterGates len none cj.2 cj.1)
  | _ => ⟨[], some .assertion⟩

/-- `single_syndrome_measurement` (codes.py 359-426), up to the measurement. -/
def syndromeSent (c : StabCode) (active len : ℕ) (stabilizer : StabArg) : Sent :=
  if active ≠ c.n ∧ active ≠ c.n + 1 then ⟨[], some .type⟩
  else sendAll (
    steps (if active = c.n then .ok len else if len = 0 then .error .index else .ok (len - 1) : Except PyErr ℕ) fun anc =>
    steps (match stabilizer with
      | .str s => .ok s
      | .bin b => binaryRepToPauliStr b : Except PyErr (List Char)) fun s =>
    .ok [⟨none, .H, anc⟩] :: s.zipIdx.map (syndromeLetter len anc) ++ [.ok [⟨none, .H, anc⟩]])

end PyQ
