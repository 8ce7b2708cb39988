import Verif.Np
import Verif.Spec.Device
import Mathlib.Analysis.SpecialFunctions.Log.Base
import Mathlib.Algebra.Order.Floor.Ring

/-!
# Model of `PyQCodes/device_adaptor.py` and of `QDeviceChannel` in `PyQCodes/find_codes.py`

The engine is a simulator: a pure state of `N` qubits, gates that act on it, and a measurement of all qubits whose
outcome is chosen by a parameter.  The random draws are parameters.  `eng.flush()` has no effect.
-/

namespace PyQ

open Spec (DGate Amp)

noncomputable section

/-- The random draws of one call of `approximate_unitary_two_design`: `single r i` is the index into
`[0, 2π/3, 4π/3]` drawn for qubit `i` in round `r`, `ctrl r i j` whether `π` (or 0) was drawn for the pair
`(i, j)`. (device_adaptor.py lines 172-184) -/
structure Draws where
  single : ℕ → ℕ → Fin 3
  ctrl : ℕ → ℕ → ℕ → Bool

/-- `phases`, device_adaptor.py line 162. -/
def designPhases : List ℝ := [0, 2 * Real.pi / 3, 4 * Real.pi / 3]

/-- `numb_times`, device_adaptor.py lines 163-164.  `1. / 0` raises `ZeroDivisionError`; the logarithm of a
negative number is nan and `int` raises `ValueError`; for an empty register the quotient is infinite
(`OverflowError`) or nan. -/
def numbTimes (numbQubits : ℕ) (epsilon : ℝ) : Except PyErr ℤ :=
  if epsilon = 0 then .error .zeroDivision
  else if epsilon < 0 then .error .value
  else if numbQubits = 0 then (if epsilon = 1 then .error .value else .error .overflow)
  else .ok (2 * ⌈Real.logb 2 (1 / epsilon) / numbQubits⌉ + 1)

/-- The gates sent so far and `ith_phases_used`. (device_adaptor.py lines 169-186) -/
structure DesignState where
  gates : List DGate
  phases : List ℝ

/-- The body of the loop over the single qubit gates, device_adaptor.py lines 174-176. -/
def singleStep (draw : ℕ → Fin 3) (s : DesignState) (i : ℕ) : DesignState :=
  let phase := designPhases.getD (draw i) 0
  ⟨s.gates ++ [.R none phase i], s.phases ++ [phase]⟩

/-- The body of the loop over `j`, device_adaptor.py lines 181-186. -/
def ctrlStep (draw : ℕ → ℕ → Bool) (i : ℕ) (s : DesignState) (j : ℕ) : DesignState :=
  if i ≠ j then
    let phase := if draw i j then Real.pi else 0
    ⟨s.gates ++ [.R (some i) phase j], s.phases ++ [phase]⟩
  else s

/-- `All(H) | self.register`. (device_adaptor.py lines 190, 207) -/
def allH (numbQubits : ℕ) : List DGate := (List.range numbQubits).map .H

/-- One round, device_adaptor.py lines 169-192: the gates and `ith_phases_used`. -/
def designRound (numbQubits : ℕ) (d : Draws) (r : ℕ) : List DGate × List ℝ :=
  let s := (List.range numbQubits).foldl (singleStep (d.single r)) ⟨[], []⟩
  let s := (List.range numbQubits).foldl
    (fun s i => (List.range numbQubits).foldl (ctrlStep (d.ctrl r) i) s) s
  (s.gates ++ allH numbQubits, s.phases)

/-- `approximate_unitary_two_design(epsilon)`, device_adaptor.py lines 138-195: the gates sent and the list
returned. -/
def twoDesign (numbQubits : ℕ) (epsilon : ℝ) (d : Draws) : Except PyErr (List DGate × List (List ℝ)) := do
  let times ← numbTimes numbQubits epsilon
  let rounds := (List.range times.toNat).map (designRound numbQubits d)
  return ((rounds.map Prod.fst).flatten, (rounds.map Prod.snd).reverse)

/-- The gates sent so far and `counter`. (device_adaptor.py lines 206-223) -/
structure InverseState where
  gates : List DGate
  counter : ℕ

/-- `ith_phases[-counter]` for `counter ≥ 1`. (device_adaptor.py lines 215, 220) -/
def negIndex (l : List ℝ) (counter : ℕ) : Except PyErr ℝ :=
  if counter ≤ l.length then .ok (l.getD (l.length - counter) 0) else .error .index

/-- The body of the loop over `j`, device_adaptor.py lines 214-216. -/
def inverseCtrlStep (phases : List ℝ) (i : ℕ) (s : InverseState) (j : ℕ) : Except PyErr InverseState := do
  if i ≠ j then
    let phase ← negIndex phases s.counter
    return ⟨s.gates ++ [.R (some i) phase j], s.counter + 1⟩
  else return s

/-- The body of the loop over the single qubit gates, device_adaptor.py lines 220-221. -/
def inverseSingleStep (phases : List ℝ) (s : InverseState) (i : ℕ) : Except PyErr InverseState := do
  let phase ← negIndex phases s.counter
  return ⟨s.gates ++ [.R none (-phase) i], s.counter + 1⟩

/-- `range(n - 1, -1, -1)`. (device_adaptor.py lines 211-219) -/
def downRange (n : ℕ) : List ℕ := (List.range n).reverse

/-- One round of the inverse, device_adaptor.py lines 206-223. -/
def inverseRound (numbQubits : ℕ) (phases : List ℝ) : Except PyErr (List DGate) := do
  let s ← (downRange numbQubits).foldlM
    (fun s i => (downRange numbQubits).foldlM (inverseCtrlStep phases i) s) ⟨allH numbQubits, 1⟩
  let s ← (downRange numbQubits).foldlM (inverseSingleStep phases) s
  return s.gates

/-- `inverse_of_unitary_two_design(random_phases)`, device_adaptor.py lines 197-223: the gates sent. -/
def inverseDesign (numbQubits : ℕ) (randomPhases : List (List ℝ)) : Except PyErr (List DGate) := do
  let l ← randomPhases.mapM (inverseRound numbQubits)
  return l.flatten

/-! ### `estimate_average_fidelity` -/

/-- What is random or supplied by the user in the trials of `estimate_average_fidelity`: the draws of trial `t`,
the action of the callable `channel` on the state in trial `t`, and the outcome of the measurement in trial `t`
of a given state. (device_adaptor.py lines 225-272) -/
structure World (N : ℕ) where
  draws : ℕ → Draws
  channel : ℕ → Amp N → Except PyErr (Amp N)
  outcome : ℕ → Amp N → Fin N → ZMod 2

/-- `set_register_to_zero(cheat)`, device_adaptor.py lines 118-136.  With `cheat` the wave function is set to
`[1, 0, ..., 0]`, otherwise the qubits are deallocated and new ones allocated, which are in state zero; nothing
is done for a real device. -/
def setRegisterToZero {N : ℕ} (realDevice : Bool) (_cheat : Bool) (ψ : Amp N) : Amp N :=
  if realDevice then ψ else Spec.ket 0

/-- One trial, device_adaptor.py lines 251-270: the state of the register after the trial and whether all
outcomes were zero. -/
def trial {N : ℕ} (realDevice cheat : Bool) (epsilon : ℝ) (w : World N) (t : ℕ) (ψ : Amp N) :
    Except PyErr (Amp N × Bool) := do
  let ψ := setRegisterToZero realDevice cheat ψ
  let (gates, phases) ← twoDesign N epsilon (w.draws t)
  let ψ := Spec.runD gates ψ
  let ψ ← w.channel t ψ
  let inv ← inverseDesign N phases
  let ψ := Spec.runD inv ψ
  let result := w.outcome t ψ
  return (Spec.ket result, decide (result = 0))

/-- The body of the loop in `estimate_average_fidelity` on the state and `ntimes_zero`.
(device_adaptor.py lines 251-270) -/
def estimateStep {N : ℕ} (realDevice cheat : Bool) (epsilon : ℝ) (w : World N) (s : Amp N × ℕ) (t : ℕ) :
    Except PyErr (Amp N × ℕ) := do
  let (ψ, zero) ← trial realDevice cheat epsilon w t s.1
  return (ψ, if zero then s.2 + 1 else s.2)

/-- `estimate_average_fidelity(channel, ntimes, epsilon, cheat)`, device_adaptor.py lines 225-272, starting from
the state `ψ` of the register. -/
def estimateFidelity {N : ℕ} (realDevice cheat : Bool) (w : World N) (ntimes : ℤ) (epsilon : ℝ) (ψ : Amp N) :
    Except PyErr ℝ := do
  let s ← (List.range ntimes.toNat).foldlM (estimateStep realDevice cheat epsilon w) (ψ, 0)
  if ntimes = 0 then .error .zeroDivision else return (s.2 : ℝ) / ntimes

/-! ### `QDeviceChannel` -/

/-- A Python callable that acts on the register: the number of arguments it takes after `eng` and `register`
(here 0 or 1), and its action in trial `t`; the list is the argument `parameters`.
(find_codes.py lines 273-276, 328-331) -/
structure Circ (N : ℕ) where
  extraArgs : ℕ
  act : List ℝ → ℕ → Amp N → Except PyErr (Amp N)

/-- Calling it with `eng`, `register` and the listed further arguments: `TypeError` for the wrong number.
(find_codes.py lines 273-276, 328-331) -/
def Circ.call {N : ℕ} (c : Circ N) (args : List (List ℝ)) (t : ℕ) (ψ : Amp N) : Except PyErr (Amp N) :=
  if args.length = c.extraArgs then c.act (args.headD []) t ψ else .error .type

/-- The object `QDeviceChannel(eng, register, circuit_chan, real_device)`, find_codes.py lines 190-211. -/
structure QDevice (N : ℕ) where
  chan : Circ N
  realDevice : Bool

/-- The random draws and measurement outcomes of the trials. (find_codes.py lines 246-278) -/
structure Luck (N : ℕ) where
  draws : ℕ → Draws
  outcome : ℕ → Amp N → Fin N → ZMod 2

/-- `device.estimate_average_fidelity(f, ...)` calls `f(eng, register)`. (find_codes.py lines 246-278) -/
def Luck.world {N : ℕ} (l : Luck N) (f : Circ N) : World N := ⟨l.draws, fun t => f.call [] t, l.outcome⟩

namespace QDevice

variable {N : ℕ}

/-- `estimate_average_fidelity_channel(ntimes, epsilon, cheat)`, find_codes.py lines 229-248. -/
def estimateChannel (q : QDevice N) (l : Luck N) (ntimes : ℤ) (epsilon : ℝ) (cheat : Bool) (ψ : Amp N) :
    Except PyErr ℝ :=
  estimateFidelity q.realDevice cheat (l.world q.chan) ntimes epsilon ψ

/-- `total_channel(eng, register)`, find_codes.py lines 273-276. -/
def totalChannel (q : QDevice N) (encoder decoder : Circ N) : Circ N where
  extraArgs := 0
  act := fun _ t ψ => do
    let ψ ← encoder.call [] t ψ
    let ψ ← q.chan.call [] t ψ
    decoder.call [] t ψ

/-- `estimate_average_fidelity_error_code(encoder, decoder, ntimes, epsilon)`, find_codes.py lines 250-278. -/
def estimateErrorCode (q : QDevice N) (l : Luck N) (encoder decoder : Circ N) (ntimes : ℤ) (epsilon : ℝ)
    (ψ : Amp N) : Except PyErr ℝ :=
  estimateFidelity q.realDevice false (l.world (q.totalChannel encoder decoder)) ntimes epsilon ψ

/-- `total_channel(eng, register, parameters)`, find_codes.py lines 328-331. -/
def totalChannelParams (q : QDevice N) (encoder decoder : Circ N) (nparamsEncoder : ℕ) : Circ N where
  extraArgs := 1
  act := fun parameters t ψ => do
    let ψ ← encoder.call [parameters.take nparamsEncoder] t ψ
    let ψ ← q.chan.call [] t ψ
    decoder.call [parameters.drop nparamsEncoder] t ψ

/-- A scipy result: `x`, `fun` and `success`. (find_codes.py lines 336-344) -/
structure DiffevRes where
  x : List ℝ
  fun_ : ℝ
  success : Bool

/-- The dictionary returned by `optimize_encoder_decoder_average_fidelity`. (find_codes.py lines 342-344) -/
structure EncDecOutput where
  success : Bool
  paramsEncoder : List ℝ
  paramsDecoder : List ℝ
  optimalVal : ℝ

/-- `optimize_encoder_decoder_average_fidelity(encoder, decoder, ntimes, epsilon, numb_parameters, bounds,
optimizer, maxiter)`, find_codes.py lines 280-344.  `diffev` is scipy's routine; `luck p` is the luck of the
evaluation of the objective at `p` and the register is in state `ψ` at the start of each evaluation. -/
def optimizeEncDec (q : QDevice N) (luck : List ℝ → Luck N)
    (diffev : (List ℝ → Except PyErr ℝ) → List (ℝ × ℝ) → ℕ → Except PyErr DiffevRes)
    (encoder decoder : Circ N) (ntimes : ℤ) (epsilon : ℝ) (nEncoder nDecoder : ℕ) (bounds : List (ℝ × ℝ))
    (optimizer : String) (maxiter : ℕ) (ψ : Amp N) : Except PyErr EncDecOutput := do
  pyAssert (bounds.length = nEncoder + nDecoder)
  let objective : List ℝ → Except PyErr ℝ := fun p =>
    estimateFidelity q.realDevice false ((luck p).world (q.totalChannelParams encoder decoder nEncoder)) ntimes
      epsilon ψ
  if optimizer = "diffev" then
    let r ← diffev objective bounds maxiter
    return ⟨r.success, r.x.take nEncoder, r.x.drop nEncoder, r.fun_⟩
  else .error .value

end QDevice

end

end PyQ
