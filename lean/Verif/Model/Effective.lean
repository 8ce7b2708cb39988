import Verif.Model.CodeKraus
import Verif.Model.Optimize

/-!
# Model of `effective_channel_with_stabilizers` in `PyQCodes/find_codes.py`

Only `sparse=False` is modelled: with `sparse=True` the code multiplies matrices of the packages `scipy.sparse` and
`sparse` with each other.
-/

namespace PyQ

noncomputable section

/-- The Kraus operators of the whole procedure as a channel object, find_codes.py lines 149-171.
`pauli_errors[0]` raises `IndexError` for an empty list and `n // 0` `ZeroDivisionError`. -/
def effectiveKraus (eigh : Eigh) (stabilizer : StabInput) (n k : ℕ) (pauliErrors : List (Arr ℂ)) :
    Except PyErr KrausObj :=
  match pauliErrors with
  | [] => .error .index
  | e0 :: rest =>
    if 2 ^ k ≠ e0.cols then .error .type
    else do
      let stab ← stabInit stabilizer n k none
      let chan ← QChan.ofList false (e0 :: rest) 1 1 2 2 []
      if k = 0 then .error .zeroDivision
      else
        let chan' := (chan.update (n / k)).2
        (chan.update (n / k)).1
        let encoder ← encodeKraus eigh stab
        let kraus ← krausCorrectingErrors stab ((List.range chan'.nth.len).map chan'.nth.nth)
        let kraus ← kraus.mapM fun x => x.dot encoder
        QChan.ofList true kraus k n 2 2 []

/-- The argument `options` of `effective_channel_with_stabilizers`, find_codes.py lines 109-121. -/
structure EffOptions where
  param : ParamArg
  lipschitz : PyNum
  usePool : PyNum
  maxiter : ℕ
  samples : SamplesArg

/-- `effective_channel_with_stabilizers(stabilizer, (n, k), pauli_errors, optimize, False, options)`, find_codes.py
lines 90-181; `optimize` is `none` if it is not a string.  The code never reads `options`. -/
def effectiveChannel (eigh : Eigh) (g : Rng) (sp : Scipy) (eig : Eigvalsh) (sqrtm : Sqrtm) (stabilizer : StabInput)
    (n k : ℕ) (pauliErrors : List (Arr ℂ)) (optimize : Option String) (_options : Option EffOptions) :
    Except PyErr OptOutput :=
  match optimize with
  | none => .error .type
  | some s =>
    if ¬ (s = "coherent" ∨ s = "fidelity") then .error .type
    else do
      let total ← effectiveKraus eigh stabilizer n k pauliErrors
      if s = "coherent" then
        (QChan.optimizeCoherent g sp eig sqrtm total 1 2 "slsqp" (.str "overparam") (.int 25) (.int 3) 250
          ⟨false, []⟩ false).1
      else
        (QChan.optimizeFidelity g sp eig sqrtm total 1 "slsqp" (.str "overparam") (.int 25) (.int 3) 250
          ⟨false, []⟩).1

end

end PyQ
