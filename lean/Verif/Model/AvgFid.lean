import Verif.Model.Effective
import Verif.Model.Choi

/-!
# Model of `PyQCodes/avgfid/avg_fidelity.py`

The semidefinite programme handed to picos is modelled as a value (`Sdp`): the size of the variable, the arguments of
`partial_trace` and the objective matrix.  What picos and cvxopt do with it is described by `Sdp.Feasible`,
`Sdp.value` and the contract `SdpSolver.Correct` (an exact optimum; the real solver stops within a tolerance).  The
options only set tolerances.
-/

namespace PyQ

open Matrix
open scoped ComplexOrder

noncomputable section

/-- The problem built in avgfid/avg_fidelity.py lines 189-221: a Hermitian variable `X` of `dim` rows and columns,
`X >> 0`, `partial_trace(X, traced, dims) == 'I'` and the objective `max (X | obj)`. -/
structure Sdp where
  dim : ℕ
  traced : ℕ
  dims : List (ℕ × ℕ)
  obj : Arr ℂ

/-- `picos.partial_trace(X, 1, [(a, a), (b, b)])`: the trace over the second factor.
(avgfid/avg_fidelity.py line 203) -/
def picosPartialTrace (X : Arr ℂ) (a b : ℕ) : Arr ℂ :=
  ⟨a, a, fun i j => ∑ t ∈ Finset.range b, X.get (i * b + t) (j * b + t)⟩

/-- The constraints of the problem; `partial_trace` needs two factors, the second of which is traced out.
(avgfid/avg_fidelity.py lines 202-203) -/
def Sdp.Feasible (p : Sdp) (X : Arr ℂ) : Prop :=
  X.rows = p.dim ∧ X.cols = p.dim ∧ (X.mat p.dim p.dim).PosSemidef ∧
    ∃ a b, p.traced = 1 ∧ p.dims = [(a, a), (b, b)] ∧ a * b = p.dim ∧ (picosPartialTrace X a b).mat a a = 1

/-- The objective `(X | obj)`, the real part of `trace(X obj)`; `X` is Hermitian.
(avgfid/avg_fidelity.py line 221) -/
def Sdp.value (p : Sdp) (X : Arr ℂ) : ℝ :=
  (∑ i ∈ Finset.range p.dim, ∑ j ∈ Finset.range p.dim, X.get i j * p.obj.get j i).re

/-- `P.solve(solver='cvxopt')`: the value of the variable and `P.obj_value()`.
(avgfid/avg_fidelity.py lines 223-242) -/
abbrev SdpSolver := Sdp → Arr ℂ × ℝ

/-- The solver returns an optimal point and its value, whenever there is one.
(avgfid/avg_fidelity.py lines 223-242) -/
def SdpSolver.Correct (sol : SdpSolver) : Prop :=
  ∀ p : Sdp, (∃ X, p.Feasible X ∧ ∀ Y, p.Feasible Y → p.value Y ≤ p.value X) →
    p.Feasible (sol p).1 ∧ (sol p).2 = p.value (sol p).1 ∧ ∀ Y, p.Feasible Y → p.value Y ≤ (sol p).2

/-- `np.ravel(np.conj(k).T, order="F")`: entry `j * cols + i` is the conjugate of `k[j, i]`.
(avgfid/avg_fidelity.py lines 215-216) -/
def ravelAdjoint (k : Arr ℂ) (t : ℕ) : ℂ := star (k.get (t / k.cols) (t % k.cols))

/-- `np.outer(v, v)` for `v = np.ravel(np.conj(k).T, order="F")`, avgfid/avg_fidelity.py lines 215-216. -/
def outerAdjoint (k : Arr ℂ) : Arr ℂ :=
  ⟨k.rows * k.cols, k.rows * k.cols, fun i j => ravelAdjoint k i * ravelAdjoint k j⟩

/-- `_optimize_average_entang_fid(krauss, (q0, q1), dim_in, dim_out)` up to the call of the solver,
avgfid/avg_fidelity.py lines 189-221 (`encoder` makes no difference there).  The sum of matrices of different sizes and
`(X | C_e)` for a matrix of another size than `X` raise; numpy raises `ValueError`, the exception of picos is taken to
be one too. -/
def entangFidProblem (krauss : List (Arr ℂ)) (q0 q1 dimIn dimOut : ℕ) : Except PyErr Sdp :=
  match krauss with
  | [] => .error .index
  | k0 :: ks =>
    let inputDim := dimIn ^ q0
    let rows := inputDim * dimOut ^ q1
    let args := ChoiObj.constraintPartialTrace q0 q1 dimIn dimOut
    if ∀ k ∈ ks, k.rows * k.cols = k0.rows * k0.cols then
      let obj : Arr ℂ := ⟨(outerAdjoint k0).rows, (outerAdjoint k0).cols, fun i j =>
        ((k0 :: ks).map fun k => (outerAdjoint k).get i j).sum / (inputDim : ℂ) ^ 2⟩
      if obj.rows = rows then .ok ⟨rows, args.1, args.2, obj⟩ else .error .value
    else .error .value

/-- `_optimize_average_entang_fid(...)`: `optimal_recov` and `optimal_val`, avgfid/avg_fidelity.py lines 110-242. -/
def optimizeEntangFid (sol : SdpSolver) (krauss : List (Arr ℂ)) (q0 q1 dimIn dimOut : ℕ) :
    Except PyErr (Arr ℂ × ℝ) := do
  let p ← entangFidProblem krauss q0 q1 dimIn dimOut
  return sol p

/-- `_optimize_average_entang_fid(krauss, ...)` for Kraus operators that are matrices of `scipy.sparse`,
avgfid/avg_fidelity.py lines 207-220.  `np.outer` reads a sparse matrix as an array that holds one object and so
multiplies the two columns `k.conj().reshape((rows * cols, 1))` with each other as matrices: `ValueError`, unless they
have one entry.  In that case the result is an array and has no method `tocoo`: `AttributeError`. -/
def optimizeEntangFidSparse (krauss : List (Arr ℂ)) : Except PyErr (Arr ℂ × ℝ) :=
  match krauss with
  | [] => .error .index
  | k :: ks => if ∀ x ∈ k :: ks, x.rows * x.cols = 1 then .error .attribute else .error .value

/-- The Kraus operators of the channel after the encoder, avgfid/avg_fidelity.py lines 85-97.  With `sparse` they are
sparse matrices, modelled by their entries. -/
def decoderKraus (eigh : Eigh) (stabilizer : StabInput) (n k : ℕ) (krausChan : List (Arr ℂ)) (sparse : Bool := false) :
    Except PyErr (List (Arr ℂ)) := do
  let stab ← stabInit stabilizer n k none
  let chan ← QChan.ofList sparse krausChan 1 1 2 2 []
  if k = 0 then .error .zeroDivision
  else
    let chan' := (chan.update (n / k)).2
    (chan.update (n / k)).1
    let encoder ← encodeKraus eigh stab
    ((List.range chan'.nth.len).map chan'.nth.nth).mapM fun x => x.dot encoder

/-- `optimize_decoder_stabilizers(stabilizer, (n, k), kraus_chan, sparse)`, avgfid/avg_fidelity.py lines 44-102. -/
def optimizeDecoderStabilizers (eigh : Eigh) (sol : SdpSolver) (stabilizer : StabInput) (n k : ℕ)
    (krausChan : List (Arr ℂ)) (sparse : Bool := false) : Except PyErr (Arr ℂ × ℝ) := do
  let kraus ← decoderKraus eigh stabilizer n k krausChan sparse
  if sparse then optimizeEntangFidSparse kraus else optimizeEntangFid sol kraus k n 2 2

/-- `optimize_decoder(encoder, kraus_chan, (a, b), dim_in, dim_out)` for Kraus operators in a list,
avgfid/avg_fidelity.py lines 27-41: `code_param` is not defined. -/
def optimizeDecoder (_encoder : Arr ℂ) (krausChan : List (Arr ℂ)) (a b dimIn dimOut : ℕ) :
    Except PyErr (Arr ℂ × ℝ) := do
  let _ ← QChan.ofList false krausChan a b dimIn dimOut []
  .error .name

end

end PyQ
