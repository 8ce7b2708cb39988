import Verif.Model.Kraus
import Verif.Model.LinAlg
import Mathlib.Analysis.SpecialFunctions.Log.Base
import Mathlib.Analysis.SpecialFunctions.Pow.Real

/-!
# Model of `PyQCodes/chan/_choi.py` and of the Choi half of `PyQCodes/chan/channel.py`

Not modelled: `one_qubit_choi_matrix` is only mentioned in the documentation of the class and does not
exist.  The checks `Qobj.istp` and `Qobj.iscp` of qutip are parameters of the constructor.
-/

namespace PyQ

noncomputable section

/-- The state of a `ChoiQutip` object: chan/_choi.py lines 130-137. -/
structure ChoiObj where
  choi : Arr ℂ
  numIn : ℕ
  numOut : ℕ
  dimIn : ℕ
  dimOut : ℕ

/-- The two checks `istp`, `iscp` of a `Qobj`, from the Choi matrix, the input and the output dimension.
(chan/_choi.py lines 147-149) -/
structure QutipChecks where
  istp : Arr ℂ → ℕ → ℕ → Bool
  iscp : Arr ℂ → ℕ → ℕ → Bool

namespace ChoiObj

/-- `input_dim`, chan/_choi.py line 136. -/
def inputDim (o : ChoiObj) : ℕ := o.dimIn ^ o.numIn

/-- `output_dim`, chan/_choi.py line 137. -/
def outputDim (o : ChoiObj) : ℕ := o.dimOut ^ o.numOut

/-- `ChoiQutip.__init__`, chan/_choi.py lines 98-149. -/
def init (q : QutipChecks) (choi : Arr ℂ) (a b d e : ℕ) : Except PyErr ChoiObj := do
  if choi.cols ≠ e ^ b * d ^ a then .error .value
  else
    pyAssert (q.istp choi (d ^ a) (e ^ b) = true)
    pyAssert (q.iscp choi (d ^ a) (e ^ b) = true)
    return ⟨choi, a, b, d, e⟩

/-- The kept and the traced part of an index into a tensor product; each factor comes with its dimension
and whether it is kept, the last (fastest) factor first. (chan/_choi.py lines 144-147) -/
def splitIndex : List (ℕ × Bool) → ℕ → ℕ × ℕ
  | [], _ => (0, 0)
  | (d, keep) :: rest, r =>
    let p := splitIndex rest (r / d)
    if keep then (p.1 * d + r % d, p.2) else (p.1, p.2 * d + r % d)

/-- `qutip.ptrace(Qobj(M, dims), keep)` of a matrix on a tensor product with the given dimensions:
the partial trace over the factors that are not kept.  qutip numbers the factors from the left; the nested
`dims` of the code are read as the flat list of all input and output particles. (chan/_choi.py line 196) -/
def ptrace (M : Arr ℂ) (dims : List ℕ) (keep : List ℕ) : Except PyErr (Arr ℂ) :=
  if ∀ k ∈ keep, k < dims.length then
    let fs := ((List.range dims.length).map fun i => (dims.getD i 0, decide (i ∈ keep))).reverse
    let m := ((fs.filter fun f => f.2).map Prod.fst).prod
    .ok ⟨m, m, fun i j => ∑ r ∈ Finset.range M.rows, ∑ c ∈ Finset.range M.cols,
      if (splitIndex fs r).1 = i ∧ (splitIndex fs c).1 = j ∧ (splitIndex fs r).2 = (splitIndex fs c).2
      then M.get r c else 0⟩
  else .error .type

/-- `channel(rho)`, chan/_choi.py lines 175-196. -/
def channel (o : ChoiObj) (rho : Arr ℂ) : Except PyErr (Arr ℂ) := do
  let choiRho ← o.choi.dot (rho.transpose.kron (Arr.eye o.outputDim))
  let keep := List.range' o.numOut o.numOut
  ptrace choiRho (List.replicate o.numIn o.dimIn ++ List.replicate o.numOut o.dimOut) keep

/-- `complementary_channel(rho)`, chan/_choi.py lines 198-221. -/
def complementary (sqrtm : Sqrtm) (o : ChoiObj) (rho : Arr ℂ) : Except PyErr (Arr ℂ) := do
  let tensored := (sqrtm rho).transpose.kron (Arr.eye o.outputDim)
  let p ← tensored.dot o.choi
  p.dot tensored

/-- `_vectorize_rho(rho)`, chan/_choi.py lines 223-225: entry `k` of the column-stacked matrix. -/
def vectorize (rho : Arr ℂ) (k : ℕ) : ℂ := rho.get (k % rho.rows) (k / rho.rows)

/-- One term `conj(vec).T.dot(choi).dot(vec)`, chan/_choi.py line 258. -/
def fidTerm (o : ChoiObj) (rho : Arr ℂ) : Except PyErr ℂ :=
  if rho.rows * rho.cols = o.choi.rows ∧ rho.rows * rho.cols = o.choi.cols then
    .ok (∑ c ∈ Finset.range o.choi.cols, (∑ r ∈ Finset.range o.choi.rows,
      star (vectorize rho r) * o.choi.get r c) * vectorize rho c)
  else .error .value

/-- The loop of `average_entanglement_fidelity`, chan/_choi.py lines 255-259. -/
def fidLoop (o : ChoiObj) : List ℝ → List (Arr ℂ) → Except PyErr ℂ
  | [], _ => .ok 0
  | _ :: _, [] => .error .index
  | p :: ps, s :: ss => do
    let x ← o.fidTerm s
    let r ← fidLoop o ps ss
    return p * x + r

/-- `average_entanglement_fidelity(probs, states)`, chan/_choi.py lines 227-259. -/
def avgFidelity (o : ChoiObj) (probs : List ℝ) (states : List (Arr ℂ)) : Except PyErr ℂ :=
  if o.inputDim ≠ o.outputDim then .error .value else o.fidLoop probs states

/-- One operator of `kraus_operators`: column `i` of the eigenvectors reshaped in Fortran order, times the
root of the eigenvalue; chan/_choi.py lines 274-277. -/
def krausOp (o : ChoiObj) (w : ℕ → ℝ) (V : Arr ℂ) (i : ℕ) : Arr ℂ :=
  ⟨o.outputDim, o.inputDim, fun x y => V.get (x + o.outputDim * y) i * (Real.sqrt (w i) : ℂ)⟩

/-- `kraus_operators()`, chan/_choi.py lines 261-278; `eigenvec.reshape` cannot fail because the
constructor checked the size of the matrix. -/
def krausOperators (eigh : Eigh) (o : ChoiObj) : List (Arr ℂ) :=
  let p := eigh o.choi
  (List.range p.2.rows).filterMap fun i => if (1 : ℝ) / 10 ^ 8 < p.1 i then some (o.krausOp p.1 p.2 i) else none

/-- `constraint_partial_trace(numb_qubits, dim_in, dim_out)`, chan/_choi.py lines 280-314. -/
def constraintPartialTrace (a b d e : ℕ) : ℕ × List (ℕ × ℕ) :=
  (1, [(d ^ a, d ^ a), (e ^ b, e ^ b)])

end ChoiObj

/-! ### Entropy and coherent information, chan/channel.py -/

/-- `-np.sum(no_zeros * np.log2(no_zeros))` over the eigenvalues of one matrix, chan/channel.py lines
526-527.  For an eigenvalue below `-cut` numpy gives nan; `Real.logb` takes the absolute value. -/
def entropyOne (eig : Eigvalsh) (cut : ℝ) (M : Arr ℂ) : ℝ :=
  -∑ i ∈ Finset.range M.rows, if cut < |eig M i| then eig M i * Real.logb 2 (eig M i) else 0

/-- `entropy(mat, cut_off)` for a list of matrices, chan/channel.py lines 503-527: `np.linalg.eigvalsh`
stacks the list, so the matrices must have one shape, and be square; otherwise it raises (a `ValueError`, in older versions of
numpy a `LinAlgError`). -/
def entropyList (eig : Eigvalsh) (cut : ℝ) (mats : List (Arr ℂ)) : Except PyErr ℝ :=
  if ∀ M ∈ mats, M.rows = M.cols ∧ ∀ N ∈ mats, N.rows = M.rows then
    .ok ((mats.map (entropyOne eig cut)).sum)
  else .error .value

/-- The default `cut_off`. (chan/channel.py line 503) -/
def entropyCut : ℝ := 1 / 10 ^ 10

/-- `coherent_information(rho, n, regularized)` for Kraus operators, chan/channel.py lines 529-570. -/
def QChan.coherentInformation (eig : Eigvalsh) (o : KrausObj) (rho : Arr ℂ) (n : ℕ) (regularized : Bool) :
    Except PyErr ℝ × KrausObj :=
  match QChan.channel o rho n false with
  | (.error e, o') => (.error e, o')
  | (.ok out, o') =>
    match QChan.entropyExchange o' rho n with
    | (.error e, o'') => (.error e, o'')
    | (.ok exch, o'') => (do
        let s ← entropyList eig entropyCut [out]
        let t ← entropyList eig entropyCut exch
        return if regularized then (s - t) / n else s - t, o'')

namespace ChoiQ

/-- `channel(rho, n, adjoint)` for a Choi matrix, chan/channel.py lines 462-464; `adjoint` is ignored. -/
def channel (o : ChoiObj) (rho : Arr ℂ) (n : ℕ) (_adjoint : Bool) : Except PyErr (Arr ℂ) := do
  pyAssert (n = 1)
  o.channel rho

/-- `entropy_exchange(rho, n)` for a Choi matrix, chan/channel.py line 497. -/
def entropyExchange (_o : ChoiObj) (_rho : Arr ℂ) (_n : ℕ) : Except PyErr (List (Arr ℂ)) :=
  .error .assertion

/-- `coherent_information(rho, n, regularized)` for a Choi matrix, chan/channel.py lines 529-570. -/
def coherentInformation (eig : Eigvalsh) (sqrtm : Sqrtm) (o : ChoiObj) (rho : Arr ℂ) (n : ℕ)
    (regularized : Bool) : Except PyErr ℝ := do
  let out ← channel o rho n false
  pyAssert (n = 1)
  let exch ← o.complementary sqrtm rho
  let s ← entropyList eig entropyCut [out]
  let t ← entropyList eig entropyCut [exch]
  return if regularized then (s - t) / n else s - t

end ChoiQ

end

end PyQ
