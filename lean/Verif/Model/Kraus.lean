import Verif.Np3
import Mathlib.Analysis.Complex.Norm

/-!
# Model of `PyQCodes/chan/_kraus.py` and of the Kraus half of `PyQCodes/chan/channel.py`

Objects are immutable records; a method that changes the object returns the new record next to its
result, also when it raises.  `complex128` is replaced by exact complex numbers, and `sparse.COO` arrays
by their entries.  numpy's broadcasting of axes of length one is modelled for `matmul` and for `einsum` (`einsumDim`).
-/

namespace PyQ

noncomputable section

/-- The state of a `DenseKraus` (`sparse = false`) or `SparseKraus` (`sparse = true`) object.
chan/_kraus.py lines 98-117. -/
structure KrausObj where
  sparse : Bool
  /-- `kraus_ops`, the operators of one use of the channel -/
  kraus : Arr3 ℂ
  /-- `numb_qubits` -/
  numIn : ℕ
  numOut : ℕ
  /-- `dim_in`, `dim_out` -/
  dimIn : ℕ
  dimOut : ℕ
  /-- `orthogonal_kraus` -/
  orth : List ℕ
  /-- `current_n` -/
  curN : ℕ
  /-- `nth_kraus_ops` -/
  nth : Arr3 ℂ
  /-- `nth_kraus_ops_conj`, only used by `SparseKraus` -/
  nthConj : Arr3 ℂ
  /-- `nth_kraus_exch` -/
  exch : Arr4 ℂ

/-- The size of an index that `np.einsum` finds in two operands with sizes `a` and `b`: an axis of size one is
broadcast, other sizes that differ raise `ValueError`. (chan/_kraus.py lines 852-867) -/
def einsumDim (a b : ℕ) : Except PyErr ℕ :=
  if a = b then .ok a else if a = 1 then .ok b else if b = 1 then .ok a else .error .value

/-- The position that `np.einsum` reads at index `i` of an axis of size `a`. (chan/_kraus.py lines 852-867) -/
def einsumIdx (a i : ℕ) : ℕ := if a = 1 then 0 else i

namespace KrausObj

/-- `numb_kraus`, chan/_kraus.py line 98. -/
def numbKraus (o : KrausObj) : ℕ := o.kraus.len

/-- `_kraus_operators_exchange`: chan/_kraus.py lines 446-448 (sparse, uses the stored conjugates) and
745-748 (dense, conjugates the current operators). -/
def exchange (o : KrausObj) : Except PyErr (Arr4 ℂ) :=
  Arr3.tensordot (if o.sparse then o.nthConj else o.nth.conjT) o.nth

/-- `_tensor_kraus_operators(array1, array2)` assigned to `nth_kraus_ops`: chan/_kraus.py lines 438-444
(sparse, also stores the conjugates) and 741-743 (dense). -/
def setTensor (o : KrausObj) (a b : Arr3 ℂ) : KrausObj :=
  { o with nth := a.kron b, nthConj := if o.sparse then (a.kron b).conjT else o.nthConj }

/-- The object after the loops of `update_kraus_operators(n)`, chan/_kraus.py lines 264-277. -/
def retensor (o : KrausObj) (n : ℕ) : KrausObj :=
  if o.curN < n then
    (List.range' o.curN (n - o.curN)).foldl (fun o _ => o.setTensor o.kraus o.nth) o
  else if n < o.curN then
    if n = 1 then { o with nth := o.kraus }
    else (List.range (n - 2)).foldl (fun o _ => o.setTensor o.kraus o.nth) (o.setTensor o.kraus o.kraus)
  else o

/-- `update_kraus_operators(n)`, chan/_kraus.py lines 238-281.  `current_n` is set before the exchange
array is computed, so it is changed even when that raises. -/
def update (o : KrausObj) (n : ℕ) : Except PyErr Unit × KrausObj :=
  let o' := { o.retensor n with curN := n }
  match o'.exchange with
  | .ok e => (.ok (), { o' with exch := e })
  | .error e => (.error e, o')

/-- The constructors `DenseKraus(kraus_ops, numb_qubits, dim_in, dim_out, orthogonal_kraus)` and
`SparseKraus(kraus_ops, numb_qubits, dim_in, dim_out)`: chan/_kraus.py lines 54-117, 378-401, 423-428,
679-707, 750-754.  The type checks on the arguments are left out: the model's arguments have those
types. -/
def init (sparse : Bool) (ops : Arr3 ℂ) (numIn numOut dimIn dimOut : ℕ) (orth : List ℕ) :
    Except PyErr KrausObj := do
  pyAssert (ops.len = 0 ∨ ops.cols = dimIn ^ numIn)
  pyAssert (ops.len = 0 ∨ ops.rows = dimOut ^ numOut)
  let o : KrausObj :=
    { sparse := sparse, kraus := ops, numIn := numIn, numOut := numOut, dimIn := dimIn, dimOut := dimOut,
      orth := orth, curN := 1, nth := ops, nthConj := ops.conjT, exch := ⟨0, 0, 0, 0, fun _ _ _ _ => 0⟩ }
  let e ← o.exchange
  return { o with exch := e }

/-- The constructors called with a list of matrices, chan/_kraus.py lines 397-398 and 704-705. -/
def ofList (sparse : Bool) (ops : List (Arr ℂ)) (numIn numOut dimIn dimOut : ℕ) (orth : List ℕ) :
    Except PyErr KrausObj := do
  let a ← Arr3.ofList ops
  init sparse a numIn numOut dimIn dimOut orth

/-- The factors to the left and to the right of `rho` in `channel`: chan/_kraus.py lines 502-505 (sparse)
and 780-786 (dense). -/
def factors (o : KrausObj) (adjoint : Bool) : Arr3 ℂ × Arr3 ℂ :=
  let conj := if o.sparse then o.nthConj else o.nth.conjT
  if adjoint then (conj, o.nth) else (o.nth, conj)

/-- `channel(rho, adjoint)` for a two-dimensional `rho`: chan/_kraus.py lines 483-505 and 789-792. -/
def channel (o : KrausObj) (rho : Arr ℂ) (adjoint : Bool) : Except PyErr (Arr ℂ) := do
  let p ← Arr3.matmul2 (o.factors adjoint).1 rho
  let q ← Arr3.matmul3 p (o.factors adjoint).2
  return q.sum0

/-- `DenseKraus.channel(rho, adjoint)` for a three-dimensional `rho` (a batch): chan/_kraus.py lines
793-796, the three `einsum` calls. -/
def channelBatchDense (o : KrausObj) (rho : Arr3 ℂ) (adjoint : Bool) : Except PyErr (Arr3 ℂ) := do
  let l := (o.factors adjoint).1
  let r := (o.factors adjoint).2
  let dk ← einsumDim l.cols rho.rows
  let di ← einsumDim l.len r.len
  let dp ← einsumDim rho.cols r.rows
  return ⟨rho.len, l.rows, r.cols, fun b j m => ∑ i ∈ Finset.range di, ∑ p ∈ Finset.range dp,
    (∑ k ∈ Finset.range dk, l.get (einsumIdx l.len i) j (einsumIdx l.cols k) *
      rho.get b (einsumIdx rho.rows k) (einsumIdx rho.cols p)) * r.get (einsumIdx r.len i) (einsumIdx r.rows p) m⟩

/-- `SparseKraus.channel(rho, adjoint)` for a three-dimensional `rho`: the same two `matmul` calls as for
a matrix, so the axis of the batch is paired with the axis of the operators; chan/_kraus.py lines
502-505. -/
def channelBatchSparse (o : KrausObj) (rho : Arr3 ℂ) (adjoint : Bool) : Except PyErr (Arr ℂ) := do
  let p ← Arr3.matmul3 (o.factors adjoint).1 rho
  let q ← Arr3.matmul3 p (o.factors adjoint).2
  return q.sum0

/-- `np.einsum("ijkl,lk->ij", exch[a:b, a:b], rho).T` for `a ≤ b`: chan/_kraus.py lines 852, 860-862,
867-868.  Slices stop at the end of the array. -/
def exchangeBlock (e : Arr4 ℂ) (rho : Arr ℂ) (a b : ℕ) : Except PyErr (Arr ℂ) := do
  let dk ← einsumDim e.d2 rho.cols
  let dl ← einsumDim e.d3 rho.rows
  return ⟨min b e.d1 - a, min b e.d0 - a, fun i j => ∑ k ∈ Finset.range dk, ∑ l ∈ Finset.range dl,
    e.get (a + j) (a + i) (einsumIdx e.d2 k) (einsumIdx e.d3 l) *
      rho.get (einsumIdx rho.rows l) (einsumIdx rho.cols k)⟩

/-- The loop over `orthogonal_kraus` in `DenseKraus.entropy_exchange`: the blocks and the final `count`;
chan/_kraus.py lines 855-864. -/
def orthLoop (o : KrausObj) (rho : Arr ℂ) (n : ℕ) : List ℕ → ℕ → Except PyErr (List (Arr ℂ) × ℕ)
  | [], count => .ok ([], count)
  | i :: is, count => do
    let split := i * o.numbKraus ^ (n - 1)
    let w ← exchangeBlock o.exch rho count split
    let r ← orthLoop o rho n is (count + split)
    return (w :: r.1, r.2)

/-- The trace `np.trace(matmul(exch, rho), axis1=2, axis2=3).T` of `SparseKraus.entropy_exchange`,
chan/_kraus.py lines 479-481. -/
def exchangeSparse (e : Arr4 ℂ) (rho : Arr ℂ) : Except PyErr (Arr ℂ) :=
  if e.d3 = rho.rows then
    .ok ⟨e.d1, e.d0, fun i j => ∑ k ∈ Finset.range (min e.d2 rho.cols), ∑ l ∈ Finset.range e.d3,
      e.get j i k l * rho.get l k⟩
  else .error .value

/-- `entropy_exchange(rho, n, adjoint=False)`: chan/_kraus.py lines 450-481 (sparse) and 799-869 (dense).
For `n = 0` Python's `numb_kraus ** (n - 1)` is a float and the slice raises `TypeError`. -/
def entropyExchange (o : KrausObj) (rho : Arr ℂ) (n : ℕ) : Except PyErr (List (Arr ℂ)) :=
  if o.sparse then do return [← exchangeSparse o.exch rho]
  else if o.orth.length = 0 then do return [← exchangeBlock o.exch rho 0 (max o.exch.d0 o.exch.d1)]
  else if n = 0 then .error .type
  else do
    let r ← o.orthLoop rho n o.orth 0
    let rows := o.numbKraus ^ n
    -- a negative `diff` counts from the end of the array
    let diff := if r.2 ≤ rows then rows - r.2 else o.exch.d0 - (r.2 - rows)
    let last ← exchangeBlock o.exch rho diff (max o.exch.d0 o.exch.d1)
    return r.1 ++ [last]

/-- `entropy_exchange(rho, n, adjoint=True)`: chan/_kraus.py lines 476-478 (sparse: `rho` is reshaped to
`numb_kraus^n` rows and columns) and 848-849 (dense). -/
def entropyExchangeAdj (o : KrausObj) (rho : Arr ℂ) (n : ℕ) : Except PyErr (Arr ℂ) :=
  if o.sparse then
    let m := o.numbKraus ^ n
    if rho.rows * rho.cols = m * m ∧ o.exch.d0 = m ∧ o.exch.d1 = m then
      .ok ⟨o.exch.d2, o.exch.d3, fun k l => ∑ i ∈ Finset.range o.exch.d0, ∑ j ∈ Finset.range o.exch.d1,
        o.exch.get i j k l * rho.get ((i * m + j) / rho.cols) ((i * m + j) % rho.cols)⟩
    else .error .value
  else do
    let di ← einsumDim o.exch.d0 rho.rows
    let dj ← einsumDim o.exch.d1 rho.cols
    return ⟨o.exch.d2, o.exch.d3, fun k l => ∑ i ∈ Finset.range di, ∑ j ∈ Finset.range dj,
      o.exch.get (einsumIdx o.exch.d0 i) (einsumIdx o.exch.d1 j) k l *
        rho.get (einsumIdx rho.rows i) (einsumIdx rho.cols j)⟩

/-- `trace_cond` of `is_trace_perserving`: chan/_kraus.py lines 430-436 (a sum built up in a loop) and
733-739 (an `einsum`). -/
def traceCond (o : KrausObj) : Arr ℂ :=
  let gram : ℕ → Arr ℂ := fun i => ⟨o.kraus.cols, o.kraus.cols, fun k m =>
    ∑ j ∈ Finset.range o.kraus.rows, star (o.kraus.get i j k) * o.kraus.get i j m⟩
  if o.sparse then
    (List.range o.kraus.len).foldl (fun acc i => acc.add (gram i)) (Arr.zeros o.kraus.cols o.kraus.cols)
  else ⟨o.kraus.cols, o.kraus.cols, fun k m => ∑ i ∈ Finset.range o.kraus.len,
    ∑ j ∈ Finset.range o.kraus.rows, star (o.kraus.get i j k) * o.kraus.get i j m⟩

/-- `is_trace_perserving()`: every entry of `trace_cond - eye` is below `1e-5` in absolute value.
(chan/_kraus.py lines 430-436 and 733-739) -/
def isTP (o : KrausObj) : Prop :=
  ∀ k < o.kraus.cols, ∀ m < o.kraus.cols,
    ‖o.traceCond.get k m - (if k = m then 1 else 0)‖ < 1 / 10 ^ 5

/-- One summand of `average_entanglement_fidelity` without its probability.
Dense, chan/_kraus.py line 897: `np.sum(np.abs(np.einsum("ijk,kp->i", kraus_ops, state))**2)`.
Sparse, line 533: `np.sum(np.abs(np.trace(matmul(kraus_ops, state), axis1=0))**2)`; the second axis of
`np.trace` is the default `1`. -/
def fidTerm (o : KrausObj) (state : Arr ℂ) : Except PyErr ℝ :=
  if o.sparse then
    if o.kraus.cols = state.rows then
      .ok (∑ p ∈ Finset.range state.cols, ‖∑ i ∈ Finset.range (min o.kraus.len o.kraus.rows),
        ∑ k ∈ Finset.range o.kraus.cols, o.kraus.get i i k * state.get k p‖ ^ 2)
    else .error .value
  else do
    let dk ← einsumDim o.kraus.cols state.rows
    return ∑ i ∈ Finset.range o.kraus.len, ‖∑ j ∈ Finset.range o.kraus.rows,
      ∑ k ∈ Finset.range dk, ∑ p ∈ Finset.range state.cols,
        o.kraus.get i j (einsumIdx o.kraus.cols k) * state.get (einsumIdx state.rows k) p‖ ^ 2

/-- `average_entanglement_fidelity(probs, states)`: chan/_kraus.py lines 507-534 and 871-898.
`states[i]` raises `IndexError` when there are fewer states than probabilities. -/
def avgFidelity (o : KrausObj) : List ℝ → List (Arr ℂ) → Except PyErr ℝ
  | [], _ => .ok 0
  | _ :: _, [] => .error .index
  | p :: ps, s :: ss => do
    let x ← o.fidTerm s
    let r ← avgFidelity o ps ss
    return p * x + r

end KrausObj

/-- `serial_concatenate(kraus1, kraus2)`: chan/_kraus.py lines 570-613 (sparse: a list of `matmul`s) and
943-997 (dense: `einsum` and `reshape`); both list the products in the same order. -/
def serialConcat (a b : Arr3 ℂ) : Except PyErr (Arr3 ℂ) :=
  if a.len ≠ 0 ∧ b.len ≠ 0 ∧ b.rows ≠ a.cols then .error .type else .ok (a.compose b)

/-- `parallel_concatenate(kraus1, kraus2)`: chan/_kraus.py lines 536-568 and 900-941. -/
def parallelConcat (a b : Arr3 ℂ) : Arr3 ℂ := a.kron b

namespace KrausObj

/-- `DenseKraus.__add__` and `SparseKraus.__add__`: chan/_kraus.py lines 403-411 and 713-721.  `SparseKraus` checks the kind of
the other object first; for `DenseKraus` `serial_concatenate` rejects a sparse array (line 975). -/
def add (s o : KrausObj) : Except PyErr KrausObj := do
  if s.sparse then pyAssert (o.sparse = true)
  if s.dimIn ^ s.numIn ≠ o.dimOut ^ o.numOut then .error .type
  else
    pyAssert (o.sparse = s.sparse)
    let k ← serialConcat s.kraus o.kraus
    init s.sparse k s.numIn o.numOut o.dimIn s.dimOut []

/-- `DenseKraus.__mul__` and `SparseKraus.__mul__`: chan/_kraus.py lines 413-421 and 723-731. -/
def mul (s o : KrausObj) : Except PyErr KrausObj := do
  pyAssert (o.sparse = s.sparse)
  init s.sparse (parallelConcat s.kraus o.kraus) 1 1 (o.dimIn * s.dimIn) (o.dimOut * s.dimOut) []

end KrausObj

/-! ### `AnalyticQChan` with Kraus operators: `chan/channel.py`.  The object is its `krauss` attribute. -/

namespace QChan

open Classical in
/-- `AnalyticQChan(operator, numb_qubits, dim_in, dim_out, orthogonal_krauss, sparse)` for Kraus
operators: chan/channel.py lines 180-193.  `is_trace_perserving` reads `kraus_ops[0]` and raises
`IndexError` if there are no operators. -/
def init (sparse : Bool) (ops : Arr3 ℂ) (numIn numOut dimIn dimOut : ℕ) (orth : List ℕ) :
    Except PyErr KrausObj := do
  let o ← KrausObj.init sparse ops numIn numOut dimIn dimOut (if sparse then [] else orth)
  if ops.len = 0 then .error .index
  else
    pyAssert o.isTP
    return o

/-- `AnalyticQChan(operator, ...)` for a list of matrices. (chan/channel.py lines 180-193) -/
def ofList (sparse : Bool) (ops : List (Arr ℂ)) (numIn numOut dimIn dimOut : ℕ) (orth : List ℕ) :
    Except PyErr KrausObj := do
  let a ← Arr3.ofList ops
  init sparse a numIn numOut dimIn dimOut orth

/-- `if n != self._current_n: self.krauss.update_kraus_operators(n)`, chan/channel.py lines 371-372,
458-459, 499-500. -/
def sync (o : KrausObj) (n : ℕ) : Except PyErr Unit × KrausObj :=
  if n ≠ o.curN then o.update n else (.ok (), o)

/-- `channel(rho, n, adjoint)`, chan/channel.py lines 428-464. -/
def channel (o : KrausObj) (rho : Arr ℂ) (n : ℕ) (adjoint : Bool) : Except PyErr (Arr ℂ) × KrausObj :=
  match sync o n with
  | (.ok _, o') => (o'.channel rho adjoint, o')
  | (.error e, o') => (.error e, o')

/-- `channel(rho, n, adjoint)` for a batch of matrices and dense operators, chan/channel.py lines
428-464. -/
def channelBatch (o : KrausObj) (rho : Arr3 ℂ) (n : ℕ) (adjoint : Bool) :
    Except PyErr (Arr3 ℂ) × KrausObj :=
  match sync o n with
  | (.ok _, o') => (o'.channelBatchDense rho adjoint, o')
  | (.error e, o') => (.error e, o')

/-- `entropy_exchange(rho, n)`, chan/channel.py lines 466-501. -/
def entropyExchange (o : KrausObj) (rho : Arr ℂ) (n : ℕ) : Except PyErr (List (Arr ℂ)) × KrausObj :=
  match sync o n with
  | (.ok _, o') => (o'.entropyExchange rho n, o')
  | (.error e, o') => (.error e, o')

/-- `entropy_exchange(rho, n, adjoint=True)`, chan/channel.py lines 466-501. -/
def entropyExchangeAdj (o : KrausObj) (rho : Arr ℂ) (n : ℕ) : Except PyErr (Arr ℂ) × KrausObj :=
  match sync o n with
  | (.ok _, o') => (o'.entropyExchangeAdj rho n, o')
  | (.error e, o') => (.error e, o')

/-- `average_entanglement_fidelity(probs, states)`, chan/channel.py lines 400-426. -/
def avgFidelity (o : KrausObj) (probs : List ℝ) (states : List (Arr ℂ)) : Except PyErr ℝ :=
  o.avgFidelity probs states

/-- `input_dimension`, chan/channel.py lines 225-235. -/
def inputDimension (o : KrausObj) : ℕ := (o.dimIn ^ o.numIn) ^ o.curN

/-- `output_dimension`, chan/channel.py lines 237-247. -/
def outputDimension (o : KrausObj) : ℕ := (o.dimOut ^ o.numOut) ^ o.curN

/-- `__add__`, chan/channel.py lines 298-327. -/
def add (s o : KrausObj) : Except PyErr KrausObj := do
  let k ← serialConcat s.kraus o.kraus
  init (s.sparse || o.sparse) k o.numIn s.numOut o.dimIn s.dimOut []

/-- `__mul__`, chan/channel.py lines 329-357. -/
def mul (s o : KrausObj) : Except PyErr KrausObj :=
  init (s.sparse || o.sparse) (parallelConcat s.kraus o.kraus) 1 1 (s.dimIn * o.dimIn)
    (s.dimOut * o.dimOut) []

/-- The calls of the API that can change an `AnalyticQChan` object; `update n` is
`chan.krauss.update_kraus_operators(n)`. (chan/channel.py lines 428-501) -/
inductive Call
  | channel (rho : Arr ℂ) (n : ℕ) (adjoint : Bool)
  | channelBatch (rho : Arr3 ℂ) (n : ℕ) (adjoint : Bool)
  | exchange (rho : Arr ℂ) (n : ℕ)
  | exchangeAdj (rho : Arr ℂ) (n : ℕ)
  | update (n : ℕ)

/-- The number of uses of the channel that a call asks for. (chan/channel.py lines 428-501) -/
def Call.uses : Call → ℕ
  | .channel _ n _ => n
  | .channelBatch _ n _ => n
  | .exchange _ n => n
  | .exchangeAdj _ n => n
  | .update n => n

/-- The object after a call, whether or not the call raised.
(chan/channel.py lines 428-501, chan/_kraus.py lines 238-281) -/
def Call.after (o : KrausObj) : Call → KrausObj
  | .channel rho n a => (QChan.channel o rho n a).2
  | .channelBatch rho n a => (QChan.channelBatch o rho n a).2
  | .exchange rho n => (QChan.entropyExchange o rho n).2
  | .exchangeAdj rho n => (QChan.entropyExchangeAdj o rho n).2
  | .update n => (o.update n).2

/-- The object after a sequence of calls. (chan/channel.py lines 428-501) -/
def history (o : KrausObj) (calls : List Call) : KrausObj := calls.foldl Call.after o

end QChan

end

end PyQ
