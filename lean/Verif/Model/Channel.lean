import Verif.Model.Choi

/-!
# Model of `AnalyticQChan` for every kind of argument: `PyQCodes/chan/channel.py`

`QChan` (Model/Kraus.lean) and `ChoiQ` (Model/Choi.lean) model the methods of an `AnalyticQChan` that is
known to hold Kraus operators or a Choi matrix.  Here is the constructor with its choice between the two,
the checks on the types of its arguments, the attributes, and `+` and `*` between channels of any kind.

Simplifications: integers are natural numbers; an entry of `numb_qubits` that is no integer is `none`, and
its further use for a Choi matrix is not modelled.
-/

namespace PyQ

noncomputable section

/-- The first argument of `AnalyticQChan`, chan/channel.py lines 116-124 and 180-202. -/
inductive Operator
  /-- a Python list of matrices -/
  | list (ops : List (Arr ℂ))
  /-- a three-dimensional `ndarray` (`sp = false`) or `SparseArray` (`sp = true`) -/
  | array3 (sp : Bool) (A : Arr3 ℂ)
  /-- a two-dimensional `ndarray` or `SparseArray` -/
  | array2 (sp : Bool) (A : Arr ℂ)
  /-- an array of any other dimension -/
  | arrayN (sp : Bool)
  /-- an object of any other type -/
  | other

/-- The argument `numb_qubits`: a list or another sequence such as a tuple; `none` is an entry that is
no integer. (chan/_kraus.py lines 85-88) -/
structure Qubits where
  isList : Bool
  items : List (Option ℕ)

namespace Qubits

/-- The list `[a, b]` (chan/_kraus.py lines 85-88). -/
def list (a b : ℕ) : Qubits := ⟨true, [some a, some b]⟩

/-- The tuple `(a, b)` (chan/_kraus.py lines 85-88). -/
def tuple (a b : ℕ) : Qubits := ⟨false, [some a, some b]⟩

/-- The checks of `Kraus.__init__`, chan/_kraus.py lines 85-90, in their order: a list, an integer first
entry, an integer second entry, exactly two entries.  Reading an entry that does not exist raises
`IndexError`. -/
def forKraus (q : Qubits) : Except PyErr (ℕ × ℕ) :=
  if q.isList = false then .error .assertion
  else match q.items with
    | [] => .error .index
    | none :: _ => .error .assertion
    | [some _] => .error .index
    | some _ :: none :: _ => .error .assertion
    | [some a, some b] => .ok (a, b)
    | some _ :: some _ :: _ :: _ => .error .assertion

/-- `numb_qubits[0]` and `numb_qubits[1]` in `ChoiQutip.__init__`, chan/_choi.py lines 131-132. -/
def forChoi (q : Qubits) : Except PyErr (ℕ × ℕ) :=
  match q.items with
  | some a :: some b :: _ => .ok (a, b)
  | _ :: _ :: _ => .error .unmodelled
  | _ => .error .index

end Qubits

/-- What the attribute `_type` of an `AnalyticQChan` says, and the object that goes with it:
chan/channel.py lines 184-202.  For a `SparseArray` that is not three-dimensional neither branch of the
constructor is taken and `_type` is never set. -/
inductive ChanKind
  | kraus (k : KrausObj)
  | choi (c : ChoiObj)
  | unset

/-- An `AnalyticQChan`: the attribute `sparse` and the rest. (chan/channel.py lines 180-202) -/
structure Chan where
  sparse : Bool
  kind : ChanKind

namespace Chan

/-- `DenseKraus(...)` or `SparseKraus(...)` followed by the check of trace preservation, chan/channel.py
lines 186-194.  A list is converted to an array before `numb_qubits` is checked (chan/_kraus.py lines
397-398 and 704-705), except that the one-dimensional array which an empty list gives is noticed after
those checks; a `SparseArray` is refused by `DenseKraus` (lines 700-701). -/
def initKraus (op : Operator) (q : Qubits) (d e : ℕ) (orth : List ℕ) (sparse : Bool) :
    Except PyErr Chan := do
  match op with
  | .list [] =>
    let _ ← q.forKraus
    .error .value
  | .list ops =>
    let A ← Arr3.ofList ops
    let ab ← q.forKraus
    let k ← QChan.init sparse A ab.1 ab.2 d e orth
    return ⟨sparse, .kraus k⟩
  | .array3 sp A =>
    if sp = true ∧ sparse = false then .error .type
    else
      let ab ← q.forKraus
      let k ← QChan.init sparse A ab.1 ab.2 d e orth
      return ⟨sparse, .kraus k⟩
  | _ => .error .unmodelled

/-- `AnalyticQChan(operator, numb_qubits, dim_in, dim_out, orthogonal_krauss, sparse)`, chan/channel.py
lines 115-202. -/
def init (chk : QutipChecks) (op : Operator) (q : Qubits) (d e : ℕ) (orth : List ℕ) (sparse : Bool) :
    Except PyErr Chan :=
  match op with
  | .other => .error .type
  | .list _ => initKraus op q d e orth sparse
  | .array3 _ _ => initKraus op q d e orth sparse
  | .array2 false C => do
    let ab ← q.forChoi
    let c ← ChoiObj.init chk C ab.1 ab.2 d e
    return ⟨sparse, .choi c⟩
  | .arrayN false => .error .assertion
  | .array2 true _ => .ok ⟨sparse, .unset⟩
  | .arrayN true => .ok ⟨sparse, .unset⟩

/-- `nth_kraus_operators`, chan/channel.py lines 204-223. -/
def nthKrausOperators (c : Chan) : Except PyErr (Arr3 ℂ) :=
  match c.kind with
  | .kraus k => .ok k.nth
  | .choi _ => .error .assertion
  | .unset => .error .attribute

/-- `input_dimension`, chan/channel.py lines 225-235. -/
def inputDimension (c : Chan) : Except PyErr ℕ :=
  match c.kind with
  | .kraus k => .ok (QChan.inputDimension k)
  | .choi o => .ok o.inputDim
  | .unset => .error .attribute

/-- `output_dimension`, chan/channel.py lines 237-247. -/
def outputDimension (c : Chan) : Except PyErr ℕ :=
  match c.kind with
  | .kraus k => .ok (QChan.outputDimension k)
  | .choi o => .ok o.outputDim
  | .unset => .error .attribute

/-- `numb_krauss`, chan/channel.py lines 257-261: it reads the attribute `numb_krauss` of the Kraus
object, whose name is `numb_kraus` (chan/_kraus.py line 98). -/
def numbKrauss (c : Chan) : Except PyErr ℕ :=
  match c.kind with
  | .kraus _ => .error .attribute
  | .choi _ => .error .assertion
  | .unset => .error .attribute

/-- `kraus`, chan/channel.py lines 263-272, followed by the conversion to an array that both
`serial_concatenate` and `parallel_concatenate` start with (chan/_kraus.py lines 564-567, 598-601, 932-935,
977-980).  A Choi matrix gives a list.  An empty list becomes a one-dimensional array, which does not pass
the assertion on the number of dimensions in the dense functions, nor the `kron` and `matmul` of the sparse
ones; the model raises `AssertionError` in all of them. -/
def krausArray (eigh : Eigh) (c : Chan) : Except PyErr (Arr3 ℂ) :=
  match c.kind with
  | .kraus k => .ok k.kraus
  | .choi o =>
    match o.krausOperators eigh with
    | [] => .error .assertion
    | ops => Arr3.ofList ops
  | .unset => .error .attribute

/-- `dim_in`, chan/channel.py lines 274-280. -/
def dimIn (c : Chan) : Except PyErr ℕ :=
  match c.kind with
  | .kraus k => .ok k.dimIn
  | .choi o => .ok o.dimIn
  | .unset => .error .attribute

/-- `dim_out`, chan/channel.py lines 282-288. -/
def dimOut (c : Chan) : Except PyErr ℕ :=
  match c.kind with
  | .kraus k => .ok k.dimOut
  | .choi o => .ok o.dimOut
  | .unset => .error .attribute

/-- `numb_qubits`, chan/channel.py lines 290-296; chan/_choi.py lines 172-173 for a Choi matrix. -/
def numbQubits (c : Chan) : Except PyErr (ℕ × ℕ) :=
  match c.kind with
  | .kraus k => .ok (k.numIn, k.numOut)
  | .choi o => .ok (o.numIn, o.numOut)
  | .unset => .error .attribute

/-- `assert self._type == "kraus"`, chan/channel.py lines 318 and 348. -/
def assertKraus (c : Chan) : Except PyErr Unit :=
  match c.kind with
  | .kraus _ => .ok ()
  | .choi _ => .error .assertion
  | .unset => .error .attribute

/-- `A + B`, chan/channel.py lines 298-327. -/
def add (chk : QutipChecks) (eigh : Eigh) (s o : Chan) : Except PyErr Chan := do
  s.assertKraus
  let k₁ ← s.krausArray eigh
  let k₂ ← o.krausArray eigh
  let k ← serialConcat k₁ k₂
  let qo ← o.numbQubits
  let qs ← s.numbQubits
  let di ← o.dimIn
  let de ← s.dimOut
  init chk (.array3 (s.sparse || o.sparse) k) (.list qo.1 qs.2) di de [] (s.sparse || o.sparse)

/-- `A * B`, chan/channel.py lines 329-357. -/
def mul (chk : QutipChecks) (eigh : Eigh) (s o : Chan) : Except PyErr Chan := do
  s.assertKraus
  let k₁ ← s.krausArray eigh
  let k₂ ← o.krausArray eigh
  let d₁ ← s.dimIn
  let d₂ ← o.dimIn
  let e₁ ← s.dimOut
  let e₂ ← o.dimOut
  init chk (.array3 (s.sparse || o.sparse) (parallelConcat k₁ k₂)) (.list 1 1) (d₁ * d₂) (e₁ * e₂) []
    (s.sparse || o.sparse)

/-- `channel(rho, n, adjoint)` of a matrix, chan/channel.py lines 428-464: the result and the object
afterwards. -/
def channel (c : Chan) (rho : Arr ℂ) (n : ℕ) (adjoint : Bool) : Except PyErr (Arr ℂ) × Chan :=
  match c.kind with
  | .kraus k => ((QChan.channel k rho n adjoint).1, ⟨c.sparse, .kraus (QChan.channel k rho n adjoint).2⟩)
  | .choi o => (ChoiQ.channel o rho n adjoint, c)
  | .unset => (.error .attribute, c)

/-- `entropy_exchange(rho, n)`, chan/channel.py lines 466-501. -/
def entropyExchange (c : Chan) (rho : Arr ℂ) (n : ℕ) : Except PyErr (List (Arr ℂ)) × Chan :=
  match c.kind with
  | .kraus k => ((QChan.entropyExchange k rho n).1, ⟨c.sparse, .kraus (QChan.entropyExchange k rho n).2⟩)
  | .choi o => (ChoiQ.entropyExchange o rho n, c)
  | .unset => (.error .attribute, c)

/-- `average_entanglement_fidelity(probs, states)`, chan/channel.py lines 400-426. -/
def avgFidelity (c : Chan) (probs : List ℝ) (states : List (Arr ℂ)) : Except PyErr ℂ :=
  match c.kind with
  | .kraus k => (QChan.avgFidelity k probs states).map (fun x => (x : ℂ))
  | .choi o => o.avgFidelity probs states
  | .unset => .error .attribute

/-- `coherent_information(rho, n, regularized)`, chan/channel.py lines 529-570. -/
def coherentInformation (eig : Eigvalsh) (sqrtm : Sqrtm) (c : Chan) (rho : Arr ℂ) (n : ℕ)
    (regularized : Bool) : Except PyErr ℝ × Chan :=
  match c.kind with
  | .kraus k => ((QChan.coherentInformation eig k rho n regularized).1,
      ⟨c.sparse, .kraus (QChan.coherentInformation eig k rho n regularized).2⟩)
  | .choi o => (ChoiQ.coherentInformation eig sqrtm o rho n regularized, c)
  | .unset => (.error .attribute, c)

/-- The object after some calls of its methods: they change the Kraus object only, chan/channel.py lines
371-372, 458-459, 499-500. -/
def history (c : Chan) (calls : List QChan.Call) : Chan :=
  match c.kind with
  | .kraus k => ⟨c.sparse, .kraus (QChan.history k calls)⟩
  | .choi o => ⟨c.sparse, .choi o⟩
  | .unset => ⟨c.sparse, .unset⟩

end Chan

end

end PyQ
