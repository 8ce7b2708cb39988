import Verif.Model.Kraus

/-!
# The array passed to a channel stays the caller's

`DenseKraus.__init__` keeps a reference to an array it is given, and `update_kraus_operators(1)` makes `nth_kraus_ops`
that array as well.  This file adds to the model of `Model/Kraus.lean` which of the arrays of an object are the caller's
own, and what a write of the caller into it does.
-/

namespace PyQ

noncomputable section

/-- The argument `operator` of `AnalyticQChan`: a list of matrices or a three-dimensional array.
(chan/channel.py 115-193) -/
inductive Given
  | list (ops : List (Arr ℂ))
  | array (ops : Arr3 ℂ)

/-- A channel object with the sharing of its arrays. (chan/_kraus.py 98-117, 703-705) -/
structure Shared where
  obj : KrausObj
  /-- `kraus_ops` is the caller's array -/
  krausShared : Bool
  /-- `nth_kraus_ops` and `kraus_ops` are one array -/
  nthShared : Bool

namespace Shared

/-- `AnalyticQChan(operator, ...)`, chan/channel.py 115-193.  Dense objects keep an array as it is (chan/_kraus.py 703) and
copy a list (705); sparse objects always copy (397-398).  `nth_kraus_ops` starts as a copy (425, 752). -/
def init (sparse : Bool) (given : Given) (numIn numOut dimIn dimOut : ℕ) (orth : List ℕ) : Except PyErr Shared :=
  match given with
  | .list l => do
    let o ← QChan.ofList sparse l numIn numOut dimIn dimOut orth
    return ⟨o, false, false⟩
  | .array a => do
    let o ← QChan.init sparse a numIn numOut dimIn dimOut orth
    return ⟨o, !sparse, false⟩

/-- The caller assigns new values to the entries of the array they passed (`operator[...] = values`), which are seen
through every reference to it. (Python: assignment to an entry of the array that chan/_kraus.py 703 keeps) -/
def write (s : Shared) (values : ℕ → ℕ → ℕ → ℂ) : Shared :=
  if s.krausShared then
    { s with obj := { s.obj with
        kraus := { s.obj.kraus with get := values }
        nth := if s.nthShared then { s.obj.nth with get := values } else s.obj.nth } }
  else s

/-- Whether `nth_kraus_ops` is `kraus_ops` itself after a call for `n` uses: chan/_kraus.py 264-279.  The products are new
arrays; line 272 assigns the array itself. -/
def sharedAt (s : Shared) (n : ℕ) : Bool :=
  if s.obj.curN < n then false else if n < s.obj.curN then decide (n = 1) else s.nthShared

/-- The object after a call. (chan/_kraus.py 238-281) -/
def call (s : Shared) (c : QChan.Call) : Shared := ⟨c.after s.obj, s.krausShared, s.sharedAt c.uses⟩

/-- What can happen to the object: a call, or a write of the caller into their array. (chan/channel.py 428-501) -/
inductive Event
  | call (c : QChan.Call)
  | write (values : ℕ → ℕ → ℕ → ℂ)

/-- The object after an event. (chan/_kraus.py 238-281, 703) -/
def after (s : Shared) : Event → Shared
  | .call c => s.call c
  | .write v => s.write v

/-- The calls among the events. (chan/channel.py 428-501) -/
def calls : List Event → List QChan.Call
  | [] => []
  | .call c :: es => c :: calls es
  | .write _ :: es => calls es

end Shared

end

end PyQ
