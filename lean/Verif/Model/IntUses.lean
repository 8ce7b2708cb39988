import Verif.Model.Kraus

/-!
# Numbers of uses that are any integers

`Model/Kraus.lean` takes the number `n` of uses to be a natural number.  Python accepts every integer: nothing in
`update_kraus_operators` or in `channel` checks `n`.  Here `current_n` and `n` are integers; the rest of the object is the
object of `Model/Kraus.lean`, whose field `curN` is not used.
-/

namespace PyQ

noncomputable section

/-- A `DenseKraus` or `SparseKraus` object whose `current_n` is any integer: chan/_kraus.py lines 98-117. -/
structure KrausInt where
  obj : KrausObj
  /-- `current_n` -/
  cur : ℤ

namespace KrausInt

/-- The object just constructed: `current_n = 1`, chan/_kraus.py line 107. -/
def start (o : KrausObj) : KrausInt := ⟨o, 1⟩

/-- The object after the loops of `update_kraus_operators(n)`, chan/_kraus.py lines 264-277.  `range(a, b)` is empty for
`b ≤ a`. -/
def retensor (s : KrausInt) (n : ℤ) : KrausObj :=
  if s.cur < n then
    (List.range (n - s.cur).toNat).foldl (fun o _ => o.setTensor o.kraus o.nth) s.obj
  else if n < s.cur then
    if n = 1 then { s.obj with nth := s.obj.kraus }
    else (List.range (n - 2).toNat).foldl (fun o _ => o.setTensor o.kraus o.nth)
      (s.obj.setTensor s.obj.kraus s.obj.kraus)
  else s.obj

/-- `update_kraus_operators(n)`, chan/_kraus.py lines 238-281. -/
def update (s : KrausInt) (n : ℤ) : Except PyErr Unit × KrausInt :=
  match (s.retensor n).exchange with
  | .ok e => (.ok (), ⟨{ s.retensor n with exch := e }, n⟩)
  | .error e => (.error e, ⟨s.retensor n, n⟩)

/-- `if n != self._current_n: self.krauss.update_kraus_operators(n)`, chan/channel.py lines 371-372, 458-459,
499-500. -/
def sync (s : KrausInt) (n : ℤ) : Except PyErr Unit × KrausInt :=
  if n ≠ s.cur then s.update n else (.ok (), s)

/-- `channel(rho, n, adjoint)`, chan/channel.py lines 428-464. -/
def channel (s : KrausInt) (rho : Arr ℂ) (n : ℤ) (adjoint : Bool) : Except PyErr (Arr ℂ) × KrausInt :=
  match s.sync n with
  | (.ok _, s') => (s'.obj.channel rho adjoint, s')
  | (.error e, s') => (.error e, s')

/-- The calls that can change the object, with the number of uses: `use n` stands for `channel(rho, n)`,
`entropy_exchange(rho, n)` and the functions that call them (chan/channel.py lines 365-372, 428-501), whose other
arguments are looked at only afterwards; `update n` for `chan.krauss.update_kraus_operators(n)`
(chan/_kraus.py lines 238-281). -/
inductive Call
  | use (n : ℤ)
  | update (n : ℤ)

/-- The number of uses a call asks for (chan/channel.py lines 428-501, chan/_kraus.py line 238). -/
def Call.uses : Call → ℤ
  | .use n => n
  | .update n => n

/-- The object after a call, whether or not it raised (chan/channel.py lines 428-501, chan/_kraus.py lines 238-281). -/
def Call.after (s : KrausInt) : Call → KrausInt
  | .use n => (s.sync n).2
  | .update n => (s.update n).2

/-- The object after a sequence of calls (chan/channel.py lines 428-501, chan/_kraus.py lines 238-281). -/
def history (s : KrausInt) (calls : List Call) : KrausInt := calls.foldl Call.after s

end KrausInt

end

end PyQ
