import Verif.Model.Circuit
import Verif.Model.CodeKraus

/-!
# Arrays a `StabilizerCode` shares with its caller (`PyQCodes/codes.py` 169-238)

* The generators are copied: `pauli_str_to_binary_representation` builds a new array (170) and so does `np.array` (172).
* The normal form starts from `self.stab_bin_rep.copy()` (722) and the computed logical operators come from `np.hstack`
  (902-908), so both are new arrays.
* Supplied logical operators are stored as they are (198): the object and the caller hold the same two arrays.
* The attributes `stab_bin_rep` (211-213), `logical_x` (221-223), `logical_z` (226-228), `normal_form` (186) and the rows
  yielded by iteration (235-238, rows of a two-dimensional array are views) hand out the arrays of the object themselves.

No method writes to an array of the object, so calls do not change it and are not events here.  Arrays keep their shapes.
The list `pauli_stab` and rebinding of attributes are not modelled.
-/

namespace PyQ

/-- An array of the same shape with new entries: an assignment such as `A[...] = v`.
(Python: assignments to entries of an array that codes.py 187-198 stores) -/
def Arr.withEntries {α : Type} (A : Arr α) (v : ℕ → ℕ → α) : Arr α := ⟨A.rows, A.cols, v⟩

/-- A `StabilizerCode` object, and whether its logical operators are arrays of the caller (codes.py 187-198). -/
structure SharedCode where
  code : StabCode
  logicalShared : Bool

/-- `StabilizerCode(...)` (codes.py 127-198). -/
noncomputable def SharedCode.init (s : StabInput) (n k : ℕ) (logical : Option (Arr ℤ × Arr ℤ)) : Except PyErr SharedCode := do
  let c ← stabInit s n k logical
  return ⟨c, logical.isSome⟩

/-- What the caller may do to arrays between calls. (codes.py 127-238) -/
inductive CodeEvent
  /-- The list or array passed as `stabilizer_group` becomes `s`. -/
  | passedStab (s : StabInput)
  /-- After a write to the arrays passed as `logical_ops` their entries are `vx` and `vz` (both at once, since the two may
  overlap).  If none were passed these are arrays the object does not know. -/
  | passedLogical (vx vz : ℕ → ℕ → ℤ)
  /-- A write into `code.stab_bin_rep`. -/
  | stabBinRep (v : ℕ → ℕ → ℤ)
  /-- A write into `code.normal_form`, or into a row obtained by iterating over the code. -/
  | normalForm (v : ℕ → ℕ → ℤ)
  /-- A write into `code.logical_x` or `code.logical_z`. -/
  | logical (vx vz : ℕ → ℕ → ℤ)

/-- The event is a write to something the caller passed to the constructor. (codes.py 169-175, 187-198) -/
def CodeEvent.IsPassed : CodeEvent → Prop
  | .passedStab _ | .passedLogical _ _ => True
  | _ => False

/-- The object after an event (see the head of this file for the lines). (codes.py 187-238) -/
def SharedCode.after (t : SharedCode) : CodeEvent → SharedCode
  | .passedStab _ => t
  | .passedLogical vx vz =>
    if t.logicalShared then
      { t with code := { t.code with logicalX := t.code.logicalX.withEntries vx, logicalZ := t.code.logicalZ.withEntries vz } }
    else t
  | .stabBinRep v => { t with code := { t.code with stab := t.code.stab.withEntries v } }
  | .normalForm v => { t with code := { t.code with normalForm := t.code.normalForm.withEntries v } }
  | .logical vx vz =>
    { t with code := { t.code with logicalX := t.code.logicalX.withEntries vx, logicalZ := t.code.logicalZ.withEntries vz } }

end PyQ
