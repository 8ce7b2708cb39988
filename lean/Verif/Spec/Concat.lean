import Verif.Spec.Stabilizer
import Mathlib.Logic.Equiv.Fin.Basic

/-!
# Specification: concatenation of codes

The `B * m` qubits of a concatenated code are `B` blocks of `m` qubits, one after the other.
-/

namespace PyQ.Spec

/-- The Pauli that acts as `f b` on block `b`. -/
def joined {B m : ℕ} (f : Fin B → BVec m) : BVec (B * m) :=
  (fun t => (f t.divNat).1 t.modNat, fun t => (f t.divNat).2 t.modNat)

/-- The Pauli `v` on block `b`, the identity on the other blocks. -/
def inBlock {B m : ℕ} (b : Fin B) (v : BVec m) : BVec (B * m) := joined fun b' => if b' = b then v else 0

/-- Every letter of an outer Pauli replaced by logical operators of the inner code: on block `b`, the product over the
logical qubits `a` of that block of `X a` if the outer Pauli has an X on it, and of `Z a` if it has a Z. -/
def substituted {B l m : ℕ} (ux uz : Fin B → Fin l → ZMod 2) (X Z : Fin l → BVec m) : BVec (B * m) :=
  joined fun b => ∑ a, (ux b a • X a + uz b a • Z a)

/-- `X` and `Z` are logical operators for the generators `inner`: they commute with the generators, `X a` anticommutes with
`Z a`, and all other pairs commute. -/
structure LogicalOf {l m : ℕ} (inner : List (List ℤ)) (X Z : Fin l → BVec m) : Prop where
  commX : ∀ g ∈ inner, ∀ a, sympV (rowPauli m g).vec (X a) = 0
  commZ : ∀ g ∈ inner, ∀ a, sympV (rowPauli m g).vec (Z a) = 0
  XZ : ∀ a b, sympV (X a) (Z b) = if a = b then 1 else 0
  XX : ∀ a b, sympV (X a) (X b) = 0
  ZZ : ∀ a b, sympV (Z a) (Z b) = 0

end PyQ.Spec
