import Verif.Spec.Rounds
import Verif.Spec.Distance

/-! # Specification for C145: rounds of error correction with wrongly reported results -/

namespace PyQ.Spec

open PyQ

/-- Rounds of error correction as in `Rounds`, in which the results are reported wrongly: each round has an error and a list of
flips, and the table is looked up with the results of the measurements plus the flips. -/
inductive FaultyRounds (c : StabCode) (table : List (ZMod 2) → List ℤ) : Amp c.n → List (List ℤ × List (ZMod 2)) → Amp c.n → Prop
  | nil (φ : Amp c.n) : FaultyRounds c table φ [] φ
  | cons {φ φ' φ'' : Amp c.n} {e : List ℤ} {f : List (ZMod 2)} {es : List (List ℤ × List (ZMod 2))} {rs : List (ZMod 2)}
      {corr : List Gate} :
      History (FreshStep c) (pauliAct (rowPauli c.n e) φ) (c.iter.map StabArg.bin) rs φ' →
      applyStabilizerCircuit c.n (.bin (table (List.zipWith (· + ·) rs f))) = .ok corr → FaultyRounds c table (run corr φ') es φ'' →
      FaultyRounds c table φ ((e, f) :: es) φ''

/-- The rows applied in these rounds, when the operator `v` is on the register to begin with. -/
def applied (n : ℕ) (rows : List (List ℤ)) (table : List (ZMod 2) → List ℤ) :
    BVec n → List (List ℤ × List (ZMod 2)) → List (List ℤ)
  | _, [] => []
  | v, (e, f) :: es =>
    let r := table (List.zipWith (· + ·) (signs n rows (v + (rowPauli n e).vec)) f)
    r :: applied n rows table (v + (rowPauli n e).vec + (rowPauli n r).vec) es

/-- The product, up to a phase, of all errors and all rows applied. -/
def leftoverFaulty (n : ℕ) (rows : List (List ℤ)) (table : List (ZMod 2) → List ℤ) (v : BVec n)
    (es : List (List ℤ × List (ZMod 2))) : BVec n :=
  v + (es.map fun x => (rowPauli n x.1).vec).sum + ((applied n rows table v es).map fun r => (rowPauli n r).vec).sum

/-- The more frequent of the values reported for each of `R` operators, when all are measured `m` times in turn. -/
def majority (m R : ℕ) (reported : List (ZMod 2)) : List (ZMod 2) :=
  (List.range R).map fun i =>
    if m < 2 * ((List.range m).filter fun j => reported.getD (j * R + i) 0 = 1).length then 1 else 0

end PyQ.Spec
