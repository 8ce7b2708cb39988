import Verif.Model.Circuit
import Verif.Spec.Stabilizer

/-! # Specification for C131: error correction repeated any number of times -/

namespace PyQ.Spec

open PyQ

/-- Rounds of error correction, one for each row of the list: the error the row stands for happens, all the rows of the
normal form are measured with `single_syndrome_measurement`, every time with a qubit allocated for the purpose, and
`apply_stabilizer_circuit` applies the row which `table` holds for the results.  The state before the first and the state
after the last round. -/
inductive Rounds (c : StabCode) (table : List (ZMod 2) → List ℤ) : Amp c.n → List (List ℤ) → Amp c.n → Prop
  | nil (φ : Amp c.n) : Rounds c table φ [] φ
  | cons {φ φ' φ'' : Amp c.n} {e : List ℤ} {es : List (List ℤ)} {rs : List (ZMod 2)} {corr : List Gate} :
      History (FreshStep c) (pauliAct (rowPauli c.n e) φ) (c.iter.map StabArg.bin) rs φ' →
      applyStabilizerCircuit c.n (.bin (table rs)) = .ok corr → Rounds c table (run corr φ') es φ'' →
      Rounds c table φ (e :: es) φ''

/-- The same with one more qubit in the register, which serves for all the measurements and is never reset: the user looks
up the results of a round together with the last result of the round before (at first, the value the qubit holds). -/
inductive SharedRounds (c : StabCode) (table : ZMod 2 → List (ZMod 2) → List ℤ) :
    Amp c.n → ZMod 2 → List (List ℤ) → Amp c.n → Prop
  | nil (φ : Amp c.n) (a : ZMod 2) : SharedRounds c table φ a [] φ
  | cons {φ φ' φ'' : Amp c.n} {a b : ZMod 2} {e : List ℤ} {es : List (List ℤ)} {rs : List (ZMod 2)} {corr : List Gate} :
      History (SharedStep c) (tensor (pauliAct (rowPauli c.n e) φ) (qubit a)) (c.iter.map StabArg.bin) rs (tensor φ' (qubit b)) →
      applyStabilizerCircuit c.n (.bin (table a rs)) = .ok corr → SharedRounds c table (run corr φ') (rs.getLastD a) es φ'' →
      SharedRounds c table φ a (e :: es) φ''

/-- Which of the operators anticommute with the Pauli operator `v`. -/
def signs (n : ℕ) (rows : List (List ℤ)) (v : BVec n) : List (ZMod 2) := rows.map fun g => sympV (rowPauli n g).vec v

/-- What is left on the register, up to a phase, after errors and corrections have been multiplied up, when `v` was there
to begin with: each correction is the one `table` holds for the signs of everything that is there. -/
def leftover (n : ℕ) (rows : List (List ℤ)) (table : List (ZMod 2) → List ℤ) : BVec n → List (List ℤ) → BVec n
  | v, [] => v
  | v, e :: es =>
    leftover n rows table (v + (rowPauli n e).vec + (rowPauli n (table (signs n rows (v + (rowPauli n e).vec)))).vec) es

/-- The running sums `a + s₀`, `a + s₀ + s₁`, … -/
def runningSums : ZMod 2 → List (ZMod 2) → List (ZMod 2)
  | _, [] => []
  | a, s :: ss => (a + s) :: runningSums (a + s) ss

/-- The same when the table is looked up with running sums of the signs, which go on from round to round. -/
def leftoverShared (n : ℕ) (rows : List (List ℤ)) (table : ZMod 2 → List (ZMod 2) → List ℤ) :
    BVec n → ZMod 2 → List (List ℤ) → BVec n
  | v, _, [] => v
  | v, a, e :: es =>
    let rs := runningSums a (signs n rows (v + (rowPauli n e).vec))
    leftoverShared n rows table (v + (rowPauli n e).vec + (rowPauli n (table a rs)).vec) (rs.getLastD a) es

/-- The changes from one result to the next, from `a` on. -/
def changes : ZMod 2 → List (ZMod 2) → List (ZMod 2)
  | _, [] => []
  | a, r :: rs => (r + a) :: changes r rs

end PyQ.Spec
