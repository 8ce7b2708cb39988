import Verif.Spec.WrongReadings

/-! # Specification for C146: errors between the measurements of a round -/

namespace PyQ.Spec

open PyQ

/-- Measurements with a fresh ancilla, each of the second row of a pair, right after an error, the first row of the pair. -/
inductive NoisyReadings (c : StabCode) : Amp c.n → List (List ℤ × List ℤ) → List (ZMod 2) → Amp c.n → Prop
  | nil (φ : Amp c.n) : NoisyReadings c φ [] [] φ
  | cons {φ φ' φ'' : Amp c.n} {e g : List ℤ} {es : List (List ℤ × List ℤ)} {r : ZMod 2} {rs : List (ZMod 2)} :
      FreshStep c (pauliAct (rowPauli c.n e) φ) (.bin g) r φ' → NoisyReadings c φ' es rs φ'' →
      NoisyReadings c φ ((e, g) :: es) (r :: rs) φ''

/-- Rounds of error correction with an error before each of the measurements of a round. -/
inductive NoisyRounds (c : StabCode) (table : List (ZMod 2) → List ℤ) : Amp c.n → List (List (List ℤ)) → Amp c.n → Prop
  | nil (φ : Amp c.n) : NoisyRounds c table φ [] φ
  | cons {φ φ' φ'' : Amp c.n} {es : List (List ℤ)} {ess : List (List (List ℤ))} {rs : List (ZMod 2)} {corr : List Gate} :
      NoisyReadings c φ (es.zip c.iter) rs φ' →
      applyStabilizerCircuit c.n (.bin (table rs)) = .ok corr → NoisyRounds c table (run corr φ') ess φ'' →
      NoisyRounds c table φ (es :: ess) φ''

/-- The row of the product of the errors. -/
def productRow (n : ℕ) (es : List (List ℤ)) : List ℤ := (List.range (2 * n)).map fun j => (es.map fun e => e.getD j 0).sum % 2

/-- Which of the measured rows anticommute with the product of the errors that come after their measurement. -/
def lateFlips (n : ℕ) : List (List ℤ × List ℤ) → List (ZMod 2)
  | [] => []
  | (_, g) :: es => sympV (rowPauli n g).vec (es.map fun x => (rowPauli n x.1).vec).sum :: lateFlips n es

/-- The round with all its errors at the beginning and the results of the rows in `lateFlips` reported wrongly. -/
def asFaulty (n : ℕ) (rows : List (List ℤ)) (es : List (List ℤ)) : List ℤ × List (ZMod 2) :=
  (productRow n es, lateFlips n (es.zip rows))

end PyQ.Spec
