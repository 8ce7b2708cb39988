import Verif.Spec.Rounds

/-! # Specification for C132: logical operators between rounds of error correction -/

namespace PyQ.Spec

open PyQ

/-- What can happen to an encoded state: a round of error correction in which the error of the row happened, or the logical
operator `p` (one of the letters X, Y, Z) on logical qubit `i`. -/
inductive Action (k : ℕ)
  | round (e : List ℤ)
  | logical (p : Char) (i : Fin k)

/-- A sequence of actions; the gates of a logical operator are those of `logical_circuit`. -/
inductive Protected (c : StabCode) (k : ℕ) (table : List (ZMod 2) → List ℤ) : Amp c.n → List (Action k) → Amp c.n → Prop
  | nil (φ : Amp c.n) : Protected c k table φ [] φ
  | round {φ φ' φ'' : Amp c.n} {e : List ℤ} {as : List (Action k)} :
      Rounds c table φ [e] φ' → Protected c k table φ' as φ'' → Protected c k table φ (.round e :: as) φ''
  | logical {φ φ'' : Amp c.n} {p : Char} {i : Fin k} {gs : List Gate} {as : List (Action k)} :
      logicalCircuit c c.n [p, Char.ofNat (48 + i)] = .ok gs → Protected c k table (run gs φ) as φ'' →
      Protected c k table φ (.logical p i :: as) φ''

/-- `X`, `Z` or `XZ` on qubit `i` of `k`. -/
def onQubit {k : ℕ} (p : Char) (i : Fin k) : Pauli k :=
  ⟨if p = 'Z' then 0 else Pi.single i 1, if p = 'X' then 0 else Pi.single i 1⟩

/-- What the actions mean for the logical state: the rounds nothing, the operators themselves. -/
noncomputable def meaning {k : ℕ} : List (Action k) → Amp k → Amp k
  | [], α => α
  | .round _ :: as, α => meaning as α
  | .logical p i :: as, α => meaning as (pauliAct (onQubit p i) α)

/-- The errors of the rounds. -/
def errors {k : ℕ} : List (Action k) → List (List ℤ)
  | [] => []
  | .round e :: as => e :: errors as
  | .logical _ _ :: as => errors as

/-- All logical operators have names `logical_circuit` accepts. -/
def Named {k : ℕ} : List (Action k) → Prop
  | [] => True
  | .round _ :: as => Named as
  | .logical p i :: as => (p = 'X' ∨ p = 'Y' ∨ p = 'Z') ∧ i.val < 10 ∧ Named as

end PyQ.Spec
