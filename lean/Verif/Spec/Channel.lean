import Mathlib.Data.Complex.Basic
import Mathlib.LinearAlgebra.Matrix.Trace
import Mathlib.LinearAlgebra.Matrix.ConjTranspose
import Mathlib.Algebra.BigOperators.Fin

/-!
# Quantum channels given by Kraus operators, in textbook form

Independent of the code.
-/

namespace PyQ.Spec

open Matrix

variable {ι r c : Type} [Fintype ι] [Fintype r] [Fintype c]

/-- The channel `ρ ↦ ∑ K ρ K†`. -/
def applyKraus (K : ι → Matrix r c ℂ) (ρ : Matrix c c ℂ) : Matrix r r ℂ := ∑ i, K i * ρ * (K i)ᴴ

/-- The adjoint map `σ ↦ ∑ K† σ K`. -/
def adjointKraus (K : ι → Matrix r c ℂ) (σ : Matrix r r ℂ) : Matrix c c ℂ := ∑ i, (K i)ᴴ * σ * K i

/-- Trace preservation, `∑ K† K = 1`. -/
def TracePreserving [DecidableEq c] (K : ι → Matrix r c ℂ) : Prop := ∑ i, (K i)ᴴ * K i = 1

/-- The entropy exchange matrix `W i j = tr (K_i ρ K_j†)`. -/
def entropyExchange (K : ι → Matrix r c ℂ) (ρ : Matrix c c ℂ) : Matrix ι ι ℂ :=
  fun i j => trace (K i * ρ * (K j)ᴴ)

/-- The adjoint of the complementary channel, `∑ σ_ij K_i† K_j`. -/
def entropyExchangeAdj (K : ι → Matrix r c ℂ) (σ : Matrix ι ι ℂ) : Matrix c c ℂ :=
  ∑ i, ∑ j, σ i j • ((K i)ᴴ * K j)

/-- Digit `t` of `x < m ^ n` in base `m`, most significant digit first. -/
def digit {m n : ℕ} (x : Fin (m ^ n)) (t : Fin n) : Fin m :=
  ⟨x / m ^ (n - 1 - t) % m, Nat.mod_lt _ (Nat.pos_of_ne_zero fun h => by
    have hn : 0 < n := Nat.lt_of_le_of_lt (Nat.zero_le _) t.2
    subst h
    exact absurd (lt_of_lt_of_eq x.2 (zero_pow hn.ne')) (Nat.not_lt_zero _))⟩

/-- The tensor product `A_0 ⊗ … ⊗ A_{n-1}` of matrices of one shape, with rows and columns numbered by
their digits. -/
def tensorProd {a b n : ℕ} (A : Fin n → Matrix (Fin a) (Fin b) ℂ) :
    Matrix (Fin (a ^ n)) (Fin (b ^ n)) ℂ :=
  fun i j => ∏ t, A t (digit i t) (digit j t)

/-- The tensor product of two matrices, with rows and columns numbered as numpy's `kron` does: row
`i * b + k` belongs to row `i` of the first and row `k` of the second factor. -/
def kron {a b c d : ℕ} (A : Matrix (Fin a) (Fin c) ℂ) (B : Matrix (Fin b) (Fin d) ℂ) :
    Matrix (Fin (a * b)) (Fin (c * d)) ℂ :=
  fun i j => A i.divNat j.divNat * B i.modNat j.modNat

/-- The Kraus operators of `n` parallel uses: all `n`-fold tensor products. -/
def tensorPow {l a b : ℕ} (K : Fin l → Matrix (Fin a) (Fin b) ℂ) (n : ℕ) :
    Fin (l ^ n) → Matrix (Fin (a ^ n)) (Fin (b ^ n)) ℂ :=
  fun k => tensorProd fun t => K (digit k t)

/-- Sequences of numbers of channel uses whose last call both kinds of objects support: all are positive, and a sparse
object is asked for one use at the end only if it was never asked for several uses.  Earlier calls may have raised. -/
def SafeUses (sparse : Bool) (uses : List ℕ) : Prop :=
  (∀ n ∈ uses, 1 ≤ n) ∧ (sparse = true → uses.getLast? = some 1 → ∀ n ∈ uses, n = 1)

end PyQ.Spec
