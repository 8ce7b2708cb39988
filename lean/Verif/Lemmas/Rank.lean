import Mathlib.LinearAlgebra.Matrix.Rank
import Mathlib.RingTheory.Localization.Module
import Mathlib.Algebra.GCDMonoid.Finset
import Mathlib.Algebra.GCDMonoid.Nat
import Mathlib.Data.ZMod.Basic
import Mathlib.Algebra.Field.ZMod
import Mathlib.LinearAlgebra.LinearIndependent.Lemmas
import Mathlib.Data.Int.GCD
import Mathlib.RingTheory.Localization.FractionRing

/-! The rank modulo two is at most the rank over the rationals. -/

namespace PyQ

theorem rank_mod2_le {m n : ℕ} (M : Matrix (Fin m) (Fin n) ℤ) :
    (M.map (Int.cast : ℤ → ZMod 2)).rank ≤ (M.map (Int.cast : ℤ → ℚ)).rank := by
  classical
  have : Fact (Nat.Prime 2) := ⟨Nat.prime_two⟩
  rw [Matrix.rank_eq_finrank_span_row, Matrix.rank_eq_finrank_span_row]
  obtain ⟨κ, a, ha, hspan, hli⟩ := exists_linearIndependent' (ZMod 2) (M.map (Int.cast : ℤ → ZMod 2)).row
  have : Fintype κ := Fintype.ofInjective a ha
  have hZ : LinearIndependent ℤ (fun i : κ => (M.map (Int.cast : ℤ → ℚ)).row (a i)) := by
    rw [Fintype.linearIndependent_iff]
    intro c hc
    by_contra hne
    push Not at hne
    obtain ⟨i0, hi0⟩ := hne
    obtain ⟨d, hd, hg⟩ := Finset.extract_gcd (s := Finset.univ) c ⟨i0, Finset.mem_univ _⟩
    set g := Finset.univ.gcd c
    have hg0 : g ≠ 0 := by
      intro h
      apply hi0
      rw [hd i0 (Finset.mem_univ _), h, zero_mul]
    have hsum : ∀ j, ∑ i, d i * M (a i) j = 0 := by
      intro j
      have h1 := congrFun hc j
      rw [Finset.sum_apply] at h1
      have h1' : ∑ i, ((c i : ℤ) : ℚ) * ((M (a i) j : ℤ) : ℚ) = 0 := by
        rw [← show _ = (0 : ℚ) from h1]
        refine Finset.sum_congr rfl fun i _ => ?_
        simp only [Pi.smul_apply, zsmul_eq_mul]
        rfl
      have h2 : ∑ i, c i * M (a i) j = 0 := by exact_mod_cast h1'
      have h3 : g * ∑ i, d i * M (a i) j = 0 := by
        rw [← h2, Finset.mul_sum]
        refine Finset.sum_congr rfl fun i _ => ?_
        rw [hd i (Finset.mem_univ _), mul_assoc]
      rcases mul_eq_zero.mp h3 with h | h
      · exact absurd h hg0
      · exact h
    have h2 : ∀ i, ((d i : ℤ) : ZMod 2) = 0 := by
      refine (Fintype.linearIndependent_iff.mp hli) (fun i => ((d i : ℤ) : ZMod 2)) ?_
      ext j
      have h5 := congrArg (Int.cast : ℤ → ZMod 2) (hsum j)
      simp only [Int.cast_sum, Int.cast_mul, Int.cast_zero] at h5
      rw [Finset.sum_apply]
      exact h5
    have h3 : (2 : ℤ) ∣ Finset.univ.gcd d := by
      refine Finset.dvd_gcd fun i _ => ?_
      exact (ZMod.intCast_zmod_eq_zero_iff_dvd (d i) 2).mp (h2 i)
    rw [hg] at h3
    norm_num at h3
  have hQ : LinearIndependent ℚ (fun i : κ => (M.map (Int.cast : ℤ → ℚ)).row (a i)) :=
    (LinearIndependent.iff_fractionRing ℤ ℚ).mp hZ
  rw [← hspan, finrank_span_eq_card hli, ← finrank_span_eq_card hQ]
  apply Submodule.finrank_mono
  apply Submodule.span_mono
  rintro v ⟨i, rfl⟩
  exact ⟨a i, rfl⟩

end PyQ
