import Verif.Lemmas.Normalizer
import Verif.Lemmas.CodeSpace
import Verif.Lemmas.Measure
import Mathlib.LinearAlgebra.Trace

/-! The states fixed by commuting Pauli operators. -/

namespace PyQ

open Spec Module Matrix

variable {n m k : ℕ}

/-- The states fixed by all operators of a family. -/
noncomputable def fixedSpace (ps : Fin m → Pauli n) : Submodule ℂ (Amp n) where
  carrier := {ψ | ∀ i, pauliAct (ps i) ψ = ψ}
  add_mem' := by intro a b ha hb i; rw [pauliAct_add, ha i, hb i]
  zero_mem' := by intro i; exact Matrix.mulVec_zero _
  smul_mem' := by intro c a ha i; rw [pauliAct_smul, ha i]

theorem mem_fixedSpace {ps : Fin m → Pauli n} {ψ : Amp n} : ψ ∈ fixedSpace ps ↔ ∀ i, pauliAct (ps i) ψ = ψ := Iff.rfl

theorem pauliN_mulVec (p : Pauli n) (ψ : Amp n) :
    pauliN p *ᵥ (fun a => ψ (bitsEquiv n a)) = fun a => pauliAct p ψ (bitsEquiv n a) := by
  unfold pauliN pauliAct
  rw [submatrix_mulVec_equiv]
  have hφ' : (fun a => ψ (bitsEquiv n a)) ∘ (bitsEquiv n).symm = ψ := by
    funext b
    simp only [Function.comp_apply, Equiv.apply_symm_apply]
  rw [hφ']
  rfl

/-- Independent commuting operators with even numbers of Y's: each halves the dimension. -/
theorem fixed_finrank (ps : Fin m → Pauli n) (hcom : ∀ i j, symp (ps i) (ps j) = 0) (hY : ∀ i, parityY (ps i) = 0)
    (hind : LinearIndependent (ZMod 2) fun i => (ps i).vec) : finrank ℂ (fixedSpace ps) * 2 ^ m = 2 ^ n := by
  set Ps : List (Matrix (Fin (2 ^ n)) (Fin (2 ^ n)) ℂ) := List.ofFn fun i => pauliN (ps i) with hPs
  have hlen : Ps.length = m := by simp [hPs]
  have hget : ∀ i (hi : i < Ps.length), Ps[i] = pauliN (ps ⟨i, hlen ▸ hi⟩) := by
    intro i hi; simp [hPs]
  have hmem : ∀ S ∈ Ps, ∃ i, S = pauliN (ps i) := by
    intro S hS
    rw [hPs, List.mem_ofFn] at hS
    obtain ⟨i, rfl⟩ := hS
    exact ⟨i, rfl⟩
  have hcP : ∀ S ∈ Ps, ∀ T ∈ Ps, S * T = T * S := by
    intro S hS T hT
    obtain ⟨i, rfl⟩ := hmem S hS
    obtain ⟨j, rfl⟩ := hmem T hT
    rw [pauliN_comm, hcom, sgn_zero, one_smul]
  have hsP : ∀ S ∈ Ps, S * S = 1 := by
    intro S hS
    obtain ⟨i, rfl⟩ := hmem S hS
    exact pauliN_sq _ (hY i)
  have htr := projProd_trace Ps (by
    intro i hi
    obtain ⟨w, hw⟩ := exists_partner _ hind ⟨i, hlen ▸ hi⟩
    have hsymp : ∀ j, (hj : j < m) → symp (ofVec w) (ps ⟨j, hj⟩) = if j = i then 1 else 0 := by
      intro j hj
      have := hw ⟨j, hj⟩
      simp only [Fin.mk.injEq] at this
      rw [← this]; rfl
    refine ⟨pauliN (ofVec w), (pauliN (ofVec w))ᴴ, mul_eq_one_comm.mp (pauliN_unitary _), ?_, ?_⟩
    · rw [hget i hi, pauliN_comm, hsymp i (hlen ▸ hi), if_pos rfl, sgn_one, neg_one_smul]
    · intro j hj
      rw [hget j (by omega), pauliN_comm, hsymp j (by omega), if_neg (by omega), sgn_zero, one_smul])
  set e : Amp n ≃ₗ[ℂ] (Fin (2 ^ n) → ℂ) := LinearEquiv.funCongrLeft ℂ ℂ (bitsEquiv n) with he
  have hfix : ∀ ψ : Amp n, ψ ∈ fixedSpace ps ↔ ∀ S ∈ Ps, S *ᵥ (e ψ) = e ψ := by
    intro ψ
    have he' : e ψ = fun a => ψ (bitsEquiv n a) := rfl
    rw [mem_fixedSpace]
    constructor
    · intro h S hS
      obtain ⟨i, rfl⟩ := hmem S hS
      rw [he', pauliN_mulVec, h i]
    · intro h i
      have := h (pauliN (ps i)) (by rw [hPs, List.mem_ofFn]; exact ⟨i, rfl⟩)
      rw [he', pauliN_mulVec] at this
      funext b
      have hb := congrFun this ((bitsEquiv n).symm b)
      simpa only [Equiv.apply_symm_apply] using hb
  have hproj : LinearMap.IsProj ((fixedSpace ps).map e.toLinearMap) (projProd Ps).mulVecLin := by
    constructor
    · intro v
      rw [Submodule.mem_map]
      refine ⟨e.symm (projProd Ps *ᵥ v), ?_, by simp⟩
      rw [hfix]
      intro S hS
      rw [LinearEquiv.apply_symm_apply, mulVec_mulVec, projProd_fixed Ps hsP hcP S hS]
    · intro v hv
      rw [Submodule.mem_map] at hv
      obtain ⟨ψ, hψ, rfl⟩ := hv
      exact projProd_mulVec Ps _ ((hfix ψ).mp hψ)
  have h1 := hproj.trace
  rw [← Matrix.toLin'_apply', Matrix.trace_toLin'_eq, LinearEquiv.finrank_map_eq] at h1
  rw [h1, hlen] at htr
  exact_mod_cast htr

end PyQ
