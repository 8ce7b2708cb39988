import Verif.Spec.Blocks
import Verif.Lemmas.Concat
import Verif.Lemmas.Circuit
import Verif.Lemmas.FixedSpace

/-! States of blocks of qubits. -/

namespace PyQ

open Spec

variable {n m : ℕ}

theorem dotp_blocks (z c : Fin (n * m) → ZMod 2) : dotp z c =
    ∑ i, dotp (fun q : Fin m => z (finProdFinEquiv (i, q))) (fun q => c (finProdFinEquiv (i, q))) := by
  unfold dotp
  rw [← Fintype.sum_prod_type', ← finProdFinEquiv.sum_comp]

theorem joined_fst (f : Fin n → BVec m) (i : Fin n) (q : Fin m) : (joined f).1 (finProdFinEquiv (i, q)) = (f i).1 q := by
  have h := finProdFinEquiv.symm_apply_apply (i, q)
  have h1 : (finProdFinEquiv (i, q)).divNat = i := congrArg Prod.fst h
  have h2 : (finProdFinEquiv (i, q)).modNat = q := congrArg Prod.snd h
  unfold joined
  simp only [h1, h2]

theorem joined_snd (f : Fin n → BVec m) (i : Fin n) (q : Fin m) : (joined f).2 (finProdFinEquiv (i, q)) = (f i).2 q := by
  have h := finProdFinEquiv.symm_apply_apply (i, q)
  have h1 : (finProdFinEquiv (i, q)).divNat = i := congrArg Prod.fst h
  have h2 : (finProdFinEquiv (i, q)).modNat = q := congrArg Prod.snd h
  unfold joined
  simp only [h1, h2]

/-- A joined Pauli acts on every block on its own. -/
theorem pauliAct_joined (f : Fin n → BVec m) (W : Fin n → Amp m) :
    pauliAct (ofVec (joined f)) (blockState W) = blockState fun i => pauliAct (ofVec (f i)) (W i) := by
  funext c
  rw [pauliAct_apply]
  unfold blockState
  simp only [pauliAct_apply]
  rw [Finset.prod_mul_distrib, ← sgn_sum]
  congr 1
  · congr 1
    rw [dotp_blocks]
    apply Finset.sum_congr rfl
    intro i _
    congr 1
    · funext q; exact joined_snd f i q
    · funext q; exact congrArg (c _ + ·) (joined_fst f i q)
  · apply Finset.prod_congr rfl
    intro i _
    congr 1
    funext q
    exact congrArg (c _ + ·) (joined_fst f i q)

theorem blockState_smul (a : Fin n → ℂ) (W : Fin n → Amp m) :
    (blockState fun i => a i • W i) = (∏ i, a i) • blockState W := by
  funext c
  unfold blockState
  simp only [Pi.smul_apply, smul_eq_mul]
  rw [Finset.prod_mul_distrib]

/-- Bit strings by blocks. -/
def blocksEquiv (n m : ℕ) : (Fin (n * m) → ZMod 2) ≃ (Fin n → Fin m → ZMod 2) :=
  (Equiv.arrowCongr finProdFinEquiv.symm (Equiv.refl _)).trans (Equiv.curry _ _ _)

theorem blocksEquiv_apply (c : Fin (n * m) → ZMod 2) (i : Fin n) (q : Fin m) :
    blocksEquiv n m c i q = c (finProdFinEquiv (i, q)) := rfl

theorem braket_blockState (W W' : Fin n → Amp m) : braket (blockState W) (blockState W') = ∏ i, braket (W i) (W' i) := by
  unfold braket
  rw [Finset.prod_univ_sum, Fintype.piFinset_univ, ← (blocksEquiv n m).sum_comp]
  apply Finset.sum_congr rfl
  intro c _
  unfold blockState
  rw [map_prod, ← Finset.prod_mul_distrib]
  rfl

theorem blockEncode_add (w : ZMod 2 → Amp m) (φ φ' : Amp n) : blockEncode w (φ + φ') = blockEncode w φ + blockEncode w φ' := by
  unfold blockEncode
  simp only [Pi.add_apply, add_smul, Finset.sum_add_distrib]

theorem blockEncode_smul (w : ZMod 2 → Amp m) (a : ℂ) (φ : Amp n) : blockEncode w (a • φ) = a • blockEncode w φ := by
  unfold blockEncode
  simp only [Pi.smul_apply, smul_eq_mul, mul_smul, Finset.smul_sum]

theorem pauliAct_sum' {ι : Type} (t : Finset ι) (p : Pauli n) (f : ι → Amp n) :
    pauliAct p (∑ i ∈ t, f i) = ∑ i ∈ t, pauliAct p (f i) := by
  unfold pauliAct
  exact map_sum (Matrix.mulVecLin (pauliMatrix ℂ p)) f t

/-- An operator of one block that fixes both states of the block fixes the encoded state. -/
theorem pauliAct_inBlock (w : ZMod 2 → Amp m) (v : BVec m) (hv : ∀ t, pauliAct (ofVec v) (w t) = w t) (b : Fin n) (φ : Amp n) :
    pauliAct (ofVec (inBlock b v)) (blockEncode w φ) = blockEncode w φ := by
  unfold blockEncode inBlock
  rw [pauliAct_sum']
  apply Finset.sum_congr rfl
  intro s _
  rw [pauliAct_smul, pauliAct_joined]
  congr 2
  funext i
  by_cases h : i = b
  · rw [if_pos h, hv]
  · rw [if_neg h]
    exact pauliAct_one _

/-- The outer Pauli with its letters replaced acts on the encoded state as the outer Pauli acts on the state. -/
theorem pauliAct_substituted (w : ZMod 2 → Amp m) (X Z : BVec m) (hX0 : X.2 = 0)
    (hX : ∀ t, pauliAct (ofVec X) (w t) = w (t + 1)) (hZ : ∀ t, pauliAct (ofVec Z) (w t) = (sgn t : ℂ) • w t)
    (u : BVec n) (φ : Amp n) :
    pauliAct (ofVec (substituted (l := 1) (fun b _ => u.1 b) (fun b _ => u.2 b) (fun _ => X) (fun _ => Z))) (blockEncode w φ) =
      blockEncode w (pauliAct (ofVec u) φ) := by
  have key : ∀ x z t : ZMod 2, pauliAct (ofVec (x • X + z • Z)) (w t) = (sgn (z * t) : ℂ) • w (t + x) := by
    intro x z t
    have h1 := pauliAct_comp (ofVec (x • X)) (ofVec (z • Z)) (w t)
    have h2 : (ofVec (x • X)).z = 0 := by
      show (x • X).2 = 0
      rw [Prod.smul_snd, hX0, smul_zero]
    rw [h2, show dotp (0 : Fin m → ZMod 2) (ofVec (z • Z)).x = 0 by simp [dotp], sgn_zero, one_smul] at h1
    rw [show ofVec (x • X + z • Z) = (ofVec (x • X)).add (ofVec (z • Z)) from rfl, ← h1]
    have hz : pauliAct (ofVec (z • Z)) (w t) = (sgn (z * t) : ℂ) • w t := by
      rcases zmod2_cases z with rfl | rfl
      · rw [zero_smul, zero_mul, sgn_zero, one_smul]; exact pauliAct_one _
      · rw [one_smul, one_mul, hZ]
    rw [hz, pauliAct_smul]
    congr 1
    rcases zmod2_cases x with rfl | rfl
    · rw [zero_smul, add_zero]; exact pauliAct_one _
    · rw [one_smul, hX]
  unfold blockEncode substituted
  rw [pauliAct_sum']
  simp only [pauliAct_smul, pauliAct_joined, Fin.sum_univ_one, key, blockState_smul]
  rw [← Equiv.sum_comp (Equiv.addRight u.1)]
  apply Finset.sum_congr rfl
  intro b _
  rw [pauliAct_apply, smul_smul, mul_comm (φ _), ← sgn_sum]
  have hb : ∀ i, (b + u.1) i + u.1 i = b i := by
    intro i
    rw [Pi.add_apply, add_assoc, add_self_z, add_zero]
  simp only [Equiv.coe_addRight, hb]
  rfl

/-- Encoding every qubit with orthonormal states keeps inner products. -/
theorem braket_blockEncode (w : ZMod 2 → Amp m) (hw : ∀ s t, braket (w s) (w t) = if s = t then 1 else 0) (φ φ' : Amp n) :
    braket (blockEncode w φ) (blockEncode w φ') = braket φ φ' := by
  have h : ∀ a b : Fin n → ZMod 2, braket (blockState fun i => w (a i)) (blockState fun i => w (b i)) =
      if a = b then 1 else 0 := by
    intro a b
    rw [braket_blockState]
    by_cases hab : a = b
    · rw [if_pos hab, hab]
      exact Finset.prod_eq_one fun i _ => by rw [hw, if_pos rfl]
    · rw [if_neg hab]
      obtain ⟨i, hi⟩ := Function.ne_iff.mp hab
      exact Finset.prod_eq_zero (Finset.mem_univ i) (by rw [hw, if_neg hi])
  have e : ∀ (f g : (Fin n → ZMod 2) → Amp (n * m)) (α β : (Fin n → ZMod 2) → ℂ),
      braket (∑ a, α a • f a) (∑ b, β b • g b) = ∑ a, ∑ b, (starRingEnd ℂ) (α a) * β b * braket (f a) (g b) := by
    intro f g α β
    unfold braket
    simp only [Finset.sum_apply, Pi.smul_apply, smul_eq_mul, map_sum, map_mul, Finset.sum_mul, Finset.mul_sum]
    rw [Finset.sum_comm]
    conv_rhs => rw [Finset.sum_comm]
    apply Finset.sum_congr rfl; intro a _
    rw [Finset.sum_comm]
    apply Finset.sum_congr rfl; intro b _
    apply Finset.sum_congr rfl; intro c _
    ring
  unfold blockEncode
  rw [e]
  simp only [h, mul_ite, mul_one, mul_zero, Finset.sum_ite_eq, Finset.mem_univ, if_true]
  rfl

end PyQ
