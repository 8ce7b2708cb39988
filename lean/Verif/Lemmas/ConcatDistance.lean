import Verif.Lemmas.Blocks
import Verif.Lemmas.Normalizer
import Verif.Lemmas.Concat
import Verif.Spec.Distance

/-! Weights and blocks: the distance of concatenated generators. -/

namespace PyQ

open Spec Module

variable {n m : ℕ}

/-- Block `b` of an operator. -/
def blockOf (v : BVec (n * m)) (b : Fin n) : BVec m :=
  (fun q => v.1 (finProdFinEquiv (b, q)), fun q => v.2 (finProdFinEquiv (b, q)))

theorem joined_blockOf (v : BVec (n * m)) : joined (blockOf v) = v := by
  have h : ∀ t : Fin (n * m), finProdFinEquiv (t.divNat, t.modNat) = t := fun t => finProdFinEquiv.apply_symm_apply t
  unfold joined blockOf
  refine Prod.ext (funext fun t => ?_) (funext fun t => ?_)
  · exact congrArg v.1 (h t)
  · exact congrArg v.2 (h t)

theorem weight_sum (p : Pauli n) : weight p = ∑ j, if p.x j ≠ 0 ∨ p.z j ≠ 0 then 1 else 0 := by
  unfold weight
  rw [Finset.card_filter]

theorem weight_joined (f : Fin n → BVec m) : weight (ofVec (joined f)) = ∑ b, weight (ofVec (f b)) := by
  simp only [weight_sum]
  exact sum_blocksF fun b q => if (f b).1 q ≠ 0 ∨ (f b).2 q ≠ 0 then 1 else 0

theorem sympV_inBlock_joined (b : Fin n) (w : BVec m) (f : Fin n → BVec m) :
    sympV (inBlock b w) (joined f) = sympV w (f b) := by
  unfold inBlock
  rw [sympV_joined, Finset.sum_eq_single b]
  · rw [if_pos rfl]
  · intro c _ hc
    rw [if_neg hc, sympV_zero_left]
  · intro h; exact absurd (Finset.mem_univ b) h

theorem joined_add (f g : Fin n → BVec m) : joined (fun b => f b + g b) = joined f + joined g := rfl

theorem joined_smul (c : ZMod 2) (f : Fin n → BVec m) : joined (fun b => c • f b) = c • joined f := rfl

/-- `joined` as a linear map. -/
def joinedL : (Fin n → BVec m) →ₗ[ZMod 2] BVec (n * m) where
  toFun := joined
  map_add' := joined_add
  map_smul' := joined_smul

theorem joined_eq_sum (f : Fin n → BVec m) : joined f = ∑ b, inBlock b (f b) := by
  have h : f = ∑ b, (fun b' => if b' = b then f b else 0) := by
    funext b'
    rw [Finset.sum_apply]
    simp
  conv_lhs => rw [h]
  exact map_sum joinedL _ _

/-- `inBlock b` as a linear map. -/
def inBlockL (b : Fin n) : BVec m →ₗ[ZMod 2] BVec (n * m) :=
  joinedL.comp (LinearMap.pi fun b' => if b' = b then LinearMap.id else 0)

theorem inBlockL_apply (b : Fin n) (v : BVec m) : inBlockL b v = inBlock b v := by
  show joined _ = joined _
  congr 1
  funext b'
  show (if b' = b then (LinearMap.id : BVec m →ₗ[ZMod 2] BVec m) else 0) v = _
  split_ifs <;> rfl

/-- Every letter replaced by `X` and `Z`, as a linear map of the outer operator. -/
def substL (X Z : BVec m) : BVec n →ₗ[ZMod 2] BVec (n * m) where
  toFun q := joined fun b => q.1 b • X + q.2 b • Z
  map_add' p q := by
    rw [← joined_add]
    congr 1
    funext b
    show (p.1 b + q.1 b) • X + (p.2 b + q.2 b) • Z = _
    module
  map_smul' c q := by
    rw [RingHom.id_apply, ← joined_smul]
    congr 1
    funext b
    show (c * q.1 b) • X + (c * q.2 b) • Z = _
    module

theorem substL_eq (X Z : BVec m) (q : BVec n) :
    substL X Z q = substituted (l := 1) (fun b _ => q.1 b) (fun b _ => q.2 b) (fun _ => X) (fun _ => Z) := by
  unfold substituted
  simp only [Finset.univ_unique, Finset.sum_singleton]
  rfl

/-- The distance of concatenated generators is at least the product of the distances. -/
theorem concat_distance {r r1 d1 d2 : ℕ} (g : Fin r → BVec m) (X Z : BVec m) (o : Fin r1 → BVec n) (hr : r + 1 = m)
    (hg : LinearIndependent (ZMod 2) g) (hgg : ∀ i j, sympV (g i) (g j) = 0) (hgX : ∀ i, sympV (g i) X = 0)
    (hgZ : ∀ i, sympV (g i) Z = 0) (hXZ : sympV X Z = 1) (hXX : sympV X X = 0) (hZZ : sympV Z Z = 0)
    (hd1 : ∀ q : BVec n, (∀ i, sympV (o i) q = 0) → q ∉ Submodule.span (ZMod 2) (Set.range o) → d1 ≤ weight (ofVec q))
    (hd2 : ∀ q : BVec m, (∀ i, sympV (g i) q = 0) → q ∉ Submodule.span (ZMod 2) (Set.range g) → d2 ≤ weight (ofVec q))
    (S : Submodule (ZMod 2) (BVec (n * m))) (hS1 : ∀ b i, inBlock b (g i) ∈ S) (hS2 : ∀ i, substL X Z (o i) ∈ S)
    (v : BVec (n * m)) (hv1 : ∀ b i, sympV (inBlock b (g i)) v = 0) (hv2 : ∀ i, sympV (substL X Z (o i)) v = 0)
    (hv : v ∉ S) : d1 * d2 ≤ weight (ofVec v) := by
  obtain ⟨f, rfl⟩ : ∃ f : Fin n → BVec m, joined f = v := ⟨_, joined_blockOf v⟩
  have a2 : ∀ t : ZMod 2, t + t = 0 := by decide
  have hfg : ∀ b i, sympV (f b) (g i) = 0 := by
    intro b i
    rw [sympV_comm, ← sympV_inBlock_joined b (g i) f]
    exact hv1 b i
  set q : BVec n := (fun b => sympV (f b) Z, fun b => sympV (f b) X) with hq
  have hZX : sympV Z X = 1 := by rw [sympV_comm, hXZ]
  -- each block is an operator of the inner group times logical operators
  have hmem : ∀ b, f b + (q.1 b • X + q.2 b • Z) ∈ Submodule.span (ZMod 2) (Set.range g) := by
    intro b
    refine commutant_mem (k := 1) (x := fun _ => X) (z := fun _ => Z) hr hg hgg ?_ ?_ ?_ ?_ ?_ ?_ ?_ ?_
    · intro _ j; rw [sympV_comm]; exact hgX j
    · intro _ j; rw [sympV_comm]; exact hgZ j
    · intro i j; rw [if_pos (Subsingleton.elim i j)]; exact hXZ
    · intro _ _; exact hXX
    · intro _ _; exact hZZ
    · intro i
      rw [sympV_add_left, sympV_add_left, sympV_smul_left, sympV_smul_left, hfg, sympV_comm X, sympV_comm Z, hgX, hgZ]
      simp
    · intro _
      rw [sympV_add_left, sympV_add_left, sympV_smul_left, sympV_smul_left, hXX, hZX, mul_zero, zero_add, mul_one]
      exact a2 _
    · intro _
      rw [sympV_add_left, sympV_add_left, sympV_smul_left, sympV_smul_left, hZZ, hXZ, mul_zero, add_zero, mul_one]
      exact a2 _
  have hcq : ∀ i, sympV (o i) q = 0 := by
    intro i
    have h := hv2 i
    rw [show substL X Z (o i) = joined (fun b => (o i).1 b • X + (o i).2 b • Z) from rfl, sympV_joined] at h
    rw [← h]
    unfold sympV dotp
    rw [← Finset.sum_add_distrib]
    refine Finset.sum_congr rfl fun b _ => ?_
    show (o i).1 b * sympV (f b) X + (o i).2 b * sympV (f b) Z = sympV _ _
    rw [sympV_add_left, sympV_smul_left, sympV_smul_left, sympV_comm X, sympV_comm Z]
  have hnq : q ∉ Submodule.span (ZMod 2) (Set.range o) := by
    intro hqm
    apply hv
    have h1 : substL X Z q ∈ S := by
      have : Submodule.span (ZMod 2) (Set.range o) ≤ S.comap (substL X Z) := by
        rw [Submodule.span_le]
        rintro _ ⟨i, rfl⟩
        exact hS2 i
      exact this hqm
    have h2 : joined (fun b => f b + (q.1 b • X + q.2 b • Z)) ∈ S := by
      rw [joined_eq_sum]
      refine Submodule.sum_mem _ fun b _ => ?_
      have : Submodule.span (ZMod 2) (Set.range g) ≤ S.comap (inBlockL b) := by
        rw [Submodule.span_le]
        rintro _ ⟨i, rfl⟩
        show inBlockL b (g i) ∈ S
        rw [inBlockL_apply]
        exact hS1 b i
      have h3 := this (hmem b)
      rw [Submodule.mem_comap, inBlockL_apply] at h3
      exact h3
    rw [joined_add f fun b => q.1 b • X + q.2 b • Z] at h2
    have h4 := S.sub_mem h2 h1
    rwa [show substL X Z q = joined (fun b => q.1 b • X + q.2 b • Z) from rfl, add_sub_cancel_right] at h4
  have hw := hd1 q hcq hnq
  have hblock : ∀ b, (if q.1 b ≠ 0 ∨ q.2 b ≠ 0 then 1 else 0) * d2 ≤ weight (ofVec (f b)) := by
    intro b
    split_ifs with hb
    · rw [one_mul]
      refine hd2 (f b) (fun i => by rw [sympV_comm]; exact hfg b i) fun hfm => ?_
      have hz : ∀ w : BVec m, (∀ i, sympV (g i) w = 0) → sympV (f b) w = 0 := by
        intro w hw
        have : Submodule.span (ZMod 2) (Set.range g) ≤ LinearMap.ker ((sympB m).flip w) := by
          rw [Submodule.span_le]
          rintro _ ⟨i, rfl⟩
          exact hw i
        exact this hfm
      rcases hb with hb | hb
      · exact hb (hz Z hgZ)
      · exact hb (hz X hgX)
    · rw [zero_mul]; exact Nat.zero_le _
  calc d1 * d2 ≤ weight (ofVec q) * d2 := Nat.mul_le_mul_right _ hw
    _ = ∑ b, (if q.1 b ≠ 0 ∨ q.2 b ≠ 0 then 1 else 0) * d2 := by
        rw [weight_sum, Finset.sum_mul]
        rfl
    _ ≤ ∑ b, weight (ofVec (f b)) := Finset.sum_le_sum fun b _ => hblock b
    _ = weight (ofVec (joined f)) := (weight_joined f).symm

end PyQ
