import Verif.Lemmas.DataProcessing
import Mathlib.Data.ZMod.Basic
import Mathlib.Analysis.InnerProductSpace.PiL2

/-!
# Entanglement fidelity against fidelities of states
-/

namespace PyQ

open Matrix
open scoped ComplexOrder

section Finite

variable {ι κ m : Type} [Fintype ι] [Fintype κ] [Fintype m] [DecidableEq m]

/-- Cauchy and Schwarz for complex families. -/
theorem cauchy_norm (x y : ι → ℂ) : ‖∑ i, star (x i) * y i‖ ≤ Real.sqrt (∑ i, ‖x i‖ ^ 2) * Real.sqrt (∑ i, ‖y i‖ ^ 2) := by
  refine (norm_sum_le _ _).trans ?_
  simp only [norm_mul, norm_star]
  exact Real.sum_mul_le_sqrt_mul_sqrt _ _ _

/-- The entanglement fidelity is at most the square of the fidelity: `∑ |tr (K ρ)|² ≤ (tr S)²` when `R² = ρ` and
`S² = R (∑ K ρ K†) R`. -/
theorem entFid_le (K : ι → Matrix m m ℂ) {R S : Matrix m m ℂ} (hR : R.PosSemidef) (hS : S.PosSemidef)
    (h : S * S = R * Spec.applyKraus K (R * R) * R) {F : ℝ} (hF : trace S = (F : ℂ)) :
    ∑ i, ‖trace (K i * (R * R))‖ ^ 2 ≤ F ^ 2 := by
  obtain ⟨V, w, hw, -⟩ := exists_eigen hS
  set B : ι → Matrix m m ℂ := fun i => Vᴴ * (R * K i * R) * V with hB
  set t : ι → ℂ := fun i => trace (K i * (R * R)) with ht
  have htB : ∀ i, t i = ∑ j, B i j j := by
    intro i
    have : trace (B i) = t i := by
      rw [hB, ht]
      simp only
      rw [trace_mul_comm, ← Matrix.mul_assoc, hw.right, Matrix.one_mul, trace_mul_comm (R * K i), ← Matrix.mul_assoc,
        trace_mul_comm (R * R)]
    rw [← this]
    rfl
  have hSS : Vᴴ * (S * S) * V = diagonal fun j => ((w j * w j : ℝ) : ℂ) := by
    rw [hw.eq]
    have : Vᴴ * (V * diagonal (fun i => (w i : ℂ)) * Vᴴ * (V * diagonal (fun i => (w i : ℂ)) * Vᴴ)) * V =
        (Vᴴ * V) * diagonal (fun i => (w i : ℂ)) * (Vᴴ * V) * diagonal (fun i => (w i : ℂ)) * (Vᴴ * V) := by
      simp only [Matrix.mul_assoc]
    rw [this, hw.left, Matrix.one_mul, Matrix.mul_one, Matrix.mul_one, diagonal_mul_diagonal]
    simp
  have hsum : ∑ i, B i * (B i)ᴴ = diagonal fun j => ((w j * w j : ℝ) : ℂ) := by
    rw [← hSS, h, Spec.applyKraus, Matrix.mul_sum, Matrix.sum_mul, Matrix.mul_sum, Matrix.sum_mul]
    refine Finset.sum_congr rfl fun i _ => ?_
    simp only [hB]
    have hRH := hR.isHermitian.eq
    rw [conjTranspose_mul, conjTranspose_mul, conjTranspose_mul, conjTranspose_mul, hRH, conjTranspose_conjTranspose]
    have : Vᴴ * (R * K i * R) * V * (Vᴴ * (R * ((K i)ᴴ * R) * V)) =
        Vᴴ * (R * K i * R) * (V * Vᴴ) * (R * ((K i)ᴴ * R) * V) := by simp only [Matrix.mul_assoc]
    rw [this, hw.right, Matrix.mul_one]
    simp only [Matrix.mul_assoc]
  have hrow : ∀ j, ∑ i, ‖B i j j‖ ^ 2 ≤ w j ^ 2 := by
    intro j
    have h1 := congrFun (congrFun hsum j) j
    rw [Matrix.sum_apply, diagonal_apply_eq] at h1
    have h2 : ∑ i, ∑ k, ‖B i j k‖ ^ 2 = w j * w j := by
      have h3 := congrArg Complex.re h1
      rw [Complex.re_sum, Complex.ofReal_re] at h3
      rw [← h3]
      refine Finset.sum_congr rfl fun i _ => ?_
      rw [Matrix.mul_apply, Complex.re_sum]
      refine Finset.sum_congr rfl fun k _ => ?_
      rw [conjTranspose_apply, Complex.star_def, Complex.mul_conj, Complex.ofReal_re, Complex.normSq_eq_norm_sq]
    rw [pow_two (w j), ← h2]
    refine Finset.sum_le_sum fun i _ => ?_
    exact Finset.single_le_sum (f := fun k => ‖B i j k‖ ^ 2) (fun k _ => by positivity) (Finset.mem_univ j)
  have hFw : ∑ j, w j = F := by
    have h1 : trace S = ((∑ j, w j : ℝ) : ℂ) := by
      rw [hw.eq, trace_mul_comm, ← Matrix.mul_assoc, hw.left, Matrix.one_mul, trace_diagonal, Complex.ofReal_sum]
    rw [hF] at h1
    exact_mod_cast h1.symm
  set T := ∑ i, ‖t i‖ ^ 2 with hT
  have hT0 : 0 ≤ T := by positivity
  have hTB : (T : ℂ) = ∑ j, ∑ i, star (t i) * B i j j := by
    rw [Finset.sum_comm, hT, Complex.ofReal_sum]
    refine Finset.sum_congr rfl fun i _ => ?_
    rw [← Finset.mul_sum, ← htB, Complex.star_def, mul_comm, Complex.mul_conj, Complex.normSq_eq_norm_sq]
  have hle : T ≤ Real.sqrt T * F := by
    have h1 : T = ‖(T : ℂ)‖ := by rw [Complex.norm_real, Real.norm_of_nonneg hT0]
    rw [h1, hTB]
    refine (norm_sum_le _ _).trans ?_
    rw [← hTB, ← h1, ← hFw, Finset.mul_sum]
    refine Finset.sum_le_sum fun j _ => (cauchy_norm _ _).trans ?_
    refine mul_le_mul_of_nonneg_left ?_ (Real.sqrt_nonneg _)
    rw [← Real.sqrt_sq (hw.nonneg j)]
    exact Real.sqrt_le_sqrt (hrow j)
  have hF0 : 0 ≤ F := by rw [← hFw]; exact Finset.sum_nonneg fun j _ => hw.nonneg j
  have hsq := Real.mul_self_sqrt hT0
  rcases (Real.sqrt_nonneg T).eq_or_lt with h0 | h0
  · rw [← h0] at hsq
    have : T = 0 := by linarith
    rw [this]
    positivity
  · have : Real.sqrt T ≤ F := by
      by_contra hc
      push Not at hc
      nlinarith
    nlinarith [Real.sqrt_nonneg T]

/-! ### Averages over phases -/

/-- The fourth roots of unity. -/
noncomputable def root4 (v : ZMod 4) : ℂ := Complex.I ^ v.val

theorem root4_add (u v : ZMod 4) : root4 (u + v) = root4 u * root4 v := by
  unfold root4
  rw [← pow_add, ZMod.val_add, ← Complex.I_pow_eq_pow_mod]

theorem root4_zero : root4 0 = 1 := by simp [root4]

theorem root4_neg (v : ZMod 4) : root4 (-v) = star (root4 v) := by
  have h : ∀ v : ZMod 4, root4 v * star (root4 v) = 1 := by
    intro v
    unfold root4
    rw [Complex.star_def, map_pow, Complex.conj_I, ← mul_pow]
    simp
  have h1 : root4 v * root4 (-v) = 1 := by rw [← root4_add, add_neg_cancel, root4_zero]
  have h2 : root4 v ≠ 0 := fun h0 => by rw [h0, zero_mul] at h1; exact zero_ne_one h1
  exact mul_left_cancel₀ h2 (h1.trans (h v).symm)

theorem root4_norm (v : ZMod 4) : star (root4 v) * root4 v = 1 := by
  rw [← root4_neg, ← root4_add, neg_add_cancel, root4_zero]

theorem root4_fintype_sum {σ : Type} [Fintype σ] (f : σ → ZMod 4) : root4 (∑ j, f j) = ∏ j, root4 (f j) := by
  classical
  induction (Finset.univ : Finset σ) using Finset.induction_on with
  | empty => simp [root4_zero]
  | insert a s ha ih => rw [Finset.sum_insert ha, Finset.prod_insert ha, root4_add, ih]

theorem root4_sum (u : ZMod 4) : ∑ v : ZMod 4, root4 (u * v) = if u = 0 then 4 else 0 := by
  by_cases hu : u = 0
  · subst hu
    simp [root4_zero, ZMod.card]
  · rw [if_neg hu]
    have hshift : ∀ c : ZMod 4, ∑ v, root4 (u * v) = root4 (u * c) * ∑ v, root4 (u * v) := by
      intro c
      rw [Finset.mul_sum]
      simp only [← root4_add, ← mul_add]
      exact (Equiv.sum_comp (Equiv.addLeft c) fun v => root4 (u * v)).symm
    have h1 := hshift 1
    have hne : root4 (u * 1) ≠ 1 := by
      rw [mul_one]
      unfold root4
      have hv : u.val = 1 ∨ u.val = 2 ∨ u.val = 3 :=
        (by decide : ∀ u : ZMod 4, u ≠ 0 → u.val = 1 ∨ u.val = 2 ∨ u.val = 3) u hu
      have hI : (Complex.I : ℂ) ≠ 1 := fun h => by simpa using congrArg Complex.im h
      rcases hv with hv | hv | hv <;> rw [hv]
      · rw [pow_one]; exact hI
      · rw [Complex.I_sq]; norm_num
      · rw [show (3 : ℕ) = 2 + 1 from rfl, pow_add, Complex.I_sq, pow_one]
        intro h
        have := congrArg Complex.im h
        simp at this
    have : (root4 (u * 1) - 1) * ∑ v, root4 (u * v) = 0 := by
      rw [sub_mul, one_mul, ← h1, sub_self]
    exact (mul_eq_zero.mp this).resolve_left (sub_ne_zero.mpr hne)

theorem root4_char (x : m → ZMod 4) :
    ∑ g : m → ZMod 4, root4 (∑ j, x j * g j) = if x = 0 then 4 ^ Fintype.card m else 0 := by
  simp only [root4_fintype_sum]
  rw [← Fintype.prod_sum fun (j : m) (v : ZMod 4) => root4 (x j * v)]
  simp only [root4_sum]
  by_cases hx : x = 0
  · subst hx
    simp
  · rw [if_neg hx]
    obtain ⟨j, hj⟩ := Function.ne_iff.mp hx
    exact Finset.prod_eq_zero (Finset.mem_univ j) (if_neg hj)

/-- The fourth moments of independent phases. -/
theorem phase_moment (k l a b : m) :
    ∑ g : m → ZMod 4, star (root4 (g k)) * root4 (g l) * (root4 (g a) * star (root4 (g b))) =
      4 ^ Fintype.card m * ((if k = l then if a = b then 1 else 0 else 0) + (if k = a then if l = b then 1 else 0 else 0) -
        (if k = l then if a = b then if k = a then 1 else 0 else 0 else 0)) := by
  have h1 : ∀ g : m → ZMod 4, star (root4 (g k)) * root4 (g l) * (root4 (g a) * star (root4 (g b))) =
      root4 (∑ j, (Pi.single l 1 + Pi.single a 1 - Pi.single k 1 - Pi.single b 1 : m → ZMod 4) j * g j) := by
    intro g
    have : ∑ j, (Pi.single l 1 + Pi.single a 1 - Pi.single k 1 - Pi.single b 1 : m → ZMod 4) j * g j =
        -g k + g l + (g a + -g b) := by
      simp only [Pi.sub_apply, Pi.add_apply, sub_mul, add_mul, Finset.sum_sub_distrib, Finset.sum_add_distrib,
        Pi.single_apply, ite_mul, one_mul, zero_mul, Finset.sum_ite_eq', Finset.mem_univ, if_true]
      ring
    rw [this, root4_add, root4_add, root4_add, root4_neg, root4_neg]
  simp only [h1]
  rw [root4_char]
  have h2 : (Pi.single l 1 + Pi.single a 1 - Pi.single k 1 - Pi.single b 1 : m → ZMod 4) = 0 ↔
      (k = l ∧ a = b) ∨ (k = a ∧ l = b) := by
    constructor
    · intro h
      have hl := congrFun h l
      have ha := congrFun h a
      simp only [Pi.sub_apply, Pi.add_apply, Pi.single_apply, Pi.zero_apply, if_true] at hl ha
      by_cases e1 : l = k
      · refine Or.inl ⟨e1.symm, ?_⟩
        rw [if_pos e1] at hl
        by_cases e2 : l = a
        · by_cases e3 : l = b
          · exact e2.symm.trans e3
          · rw [if_pos e2, if_neg e3] at hl
            exact absurd hl (by decide)
        · by_contra e3
          rw [if_neg (Ne.symm e2), if_neg (fun e => e2 (e1.trans e.symm)), if_neg e3] at ha
          exact absurd ha (by decide)
      · rw [if_neg e1] at hl
        have e2 : l ≠ a := by
          intro e2
          rw [if_pos e2] at hl
          by_cases e3 : l = b
          · rw [if_pos e3] at hl
            exact absurd hl (by decide)
          · rw [if_neg e3] at hl
            exact absurd hl (by decide)
        rw [if_neg e2] at hl
        have e3 : l = b := by
          by_contra e3
          rw [if_neg e3] at hl
          exact absurd hl (by decide)
        refine Or.inr ⟨?_, e3⟩
        by_contra e4
        rw [if_neg (Ne.symm e2), if_neg (Ne.symm e4), if_neg (fun e => e2 (e3.trans e.symm))] at ha
        exact absurd ha (by decide)
    · rintro (⟨rfl, rfl⟩ | ⟨rfl, rfl⟩)
      · funext j; simp
      · funext j; simp
  by_cases hx : (k = l ∧ a = b) ∨ (k = a ∧ l = b)
  · rw [if_pos (h2.mpr hx)]
    rcases hx with ⟨rfl, rfl⟩ | ⟨rfl, rfl⟩
    · by_cases e : k = a <;> simp [e]
    · by_cases e : k = l <;> simp [e]
  · rw [if_neg (fun h => hx (h2.mp h))]
    rw [not_or] at hx
    obtain ⟨n1, n2⟩ := hx
    have e1 : (if k = l then if a = b then (1 : ℂ) else 0 else 0) = 0 := by
      by_cases e : k = l
      · rw [if_pos e, if_neg fun e' => n1 ⟨e, e'⟩]
      · rw [if_neg e]
    have e2 : (if k = a then if l = b then (1 : ℂ) else 0 else 0) = 0 := by
      by_cases e : k = a
      · rw [if_pos e, if_neg fun e' => n2 ⟨e, e'⟩]
      · rw [if_neg e]
    have e3 : (if k = l then if a = b then if k = a then (1 : ℂ) else 0 else 0 else 0) = 0 := by
      by_cases e : k = l
      · rw [if_pos e, if_neg fun e' => n1 ⟨e, e'⟩]
      · rw [if_neg e]
    rw [e1, e2, e3]
    simp

/-- The mean of `|∑ c_kl z̄_k z_l|²` over independent phases. -/
theorem phase_average (c : Matrix m m ℂ) :
    ∑ g : m → ZMod 4, ‖∑ k, ∑ l, star (root4 (g k)) * root4 (g l) * c k l‖ ^ 2 =
      4 ^ Fintype.card m * (‖∑ k, c k k‖ ^ 2 + ∑ k, ∑ l, ‖c k l‖ ^ 2 - ∑ k, ‖c k k‖ ^ 2) := by
  have key : ((∑ g : m → ZMod 4, ‖∑ k, ∑ l, star (root4 (g k)) * root4 (g l) * c k l‖ ^ 2 : ℝ) : ℂ) =
      ((4 ^ Fintype.card m * (‖∑ k, c k k‖ ^ 2 + ∑ k, ∑ l, ‖c k l‖ ^ 2 - ∑ k, ‖c k k‖ ^ 2) : ℝ) : ℂ) := by
    have hn : ∀ z : ℂ, ((‖z‖ ^ 2 : ℝ) : ℂ) = z * star z := by
      intro z
      rw [Complex.star_def, Complex.mul_conj, Complex.normSq_eq_norm_sq]
    push_cast
    have hn' : ∀ z : ℂ, ((‖z‖ : ℝ) : ℂ) ^ 2 = z * star z := by
      intro z; rw [← hn]; push_cast; rfl
    simp only [hn', star_sum, Finset.sum_mul_sum]
    have e : ∀ (g : m → ZMod 4) (k l a b : m), star (root4 (g k)) * root4 (g l) * c k l *
        star (star (root4 (g a)) * root4 (g b) * c a b) =
        (c k l * star (c a b)) * (star (root4 (g k)) * root4 (g l) * (root4 (g a) * star (root4 (g b)))) := by
      intro g k l a b
      simp only [star_mul', star_star]
      ring
    simp only [e]
    have e2 : ∑ g : m → ZMod 4, ∑ k, ∑ a, ∑ l, ∑ b,
        (c k l * star (c a b)) * (star (root4 (g k)) * root4 (g l) * (root4 (g a) * star (root4 (g b)))) =
        ∑ k, ∑ a, ∑ l, ∑ b, (c k l * star (c a b)) *
          ∑ g : m → ZMod 4, (star (root4 (g k)) * root4 (g l) * (root4 (g a) * star (root4 (g b)))) := by
      rw [Finset.sum_comm]
      refine Finset.sum_congr rfl fun k _ => ?_
      rw [Finset.sum_comm]
      refine Finset.sum_congr rfl fun a _ => ?_
      rw [Finset.sum_comm]
      refine Finset.sum_congr rfl fun l _ => ?_
      rw [Finset.sum_comm]
      refine Finset.sum_congr rfl fun b _ => ?_
      rw [Finset.mul_sum]
    rw [e2]
    simp only [phase_moment]
    have e3 : ∀ k l a b : m, c k l * star (c a b) * (4 ^ Fintype.card m *
        ((if k = l then if a = b then 1 else 0 else 0) + (if k = a then if l = b then 1 else 0 else 0) -
          (if k = l then if a = b then if k = a then 1 else 0 else 0 else 0))) = 4 ^ Fintype.card m *
        ((if k = l then if a = b then c k l * star (c a b) else 0 else 0) +
          (if k = a then if l = b then c k l * star (c a b) else 0 else 0) -
          (if k = l then if a = b then if k = a then c k l * star (c a b) else 0 else 0 else 0)) := by
      intro k l a b
      split_ifs <;> ring
    simp only [e3, ← Finset.mul_sum]
    congr 1
    simp only [Finset.sum_sub_distrib, Finset.sum_add_distrib]
    congr 1
    · congr 1
      · refine Finset.sum_congr rfl fun k _ => ?_
        rw [Finset.mul_sum]
        refine Finset.sum_congr rfl fun a _ => ?_
        simp
      · refine Finset.sum_congr rfl fun k _ => ?_
        rw [Finset.sum_comm]
        refine Finset.sum_congr rfl fun l _ => ?_
        simp
    · refine Finset.sum_congr rfl fun k _ => ?_
      simp
  exact_mod_cast key

/-! ### A lower bound from the fidelity of pure states -/

theorem star_dot_mulVec_conj (V A : Matrix m m ℂ) (y : m → ℂ) :
    star (V *ᵥ y) ⬝ᵥ A *ᵥ (V *ᵥ y) = ∑ k, ∑ l, star (y k) * y l * (Vᴴ * A * V) k l := by
  rw [star_mulVec, ← dotProduct_mulVec, mulVec_mulVec, mulVec_mulVec]
  simp only [dotProduct, mulVec, Pi.star_apply, Finset.mul_sum]
  refine Finset.sum_congr rfl fun k _ => Finset.sum_congr rfl fun l _ => ?_
  ring

/-- The largest sum of products of probabilities with the shares `s k l` of a column. -/
theorem offdiag_le {p : m → ℝ} (hp : ∀ k, 0 ≤ p k) (h1 : ∑ k, p k = 1) {s : m → m → ℝ} (hs : ∀ k l, 0 ≤ s k l) {η : ℝ}
    (hη : ∀ l, ∑ k, s k l - s l l ≤ η) : ∑ k, ∑ l, p k * p l * s k l - ∑ k, p k * p k * s k k ≤ η / 2 := by
  classical
  have : Nonempty m := by
    by_contra h
    rw [not_nonempty_iff] at h
    simp at h1
  obtain ⟨x, -, hx⟩ := Finset.exists_max_image Finset.univ p ⟨Classical.arbitrary m, Finset.mem_univ _⟩
  have hη0 : 0 ≤ η := by
    refine le_trans ?_ (hη x)
    rw [sub_nonneg]
    exact Finset.single_le_sum (f := fun k => s k x) (fun k _ => hs k x) (Finset.mem_univ x)
  have hpk : ∀ k, k ≠ x → p k ≤ 1 - p x := by
    intro k hk
    have : ∑ j ∈ {k, x}, p j ≤ ∑ j, p j := Finset.sum_le_sum_of_subset_of_nonneg (Finset.subset_univ _) fun j _ _ => hp j
    rw [Finset.sum_pair hk, h1] at this
    linarith
  have hcol : ∀ l, ∑ k, p k * s k l - p l * s l l ≤ (if l = x then 1 - p x else p x) * η := by
    intro l
    have e1 : ∑ k, p k * s k l - p l * s l l = ∑ k ∈ Finset.univ.erase l, p k * s k l := by
      rw [← Finset.add_sum_erase _ _ (Finset.mem_univ l)]
      ring
    have e2 : ∑ k, s k l - s l l = ∑ k ∈ Finset.univ.erase l, s k l := by
      rw [← Finset.add_sum_erase _ _ (Finset.mem_univ l)]
      ring
    have hc0 : 0 ≤ (if l = x then 1 - p x else p x) := by
      split_ifs
      · have := Finset.single_le_sum (fun k _ => hp k) (Finset.mem_univ x)
        rw [h1] at this
        linarith
      · exact hp x
    rw [e1]
    refine le_trans ?_ (mul_le_mul_of_nonneg_left (hη l) hc0)
    rw [e2, Finset.mul_sum]
    refine Finset.sum_le_sum fun k hk => mul_le_mul_of_nonneg_right ?_ (hs k l)
    have hkl := Finset.ne_of_mem_erase hk
    by_cases hl : l = x
    · rw [if_pos hl]
      exact hpk k (hl ▸ hkl)
    · rw [if_neg hl]
      exact hx k (Finset.mem_univ k)
  have hre : ∑ k, ∑ l, p k * p l * s k l - ∑ k, p k * p k * s k k = ∑ l, p l * (∑ k, p k * s k l - p l * s l l) := by
    rw [Finset.sum_comm, ← Finset.sum_sub_distrib]
    refine Finset.sum_congr rfl fun l _ => ?_
    rw [mul_sub, Finset.mul_sum]
    congr 1
    · exact Finset.sum_congr rfl fun k _ => by ring
    · ring
  rw [hre]
  have h3 : ∑ l, p l * (∑ k, p k * s k l - p l * s l l) ≤ ∑ l, p l * ((if l = x then 1 - p x else p x) * η) :=
    Finset.sum_le_sum fun l _ => mul_le_mul_of_nonneg_left (hcol l) (hp l)
  refine h3.trans ?_
  have h4 : ∑ l, p l * ((if l = x then 1 - p x else p x) * η) = 2 * p x * (1 - p x) * η := by
    rw [← Finset.add_sum_erase _ _ (Finset.mem_univ x), if_pos rfl]
    have : ∀ l ∈ Finset.univ.erase x, p l * ((if l = x then 1 - p x else p x) * η) = p x * η * p l := by
      intro l hl
      rw [if_neg (Finset.ne_of_mem_erase hl)]
      ring
    rw [Finset.sum_congr rfl this, ← Finset.mul_sum]
    have h5 : ∑ l ∈ Finset.univ.erase x, p l = 1 - p x := by
      rw [← h1, ← Finset.add_sum_erase _ _ (Finset.mem_univ x)]
      ring
    rw [h5]
    ring
  rw [h4]
  nlinarith [sq_nonneg (2 * p x - 1), hη0]

/-- If every pure state keeps a fidelity of squared value at least `1 - η`, then the entanglement fidelity of every state is at least
`1 - 3 η / 2`. -/
theorem entFid_ge (K : ι → Matrix m m ℂ) (hK : Spec.TracePreserving K) {η : ℝ}
    (h : ∀ ψ : m → ℂ, star ψ ⬝ᵥ ψ = 1 → 1 - η ≤ ∑ i, ‖star ψ ⬝ᵥ K i *ᵥ ψ‖ ^ 2) {ρ : Matrix m m ℂ} (hρ : ρ.PosSemidef)
    (ht : trace ρ = 1) : 1 - 3 / 2 * η ≤ ∑ i, ‖trace (K i * ρ)‖ ^ 2 := by
  classical
  obtain ⟨V, p, hV, -⟩ := exists_eigen hρ
  have hp1 : ∑ k, p k = 1 := by
    have h1 : trace ρ = ((∑ j, p j : ℝ) : ℂ) := by
      rw [hV.eq, trace_mul_comm, ← Matrix.mul_assoc, hV.left, Matrix.one_mul, trace_diagonal, Complex.ofReal_sum]
    rw [ht] at h1
    exact_mod_cast h1.symm
  set a : ι → Matrix m m ℂ := fun i => Vᴴ * K i * V with ha
  have htr : ∀ i, trace (K i * ρ) = ∑ k, (p k : ℂ) * a i k k := by
    intro i
    have e : trace (K i * ρ) = trace (diagonal (fun k => (p k : ℂ)) * a i) := by
      rw [hV.eq, ha]
      simp only
      rw [trace_mul_comm (K i), Matrix.mul_assoc V, Matrix.mul_assoc, trace_mul_comm V]
      simp only [Matrix.mul_assoc]
    rw [e, trace]
    refine Finset.sum_congr rfl fun k _ => ?_
    rw [diag_apply, diagonal_mul]
  -- the columns
  have hcols : ∀ l, ∑ i, ∑ k, ‖a i k l‖ ^ 2 = 1 := by
    intro l
    have e1 : ∑ i, (a i)ᴴ * a i = 1 := by
      have e2 : ∀ i, (a i)ᴴ * a i = Vᴴ * ((K i)ᴴ * K i) * V := by
        intro i
        rw [ha]
        simp only [conjTranspose_mul, conjTranspose_conjTranspose]
        have : Vᴴ * ((K i)ᴴ * V) * (Vᴴ * K i * V) = Vᴴ * ((K i)ᴴ * (V * Vᴴ) * K i) * V := by
          simp only [Matrix.mul_assoc]
        rw [this, hV.right, Matrix.mul_one]
      simp only [e2]
      rw [← Matrix.sum_mul, ← Matrix.mul_sum]
      unfold Spec.TracePreserving at hK
      rw [hK, Matrix.mul_one, hV.left]
    have e3 := congrArg Complex.re (congrFun (congrFun e1 l) l)
    rw [Matrix.sum_apply, Complex.re_sum, Matrix.one_apply_eq, Complex.one_re] at e3
    rw [← e3]
    refine Finset.sum_congr rfl fun i _ => ?_
    rw [Matrix.mul_apply, Complex.re_sum]
    refine Finset.sum_congr rfl fun k _ => ?_
    rw [conjTranspose_apply, mul_comm, Complex.star_def, Complex.mul_conj, Complex.ofReal_re, Complex.normSq_eq_norm_sq]
  have hunit : ∀ y : m → ℂ, star y ⬝ᵥ y = 1 → star (V *ᵥ y) ⬝ᵥ (V *ᵥ y) = 1 := by
    intro y hy
    rw [star_mulVec, ← dotProduct_mulVec, mulVec_mulVec, hV.left, one_mulVec, hy]
  have hdiag : ∀ l, 1 - η ≤ ∑ i, ‖a i l l‖ ^ 2 := by
    intro l
    have e1 := h (V *ᵥ Pi.single l 1) (hunit _ (by simp))
    refine e1.trans (le_of_eq (Finset.sum_congr rfl fun i _ => ?_))
    rw [star_dot_mulVec_conj]
    congr 2
    rw [Finset.sum_eq_single l, Finset.sum_eq_single l]
    · simp [ha]
    · intro b _ hb; simp [Pi.single_apply, hb]
    · simp
    · intro b _ hb; simp [Pi.single_apply, hb]
    · simp
  -- the mean over phases
  have hmean : 1 - η ≤ ∑ i, (‖∑ k, (p k : ℂ) * a i k k‖ ^ 2 + ∑ k, ∑ l, p k * p l * ‖a i k l‖ ^ 2 -
      ∑ k, p k * p k * ‖a i k k‖ ^ 2) := by
    set c : ι → Matrix m m ℂ := fun i k l => ((Real.sqrt (p k) * Real.sqrt (p l) : ℝ) : ℂ) * a i k l with hc
    have e1 : ∀ g : m → ZMod 4, 1 - η ≤ ∑ i, ‖∑ k, ∑ l, star (root4 (g k)) * root4 (g l) * c i k l‖ ^ 2 := by
      intro g
      refine (h (V *ᵥ fun k => root4 (g k) * ((Real.sqrt (p k) : ℝ) : ℂ)) (hunit _ ?_)).trans
        (le_of_eq (Finset.sum_congr rfl fun i _ => ?_))
      · simp only [dotProduct, Pi.star_apply, star_mul', Complex.star_def, Complex.conj_ofReal]
        have : ∀ k, (starRingEnd ℂ) (root4 (g k)) * ((Real.sqrt (p k) : ℝ) : ℂ) *
            (root4 (g k) * ((Real.sqrt (p k) : ℝ) : ℂ)) = (p k : ℂ) := by
          intro k
          have h1 := root4_norm (g k)
          rw [Complex.star_def] at h1
          have h2 : ((Real.sqrt (p k) : ℝ) : ℂ) * ((Real.sqrt (p k) : ℝ) : ℂ) = (p k : ℂ) := by
            rw [← Complex.ofReal_mul, Real.mul_self_sqrt (hV.nonneg k)]
          linear_combination ((Real.sqrt (p k) : ℝ) : ℂ) * ((Real.sqrt (p k) : ℝ) : ℂ) * h1 + h2
        simp only [this]
        exact_mod_cast hp1
      · rw [star_dot_mulVec_conj]
        congr 2
        refine Finset.sum_congr rfl fun k _ => Finset.sum_congr rfl fun l _ => ?_
        simp only [hc, star_mul', Complex.star_def, Complex.conj_ofReal, ha]
        push_cast
        ring
    have e2 : (4 : ℝ) ^ Fintype.card m * (1 - η) ≤
        4 ^ Fintype.card m * ∑ i, (‖∑ k, c i k k‖ ^ 2 + ∑ k, ∑ l, ‖c i k l‖ ^ 2 - ∑ k, ‖c i k k‖ ^ 2) := by
      rw [Finset.mul_sum]
      simp only [← phase_average]
      rw [Finset.sum_comm]
      refine le_trans (le_of_eq ?_) (Finset.sum_le_sum fun g _ => e1 g)
      rw [Finset.sum_const, Finset.card_univ, Fintype.card_fun, ZMod.card, nsmul_eq_mul]
      push_cast
      ring
    have e3 := le_of_mul_le_mul_left e2 (by positivity)
    refine e3.trans (le_of_eq (Finset.sum_congr rfl fun i _ => ?_))
    have hn : ∀ k l, ‖c i k l‖ ^ 2 = p k * p l * ‖a i k l‖ ^ 2 := by
      intro k l
      simp only [hc]
      rw [norm_mul, Complex.norm_real, Real.norm_of_nonneg (by positivity), mul_pow, mul_pow, Real.sq_sqrt (hV.nonneg k),
        Real.sq_sqrt (hV.nonneg l)]
    have hd : ∀ k, c i k k = (p k : ℂ) * a i k k := by
      intro k
      simp only [hc]
      rw [Real.mul_self_sqrt (hV.nonneg k)]
    simp only [hn]
    simp only [hd]
  simp only [htr]
  have hoff := offdiag_le hV.nonneg hp1 (s := fun k l => ∑ i, ‖a i k l‖ ^ 2) (fun k l => by positivity) (η := η) (fun l => by
    rw [Finset.sum_comm, hcols l]
    have := hdiag l
    linarith)
  rw [Finset.sum_sub_distrib, Finset.sum_add_distrib] at hmean
  have s1 : ∑ k, ∑ l, p k * p l * ∑ i, ‖a i k l‖ ^ 2 = ∑ i, ∑ k, ∑ l, p k * p l * ‖a i k l‖ ^ 2 := by
    simp only [Finset.mul_sum]
    rw [Finset.sum_comm]
    conv_rhs => rw [Finset.sum_comm]
    rw [Finset.sum_comm]
    refine Finset.sum_congr rfl fun k _ => ?_
    rw [Finset.sum_comm]
  have s2 : ∑ k, p k * p k * ∑ i, ‖a i k k‖ ^ 2 = ∑ i, ∑ k, p k * p k * ‖a i k k‖ ^ 2 := by
    simp only [Finset.mul_sum]
    rw [Finset.sum_comm]
  rw [s1, s2] at hoff
  linarith

end Finite

end PyQ
