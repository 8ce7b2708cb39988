import Verif.Lemmas.Param
import Mathlib.LinearAlgebra.Matrix.Notation
import Mathlib.Tactic.NormNum
import Mathlib.Tactic.FinCases

/-!
# C36, C37, C38: parameterisations of density matrices
-/

namespace PyQ

open Matrix
open scoped ComplexOrder

/-! ### `StandardBasis` -/

/-- C36.  `StandardBasis.rho_from_vec` returns a Hermitian matrix for every vector of length `n²`, and
raises `AssertionError` for any other length. -/
theorem C36_standard (vec : List ℝ) (n : ℕ) :
    (vec.length = n * n → ∃ ρ, StandardBasis.rhoFromVec vec n = .ok ρ ∧ ρ.rows = n ∧ ρ.cols = n ∧
      (ρ.mat n n).IsHermitian) ∧
    (vec.length ≠ n * n → StandardBasis.rhoFromVec vec n = .error .assertion) := by
  constructor
  · intro h
    refine ⟨⟨n, n, ((List.range n).foldl (StandardBasis.rhoRow vec n) ⟨fun _ _ => 0, 0⟩).rho⟩, ?_, rfl, rfl, ?_⟩
    · unfold StandardBasis.rhoFromVec pyAssert
      rw [if_pos h]
      rfl
    · ext i j
      rw [conjTranspose_apply, Arr.mat_apply, Arr.mat_apply]
      simp only
      rw [StandardBasis.rhoLoop vec n j i j.2 i.2, StandardBasis.rhoLoop vec n i j i.2 j.2]
      unfold StandardBasis.entry
      rcases lt_trichotomy (i : ℕ) j with hij | hij | hij
      · rw [if_neg (by omega), if_neg (by omega), if_neg (by omega), if_pos hij]
        apply Complex.ext <;> simp [pyComplex]
      · simp only [hij, if_true]
        apply Complex.ext <;> simp [pyComplex]
      · rw [if_neg (by omega), if_pos hij, if_neg (by omega), if_neg (by omega)]
        apply Complex.ext <;> simp [pyComplex]
  · intro h
    unfold StandardBasis.rhoFromVec pyAssert
    rw [if_neg h]
    rfl

theorem StandardBasis.vecFromRho_ok (rho : Arr ℂ) (n : ℕ) (h1 : rho.rows = n) (h2 : rho.cols = n) :
    ∃ v, StandardBasis.vecFromRho rho n = .ok v ∧ v.length = n ^ 2 ∧
      (∀ p q, p ≤ q → q < n → v.getD (pos n p q) 0 = (rho.get p q).re) ∧
      ∀ p q, p < q → q < n → v.getD (pos n p q + 1) 0 = (rho.get p q).im := by
  obtain ⟨k1, k2⟩ := StandardBasis.vecLoop rho n
  refine ⟨_, by unfold StandardBasis.vecFromRho pyAssert; rw [if_pos ⟨h1, h2⟩]; rfl, by simp, ?_, ?_⟩
  · intro p q hpq hq
    rw [List.getD_eq_getElem?_getD, List.getElem?_map, List.getElem?_range (pos_bound n p q hpq hq).1]
    exact k1 p q hpq hq
  · intro p q hpq hq
    rw [List.getD_eq_getElem?_getD, List.getElem?_map, List.getElem?_range ((pos_bound n p q hpq.le hq).2 hpq)]
    exact k2 p q hpq hq

/-- C37.  For `StandardBasis`: every Hermitian matrix of size `n` is recovered from its vector, and every
vector of length `n²` is recovered from its matrix. -/
theorem C37_standard (n : ℕ) :
    (∀ rho : Arr ℂ, rho.rows = n → rho.cols = n → (rho.mat n n).IsHermitian →
      ∃ v ρ, StandardBasis.vecFromRho rho n = .ok v ∧ StandardBasis.rhoFromVec v n = .ok ρ ∧
        Arr.Same ρ rho) ∧
    (∀ v : List ℝ, v.length = n * n →
      ∃ ρ, StandardBasis.rhoFromVec v n = .ok ρ ∧ StandardBasis.vecFromRho ρ n = .ok v) := by
  constructor
  · intro rho h1 h2 hH
    obtain ⟨v, hv, hl, k1, k2⟩ := StandardBasis.vecFromRho_ok rho n h1 h2
    refine ⟨v, ⟨n, n, ((List.range n).foldl (StandardBasis.rhoRow v n) ⟨fun _ _ => 0, 0⟩).rho⟩, hv, ?_, ?_⟩
    · unfold StandardBasis.rhoFromVec pyAssert
      rw [if_pos (by rw [hl, sq])]
      rfl
    · refine ⟨h1.symm, h2.symm, ?_⟩
      intro i hi j hj
      simp only at hi hj ⊢
      rw [StandardBasis.rhoLoop v n i j hi hj]
      have hsym : ∀ a b, a < n → b < n → star (rho.get b a) = rho.get a b := by
        intro a b ha hb
        exact hH.apply ⟨a, ha⟩ ⟨b, hb⟩
      unfold StandardBasis.entry
      rcases lt_trichotomy i j with hij | hij | hij
      · rw [if_neg (by omega), if_pos hij, k1 i j hij.le hj, k2 i j hij hj]
        rfl
      · subst hij
        rw [if_pos rfl, k1 i i le_rfl hi]
        have := congrArg Complex.im (hsym i i hi hi)
        simp only [Complex.star_def, Complex.conj_im] at this
        apply Complex.ext
        · rfl
        · simp only [pyComplex]; linarith
      · rw [if_neg (by omega), if_neg (by omega), k1 j i hij.le hi, k2 j i hij hi, ← hsym i j hi hj]
        rfl
  · intro v hl
    set ρ : Arr ℂ := ⟨n, n, ((List.range n).foldl (StandardBasis.rhoRow v n) ⟨fun _ _ => 0, 0⟩).rho⟩ with hρ
    refine ⟨ρ, ?_, ?_⟩
    · unfold StandardBasis.rhoFromVec pyAssert
      rw [if_pos hl]
      rfl
    · obtain ⟨w, hw, hwl, k1, k2⟩ := StandardBasis.vecFromRho_ok ρ n rfl rfl
      rw [hw]
      congr 1
      apply List.ext_getElem (by rw [hwl, hl, sq])
      intro k hk hk'
      have hk2 : k < n ^ 2 := hwl ▸ hk
      have hget : ∀ (l : List ℝ) (h : k < l.length), l[k] = l.getD k 0 := by
        intro l h
        rw [List.getD_eq_getElem?_getD, List.getElem?_eq_getElem h]
        rfl
      rw [hget w hk, hget v hk']
      obtain ⟨p, q, hpq, hq, hcase⟩ := StandardBasis.pos_surj n k hk2
      have he : ρ.get p q = StandardBasis.entry v n p q := StandardBasis.rhoLoop v n p q (by omega) hq
      rcases hcase with rfl | ⟨hlt, rfl⟩
      · rw [k1 p q hpq hq, he]
        unfold StandardBasis.entry
        rcases hpq.lt_or_eq with h | h
        · rw [if_neg (by omega), if_pos h]; rfl
        · subst h; rw [if_pos rfl]; rfl
      · rw [k2 p q hlt hq, he]
        unfold StandardBasis.entry
        rw [if_neg (by omega), if_pos hlt]
        rfl

/-- The layout documented for `StandardBasis`, at size 3: the entry (1, 2) is in positions 6 and 7. -/
example : ∃ ρ, StandardBasis.rhoFromVec [1, 2, 3, 4, 5, 6, 7, 8, 9] 3 = .ok ρ ∧ ρ.get 1 2 = ⟨7, 8⟩ ∧
    ρ.get 2 0 = ⟨4, -5⟩ := by
  refine ⟨_, rfl, ?_, ?_⟩
  · refine (StandardBasis.rhoLoop _ 3 1 2 (by decide) (by decide)).trans ?_
    simp [StandardBasis.entry, StandardBasis.pos, pyComplex]
  · refine (StandardBasis.rhoLoop _ 3 2 0 (by decide) (by decide)).trans ?_
    simp [StandardBasis.entry, StandardBasis.pos, pyComplex]

/-! ### `OverParam` -/

/-- The matrix `A` read from a vector: two numbers per entry, row by row. -/
noncomputable def Spec.overFactor (vec : List ℝ) (n r : ℕ) : Matrix (Fin n) (Fin r) ℂ :=
  fun i j => ⟨vec.getD (2 * (i * r + j)) 0, vec.getD (2 * (i * r + j) + 1) 0⟩

/-- A density matrix of rank at most `r`. -/
def Spec.DensityOfRank {n : ℕ} (ρ : Matrix (Fin n) (Fin n) ℂ) (r : ℕ) : Prop :=
  ρ.PosSemidef ∧ trace ρ = 1 ∧ ρ.rank ≤ r

theorem overFactor_ne_zero (vec : List ℝ) (n r : ℕ) (hl : vec.length = 2 * r * n) (h : ∃ x ∈ vec, x ≠ 0) :
    Spec.overFactor vec n r ≠ 0 := by
  obtain ⟨x, hx, hx0⟩ := h
  obtain ⟨k, hk, rfl⟩ := List.getElem_of_mem hx
  intro h0
  have hk' : k / 2 < r * n := by rw [hl] at hk; rw [Nat.mul_assoc] at hk; omega
  have hr : 0 < r := by
    rcases Nat.eq_zero_or_pos r with h | h
    · subst h; simp at hk'
    · exact h
  have h1 : k / 2 / r < n := by
    rw [Nat.div_lt_iff_lt_mul hr, Nat.mul_comm]; exact hk'
  have h2 := congrFun (congrFun h0 ⟨k / 2 / r, h1⟩) ⟨k / 2 % r, Nat.mod_lt _ hr⟩
  simp only [Spec.overFactor, Nat.div_add_mod' (k / 2) r, Matrix.zero_apply] at h2
  obtain ⟨h3, h4⟩ := Complex.ext_iff.mp h2
  simp only [Complex.zero_re, Complex.zero_im] at h3 h4
  have hget : vec.getD k 0 = vec[k] := by
    rw [List.getD_eq_getElem?_getD, List.getElem?_eq_getElem hk]
    rfl
  rcases Nat.mod_two_eq_zero_or_one k with h | h
  · rw [show 2 * (k / 2) = k by omega, hget] at h3
    exact hx0 h3
  · rw [show 2 * (k / 2) + 1 = k by omega, hget] at h4
    exact hx0 h4

theorem over_ok (vec : List ℝ) (n r : ℕ) (hl : vec.length = 2 * r * n) (h : Spec.overFactor vec n r ≠ 0) :
    ∃ ρ, OverParam.rhoOfRank vec n r = .ok ρ ∧ ρ.rows = n ∧ ρ.cols = n ∧
      ρ.mat n n = (trace (Spec.overFactor vec n r * (Spec.overFactor vec n r)ᴴ))⁻¹ •
        (Spec.overFactor vec n r * (Spec.overFactor vec n r)ᴴ) := by
  obtain ⟨c, c1, c2, c3⟩ := complexPairs_ok vec (n * r) (by rw [hl]; ring)
  have hm : (⟨n, r, fun i j => c.getD (i * r + j) 0⟩ : Arr ℂ).mat n r = Spec.overFactor vec n r := by
    ext i j
    rw [Arr.mat_apply]
    simp only
    rw [c3 _ (by nlinarith [i.2, j.2])]
    rfl
  obtain ⟨ρ, h1, h2, h3, h4⟩ := normalizedGram_ok ⟨n, r, fun i j => c.getD (i * r + j) 0⟩ n r rfl rfl (by
    rw [hm]; exact h)
  refine ⟨ρ, ?_, h2, h3, by rw [h4, hm]⟩
  unfold OverParam.rhoOfRank
  rw [c1]
  simp only [bind, Except.bind]
  rw [if_pos c2]
  exact h1

theorem OverParam.rhoFromVec_some (vec : List ℝ) (n r : ℕ) :
    OverParam.rhoFromVec vec n (some r) = (do
      pyAssert (r ≤ n)
      pyAssert (vec.length = 2 * r * n)
      OverParam.rhoOfRank vec n r) := rfl

theorem OverParam.rhoFromVec_none (vec : List ℝ) (n : ℕ) :
    OverParam.rhoFromVec vec n none =
      if n = 0 then .error .zeroDivision else OverParam.rhoOfRank vec n (vec.length / (2 * n)) := rfl

/-- C36.  `OverParam.rho_from_vec` returns a density matrix of rank at most `rank`, for every vector of the
right length that is not zero.  Also without `rank`. -/
theorem C36_over (vec : List ℝ) (nsize rank : ℕ) (hl : vec.length = 2 * rank * nsize)
    (hne : ∃ x ∈ vec, x ≠ 0) :
    (rank ≤ nsize → ∃ ρ, OverParam.rhoFromVec vec nsize (some rank) = .ok ρ ∧ ρ.rows = nsize ∧ ρ.cols = nsize ∧
      Spec.DensityOfRank (ρ.mat nsize nsize) rank) ∧
    ∃ ρ, OverParam.rhoFromVec vec nsize none = .ok ρ ∧ ρ.rows = nsize ∧ ρ.cols = nsize ∧
      Spec.DensityOfRank (ρ.mat nsize nsize) rank := by
  have h0 := overFactor_ne_zero vec nsize rank hl hne
  obtain ⟨ρ, h1, h2, h3, h4⟩ := over_ok vec nsize rank hl h0
  have hd : Spec.DensityOfRank (ρ.mat nsize nsize) rank := by
    rw [h4]; exact normalized_density _ h0
  have hn : nsize ≠ 0 := by
    rintro rfl
    simp at hl
    subst hl
    simp at hne
  refine ⟨fun hr => ⟨ρ, ?_, h2, h3, hd⟩, ρ, ?_, h2, h3, hd⟩
  · rw [OverParam.rhoFromVec_some, pyAssert, pyAssert]
    rw [if_pos hr, if_pos hl]
    exact h1
  · rw [OverParam.rhoFromVec_none]
    rw [if_neg hn, hl, show 2 * rank * nsize / (2 * nsize) = rank by
      rw [Nat.mul_right_comm]; exact Nat.mul_div_cancel_left _ (by omega)]
    exact h1

/-- C36, errors of `OverParam.rho_from_vec`. -/
theorem C36_over_errors (vec : List ℝ) (nsize rank : ℕ) :
    (nsize < rank ∨ vec.length ≠ 2 * rank * nsize →
      OverParam.rhoFromVec vec nsize (some rank) = .error .assertion) ∧
    OverParam.rhoFromVec vec 0 none = .error .zeroDivision ∧
    (0 < nsize → vec.length % 2 = 1 → OverParam.rhoFromVec vec nsize none = .error .index) ∧
    (0 < nsize → vec.length % 2 = 0 → vec.length % (2 * nsize) ≠ 0 →
      OverParam.rhoFromVec vec nsize none = .error .value) := by
  refine ⟨?_, rfl, ?_, ?_⟩
  · intro h
    rw [OverParam.rhoFromVec_some, pyAssert, pyAssert]
    by_cases h1 : rank ≤ nsize
    · rw [if_pos h1, if_neg (by rcases h with h | h <;> [omega; exact h])]
      rfl
    · rw [if_neg h1]
      rfl
  · intro hn hodd
    rw [OverParam.rhoFromVec_none]
    unfold OverParam.rhoOfRank
    rw [if_neg (by omega), complexPairs_error vec (vec.length / 2) (by omega)]
    rfl
  · intro hn heven hdiv
    rw [OverParam.rhoFromVec_none]
    unfold OverParam.rhoOfRank
    obtain ⟨c, c1, c2, -⟩ := complexPairs_ok vec (vec.length / 2) (by omega)
    rw [if_neg (by omega), c1]
    simp only [bind, Except.bind]
    rw [if_neg]
    rw [c2]
    intro hh
    apply hdiv
    have h1 : vec.length = 2 * nsize * (vec.length / (2 * nsize)) := by
      have : vec.length = 2 * (nsize * (vec.length / (2 * nsize))) := by omega
      rw [Nat.mul_assoc]; exact this
    have := Nat.div_add_mod vec.length (2 * nsize)
    omega

/-- C36 applies to the vector of the documentation's size. -/
example : ∃ ρ, OverParam.rhoFromVec [1, 0, 2, 0] 2 (some 1) = .ok ρ ∧ Spec.DensityOfRank (ρ.mat 2 2) 1 := by
  obtain ⟨ρ, h1, -, -, h2⟩ := (C36_over [1, 0, 2, 0] 2 1 rfl ⟨1, by simp, one_ne_zero⟩).1 (by decide)
  exact ⟨ρ, h1, h2⟩

/-- The part of the matrix that is lost when eigenvalues below `1e-5` are set to zero. -/
theorem overVec_length (eigh : Eigh) (rho : Arr ℂ) (n r : ℕ) :
    (OverParam.vecFromRho eigh rho n r).length = 2 * r * n := by
  unfold OverParam.vecFromRho
  simp only [List.length_flatMap, List.length_cons, List.length_nil]
  simp only [List.map_const', List.length_range, List.sum_replicate, smul_eq_mul]
  ring

theorem flatMap_pair_getD (f g : ℕ → ℝ) (m k : ℕ) (hk : k < m) :
    ((List.range m).flatMap fun t => [f t, g t]).getD (2 * k) 0 = f k ∧
    ((List.range m).flatMap fun t => [f t, g t]).getD (2 * k + 1) 0 = g k := by
  induction m generalizing f g k with
  | zero => omega
  | succ m ih =>
    rw [List.range_succ_eq_map, List.flatMap_cons, List.flatMap_map]
    cases k with
    | zero => exact ⟨rfl, rfl⟩
    | succ k =>
      obtain ⟨h1, h2⟩ := ih (fun t => f (t + 1)) (fun t => g (t + 1)) k (by omega)
      rw [show 2 * (k + 1) = 2 * k + 2 by ring, show 2 * k + 2 + 1 = 2 * k + 1 + 2 by ring]
      simpa only [List.cons_append, List.nil_append, List.getD_cons_succ] using ⟨h1, h2⟩

theorem overFactor_vec (eigh : Eigh) (rho : Arr ℂ) (n r : ℕ) :
    Spec.overFactor (OverParam.vecFromRho eigh rho n r) n r = (OverParam.factor eigh rho n r).mat n r := by
  ext i j
  have hk : (i : ℕ) * r + j < n * r := by nlinarith [i.2, j.2]
  have hr : 0 < r := lt_of_le_of_lt (Nat.zero_le _) j.2
  obtain ⟨h1, h2⟩ := flatMap_pair_getD
    (fun t => ((OverParam.factor eigh rho n r).get (t / r) (t % r)).re)
    (fun t => ((OverParam.factor eigh rho n r).get (t / r) (t % r)).im) (n * r) _ hk
  simp only [Spec.overFactor, OverParam.vecFromRho, h1, h2]
  have e1 : ((i : ℕ) * r + j) / r = i := by
    rw [Nat.mul_comm, Nat.mul_add_div hr, Nat.div_eq_of_lt j.2, Nat.add_zero]
  have e2 : ((i : ℕ) * r + j) % r = j := by
    rw [Nat.mul_comm, Nat.mul_add_mod, Nat.mod_eq_of_lt j.2]
  rw [e1, e2]
  rfl

/-- The first `n - r` eigenvalues of a positive semidefinite matrix of rank at most `r` are zero. -/
theorem eigs_zero {n r : ℕ} (hr : r ≤ n) (w : ℕ → ℝ) (V ρ : Matrix (Fin n) (Fin n) ℂ) (hV : Vᴴ * V = 1)
    (hmono : ∀ i j, i ≤ j → j < n → w i ≤ w j) (hw : ∀ i : Fin n, 0 ≤ w i)
    (hρ : ρ = V * diagonal (fun i : Fin n => ((w i : ℝ) : ℂ)) * Vᴴ) (hrank : ρ.rank ≤ r) :
    ∀ i < n - r, w i = 0 := by
  intro i hi
  by_contra hne
  have hV' : V * Vᴴ = 1 := mul_eq_one_comm.mp hV
  have hD : diagonal (fun i : Fin n => ((w i : ℝ) : ℂ)) = Vᴴ * ρ * V := by
    rw [hρ, Matrix.mul_assoc, Matrix.mul_assoc, Matrix.mul_assoc, hV, Matrix.mul_one, ← Matrix.mul_assoc, hV,
      Matrix.one_mul]
  have h1 : (diagonal (fun i : Fin n => ((w i : ℝ) : ℂ))).rank ≤ r := by
    rw [hD]
    exact (rank_mul_le_left _ _).trans ((rank_mul_le_right _ _).trans hrank)
  rw [rank_diagonal] at h1
  have h2 : Fintype.card {k : Fin n // i ≤ k} ≤ Fintype.card {k : Fin n // ((w k : ℝ) : ℂ) ≠ 0} := by
    apply Fintype.card_subtype_mono
    intro k hk
    have := hmono i k hk k.2
    have h0 := hw ⟨i, by omega⟩
    simp only at h0
    intro hz
    have : w k = 0 := by exact_mod_cast hz
    apply hne
    linarith
  have h3 : Fintype.card {k : Fin n // i ≤ k} = n - i := by
    rw [Fintype.card_subtype]
    have : Finset.univ.filter (fun k : Fin n => i ≤ (k : ℕ)) = Finset.Ici (⟨i, by omega⟩ : Fin n) := by
      ext k
      simp [Fin.le_def]
    rw [this, Fin.card_Ici]
  omega

theorem factor_gram {n r : ℕ} (hr : r ≤ n) (eigh : Eigh) (rho : Arr ℂ)
    (hw : ∀ i : Fin n, 0 ≤ (eigh rho).1 i) (hz : ∀ i < n - r, (eigh rho).1 i = 0) :
    (OverParam.factor eigh rho n r).mat n r * ((OverParam.factor eigh rho n r).mat n r)ᴴ =
      (eigh rho).2.mat n n * diagonal (fun i : Fin n => ((OverParam.clip ((eigh rho).1 i) : ℝ) : ℂ)) *
        ((eigh rho).2.mat n n)ᴴ := by
  have hclip : ∀ i : Fin n, 0 ≤ OverParam.clip ((eigh rho).1 i) := by
    intro i; unfold OverParam.clip; split_ifs <;> [exact le_rfl; exact hw i]
  obtain ⟨m, rfl⟩ := Nat.exists_eq_add_of_le' hr
  have hsub : m + r - r = m := by omega
  ext i j
  rw [Matrix.mul_apply, Matrix.mul_apply, Fin.sum_univ_add]
  simp only [mul_diagonal, conjTranspose_apply, Arr.mat_apply]
  have h1 : ∀ k : Fin m, OverParam.clip ((eigh rho).1 (Fin.castAdd r k)) = 0 := by
    intro k
    rw [hz _ (by rw [hsub]; exact k.2)]
    simp [OverParam.clip]
  simp only [h1, Complex.ofReal_zero, mul_zero, zero_mul, Finset.sum_const_zero, zero_add]
  apply Finset.sum_congr rfl
  intro k _
  simp only [OverParam.factor, hsub, Fin.val_natAdd, star_mul', Complex.star_def, Complex.conj_ofReal]
  have hs : ((Real.sqrt (OverParam.clip ((eigh rho).1 (m + k))) : ℝ) : ℂ) *
      (Real.sqrt (OverParam.clip ((eigh rho).1 (m + k))) : ℝ) = (OverParam.clip ((eigh rho).1 (m + k)) : ℝ) := by
    rw [← Complex.ofReal_mul, Real.mul_self_sqrt (show 0 ≤ OverParam.clip ((eigh rho).1 (m + k)) from hclip (Fin.natAdd m k))]
  rw [← hs]
  ring

/-- C37.  For `OverParam`, every eigenvalue routine and every density matrix `rho` of rank at most `rank`:
`rho_from_vec(vec_from_rho(rho))` is `(rho - R) / (1 - tr R)` where `R` is what is lost by setting eigenvalues
below `1e-5` to zero, a positive semidefinite matrix with `R ≤ 1e-5`.  It is exactly `rho` if `rho` has no
eigenvalue strictly between `0` and `1e-5`. -/
theorem C37_over (eigh : Eigh) (heigh : eigh.Correct) (rho : Arr ℂ) (nsize rank : ℕ) (h1 : rho.rows = nsize)
    (h2 : rho.cols = nsize) (hr : rank ≤ nsize) (hsize : nsize < 10 ^ 5)
    (hrho : Spec.DensityOfRank (rho.mat nsize nsize) rank) :
    ∃ (ρ : Arr ℂ) (R : Matrix (Fin nsize) (Fin nsize) ℂ) (t : ℝ),
      OverParam.rhoFromVec (OverParam.vecFromRho eigh rho nsize rank) nsize (some rank) = .ok ρ ∧
      ρ.rows = nsize ∧ ρ.cols = nsize ∧
      R.PosSemidef ∧ (((1 / 10 ^ 5 : ℝ) : ℂ) • (1 : Matrix _ _ ℂ) - R).PosSemidef ∧
      trace R = t ∧ t < 1 ∧ ρ.mat nsize nsize = ((1 - t : ℝ) : ℂ)⁻¹ • (rho.mat nsize nsize - R) ∧
      ((∀ i < nsize, (eigh rho).1 i ≤ 0 ∨ (1 : ℝ) / 10 ^ 5 ≤ (eigh rho).1 i) → Arr.Same ρ rho) := by
  obtain ⟨hpos, htr, hrank⟩ := hrho
  obtain ⟨-, -, v3, v4, v5⟩ := heigh rho nsize h1 h2 hpos.isHermitian
  set n := nsize
  set w := (eigh rho).1 with hw'
  set V := (eigh rho).2.mat n n with hV
  have v6 : V * Vᴴ = 1 := mul_eq_one_comm.mp v4
  have hA : rho.mat n n = V * diagonal (fun i : Fin n => ((w i : ℝ) : ℂ)) * Vᴴ := by
    rw [← v5, Matrix.mul_assoc, v6, Matrix.mul_one]
  have hw : ∀ i : Fin n, 0 ≤ w i := by
    have hD : diagonal (fun i : Fin n => ((w i : ℝ) : ℂ)) = Vᴴ * rho.mat n n * V := by
      rw [hA, Matrix.mul_assoc, Matrix.mul_assoc, Matrix.mul_assoc, v4, Matrix.mul_one, ← Matrix.mul_assoc, v4,
        Matrix.one_mul]
    have hP : (diagonal (fun i : Fin n => ((w i : ℝ) : ℂ))).PosSemidef := by
      rw [hD]
      exact hpos.conjTranspose_mul_mul_same V
    rw [posSemidef_diagonal_iff] at hP
    intro i
    exact_mod_cast hP i
  have hz := eigs_zero hr w V _ v4 v3 hw hA hrank
  have hg := factor_gram hr eigh rho hw hz
  rw [← hw', ← hV] at hg
  -- what is lost
  let δ : Fin n → ℝ := fun i => w i - OverParam.clip (w i)
  have hδ : ∀ i, 0 ≤ δ i ∧ δ i ≤ 1 / 10 ^ 5 := by
    intro i
    simp only [δ, OverParam.clip]
    split_ifs with h
    · rw [abs_of_nonneg (hw i)] at h
      exact ⟨by linarith [hw i], by linarith⟩
    · exact ⟨by linarith, by rw [sub_self]; norm_num⟩
  let R := V * diagonal (fun i => ((δ i : ℝ) : ℂ)) * Vᴴ
  have hsand : ∀ f : Fin n → ℝ, (∀ i, 0 ≤ f i) → (V * diagonal (fun i => (f i : ℂ)) * Vᴴ).PosSemidef := by
    intro f hf
    apply PosSemidef.mul_mul_conjTranspose_same
    rw [posSemidef_diagonal_iff]
    intro i
    exact_mod_cast hf i
  have hgR : (OverParam.factor eigh rho n rank).mat n rank * ((OverParam.factor eigh rho n rank).mat n rank)ᴴ =
      rho.mat n n - R := by
    rw [hg, hA, ← Matrix.sub_mul, ← Matrix.mul_sub, diagonal_sub]
    congr 3
    funext i
    simp only [δ]
    push_cast
    ring
  have htrV : ∀ f : Fin n → ℂ, trace (V * diagonal f * Vᴴ) = ∑ i, f i := by
    intro f
    rw [trace_mul_comm, ← Matrix.mul_assoc, v4, Matrix.one_mul, trace_diagonal]
  have htR : trace R = ((∑ i, δ i : ℝ) : ℂ) := by
    rw [htrV]; push_cast; rfl
  have hlt : ∑ i, δ i < 1 := by
    refine lt_of_le_of_lt (Finset.sum_le_sum fun i _ => (hδ i).2) ?_
    rw [Finset.sum_const, Finset.card_univ, Fintype.card_fin, nsmul_eq_mul]
    have : (n : ℝ) < 10 ^ 5 := by exact_mod_cast hsize
    linarith
  have htG : trace ((OverParam.factor eigh rho n rank).mat n rank *
      ((OverParam.factor eigh rho n rank).mat n rank)ᴴ) = ((1 - ∑ i, δ i : ℝ) : ℂ) := by
    rw [hgR, trace_sub, htr, htR]; push_cast; ring
  have hne : Spec.overFactor (OverParam.vecFromRho eigh rho n rank) n rank ≠ 0 := by
    rw [overFactor_vec]
    intro h0
    rw [h0] at htG
    simp only [Matrix.zero_mul, trace_zero] at htG
    have : (0 : ℝ) = 1 - ∑ i, δ i := by exact_mod_cast htG
    linarith
  obtain ⟨ρ, o1, o2, o3, o4⟩ := over_ok _ n rank (overVec_length eigh rho n rank) hne
  rw [overFactor_vec, htG, hgR] at o4
  refine ⟨ρ, R, ∑ i, δ i, ?_, o2, o3, hsand δ fun i => (hδ i).1, ?_, htR, hlt, o4, ?_⟩
  · rw [OverParam.rhoFromVec_some, pyAssert, pyAssert]
    rw [if_pos hr, if_pos (overVec_length eigh rho n rank)]
    exact o1
  · have h3 : (((1 / 10 ^ 5 : ℝ) : ℂ) • (1 : Matrix (Fin n) (Fin n) ℂ)) =
        V * diagonal (fun _ => ((1 / 10 ^ 5 : ℝ) : ℂ)) * Vᴴ := by
      rw [← smul_one_eq_diagonal, Matrix.mul_smul, Matrix.smul_mul, Matrix.mul_one, v6]
    rw [h3, ← Matrix.sub_mul, ← Matrix.mul_sub, diagonal_sub]
    have h4 := hsand (fun i => 1 / 10 ^ 5 - δ i) (fun i => by linarith [(hδ i).2])
    simp only [Complex.ofReal_sub] at h4
    exact h4
  · intro hgap
    have hδ0 : ∀ i, δ i = 0 := by
      intro i
      simp only [δ, OverParam.clip]
      rcases hgap i i.2 with h | h
      · have : w i = 0 := le_antisymm h (hw i)
        rw [this]; simp
      · rw [abs_of_nonneg (hw i), if_neg (not_lt.mpr h), sub_self]
    rw [Arr.same_iff_mat]
    refine ⟨o2.trans h1.symm, o3.trans h2.symm, ?_⟩
    rw [o2, o3, o4]
    have hR0 : R = 0 := by
      simp only [R, hδ0, Complex.ofReal_zero]
      rw [show (diagonal fun _ : Fin n => (0 : ℂ)) = 0 from diagonal_zero]
      simp
    rw [hR0]
    simp [hδ0]

/-- C37 applies to the maximally mixed qubit. -/
example : ∃ (eigh : Eigh) (ρ : Arr ℂ), eigh.Correct ∧ OverParam.rhoFromVec
    (OverParam.vecFromRho eigh ⟨2, 2, fun i j => if i = j then 1 / 2 else 0⟩ 2 2) 2 (some 2) = .ok ρ := by
  obtain ⟨eigh, heigh⟩ := exists_eigh
  have hm : (⟨2, 2, fun i j => if i = j then 1 / 2 else 0⟩ : Arr ℂ).mat 2 2 =
      diagonal fun _ => ((1 / 2 : ℝ) : ℂ) := by
    ext i j
    simp only [Arr.mat_apply, diagonal_apply, Fin.ext_iff]
    push_cast
    rfl
  obtain ⟨ρ, R, t, h, -⟩ := C37_over eigh heigh ⟨2, 2, fun i j => if i = j then 1 / 2 else 0⟩ 2 2 rfl rfl le_rfl
    (by norm_num) (by
      rw [hm]
      refine ⟨?_, by simp, ?_⟩
      · rw [posSemidef_diagonal_iff]
        intro i
        exact_mod_cast (by norm_num : (0 : ℝ) ≤ 1 / 2)
      · exact (rank_le_card_height _).trans (by simp))
  exact ⟨eigh, ρ, heigh, h⟩

end PyQ
