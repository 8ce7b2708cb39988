import Verif.Lemmas.FixedSpace
import Verif.Lemmas.Spectrum
import Verif.Spec.Channel
import Verif.Spec.CodeInfo

/-! # The output and the entropy exchange matrix of Pauli noise on a stabilizer code -/

namespace PyQ

open Spec Module Matrix

variable {n r M : ℕ}

/-- An encoder onto the states fixed by the generators `g`. -/
structure CodeEnc (g : Fin r → Pauli n) (V : Matrix (Fin (2 ^ n)) (Fin M) ℂ) : Prop where
  iso : Vᴴ * V = 1
  fixed : ∀ i, pauliN (g i) * V = V
  all : ∀ x : Fin (2 ^ n) → ℂ, (∀ i, pauliN (g i) *ᵥ x = x) → ∃ y, x = V *ᵥ y
  even : ∀ i, parityY (g i) = 0

theorem pauliN_mul (p q : Pauli n) : pauliN p * pauliN q = (sgn (dotp p.z q.x) : ℂ) • pauliN (p.add q) := by
  unfold pauliN
  rw [submatrix_mul_equiv, pauliMatrix_mul]
  rfl

theorem pauliN_unitary' (p : Pauli n) : pauliN p * (pauliN p)ᴴ = 1 := mul_eq_one_comm.mp (pauliN_unitary p)

theorem pauliN_one : pauliN (⟨0, 0⟩ : Pauli n) = 1 := by
  unfold pauliN
  rw [pauliMatrix_zero, submatrix_one_equiv]

theorem pauliN_adjoint (p : Pauli n) : (pauliN p)ᴴ = (sgn (dotp p.z p.x) : ℂ) • pauliN p := by
  have h : pauliN p * pauliN p = (sgn (dotp p.z p.x) : ℂ) • 1 := by
    rw [pauliN_mul, show p.add p = ⟨0, 0⟩ by simp [Pauli.add, add_self_f], pauliN_one]
  have hs : (sgn (dotp p.z p.x) : ℂ) * sgn (dotp p.z p.x) = 1 := by
    rcases zmod2_cases (dotp p.z p.x) with h | h <;> simp [h]
  calc (pauliN p)ᴴ = (pauliN p)ᴴ * ((sgn (dotp p.z p.x) : ℂ) • (pauliN p * pauliN p)) := by
        rw [h, smul_smul, hs, one_smul, Matrix.mul_one]
    _ = _ := by rw [Matrix.mul_smul, ← Matrix.mul_assoc, pauliN_unitary, Matrix.one_mul]

theorem sgn_mul_self (a : ZMod 2) : (sgn a : ℂ) * sgn a = 1 := by
  rcases zmod2_cases a with h | h <;> simp [h]

theorem sgn_normSq (a : ZMod 2) : Complex.normSq (sgn a : ℂ) = 1 := by
  rcases zmod2_cases a with h | h <;> simp [h]

/-- The product of one operator and the adjoint of another is their sum up to a sign. -/
theorem pauliN_adjoint_mul (p q : Pauli n) : ∃ u : ZMod 2, (pauliN p)ᴴ * pauliN q = (sgn u : ℂ) • pauliN (p.add q) := by
  refine ⟨dotp p.z p.x + dotp p.z q.x, ?_⟩
  rw [pauliN_adjoint, Matrix.smul_mul, pauliN_mul, smul_smul, sgn_add]

section
variable {g : Fin r → Pauli n} {V : Matrix (Fin (2 ^ n)) (Fin M) ℂ}

/-- An operator that anticommutes with a generator leaves the code. -/
theorem CodeEnc.anti (h : CodeEnc g V) {q : Pauli n} {i : Fin r} (hi : symp (g i) q ≠ 0) : Vᴴ * (pauliN q * V) = 0 := by
  have h1 : symp (g i) q = 1 := (zmod2_cases _).resolve_left hi
  have hc : pauliN (g i) * pauliN q = -(pauliN q * pauliN (g i)) := by
    rw [pauliN_comm, h1, sgn_one, neg_one_smul]
  have h2 : Vᴴ * (pauliN q * V) = -(Vᴴ * (pauliN q * V)) := by
    calc Vᴴ * (pauliN q * V) = (pauliN (g i) * V)ᴴ * (pauliN q * V) := by rw [h.fixed]
      _ = Vᴴ * ((pauliN (g i) * pauliN q) * V) := by
        rw [conjTranspose_mul, (pauliN_hermitian _ (h.even i)).eq]
        simp only [Matrix.mul_assoc]
      _ = -(Vᴴ * (pauliN q * (pauliN (g i) * V))) := by
        rw [hc, Matrix.neg_mul, Matrix.mul_neg, Matrix.mul_assoc]
      _ = _ := by rw [h.fixed]
  ext x y
  exact self_eq_neg.mp (congrFun (congrFun h2 x) y)

/-- An operator that commutes with the generators maps the code to itself. -/
theorem CodeEnc.inside (h : CodeEnc g V) {q : Pauli n} (hq : ∀ i, symp (g i) q = 0) :
    pauliN q * V = V * (Vᴴ * (pauliN q * V)) ∧ (Vᴴ * (pauliN q * V))ᴴ * (Vᴴ * (pauliN q * V)) = 1 := by
  have hcol : ∃ U : Matrix (Fin M) (Fin M) ℂ, pauliN q * V = V * U := by
    have : ∀ j, ∃ y, (fun a => (pauliN q * V) a j) = V *ᵥ y := by
      intro j
      refine h.all _ fun i => ?_
      have h1 : pauliN (g i) * (pauliN q * V) = pauliN q * V := by
        rw [← Matrix.mul_assoc, pauliN_comm, hq i, sgn_zero, one_smul, Matrix.mul_assoc, h.fixed]
      funext a
      exact congrFun (congrFun h1 a) j
    choose y hy using this
    refine ⟨Matrix.of fun l j => y j l, ?_⟩
    ext a j
    exact congrFun (hy j) a
  obtain ⟨U, hU⟩ := hcol
  have hU' : Vᴴ * (pauliN q * V) = U := by rw [hU, ← Matrix.mul_assoc, h.iso, Matrix.one_mul]
  rw [hU']
  refine ⟨hU, ?_⟩
  have h2 : (V * U)ᴴ * (V * U) = 1 := by
    rw [← hU, conjTranspose_mul, Matrix.mul_assoc, ← Matrix.mul_assoc (pauliN q)ᴴ, pauliN_unitary, Matrix.one_mul, h.iso]
  rwa [conjTranspose_mul, Matrix.mul_assoc, ← Matrix.mul_assoc Vᴴ, h.iso, Matrix.one_mul] at h2

/-- An operator of the group acts on the code as a sign. -/
theorem CodeEnc.group (h : CodeEnc g V) {q : Pauli n} (hq : q.vec ∈ Submodule.span (ZMod 2) (Set.range fun i => (g i).vec)) :
    ∃ u : ZMod 2, pauliN q * V = (sgn u : ℂ) • V := by
  suffices H : ∀ v ∈ Submodule.span (ZMod 2) (Set.range fun i => (g i).vec), ∃ u : ZMod 2, pauliN (ofVec v) * V = (sgn u : ℂ) • V by
    obtain ⟨u, hu⟩ := H _ hq
    have e : ofVec q.vec = q := rfl
    rw [e] at hu
    exact ⟨u, hu⟩
  have e0 : ofVec (0 : BVec n) = ⟨0, 0⟩ := rfl
  intro v hv
  induction hv using Submodule.span_induction with
  | zero => exact ⟨0, by rw [sgn_zero, one_smul, e0, pauliN_one, Matrix.one_mul]⟩
  | add a b _ _ ha hb =>
    obtain ⟨u, hu⟩ := ha
    obtain ⟨w, hw⟩ := hb
    have h1 := pauliN_mul (ofVec a) (ofVec b)
    have h2 : (ofVec a).add (ofVec b) = ofVec (a + b) := rfl
    rw [h2] at h1
    refine ⟨dotp (ofVec a).z (ofVec b).x + (u + w), ?_⟩
    have h3 : (sgn (dotp (ofVec a).z (ofVec b).x) : ℂ) • (pauliN (ofVec (a + b)) * V) = (sgn (u + w) : ℂ) • V := by
      rw [← Matrix.smul_mul, ← h1, Matrix.mul_assoc, hw, Matrix.mul_smul, hu, smul_smul, ← sgn_add, add_comm]
    rw [sgn_add, ← smul_smul, ← h3, smul_smul, sgn_mul_self, one_smul]
  | smul c a _ ha =>
    rcases zmod2_cases c with h0 | h0
    · rw [h0, zero_smul]
      exact ⟨0, by rw [sgn_zero, one_smul, e0, pauliN_one, Matrix.one_mul]⟩
    · rw [h0, one_smul]; exact ha
  | mem a ha =>
    obtain ⟨i, rfl⟩ := ha
    have e1 : ofVec (g i).vec = g i := rfl
    exact ⟨0, by rw [sgn_zero, one_smul, e1, h.fixed]⟩

/-- A vector outside the span is detected by one orthogonal to the span. -/
theorem exists_witness {v : BVec n} {S : Submodule (ZMod 2) (BVec n)} (hv : v ∉ S) :
    ∃ w : BVec n, (∀ s ∈ S, sympV s w = 0) ∧ sympV v w = 1 := by
  have href : (sympB n).IsRefl := fun a b hab => by
    rw [sympB_apply] at hab ⊢
    rw [sympV_comm]; exact hab
  have h2 := LinearMap.BilinForm.orthogonal_orthogonal (sympB_nondeg (n := n)) href S
  rw [← h2, LinearMap.BilinForm.mem_orthogonal_iff] at hv
  push Not at hv
  obtain ⟨w, hw, hne⟩ := hv
  rw [LinearMap.BilinForm.mem_orthogonal_iff] at hw
  refine ⟨w, fun s hs => hw s hs, ?_⟩
  rw [sympV_comm]
  exact (zmod2_cases _).resolve_left hne

/-- The trace over the code of an operator outside the group vanishes. -/
theorem CodeEnc.trace_zero (h : CodeEnc g V) {q : Pauli n}
    (hq : q.vec ∉ Submodule.span (ZMod 2) (Set.range fun i => (g i).vec)) : trace (Vᴴ * (pauliN q * V)) = 0 := by
  by_cases hc : ∀ i, symp (g i) q = 0
  · obtain ⟨w, hw1, hw2⟩ := exists_witness hq
    have hw : ∀ i, symp (g i) (ofVec w) = 0 := by
      intro i
      rw [← sympV_vec]
      exact hw1 _ (Submodule.subset_span ⟨i, rfl⟩)
    have hqw : symp q (ofVec w) = 1 := by rw [← sympV_vec]; exact hw2
    obtain ⟨e1, -⟩ := h.inside hc
    obtain ⟨f1, f2⟩ := h.inside hw
    set A := Vᴴ * (pauliN q * V) with hA
    set U := Vᴴ * (pauliN (ofVec w) * V) with hU
    have h1 : A * U = -(U * A) := by
      have e : pauliN q * (pauliN (ofVec w) * V) = -(pauliN (ofVec w) * (pauliN q * V)) := by
        rw [← Matrix.mul_assoc, pauliN_comm, hqw, sgn_one, neg_one_smul, Matrix.neg_mul, Matrix.mul_assoc]
      clear_value A U
      rw [f1, e1, ← Matrix.mul_assoc, ← Matrix.mul_assoc, e1, f1, Matrix.mul_assoc, Matrix.mul_assoc] at e
      have := congrArg (Vᴴ * ·) e
      simpa only [Matrix.mul_neg, ← Matrix.mul_assoc, h.iso, Matrix.one_mul] using this
    have f3 : U * Uᴴ = 1 := mul_eq_one_comm.mp f2
    have h2 : trace A = -trace A := by
      calc trace A = trace (A * (U * Uᴴ)) := by rw [f3, Matrix.mul_one]
        _ = trace (-(U * A) * Uᴴ) := by rw [← Matrix.mul_assoc, h1]
        _ = -trace (U * (A * Uᴴ)) := by rw [Matrix.neg_mul, trace_neg, Matrix.mul_assoc]
        _ = -trace A := by rw [trace_mul_comm, Matrix.mul_assoc, f2, Matrix.mul_one]
    exact self_eq_neg.mp h2
  · push Not at hc
    obtain ⟨i, hi⟩ := hc
    rw [h.anti hi, Matrix.trace_zero]

end

/-- Eigenvalues of `B Bᴴ` when `Bᴴ B` is diagonal. -/
theorem gram_sum {E κ : Type} [Fintype E] [DecidableEq E] [Fintype κ] [DecidableEq κ] {A : Matrix E E ℂ} {w : E → ℝ}
    (hA : A.charpoly = ∏ i, (Polynomial.X - Polynomial.C ((w i : ℝ) : ℂ))) (B : Matrix E κ ℂ) (l : κ → ℝ) (h1 : A = B * Bᴴ)
    (h2 : Bᴴ * B = diagonal fun i => ((l i : ℝ) : ℂ)) (f : ℝ → ℝ) (hf : f 0 = 0) : ∑ i, f (w i) = ∑ i, f (l i) := by
  refine sum_eq_of_charpoly (A' := Bᴴ * B) (p := Fintype.card κ) (q := Fintype.card E) hA (by rw [h2, charpoly_diagonal]) ?_ f hf
  rw [h1]
  exact charpoly_mul_comm' B Bᴴ

/-! ### Probabilities of labels -/

section
variable {ι κ : Type} [Fintype ι] [Fintype κ] [DecidableEq κ]

/-- The probability of a label. -/
noncomputable def labelProb (q : ι → ℝ) (cl : ι → κ) (c : κ) : ℝ := ∑ i, if cl i = c then q i else 0

theorem labelProb_sum (q : ι → ℝ) (cl : ι → κ) (f : κ → ℝ) : ∑ c, labelProb q cl c * f c = ∑ i, q i * f (cl i) := by
  unfold labelProb
  simp only [Finset.sum_mul, ite_mul, zero_mul]
  rw [Finset.sum_comm]
  refine Finset.sum_congr rfl fun i _ => ?_
  rw [Finset.sum_ite_eq Finset.univ (cl i)]
  simp

theorem labelProb_nonneg {q : ι → ℝ} (hq : ∀ i, 0 ≤ q i) (cl : ι → κ) (c : κ) : 0 ≤ labelProb q cl c :=
  Finset.sum_nonneg fun i _ => by split_ifs <;> [exact hq i; exact le_rfl]

theorem labelProb_entropy (q : ι → ℝ) (cl : ι → κ) :
    ∑ c, Real.negMulLog (labelProb q cl c) = -∑ i, q i * Real.log (labelProb q cl (cl i)) := by
  rw [← labelProb_sum q cl fun c => Real.log (labelProb q cl c), ← Finset.sum_neg_distrib]
  refine Finset.sum_congr rfl fun c _ => ?_
  rw [Real.negMulLog, neg_mul]

theorem labelProb_probOf {q : ι → ℝ} {cl : ι → κ} {R : ι → ι → Prop} (h : ∀ i j, R i j ↔ cl j = cl i) (i : ι) :
    labelProb q cl (cl i) = probOf q R i := by
  unfold labelProb probOf
  refine Finset.sum_congr rfl fun j _ => ?_
  by_cases hj : cl j = cl i
  · rw [if_pos hj, if_pos ((h i j).mpr hj)]
  · rw [if_neg hj, if_neg fun h' => hj ((h i j).mp h')]

end

/-! ### The two matrices -/

section
variable {ι : Type} [Fintype ι] [DecidableEq ι] {g : Fin r → Pauli n} {V : Matrix (Fin (2 ^ n)) (Fin M) ℂ}

/-- The eigenvalues of the entropy exchange matrix are the probabilities of the classes. -/
theorem CodeEnc.exchange {κ : Type} [Fintype κ] [DecidableEq κ] (h : CodeEnc g V) (hM : 0 < M) (a : ι → ℂ) (p : ι → Pauli n)
    (cl : ι → κ) (hcl : ∀ i j, cl i = cl j ↔ (p i).vec + (p j).vec ∈ Submodule.span (ZMod 2) (Set.range fun i => (g i).vec))
    {w : ι → ℝ} (hw : (entropyExchange (fun i => a i • (pauliN (p i) * V)) ((M : ℂ)⁻¹ • 1)).charpoly =
      ∏ i, (Polynomial.X - Polynomial.C ((w i : ℝ) : ℂ))) (f : ℝ → ℝ) (hf : f 0 = 0) :
    ∑ i, f (w i) = ∑ c, f (labelProb (fun i => Complex.normSq (a i)) cl c) := by
  classical
  have hM' : (M : ℂ) ≠ 0 := by exact_mod_cast hM.ne'
  -- a representative of every class
  let rep : κ → Pauli n := fun c => if hx : ∃ i, cl i = c then p hx.choose else ⟨0, 0⟩
  have hrep : ∀ i, (p i).vec + (rep (cl i)).vec ∈ Submodule.span (ZMod 2) (Set.range fun i => (g i).vec) := by
    intro i
    have hx : ∃ j, cl j = cl i := ⟨i, rfl⟩
    simp only [rep]
    rw [dif_pos hx]
    exact (hcl _ _).mp hx.choose_spec.symm
  have hphase : ∀ i, ∃ u : ZMod 2, pauliN (p i) * V = (sgn u : ℂ) • (pauliN (rep (cl i)) * V) := by
    intro i
    obtain ⟨u, hu⟩ := pauliN_adjoint_mul (rep (cl i)) (p i)
    have hv : ((rep (cl i)).add (p i)).vec = (p i).vec + (rep (cl i)).vec := add_comm (rep (cl i)).vec (p i).vec
    obtain ⟨u', hu'⟩ := h.group (q := (rep (cl i)).add (p i)) (by rw [hv]; exact hrep i)
    refine ⟨u + u', ?_⟩
    calc pauliN (p i) * V = pauliN (rep (cl i)) * ((pauliN (rep (cl i)))ᴴ * pauliN (p i) * V) := by
          rw [← Matrix.mul_assoc, ← Matrix.mul_assoc, pauliN_unitary', Matrix.one_mul]
      _ = _ := by rw [hu, Matrix.smul_mul, hu', smul_smul, Matrix.mul_smul, sgn_add]
  choose u hu using hphase
  have htrV : trace (Vᴴ * V) = (M : ℂ) := by rw [h.iso, trace_one, Fintype.card_fin]
  refine gram_sum hw (Matrix.of fun i c => if cl i = c then a i * (sgn (u i) : ℂ) else 0) _ ?_ ?_ f hf
  · ext i j
    have hl : entropyExchange (fun i => a i • (pauliN (p i) * V)) ((M : ℂ)⁻¹ • (1 : Matrix (Fin M) (Fin M) ℂ)) i j =
        a i * star (a j) * (M : ℂ)⁻¹ * trace (Vᴴ * ((pauliN (p j))ᴴ * pauliN (p i) * V)) := by
      unfold entropyExchange
      simp only [conjTranspose_smul, Matrix.smul_mul, Matrix.mul_smul, Matrix.mul_one, trace_smul, smul_eq_mul]
      rw [trace_mul_comm, conjTranspose_mul]
      simp only [Matrix.mul_assoc]
      ring
    have hr' : ((Matrix.of fun i c => if cl i = c then a i * (sgn (u i) : ℂ) else 0) *
        (Matrix.of fun i c => if cl i = c then a i * (sgn (u i) : ℂ) else 0)ᴴ) i j =
        if cl i = cl j then a i * (sgn (u i) : ℂ) * star (a j * (sgn (u j) : ℂ)) else 0 := by
      rw [mul_apply]
      simp only [of_apply, conjTranspose_apply, ite_mul, zero_mul]
      rw [Finset.sum_ite_eq Finset.univ (cl i)]
      simp only [Finset.mem_univ, if_true]
      by_cases hij : cl i = cl j
      · rw [if_pos hij, if_pos hij.symm]
      · rw [if_neg hij, if_neg (Ne.symm hij), star_zero, mul_zero]
    rw [hl, hr']
    by_cases hij : cl i = cl j
    · rw [if_pos hij]
      have e1 : trace (Vᴴ * ((pauliN (p j))ᴴ * pauliN (p i) * V)) = sgn (u i) * star (sgn (u j) : ℂ) * M := by
        have : Vᴴ * ((pauliN (p j))ᴴ * pauliN (p i) * V) = (pauliN (p j) * V)ᴴ * (pauliN (p i) * V) := by
          rw [conjTranspose_mul]; simp only [Matrix.mul_assoc]
        rw [this, hu i, hu j, hij, conjTranspose_smul, Matrix.smul_mul, Matrix.mul_smul, smul_smul, conjTranspose_mul, Matrix.mul_assoc,
          ← Matrix.mul_assoc (pauliN (rep (cl j)))ᴴ, pauliN_unitary, Matrix.one_mul, trace_smul, htrV, smul_eq_mul]
        ring
      rw [e1, star_mul]
      field_simp
    · rw [if_neg hij]
      obtain ⟨t, ht⟩ := pauliN_adjoint_mul (p j) (p i)
      have hv : ((p j).add (p i)).vec = (p i).vec + (p j).vec := add_comm (p j).vec (p i).vec
      rw [ht, Matrix.smul_mul, Matrix.mul_smul, trace_smul, h.trace_zero (q := (p j).add (p i)) (by
        rw [hv]; exact fun hm => hij ((hcl i j).mpr hm)), smul_zero, mul_zero]
  · ext c d
    rw [mul_apply, diagonal_apply]
    simp only [of_apply, conjTranspose_apply, labelProb]
    split_ifs with hcd
    · subst hcd
      push_cast
      refine Finset.sum_congr rfl fun i _ => ?_
      split_ifs
      · have h1 : (sgn (u i) : ℂ) * star (sgn (u i) : ℂ) = 1 := by
          rcases zmod2_cases (u i) with h0 | h0 <;> simp [h0]
        rw [star_mul, Complex.normSq_eq_conj_mul_self]
        have : (starRingEnd ℂ) (a i) = star (a i) := rfl
        rw [this]
        linear_combination (star (a i) * a i) * h1
      · simp
    · refine Finset.sum_eq_zero fun i _ => ?_
      split_ifs with h1 h2
      · exact absurd (h1.symm.trans h2) hcd
      all_goals simp

/-- The eigenvalues of the output are the probabilities of the syndromes, each divided by `M` and repeated `M` times. -/
theorem CodeEnc.output (h : CodeEnc g V) (hM : 0 < M) (a : ι → ℂ) (p : ι → Pauli n)
    {w : Fin (2 ^ n) → ℝ} (hw : (applyKraus (fun i => a i • (pauliN (p i) * V)) ((M : ℂ)⁻¹ • 1)).charpoly =
      ∏ i, (Polynomial.X - Polynomial.C ((w i : ℝ) : ℂ))) (f : ℝ → ℝ) (hf : f 0 = 0) :
    ∑ i, f (w i) = ∑ c : (Fin r → ZMod 2) × Fin M,
      f (labelProb (fun i => Complex.normSq (a i)) (fun i t => symp (g t) (p i)) c.1 / M) := by
  classical
  set cl : ι → Fin r → ZMod 2 := fun i t => symp (g t) (p i) with hcl
  set P := labelProb (fun i => Complex.normSq (a i)) cl with hP
  have hP0 : ∀ c, 0 ≤ P c := labelProb_nonneg (fun i => Complex.normSq_nonneg _) cl
  have hM0 : (0 : ℝ) < M := by exact_mod_cast hM
  have hM' : (M : ℂ) ≠ 0 := by exact_mod_cast hM.ne'
  let rep : (Fin r → ZMod 2) → Pauli n := fun c => if hx : ∃ i, cl i = c then p hx.choose else ⟨0, 0⟩
  have hrep : ∀ c, P c ≠ 0 → ∀ t, symp (g t) (rep c) = c t := by
    intro c hc t
    have hx : ∃ i, cl i = c := by
      by_contra hno
      push Not at hno
      refine hc (Finset.sum_eq_zero fun i _ => if_neg (hno i))
    simp only [rep]
    rw [dif_pos hx]
    exact congrFun hx.choose_spec t
  have hrep' : ∀ i t, symp (g t) (rep (cl i)) = symp (g t) (p i) := by
    intro i t
    have hx : ∃ j, cl j = cl i := ⟨i, rfl⟩
    simp only [rep]
    rw [dif_pos hx]
    exact congrFun hx.choose_spec t
  have hadd : ∀ t (x y : Pauli n), symp (g t) (x.add y) = symp (g t) x + symp (g t) y := by
    intro t x y
    rw [← sympV_vec, ← sympV_vec, ← sympV_vec, ← sympV_add_right]
    rfl
  have hproj : ∀ i, (pauliN (p i) * V) * (pauliN (p i) * V)ᴴ = (pauliN (rep (cl i)) * V) * (pauliN (rep (cl i)) * V)ᴴ := by
    intro i
    obtain ⟨u, hu⟩ := pauliN_adjoint_mul (rep (cl i)) (p i)
    obtain ⟨e1, e2⟩ := h.inside (q := (rep (cl i)).add (p i)) (fun t => by
      rw [hadd, hrep']
      exact (by decide : ∀ x : ZMod 2, x + x = 0) _)
    set U := Vᴴ * (pauliN ((rep (cl i)).add (p i)) * V) with hU
    have e3 : U * Uᴴ = 1 := mul_eq_one_comm.mp e2
    have h1 : pauliN (p i) * V = (sgn u : ℂ) • (pauliN (rep (cl i)) * V * U) := by
      calc pauliN (p i) * V = pauliN (rep (cl i)) * ((pauliN (rep (cl i)))ᴴ * pauliN (p i) * V) := by
            rw [← Matrix.mul_assoc, ← Matrix.mul_assoc, pauliN_unitary', Matrix.one_mul]
        _ = _ := by rw [hu, Matrix.smul_mul, e1, Matrix.mul_smul, Matrix.mul_assoc (pauliN (rep (cl i))) V U]
    have h2 : star (sgn u : ℂ) = sgn u := by rcases zmod2_cases u with h0 | h0 <;> simp [h0]
    rw [h1, conjTranspose_smul, Matrix.smul_mul, Matrix.mul_smul, smul_smul, h2, sgn_mul_self, one_smul, conjTranspose_mul _ U,
      Matrix.mul_assoc _ U, ← Matrix.mul_assoc U, e3, Matrix.one_mul]
  have hsq : ∀ c, ((Real.sqrt (P c / M) : ℝ) : ℂ) * ((Real.sqrt (P c / M) : ℝ) : ℂ) = ((P c / M : ℝ) : ℂ) := by
    intro c
    rw [← Complex.ofReal_mul, Real.mul_self_sqrt (div_nonneg (hP0 c) hM0.le)]
  refine gram_sum hw (Matrix.of fun b (c : (Fin r → ZMod 2) × Fin M) =>
    ((Real.sqrt (P c.1 / M) : ℝ) : ℂ) * (pauliN (rep c.1) * V) b c.2) _ ?_ ?_ f hf
  · have h1 : applyKraus (fun i => a i • (pauliN (p i) * V)) ((M : ℂ)⁻¹ • (1 : Matrix (Fin M) (Fin M) ℂ)) =
        ∑ i, ((Complex.normSq (a i) / M : ℝ) : ℂ) • ((pauliN (rep (cl i)) * V) * (pauliN (rep (cl i)) * V)ᴴ) := by
      unfold applyKraus
      refine Finset.sum_congr rfl fun i _ => ?_
      rw [← hproj]
      simp only [conjTranspose_smul, Matrix.mul_smul, Matrix.mul_one, Matrix.smul_mul, smul_smul]
      congr 1
      rw [Complex.ofReal_div, Complex.normSq_eq_conj_mul_self]
      have : (starRingEnd ℂ) (a i) = star (a i) := rfl
      rw [this]
      push_cast
      field_simp
    rw [h1]
    ext x y
    rw [mul_apply, Fintype.sum_prod_type]
    simp only [of_apply, conjTranspose_apply]
    have h2 : ∀ c, ∑ j, ((Real.sqrt (P c / M) : ℝ) : ℂ) * (pauliN (rep c) * V) x j *
        star (((Real.sqrt (P c / M) : ℝ) : ℂ) * (pauliN (rep c) * V) y j) =
        ((P c / M : ℝ) : ℂ) * ((pauliN (rep c) * V) * (pauliN (rep c) * V)ᴴ) x y := by
      intro c
      rw [mul_apply, Finset.mul_sum]
      refine Finset.sum_congr rfl fun j _ => ?_
      have h3 : star ((Real.sqrt (P c / M) : ℝ) : ℂ) = ((Real.sqrt (P c / M) : ℝ) : ℂ) := Complex.conj_ofReal _
      rw [star_mul, h3, ← hsq c, conjTranspose_apply]
      ring
    rw [Finset.sum_congr rfl fun c _ => h2 c, Matrix.sum_apply]
    simp only [Matrix.smul_apply, smul_eq_mul]
    set F := fun c => ((pauliN (rep c) * V) * (pauliN (rep c) * V)ᴴ) x y with hF
    show ∑ i, ((Complex.normSq (a i) / M : ℝ) : ℂ) * F (cl i) = ∑ c, ((P c / M : ℝ) : ℂ) * F c
    have h4 : ∀ c, ((P c / M : ℝ) : ℂ) * F c = ∑ i, if cl i = c then ((Complex.normSq (a i) / M : ℝ) : ℂ) * F c else 0 := by
      intro c
      rw [hP]
      unfold labelProb
      rw [Finset.sum_div]
      push_cast
      rw [Finset.sum_mul]
      refine Finset.sum_congr rfl fun i _ => ?_
      split_ifs <;> simp
    rw [Finset.sum_congr rfl fun c _ => h4 c, Finset.sum_comm]
    refine Finset.sum_congr rfl fun i _ => ?_
    rw [Finset.sum_ite_eq Finset.univ (cl i)]
    simp
  · ext ⟨c, j⟩ ⟨d, l⟩
    rw [mul_apply, diagonal_apply]
    simp only [of_apply, conjTranspose_apply]
    have h1 : ∑ b, star (((Real.sqrt (P c / M) : ℝ) : ℂ) * (pauliN (rep c) * V) b j) *
        (((Real.sqrt (P d / M) : ℝ) : ℂ) * (pauliN (rep d) * V) b l) =
        ((Real.sqrt (P c / M) : ℝ) : ℂ) * ((Real.sqrt (P d / M) : ℝ) : ℂ) * (Vᴴ * ((pauliN (rep c))ᴴ * pauliN (rep d) * V)) j l := by
      have h3 : star ((Real.sqrt (P c / M) : ℝ) : ℂ) = ((Real.sqrt (P c / M) : ℝ) : ℂ) := Complex.conj_ofReal _
      have h4 : Vᴴ * ((pauliN (rep c))ᴴ * pauliN (rep d) * V) = (pauliN (rep c) * V)ᴴ * (pauliN (rep d) * V) := by
        rw [conjTranspose_mul]; simp only [Matrix.mul_assoc]
      rw [h4, mul_apply, Finset.mul_sum]
      refine Finset.sum_congr rfl fun b _ => ?_
      rw [star_mul, h3, conjTranspose_apply]
      ring
    rw [h1]
    by_cases hcd : c = d
    · subst hcd
      rw [pauliN_unitary, Matrix.one_mul, h.iso, hsq, Matrix.one_apply]
      by_cases hjl : j = l
      · rw [if_pos hjl, if_pos (by rw [hjl]), mul_one]
      · rw [if_neg hjl, if_neg (fun h' => hjl (congrArg Prod.snd h')), mul_zero]
    · rw [if_neg (fun h' => hcd (congrArg Prod.fst h'))]
      by_cases hc0 : P c = 0
      · rw [hc0]; simp
      by_cases hd0 : P d = 0
      · rw [hd0]; simp
      obtain ⟨t, ht⟩ := Function.ne_iff.mp hcd
      obtain ⟨u, hu⟩ := pauliN_adjoint_mul (rep c) (rep d)
      rw [hu, Matrix.smul_mul, Matrix.mul_smul, h.anti (i := t) (q := (rep c).add (rep d)) (by
        rw [hadd, hrep c hc0, hrep d hd0]
        exact fun h0 => ht ((by decide : ∀ x y : ZMod 2, x + y = 0 → x = y) _ _ h0))]
      simp

end

end PyQ
