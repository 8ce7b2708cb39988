import Verif.Props.Choi
import Verif.Props.Entropy

/-!
# C34, C35: complementary channel, coherent information and fidelity of a Choi matrix
-/

namespace PyQ

open Matrix Polynomial
open scoped ComplexOrder

variable {q : QutipChecks} {C : Arr ℂ} {a b d e : ℕ} {o : ChoiObj}

/-- The vectors `vec (K k * S)` as columns. -/
def Spec.stack {l n m : ℕ} (K : Fin l → Matrix (Fin m) (Fin n) ℂ) (S : Matrix (Fin n) (Fin n) ℂ) :
    Matrix (Fin (n * m)) (Fin l) ℂ := fun i k => Spec.vec (K k * S) i

theorem Spec.stack_exchange {l n m : ℕ} (K : Fin l → Matrix (Fin m) (Fin n) ℂ) (S : Matrix (Fin n) (Fin n) ℂ)
    (hS : S.IsHermitian) :
    Spec.entropyExchange K (S * S) = ((Spec.stack K S)ᴴ * Spec.stack K S)ᵀ := by
  ext k k'
  unfold Spec.entropyExchange
  have : K k * (S * S) * (K k')ᴴ = (K k * S) * (K k' * S)ᴴ := by
    rw [conjTranspose_mul, hS.eq]
    simp only [Matrix.mul_assoc]
  rw [this, transpose_apply, Matrix.mul_apply, Spec.sum_index, Finset.sum_comm, trace]
  apply Finset.sum_congr rfl; intro x _
  rw [diag_apply, Matrix.mul_apply]
  apply Finset.sum_congr rfl; intro y _
  rw [conjTranspose_apply, conjTranspose_apply]
  simp only [Spec.stack, Spec.vec_apply]
  ring

/-- What `complementary_channel` computes from the root `S` of `rho`. -/
theorem complementary_stack {l : ℕ} (K : Fin l → Matrix (Fin (e ^ b)) (Fin (d ^ a)) ℂ) (sqrtm : Sqrtm)
    (h : ChoiObj.init q C a b d e = .ok o) (hsq : C.rows = C.cols)
    (hC : C.mat (d ^ a * e ^ b) (d ^ a * e ^ b) = Spec.choi K)
    (rho : Arr ℂ) (hr : (sqrtm rho).rows = d ^ a) (hc : (sqrtm rho).cols = d ^ a)
    (hS : ((sqrtm rho).mat (d ^ a) (d ^ a)).IsHermitian) :
    ∃ X, o.complementary sqrtm rho = .ok X ∧ X.rows = d ^ a * e ^ b ∧ X.cols = d ^ a * e ^ b ∧
      X.mat (d ^ a * e ^ b) (d ^ a * e ^ b) = Spec.stack K ((sqrtm rho).mat (d ^ a) (d ^ a)) *
        (Spec.stack K ((sqrtm rho).mat (d ^ a) (d ^ a)))ᴴ := by
  obtain ⟨rfl, hcols⟩ := choiInit_ok h
  have hcols' : C.cols = d ^ a * e ^ b := hcols.trans (Nat.mul_comm _ _)
  set s := sqrtm rho
  set T := s.transpose.kron (Arr.eye (e ^ b)) with hT
  have t1 : T.rows = d ^ a * e ^ b := by rw [← hc]; rfl
  have t2 : T.cols = d ^ a * e ^ b := by rw [← hr]; rfl
  have hd1 : T.dot C = .ok (T.mul C) := by
    unfold Arr.dot
    rw [if_pos (by rw [t2, hsq, hcols'])]
  have hd2 : (T.mul C).dot T = .ok ((T.mul C).mul T) := by
    unfold Arr.dot
    rw [if_pos (show (T.mul C).cols = T.rows from (by rw [t1, hcols'] : C.cols = T.rows))]
  refine ⟨(T.mul C).mul T, ?_, t1, t2, ?_⟩
  · unfold ChoiObj.complementary ChoiObj.outputDim
    change (do let p ← T.dot C; p.dot T) = _
    rw [hd1]
    exact hd2
  have hTm : T.mat (d ^ a * e ^ b) (d ^ a * e ^ b) =
      fun i j => s.mat (d ^ a) (d ^ a) j.divNat i.divNat * if i.modNat = j.modNat then 1 else 0 := by
    ext i j
    change s.get (j / e ^ b) (i / e ^ b) * (if (i : ℕ) % e ^ b = j % e ^ b then 1 else 0) = _
    simp only [Fin.ext_iff]
    rfl
  have hmul : ((T.mul C).mul T).mat (d ^ a * e ^ b) (d ^ a * e ^ b) =
      T.mat (d ^ a * e ^ b) (d ^ a * e ^ b) * C.mat (d ^ a * e ^ b) (d ^ a * e ^ b) *
        T.mat (d ^ a * e ^ b) (d ^ a * e ^ b) := by
    ext i j
    rw [Matrix.mul_apply]
    change ∑ k ∈ Finset.range C.cols, _ = _
    rw [hcols', Finset.sum_range]
    apply Finset.sum_congr rfl; intro k _
    rw [Matrix.mul_apply]
    change (∑ k ∈ Finset.range T.cols, _) * _ = _
    rw [t2, Finset.sum_range]
    rfl
  rw [hmul, hC, hTm]
  have hdm : ∀ (y : Fin (d ^ a)) (x : Fin (e ^ b)),
      (finProdFinEquiv (y, x)).divNat = y ∧ (finProdFinEquiv (y, x)).modNat = x := by
    intro y x
    have h := finProdFinEquiv.symm_apply_apply (y, x)
    exact ⟨congrArg Prod.fst h, congrArg Prod.snd h⟩
  set S := s.mat (d ^ a) (d ^ a)
  set G : Matrix (Fin (d ^ a * e ^ b)) (Fin (d ^ a * e ^ b)) ℂ :=
    fun i j => S j.divNat i.divNat * if i.modNat = j.modNat then 1 else 0 with hG
  have hleft : ∀ (M : Matrix (Fin (d ^ a * e ^ b)) (Fin (d ^ a * e ^ b)) ℂ) (y : Fin (d ^ a)) (x : Fin (e ^ b)) c,
      (G * M) (finProdFinEquiv (y, x)) c = ∑ z, S z y * M (finProdFinEquiv (z, x)) c := by
    intro M y x c
    rw [Matrix.mul_apply, Spec.sum_index]
    apply Finset.sum_congr rfl; intro z _
    rw [Finset.sum_eq_single x]
    · simp only [hG, (hdm _ _).1, (hdm _ _).2, if_true, mul_one]
    · intro x' _ hx'
      simp only [hG, (hdm _ _).1, (hdm _ _).2, if_neg (Ne.symm hx'), mul_zero, zero_mul]
    · simp
  have hright : ∀ (M : Matrix (Fin (d ^ a * e ^ b)) (Fin (d ^ a * e ^ b)) ℂ) (y : Fin (d ^ a)) (x : Fin (e ^ b)) c,
      (M * G) c (finProdFinEquiv (y, x)) = ∑ z, M c (finProdFinEquiv (z, x)) * S y z := by
    intro M y x c
    rw [Matrix.mul_apply, Spec.sum_index]
    apply Finset.sum_congr rfl; intro z _
    rw [Finset.sum_eq_single x]
    · simp only [hG, (hdm _ _).1, (hdm _ _).2, if_true, mul_one]
    · intro x' _ hx'
      simp only [hG, (hdm _ _).1, (hdm _ _).2, if_neg hx', mul_zero]
    · simp
  ext i j
  obtain ⟨⟨y, x⟩, rfl⟩ := finProdFinEquiv.surjective i
  obtain ⟨⟨y', x'⟩, rfl⟩ := finProdFinEquiv.surjective j
  rw [hright]
  simp only [hleft, Spec.choi_apply]
  rw [Matrix.mul_apply]
  have hherm : ∀ u v, star (S u v) = S v u := fun u v => hS.apply v u
  simp only [conjTranspose_apply, Spec.stack, Spec.vec_apply, Matrix.mul_apply, star_sum, star_mul', hherm,
    Finset.sum_mul_sum, Finset.mul_sum, Finset.sum_mul]
  conv_rhs => rw [Finset.sum_comm]
  apply Finset.sum_congr rfl; intro z' _
  conv_rhs => rw [Finset.sum_comm]
  apply Finset.sum_congr rfl; intro z _
  apply Finset.sum_congr rfl; intro k _
  ring

/-- C34.  For a channel with operators `K` and Choi matrix `C = ∑ vec K (vec K)†`, and every positive
semidefinite `rho`: `complementary_channel(rho)` and the entropy exchange matrix `tr (K_k ρ K_l†)` have the
same characteristic polynomial up to powers of `X`, that is, the same non-zero eigenvalues with
multiplicities. -/
theorem C34_spectrum {l : ℕ} (K : Fin l → Matrix (Fin (e ^ b)) (Fin (d ^ a)) ℂ) {sqrtm : Sqrtm}
    (hsqrt : sqrtm.Correct) (h : ChoiObj.init q C a b d e = .ok o) (hsq : C.rows = C.cols)
    (hC : C.mat (d ^ a * e ^ b) (d ^ a * e ^ b) = Spec.choi K)
    (rho : Arr ℂ) (hr : rho.rows = d ^ a) (hc : rho.cols = d ^ a)
    (hrho : (rho.mat (d ^ a) (d ^ a)).PosSemidef) :
    ∃ Y, o.complementary sqrtm rho = .ok Y ∧ Y.rows = d ^ a * e ^ b ∧ Y.cols = d ^ a * e ^ b ∧
      (Y.mat (d ^ a * e ^ b) (d ^ a * e ^ b)).PosSemidef ∧
      (X : ℂ[X]) ^ l * (Y.mat (d ^ a * e ^ b) (d ^ a * e ^ b)).charpoly =
        X ^ (d ^ a * e ^ b) * (Spec.entropyExchange K (rho.mat (d ^ a) (d ^ a))).charpoly := by
  obtain ⟨s1, s2, s3, s4⟩ := hsqrt rho _ hr hc hrho
  obtain ⟨Y, y1, y2, y3, y4⟩ := complementary_stack K sqrtm h hsq hC rho s1 s2 s3.isHermitian
  refine ⟨Y, y1, y2, y3, ?_, ?_⟩
  · rw [y4]; exact posSemidef_self_mul_conjTranspose _
  · rw [y4, ← s4, Spec.stack_exchange K _ s3.isHermitian, charpoly_transpose]
    have := charpoly_mul_comm' (Spec.stack K ((sqrtm rho).mat (d ^ a) (d ^ a)))
      (Spec.stack K ((sqrtm rho).mat (d ^ a) (d ^ a)))ᴴ
    simpa only [Fintype.card_fin] using this

theorem tensorPow_one_eq (A : Arr3 ℂ) (l r c : ℕ) :
    Spec.tensorPow (A.ops l r c) 1 = A.ops (l ^ 1) (r ^ 1) (c ^ 1) := by
  funext k
  ext i j
  exact tensorPow_one_apply A l r c k i j

/-- C34.  Hence the Choi object and the Kraus object of one channel return the same coherent information for
every positive semidefinite `rho`. -/
theorem C34_coherent_information {eig : Eigvalsh} (heig : eig.Correct) {sqrtm : Sqrtm} (hsqrt : sqrtm.Correct)
    {sp : Bool} {ops : Arr3 ℂ} {orth : List ℕ} {k : KrausObj}
    (h : ChoiObj.init q C a a d e = .ok o) (hsq : C.rows = C.cols)
    (hk : QChan.init sp ops a a d e orth = .ok k) (ho : sp = true ∨ orth = []) (calls : List QChan.Call)
    (hsafe : Spec.SafeUses sp (calls.map QChan.Call.uses ++ [1]))
    (hC : C.mat (d ^ a * e ^ a) (d ^ a * e ^ a) = Spec.choi (ops.ops ops.len (e ^ a) (d ^ a)))
    (rho : Arr ℂ) (hr : rho.rows = d ^ a) (hc : rho.cols = d ^ a)
    (hrho : (rho.mat (d ^ a) (d ^ a)).PosSemidef) (reg : Bool) :
    ∃ v, ChoiQ.coherentInformation eig sqrtm o rho 1 reg = .ok v ∧
      (QChan.coherentInformation eig (QChan.history k calls) rho 1 reg).1 = .ok v := by
  obtain ⟨out, W, x1, x2, x3, x4, w2, w3, w4, hv⟩ := C45_coherent_value (eig := eig) hk ho calls 1 hsafe rho
    (by rw [pow_one]; exact hr) (by rw [pow_one]; exact hc) reg
  rw [tensorPow_one_eq] at x4 w4
  rw [pow_one (d ^ a), pow_one (e ^ a), pow_one ops.len] at x4 w4
  rw [pow_one] at x2 x3 w2 w3
  obtain ⟨x, c1, c2, c3, c4⟩ := C33_choi_channel h hsq rho hr hc
  obtain ⟨Y, y1, y2, y3, y4, y5⟩ := C34_spectrum _ hsqrt h hsq hC rho hr hc hrho
  refine ⟨_, ?_, hv⟩
  have e1 : entropyOne eig entropyCut x = entropyOne eig entropyCut out := by
    refine entropy_same heig entropyCut_nonneg c2 c3 x2 x3 ?_ ?_
    · rw [c4, hC, Spec.choiChannel_choi]
      exact (Spec.applyKraus_posSemidef _ hrho).isHermitian
    · rw [c4, x4, hC, Spec.choiChannel_choi]
  have e2 : entropyOne eig entropyCut Y = entropyOne eig entropyCut W := by
    refine entropy_eq_of_charpoly heig entropyCut_nonneg y2 y3 w2 w3 y4.isHermitian ?_ (y5.trans (by rw [w4]))
    rw [w4]
    exact (Spec.exchange_posSemidef _ hrho).isHermitian
  unfold ChoiQ.coherentInformation
  rw [c1, y1]
  simp only [bind, Except.bind, pyAssert, if_true]
  rw [entropyList_one eig entropyCut x (c2.trans c3.symm), entropyList_one eig entropyCut Y (y2.trans y3.symm),
    e1, e2]
  rfl

/-- C34 applies to the dephasing channel and the maximally mixed state. -/
example : ∃ (eig : Eigvalsh) (sqrtm : Sqrtm) (o : ChoiObj) (k : KrausObj) (v : ℝ), eig.Correct ∧ sqrtm.Correct ∧
    ChoiObj.init ⟨fun _ _ _ => true, fun _ _ _ => true⟩ dephChoi 1 1 2 2 = .ok o ∧
    QChan.init true dephOps 1 1 2 2 [] = .ok k ∧
    ChoiQ.coherentInformation eig sqrtm o mixedState 1 false = .ok v ∧
    (QChan.coherentInformation eig k mixedState 1 false).1 = .ok v := by
  obtain ⟨k, hk⟩ := deph_ok true []
  obtain ⟨eig, heig⟩ := exists_eigvalsh
  obtain ⟨sqrtm, hsqrt⟩ := exists_sqrtm
  have ho : ChoiObj.init ⟨fun _ _ _ => true, fun _ _ _ => true⟩ dephChoi 1 1 2 2 = .ok ⟨dephChoi, 1, 1, 2, 2⟩ :=
    rfl
  obtain ⟨v, h1, h2⟩ := C34_coherent_information heig hsqrt ho rfl hk (Or.inl rfl) [] ⟨by simp, by simp⟩
    (Arr.ofMat_mat _) mixedState rfl rfl mixedState_density.1 false
  exact ⟨eig, sqrtm, _, k, v, heig, hsqrt, ho, hk, h1, h2⟩

/-! ### C35 -/

/-- `⟨⟨ρ| C |ρ⟩⟩ = ∑ |tr (K ρ)|²` for Hermitian `ρ`. -/
theorem fidTerm_eq {l N : ℕ} (K : Fin l → Matrix (Fin N) (Fin N) ℂ) (o : ChoiObj) (hr : o.choi.rows = N * N)
    (hc : o.choi.cols = N * N) (hC : o.choi.mat (N * N) (N * N) = Spec.choi K) (rho : Arr ℂ) (h1 : rho.rows = N)
    (h2 : rho.cols = N) (hrho : (rho.mat N N).IsHermitian) :
    o.fidTerm rho = .ok ((∑ k, ‖trace (K k * rho.mat N N)‖ ^ 2 : ℝ) : ℂ) := by
  unfold ChoiObj.fidTerm
  rw [if_pos ⟨by rw [h1, h2, hr], by rw [h1, h2, hc]⟩]
  congr 1
  have hvec : ∀ i : Fin (N * N), ChoiObj.vectorize rho i = Spec.vec (rho.mat N N) i := by
    intro i
    unfold ChoiObj.vectorize
    rw [h1]
    rfl
  have hent : ∀ r c : Fin (N * N), o.choi.get r c = ∑ k, Spec.vec (K k) r * star (Spec.vec (K k) c) := by
    intro r c
    have := congrFun (congrFun hC r) c
    rw [Arr.mat_apply] at this
    rw [this, Spec.choi, Matrix.sum_apply]
    rfl
  rw [hr, hc]
  simp only [Finset.sum_range, hvec, hent]
  have htr : ∀ k, trace (K k * rho.mat N N) = ∑ i, star (Spec.vec (rho.mat N N) i) * Spec.vec (K k) i := by
    intro k
    rw [Spec.sum_index, Finset.sum_comm, trace]
    apply Finset.sum_congr rfl; intro x _
    rw [diag_apply, Matrix.mul_apply]
    apply Finset.sum_congr rfl; intro y _
    rw [Spec.vec_apply, Spec.vec_apply, hrho.apply, mul_comm]
  push_cast
  have hsq : ∀ k, ((‖trace (K k * rho.mat N N)‖ : ℂ)) ^ 2 =
      (∑ i, star (Spec.vec (rho.mat N N) i) * Spec.vec (K k) i) *
        ∑ i, star (Spec.vec (K k) i) * Spec.vec (rho.mat N N) i := by
    intro k
    rw [← Complex.mul_conj', htr k, map_sum]
    congr 1
    apply Finset.sum_congr rfl; intro i _
    rw [map_mul, Complex.star_def, Complex.conj_conj, mul_comm]
  simp only [hsq, Finset.mul_sum, Finset.sum_mul]
  conv_rhs => rw [Finset.sum_comm]
  apply Finset.sum_congr rfl; intro r _
  conv_rhs => rw [Finset.sum_comm]
  apply Finset.sum_congr rfl; intro c _
  apply Finset.sum_congr rfl; intro k _
  ring

/-- C35.  `average_entanglement_fidelity` of a Choi matrix `∑ vec K (vec K)†` is
`∑ p_i ∑_K |tr (K ρ_i)|²`, for every ensemble of Hermitian matrices. -/
theorem C35_value {l N : ℕ} (K : Fin l → Matrix (Fin N) (Fin N) ℂ) (hN : d ^ a = N) (hN' : e ^ b = N)
    (h : ChoiObj.init q C a b d e = .ok o) (hsq : C.rows = C.cols)
    (hC : C.mat (N * N) (N * N) = Spec.choi K) (ens : List (ℝ × Arr ℂ))
    (hens : ∀ x ∈ ens, x.2.rows = N ∧ x.2.cols = N ∧ (x.2.mat N N).IsHermitian) :
    o.avgFidelity (ens.map Prod.fst) (ens.map Prod.snd) =
      .ok ((Spec.avgEntanglementFidelity K (ens.map fun x => (x.1, x.2.mat N N)) : ℝ) : ℂ) := by
  obtain ⟨rfl, hcols⟩ := choiInit_ok h
  rw [hN, hN'] at hcols
  unfold ChoiObj.avgFidelity ChoiObj.inputDim ChoiObj.outputDim
  rw [if_neg (not_not.mpr (hN.trans hN'.symm))]
  induction ens with
  | nil => simp [ChoiObj.fidLoop, Spec.avgEntanglementFidelity]
  | cons x xs ih =>
    obtain ⟨h1, h2, h3⟩ := hens x (by simp)
    have ht := fidTerm_eq K ⟨C, a, b, d, e⟩ (hsq.trans hcols) hcols hC x.2 h1 h2 h3
    simp only [List.map_cons, ChoiObj.fidLoop, Spec.avgEntanglementFidelity]
    rw [ht, ih fun y hy => hens y (by simp [hy])]
    simp only [bind, Except.bind, pure, Except.pure]
    push_cast
    rfl

/-- `∑_K |tr (K ρ)|²` is at most one. -/
theorem Spec.fidelity_le_one {l N : ℕ} (K : Fin l → Matrix (Fin N) (Fin N) ℂ) (hK : Spec.TracePreserving K)
    (ρ : Matrix (Fin N) (Fin N) ℂ) (hρ : Spec.IsDensity ρ) : ∑ k, ‖trace (K k * ρ)‖ ^ 2 ≤ 1 := by
  obtain ⟨B, hB⟩ : ∃ B : Matrix (Fin N) (Fin N) ℂ, ρ = Bᴴ * B := by
    obtain ⟨sqrtm, hs⟩ := exists_sqrtm
    obtain ⟨-, -, s3, s4⟩ := hs (Arr.ofMat ρ) N rfl rfl (by rw [Arr.ofMat_mat]; exact hρ.1)
    refine ⟨(sqrtm (Arr.ofMat ρ)).mat N N, (Arr.ofMat_mat ρ).symm.trans (s4.symm.trans ?_)⟩
    rw [s3.isHermitian.eq]
  have hnorm : ∀ M : Matrix (Fin N) (Fin N) ℂ, ((∑ i, ∑ j, ‖M i j‖ ^ 2 : ℝ) : ℂ) = trace (M * Mᴴ) := by
    intro M
    rw [trace]
    push_cast
    apply Finset.sum_congr rfl; intro i _
    rw [diag_apply, Matrix.mul_apply]
    apply Finset.sum_congr rfl; intro j _
    rw [conjTranspose_apply, ← Complex.mul_conj']
    rfl
  have hBn : ∑ i, ∑ j, ‖B i j‖ ^ 2 = 1 := by
    have := hnorm B
    rw [trace_mul_comm, ← hB, hρ.2] at this
    exact_mod_cast this
  have hterm : ∀ k, ‖trace (K k * ρ)‖ ^ 2 ≤ ∑ i, ∑ j, ‖(K k * Bᴴ) i j‖ ^ 2 := by
    intro k
    have h1 : trace (K k * ρ) = ∑ p : Fin N × Fin N, (K k * Bᴴ) p.1 p.2 * B p.2 p.1 := by
      rw [hB, ← Matrix.mul_assoc, trace, Fintype.sum_prod_type]
      rfl
    have h2 : ‖trace (K k * ρ)‖ ≤ ∑ p : Fin N × Fin N, ‖(K k * Bᴴ) p.1 p.2‖ * ‖B p.2 p.1‖ := by
      rw [h1]
      refine (norm_sum_le _ _).trans (le_of_eq ?_)
      apply Finset.sum_congr rfl; intro p _
      rw [norm_mul]
    have h3 := Finset.sum_mul_sq_le_sq_mul_sq Finset.univ (fun p : Fin N × Fin N => ‖(K k * Bᴴ) p.1 p.2‖)
      (fun p => ‖B p.2 p.1‖)
    have h4 : ∑ p : Fin N × Fin N, ‖B p.2 p.1‖ ^ 2 = 1 := by
      rw [Fintype.sum_prod_type, Finset.sum_comm]
      exact hBn
    rw [h4, mul_one, Fintype.sum_prod_type (f := fun p : Fin N × Fin N => ‖(K k * Bᴴ) p.1 p.2‖ ^ 2)] at h3
    exact (pow_le_pow_left₀ (norm_nonneg _) h2 2).trans h3
  refine (Finset.sum_le_sum fun k _ => hterm k).trans (le_of_eq ?_)
  have hsum : ((∑ k, ∑ i, ∑ j, ‖(K k * Bᴴ) i j‖ ^ 2 : ℝ) : ℂ) = 1 := by
    have := Spec.applyKraus_trace K hK ρ
    rw [hρ.2, Spec.applyKraus, trace_sum] at this
    rw [← this, Complex.ofReal_sum]
    apply Finset.sum_congr rfl; intro k _
    rw [hnorm, hB, conjTranspose_mul, conjTranspose_conjTranspose]
    simp only [Matrix.mul_assoc]
  exact_mod_cast hsum

theorem Spec.avgEntanglementFidelity_range {l N : ℕ} (K : Fin l → Matrix (Fin N) (Fin N) ℂ)
    (hK : Spec.TracePreserving K) (ens : List (ℝ × Matrix (Fin N) (Fin N) ℂ))
    (hens : ∀ x ∈ ens, 0 ≤ x.1 ∧ Spec.IsDensity x.2) :
    0 ≤ Spec.avgEntanglementFidelity K ens ∧
      Spec.avgEntanglementFidelity K ens ≤ (ens.map Prod.fst).sum := by
  induction ens with
  | nil => simp [Spec.avgEntanglementFidelity]
  | cons x xs ih =>
    obtain ⟨h1, h2⟩ := hens x (by simp)
    obtain ⟨i1, i2⟩ := ih fun y hy => hens y (by simp [hy])
    have hf := Spec.fidelity_le_one K hK x.2 h2
    have h0 : 0 ≤ ∑ k, ‖trace (K k * x.2)‖ ^ 2 := Finset.sum_nonneg fun k _ => by positivity
    obtain ⟨p, ρ⟩ := x
    simp only [Spec.avgEntanglementFidelity, List.map_cons, List.sum_cons] at *
    constructor
    · positivity
    · nlinarith

/-- C35.  For states, probabilities and a trace preserving channel the value is in `[0, 1]`. -/
theorem C35_range {l N : ℕ} (K : Fin l → Matrix (Fin N) (Fin N) ℂ) (hK : Spec.TracePreserving K)
    (hN : d ^ a = N) (hN' : e ^ b = N)
    (h : ChoiObj.init q C a b d e = .ok o) (hsq : C.rows = C.cols)
    (hC : C.mat (N * N) (N * N) = Spec.choi K) (ens : List (ℝ × Arr ℂ))
    (hens : ∀ x ∈ ens, 0 ≤ x.1 ∧ x.2.rows = N ∧ x.2.cols = N ∧ Spec.IsDensity (x.2.mat N N))
    (hsum : (ens.map Prod.fst).sum = 1) :
    ∃ v : ℝ, o.avgFidelity (ens.map Prod.fst) (ens.map Prod.snd) = .ok (v : ℂ) ∧ 0 ≤ v ∧ v ≤ 1 := by
  refine ⟨_, C35_value K hN hN' h hsq hC ens fun x hx => ⟨(hens x hx).2.1, (hens x hx).2.2.1,
    (hens x hx).2.2.2.1.isHermitian⟩, ?_⟩
  have := Spec.avgEntanglementFidelity_range K hK (ens.map fun x => (x.1, x.2.mat N N)) (by
    intro y hy
    rw [List.mem_map] at hy
    obtain ⟨x, hx, rfl⟩ := hy
    exact ⟨(hens x hx).1, (hens x hx).2.2.2⟩)
  rw [List.map_map] at this
  rw [← hsum]
  exact this

/-- C35, errors.  With different input and output dimensions the method raises `ValueError` whatever the
ensemble; with equal dimensions it succeeds on every ensemble of matrices of the right size, and raises
`IndexError` if there are fewer states than probabilities. -/
theorem C35_errors (h : ChoiObj.init q C a b d e = .ok o) (hsq : C.rows = C.cols) (probs : List ℝ)
    (states : List (Arr ℂ)) :
    (d ^ a ≠ e ^ b → o.avgFidelity probs states = .error .value) ∧
    (d ^ a = e ^ b → (∀ s ∈ states, s.rows = d ^ a ∧ s.cols = d ^ a) →
      (probs.length ≤ states.length → ∃ v, o.avgFidelity probs states = .ok v) ∧
      (states.length < probs.length → o.avgFidelity probs states = .error .index)) := by
  obtain ⟨rfl, hcols⟩ := choiInit_ok h
  unfold ChoiObj.avgFidelity ChoiObj.inputDim ChoiObj.outputDim
  refine ⟨fun hne => by rw [if_pos hne], fun heq hst => ?_⟩
  rw [if_neg (not_not.mpr heq)]
  rw [← heq] at hcols
  induction probs generalizing states with
  | nil => exact ⟨fun _ => ⟨0, rfl⟩, fun hh => by simp at hh⟩
  | cons p ps ih =>
    cases states with
    | nil => exact ⟨fun hh => by simp at hh, fun _ => rfl⟩
    | cons s ss =>
      obtain ⟨h1, h2⟩ := hst s (by simp)
      obtain ⟨i1, i2⟩ := ih ss fun t ht => hst t (by simp [ht])
      have ht : ∃ v, ChoiObj.fidTerm ⟨C, a, b, d, e⟩ s = .ok v := by
        unfold ChoiObj.fidTerm
        rw [if_pos ⟨by rw [h1, h2, hsq, hcols], by rw [h1, h2, hcols]⟩]
        exact ⟨_, rfl⟩
      obtain ⟨v, hv⟩ := ht
      simp only [ChoiObj.fidLoop, hv, bind, Except.bind, List.length_cons, Nat.add_le_add_iff_right,
        Nat.add_lt_add_iff_right]
      refine ⟨fun hh => ?_, fun hh => ?_⟩
      · obtain ⟨w, hw⟩ := i1 hh
        rw [hw]
        exact ⟨_, rfl⟩
      · rw [i2 hh]

/-- C35 applies to the dephasing channel and a two-state ensemble. -/
example : ∃ (o : ChoiObj) (v : ℝ),
    ChoiObj.init ⟨fun _ _ _ => true, fun _ _ _ => true⟩ dephChoi 1 1 2 2 = .ok o ∧
    o.avgFidelity [1 / 2, 1 / 2] [mixedState, mixedState] = .ok (v : ℂ) ∧ 0 ≤ v ∧ v ≤ 1 := by
  have ho : ChoiObj.init ⟨fun _ _ _ => true, fun _ _ _ => true⟩ dephChoi 1 1 2 2 = .ok ⟨dephChoi, 1, 1, 2, 2⟩ :=
    rfl
  obtain ⟨v, h1, h2, h3⟩ := C35_range (dephOps.ops 2 2 2) dephOps_tp rfl rfl ho rfl (Arr.ofMat_mat _)
    [(1 / 2, mixedState), (1 / 2, mixedState)] (by
      intro x hx
      simp only [List.mem_cons, List.not_mem_nil, or_false, or_self] at hx
      subst hx
      exact ⟨by norm_num, rfl, rfl, mixedState_density⟩) (by norm_num)
  exact ⟨_, v, ho, h1, h2, h3⟩

end PyQ
