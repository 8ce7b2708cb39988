import Verif.Lemmas.Spectrum
import Verif.Props.ChoiInfo

/-!
# C66, C67: coherent information depends on the channel only, and is bounded by the entropy of the input
-/

namespace PyQ

open Matrix Polynomial
open scoped ComplexOrder

/-! ## Different Kraus operators of one channel -/

/-- Two families of Kraus operators describe the same channel. -/
def Spec.SameChannel {l l' m n : ℕ} (K : Fin l → Matrix (Fin m) (Fin n) ℂ) (L : Fin l' → Matrix (Fin m) (Fin n) ℂ) : Prop :=
  ∀ ρ, Spec.applyKraus K ρ = Spec.applyKraus L ρ

theorem Spec.applyKraus_unit {l m n : ℕ} (K : Fin l → Matrix (Fin m) (Fin n) ℂ) (y y' : Fin n) (x x' : Fin m) :
    Spec.applyKraus K (Matrix.single y y' 1) x x' = ∑ k, K k x y * star (K k x' y') := by
  unfold Spec.applyKraus
  rw [Matrix.sum_apply]
  refine Finset.sum_congr rfl fun k _ => ?_
  rw [Matrix.mul_apply, Finset.sum_eq_single y']
  · rw [Matrix.mul_apply, Finset.sum_eq_single y]
    · simp [conjTranspose_apply]
    · intro z _ hz; simp [Ne.symm hz]
    · simp
  · intro z _ hz
    rw [Matrix.mul_apply, Finset.sum_eq_zero, zero_mul]
    intro t _
    simp [Ne.symm hz]
  · simp

/-- Two families describe the same channel iff these sums of products of entries agree. -/
theorem Spec.sameChannel_iff {l l' m n : ℕ} (K : Fin l → Matrix (Fin m) (Fin n) ℂ)
    (L : Fin l' → Matrix (Fin m) (Fin n) ℂ) :
    Spec.SameChannel K L ↔
      ∀ x y x' y', ∑ k, K k x y * star (K k x' y') = ∑ k, L k x y * star (L k x' y') := by
  constructor
  · intro h x y x' y'
    rw [← Spec.applyKraus_unit, ← Spec.applyKraus_unit, h]
  · intro h ρ
    have key : ∀ {j : ℕ} (J : Fin j → Matrix (Fin m) (Fin n) ℂ) (x x'), Spec.applyKraus J ρ x x' =
        ∑ y', ∑ y, ρ y y' * ∑ k, J k x y * star (J k x' y') := by
      intro j J x x'
      unfold Spec.applyKraus
      rw [Matrix.sum_apply]
      simp only [Matrix.mul_apply, conjTranspose_apply, Finset.sum_mul, Finset.mul_sum]
      rw [Finset.sum_comm]
      refine Finset.sum_congr rfl fun y' _ => ?_
      rw [Finset.sum_comm]
      refine Finset.sum_congr rfl fun y _ => Finset.sum_congr rfl fun k _ => ?_
      ring
    ext x x'
    rw [key, key]
    simp only [h]

/-- Parallel uses of the same channel. -/
theorem Spec.sameChannel_tensorPow {l l' m n : ℕ} {K : Fin l → Matrix (Fin m) (Fin n) ℂ}
    {L : Fin l' → Matrix (Fin m) (Fin n) ℂ} (h : Spec.SameChannel K L) (t : ℕ) :
    Spec.SameChannel (Spec.tensorPow K t) (Spec.tensorPow L t) := by
  rw [Spec.sameChannel_iff] at h ⊢
  intro x y x' y'
  have key : ∀ {j : ℕ} (J : Fin j → Matrix (Fin m) (Fin n) ℂ),
      ∑ k, Spec.tensorPow J t k x y * star (Spec.tensorPow J t k x' y') =
        ∏ s, ∑ k, J k (Spec.digit x s) (Spec.digit y s) * star (J k (Spec.digit x' s) (Spec.digit y' s)) := by
    intro j J
    rw [Spec.prod_sum_pi, ← Spec.sum_digits]
    refine Finset.sum_congr rfl fun k _ => ?_
    rw [Finset.prod_mul_distrib, ← star_prod]
    rfl
  rw [key, key]
  exact Finset.prod_congr rfl fun s _ => h _ _ _ _

theorem Spec.stack_sum {l m n : ℕ} (K : Fin l → Matrix (Fin m) (Fin n) ℂ) (S : Matrix (Fin n) (Fin n) ℂ)
    (i i' : Fin (n * m)) :
    (Spec.stack K S * (Spec.stack K S)ᴴ) i i' = ∑ k, Spec.vec (K k * S) i * star (Spec.vec (K k * S) i') := by
  rw [Matrix.mul_apply]; rfl

/-- The entropy exchange matrices of two families for one channel have the same non-zero eigenvalues. -/
theorem Spec.exchange_charpoly {l l' m n : ℕ} {K : Fin l → Matrix (Fin m) (Fin n) ℂ}
    {L : Fin l' → Matrix (Fin m) (Fin n) ℂ} (h : Spec.SameChannel K L) (ρ : Matrix (Fin n) (Fin n) ℂ)
    (hρ : ρ.PosSemidef) :
    (X : ℂ[X]) ^ l' * (Spec.entropyExchange K ρ).charpoly = X ^ l * (Spec.entropyExchange L ρ).charpoly := by
  obtain ⟨sqrtm, hs⟩ := exists_sqrtm
  obtain ⟨-, -, s3, s4⟩ := hs (Arr.ofMat ρ) n rfl rfl (by rw [Arr.ofMat_mat]; exact hρ)
  set S := (sqrtm (Arr.ofMat ρ)).mat n n with hS
  rw [Arr.ofMat_mat] at s4
  have hK : ∀ {j : ℕ} (J : Fin j → Matrix (Fin m) (Fin n) ℂ),
      (X : ℂ[X]) ^ (n * m) * (Spec.entropyExchange J ρ).charpoly =
        X ^ j * (Spec.stack J S * (Spec.stack J S)ᴴ).charpoly := by
    intro j J
    rw [← s4, Spec.stack_exchange J S s3.isHermitian, charpoly_transpose]
    have := charpoly_mul_comm' (Spec.stack J S)ᴴ (Spec.stack J S)
    simpa only [Fintype.card_fin] using this
  have hsame : Spec.stack K S * (Spec.stack K S)ᴴ = Spec.stack L S * (Spec.stack L S)ᴴ := by
    rw [Spec.sameChannel_iff] at h
    have key : ∀ {j : ℕ} (J : Fin j → Matrix (Fin m) (Fin n) ℂ) (x y x' y'),
        ∑ k, (J k * S) x y * star ((J k * S) x' y') =
          ∑ z, ∑ z', S z y * star (S z' y') * ∑ k, J k x z * star (J k x' z') := by
      intro j J x y x' y'
      simp only [Matrix.mul_apply, star_sum, Finset.sum_mul_sum, star_mul']
      simp only [Finset.mul_sum]
      rw [Finset.sum_comm]
      refine Finset.sum_congr rfl fun z _ => ?_
      rw [Finset.sum_comm]
      refine Finset.sum_congr rfl fun z' _ => Finset.sum_congr rfl fun k _ => ?_
      ring
    ext i i'
    rw [Spec.stack_sum, Spec.stack_sum]
    unfold Spec.vec
    rw [key, key]
    simp only [h]
  have h1 := hK K
  have h2 := hK L
  rw [hsame] at h1
  have hX : (X : ℂ[X]) ^ (n * m) ≠ 0 := pow_ne_zero _ X_ne_zero
  refine mul_left_cancel₀ hX ?_
  calc X ^ (n * m) * (X ^ l' * (Spec.entropyExchange K ρ).charpoly)
      = X ^ l' * (X ^ l * (Spec.stack L S * (Spec.stack L S)ᴴ).charpoly) := by rw [← h1]; ring
    _ = X ^ l * (X ^ (n * m) * (Spec.entropyExchange L ρ).charpoly) := by rw [h2]; ring
    _ = _ := by ring

variable {a b d e : ℕ}

/-- **C66**.  Two objects built from different Kraus operators of the same channel (of different numbers, in different
storage, after different histories) return the same coherent information for every positive semidefinite input and every
number of uses. -/
theorem C66_representation {eig : Eigvalsh} (heig : eig.Correct) {sp sp' : Bool} {ops ops' : Arr3 ℂ} {orth orth' : List ℕ}
    {o o' : KrausObj} (h : QChan.init sp ops a b d e orth = .ok o) (h' : QChan.init sp' ops' a b d e orth' = .ok o')
    (ho : sp = true ∨ orth = []) (ho' : sp' = true ∨ orth' = [])
    (hsame : Spec.SameChannel (ops.ops ops.len (e ^ b) (d ^ a)) (ops'.ops ops'.len (e ^ b) (d ^ a)))
    (calls calls' : List QChan.Call) (n : ℕ) (hsafe : Spec.SafeUses sp (calls.map QChan.Call.uses ++ [n]))
    (hsafe' : Spec.SafeUses sp' (calls'.map QChan.Call.uses ++ [n]))
    (rho : Arr ℂ) (hr : rho.rows = (d ^ a) ^ n) (hc : rho.cols = (d ^ a) ^ n)
    (hrho : (rho.mat ((d ^ a) ^ n) ((d ^ a) ^ n)).PosSemidef) (reg : Bool) :
    ∃ v, (QChan.coherentInformation eig (QChan.history o calls) rho n reg).1 = .ok v ∧
      (QChan.coherentInformation eig (QChan.history o' calls') rho n reg).1 = .ok v := by
  obtain ⟨out, W, -, x2, x3, x4, w2, w3, w4, hv⟩ := C45_coherent_value (eig := eig) h ho calls n hsafe rho hr hc reg
  obtain ⟨out', W', -, y2, y3, y4, z2, z3, z4, hv'⟩ :=
    C45_coherent_value (eig := eig) h' ho' calls' n hsafe' rho hr hc reg
  have hn := Spec.sameChannel_tensorPow hsame n
  have hherm : (out.mat ((e ^ b) ^ n) ((e ^ b) ^ n)).IsHermitian := by
    rw [x4]; exact (Spec.applyKraus_posSemidef _ hrho).isHermitian
  have e1 : entropyOne eig entropyCut out = entropyOne eig entropyCut out' :=
    entropy_same heig entropyCut_nonneg x2 x3 y2 y3 hherm (by rw [x4, y4, hn])
  have e2 : entropyOne eig entropyCut W = entropyOne eig entropyCut W' := by
    refine entropy_eq_of_charpoly heig entropyCut_nonneg (p := ops'.len ^ n) (q := ops.len ^ n) w2 w3 z2 z3 ?_ ?_ ?_
    · rw [w4]; exact (Spec.exchange_posSemidef _ hrho).isHermitian
    · rw [z4]; exact (Spec.exchange_posSemidef _ hrho).isHermitian
    · rw [w4, z4]; exact Spec.exchange_charpoly hn _ hrho
  exact ⟨_, hv, by rw [hv', e1, e2]⟩

/-- The dephasing channel with three operators: the second one is split in the ratio 3 : 4. -/
noncomputable def dephOps3 : Arr3 ℂ :=
  ⟨3, 2, 2, fun k i j => if i = j then (if k = 0 ∧ i = 0 then 1 else if k = 1 ∧ i = 1 then 3 / 5 else
    if k = 2 ∧ i = 1 then 4 / 5 else 0) else 0⟩

theorem dephOps3_tp : Spec.TracePreserving (dephOps3.ops dephOps3.len (2 ^ 1) (2 ^ 1)) := by
  unfold Spec.TracePreserving
  change ∑ i : Fin 3, (dephOps3.ops 3 2 2 i)ᴴ * dephOps3.ops 3 2 2 i = (1 : Matrix (Fin 2) (Fin 2) ℂ)
  ext i j
  simp only [dephOps3, Matrix.sum_apply, Matrix.mul_apply, conjTranspose_apply, Arr3.ops, Matrix.one_apply]
  fin_cases i <;> fin_cases j <;> simp [Fin.sum_univ_two, Fin.sum_univ_three]
  simp only [map_ofNat]; norm_num

theorem deph_same : Spec.SameChannel (dephOps.ops dephOps.len (2 ^ 1) (2 ^ 1)) (dephOps3.ops dephOps3.len (2 ^ 1) (2 ^ 1)) := by
  rw [Spec.sameChannel_iff]
  change ∀ (x y x' y' : Fin 2), ∑ k : Fin 2, dephOps.ops 2 2 2 k x y * star (dephOps.ops 2 2 2 k x' y') =
    ∑ k : Fin 3, dephOps3.ops 3 2 2 k x y * star (dephOps3.ops 3 2 2 k x' y')
  intro x y x' y'
  simp only [dephOps, dephOps3, Arr3.ops]
  fin_cases x <;> fin_cases y <;> fin_cases x' <;> fin_cases y' <;> simp [Fin.sum_univ_two, Fin.sum_univ_three]
  simp only [map_ofNat]; norm_num

/-- The hypotheses of C66 are met by the dephasing channel with two and with three operators, for three uses of a dense
object and, after one use, of a sparse object. -/
example : ∃ (eig : Eigvalsh) (o o' : KrausObj), eig.Correct ∧ QChan.init false dephOps 1 1 2 2 [] = .ok o ∧
    QChan.init true dephOps3 1 1 2 2 [] = .ok o' ∧
    ∀ rho : Arr ℂ, rho.rows = 8 → rho.cols = 8 → (rho.mat 8 8).PosSemidef →
    ∃ v, (QChan.coherentInformation eig o rho 3 false).1 = .ok v ∧
      (QChan.coherentInformation eig o' rho 3 false).1 = .ok v := by
  obtain ⟨eig, heig⟩ := exists_eigvalsh
  obtain ⟨o, ho⟩ := deph_ok false []
  obtain ⟨o', ho'⟩ := init_exact true dephOps3 1 1 2 2 [] (by decide) rfl rfl dephOps3_tp
  refine ⟨eig, o, o', heig, ho, ho', fun rho h1 h2 h3 => ?_⟩
  exact C66_representation heig ho ho' (Or.inr rfl) (Or.inl rfl) deph_same [] [] 3
    ⟨by simp, by simp⟩ ⟨by simp, by simp⟩ rho h1 h2 h3 false

/-! ## Bounds by the entropy of the input -/

theorem kraus_entropies {l m n : ℕ} (K : Fin l → Matrix (Fin m) (Fin n) ℂ) (hK : Spec.TracePreserving K)
    (ρ : Matrix (Fin n) (Fin n) ℂ) (hρ : Spec.IsDensity ρ) {w : Fin m → ℝ} {q : Fin l → ℝ} {p : Fin n → ℝ}
    (hw : (Spec.applyKraus K ρ).charpoly = ∏ i, (X - C ((w i : ℝ) : ℂ)))
    (hq : (Spec.entropyExchange K ρ).charpoly = ∏ i, (X - C ((q i : ℝ) : ℂ)))
    (hp : ρ.charpoly = ∏ i, (X - C ((p i : ℝ) : ℂ))) :
    ∑ i, Real.negMulLog (w i) ≤ ∑ i, Real.negMulLog (q i) + ∑ i, Real.negMulLog (p i) ∧
    ∑ i, Real.negMulLog (q i) ≤ ∑ i, Real.negMulLog (w i) + ∑ i, Real.negMulLog (p i) := by
  obtain ⟨r, U, hU, hU', hρU, hr⟩ := hermitian_diag ρ hρ.1.isHermitian
  rw [sum_eq_of_charpoly (p := 0) (q := 0) hp hr rfl Real.negMulLog Real.negMulLog_zero]
  have hD : diagonal (fun i => ((r i : ℝ) : ℂ)) = Uᴴ * ρ * U := by
    rw [Matrix.mul_assoc, hρU, ← Matrix.mul_assoc, hU, Matrix.one_mul]
  have hr0 : ∀ i, 0 ≤ r i := by
    have hP : (diagonal (fun i => ((r i : ℝ) : ℂ))).PosSemidef := by
      rw [hD]; exact hρ.1.conjTranspose_mul_mul_same U
    rw [posSemidef_diagonal_iff] at hP
    intro i; exact_mod_cast hP i
  have hr1 : ∑ i, r i = 1 := by
    have := congrArg trace hD
    rw [trace_diagonal, Matrix.mul_assoc, trace_mul_comm, Matrix.mul_assoc, hU', Matrix.mul_one, hρ.2] at this
    exact_mod_cast this
  set S : Matrix (Fin n) (Fin n) ℂ := U * diagonal fun i => ((Real.sqrt (r i) : ℝ) : ℂ) with hS
  have hdd : (diagonal fun i => ((Real.sqrt (r i) : ℝ) : ℂ)) * (diagonal fun i => ((Real.sqrt (r i) : ℝ) : ℂ)) =
      diagonal fun i => ((r i : ℝ) : ℂ) := by
    rw [diagonal_mul_diagonal]
    congr 1
    funext i
    rw [← Complex.ofReal_mul, Real.mul_self_sqrt (hr0 i)]
  have hds : (diagonal fun i : Fin n => ((Real.sqrt (r i) : ℝ) : ℂ))ᴴ = diagonal fun i => ((Real.sqrt (r i) : ℝ) : ℂ) := by
    rw [diagonal_conjTranspose]
    congr 1
    funext i
    simp
  have hSS : S * Sᴴ = ρ := by
    rw [hS, conjTranspose_mul, hds, Matrix.mul_assoc, ← Matrix.mul_assoc (diagonal _) (diagonal _), hdd,
      ← Matrix.mul_assoc, ← hρU, Matrix.mul_assoc, hU', Matrix.mul_one]
  have hSS' : Sᴴ * S = diagonal fun i => ((r i : ℝ) : ℂ) := by
    rw [hS, conjTranspose_mul, hds, Matrix.mul_assoc, ← Matrix.mul_assoc Uᴴ, hU, Matrix.one_mul, hdd]
  let T : Fin l → Fin m → Fin n → ℂ := fun i x y => (K i * S) x y
  have hR : ∀ y, ∑ i, ∑ x, T i x y * star (T i x y) = (r y : ℂ) := by
    intro y
    have h1 : ∑ i, (K i * S)ᴴ * (K i * S) = Sᴴ * S := by
      have h2 : ∀ i, (K i * S)ᴴ * (K i * S) = Sᴴ * ((K i)ᴴ * K i) * S := by
        intro i; rw [conjTranspose_mul]; simp only [Matrix.mul_assoc]
      simp only [h2]
      rw [← Matrix.sum_mul, ← Matrix.mul_sum]
      unfold Spec.TracePreserving at hK
      rw [hK, Matrix.mul_one]
    have h3 := congrFun (congrFun h1 y) y
    rw [hSS', diagonal_apply_eq, Matrix.sum_apply] at h3
    rw [← h3]
    refine Finset.sum_congr rfl fun i _ => ?_
    rw [Matrix.mul_apply]
    refine Finset.sum_congr rfl fun x _ => ?_
    rw [conjTranspose_apply, mul_comm]
  have hE : (Matrix.of fun i i' => ∑ x, ∑ y, T i x y * star (T i' x y)) = Spec.entropyExchange K ρ := by
    ext i i'
    unfold Spec.entropyExchange
    have : K i * ρ * (K i')ᴴ = (K i * S) * (K i' * S)ᴴ := by
      rw [conjTranspose_mul (K i') S, ← Matrix.mul_assoc, Matrix.mul_assoc (K i) S, hSS]
    rw [this, Matrix.of_apply, trace]
    refine Finset.sum_congr rfl fun x _ => ?_
    rw [diag_apply, Matrix.mul_apply]
    rfl
  have hB : (Matrix.of fun x x' => ∑ i, ∑ y, T i x y * star (T i x' y)) = Spec.applyKraus K ρ := by
    ext x x'
    unfold Spec.applyKraus
    rw [Matrix.sum_apply, Matrix.of_apply]
    refine Finset.sum_congr rfl fun i _ => ?_
    have : K i * ρ * (K i)ᴴ = (K i * S) * (K i * S)ᴴ := by
      rw [conjTranspose_mul (K i) S, ← Matrix.mul_assoc, Matrix.mul_assoc (K i) S, hSS]
    rw [this, Matrix.mul_apply]
    rfl
  constructor
  · exact pure_subadd T r hr1 hR q (by rw [hE]; exact hq) w (by rw [hB]; exact hw)
  · refine pure_subadd (fun x i y => T i x y) r hr1 ?_ w ?_ q ?_
    · intro y; rw [Finset.sum_comm]; exact hR y
    · rw [hB]; exact hw
    · rw [hE]; exact hq

theorem shannon_negMulLog {n : ℕ} (w : Fin n → ℝ) : Spec.shannon w = (∑ i, Real.negMulLog (w i)) / Real.log 2 := by
  unfold Spec.shannon
  rw [Finset.sum_div, ← Finset.sum_neg_distrib]
  refine Finset.sum_congr rfl fun i _ => ?_
  rw [Real.negMulLog, Real.logb]
  ring

/-- **C67**.  For a trace preserving channel and a density matrix, the coherent information is at most the entropy of the
input and at least minus the entropy of the input.  The second summand is the effect of the cut-off of small eigenvalues,
at most `4e-9` for each eigenvalue. -/
theorem C67_input_entropy {eig : Eigvalsh} (heig : eig.Correct) {sp : Bool} {ops : Arr3 ℂ} {orth : List ℕ} {o : KrausObj}
    (h : QChan.init sp ops a b d e orth = .ok o)
    (ho : sp = true ∨ orth = []) (htp : Spec.TracePreserving (ops.ops ops.len (e ^ b) (d ^ a)))
    (calls : List QChan.Call) (n : ℕ) (hsafe : Spec.SafeUses sp (calls.map QChan.Call.uses ++ [n]))
    (rho : Arr ℂ) (hr : rho.rows = (d ^ a) ^ n) (hc : rho.cols = (d ^ a) ^ n)
    (hrho : Spec.IsDensity (rho.mat ((d ^ a) ^ n) ((d ^ a) ^ n))) :
    ∃ v s, (QChan.coherentInformation eig (QChan.history o calls) rho n false).1 = .ok v ∧
      entropyList eig entropyCut [rho] = .ok s ∧
      v ≤ s + ((ops.len ^ n : ℕ) + ((d ^ a) ^ n : ℕ)) * (4 / 10 ^ 9) ∧
      -(s + (((e ^ b) ^ n : ℕ) + ((d ^ a) ^ n : ℕ)) * (4 / 10 ^ 9)) ≤ v ∧
      v ≤ n * Real.logb 2 ((d ^ a : ℕ) : ℝ) + (ops.len ^ n : ℕ) * (4 / 10 ^ 9) := by
  obtain ⟨out, W, -, x2, x3, x4, w2, w3, w4, hv⟩ := C45_coherent_value (eig := eig) h ho calls n hsafe rho hr hc false
  have htp' := Spec.tensorPow_tp _ n htp
  have hout : Spec.IsDensity (out.mat ((e ^ b) ^ n) ((e ^ b) ^ n)) := by
    rw [x4]
    exact ⟨Spec.applyKraus_posSemidef _ hrho.1, (Spec.applyKraus_trace _ htp' _).trans hrho.2⟩
  have hW : Spec.IsDensity (W.mat (ops.len ^ n) (ops.len ^ n)) := by
    rw [w4]
    refine ⟨Spec.exchange_posSemidef _ hrho.1, ?_⟩
    rw [Spec.exchange_trace, Spec.applyKraus_trace _ htp', hrho.2]
  obtain ⟨s1, hs1, a1, a2⟩ := C45_cut_off heig out _ x2 x3 hout
  obtain ⟨s2, hs2, b1, b2⟩ := C45_cut_off heig W _ w2 w3 hW
  obtain ⟨s3, hs3, c1, c2⟩ := C45_cut_off heig rho _ hr hc hrho
  rw [entropyList_one eig entropyCut out (x2.trans x3.symm)] at hs1
  rw [entropyList_one eig entropyCut W (w2.trans w3.symm)] at hs2
  injection hs1 with hs1
  injection hs2 with hs2
  have hk := kraus_entropies _ htp' _ hrho (w := fun i => eig out i) (q := fun i => eig W i) (p := fun i => eig rho i)
    (by rw [← x4]; exact heig out _ x2 x3 hout.1.isHermitian)
    (by rw [← w4]; exact heig W _ w2 w3 hW.1.isHermitian)
    (heig rho _ hr hc hrho.1.isHermitian)
  have hlog : 0 < Real.log 2 := Real.log_pos (by norm_num)
  have k1 : Spec.shannon (fun i : Fin ((e ^ b) ^ n) => eig out i) ≤
      Spec.shannon (fun i : Fin (ops.len ^ n) => eig W i) + Spec.shannon (fun i : Fin ((d ^ a) ^ n) => eig rho i) := by
    rw [shannon_negMulLog, shannon_negMulLog, shannon_negMulLog, ← add_div]
    exact div_le_div_of_nonneg_right hk.1 hlog.le
  have k2 : Spec.shannon (fun i : Fin (ops.len ^ n) => eig W i) ≤
      Spec.shannon (fun i : Fin ((e ^ b) ^ n) => eig out i) + Spec.shannon (fun i : Fin ((d ^ a) ^ n) => eig rho i) := by
    rw [shannon_negMulLog, shannon_negMulLog, shannon_negMulLog, ← add_div]
    exact div_le_div_of_nonneg_right hk.2 hlog.le
  obtain ⟨e1, -, e3⟩ := density_eigs heig hr hc hrho
  have hb := shannon_le (fun i : Fin ((d ^ a) ^ n) => eig rho i) e1 e3
  have hp : Real.logb 2 (((d ^ a) ^ n : ℕ) : ℝ) = n * Real.logb 2 ((d ^ a : ℕ) : ℝ) := by
    rw [Nat.cast_pow, Real.logb_pow]
  rw [hp] at hb
  refine ⟨_, s3, hv, hs3, ?_, ?_, ?_⟩
  · rw [if_neg (by simp), hs1, hs2]; linarith
  · rw [if_neg (by simp), hs1, hs2]; linarith
  · rw [if_neg (by simp), hs1, hs2]; linarith

/-- The hypotheses of C67 are met by the dephasing channel and the maximally mixed state. -/
example : ∃ (eig : Eigvalsh) (o : KrausObj) (v : ℝ), eig.Correct ∧ QChan.init true dephOps 1 1 2 2 [] = .ok o ∧
    (QChan.coherentInformation eig o mixedState 1 false).1 = .ok v ∧ v ≤ 1 + 2 * (4 / 10 ^ 9) := by
  obtain ⟨eig, heig⟩ := exists_eigvalsh
  obtain ⟨o, ho⟩ := deph_ok true []
  obtain ⟨v, -, hv, -, -, -, hle⟩ := C67_input_entropy heig ho (Or.inl rfl) dephOps_tp [] 1 ⟨by simp, by simp⟩
    mixedState rfl rfl mixedState_density
  refine ⟨eig, o, v, heig, ho, hv, hle.trans (le_of_eq ?_)⟩
  simp [dephOps]

end PyQ
