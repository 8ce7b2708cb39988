import Verif.Props.Undone
import Verif.Props.Unchanged
import Verif.Props.Mixture
import Verif.Lemmas.Fano

/-!
# C119: the coherent information says how well the input can be recovered
-/

namespace PyQ

open Matrix Spec
open scoped ComplexOrder

/-- The channel object `c`, built from a Choi matrix, does what `n` uses of `o` followed by one use of `r` do, for all inputs of
`N` rows. -/
def ActsAs (c : ChoiObj) (o r : KrausObj) (N n : ℕ) : Prop :=
  ∀ x : Arr ℂ, x.rows = N → x.cols = N → ∃ y z w, (QChan.channel o x n false).1 = .ok y ∧
    (QChan.channel r y 1 false).1 = .ok z ∧ ChoiQ.channel c x 1 false = .ok w ∧ Arr.Same w z

/-- A Choi matrix is determined by its channel. -/
theorem choiChannel_inj {n m : ℕ} {C C' : Matrix (Fin (n * m)) (Fin (n * m)) ℂ}
    (h : ∀ ρ, choiChannel C ρ = choiChannel C' ρ) : C = C' := by
  have key : ∀ (C : Matrix (Fin (n * m)) (Fin (n * m)) ℂ) y y' x x',
      choiChannel C (Matrix.single y y' 1) x x' = C (finProdFinEquiv (y, x)) (finProdFinEquiv (y', x')) := by
    intro C y y' x x'
    unfold choiChannel
    rw [Finset.sum_eq_single y]
    · rw [Finset.sum_eq_single y']
      · simp
      · intro z _ hz; simp [Ne.symm hz]
      · simp
    · intro z _ hz
      refine Finset.sum_eq_zero fun t _ => ?_
      simp [Ne.symm hz]
    · simp
  ext i j
  obtain ⟨⟨y, x⟩, rfl⟩ := finProdFinEquiv.surjective i
  obtain ⟨⟨y', x'⟩, rfl⟩ := finProdFinEquiv.surjective j
  rw [← key C, ← key C', h]

/-- The operators of a channel followed by another, numbered. -/
noncomputable def thenOps {l k p q : ℕ} (R : Fin l → Matrix (Fin q) (Fin p) ℂ) (K : Fin k → Matrix (Fin p) (Fin q) ℂ) :
    Fin (l * k) → Matrix (Fin q) (Fin q) ℂ := fun i => R (finProdFinEquiv.symm i).1 * K (finProdFinEquiv.symm i).2

theorem thenOps_sum {l k p q : ℕ} {M : Type} [AddCommMonoid M] (R : Fin l → Matrix (Fin q) (Fin p) ℂ)
    (K : Fin k → Matrix (Fin p) (Fin q) ℂ) (f : Matrix (Fin q) (Fin q) ℂ → M) :
    ∑ i, f (thenOps R K i) = ∑ j, ∑ k, f (R j * K k) := by
  rw [← Fintype.sum_prod_type', ← finProdFinEquiv.sum_comp]
  simp [thenOps]

theorem thenOps_apply {l k p q : ℕ} (R : Fin l → Matrix (Fin q) (Fin p) ℂ) (K : Fin k → Matrix (Fin p) (Fin q) ℂ)
    (ρ : Matrix (Fin q) (Fin q) ℂ) : applyKraus (thenOps R K) ρ = applyKraus R (applyKraus K ρ) := by
  rw [← applyKraus_comp]
  unfold applyKraus
  rw [thenOps_sum R K fun A => A * ρ * Aᴴ, Fintype.sum_prod_type]

theorem thenOps_tp {l k p q : ℕ} {R : Fin l → Matrix (Fin q) (Fin p) ℂ} {K : Fin k → Matrix (Fin p) (Fin q) ℂ}
    (hR : TracePreserving R) (hK : TracePreserving K) : TracePreserving (thenOps R K) := by
  unfold TracePreserving
  rw [thenOps_sum R K fun A => Aᴴ * A, Finset.sum_comm]
  have : ∀ k, ∑ j, (R j * K k)ᴴ * (R j * K k) = (K k)ᴴ * K k := by
    intro k
    simp only [conjTranspose_mul, Matrix.mul_assoc]
    simp only [← Matrix.mul_assoc (R _)ᴴ]
    rw [← Matrix.mul_sum, ← Matrix.sum_mul, hR, Matrix.one_mul]
  simp only [this]
  exact hK

section

variable {sp sp₁ : Bool} {ops ops₁ : Arr3 ℂ} {a b d e a₁ b₁ d₁ e₁ ac dc ec : ℕ} {orth orth₁ : List ℕ} {o r : KrausObj}
  {q : QutipChecks} {C : Arr ℂ} {c : ChoiObj} {eig : Eigvalsh}

theorem actsAs_choi (h : QChan.init sp ops a b d e orth = .ok o) (calls : List QChan.Call) (n : ℕ)
    (hsafe : SafeUses sp (calls.map QChan.Call.uses ++ [n]))
    (hr : QChan.init sp₁ ops₁ a₁ b₁ d₁ e₁ orth₁ = .ok r) (hin : d₁ ^ a₁ = (e ^ b) ^ n) (hout : e₁ ^ b₁ = (d ^ a) ^ n)
    (c₁ : List QChan.Call) (hsafe₁ : SafeUses sp₁ (c₁.map QChan.Call.uses ++ [1]))
    (hc : ChoiObj.init q C ac ac dc ec = .ok c) (hsq : C.rows = C.cols) (hdc : dc ^ ac = (d ^ a) ^ n) (hec : ec ^ ac = (d ^ a) ^ n) :
    ActsAs c (QChan.history o calls) (QChan.history r c₁) ((d ^ a) ^ n) n ↔
      C.mat ((d ^ a) ^ n * (d ^ a) ^ n) ((d ^ a) ^ n * (d ^ a) ^ n) = choi (thenOps
        (ops₁.ops ops₁.len ((d ^ a) ^ n) ((e ^ b) ^ n)) (tensorPow (ops.ops ops.len (e ^ b) (d ^ a)) n)) := by
  have key : ∀ x : Arr ℂ, x.rows = (d ^ a) ^ n → x.cols = (d ^ a) ^ n → ∃ y z w, (QChan.channel (QChan.history o calls) x n false).1 = .ok y ∧
      (QChan.channel (QChan.history r c₁) y 1 false).1 = .ok z ∧ ChoiQ.channel c x 1 false = .ok w ∧
      (Arr.Same w z ↔ choiChannel (C.mat ((d ^ a) ^ n * (d ^ a) ^ n) ((d ^ a) ^ n * (d ^ a) ^ n)) (x.mat ((d ^ a) ^ n) ((d ^ a) ^ n)) =
        choiChannel (choi (thenOps (ops₁.ops ops₁.len ((d ^ a) ^ n) ((e ^ b) ^ n))
          (tensorPow (ops.ops ops.len (e ^ b) (d ^ a)) n))) (x.mat ((d ^ a) ^ n) ((d ^ a) ^ n))) := by
    intro x x1 x2
    obtain ⟨y, y1, y2, y3, y4⟩ := api_channel h calls n hsafe x x1 x2
    obtain ⟨z, z1, z2, z3, z4⟩ := api_channel_one hr c₁ hsafe₁ y (by rw [hin]; exact y2) (by rw [hin]; exact y3)
    obtain ⟨w, w1, w2, w3, w4⟩ := C33_choi_channel hc hsq x (by rw [hdc]; exact x1) (by rw [hdc]; exact x2)
    refine ⟨y, z, w, y1, z1, w1, ?_⟩
    rw [hin, hout] at z4
    rw [hout] at z2 z3
    rw [hdc, hec] at w4
    rw [hec] at w2 w3
    rw [Arr.same_iff_mat, w2, w3, z2, z3, choiChannel_choi, thenOps_apply, w4, z4, y4]
    simp
  constructor
  · intro hact
    refine choiChannel_inj fun ρ => ?_
    obtain ⟨y, z, w, h1, h2, h3, h4⟩ := hact (Arr.ofMat ρ) rfl rfl
    obtain ⟨y', z', w', k1, k2, k3, k4⟩ := key (Arr.ofMat ρ) rfl rfl
    rw [h1] at k1
    injection k1 with k1
    subst k1
    rw [h2] at k2
    injection k2 with k2
    subst k2
    rw [h3] at k3
    injection k3 with k3
    subst k3
    have := k4.mp h4
    rwa [Arr.ofMat_mat] at this
  · intro hC x x1 x2
    obtain ⟨y, z, w, k1, k2, k3, k4⟩ := key x x1 x2
    exact ⟨y, z, w, k1, k2, k3, k4.mpr (by rw [hC])⟩

/-- The value that `average_entanglement_fidelity([1], [rho])` returns for the composed object. -/
theorem actsAs_value (h : QChan.init sp ops a b d e orth = .ok o) (calls : List QChan.Call) (n : ℕ)
    (hsafe : SafeUses sp (calls.map QChan.Call.uses ++ [n]))
    (hr : QChan.init sp₁ ops₁ a₁ b₁ d₁ e₁ orth₁ = .ok r) (hin : d₁ ^ a₁ = (e ^ b) ^ n) (hout : e₁ ^ b₁ = (d ^ a) ^ n)
    (c₁ : List QChan.Call) (hsafe₁ : SafeUses sp₁ (c₁.map QChan.Call.uses ++ [1]))
    (hc : ChoiObj.init q C ac ac dc ec = .ok c) (hsq : C.rows = C.cols) (hdc : dc ^ ac = (d ^ a) ^ n) (hec : ec ^ ac = (d ^ a) ^ n)
    (hact : ActsAs c (QChan.history o calls) (QChan.history r c₁) ((d ^ a) ^ n) n)
    (rho : Arr ℂ) (hr' : rho.rows = (d ^ a) ^ n) (hc' : rho.cols = (d ^ a) ^ n)
    (hrho : IsDensity (rho.mat ((d ^ a) ^ n) ((d ^ a) ^ n))) :
    c.avgFidelity [1] [rho] = .ok ((∑ j, ∑ k, ‖trace (ops₁.ops ops₁.len ((d ^ a) ^ n) ((e ^ b) ^ n) j *
      tensorPow (ops.ops ops.len (e ^ b) (d ^ a)) n k * rho.mat ((d ^ a) ^ n) ((d ^ a) ^ n))‖ ^ 2 : ℝ) : ℂ) := by
  have hC := (actsAs_choi h calls n hsafe hr hin hout c₁ hsafe₁ hc hsq hdc hec).mp hact
  have hv := C35_value _ hdc hec hc hsq hC [(1, rho)] (by simpa using ⟨hr', hc', hrho.1.isHermitian⟩)
  simp only [List.map_cons, List.map_nil] at hv
  rw [hv]
  congr 2
  rw [← thenOps_sum _ _ fun A => ‖trace (A * rho.mat ((d ^ a) ^ n) ((d ^ a) ^ n))‖ ^ 2]
  simp [avgEntanglementFidelity]

/-- **C119**.  No decoder does better than the coherent information allows: if `n` uses of the channel `o`, followed by any trace
preserving channel `r`, have the entanglement fidelity `F` for the state `rho` (the value of `average_entanglement_fidelity` for
the channel built from the Choi matrix of the two together), then `coherent_information(rho, n)` of `o` falls short of the entropy of
`rho` by at most twice `h(F) + (1 - F) log₂ (N² - 1)`, where `N` is the dimension of the input, up to the cut-off. -/
theorem C119_converse (heig : eig.Correct) (h : QChan.init sp ops a b d e orth = .ok o) (ho : sp = true ∨ orth = [])
    (htp : TracePreserving (ops.ops ops.len (e ^ b) (d ^ a))) (calls : List QChan.Call) (n : ℕ)
    (hsafe : SafeUses sp (calls.map QChan.Call.uses ++ [n]))
    (hr : QChan.init sp₁ ops₁ a₁ b₁ d₁ e₁ orth₁ = .ok r) (hin : d₁ ^ a₁ = (e ^ b) ^ n) (hout : e₁ ^ b₁ = (d ^ a) ^ n)
    (htp₁ : TracePreserving (ops₁.ops ops₁.len (e₁ ^ b₁) (d₁ ^ a₁)))
    (c₁ : List QChan.Call) (hsafe₁ : SafeUses sp₁ (c₁.map QChan.Call.uses ++ [1]))
    (hc : ChoiObj.init q C ac ac dc ec = .ok c) (hsq : C.rows = C.cols) (hdc : dc ^ ac = (d ^ a) ^ n) (hec : ec ^ ac = (d ^ a) ^ n)
    (hact : ActsAs c (QChan.history o calls) (QChan.history r c₁) ((d ^ a) ^ n) n)
    (rho : Arr ℂ) (hr' : rho.rows = (d ^ a) ^ n) (hc' : rho.cols = (d ^ a) ^ n)
    (hrho : IsDensity (rho.mat ((d ^ a) ^ n) ((d ^ a) ^ n))) :
    ∃ (v s F : ℝ), (QChan.coherentInformation eig (QChan.history o calls) rho n false).1 = .ok v ∧
      entropyList eig entropyCut [rho] = .ok s ∧ c.avgFidelity [1] [rho] = .ok (F : ℂ) ∧
      s - v ≤ 2 * (Real.qaryEntropy ((d ^ a) ^ n * (d ^ a) ^ n) (1 - F) / Real.log 2) + ((e ^ b) ^ n : ℕ) * (4 / 10 ^ 9) := by
  obtain ⟨v, hv, v1, v2⟩ := api_info heig h ho htp calls n hsafe rho hr' hc' hrho
  refine ⟨v, _, _, hv, entropyList_one eig entropyCut rho (hr'.trans hc'.symm),
    actsAs_value h calls n hsafe hr hin hout c₁ hsafe₁ hc hsq hdc hec hact rho hr' hc' hrho, ?_⟩
  obtain ⟨s1, s2⟩ := entropyOne_cut heig hr' hc' hrho
  rw [shannon_specSum heig hr' hc' hrho.1] at s1 s2
  rw [hin, hout] at htp₁
  have hl := loss_le _ htp₁ _ (tensorPow_tp _ n htp) hrho.1 hrho.2
  rw [Fintype.card_fin] at hl
  have hlog : 0 < Real.log 2 := Real.log_pos one_lt_two
  have hl2 := div_le_div_of_nonneg_right hl hlog.le
  rw [sub_div, mul_div_assoc] at hl2
  linarith

/-- **C119**.  Some decoder does as well as the coherent information promises: for every trace preserving channel `o`, every number
`n` of uses and every density matrix `rho` there is a trace preserving channel `r` such that `n` uses of `o` followed by `r` have at
least the entanglement fidelity `2^(I - S)`, where `I` is `coherent_information(rho, n)` and `S` the entropy of `rho`, up to the
cut-off. -/
theorem C119_achieved (heig : eig.Correct) (h : QChan.init sp ops a b d e orth = .ok o) (ho : sp = true ∨ orth = [])
    (htp : TracePreserving (ops.ops ops.len (e ^ b) (d ^ a))) (calls : List QChan.Call) (n : ℕ)
    (hsafe : SafeUses sp (calls.map QChan.Call.uses ++ [n]))
    (rho : Arr ℂ) (hr' : rho.rows = (d ^ a) ^ n) (hc' : rho.cols = (d ^ a) ^ n)
    (hrho : IsDensity (rho.mat ((d ^ a) ^ n) ((d ^ a) ^ n))) (sp₁ : Bool) :
    ∃ (v s F : ℝ) (ops₁ : Arr3 ℂ) (r : KrausObj), (QChan.coherentInformation eig (QChan.history o calls) rho n false).1 = .ok v ∧
      entropyList eig entropyCut [rho] = .ok s ∧
      QChan.init sp₁ ops₁ 1 1 ((e ^ b) ^ n) ((d ^ a) ^ n) [] = .ok r ∧
      TracePreserving (ops₁.ops ops₁.len ((d ^ a) ^ n) ((e ^ b) ^ n)) ∧
      (2 : ℝ) ^ (v - s - ((ops.len ^ n : ℕ) + ((d ^ a) ^ n : ℕ)) * (4 / 10 ^ 9)) ≤ F ∧
      ∀ (q : QutipChecks) (C : Arr ℂ) (ac dc ec : ℕ) (c : ChoiObj), ChoiObj.init q C ac ac dc ec = .ok c → C.rows = C.cols →
        dc ^ ac = (d ^ a) ^ n → ec ^ ac = (d ^ a) ^ n → ActsAs c (QChan.history o calls) r ((d ^ a) ^ n) n →
        c.avgFidelity [1] [rho] = .ok (F : ℂ) := by
  obtain ⟨v, hv, v1, v2⟩ := api_info heig h ho htp calls n hsafe rho hr' hc' hrho
  obtain ⟨B, hB, hF⟩ := exists_recovery _ (tensorPow_tp _ n htp) hrho.1 hrho.2
  let E := Fintype.equivFin (Fin (ops.len ^ n) ⊕ Fin ((e ^ b) ^ n))
  have hB' : TracePreserving (fun k => B (E.symm k)) := by
    unfold TracePreserving at hB ⊢
    rw [← hB]
    exact Equiv.sum_comp E.symm fun k => (B k)ᴴ * B k
  have hlen : 0 < Fintype.card (Fin (ops.len ^ n) ⊕ Fin ((e ^ b) ^ n)) := by
    by_contra h0
    have h1 : IsEmpty (Fin (ops.len ^ n) ⊕ Fin ((e ^ b) ^ n)) := Fintype.card_eq_zero_iff.mp (by omega)
    rw [Finset.univ_eq_empty, Finset.sum_empty] at hF
    exact absurd hF (not_le.mpr (Real.exp_pos _))
  obtain ⟨r, hr⟩ : ∃ r, QChan.init sp₁ (opsArr fun k => B (E.symm k)) 1 1 ((e ^ b) ^ n) ((d ^ a) ^ n) [] = .ok r := by
    refine init_exact sp₁ _ 1 1 _ _ [] hlen (pow_one _).symm (pow_one _).symm ?_
    rw [pow_one, pow_one]
    exact (opsArr_ops fun k => B (E.symm k)).symm ▸ hB'
  refine ⟨v, _, _, _, r, hv, entropyList_one eig entropyCut rho (hr'.trans hc'.symm), hr,
    (opsArr_ops fun k => B (E.symm k)).symm ▸ hB', ?_, fun q C ac dc ec c hc hsq hdc hec hact =>
    actsAs_value h calls n hsafe hr (pow_one _) (pow_one _) [] ⟨by simp, by simp⟩ hc hsq hdc hec hact rho hr' hc' hrho⟩
  obtain ⟨s1, s2⟩ := entropyOne_cut heig hr' hc' hrho
  rw [shannon_specSum heig hr' hc' hrho.1] at s1 s2
  have hlog : 0 < Real.log 2 := Real.log_pos one_lt_two
  have e1 : ∑ j, ∑ k, ‖trace ((opsArr fun k => B (E.symm k)).ops (Fintype.card (Fin (ops.len ^ n) ⊕ Fin ((e ^ b) ^ n))) ((d ^ a) ^ n) ((e ^ b) ^ n) j *
      tensorPow (ops.ops ops.len (e ^ b) (d ^ a)) n k * rho.mat ((d ^ a) ^ n) ((d ^ a) ^ n))‖ ^ 2 =
      ∑ j, ∑ k, ‖trace (B j * tensorPow (ops.ops ops.len (e ^ b) (d ^ a)) n k * rho.mat ((d ^ a) ^ n) ((d ^ a) ^ n))‖ ^ 2 := by
    rw [opsArr_ops]
    exact Equiv.sum_comp E.symm fun j => ∑ k, ‖trace (B j * tensorPow (ops.ops ops.len (e ^ b) (d ^ a)) n k *
      rho.mat ((d ^ a) ^ n) ((d ^ a) ^ n))‖ ^ 2
  refine le_trans ?_ (hF.trans (le_of_eq e1.symm))
  rw [Real.rpow_def_of_pos two_pos, Real.exp_le_exp, ← le_div_iff₀' hlog, sub_div]
  linarith

/-- For every decoder there is a channel object built from a Choi matrix that acts as the channel followed by the decoder, if the
checks of qutip accept its matrix. -/
theorem C119_object (h : QChan.init sp ops a b d e orth = .ok o) (htp : TracePreserving (ops.ops ops.len (e ^ b) (d ^ a)))
    (calls : List QChan.Call) (n : ℕ) (hsafe : SafeUses sp (calls.map QChan.Call.uses ++ [n]))
    (hr : QChan.init sp₁ ops₁ a₁ b₁ d₁ e₁ orth₁ = .ok r) (hin : d₁ ^ a₁ = (e ^ b) ^ n) (hout : e₁ ^ b₁ = (d ^ a) ^ n)
    (htp₁ : TracePreserving (ops₁.ops ops₁.len (e₁ ^ b₁) (d₁ ^ a₁)))
    (c₁ : List QChan.Call) (hsafe₁ : SafeUses sp₁ (c₁.map QChan.Call.uses ++ [1]))
    (hq : ∀ (l N : ℕ) (L : Fin l → Matrix (Fin N) (Fin N) ℂ), TracePreserving L →
      q.istp (Arr.ofMat (choi L)) N N = true ∧ q.iscp (Arr.ofMat (choi L)) N N = true) :
    ∃ (C : Arr ℂ) (c : ChoiObj), ChoiObj.init q C 1 1 ((d ^ a) ^ n) ((d ^ a) ^ n) = .ok c ∧ C.rows = C.cols ∧
      ActsAs c (QChan.history o calls) (QChan.history r c₁) ((d ^ a) ^ n) n := by
  rw [hin, hout] at htp₁
  obtain ⟨q1, q2⟩ := hq _ _ _ (thenOps_tp htp₁ (tensorPow_tp _ n htp))
  obtain ⟨c, hinit⟩ : ∃ c, ChoiObj.init q (Arr.ofMat (choi (thenOps (ops₁.ops ops₁.len ((d ^ a) ^ n) ((e ^ b) ^ n))
      (tensorPow (ops.ops ops.len (e ^ b) (d ^ a)) n)))) 1 1 ((d ^ a) ^ n) ((d ^ a) ^ n) = .ok c := by
    unfold ChoiObj.init
    rw [pow_one, if_neg (by simp [Arr.ofMat]), q1, q2]
    exact ⟨_, rfl⟩
  exact ⟨_, _, hinit, rfl, (actsAs_choi h calls n hsafe hr hin hout c₁ hsafe₁ hinit rfl (pow_one _) (pow_one _)).mpr
    (Arr.ofMat_mat _)⟩

end

/-! ### The search for a decoder -/

theorem mixedN_entropy {N : ℕ} (hN : 0 < N) : specSum Real.negMulLog (((N : ℂ)⁻¹) • (1 : Matrix (Fin N) (Fin N) ℂ)) = Real.log N := by
  have hN' : (0 : ℝ) < N := Nat.cast_pos.mpr hN
  have hE : Eigen (((N : ℂ)⁻¹) • (1 : Matrix (Fin N) (Fin N) ℂ)) 1 fun _ => (N : ℝ)⁻¹ := by
    refine ⟨by simp, by simp, ?_, fun _ => (inv_pos.mpr hN').le⟩
    ext i j
    by_cases hij : i = j
    · subst hij; simp
    · simp [hij]
  have hpsd : (((N : ℂ)⁻¹) • (1 : Matrix (Fin N) (Fin N) ℂ)).PosSemidef := by
    rw [hE.eq]
    exact (PosSemidef.diagonal fun i => by simp).mul_mul_conjTranspose_same 1
  rw [specSum_eq hpsd (eigen_charpoly hE) Real.negMulLog_zero]
  simp only [Finset.sum_const, Finset.card_univ, Fintype.card_fin, nsmul_eq_mul, Real.negMulLog, Real.log_inv]
  field_simp

theorem mixedN_density {N : ℕ} (hN : 0 < N) : IsDensity (((N : ℂ)⁻¹) • (1 : Matrix (Fin N) (Fin N) ℂ)) := by
  have hN' : (N : ℂ) ≠ 0 := Nat.cast_ne_zero.mpr hN.ne'
  refine ⟨PosSemidef.one.smul (by rw [inv_nonneg]; exact Nat.cast_nonneg N), ?_⟩
  rw [trace_smul, trace_one, Fintype.card_fin, smul_eq_mul, inv_mul_cancel₀ hN']

theorem entangFidelity_mixed {l k s N : ℕ} (R : Fin l → Matrix (Fin s) (Fin N) ℂ) (K : Fin k → Matrix (Fin N) (Fin s) ℂ) :
    entangFidelity R K = ∑ j, ∑ i, ‖trace (R j * K i * (((s : ℂ)⁻¹) • (1 : Matrix (Fin s) (Fin s) ℂ)))‖ ^ 2 := by
  unfold entangFidelity
  rw [Finset.sum_div]
  refine Finset.sum_congr rfl fun j _ => ?_
  rw [Finset.sum_div]
  refine Finset.sum_congr rfl fun i _ => ?_
  rw [Matrix.mul_smul, Matrix.mul_one, trace_smul, norm_smul, mul_pow, norm_inv, Complex.norm_natCast, inv_pow]
  ring

/-- **C119**.  What the search for a decoder finds and the coherent information of the channel at the maximally mixed state bound
each other: for real, exactly trace preserving operators from `N` to `M` dimensions the search succeeds, its value stands for the
fidelity `F = value · (M / N)²` (C46), and with `I = coherent_information(1/N, 1)` of the channel with the same operators
`2^I / N ≤ F` and `log₂ N - I ≤ 2 (h(F) + (1 - F) log₂ (N² - 1))`, up to the cut-off. -/
theorem C119_search {sol : SdpSolver} (hsol : sol.Correct) {eig : Eigvalsh} (heig : eig.Correct) {ks : List (Arr ℂ)} (hne : ks ≠ [])
    {q0 q1 di do' : ℕ} (hsh : ∀ k ∈ ks, k.rows = di ^ q0 ∧ k.cols = do' ^ q1) (hd : 0 < do') (hdi : 0 < di)
    (hreal : ∀ k ∈ ks, ∀ i < k.rows, ∀ j < k.cols, star (k.get i j) = k.get i j)
    (htp : TracePreserving fun b : Fin ks.length => ks[b].mat (di ^ q0) (do' ^ q1)) (sp : Bool)
    (rho : Arr ℂ) (hr : rho.rows = do' ^ q1) (hc : rho.cols = do' ^ q1)
    (hrho : rho.mat (do' ^ q1) (do' ^ q1) = (((do' ^ q1 : ℕ) : ℂ)⁻¹) • 1) :
    ∃ (X : Arr ℂ) (v I F : ℝ) (o : KrausObj), optimizeEntangFid sol ks q0 q1 di do' = .ok (X, v) ∧
      QChan.ofList sp ks q1 q0 do' di [] = .ok o ∧
      (QChan.coherentInformation eig o rho 1 false).1 = .ok I ∧
      F = v * (((di ^ q0 : ℕ) : ℝ) / ((do' ^ q1 : ℕ) : ℝ)) ^ 2 ∧
      (2 : ℝ) ^ (I - ks.length * (4 / 10 ^ 9)) / (do' ^ q1 : ℕ) ≤ F ∧
      Real.logb 2 (do' ^ q1 : ℕ) - I ≤ 2 * (Real.qaryEntropy (do' ^ q1 * do' ^ q1) (1 - F) / Real.log 2) +
        (di ^ q0 : ℕ) * (4 / 10 ^ 9) := by
  obtain ⟨X, v, l, R, x1, x2, x3, x4, x5⟩ := C46_solution_partial hsol hne hsh hd hdi hreal
  obtain ⟨A, hA, A1, A2, A3, A4⟩ := arr3_ofList hne hsh
  have hN : 0 < do' ^ q1 := Nat.pow_pos hd
  have hM : 0 < di ^ q0 := Nat.pow_pos hdi
  have hlen : 0 < ks.length := List.length_pos_iff.mpr hne
  have hops : A.ops ks.length (di ^ q0) (do' ^ q1) = fun b : Fin ks.length => ks[b].mat (di ^ q0) (do' ^ q1) := by
    funext b
    ext i j
    change A.get b i j = ks[b].get i j
    rw [A4 b b.2]
    rfl
  have htpA : TracePreserving (A.ops A.len (di ^ q0) (do' ^ q1)) := by
    rw [A1, hops]; exact htp
  obtain ⟨o, ho⟩ := init_exact sp A q1 q0 do' di [] (by omega) A3 A2 htpA
  have hdens : IsDensity (rho.mat (do' ^ q1) (do' ^ q1)) := by rw [hrho]; exact mixedN_density hN
  obtain ⟨I, i1, i2, i3⟩ := api_info heig ho (Or.inr rfl) htpA [] 1 ⟨by simp, by simp⟩ rho (by rw [pow_one]; exact hr)
    (by rw [pow_one]; exact hc) (by rw [pow_one]; exact hdens)
  have hinfo : krausInfo (tensorPow (A.ops A.len (di ^ q0) (do' ^ q1)) 1) (rho.mat ((do' ^ q1) ^ 1) ((do' ^ q1) ^ 1)) =
      krausInfo (fun b : Fin ks.length => ks[b].mat (di ^ q0) (do' ^ q1)) (((do' ^ q1 : ℕ) : ℂ)⁻¹ • 1) := by
    rw [tensorPow_one_eq, pow_one (do' ^ q1), pow_one (di ^ q0), pow_one A.len, A1, hops, hrho]
  rw [hinfo, pow_one] at i2 i3
  rw [A1] at i2
  have hF : entangFidelity R (fun b : Fin ks.length => ks[b].mat (di ^ q0) (do' ^ q1)) =
      v * (((di ^ q0 : ℕ) : ℝ) / ((do' ^ q1 : ℕ) : ℝ)) ^ 2 := by
    have h1 : ((do' ^ q1 : ℕ) : ℝ) ≠ 0 := Nat.cast_ne_zero.mpr hN.ne'
    have h2 : ((di ^ q0 : ℕ) : ℝ) ≠ 0 := Nat.cast_ne_zero.mpr hM.ne'
    rw [x5]
    field_simp
  have hlog : 0 < Real.log 2 := Real.log_pos one_lt_two
  refine ⟨X, v, I, _, o, x1, ?_, i1, rfl, ?_, ?_⟩
  · unfold QChan.ofList
    rw [hA]
    exact ho
  · obtain ⟨B, hB, hBF⟩ := exists_recovery _ htp (mixedN_density hN).1 (mixedN_density hN).2
    rw [mixedN_entropy hN] at hBF
    let E := Fintype.equivFin (Fin ks.length ⊕ Fin (di ^ q0))
    have hB' : TracePreserving (fun k => B (E.symm k)) := by
      unfold TracePreserving at hB ⊢
      rw [← hB]
      exact Equiv.sum_comp E.symm fun k => (B k)ᴴ * B k
    have h1 := x4 _ _ hB'
    have h2 : entangFidelity (fun k => B (E.symm k)) (fun b : Fin ks.length => ks[b].mat (di ^ q0) (do' ^ q1)) =
        ∑ j, ∑ i : Fin ks.length, ‖trace (B j * ks[i].mat (di ^ q0) (do' ^ q1) *
          ((((do' ^ q1 : ℕ) : ℂ)⁻¹) • (1 : Matrix (Fin (do' ^ q1)) (Fin (do' ^ q1)) ℂ)))‖ ^ 2 := by
      rw [entangFidelity_mixed]
      exact Equiv.sum_comp E.symm fun j => ∑ i : Fin ks.length, ‖trace (B j * ks[i].mat (di ^ q0) (do' ^ q1) *
          ((((do' ^ q1 : ℕ) : ℂ)⁻¹) • (1 : Matrix (Fin (do' ^ q1)) (Fin (do' ^ q1)) ℂ)))‖ ^ 2
    rw [← hF]
    refine le_trans ?_ (hBF.trans (h2.symm.le.trans h1))
    rw [Real.exp_sub, Real.exp_log (Nat.cast_pos.mpr hN)]
    refine div_le_div_of_nonneg_right ?_ (Nat.cast_nonneg _)
    rw [Real.rpow_def_of_pos two_pos, Real.exp_le_exp, ← le_div_iff₀' hlog]
    linarith
  · have hl := loss_le _ x2 _ htp (mixedN_density hN).1 (mixedN_density hN).2
    rw [mixedN_entropy hN, Fintype.card_fin, ← entangFidelity_mixed, hF] at hl
    have hl2 := div_le_div_of_nonneg_right hl hlog.le
    rw [sub_div, mul_div_assoc] at hl2
    have : Real.logb 2 ((do' ^ q1 : ℕ) : ℝ) = Real.log ((do' ^ q1 : ℕ) : ℝ) / Real.log 2 := rfl
    rw [this]
    linarith

/-! ### Instances -/

/-- The hypotheses of C119 are met: for two uses of the dephasing channel, after a call with three uses, and any density matrix a
decoder as promised exists, so does the object that acts as the channel and the decoder together, and the limit applies to it. -/
example (rho : Arr ℂ) (hr : rho.rows = 4) (hc : rho.cols = 4) (hrho : IsDensity (rho.mat 4 4)) :
    ∃ (eig : Eigvalsh) (q : QutipChecks) (o r : KrausObj) (c : ChoiObj) (v s F : ℝ), eig.Correct ∧
      QChan.init true dephOps 1 1 2 2 [] = .ok o ∧ ActsAs c (QChan.history o [.update 3]) r 4 2 ∧
      (QChan.coherentInformation eig (QChan.history o [.update 3]) rho 2 false).1 = .ok v ∧
      entropyList eig entropyCut [rho] = .ok s ∧ c.avgFidelity [1] [rho] = .ok (F : ℂ) ∧
      (2 : ℝ) ^ (v - s - 8 * (4 / 10 ^ 9)) ≤ F ∧
      s - v ≤ 2 * (Real.qaryEntropy 16 (1 - F) / Real.log 2) + 4 * (4 / 10 ^ 9) := by
  obtain ⟨eig, heig⟩ := exists_eigvalsh
  obtain ⟨o, ho⟩ := deph_ok true []
  have hsafe : SafeUses true (([.update 3] : List QChan.Call).map QChan.Call.uses ++ [2]) :=
    ⟨by simp [QChan.Call.uses], by simp [QChan.Call.uses]⟩
  have hsafe₁ : SafeUses false (([] : List QChan.Call).map QChan.Call.uses ++ [1]) := ⟨by simp, by simp⟩
  obtain ⟨v, s, F, ops₁, r, h1, h2, h3, h4, h5, h6⟩ := C119_achieved heig ho (Or.inl rfl) dephOps_tp [.update 3] 2 hsafe rho hr hc hrho
    false
  have h4' : TracePreserving (ops₁.ops ops₁.len (((2 ^ 1) ^ 2) ^ 1) (((2 ^ 1) ^ 2) ^ 1)) := h4
  let q : QutipChecks := ⟨fun _ _ _ => true, fun _ _ _ => true⟩
  obtain ⟨C, c, c1, c2, c3⟩ := C119_object (q := q) ho dephOps_tp [.update 3] 2 hsafe h3 rfl rfl h4' [] hsafe₁ (fun _ _ _ _ => ⟨rfl, rfl⟩)
  have hF := h6 q C 1 _ _ c c1 c2 rfl rfl c3
  obtain ⟨v', s', F', k1, k2, k3, k4⟩ := C119_converse heig ho (Or.inl rfl) dephOps_tp [.update 3] 2 hsafe h3 rfl rfl h4' [] hsafe₁ c1 c2
    rfl rfl c3 rho hr hc hrho
  rw [h1] at k1
  rw [h2] at k2
  rw [hF] at k3
  injection k1 with k1
  injection k2 with k2
  injection k3 with k3
  have k3' : F = F' := by exact_mod_cast k3
  subst k1 k2 k3'
  refine ⟨eig, q, o, r, c, v, s, F, heig, ho, c3, h1, h2, hF, le_trans (le_of_eq ?_) h5, k4.trans (le_of_eq ?_)⟩
  · congr 2
    simp only [dephOps]
    norm_num
  · norm_num

/-- The hypotheses of the theorem on the search are met by the operators that store one qubit in two. -/
example : ∃ (sol : SdpSolver) (eig : Eigvalsh) (X : Arr ℂ) (v I : ℝ) (o : KrausObj), sol.Correct ∧ eig.Correct ∧
    optimizeEntangFid sol [storeOne] 2 1 2 2 = .ok (X, v) ∧ QChan.ofList true [storeOne] 1 2 2 2 [] = .ok o ∧
    (QChan.coherentInformation eig o mixedState 1 false).1 = .ok I ∧ (2 : ℝ) ^ (I - 4 / 10 ^ 9) / 2 ≤ v * 4 := by
  obtain ⟨sol, hsol⟩ := exists_sdpSolver
  obtain ⟨eig, heig⟩ := exists_eigvalsh
  have hV : (storeOne.mat (2 ^ 2) (2 ^ 1))ᴴ * storeOne.mat (2 ^ 2) (2 ^ 1) = 1 := by
    ext i j
    fin_cases i <;> fin_cases j <;>
      simp [storeOne, Arr.mat, Matrix.mul_apply, Fin.sum_univ_four, Matrix.one_apply]
  obtain ⟨X, v, I, F, o, h1, h2, h3, rfl, h4, -⟩ := C119_search hsol heig (ks := [storeOne]) (q0 := 2) (q1 := 1) (di := 2) (do' := 2)
    (by simp) (by simp [storeOne]) (by decide) (by decide) (by
      simp only [List.mem_singleton, forall_eq]
      intro i _ j _
      simp only [storeOne]
      split_ifs <;> simp) (by
      show ∑ a : Fin 1, _ = _
      rw [Fin.sum_univ_one]
      exact hV) true mixedState rfl rfl (by
      ext i j
      fin_cases i <;> fin_cases j <;> simp [mixedState, Arr.mat])
  refine ⟨sol, eig, X, v, I, o, hsol, heig, h1, h2, h3, le_trans (le_of_eq ?_) (h4.trans (le_of_eq ?_))⟩ <;> norm_num

end PyQ
