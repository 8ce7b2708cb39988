import Verif.Props.Fidelity
import Verif.Props.EntropyBounds
import Verif.Props.KrausCompose

/-!
# C85: the fidelity of product states and of channels given in different ways
-/

namespace PyQ

open Matrix
open scoped ComplexOrder

/-- Square roots exist. -/
theorem exists_root {n : ℕ} {M : Matrix (Fin n) (Fin n) ℂ} (h : M.PosSemidef) : ∃ S, Spec.IsSqrt S M := by
  obtain ⟨sqrtm, hs⟩ := exists_sqrtm
  obtain ⟨-, -, s3, s4⟩ := hs (Arr.ofMat M) n rfl rfl (by rw [Arr.ofMat_mat]; exact h)
  rw [Arr.ofMat_mat] at s4
  exact ⟨_, s3, s4⟩

theorem tensorProd_psd {a n : ℕ} {A : Fin n → Matrix (Fin a) (Fin a) ℂ} (h : ∀ t, (A t).PosSemidef) :
    (Spec.tensorProd A).PosSemidef := by
  choose S hS using fun t => exists_root (h t)
  have : Spec.tensorProd A = (Spec.tensorProd S)ᴴ * Spec.tensorProd S := by
    rw [Spec.tensorProd_conjTranspose, Spec.tensorProd_mul]
    congr 1
    funext t
    rw [(hS t).1.isHermitian, (hS t).2]
  rw [this]
  exact posSemidef_conjTranspose_mul_self _

theorem kron_psd {a b : ℕ} {A : Matrix (Fin a) (Fin a) ℂ} {B : Matrix (Fin b) (Fin b) ℂ} (hA : A.PosSemidef)
    (hB : B.PosSemidef) : (Spec.kron A B).PosSemidef := by
  obtain ⟨S, s1, s2⟩ := exists_root hA
  obtain ⟨T, t1, t2⟩ := exists_root hB
  have : Spec.kron A B = (Spec.kron S T)ᴴ * Spec.kron S T := by
    rw [Spec.kron_conjTranspose, Spec.kron_mul, s1.isHermitian, t1.isHermitian, s2, t2]
  rw [this]
  exact posSemidef_conjTranspose_mul_self _

theorem kron_trace' {a b : ℕ} (A : Matrix (Fin a) (Fin a) ℂ) (B : Matrix (Fin b) (Fin b) ℂ) :
    trace (Spec.kron A B) = trace A * trace B := by
  simp only [trace, diag_apply, Spec.kron]
  rw [Spec.sum_finProd (fun i j => A i i * B j j), Finset.sum_mul_sum]

/-- The fidelity of products is the product of the fidelities. -/
theorem Spec.IsFidelity.tensorProd {a n : ℕ} {ρ σ : Fin n → Matrix (Fin a) (Fin a) ℂ} {F : Fin n → ℝ}
    (h : ∀ t, Spec.IsFidelity (ρ t) (σ t) (F t)) :
    Spec.IsFidelity (Spec.tensorProd ρ) (Spec.tensorProd σ) (∏ t, F t) := by
  choose R S hR hS hF using h
  refine ⟨Spec.tensorProd R, Spec.tensorProd S, ⟨tensorProd_psd fun t => (hR t).1, ?_⟩,
    ⟨tensorProd_psd fun t => (hS t).1, ?_⟩, ?_⟩
  · rw [Spec.tensorProd_mul]
    exact congrArg _ (funext fun t => (hR t).2)
  · rw [Spec.tensorProd_mul, Spec.tensorProd_mul, Spec.tensorProd_mul]
    exact congrArg _ (funext fun t => (hS t).2)
  · rw [Spec.tensorProd_trace, Finset.prod_congr rfl fun t _ => hF t]
    push_cast
    rfl

theorem Spec.IsFidelity.kron {a b : ℕ} {ρ σ : Matrix (Fin a) (Fin a) ℂ} {ρ' σ' : Matrix (Fin b) (Fin b) ℂ} {F G : ℝ}
    (h : Spec.IsFidelity ρ σ F) (h' : Spec.IsFidelity ρ' σ' G) :
    Spec.IsFidelity (Spec.kron ρ ρ') (Spec.kron σ σ') (F * G) := by
  obtain ⟨R, S, hR, hS, hF⟩ := h
  obtain ⟨R', S', hR', hS', hG⟩ := h'
  refine ⟨Spec.kron R R', Spec.kron S S', ⟨kron_psd hR.1 hR'.1, ?_⟩, ⟨kron_psd hS.1 hS'.1, ?_⟩, ?_⟩
  · rw [Spec.kron_mul, hR.2, hR'.2]
  · rw [Spec.kron_mul, Spec.kron_mul, Spec.kron_mul, hS.2, hS'.2]
  · rw [kron_trace', hF, hG]
    push_cast
    rfl

variable {sqrtm : Sqrtm} {sp sp' : Bool} {ops ops' : Arr3 ℂ} {a b d e : ℕ} {orth orth' : List ℕ} {o o' : KrausObj}

/-- One use of the channel after any history, with the dimension written without the power. -/
theorem fidelity_one (hsqrt : sqrtm.Correct) (h : QChan.init sp ops a b d e orth = .ok o) (calls : List QChan.Call)
    (hsafe : Spec.SafeUses sp (calls.map QChan.Call.uses ++ [1])) (N : ℕ) (hin : d ^ a = N) (hout : e ^ b = N)
    (rho : Arr ℂ) (hr : rho.rows = N) (hc : rho.cols = N) (hrho : (rho.mat N N).PosSemidef) :
    ∃ F, (QChan.fidelityTwoStates sqrtm (QChan.history o calls) rho 1).1 = .ok F ∧
      Spec.IsFidelity (rho.mat N N) (Spec.applyKraus (ops.ops ops.len N N) (rho.mat N N)) F := by
  obtain ⟨out, x1, x2, x3, x4⟩ := api_channel_one h calls hsafe rho (by rw [hin]; exact hr) (by rw [hin]; exact hc)
  subst hin
  rw [hout] at x2 x3 x4
  obtain ⟨F, f1, f2⟩ := fidelityOf_ok hsqrt rho out _ hr hc x2 x3 hrho (by
    rw [x4]; exact Spec.applyKraus_posSemidef _ hrho)
  refine ⟨F, ?_, ?_⟩
  · unfold QChan.fidelityTwoStates
    rcases hch : QChan.channel (QChan.history o calls) rho 1 false with ⟨y, o'⟩
    rw [hch] at x1
    simp only at x1
    subst x1
    exact f1
  · rw [x4] at f2
    exact f2

/-- C85.  `fidelity_two_states` of `n` uses on a tensor product of `n` states is the product of the values of one use on
each of them, whatever was called on the object before. -/
theorem C85_product (hsqrt : sqrtm.Correct) (h : QChan.init sp ops a b d e orth = .ok o)
    (calls calls₁ : List QChan.Call) (n : ℕ) (hsafe : Spec.SafeUses sp (calls.map QChan.Call.uses ++ [n]))
    (hsafe₁ : Spec.SafeUses sp (calls₁.map QChan.Call.uses ++ [1])) (N : ℕ) (hin : d ^ a = N) (hout : e ^ b = N)
    (R : Fin n → Arr ℂ) (hR : ∀ t, (R t).rows = N ∧ (R t).cols = N ∧ ((R t).mat N N).PosSemidef)
    (rho : Arr ℂ) (hr : rho.rows = N ^ n) (hc : rho.cols = N ^ n)
    (hprod : rho.mat (N ^ n) (N ^ n) = Spec.tensorProd fun t => (R t).mat N N) :
    ∃ F : Fin n → ℝ,
      (∀ t, (QChan.fidelityTwoStates sqrtm (QChan.history o calls₁) (R t) 1).1 = .ok (F t)) ∧
      (QChan.fidelityTwoStates sqrtm (QChan.history o calls) rho n).1 = .ok (∏ t, F t) := by
  choose F hF hF' using fun t => fidelity_one hsqrt h calls₁ hsafe₁ N hin hout (R t) (hR t).1 (hR t).2.1 (hR t).2.2
  obtain ⟨G, g1, g2⟩ := C50_value hsqrt h calls n hsafe N hin hout rho hr hc (by
    rw [hprod]; exact tensorProd_psd fun t => (hR t).2.2)
  refine ⟨F, hF, ?_⟩
  rw [hprod, Spec.applyKraus_tensor] at g2
  rw [g1, g2.unique (Spec.IsFidelity.tensorProd hF')]

/-- C85.  On `n` copies of one state the value is the `n`-th power of the value of one use. -/
theorem C85_copies (hsqrt : sqrtm.Correct) (h : QChan.init sp ops a b d e orth = .ok o)
    (calls calls₁ : List QChan.Call) (n : ℕ) (hsafe : Spec.SafeUses sp (calls.map QChan.Call.uses ++ [n]))
    (hsafe₁ : Spec.SafeUses sp (calls₁.map QChan.Call.uses ++ [1])) (N : ℕ) (hin : d ^ a = N) (hout : e ^ b = N)
    (rho₁ : Arr ℂ) (hr₁ : rho₁.rows = N) (hc₁ : rho₁.cols = N) (hrho₁ : (rho₁.mat N N).PosSemidef)
    (rho : Arr ℂ) (hr : rho.rows = N ^ n) (hc : rho.cols = N ^ n)
    (hprod : rho.mat (N ^ n) (N ^ n) = Spec.tensorProd fun _ => rho₁.mat N N) :
    ∃ F, (QChan.fidelityTwoStates sqrtm (QChan.history o calls₁) rho₁ 1).1 = .ok F ∧
      (QChan.fidelityTwoStates sqrtm (QChan.history o calls) rho n).1 = .ok (F ^ n) := by
  obtain ⟨F, f1, f2⟩ := fidelity_one hsqrt h calls₁ hsafe₁ N hin hout rho₁ hr₁ hc₁ hrho₁
  obtain ⟨G, g1, g2⟩ := C85_product hsqrt h calls calls₁ n hsafe hsafe₁ N hin hout (fun _ => rho₁)
    (fun _ => ⟨hr₁, hc₁, hrho₁⟩) rho hr hc hprod
  refine ⟨F, f1, ?_⟩
  have hG : ∀ t, G t = F := fun t => Except.ok.inj ((g1 t).symm.trans f1)
  rw [g2, Finset.prod_congr rfl fun t _ => hG t]
  simp

/-- C85.  The value belongs to the channel: Kraus operators of the same map give the same value, dense or sparse, with
any groups of orthogonal operators and after any calls. -/
theorem C85_representation (hsqrt : sqrtm.Correct) (h : QChan.init sp ops a b d e orth = .ok o)
    (h' : QChan.init sp' ops' a b d e orth' = .ok o') (N : ℕ) (hin : d ^ a = N) (hout : e ^ b = N)
    (hsame : Spec.SameChannel (ops.ops ops.len N N) (ops'.ops ops'.len N N))
    (calls calls' : List QChan.Call) (n : ℕ) (hsafe : Spec.SafeUses sp (calls.map QChan.Call.uses ++ [n]))
    (hsafe' : Spec.SafeUses sp' (calls'.map QChan.Call.uses ++ [n]))
    (rho : Arr ℂ) (hr : rho.rows = N ^ n) (hc : rho.cols = N ^ n) (hrho : (rho.mat (N ^ n) (N ^ n)).PosSemidef) :
    ∃ F, (QChan.fidelityTwoStates sqrtm (QChan.history o calls) rho n).1 = .ok F ∧
      (QChan.fidelityTwoStates sqrtm (QChan.history o' calls') rho n).1 = .ok F := by
  obtain ⟨F, f1, f2⟩ := C50_value hsqrt h calls n hsafe N hin hout rho hr hc hrho
  obtain ⟨G, g1, g2⟩ := C50_value hsqrt h' calls' n hsafe' N hin hout rho hr hc hrho
  rw [← Spec.sameChannel_tensorPow hsame n] at g2
  exact ⟨F, f1, by rw [g1, f2.unique g2]⟩

/-- C85.  A channel built from its Choi matrix gives the value of the channel built from its Kraus operators. -/
theorem C85_choi (hsqrt : sqrtm.Correct) (h : QChan.init sp ops a a d e orth = .ok o) {q : QutipChecks} {C : Arr ℂ}
    {o' : ChoiObj} (h' : ChoiObj.init q C a a d e = .ok o') (hsq : C.rows = C.cols) (N : ℕ) (hin : d ^ a = N)
    (hout : e ^ a = N) (hC : C.mat (N * N) (N * N) = Spec.choi (ops.ops ops.len N N))
    (calls : List QChan.Call) (hsafe : Spec.SafeUses sp (calls.map QChan.Call.uses ++ [1]))
    (rho : Arr ℂ) (hr : rho.rows = N) (hc : rho.cols = N) (hrho : (rho.mat N N).PosSemidef) :
    ∃ F, (QChan.fidelityTwoStates sqrtm (QChan.history o calls) rho 1).1 = .ok F ∧
      ChoiQ.fidelityTwoStates sqrtm o' rho 1 = .ok F := by
  obtain ⟨F, f1, f2⟩ := fidelity_one hsqrt h calls hsafe N hin hout rho hr hc hrho
  obtain ⟨G, g1, g2⟩ := C50_choi hsqrt h' hsq hin hout _ hC rho hr hc hrho
  exact ⟨F, f1, by rw [g1, f2.unique g2]⟩

/-- C85.  The parallel product `A * B` on a product state gives the product of the values of `A` and of `B`. -/
theorem C85_parallel (hsqrt : sqrtm.Correct) {sp₁ sp₂ : Bool} {ops₁ ops₂ : Arr3 ℂ} {a₁ a₂ b₁ b₂ d₁ d₂ e₁ e₂ : ℕ}
    {orth₁ orth₂ : List ℕ} {s o t : KrausObj} (hs : QChan.init sp₁ ops₁ a₁ b₁ d₁ e₁ orth₁ = .ok s)
    (ho : QChan.init sp₂ ops₂ a₂ b₂ d₂ e₂ orth₂ = .ok o) (cs co : List QChan.Call)
    (ht : QChan.mul (QChan.history s cs) (QChan.history o co) = .ok t) (c₁ c₂ c₃ : List QChan.Call)
    (h₁ : Spec.SafeUses sp₁ (c₁.map QChan.Call.uses ++ [1]))
    (h₂ : Spec.SafeUses sp₂ (c₂.map QChan.Call.uses ++ [1]))
    (h₃ : Spec.SafeUses (sp₁ || sp₂) (c₃.map QChan.Call.uses ++ [1])) (hin₁ : d₁ ^ a₁ = e₁ ^ b₁) (hin₂ : d₂ ^ a₂ = e₂ ^ b₂)
    (rho sigma : Arr ℂ) (hr : rho.rows = d₁ ^ a₁) (hc : rho.cols = d₁ ^ a₁)
    (hr' : sigma.rows = d₂ ^ a₂) (hc' : sigma.cols = d₂ ^ a₂) (hp : (rho.mat (d₁ ^ a₁) (d₁ ^ a₁)).PosSemidef)
    (hp' : (sigma.mat (d₂ ^ a₂) (d₂ ^ a₂)).PosSemidef) :
    ∃ F G, (QChan.fidelityTwoStates sqrtm (QChan.history s c₁) rho 1).1 = .ok F ∧
      (QChan.fidelityTwoStates sqrtm (QChan.history o c₂) sigma 1).1 = .ok G ∧
      (QChan.fidelityTwoStates sqrtm (QChan.history t c₃) (rho.kron sigma) 1).1 = .ok (F * G) := by
  obtain ⟨F, f1, f2⟩ := fidelity_one hsqrt hs c₁ h₁ _ rfl hin₁.symm rho hr hc hp
  obtain ⟨G, g1, g2⟩ := fidelity_one hsqrt ho c₂ h₂ _ rfl hin₂.symm sigma hr' hc' hp'
  have ht' := ht
  rw [mul_inv hs ho cs co] at ht'
  obtain ⟨-, gs, -, -, -, -, -, -, s9, s10, s11, -⟩ := qchanInit_ok hs
  obtain ⟨-, go, -, -, -, -, -, -, o9, o10, o11, -⟩ := qchanInit_ok ho
  obtain ⟨-, gt, -, -, -, -, -, -, t9, t10, t11, -⟩ := qchanInit_ok ht'
  have hcols : (d₁ * d₂) ^ 1 = d₁ ^ a₁ * d₂ ^ a₂ := by
    rw [← t10, show (ops₁.kron ops₂).cols = ops₁.cols * ops₂.cols from rfl, s10, o10]
  have hrows : (e₁ * e₂) ^ 1 = d₁ ^ a₁ * d₂ ^ a₂ := by
    rw [← t11, show (ops₁.kron ops₂).rows = ops₁.rows * ops₂.rows from rfl, s11, o11, hin₁, hin₂]
  have hkr : (rho.kron sigma).mat (d₁ ^ a₁ * d₂ ^ a₂) (d₁ ^ a₁ * d₂ ^ a₂) =
      Spec.kron (rho.mat (d₁ ^ a₁) (d₁ ^ a₁)) (sigma.mat (d₂ ^ a₂) (d₂ ^ a₂)) := arr_kron_mat _ _ _ _ _ _ hr' hc'
  obtain ⟨H, k1, k2⟩ := fidelity_one hsqrt ht' c₃ h₃ (d₁ ^ a₁ * d₂ ^ a₂) hcols hrows (rho.kron sigma)
    (by show rho.rows * sigma.rows = _; rw [hr, hr']) (by show rho.cols * sigma.cols = _; rw [hc, hc'])
    (by rw [hkr]; exact kron_psd hp hp')
  refine ⟨F, G, f1, g1, ?_⟩
  rw [hkr, show (ops₁.kron ops₂).len = ops₁.len * ops₂.len from rfl,
    kron_ops ops₁ ops₂ ops₁.len ops₂.len _ _ _ _ rfl (by rw [o11, hin₂]) o10, Spec.applyKraus_kron] at k2
  rw [k1, k2.unique (f2.kron g2)]

/-- The hypotheses of `C85_copies` hold for the dephasing channel and any number of copies of `|+⟩⟨+|`. -/
example (hsqrt : sqrtm.Correct) (sp : Bool) (n : ℕ) (hn : 1 ≤ n) : ∃ o F, QChan.init sp dephOps 1 1 2 2 [] = .ok o ∧
    (QChan.fidelityTwoStates sqrtm (QChan.history o []) (Arr.ofMat (vecMulVec plusVec (star plusVec))) 1).1 = .ok F ∧
    (QChan.fidelityTwoStates sqrtm (QChan.history o [])
      (Arr.ofMat (Spec.tensorProd fun _ : Fin n => vecMulVec plusVec (star plusVec))) n).1 = .ok (F ^ n) := by
  obtain ⟨o, ho⟩ := deph_ok sp []
  obtain ⟨F, f1, f2⟩ := C85_copies hsqrt ho [] [] n (by constructor <;> simp [hn]) (by constructor <;> simp) 2 rfl rfl
    (Arr.ofMat (vecMulVec plusVec (star plusVec))) rfl rfl (by
      rw [Arr.ofMat_mat]; exact posSemidef_vecMulVec_self_star plusVec)
    (Arr.ofMat (Spec.tensorProd fun _ : Fin n => vecMulVec plusVec (star plusVec))) rfl rfl (by
      rw [Arr.ofMat_mat, Arr.ofMat_mat])
  exact ⟨o, F, ho, f1, f2⟩

/-- The hypotheses of `C85_representation` hold for two families of different sizes of the dephasing channel. -/
example (hsqrt : sqrtm.Correct) (sp sp' : Bool) : ∃ o o' F, QChan.init sp dephOps 1 1 2 2 [] = .ok o ∧
    QChan.init sp' dephOps3 1 1 2 2 [] = .ok o' ∧
    (QChan.fidelityTwoStates sqrtm (QChan.history o []) (Arr.ofMat (vecMulVec plusVec (star plusVec))) 1).1 = .ok F ∧
    (QChan.fidelityTwoStates sqrtm (QChan.history o' []) (Arr.ofMat (vecMulVec plusVec (star plusVec))) 1).1 = .ok F := by
  obtain ⟨o, ho⟩ := deph_ok sp []
  obtain ⟨o', ho'⟩ := init_exact sp' dephOps3 1 1 2 2 [] (by decide) rfl rfl dephOps3_tp
  have hm : (Arr.ofMat (vecMulVec plusVec (star plusVec))).mat (2 ^ 1) (2 ^ 1) = vecMulVec plusVec (star plusVec) :=
    Arr.ofMat_mat _
  obtain ⟨F, f1, f2⟩ := C85_representation hsqrt ho ho' 2 rfl rfl deph_same [] [] 1 (by constructor <;> simp)
    (by constructor <;> simp) (Arr.ofMat (vecMulVec plusVec (star plusVec))) rfl rfl (by
      rw [hm]; exact posSemidef_vecMulVec_self_star plusVec)
  exact ⟨o, o', F, ho, ho', f1, f2⟩

end PyQ
