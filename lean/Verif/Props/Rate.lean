import Verif.Lemmas.Rate
import Verif.Props.Repair
import Verif.Lemmas.OpsArr

/-! # C126: blocks of uses and the rate of a channel -/

namespace PyQ

open Matrix Spec
open scoped ComplexOrder

variable {sp : Bool} {ops : Arr3 ℂ} {a b d e : ℕ} {orth : List ℕ} {o : KrausObj} {eig : Eigvalsh}

theorem block_mat {N n m : ℕ} {rho sigma tau : Arr ℂ}
    (hprod : ∀ i < N ^ n, ∀ j < N ^ n, ∀ k < N ^ m, ∀ l < N ^ m,
      tau.get (i * N ^ m + k) (j * N ^ m + l) = rho.get i j * sigma.get k l) :
    tau.mat (N ^ (n + m)) (N ^ (n + m)) = (kron (rho.mat (N ^ n) (N ^ n)) (sigma.mat (N ^ m) (N ^ m))).submatrix
      (finCongr (pow_add N n m)) (finCongr (pow_add N n m)) := by
  ext x y
  have hx := (finCongr (pow_add N n m) x).divNat.2
  have hx' := (finCongr (pow_add N n m) x).modNat.2
  have hy := (finCongr (pow_add N n m) y).divNat.2
  have hy' := (finCongr (pow_add N n m) y).modNat.2
  have h := hprod _ hx _ hy _ hx' _ hy'
  have ex : ∀ x : Fin (N ^ (n + m)), (finCongr (pow_add N n m) x).divNat.val * N ^ m + (finCongr (pow_add N n m) x).modNat.val = x.val := by
    intro x
    show x.val / N ^ m * N ^ m + x.val % N ^ m = x.val
    rw [mul_comm]
    exact Nat.div_add_mod _ _
  rw [ex, ex] at h
  exact h

/-- **C126 (blocks)**.  `n + m` uses on the product of a state of `n` inputs and a state of `m` inputs: the coherent information is
the sum of those of the two blocks, up to the cut-off of small eigenvalues; the states may be correlated within the blocks. -/
theorem C126_blocks (heig : eig.Correct) (h : QChan.init sp ops a b d e orth = .ok o) (ho : sp = true ∨ orth = [])
    (htp : TracePreserving (ops.ops ops.len (e ^ b) (d ^ a))) (c c₁ c₂ : List QChan.Call) (n m : ℕ)
    (hs : SafeUses sp (c.map QChan.Call.uses ++ [n + m])) (hs₁ : SafeUses sp (c₁.map QChan.Call.uses ++ [n]))
    (hs₂ : SafeUses sp (c₂.map QChan.Call.uses ++ [m])) (rho sigma tau : Arr ℂ)
    (hr : rho.rows = (d ^ a) ^ n) (hc : rho.cols = (d ^ a) ^ n) (hrho : IsDensity (rho.mat ((d ^ a) ^ n) ((d ^ a) ^ n)))
    (hr' : sigma.rows = (d ^ a) ^ m) (hc' : sigma.cols = (d ^ a) ^ m) (hsigma : IsDensity (sigma.mat ((d ^ a) ^ m) ((d ^ a) ^ m)))
    (ht : tau.rows = (d ^ a) ^ (n + m)) (ht' : tau.cols = (d ^ a) ^ (n + m))
    (hprod : ∀ i < (d ^ a) ^ n, ∀ j < (d ^ a) ^ n, ∀ k < (d ^ a) ^ m, ∀ l < (d ^ a) ^ m,
      tau.get (i * (d ^ a) ^ m + k) (j * (d ^ a) ^ m + l) = rho.get i j * sigma.get k l) :
    ∃ v x y : ℝ, (QChan.coherentInformation eig (QChan.history o c) tau (n + m) false).1 = .ok v ∧
      (QChan.coherentInformation eig (QChan.history o c₁) rho n false).1 = .ok x ∧
      (QChan.coherentInformation eig (QChan.history o c₂) sigma m false).1 = .ok y ∧
      v ≤ x + y + ((ops.len ^ (n + m) : ℕ) + ((e ^ b) ^ n : ℕ) + ((e ^ b) ^ m : ℕ)) * (4 / 10 ^ 9) ∧
      x + y ≤ v + (((e ^ b) ^ (n + m) : ℕ) + (ops.len ^ n : ℕ) + (ops.len ^ m : ℕ)) * (4 / 10 ^ 9) := by
  have hmat := block_mat hprod
  have hdt : IsDensity (tau.mat ((d ^ a) ^ (n + m)) ((d ^ a) ^ (n + m))) := by
    rw [hmat]
    exact submatrix_density _ (kron_density hrho hsigma)
  obtain ⟨v, v0, v1, v2⟩ := api_info heig h ho htp c (n + m) hs tau ht ht' hdt
  obtain ⟨x, x0, x1, x2⟩ := api_info heig h ho htp c₁ n hs₁ rho hr hc hrho
  obtain ⟨y, y0, y1, y2⟩ := api_info heig h ho htp c₂ m hs₂ sigma hr' hc' hsigma
  refine ⟨v, x, y, v0, x0, y0, ?_⟩
  rw [hmat, krausInfo_blocks htp hrho hsigma, add_div] at v1 v2
  constructor <;> linarith

/-- **C126 (rate)**.  There are numbers `Q n`, up to the cut-off the best coherent information of `n` uses over all states, with
`Q n + Q m ≤ Q (n + m)`; so the best value per use, `Q n / n`, converges, and the limit is at least the value for every `n`. -/
theorem C126_rate (h : QChan.init sp ops a b d e orth = .ok o) (ho : sp = true ∨ orth = [])
    (htp : TracePreserving (ops.ops ops.len (e ^ b) (d ^ a))) (hd : 0 < d) :
    ∃ (Q : ℕ → ℝ) (C : ℝ),
      (∀ (eig : Eigvalsh), eig.Correct → ∀ (c : List QChan.Call) (n : ℕ), SafeUses sp (c.map QChan.Call.uses ++ [n]) →
        (∀ rho : Arr ℂ, rho.rows = (d ^ a) ^ n → rho.cols = (d ^ a) ^ n → IsDensity (rho.mat ((d ^ a) ^ n) ((d ^ a) ^ n)) →
          ∃ v, (QChan.coherentInformation eig (QChan.history o c) rho n false).1 = .ok v ∧
            v ≤ Q n + (ops.len ^ n : ℕ) * (4 / 10 ^ 9)) ∧
        ∀ δ > 0, ∃ rho : Arr ℂ, rho.rows = (d ^ a) ^ n ∧ rho.cols = (d ^ a) ^ n ∧ IsDensity (rho.mat ((d ^ a) ^ n) ((d ^ a) ^ n)) ∧
          ∃ v, (QChan.coherentInformation eig (QChan.history o c) rho n false).1 = .ok v ∧
            Q n - δ - ((e ^ b) ^ n : ℕ) * (4 / 10 ^ 9) ≤ v) ∧
      (∀ n m, Q n + Q m ≤ Q (n + m)) ∧ (∀ n, 1 ≤ n → Q n / n ≤ C) ∧
      Filter.Tendsto (fun n : ℕ => Q n / n) Filter.atTop (nhds C) ∧ 0 ≤ C ∧ C ≤ Real.logb 2 (e ^ b : ℕ) := by
  have hb : 0 < d ^ a := by positivity
  obtain ⟨C, c1, c2, c3, c4⟩ := bestInfo_rate htp hb
  refine ⟨bestInfo (ops.ops ops.len (e ^ b) (d ^ a)), C, ?_, bestInfo_superadd htp hb, c1, c2, c3, c4⟩
  intro eig heig c n hs
  constructor
  · intro rho hr hc hrho
    obtain ⟨v, v0, v1, -⟩ := api_info heig h ho htp c n hs rho hr hc hrho
    have := le_bestInfo htp n hrho
    exact ⟨v, v0, by linarith⟩
  · intro δ hδ
    obtain ⟨ρ, hρ, hn⟩ := bestInfo_near (K := ops.ops ops.len (e ^ b) (d ^ a)) hb n hδ
    have hm : (Arr.ofMat ρ).mat ((d ^ a) ^ n) ((d ^ a) ^ n) = ρ := Arr.ofMat_mat ρ
    obtain ⟨v, v0, -, v2⟩ := api_info heig h ho htp c n hs (Arr.ofMat ρ) rfl rfl (by rw [hm]; exact hρ)
    rw [hm] at v2
    exact ⟨Arr.ofMat ρ, rfl, rfl, by rw [hm]; exact hρ, v, v0, by linarith⟩

/-! ### A case that meets the hypotheses -/

/-- The phase flip channel: any number of uses, here two blocks of a maximally mixed qubit and of two qubits. -/
example (eig : Eigvalsh) (heig : eig.Correct) {p : ℝ} (hp0 : 0 ≤ p) (hp1 : p ≤ 1) :
    ∃ (o : KrausObj) (v x y : ℝ), QChan.init false (opsArr (phaseFlip p)) 1 1 2 2 [] = .ok o ∧
      (QChan.coherentInformation eig o (Arr.ofMat ((1 / 8 : ℂ) • (1 : Matrix (Fin 8) (Fin 8) ℂ))) 3 false).1 = .ok v ∧
      (QChan.coherentInformation eig o (Arr.ofMat ((1 / 2 : ℂ) • (1 : Matrix (Fin 2) (Fin 2) ℂ))) 1 false).1 = .ok x ∧
      (QChan.coherentInformation eig o (Arr.ofMat ((1 / 4 : ℂ) • (1 : Matrix (Fin 4) (Fin 4) ℂ))) 2 false).1 = .ok y ∧
      |v - (x + y)| ≤ 14 * (4 / 10 ^ 9) := by
  obtain ⟨o, ho⟩ := opsArr_init (a := 1) (b := 1) (d := 2) (e := 2) false (phaseFlip p) (by norm_num) (phaseFlip_tp hp0 hp1) []
  have hops : (opsArr (phaseFlip p)).ops 2 2 2 = phaseFlip p := opsArr_ops (phaseFlip p)
  have hmix : ∀ N : ℕ, 0 < N → IsDensity ((1 / N : ℂ) • (1 : Matrix (Fin N) (Fin N) ℂ)) := by
    intro N hN
    refine ⟨PosSemidef.one.smul (by positivity), ?_⟩
    rw [trace_smul, trace_one, Fintype.card_fin, smul_eq_mul, one_div, inv_mul_cancel₀ (by exact_mod_cast hN.ne')]
  obtain ⟨v, x, y, hv, hx, hy, h1, h2⟩ := C126_blocks heig ho (Or.inr rfl)
    (by have := phaseFlip_tp hp0 hp1; rw [← hops] at this; exact this) [] [] [] 1 2
    (by simp [SafeUses]) (by simp [SafeUses]) (by simp [SafeUses])
    (Arr.ofMat ((1 / 2 : ℂ) • (1 : Matrix (Fin 2) (Fin 2) ℂ))) (Arr.ofMat ((1 / 4 : ℂ) • (1 : Matrix (Fin 4) (Fin 4) ℂ)))
    (Arr.ofMat ((1 / 8 : ℂ) • (1 : Matrix (Fin 8) (Fin 8) ℂ))) rfl rfl
    (by have := hmix 2 (by norm_num); rw [← Arr.ofMat_mat ((1 / ((2 : ℕ) : ℂ)) • (1 : Matrix (Fin 2) (Fin 2) ℂ))] at this; exact_mod_cast this) rfl rfl
    (by have := hmix 4 (by norm_num); rw [← Arr.ofMat_mat ((1 / ((4 : ℕ) : ℂ)) • (1 : Matrix (Fin 4) (Fin 4) ℂ))] at this; exact_mod_cast this) rfl rfl
    (by
      intro i hi j hj k hk l hl
      norm_num at hi hj hk hl
      have e1 : ∀ (N : ℕ) (z : ℂ) (i j : ℕ), i < N → j < N → (Arr.ofMat (z • (1 : Matrix (Fin N) (Fin N) ℂ))).get i j = if i = j then z else 0 := by
        intro N z i j hi hj
        simp [Arr.ofMat, hi, hj, Matrix.one_apply, Fin.ext_iff]
      rw [e1 8 _ _ _ (by norm_num; omega) (by norm_num; omega), e1 2 _ _ _ (by omega) (by omega), e1 4 _ _ _ (by omega) (by omega)]
      norm_num
      split_ifs <;> first | omega | norm_num)
  refine ⟨o, v, x, y, ho, hv, hx, hy, ?_⟩
  have hl : (opsArr (phaseFlip p)).len = 2 := rfl
  rw [hl] at h1 h2
  norm_num at h1 h2 ⊢
  rw [abs_le]
  constructor <;> linarith

/-- The phase flip channel has a rate. -/
example {p : ℝ} (hp0 : 0 ≤ p) (hp1 : p ≤ 1) : ∃ (o : KrausObj), QChan.init false (opsArr (phaseFlip p)) 1 1 2 2 [] = .ok o ∧
    TracePreserving ((opsArr (phaseFlip p)).ops (opsArr (phaseFlip p)).len (2 ^ 1) (2 ^ 1)) := by
  obtain ⟨o, ho⟩ := opsArr_init (a := 1) (b := 1) (d := 2) (e := 2) false (phaseFlip p) (by norm_num) (phaseFlip_tp hp0 hp1) []
  have hops : (opsArr (phaseFlip p)).ops 2 2 2 = phaseFlip p := opsArr_ops (phaseFlip p)
  refine ⟨o, ho, ?_⟩
  have := phaseFlip_tp hp0 hp1
  rw [← hops] at this
  exact this

end PyQ
