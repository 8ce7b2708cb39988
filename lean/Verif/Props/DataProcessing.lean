import Verif.Lemmas.CoherentDP
import Verif.Props.EntropyBounds
import Verif.Props.KrausCompose

/-!
# C78, C79, C80: what a further channel does to coherent information and entropy
-/

namespace PyQ

open Matrix Polynomial
open scoped ComplexOrder

variable {eig : Eigvalsh}

theorem entropyOne_cut (heig : eig.Correct) {A : Arr ℂ} {m : ℕ} (h1 : A.rows = m) (h2 : A.cols = m)
    (hA : Spec.IsDensity (A.mat m m)) :
    entropyOne eig entropyCut A ≤ Spec.shannon (fun i : Fin m => eig A i) ∧
    Spec.shannon (fun i : Fin m => eig A i) - m * (4 / 10 ^ 9) ≤ entropyOne eig entropyCut A := by
  obtain ⟨s, hs, a1, a2⟩ := C45_cut_off heig A m h1 h2 hA
  rw [entropyList_one eig entropyCut A (h1.trans h2.symm)] at hs
  injection hs with hs
  rw [hs]; exact ⟨a1, a2⟩

theorem kraus_densities {l p q : ℕ} (K : Fin l → Matrix (Fin p) (Fin q) ℂ) (ρ : Matrix (Fin q) (Fin q) ℂ)
    (hK : Spec.TracePreserving K) (hρ : Spec.IsDensity ρ) :
    Spec.IsDensity (Spec.applyKraus K ρ) ∧ Spec.IsDensity (Spec.entropyExchange K ρ) := by
  refine ⟨⟨Spec.applyKraus_posSemidef _ hρ.1, (Spec.applyKraus_trace _ hK _).trans hρ.2⟩,
    Spec.exchange_posSemidef _ hρ.1, ?_⟩
  rw [Spec.exchange_trace, Spec.applyKraus_trace _ hK, hρ.2]

/-! ## C78: data processing -/

section Composition

variable {sp₁ sp₂ : Bool} {ops₁ ops₂ : Arr3 ℂ} {a₁ b₁ d₁ e₁ a₂ b₂ d₂ e₂ : ℕ} {orth₁ orth₂ : List ℕ}
  {s o t : KrausObj}

/-- **C78**.  Noise after a channel never raises the coherent information: for trace preserving channels, every density matrix
and every number of uses, `coherent_information` of `s + o` (first `o`, then `s`) is at most that of `o`, up to the cut-off of
small eigenvalues, which accounts for at most `4e-9` per eigenvalue.  The objects may have any (safe) histories. -/
theorem C78_data_processing (heig : eig.Correct) (hs : QChan.init sp₁ ops₁ a₁ b₁ d₁ e₁ orth₁ = .ok s)
    (ho : QChan.init sp₂ ops₂ a₂ b₂ d₂ e₂ orth₂ = .ok o) (horth : sp₂ = true ∨ orth₂ = []) (cs co : List QChan.Call)
    (ht : QChan.add (QChan.history s cs) (QChan.history o co) = .ok t)
    (htp₁ : Spec.TracePreserving (ops₁.ops ops₁.len (e₁ ^ b₁) (d₁ ^ a₁)))
    (htp₂ : Spec.TracePreserving (ops₂.ops ops₂.len (e₂ ^ b₂) (d₂ ^ a₂)))
    (c₂ c₃ : List QChan.Call) (n : ℕ) (h₂ : Spec.SafeUses sp₂ (c₂.map QChan.Call.uses ++ [n]))
    (h₃ : Spec.SafeUses (sp₁ || sp₂) (c₃.map QChan.Call.uses ++ [n])) (rho : Arr ℂ)
    (hr : rho.rows = (d₂ ^ a₂) ^ n) (hc : rho.cols = (d₂ ^ a₂) ^ n)
    (hrho : Spec.IsDensity (rho.mat ((d₂ ^ a₂) ^ n) ((d₂ ^ a₂) ^ n))) :
    ∃ v w, (QChan.coherentInformation eig (QChan.history t c₃) rho n false).1 = .ok v ∧
      (QChan.coherentInformation eig (QChan.history o c₂) rho n false).1 = .ok w ∧
      v ≤ w + (((ops₁.len * ops₂.len) ^ n : ℕ) + ((e₂ ^ b₂) ^ n : ℕ)) * (4 / 10 ^ 9) := by
  obtain ⟨hti, hmid⟩ := add_inv hs ho cs co ht
  obtain ⟨-, -, -, -, -, -, -, -, -, h10, -, -⟩ := qchanInit_ok hs
  obtain ⟨out, W, -, x2, x3, x4, w2, w3, w4, hv⟩ :=
    C45_coherent_value (eig := eig) ho horth c₂ n h₂ rho hr hc false
  obtain ⟨out', W', -, x2', x3', x4', w2', w3', w4', hv'⟩ :=
    C45_coherent_value (eig := eig) hti (Or.inr rfl) c₃ n h₃ rho hr hc false
  have hlen : (ops₁.compose ops₂).len = ops₁.len * ops₂.len := rfl
  rw [hlen] at w2' w3' w4' x4'
  rw [compose_ops ops₁ ops₂ ops₁.len ops₂.len (e₁ ^ b₁) (d₁ ^ a₁) (d₂ ^ a₂) h10 rfl] at x4' w4'
  rw [hmid] at x4' w4' htp₁
  have htp' := Spec.tensorPow_tp _ n htp₂
  have htpc := Spec.tensorPow_tp _ n (Spec.tp_comp _ _ htp₁ htp₂)
  obtain ⟨D1, D2⟩ := kraus_densities _ _ htp' hrho
  obtain ⟨D3, D4⟩ := kraus_densities _ _ htpc hrho
  rw [← x4] at D1
  rw [← w4] at D2
  rw [← x4'] at D3
  rw [← w4'] at D4
  have key := kraus_data_processing _ (Spec.tensorPow_tp _ n htp₁) _ _
    (fun ρ => Spec.applyKraus_comp_pow _ _ n ρ) hrho.1 (w := fun i => eig out i) (v := fun i => eig W i)
    (w' := fun i => eig out' i) (v' := fun i => eig W' i)
    (by rw [← x4]; exact heig out _ x2 x3 D1.1.isHermitian)
    (by rw [← w4]; exact heig W _ w2 w3 D2.1.isHermitian)
    (by rw [← x4']; exact heig out' _ x2' x3' D3.1.isHermitian)
    (by rw [← w4']; exact heig W' _ w2' w3' D4.1.isHermitian)
  have hlog : 0 < Real.log 2 := Real.log_pos (by norm_num)
  have key2 := div_le_div_of_nonneg_right key hlog.le
  rw [sub_div, sub_div, ← shannon_negMulLog, ← shannon_negMulLog, ← shannon_negMulLog, ← shannon_negMulLog] at key2
  obtain ⟨a1, a2⟩ := entropyOne_cut heig x2 x3 D1
  obtain ⟨b1, b2⟩ := entropyOne_cut heig w2 w3 D2
  obtain ⟨c1, c2⟩ := entropyOne_cut heig x2' x3' D3
  obtain ⟨d1, d2⟩ := entropyOne_cut heig w2' w3' D4
  refine ⟨_, _, hv', hv, ?_⟩
  rw [if_neg (by simp), if_neg (by simp)]
  linarith

/-- The hypotheses of C78 are met: dephasing after the dephasing of a sparse object that was used before, two uses, for every
density matrix of two qubits. -/
example : ∃ (eig : Eigvalsh) (s o t : KrausObj), eig.Correct ∧ QChan.init false dephOps 1 1 2 2 [] = .ok s ∧
    QChan.init true dephOps 1 1 2 2 [] = .ok o ∧ QChan.add s o = .ok t ∧
    ∀ rho : Arr ℂ, rho.rows = 4 → rho.cols = 4 → Spec.IsDensity (rho.mat 4 4) →
    ∃ v w, (QChan.coherentInformation eig t rho 2 false).1 = .ok v ∧
      (QChan.coherentInformation eig (QChan.history o [.update 3]) rho 2 false).1 = .ok w ∧ v ≤ w + 20 * (4 / 10 ^ 9) := by
  obtain ⟨eig, heig⟩ := exists_eigvalsh
  obtain ⟨s, hs⟩ := deph_ok false []
  obtain ⟨o, ho⟩ := deph_ok true []
  obtain ⟨t, ht, -⟩ := C32_add hs ho [] [] dephOps_tp dephOps_tp rfl
  refine ⟨eig, s, o, t, heig, hs, ho, ht, fun rho h1 h2 h3 => ?_⟩
  obtain ⟨v, w, hv, hw, hle⟩ := C78_data_processing heig hs ho (Or.inl rfl) [] [] ht dephOps_tp dephOps_tp [.update 3] [] 2
    ⟨by simp [QChan.Call.uses], by simp [QChan.Call.uses]⟩ ⟨by simp, by simp⟩ rho h1 h2 h3
  refine ⟨v, w, hv, hw, hle.trans (le_of_eq ?_)⟩
  simp only [dephOps]
  norm_num

end Composition

/-! ## C79: a channel that can be undone -/

section Recovery

variable {sp₁ sp : Bool} {ops₁ ops : Arr3 ℂ} {a₁ b₁ d₁ e₁ a b d e : ℕ} {orth₁ orth : List ℕ} {r o : KrausObj}

/-- **C79**.  If some channel `r` undoes `n` uses of the channel `o` (`r.channel(o.channel(x, n), n)` is `x` for every `x`), then the
coherent information of `o` is the entropy of the input, for every density matrix, up to the cut-off of small eigenvalues.
So a coherent information that falls short of the entropy of the input proves that no decoder exists. -/
theorem C79_recoverable (heig : eig.Correct) (hr' : QChan.init sp₁ ops₁ a₁ b₁ d₁ e₁ orth₁ = .ok r)
    (h : QChan.init sp ops a b d e orth = .ok o) (ho : sp = true ∨ orth = [])
    (htp₁ : Spec.TracePreserving (ops₁.ops ops₁.len (e₁ ^ b₁) (d₁ ^ a₁)))
    (htp : Spec.TracePreserving (ops.ops ops.len (e ^ b) (d ^ a)))
    (hin : d₁ ^ a₁ = e ^ b) (hout : e₁ ^ b₁ = d ^ a)
    (c₁ calls : List QChan.Call) (n : ℕ) (h₁ : Spec.SafeUses sp₁ (c₁.map QChan.Call.uses ++ [n]))
    (hsafe : Spec.SafeUses sp (calls.map QChan.Call.uses ++ [n]))
    (hrec : ∀ x : Arr ℂ, x.rows = (d ^ a) ^ n → x.cols = (d ^ a) ^ n →
      ∃ y z, (QChan.channel (QChan.history o calls) x n false).1 = .ok y ∧
        (QChan.channel (QChan.history r c₁) y n false).1 = .ok z ∧ Arr.Same z x)
    (rho : Arr ℂ) (hr : rho.rows = (d ^ a) ^ n) (hc : rho.cols = (d ^ a) ^ n)
    (hrho : Spec.IsDensity (rho.mat ((d ^ a) ^ n) ((d ^ a) ^ n))) :
    ∃ v s, (QChan.coherentInformation eig (QChan.history o calls) rho n false).1 = .ok v ∧
      entropyList eig entropyCut [rho] = .ok s ∧
      v ≤ s + ((ops.len ^ n : ℕ) + ((d ^ a) ^ n : ℕ)) * (4 / 10 ^ 9) ∧
      s ≤ v + ((e ^ b) ^ n : ℕ) * (4 / 10 ^ 9) := by
  obtain ⟨v, s, hv, hs, hle, -, -⟩ := C67_input_entropy heig h ho htp calls n hsafe rho hr hc hrho
  refine ⟨v, s, hv, hs, hle, ?_⟩
  obtain ⟨out, W, -, x2, x3, x4, w2, w3, w4, hv'⟩ := C45_coherent_value (eig := eig) h ho calls n hsafe rho hr hc false
  rw [hv] at hv'
  have hv' := Except.ok.inj hv'
  rw [if_neg (by simp)] at hv'
  have hk : ∀ ρ, Spec.applyKraus (Spec.tensorPow (ops₁.ops ops₁.len (d ^ a) (e ^ b)) n)
      (Spec.applyKraus (Spec.tensorPow (ops.ops ops.len (e ^ b) (d ^ a)) n) ρ) = ρ := by
    intro ρ
    obtain ⟨y, z, hy, hz, hsame⟩ := hrec (Arr.ofMat ρ) rfl rfl
    obtain ⟨y', y1, y2, y3, y4⟩ := api_channel h calls n hsafe (Arr.ofMat ρ) rfl rfl
    rw [hy] at y1
    injection y1 with y1
    subst y1
    obtain ⟨z', z1, z2, z3, z4⟩ := api_channel hr' c₁ n h₁ y (by rw [hin]; exact y2) (by rw [hin]; exact y3)
    rw [hz] at z1
    injection z1 with z1
    subst z1
    rw [Arr.same_iff_mat] at hsame
    obtain ⟨-, -, hm⟩ := hsame
    rw [hin, hout] at z4
    rw [hout] at z2 z3
    rw [z2, z3] at hm
    rw [Arr.ofMat_mat] at y4 hm
    rw [← y4, ← z4, hm]
  rw [hin, hout] at htp₁
  have htp' := Spec.tensorPow_tp _ n htp
  obtain ⟨D1, D2⟩ := kraus_densities _ _ htp' hrho
  rw [← x4] at D1
  rw [← w4] at D2
  have key := kraus_recoverable _ (Spec.tensorPow_tp _ n htp₁) _ hk hrho.1 hrho.2 (w := fun i => eig out i)
    (v := fun i => eig W i) (u := fun i => eig rho i)
    (by rw [← x4]; exact heig out _ x2 x3 D1.1.isHermitian)
    (by rw [← w4]; exact heig W _ w2 w3 D2.1.isHermitian)
    (heig rho _ hr hc hrho.1.isHermitian)
  have hlog : 0 < Real.log 2 := Real.log_pos (by norm_num)
  have key2 := div_le_div_of_nonneg_right key hlog.le
  rw [sub_div, ← shannon_negMulLog, ← shannon_negMulLog, ← shannon_negMulLog] at key2
  obtain ⟨a1, a2⟩ := entropyOne_cut heig x2 x3 D1
  obtain ⟨b1, b2⟩ := entropyOne_cut heig w2 w3 D2
  obtain ⟨c1, c2⟩ := entropyOne_cut heig hr hc hrho
  rw [entropyList_one eig entropyCut rho (hr.trans hc.symm)] at hs
  injection hs with hs
  rw [hv', ← hs]
  linarith

/-- A qubit together with a second one that is 0 or 1 with the probabilities 9/25 and 16/25. -/
noncomputable def attachOps : Arr3 ℂ :=
  ⟨2, 4, 2, fun k i j => if i = 2 * j + k then (if k = 0 then 3 / 5 else 4 / 5) else 0⟩

theorem attachOps_tp : Spec.TracePreserving (attachOps.ops attachOps.len (2 ^ 2) (2 ^ 1)) := by
  unfold Spec.TracePreserving
  change ∑ i : Fin 2, (attachOps.ops 2 4 2 i)ᴴ * attachOps.ops 2 4 2 i = (1 : Matrix (Fin 2) (Fin 2) ℂ)
  ext i j
  simp only [attachOps, Matrix.sum_apply, Matrix.mul_apply, conjTranspose_apply, Arr3.ops, Matrix.one_apply]
  fin_cases i <;> fin_cases j <;> simp [Fin.sum_univ_two, Fin.sum_univ_four] <;>
    simp only [map_ofNat] <;> norm_num

theorem attach_undone (ρ : Matrix (Fin (2 ^ 1)) (Fin (2 ^ 1)) ℂ) :
    Spec.applyKraus (ptraceOps.ops ptraceOps.len (2 ^ 1) (2 ^ 2))
      (Spec.applyKraus (attachOps.ops attachOps.len (2 ^ 2) (2 ^ 1)) ρ) = ρ := by
  change ∑ i : Fin 2, ptraceOps.ops 2 2 4 i * (∑ k : Fin 2, attachOps.ops 2 4 2 k * (ρ : Matrix (Fin 2) (Fin 2) ℂ) *
    (attachOps.ops 2 4 2 k)ᴴ) * (ptraceOps.ops 2 2 4 i)ᴴ = ρ
  ext i j
  simp only [ptraceOps, attachOps, Matrix.sum_apply, Matrix.mul_apply, conjTranspose_apply, Arr3.ops]
  fin_cases i <;> fin_cases j <;> simp [Fin.sum_univ_two, Fin.sum_univ_four] <;> simp only [map_ofNat] <;> ring

/-- The hypotheses of C79 are met: attaching a random qubit, which has two Kraus operators, is undone by the partial trace. -/
example : ∃ (eig : Eigvalsh) (o r : KrausObj), eig.Correct ∧ QChan.init false attachOps 1 2 2 2 [] = .ok o ∧
    QChan.init true ptraceOps 2 1 2 2 [] = .ok r ∧
    ∀ rho : Arr ℂ, rho.rows = 2 → rho.cols = 2 → Spec.IsDensity (rho.mat 2 2) →
    ∃ v s, (QChan.coherentInformation eig o rho 1 false).1 = .ok v ∧ entropyList eig entropyCut [rho] = .ok s ∧
      |v - s| ≤ 4 * (4 / 10 ^ 9) := by
  obtain ⟨eig, heig⟩ := exists_eigvalsh
  obtain ⟨o, ho⟩ := init_exact false attachOps 1 2 2 2 [] (by decide) rfl rfl attachOps_tp
  obtain ⟨r, hr⟩ := init_exact true ptraceOps 2 1 2 2 [] (by decide) rfl rfl ptraceOps_tp
  refine ⟨eig, o, r, heig, ho, hr, fun rho h1 h2 h3 => ?_⟩
  obtain ⟨v, s, hv, hs, h4, h5⟩ := C79_recoverable heig hr ho (Or.inr rfl) ptraceOps_tp attachOps_tp rfl rfl [] [] 1
    ⟨by simp, by simp⟩ ⟨by simp, by simp⟩ (fun x x1 x2 => by
      obtain ⟨y, y1, y2, y3, y4⟩ := api_channel ho [] 1 ⟨by simp, by simp⟩ x x1 x2
      obtain ⟨z, z1, z2, z3, z4⟩ := api_channel hr [] 1 ⟨by simp, by simp⟩ y y2 y3
      refine ⟨y, z, y1, z1, ?_⟩
      rw [Arr.same_iff_mat, z2, z3, x1, x2]
      refine ⟨rfl, rfl, ?_⟩
      rw [tensorPow_one_eq] at y4 z4
      refine z4.trans (Eq.trans (congrArg _ y4) ?_)
      exact attach_undone _) rho h1 h2 h3
  refine ⟨v, s, hv, hs, ?_⟩
  simp only [attachOps] at h4 h5
  norm_num at h4 h5
  rw [abs_le]
  constructor <;> norm_num <;> linarith

/-! ## C80: channels that keep the maximally mixed state -/

/-- **C80**.  If `n` uses of a trace preserving channel map the identity matrix to itself, then they never lower the `entropy` of a
density matrix, up to the cut-off of small eigenvalues. -/
theorem C80_unital (heig : eig.Correct) (h : QChan.init sp ops a b d e orth = .ok o)
    (htp : Spec.TracePreserving (ops.ops ops.len (e ^ b) (d ^ a))) (hdim : e ^ b = d ^ a)
    (calls : List QChan.Call) (n : ℕ) (hsafe : Spec.SafeUses sp (calls.map QChan.Call.uses ++ [n]))
    (one : Arr ℂ) (h1 : one.rows = (d ^ a) ^ n) (h2 : one.cols = (d ^ a) ^ n)
    (hone : one.mat ((d ^ a) ^ n) ((d ^ a) ^ n) = 1)
    (hI : ∃ y, (QChan.channel (QChan.history o calls) one n false).1 = .ok y ∧ Arr.Same y one)
    (rho : Arr ℂ) (hr : rho.rows = (d ^ a) ^ n) (hc : rho.cols = (d ^ a) ^ n)
    (hrho : Spec.IsDensity (rho.mat ((d ^ a) ^ n) ((d ^ a) ^ n))) :
    ∃ out s s', (QChan.channel (QChan.history o calls) rho n false).1 = .ok out ∧
      entropyList eig entropyCut [rho] = .ok s ∧ entropyList eig entropyCut [out] = .ok s' ∧
      s ≤ s' + ((d ^ a) ^ n : ℕ) * (4 / 10 ^ 9) := by
  obtain ⟨out, x1, x2, x3, x4⟩ := api_channel h calls n hsafe rho hr hc
  obtain ⟨y, hy, hsame⟩ := hI
  obtain ⟨y', y1, y2, y3, y4⟩ := api_channel h calls n hsafe one h1 h2
  rw [hy] at y1
  injection y1 with y1
  subst y1
  rw [Arr.same_iff_mat] at hsame
  obtain ⟨-, -, hm⟩ := hsame
  rw [hdim] at x2 x3 x4 y2 y3 y4 htp
  rw [y2, y3, y4, hone] at hm
  have htp' := Spec.tensorPow_tp _ n htp
  obtain ⟨D1, -⟩ := kraus_densities _ _ htp' hrho
  rw [← x4] at D1
  have key := kraus_unital _ htp' hm hrho.1 (w := fun i => eig out i) (u := fun i => eig rho i)
    (by rw [← x4]; exact heig out _ x2 x3 D1.1.isHermitian) (heig rho _ hr hc hrho.1.isHermitian)
  have hlog : 0 < Real.log 2 := Real.log_pos (by norm_num)
  have key2 := div_le_div_of_nonneg_right key hlog.le
  rw [← shannon_negMulLog, ← shannon_negMulLog] at key2
  obtain ⟨a1, a2⟩ := entropyOne_cut heig x2 x3 D1
  obtain ⟨c1, c2⟩ := entropyOne_cut heig hr hc hrho
  refine ⟨out, _, _, x1, entropyList_one eig entropyCut rho (hr.trans hc.symm),
    entropyList_one eig entropyCut out (x2.trans x3.symm), ?_⟩
  linarith

/-- The hypotheses of C80 are met by dephasing, for every density matrix of a qubit. -/
example : ∃ (eig : Eigvalsh) (o : KrausObj), eig.Correct ∧ QChan.init false dephOps 1 1 2 2 [] = .ok o ∧
    ∀ rho : Arr ℂ, rho.rows = 2 → rho.cols = 2 → Spec.IsDensity (rho.mat 2 2) →
    ∃ out s s', (QChan.channel o rho 1 false).1 = .ok out ∧ entropyList eig entropyCut [rho] = .ok s ∧
      entropyList eig entropyCut [out] = .ok s' ∧ s ≤ s' + 2 * (4 / 10 ^ 9) := by
  obtain ⟨eig, heig⟩ := exists_eigvalsh
  obtain ⟨o, ho⟩ := deph_ok false []
  refine ⟨eig, o, heig, ho, fun rho h1 h2 h3 => ?_⟩
  obtain ⟨out, s, s', hx, hs, hs', hle⟩ := C80_unital heig ho dephOps_tp rfl [] 1 ⟨by simp, by simp⟩ (Arr.ofMat (1 : Matrix (Fin 2) (Fin 2) ℂ)) rfl rfl
    (Arr.ofMat_mat _) (by
      obtain ⟨y, y1, y2, y3, y4⟩ := api_channel ho [] 1 ⟨by simp, by simp⟩ (Arr.ofMat (1 : Matrix (Fin 2) (Fin 2) ℂ)) rfl rfl
      refine ⟨y, y1, ?_⟩
      rw [Arr.same_iff_mat, y2, y3]
      refine ⟨rfl, rfl, ?_⟩
      rw [tensorPow_one_eq] at y4
      refine y4.trans ?_
      change Spec.applyKraus (dephOps.ops 2 2 2) ((Arr.ofMat (1 : Matrix (Fin 2) (Fin 2) ℂ)).mat 2 2) = (Arr.ofMat (1 : Matrix (Fin 2) (Fin 2) ℂ)).mat 2 2
      rw [Arr.ofMat_mat]
      ext i j
      simp only [Spec.applyKraus, dephOps, Matrix.sum_apply, Matrix.mul_apply, conjTranspose_apply, Arr3.ops]
      fin_cases i <;> fin_cases j <;> simp [Fin.sum_univ_two]) rho h1 h2 h3
  refine ⟨out, s, s', hx, hs, hs', ?_⟩
  simpa using hle

end Recovery

end PyQ
