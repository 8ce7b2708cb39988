import Verif.Props.OptimizeState
import Verif.Props.ChoiInfo
import Verif.Props.FidelityProduct

/-!
# C86: the optimisation belongs to the channel, and the optimisation of a channel given by its Choi matrix
-/

namespace PyQ

open Matrix
open scoped ComplexOrder

variable {g : Rng} {sp : Scipy} {eig : Eigvalsh} {sqrtm : Sqrtm} {rank maxiter : ℕ} {optimizer objective name : String}
  {param : ParamArg} {lipschitz usePool : PyNum} {samples : SamplesArg} {out : OptOutput} {reg : Bool}

/-- `optimize_procedure` depends on the channel only through its input dimension and its values on density matrices, if
the parameterisation is given by name. -/
theorem optimizeProcedure_congr {c c' : ChanView} {N : ℕ} (hN : c.inputDim = N) (hN' : c'.inputDim = N)
    (hc : objective = "coherent" → ∀ rho : Arr ℂ, rho.rows = N → rho.cols = N → Spec.IsDensity (rho.mat N N) →
      c.coherent rho = c'.coherent rho)
    (hf : objective = "fidelity" → ∀ rho : Arr ℂ, rho.rows = N → rho.cols = N → Spec.IsDensity (rho.mat N N) →
      c.fidelity rho = c'.fidelity rho) :
    optimizeProcedure g sp c rank optimizer (.str name) objective lipschitz usePool maxiter samples =
      optimizeProcedure g sp c' rank optimizer (.str name) objective lipschitz usePool maxiter samples := by
  unfold optimizeProcedure
  rw [hN, hN']
  rcases hP : getScheme g (.str name) with e | P
  · rfl
  have hden : ∀ vec r rho, P.rho vec N r = .ok rho → rho.rows = N ∧ rho.cols = N ∧ Spec.IsDensity (rho.mat N N) := by
    intro vec r rho h
    simp only [getScheme] at hP
    split_ifs at hP
    · injection hP with hP
      subst hP
      exact ⟨(over_density h).1, (over_density h).2.1, (over_density h).2.2.1, (over_density h).2.2.2.1⟩
    · injection hP with hP
      subst hP
      exact ⟨(cholesky_density h).1, (cholesky_density h).2.1, (cholesky_density h).2.2.1, (cholesky_density h).2.2.2.1⟩
  have hobj : chooseObjective c P N rank objective = chooseObjective c' P N rank objective := by
    unfold chooseObjective
    split_ifs with h1 h2
    · congr 1
      funext vec
      rcases hr : P.rho vec N rank with e | rho
      · rfl
      · obtain ⟨x1, x2, x3⟩ := hden _ _ _ hr
        simp only [bind, Except.bind]
        rw [hc h1 rho x1 x2 x3]
    · congr 1
      funext vec
      rcases hr : P.rho vec N 1 with e | rho
      · rfl
      · obtain ⟨x1, x2, x3⟩ := hden _ _ _ hr
        simp only [bind, Except.bind]
        rw [hf h2 rho x1 x2 x3]
    · rfl
  simp only [bind, Except.bind]
  rw [hobj]

variable {spk spk' : Bool} {ops ops' : Arr3 ℂ} {a b d e n : ℕ} {orth orth' : List ℕ} {o o' : KrausObj}
  {calls calls' : List QChan.Call}

theorem sync_safe (h : QChan.init spk ops a b d e orth = .ok o)
    (hsafe : Spec.SafeUses spk (calls.map QChan.Call.uses ++ [n])) :
    ∃ rho, QChan.sync (QChan.history o calls) n = (.ok (), QChan.history o (calls ++ [.channel rho n false])) := by
  obtain ⟨out, x1, -⟩ := api_channel h calls n hsafe ⟨(d ^ a) ^ n, (d ^ a) ^ n, fun _ _ => 0⟩ rfl rfl
  rcases hs : QChan.sync (QChan.history o calls) n with ⟨x | u, o1⟩
  · rw [QChan.channel, hs] at x1
    cases x1
  · obtain ⟨rho, rfl⟩ := sync_history hs
    exact ⟨rho, rfl⟩

/-- C86.  `optimize_coherent` belongs to the channel: for Kraus operators of the same map, in any number and storage and
after any calls, it returns the same dictionary (state, value, status) or raises the same error, for any optimiser and
options. -/
theorem C86_coherent_representation (heig : eig.Correct) (h : QChan.init spk ops a b d e orth = .ok o)
    (h' : QChan.init spk' ops' a b d e orth' = .ok o') (ho : spk = true ∨ orth = []) (ho' : spk' = true ∨ orth' = [])
    (hsame : Spec.SameChannel (ops.ops ops.len (e ^ b) (d ^ a)) (ops'.ops ops'.len (e ^ b) (d ^ a)))
    (hsafe : Spec.SafeUses spk (calls.map QChan.Call.uses ++ [n]))
    (hsafe' : Spec.SafeUses spk' (calls'.map QChan.Call.uses ++ [n])) :
    (QChan.optimizeCoherent g sp eig sqrtm (QChan.history o calls) n rank optimizer (.str name) lipschitz usePool
        maxiter samples reg).1 =
      (QChan.optimizeCoherent g sp eig sqrtm (QChan.history o' calls') n rank optimizer (.str name) lipschitz usePool
        maxiter samples reg).1 := by
  obtain ⟨r, hs⟩ := sync_safe h hsafe
  obtain ⟨r', hs'⟩ := sync_safe h' hsafe'
  unfold QChan.optimizeCoherent
  rw [hs, hs']
  simp only
  rw [optimizeProcedure_congr (c := QChan.view eig sqrtm (QChan.history o (calls ++ [QChan.Call.channel r n false])) n)
    (c' := QChan.view eig sqrtm (QChan.history o' (calls' ++ [QChan.Call.channel r' n false])) n) (sync_input h hs)
    (sync_input h' hs')]
  · intro _ rho hr hc hd
    obtain ⟨v, v1, v2⟩ := C66_representation heig h h' ho ho' hsame (calls ++ [QChan.Call.channel r n false])
      (calls' ++ [QChan.Call.channel r' n false]) n (by rw [List.map_append]; exact safe_twice hsafe)
      (by rw [List.map_append]; exact safe_twice hsafe') rho hr hc hd.1 false
    exact v1.trans v2.symm
  · intro hh
    exact absurd hh (by decide)

/-- C86.  The same for `optimize_fidelity`, with any groups of orthogonal operators. -/
theorem C86_fidelity_representation (hsqrt : sqrtm.Correct) (h : QChan.init spk ops a b d e orth = .ok o)
    (h' : QChan.init spk' ops' a b d e orth' = .ok o') (N : ℕ) (hin : d ^ a = N) (hout : e ^ b = N)
    (hsame : Spec.SameChannel (ops.ops ops.len N N) (ops'.ops ops'.len N N))
    (hsafe : Spec.SafeUses spk (calls.map QChan.Call.uses ++ [n]))
    (hsafe' : Spec.SafeUses spk' (calls'.map QChan.Call.uses ++ [n])) :
    (QChan.optimizeFidelity g sp eig sqrtm (QChan.history o calls) n optimizer (.str name) lipschitz usePool
        maxiter samples).1 =
      (QChan.optimizeFidelity g sp eig sqrtm (QChan.history o' calls') n optimizer (.str name) lipschitz usePool
        maxiter samples).1 := by
  subst hin
  obtain ⟨r, hs⟩ := sync_safe h hsafe
  obtain ⟨r', hs'⟩ := sync_safe h' hsafe'
  unfold QChan.optimizeFidelity
  rw [hs, hs']
  simp only
  refine optimizeProcedure_congr (sync_input h hs) (sync_input h' hs') (fun hh => absurd hh (by decide)) ?_
  intro _ rho hr hc hd
  obtain ⟨v, v1, v2⟩ := C85_representation hsqrt h h' _ rfl hout hsame (calls ++ [QChan.Call.channel r n false])
    (calls' ++ [QChan.Call.channel r' n false]) n (by rw [List.map_append]; exact safe_twice hsafe)
    (by rw [List.map_append]; exact safe_twice hsafe') rho hr hc hd.1
  exact v1.trans v2.symm

variable {q : QutipChecks} {C : Arr ℂ} {k : ChoiObj}

/-- C86.  A channel built from a Choi matrix is optimised for one use only: any other number raises `AssertionError`,
whatever the options. -/
theorem C86_choi_one_use (k : ChoiObj) (hn : n ≠ 1) :
    ChoiQ.optimizeCoherent g sp eig sqrtm k n rank optimizer param lipschitz usePool maxiter samples reg =
        .error .assertion ∧
      ChoiQ.optimizeFidelity g sp eig sqrtm k n optimizer param lipschitz usePool maxiter samples =
        .error .assertion := by
  unfold ChoiQ.optimizeCoherent ChoiQ.optimizeFidelity pyAssert
  rw [if_neg hn]
  exact ⟨rfl, rfl⟩

theorem choi_input {b : ℕ} (h : ChoiObj.init q C a b d e = .ok k) : k.inputDim = d ^ a := by
  obtain ⟨rfl, -⟩ := choiInit_ok h
  rfl

/-- C86.  `optimize_coherent(1, ...)` of the channel built from its Choi matrix and of the channel built from its Kraus
operators return the same dictionary or raise the same error. -/
theorem C86_choi_coherent (heig : eig.Correct) (hsqrt : sqrtm.Correct) (h : QChan.init spk ops a a d e orth = .ok o)
    (ho : spk = true ∨ orth = []) (hk : ChoiObj.init q C a a d e = .ok k) (hsq : C.rows = C.cols)
    (hC : C.mat (d ^ a * e ^ a) (d ^ a * e ^ a) = Spec.choi (ops.ops ops.len (e ^ a) (d ^ a)))
    (hsafe : Spec.SafeUses spk (calls.map QChan.Call.uses ++ [1])) :
    ChoiQ.optimizeCoherent g sp eig sqrtm k 1 rank optimizer (.str name) lipschitz usePool maxiter samples reg =
      (QChan.optimizeCoherent g sp eig sqrtm (QChan.history o calls) 1 rank optimizer (.str name) lipschitz usePool
        maxiter samples reg).1 := by
  obtain ⟨r, hs⟩ := sync_safe h hsafe
  unfold QChan.optimizeCoherent ChoiQ.optimizeCoherent pyAssert
  rw [hs, if_pos rfl]
  simp only
  rw [optimizeProcedure_congr (c := QChan.view eig sqrtm (QChan.history o (calls ++ [QChan.Call.channel r 1 false])) 1)
    (c' := ChoiQ.view eig sqrtm k 1) ((sync_input h hs).trans (pow_one _)) (choi_input hk)]
  · rfl
  · intro _ rho hr hc hd
    obtain ⟨v, v1, v2⟩ := C34_coherent_information heig hsqrt hk hsq h ho (calls ++ [QChan.Call.channel r 1 false])
      (by rw [List.map_append]; exact safe_twice hsafe) hC rho hr hc hd.1 false
    exact v2.trans v1.symm
  · intro hh
    exact absurd hh (by decide)

/-- C86.  The same for `optimize_fidelity(1, ...)`. -/
theorem C86_choi_fidelity (hsqrt : sqrtm.Correct) (h : QChan.init spk ops a a d e orth = .ok o)
    (hk : ChoiObj.init q C a a d e = .ok k) (hsq : C.rows = C.cols) (N : ℕ) (hin : d ^ a = N) (hout : e ^ a = N)
    (hC : C.mat (N * N) (N * N) = Spec.choi (ops.ops ops.len N N))
    (hsafe : Spec.SafeUses spk (calls.map QChan.Call.uses ++ [1])) :
    ChoiQ.optimizeFidelity g sp eig sqrtm k 1 optimizer (.str name) lipschitz usePool maxiter samples =
      (QChan.optimizeFidelity g sp eig sqrtm (QChan.history o calls) 1 optimizer (.str name) lipschitz usePool
        maxiter samples).1 := by
  subst hin
  obtain ⟨r, hs⟩ := sync_safe h hsafe
  unfold QChan.optimizeFidelity ChoiQ.optimizeFidelity pyAssert
  rw [hs, if_pos rfl]
  simp only
  rw [optimizeProcedure_congr (c := QChan.view eig sqrtm (QChan.history o (calls ++ [QChan.Call.channel r 1 false])) 1)
    (c' := ChoiQ.view eig sqrtm k 1) ((sync_input h hs).trans (pow_one _)) (choi_input hk)
    (fun hh => absurd hh (by decide))]
  · rfl
  · intro _ rho hr hc hd
    obtain ⟨v, v1, v2⟩ := C85_choi hsqrt h hk hsq _ rfl hout hC (calls ++ [QChan.Call.channel r 1 false])
      (by rw [List.map_append]; exact safe_twice hsafe) rho hr hc hd.1
    exact v1.trans v2.symm

/-- C86.  Whatever `optimize_coherent` returns for a channel built from a Choi matrix: the state is a density matrix on
the input space of rank at most `rank`, and the value, with a global method, is the coherent information of that state. -/
theorem C86_choi_coherent_output (hsp : sp.Correct) (hk : ChoiObj.init q C a b d e = .ok k)
    (hopt : ChoiQ.optimizeCoherent g sp eig sqrtm k n rank optimizer (.str name) lipschitz usePool maxiter samples reg =
      .ok out) :
    out.rho.rows = d ^ a ∧ out.rho.cols = d ^ a ∧ Spec.DensityOfRank (out.rho.mat (d ^ a) (d ^ a)) rank ∧
      (optimizer = "diffev" ∨ usePool.toInt ≠ 0 →
        ∃ v, out.val = .num v ∧ ChoiQ.coherentInformation eig sqrtm k out.rho 1 false = .ok v) := by
  unfold ChoiQ.optimizeCoherent at hopt
  obtain ⟨_, hn, hopt⟩ := bind_ok_iff.mp hopt
  obtain rfl := pyAssert_ok hn
  obtain ⟨r, hr, hopt⟩ := bind_ok_iff.mp hopt
  obtain ⟨s1, s2, s3⟩ := optimize_density hr (choi_input hk)
  have ho : out.rho = r.rho ∧ ∀ v, r.val = .num v → out.val = .num v := by
    split_ifs at hopt
    · unfold divideVal at hopt
      split at hopt
      · rename_i w hw
        rw [if_neg one_ne_zero] at hopt
        injection hopt with hopt
        rw [← hopt]
        refine ⟨rfl, fun v hv => ?_⟩
        rw [hw] at hv
        injection hv with hv
        simp [hv]
      · cases hopt
    · injection hopt with hopt
      rw [← hopt]
      exact ⟨rfl, fun v hv => hv⟩
  rw [ho.1]
  refine ⟨s1, s2, s3, fun hm => ?_⟩
  obtain ⟨v, hv, hcv⟩ := C39_coherent_value hsp hr hm
  exact ⟨v, ho.2 v hv, hcv⟩

/-- C86.  Whatever `optimize_fidelity` returns for a channel built from the Choi matrix of a trace preserving map with
equal dimensions: the state is a pure state on the input space, and the value, with a global method, is the fidelity of
that state, which is between zero and one. -/
theorem C86_choi_fidelity_output (hsp : sp.Correct) (hsqrt : sqrtm.Correct) (hk : ChoiObj.init q C a a d e = .ok k)
    (hsq : C.rows = C.cols) {l N : ℕ} (hin : d ^ a = N) (hout : e ^ a = N) (K : Fin l → Matrix (Fin N) (Fin N) ℂ)
    (hC : C.mat (N * N) (N * N) = Spec.choi K) (htp : Spec.TracePreserving K)
    (hopt : ChoiQ.optimizeFidelity g sp eig sqrtm k n optimizer (.str name) lipschitz usePool maxiter samples =
      .ok out) :
    out.rho.rows = N ∧ out.rho.cols = N ∧ Spec.DensityOfRank (out.rho.mat N N) 1 ∧
      (optimizer = "diffev" ∨ usePool.toInt ≠ 0 →
        ∃ v, out.val = .num v ∧ ChoiQ.fidelityTwoStates sqrtm k out.rho 1 = .ok v ∧
          Spec.IsFidelity (out.rho.mat N N) (Spec.applyKraus K (out.rho.mat N N)) v ∧ 0 ≤ v ∧ v ≤ 1) := by
  subst hin
  unfold ChoiQ.optimizeFidelity at hopt
  obtain ⟨_, hn, hopt⟩ := bind_ok_iff.mp hopt
  obtain rfl := pyAssert_ok hn
  obtain ⟨s1, s2, s3⟩ := optimize_density hopt (choi_input hk)
  refine ⟨s1, s2, s3, fun hm => ?_⟩
  obtain ⟨v, hv, hfv⟩ := C39_fidelity_value hsp hopt hm
  obtain ⟨F, f1, f2⟩ := C50_choi hsqrt hk hsq rfl hout K hC out.rho s1 s2 s3.1
  have hF : F = v := Except.ok.inj (f1.symm.trans hfv)
  subst hF
  refine ⟨F, hv, f1, f2, ?_⟩
  exact f2.range ⟨s3.1, s3.2.1⟩ ⟨Spec.applyKraus_posSemidef _ s3.1, (Spec.applyKraus_trace _ htp _).trans s3.2.1⟩

/-! ### Cases that meet the hypotheses -/

/-- The run of `optimize_fidelity` in `deph_fidelity_run`, of the dephasing channel built from its Choi matrix: it returns
a dictionary, as `C86_choi_fidelity` and `C86_choi_fidelity_output` say. -/
example (hsqrt : sqrtm.Correct) (eig : Eigvalsh) : ∃ k out,
    ChoiObj.init ⟨fun _ _ _ => true, fun _ _ _ => true⟩ dephChoi 1 1 2 2 = .ok k ∧
    ChoiQ.optimizeFidelity twoDraws lazyScipy eig sqrtm k 1 "diffev" (.str "overparam") (.int 0) (.int 0) 50
      ⟨true, [[1, 0, 1, 0]]⟩ = .ok out ∧ Spec.DensityOfRank (out.rho.mat 2 2) 1 ∧
    ∃ v, out.val = .num v ∧ 0 ≤ v ∧ v ≤ 1 := by
  obtain ⟨o, out, h1, h2, -⟩ := deph_fidelity_run hsqrt eig
  have hk : ChoiObj.init ⟨fun _ _ _ => true, fun _ _ _ => true⟩ dephChoi 1 1 2 2 = .ok ⟨dephChoi, 1, 1, 2, 2⟩ := rfl
  have h3 := C86_choi_fidelity (g := twoDraws) (sp := lazyScipy) (eig := eig) (optimizer := "diffev")
    (name := "overparam") (lipschitz := .int 0) (usePool := .int 0) (maxiter := 50) (samples := ⟨true, [[1, 0, 1, 0]]⟩)
    (calls := []) hsqrt h1 hk rfl 2 rfl rfl (Arr.ofMat_mat _) ⟨by simp, by simp⟩
  have h4 := h3.trans h2
  obtain ⟨-, -, x3, x4⟩ := C86_choi_fidelity_output lazyScipy_correct hsqrt hk rfl rfl rfl _ (Arr.ofMat_mat _) dephOps_tp h4
  obtain ⟨v, v1, -, -, v2, v3⟩ := x4 (Or.inl rfl)
  exact ⟨_, out, hk, h4, x3, v, v1, v2, v3⟩

/-- The same run with three operators in the sparse format, returns the same dictionary:
the hypotheses of `C86_fidelity_representation` hold. -/
example (hsqrt : sqrtm.Correct) (eig : Eigvalsh) : ∃ o o' out, QChan.init false dephOps 1 1 2 2 [] = .ok o ∧
    QChan.init true dephOps3 1 1 2 2 [] = .ok o' ∧
    (QChan.optimizeFidelity twoDraws lazyScipy eig sqrtm o 1 "diffev" (.str "overparam") (.int 0) (.int 0) 50
      ⟨true, [[1, 0, 1, 0]]⟩).1 = .ok out ∧
    (QChan.optimizeFidelity twoDraws lazyScipy eig sqrtm o' 1 "diffev" (.str "overparam") (.int 0) (.int 0) 50
      ⟨true, [[1, 0, 1, 0]]⟩).1 = .ok out := by
  obtain ⟨o, out, h1, h2, -⟩ := deph_fidelity_run hsqrt eig
  obtain ⟨o', ho'⟩ := init_exact true dephOps3 1 1 2 2 [] (by decide) rfl rfl dephOps3_tp
  refine ⟨o, o', out, h1, ho', h2, ?_⟩
  rw [← h2]
  exact (C86_fidelity_representation (calls := []) (calls' := []) hsqrt h1 ho' 2 rfl rfl deph_same ⟨by simp, by simp⟩
    ⟨by simp, by simp⟩).symm

/-- The run of `optimize_coherent` in `C39_best_refuted`, of the identity channel built from its Choi matrix: the
hypotheses of `C86_choi_coherent` and `C86_choi_coherent_output` hold. -/
example (heig : eig.Correct) (hsqrt : sqrtm.Correct) : ∃ k out,
    ChoiObj.init ⟨fun _ _ _ => true, fun _ _ _ => true⟩
      (Arr.ofMat (Spec.choi ((idOps 1).ops (idOps 1).len (2 ^ 1) (2 ^ 1)))) 1 1 2 2 = .ok k ∧
    ChoiQ.optimizeCoherent twoDraws lazyScipy eig sqrtm k 1 2 "slsqp" (.str "overparam") (.int 2) (.int 1) 50
      ⟨true, []⟩ false = .ok out ∧ Spec.DensityOfRank (out.rho.mat (2 ^ 1) (2 ^ 1)) 2 ∧
    ∃ v, out.val = .num v ∧ ChoiQ.coherentInformation eig sqrtm k out.rho 1 false = .ok v := by
  obtain ⟨o, ho, -, out, hout, -⟩ := C39_best_refuted heig sqrtm
  have hk : ChoiObj.init ⟨fun _ _ _ => true, fun _ _ _ => true⟩
      (Arr.ofMat (Spec.choi ((idOps 1).ops (idOps 1).len (2 ^ 1) (2 ^ 1)))) 1 1 2 2 = .ok ⟨_, 1, 1, 2, 2⟩ := rfl
  have h3 := C86_choi_coherent (g := twoDraws) (sp := lazyScipy) (rank := 2) (optimizer := "slsqp")
    (name := "overparam") (lipschitz := .int 2) (usePool := .int 1) (maxiter := 50) (samples := ⟨true, []⟩) (reg := false)
    (calls := []) heig hsqrt ho (Or.inl rfl) hk rfl (Arr.ofMat_mat _) ⟨by simp, by simp⟩
  have h4 := h3.trans hout
  obtain ⟨-, -, x3, x4⟩ := C86_choi_coherent_output lazyScipy_correct hk h4
  exact ⟨_, out, hk, h4, x3, x4 (Or.inr (by decide))⟩

end PyQ
