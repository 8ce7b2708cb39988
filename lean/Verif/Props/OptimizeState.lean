import Verif.Props.Fidelity
import Verif.Props.ParamCholesky

/-!
# C51: the state and the value reported by the optimisers
-/

namespace PyQ

open Matrix
open scoped ComplexOrder

theorem normalizedGram_density {A ρ : Arr ℂ} {n r : ℕ} (h1 : A.rows = n) (h2 : A.cols = r)
    (h : normalizedGram A = .ok ρ) : ρ.rows = n ∧ ρ.cols = n ∧ Spec.DensityOfRank (ρ.mat n n) r := by
  have hne : A.mat n r ≠ 0 := by
    intro h0
    subst h1 h2
    rw [normalizedGram_spec, if_pos h0] at h
    cases h
  obtain ⟨ρ', x1, x2, x3, x4⟩ := normalizedGram_ok A n r h1 h2 hne
  rw [h] at x1
  injection x1 with x1
  subst x1
  exact ⟨x2, x3, by rw [x4]; exact normalized_density _ hne⟩

theorem pyAssert_ok {p : Prop} [Decidable p] {u : Unit} (h : pyAssert p = .ok u) : p := by
  unfold pyAssert at h
  split_ifs at h with hp
  exact hp

/-- Whatever `OverParam.rho_from_vec` returns is a density matrix of rank at most `rank`. -/
theorem over_density {vec : List ℝ} {n r : ℕ} {ρ : Arr ℂ} (h : OverParam.rhoFromVec vec n (some r) = .ok ρ) :
    ρ.rows = n ∧ ρ.cols = n ∧ Spec.DensityOfRank (ρ.mat n n) r := by
  rw [OverParam.rhoFromVec_some] at h
  obtain ⟨_, -, h⟩ := bind_ok_iff.mp h
  obtain ⟨_, -, h⟩ := bind_ok_iff.mp h
  unfold OverParam.rhoOfRank at h
  obtain ⟨c, -, h⟩ := bind_ok_iff.mp h
  split_ifs at h
  exact normalizedGram_density (A := ⟨n, r, _⟩) rfl rfl h

/-- Whatever `CholeskyParam.rho_from_vec` returns is a density matrix of rank at most `rank`. -/
theorem cholesky_density {vec : List ℝ} {n r : ℕ} {ρ : Arr ℂ}
    (h : CholeskyParam.rhoFromVec vec n (some r) = .ok ρ) :
    ρ.rows = n ∧ ρ.cols = n ∧ Spec.DensityOfRank (ρ.mat n n) r := by
  unfold CholeskyParam.rhoFromVec at h
  obtain ⟨_, -, h⟩ := bind_ok_iff.mp h
  obtain ⟨_, -, h⟩ := bind_ok_iff.mp h
  obtain ⟨c, -, h⟩ := bind_ok_iff.mp h
  split_ifs at h
  exact normalizedGram_density (A := CholeskyParam.factor vec c n r) rfl rfl h

variable {g : Rng} {sp : Scipy} {c : ChanView} {rank maxiter : ℕ} {optimizer objective name : String}
  {param : ParamArg} {lipschitz usePool : PyNum} {samples : SamplesArg} {out : OptOutput}

/-- `optimal_rho` of `optimize_procedure` is a density matrix on the input space, of rank at most `rank`, if the
parameterisation is given by name. -/
theorem optimize_density
    (h : optimizeProcedure g sp c rank optimizer (.str name) objective lipschitz usePool maxiter samples = .ok out) {N : ℕ}
    (hN : c.inputDim = N) :
    out.rho.rows = N ∧ out.rho.cols = N ∧ Spec.DensityOfRank (out.rho.mat N N) rank := by
  subst hN
  obtain ⟨P, f, bounds, all, r, val, x, hP, -, -, -, -, -, -, -, hrho, -⟩ := optimizeProcedure_ok h
  simp only [getScheme] at hP
  split_ifs at hP
  · injection hP with hP
    subst hP
    exact over_density hrho
  · injection hP with hP
    subst hP
    exact cholesky_density hrho

variable {spk : Bool} {ops : Arr3 ℂ} {a b d e : ℕ} {orth : List ℕ} {o o' : KrausObj} {eig : Eigvalsh}
  {sqrtm : Sqrtm} {n : ℕ} {reg : Bool} {calls : List QChan.Call}

theorem sync_history (hs : QChan.sync (QChan.history o calls) n = (.ok (), o')) :
    ∃ rho, o' = QChan.history o (calls ++ [.channel rho n false]) := by
  refine ⟨⟨0, 0, fun _ _ => 0⟩, ?_⟩
  unfold QChan.history at hs ⊢
  rw [List.foldl_append]
  simp only [List.foldl_cons, List.foldl_nil, QChan.Call.after, QChan.channel]
  rw [hs]

theorem sync_input (h : QChan.init spk ops a b d e orth = .ok o)
    (hs : QChan.sync (QChan.history o calls) n = (.ok (), o')) : QChan.inputDimension o' = (d ^ a) ^ n := by
  obtain ⟨h1, h2, h3, h4, h5, h6, h7, h8, h9, h10, h11, h12⟩ := qchanInit_ok h
  obtain ⟨rho, hh⟩ := sync_history hs
  have hst := history_static o (calls ++ [.channel rho n false])
  rw [← hh] at hst
  unfold QChan.inputDimension
  rw [QChan.sync_curN hs, hst.2.2.2.2.1, hst.2.2.1, h6, h4]

/-- C51.  `optimal_rho` of `optimize_coherent(n, rank, ...)` is a density matrix on the input space of `n` uses,
of rank at most `rank`: for every channel, history, optimiser, random numbers and named parameterisation. -/
theorem C51_coherent_state (h : QChan.init spk ops a b d e orth = .ok o)
    (hopt : QChan.optimizeCoherent g sp eig sqrtm (QChan.history o calls) n rank optimizer (.str name) lipschitz
      usePool maxiter samples reg = (.ok out, o')) :
    out.rho.rows = (d ^ a) ^ n ∧ out.rho.cols = (d ^ a) ^ n ∧
      Spec.DensityOfRank (out.rho.mat ((d ^ a) ^ n) ((d ^ a) ^ n)) rank := by
  unfold QChan.optimizeCoherent at hopt
  rcases hs : QChan.sync (QChan.history o calls) n with ⟨x | u, o1⟩
  · rw [hs] at hopt
    have := congrArg Prod.fst hopt
    cases this
  rw [hs] at hopt
  simp only [Prod.mk.injEq] at hopt
  obtain ⟨hopt, rfl⟩ := hopt
  obtain ⟨r, hr, hopt⟩ := bind_ok_iff.mp hopt
  have hd := optimize_density hr (sync_input h hs)
  have ho : out.rho = r.rho := by
    split_ifs at hopt
    · unfold divideVal at hopt
      split at hopt
      · split_ifs at hopt
        injection hopt with hopt
        rw [← hopt]
      · cases hopt
    · injection hopt with hopt
      rw [← hopt]
  rw [ho]
  exact hd

/-- C51.  `optimal_rho` of `optimize_fidelity(n, ...)` is a density matrix on the input space of `n` uses, of
rank at most one, so it is a pure state. -/
theorem C51_fidelity_state (h : QChan.init spk ops a b d e orth = .ok o)
    (hopt : QChan.optimizeFidelity g sp eig sqrtm (QChan.history o calls) n optimizer (.str name) lipschitz
      usePool maxiter samples = (.ok out, o')) :
    out.rho.rows = (d ^ a) ^ n ∧ out.rho.cols = (d ^ a) ^ n ∧
      Spec.DensityOfRank (out.rho.mat ((d ^ a) ^ n) ((d ^ a) ^ n)) 1 := by
  unfold QChan.optimizeFidelity at hopt
  rcases hs : QChan.sync (QChan.history o calls) n with ⟨x | u, o1⟩
  · rw [hs] at hopt
    have := congrArg Prod.fst hopt
    cases this
  rw [hs] at hopt
  simp only [Prod.mk.injEq] at hopt
  obtain ⟨hopt, rfl⟩ := hopt
  exact optimize_density hopt (sync_input h hs)

/-- C51.  `optimal_val` of `optimize_fidelity(n, ...)` is between zero and one for a trace preserving channel
with equal input and output dimension. -/
theorem C51_fidelity_range (hsp : sp.Correct) (hsqrt : sqrtm.Correct) (h : QChan.init spk ops a b d e orth = .ok o)
    (hsafe : Spec.SafeUses spk (calls.map QChan.Call.uses ++ [n]))
    (N : ℕ) (hin : d ^ a = N) (hout : e ^ b = N) (htp : Spec.TracePreserving (ops.ops ops.len N N))
    (hopt : QChan.optimizeFidelity g sp eig sqrtm (QChan.history o calls) n optimizer (.str name) lipschitz
      usePool maxiter samples = (.ok out, o')) (hm : optimizer = "diffev" ∨ usePool.toInt ≠ 0) :
    ∃ v, out.val = .num v ∧ 0 ≤ v ∧ v ≤ 1 := by
  obtain ⟨s1, s2, s3⟩ := C51_fidelity_state h hopt
  obtain ⟨v, hv, hf⟩ := C39_optimize_fidelity hsp hopt hm
  refine ⟨v, hv, ?_⟩
  have ho' : ∃ rho, o' = QChan.history o (calls ++ [.channel rho n false]) := by
    unfold QChan.optimizeFidelity at hopt
    rcases hs : QChan.sync (QChan.history o calls) n with ⟨x | u, o1⟩
    · rw [hs] at hopt
      have := congrArg Prod.fst hopt
      cases this
    rw [hs] at hopt
    have h2 : o1 = o' := congrArg Prod.snd hopt
    exact h2 ▸ sync_history hs
  obtain ⟨rho, rfl⟩ := ho'
  subst hin
  obtain ⟨F, f1, f2⟩ := C50_range hsqrt h (calls ++ [.channel rho n false]) n (by
    rw [List.map_append]; exact safe_twice hsafe) _ rfl hout htp out.rho s1 s2 ⟨s3.1, s3.2.1⟩
  rw [hf] at f1
  injection f1 with f1
  rw [f1]
  exact f2

/-- C51.  `optimal_val` of `optimize_coherent(n, ..., regularized=False)` is at most `n log₂` of the output
dimension and at least `-n log₂` of the number of operators; with `regularized=True` both without `n`. -/
theorem C51_coherent_range (hsp : sp.Correct) (heig : eig.Correct) (h : QChan.init spk ops a b d e orth = .ok o)
    (ho : spk = true ∨ orth = []) (hsafe : Spec.SafeUses spk (calls.map QChan.Call.uses ++ [n]))
    (htp : Spec.TracePreserving (ops.ops ops.len (e ^ b) (d ^ a)))
    (hopt : QChan.optimizeCoherent g sp eig sqrtm (QChan.history o calls) n rank optimizer (.str name) lipschitz
      usePool maxiter samples reg = (.ok out, o')) (hm : optimizer = "diffev" ∨ usePool.toInt ≠ 0) :
    ∃ v, out.val = .num v ∧ v ≤ (if reg then 1 else n) * Real.logb 2 ((e ^ b : ℕ) : ℝ) ∧
      -((if reg then 1 else n) * Real.logb 2 (ops.len : ℝ)) ≤ v := by
  obtain ⟨s1, s2, s3⟩ := C51_coherent_state h hopt
  obtain ⟨v, hv, hf⟩ := C39_optimize_coherent hsp hopt hm
  refine ⟨v, hv, ?_⟩
  have ho' : ∃ rho, o' = QChan.history o (calls ++ [.channel rho n false]) := by
    unfold QChan.optimizeCoherent at hopt
    rcases hs : QChan.sync (QChan.history o calls) n with ⟨x | u, o1⟩
    · rw [hs] at hopt
      have := congrArg Prod.fst hopt
      cases this
    rw [hs] at hopt
    have h2 : o1 = o' := congrArg Prod.snd hopt
    exact h2 ▸ sync_history hs
  obtain ⟨rho, rfl⟩ := ho'
  have hsafe' : Spec.SafeUses spk ((calls ++ [QChan.Call.channel rho n false]).map QChan.Call.uses ++ [n]) := by
    rw [List.map_append]; exact safe_twice hsafe
  obtain ⟨F, f1, f2, f3⟩ := C45_coherent_bounds heig h ho htp (calls ++ [.channel rho n false]) n hsafe' out.rho
    s1 s2 ⟨s3.1, s3.2.1⟩
  cases reg with
  | false =>
    rw [hf] at f1
    injection f1 with f1
    rw [f1]
    simpa using And.intro f2 f3
  | true =>
    have h1 := coherent_regularized f1
    rw [hf] at h1
    injection h1 with h1
    have hn : 0 < n := by
      have := hsafe.1 n (by simp)
      omega
    have hn' : (0 : ℝ) < n := by exact_mod_cast hn
    rw [h1]
    simp only [if_true, Nat.cast_one, one_mul]
    constructor
    · rw [div_le_iff₀ hn', mul_comm]
      exact f2
    · rw [le_div_iff₀ hn', neg_mul, mul_comm]
      exact f3

/-! ### Cases that meet the hypotheses -/

/-- The run of `optimize_coherent` in `C39_best_refuted` meets the hypotheses of `C51_coherent_state` and
`C51_coherent_range`. -/
example (heig : eig.Correct) (sqrtm : Sqrtm) : ∃ o out, QChan.init true (idOps 1) 1 1 2 2 [] = .ok o ∧
    (QChan.optimizeCoherent twoDraws lazyScipy eig sqrtm o 1 2 "slsqp" (.str "overparam") (.int 2) (.int 1)
        50 ⟨true, []⟩ false).1 = .ok out ∧ Spec.DensityOfRank (out.rho.mat ((2 ^ 1) ^ 1) ((2 ^ 1) ^ 1)) 2 ∧
    ∃ v, out.val = .num v ∧ v ≤ (if false then 1 else 1 : ℕ) * Real.logb 2 ((2 ^ 1 : ℕ) : ℝ) := by
  obtain ⟨o, ho, -, out, hout, -⟩ := C39_best_refuted heig sqrtm
  have hopt : QChan.optimizeCoherent twoDraws lazyScipy eig sqrtm (QChan.history o []) 1 2 "slsqp"
      (.str "overparam") (.int 2) (.int 1) 50 ⟨true, []⟩ false = (.ok out, _) := Prod.ext hout rfl
  obtain ⟨v, h1, h2, -⟩ := C51_coherent_range lazyScipy_correct heig ho (Or.inl rfl) ⟨by simp, by simp⟩ (idOps_tp 1)
    hopt (Or.inr (by decide))
  exact ⟨o, out, ho, hout, (C51_coherent_state ho hopt).2.2, v, h1, h2⟩

/-- `optimize_fidelity` of the dephasing channel, with differential evolution and one sample, meets the
hypotheses of `C51_fidelity_state` and `C51_fidelity_range`. -/
theorem deph_fidelity_run (hsqrt : sqrtm.Correct) (eig : Eigvalsh) : ∃ o out, QChan.init false dephOps 1 1 2 2 [] = .ok o ∧
    (QChan.optimizeFidelity twoDraws lazyScipy eig sqrtm o 1 "diffev" (.str "overparam") (.int 0) (.int 0)
        50 ⟨true, [[1, 0, 1, 0]]⟩).1 = .ok out ∧ Spec.DensityOfRank (out.rho.mat ((2 ^ 1) ^ 1) ((2 ^ 1) ^ 1)) 1 ∧
    ∃ v, out.val = .num v ∧ 0 ≤ v ∧ v ≤ 1 := by
  obtain ⟨o, ho⟩ := deph_ok false []
  obtain ⟨q1, -, -, q2, -, q3, -⟩ := qchanInit_ok ho
  have hcur : o.curN = 1 := q1.1
  have hsync : QChan.sync o 1 = (.ok (), o) := by rw [QChan.sync, if_neg (by simp [hcur])]
  have hdim : (QChan.view eig sqrtm o 1).inputDim = 2 := by
    simp only [QChan.view, QChan.inputDimension, hcur, q2, q3]
    norm_num
  obtain ⟨A, a1, a2, a3, a4⟩ := (C36_over [1, 0, 1, 0] 2 1 rfl ⟨1, by simp, one_ne_zero⟩).1 (by norm_num)
  have htp : Spec.TracePreserving (dephOps.ops dephOps.len 2 2) := dephOps_tp
  obtain ⟨F, f1, -⟩ := C50_range hsqrt ho [] 1 ⟨by simp, by simp⟩ 2 rfl rfl htp A a2 a3 ⟨a4.1, a4.2.1⟩
  have hF : (QChan.view eig sqrtm o 1).fidelity A = .ok F := f1
  have hex : ∃ out, (QChan.optimizeFidelity twoDraws lazyScipy eig sqrtm o 1 "diffev" (.str "overparam") (.int 0)
      (.int 0) 50 ⟨true, [[1, 0, 1, 0]]⟩).1 = .ok out := by
    unfold QChan.optimizeFidelity
    rw [hsync]
    simp only
    generalize QChan.view eig sqrtm o 1 = c at hdim hF ⊢
    refine ⟨⟨A, .num F, "diffev", false, true, "fidelity"⟩, ?_⟩
    unfold optimizeProcedure
    rw [show getScheme twoDraws (.str "overparam") = .ok twoDraws.overParam from rfl]
    simp only [bind, Except.bind]
    rw [hdim]
    rw [show chooseObjective c twoDraws.overParam 2 1 "fidelity" = .ok (fun vec => do
      let rho ← twoDraws.overParam.rho vec 2 1
      c.fidelity rho) from rfl]
    simp only
    rw [show checkOptions "diffev" (.int 0) (.int 0) ⟨true, [[1, 0, 1, 0]]⟩ = .ok () from
      checkOptions_ok_iff.mpr ⟨⟨rfl, by decide⟩, Or.inr rfl, ⟨rfl, by decide⟩, fun h => by simp at h⟩]
    have hrho : twoDraws.overParam.rho [1, 0, 1, 0] 2 1 = .ok A := a1
    simp [gatherSamples, runOptimizer, PyNum.toInt, Rng.overParam, lazyScipy, bind, Except.bind, pure, Except.pure,
      a1, hF, finalVal]
  obtain ⟨out, hout⟩ := hex
  have hopt : QChan.optimizeFidelity twoDraws lazyScipy eig sqrtm (QChan.history o []) 1 "diffev"
      (.str "overparam") (.int 0) (.int 0) 50 ⟨true, [[1, 0, 1, 0]]⟩ = (.ok out, _) := Prod.ext hout rfl
  exact ⟨o, out, ho, hout, (C51_fidelity_state ho hopt).2.2, C51_fidelity_range lazyScipy_correct hsqrt ho
    ⟨by simp, by simp⟩ 2 rfl rfl htp hopt (Or.inl rfl)⟩

end PyQ
