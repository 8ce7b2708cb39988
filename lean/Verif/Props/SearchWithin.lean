import Verif.Props.SearchBest

/-!
# C92: what the optimisers report if scipy comes close to the minimum
-/

namespace PyQ

open Matrix
open scoped ComplexOrder

/-- A run of differential evolution that ends within `δ` of every value over the bounds. -/
def Scipy.FindsWithin (sp : Scipy) (δ : ℝ) : Prop :=
  ∀ f b i p m r, sp.diffev f b i p m = .ok r → ∀ x, Spec.Within x b → ∀ v, f x = .ok v → r.fun_ ≤ v + δ

variable {g : Rng} {sp : Scipy} {c : ChanView} {rank maxiter : ℕ} {name : String} {lipschitz usePool : PyNum}
  {samples : SamplesArg} {out : OptOutput} {δ : ℝ}

theorem procedure_coherent_within (hmin : sp.FindsWithin δ)
    (h : optimizeProcedure g sp c rank "diffev" (.str name) "coherent" lipschitz usePool maxiter samples = .ok out) :
    ∃ v, out.val = .num v ∧ ∀ rho : Arr ℂ, rho.rows = c.inputDim → rho.cols = c.inputDim →
      Spec.DensityOfRank (rho.mat c.inputDim c.inputDim) rank →
      ∃ ρ', Arr.Same ρ' rho ∧ ∀ w, c.coherent ρ' = .ok w → w ≤ v + δ := by
  obtain ⟨P, f, bounds, all, r, val, x, hP, hf, -, hb, -, hr, hv, hx, hrho, ho, -⟩ := optimizeProcedure_ok h
  obtain ⟨i, p, q, hq, rfl⟩ := diffev_ok hr
  rw [finalVal, if_pos rfl] at hv
  injection hv with hv
  rw [chooseObjective, if_pos rfl] at hf
  injection hf with hf
  refine ⟨-q.fun_, by rw [ho, ← hv], fun rho h1 h2 hd => ?_⟩
  obtain ⟨v, ρ', hw, hv', hs⟩ := scheme_reach hP hrho hb rho h1 h2 hd
  refine ⟨ρ', hs, fun w hcw => ?_⟩
  have hfv : f v = .ok (-w) := by
    rw [← hf]
    simp only [hv', hcw, bind, Except.bind]
    rfl
  have := hmin f bounds i p maxiter q hq v hw (-w) hfv
  linarith

variable {spk : Bool} {ops : Arr3 ℂ} {a b d e : ℕ} {orth : List ℕ} {o o' : KrausObj} {eig : Eigvalsh}
  {sqrtm : Sqrtm} {n : ℕ} {reg : Bool} {calls : List QChan.Call}

/-- The object after an optimisation has a history of its own. -/
theorem optimized_history (hsafe : Spec.SafeUses spk (calls.map QChan.Call.uses ++ [n]))
    {optimizer : String} {param : ParamArg}
    (hopt : QChan.optimizeCoherent g sp eig sqrtm (QChan.history o calls) n rank optimizer param lipschitz
      usePool maxiter samples reg = (.ok out, o')) :
    ∃ calls', o' = QChan.history o calls' ∧ Spec.SafeUses spk (calls'.map QChan.Call.uses ++ [n]) := by
  unfold QChan.optimizeCoherent at hopt
  rcases hs : QChan.sync (QChan.history o calls) n with ⟨x | u, o1⟩
  · rw [hs] at hopt
    have := congrArg Prod.fst hopt
    cases this
  rw [hs] at hopt
  simp only [Prod.mk.injEq] at hopt
  obtain ⟨-, rfl⟩ := hopt
  obtain ⟨rr, rfl⟩ := sync_history hs
  exact ⟨_, rfl, by rw [List.map_append]; exact safe_twice hsafe⟩

/-- C92.  If differential evolution comes within `δ` of the minimum over the bounds it is given, the value reported by
`optimize_coherent(n, rank, "diffev", ...)` is the coherent information of some density matrix of rank at most `rank`, and no
such matrix has more than `δ` more (`δ / n` for the regularised value): for every channel, history and number of uses, and both
named parameterisations. -/
theorem C92_coherent_within (hsp : sp.Correct) (hmin : sp.FindsWithin δ) (heig : eig.Correct)
    (h : QChan.init spk ops a b d e orth = .ok o) (ho : spk = true ∨ orth = [])
    (hsafe : Spec.SafeUses spk (calls.map QChan.Call.uses ++ [n]))
    (hopt : QChan.optimizeCoherent g sp eig sqrtm (QChan.history o calls) n rank "diffev" (.str name) lipschitz
      usePool maxiter samples reg = (.ok out, o')) :
    ∃ v, out.val = .num v ∧
      (∃ rho : Arr ℂ, rho.rows = (d ^ a) ^ n ∧ rho.cols = (d ^ a) ^ n ∧
        Spec.DensityOfRank (rho.mat ((d ^ a) ^ n) ((d ^ a) ^ n)) rank ∧
        (QChan.coherentInformation eig o' rho n reg).1 = .ok v) ∧
      ∀ rho : Arr ℂ, rho.rows = (d ^ a) ^ n → rho.cols = (d ^ a) ^ n →
        Spec.DensityOfRank (rho.mat ((d ^ a) ^ n) ((d ^ a) ^ n)) rank →
        ∀ w, (QChan.coherentInformation eig o' rho n reg).1 = .ok w → w ≤ v + δ / (if reg then (n : ℝ) else 1) := by
  obtain ⟨v, hv, hval⟩ := C39_optimize_coherent hsp hopt (Or.inl rfl)
  obtain ⟨d1, d2, d3⟩ := C51_coherent_state h hopt
  refine ⟨v, hv, ⟨out.rho, d1, d2, d3, by rw [hval]⟩, ?_⟩
  intro rho hr hc hd w hw
  unfold QChan.optimizeCoherent at hopt
  rcases hs : QChan.sync (QChan.history o calls) n with ⟨x | u, o1⟩
  · rw [hs] at hopt
    have := congrArg Prod.fst hopt
    cases this
  rw [hs] at hopt
  simp only [Prod.mk.injEq] at hopt
  obtain ⟨hopt, rfl⟩ := hopt
  obtain ⟨r, hr', hret⟩ := bind_ok_iff.mp hopt
  obtain ⟨v', hv', hbest⟩ := procedure_coherent_within hmin hr'
  have hin : (QChan.view eig sqrtm o1 n).inputDim = (d ^ a) ^ n := sync_input h hs
  rw [hin] at hbest
  obtain ⟨ρ', hsame, hle⟩ := hbest rho hr hc hd
  obtain ⟨rr, rfl⟩ := sync_history hs
  have hsafe2 : Spec.SafeUses spk ((calls ++ [QChan.Call.channel rr n false]).map QChan.Call.uses ++ [n]) := by
    rw [List.map_append]; exact safe_twice hsafe
  obtain ⟨out1, W, -, -, -, -, -, -, -, hval1⟩ := C45_coherent_value (eig := eig) h ho _ n hsafe2 rho hr hc false
  have heq := coherent_same_state heig h ho _ n hsafe2 rho ρ' hsame hr hc hd.1 false
  have hle' := hle _ (heq.trans hval1)
  cases reg with
  | false =>
    rw [if_neg (by simp)] at hret
    injection hret with hret
    subst hret
    rw [hv] at hv'
    injection hv' with hv'
    rw [hw] at hval1
    injection hval1 with hval1
    rw [if_neg (by simp)] at hle'
    rw [hval1, hv']
    simpa using hle'
  | true =>
    rw [if_pos rfl] at hret
    unfold divideVal at hret
    rw [hv'] at hret
    simp only at hret
    split_ifs at hret with hn
    injection hret with hret
    subst hret
    injection hv with hv
    have hreg := coherent_regularized (o := QChan.history o (calls ++ [QChan.Call.channel rr n false])) (n := n)
      (rho := rho) hval1
    rw [hreg] at hw
    injection hw with hw
    rw [← hw, ← hv, if_pos rfl, ← add_div]
    exact div_le_div_of_nonneg_right hle' (Nat.cast_nonneg n)

open Classical in
/-- An optimiser that comes within `δ` of the minimum over the bounds if the objective is bounded from below. -/
noncomputable def nearScipy (δ : ℝ) : Scipy where
  slsqp := fun _ _ _ _ => .error .value
  diffev := fun f b _ _ _ =>
    if h : ∃ r : OptRes, f r.x = .ok r.fun_ ∧ ∀ y, Spec.Within y b → ∀ w, f y = .ok w → r.fun_ ≤ w + δ then .ok h.choose
    else .error .value

theorem nearScipy_ok {f : Objective} {b : List (ℝ × ℝ)} {i : Option (List (List ℝ))} {p m : ℕ} {r : OptRes}
    (h : (nearScipy δ).diffev f b i p m = .ok r) :
    f r.x = .ok r.fun_ ∧ ∀ y, Spec.Within y b → ∀ w, f y = .ok w → r.fun_ ≤ w + δ := by
  simp only [nearScipy] at h
  split_ifs at h with hex
  injection h with h
  subst h
  exact hex.choose_spec

theorem nearScipy_correct (δ : ℝ) : (nearScipy δ).Correct :=
  ⟨fun _ _ _ _ _ h => by simp [nearScipy] at h, fun _ _ _ _ _ _ h => (nearScipy_ok h).1⟩

theorem nearScipy_finds (δ : ℝ) : (nearScipy δ).FindsWithin δ := fun _ _ _ _ _ _ h => (nearScipy_ok h).2

theorem nearScipy_returns (hδ : 0 < δ) {f : Objective} {b : List (ℝ × ℝ)} {i : Option (List (List ℝ))} {p m : ℕ} {x : List ℝ}
    {v B : ℝ} (hx : Spec.Within x b) (hv : f x = .ok v) (hB : ∀ y, Spec.Within y b → ∀ w, f y = .ok w → B ≤ w) :
    ∃ r, (nearScipy δ).diffev f b i p m = .ok r := by
  have hne : {w | ∃ y, Spec.Within y b ∧ f y = .ok w}.Nonempty := ⟨v, x, hx, hv⟩
  have hbd : BddBelow {w | ∃ y, Spec.Within y b ∧ f y = .ok w} := ⟨B, fun w ⟨y, hy, hw⟩ => hB y hy w hw⟩
  obtain ⟨w, ⟨y, -, hw⟩, hlt⟩ := exists_lt_of_csInf_lt hne (lt_add_of_pos_right _ hδ)
  have hex : ∃ r : OptRes, f r.x = .ok r.fun_ ∧ ∀ y, Spec.Within y b → ∀ w, f y = .ok w → r.fun_ ≤ w + δ :=
    ⟨⟨w, y, true⟩, hw, fun y' hy' w' hw' => by
      have : sInf {w | ∃ y, Spec.Within y b ∧ f y = .ok w} ≤ w' := csInf_le hbd ⟨y', hy', hw'⟩
      have h3 : w < sInf {w | ∃ y, Spec.Within y b ∧ f y = .ok w} + δ := hlt
      show w ≤ w' + δ
      linarith⟩
  exact ⟨_, dif_pos hex⟩

/-- The hypotheses of `C92_coherent_within` are met, for every channel, history, number of uses, rank and `δ > 0`: such an
optimiser exists, and `optimize_coherent(n, rank, "diffev", "cholesky", lipschitz=0)` returns with it. -/
theorem C92_within_runs (hδ : 0 < δ) (heig : eig.Correct) (h : QChan.init spk ops a b d e orth = .ok o)
    (ho : spk = true ∨ orth = []) (htp : Spec.TracePreserving (ops.ops ops.len (e ^ b) (d ^ a)))
    (hsafe : Spec.SafeUses spk (calls.map QChan.Call.uses ++ [n])) (hrank : 1 ≤ rank ∧ rank ≤ (d ^ a) ^ n) (g : Rng)
    (sqrtm : Sqrtm) (reg : Bool) :
    ∃ sp : Scipy, sp.Correct ∧ sp.FindsWithin δ ∧ ∃ out o', QChan.optimizeCoherent g sp eig sqrtm (QChan.history o calls) n rank
      "diffev" (.str "cholesky") (.int 0) (.int 0) 50 ⟨true, []⟩ reg = (.ok out, o') := by
  refine ⟨nearScipy δ, nearScipy_correct δ, nearScipy_finds δ, ?_⟩
  have hn : 1 ≤ n := hsafe.1 n (by simp)
  obtain ⟨rr, hs⟩ := sync_safe h hsafe
  have hsafe2 : Spec.SafeUses spk ((calls ++ [QChan.Call.channel rr n false]).map QChan.Call.uses ++ [n]) := by
    rw [List.map_append]; exact safe_twice hsafe
  have hin : QChan.inputDimension (QChan.history o (calls ++ [QChan.Call.channel rr n false])) = (d ^ a) ^ n := sync_input h hs
  have hN : 0 < (d ^ a) ^ n := lt_of_lt_of_le hrank.1 hrank.2
  obtain ⟨x, A, hxb, hxA, -⟩ := (C92_cholesky ((d ^ a) ^ n) rank hrank
    (Arr.ofMat (vecMulVec (Pi.single ⟨0, hN⟩ 1) (star (Pi.single ⟨0, hN⟩ (1 : ℂ))))) rfl rfl).mpr (by
      rw [Arr.ofMat_mat]
      have := pure_rank (ψ := Pi.single (⟨0, hN⟩ : Fin ((d ^ a) ^ n)) (1 : ℂ)) (by simp [dotProduct, Pi.single_apply])
      exact ⟨this.1, this.2.1, this.2.2.trans hrank.1⟩)
  have hdens : ∀ y ρ, CholeskyParam.rhoFromVec y ((d ^ a) ^ n) (some rank) = .ok ρ →
      ∃ w, (QChan.coherentInformation eig (QChan.history o (calls ++ [QChan.Call.channel rr n false])) ρ n false).1 = .ok w ∧
        w ≤ n * Real.logb 2 ((e ^ b : ℕ) : ℝ) := by
    intro y ρ hy
    obtain ⟨y1, y2, y3⟩ := cholesky_density hy
    obtain ⟨w, hw, hb, -⟩ := C45_coherent_bounds heig h ho htp _ n hsafe2 ρ y1 y2 ⟨y3.1, y3.2.1⟩
    exact ⟨w, hw, hb⟩
  let f : Objective := fun vec => do
    let rho ← CholeskyParam.rhoFromVec vec ((d ^ a) ^ n) (some rank)
    let v ← (QChan.coherentInformation eig (QChan.history o (calls ++ [QChan.Call.channel rr n false])) rho n false).1
    return -v
  obtain ⟨wA, hwA, -⟩ := hdens x A hxA
  have hfx : f x = .ok (-wA) := by
    simp only [f, hxA, hwA, bind, Except.bind]
    rfl
  obtain ⟨r, hr⟩ := nearScipy_returns hδ (i := none) (p := 50) (m := 50) (B := -(n * Real.logb 2 ((e ^ b : ℕ) : ℝ))) hxb hfx (by
    intro y _ w hw
    obtain ⟨ρ, hρ, hw⟩ := bind_ok_iff.mp hw
    obtain ⟨z, hz, hw⟩ := bind_ok_iff.mp hw
    injection hw with hw
    obtain ⟨z', hz', hle⟩ := hdens y ρ hρ
    rw [hz] at hz'
    injection hz' with hz'
    rw [← hw, hz']
    linarith)
  obtain ⟨ρ, hρ, -⟩ := bind_ok_iff.mp (nearScipy_ok hr).1
  have hproc : optimizeProcedure g (nearScipy δ) (QChan.view eig sqrtm
      (QChan.history o (calls ++ [QChan.Call.channel rr n false])) n) rank "diffev" (.str "cholesky") "coherent" (.int 0)
      (.int 0) 50 ⟨true, []⟩ = .ok ⟨ρ, .num (-r.fun_), "diffev", false, r.success, "coherent"⟩ := by
    refine diffev_run (P := g.choleskyParam) (f := f) (bounds := CholeskyParam.bounds ((d ^ a) ^ n) rank (-1) 1) rfl ?_ ?_ hr ?_ ?_
    · show chooseObjective _ _ (QChan.inputDimension _) _ _ = _
      rw [hin]; rfl
    · show _ = _
      simp only [QChan.view]
      rw [hin]; rfl
    · rw [finalVal, if_pos rfl, negate]
    · simp only [QChan.view]
      rw [hin]; exact hρ
  unfold QChan.optimizeCoherent
  rw [hs]
  simp only
  rw [hproc]
  cases reg with
  | false => exact ⟨_, _, rfl⟩
  | true =>
    refine ⟨⟨ρ, .num (-r.fun_ / n), "diffev", false, r.success, "coherent"⟩,
      QChan.history o (calls ++ [QChan.Call.channel rr n false]), ?_⟩
    simp only [bind, Except.bind, if_true, divideVal, if_neg (Nat.pos_iff_ne_zero.mp hn)]

end PyQ
