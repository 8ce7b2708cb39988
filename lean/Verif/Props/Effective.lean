import Verif.Model.Effective
import Verif.Props.CodeKraus
import Verif.Props.OptimizeState

/-!
# C44, C56: the effective channel of a stabilizer code
-/

namespace PyQ

open Matrix Spec

/-! ### Lists of matrices as three-dimensional arrays -/

theorem arr3_ofList {l : List (Arr ℂ)} (hne : l ≠ []) {r c : ℕ} (h : ∀ e ∈ l, e.rows = r ∧ e.cols = c) :
    ∃ A, Arr3.ofList l = .ok A ∧ A.len = l.length ∧ A.rows = r ∧ A.cols = c ∧
      ∀ i (hi : i < l.length), A.get i = l[i].get := by
  cases l with
  | nil => exact absurd rfl hne
  | cons e es =>
    obtain ⟨h1, h2⟩ := h e (by simp)
    refine ⟨⟨es.length + 1, e.rows, e.cols, fun k => ((e :: es).getD k (Arr.zeros 0 0)).get⟩, ?_, rfl, h1, h2, ?_⟩
    · refine if_pos ?_
      intro B hB
      rw [h1, h2]
      exact h B (by simp [hB])
    · intro i hi
      simp only
      rw [List.getD_eq_getElem _ _ hi]

theorem nth_ops_dims {o : KrausObj} {n l r c : ℕ} (hn : 1 ≤ n) (h : Holds o n) (hl : o.kraus.len = l)
    (hr : o.kraus.rows = r) (hc : o.kraus.cols = c) :
    o.nth.ops (l ^ n) (r ^ n) (c ^ n) = tensorPow (o.kraus.ops l r c) n := by
  subst hl hr hc
  exact nth_ops hn h

/-! ### C44 -/

/-- The encoder is fixed by every generator. -/
theorem generator_encoder {n m r : ℕ} {c : StabCode} {V : Matrix (Fin (2 ^ n)) (Fin m) ℂ} (hr : c.stab.rows = r)
    (h : ∀ ψ : Amp n, (∀ i < c.stab.rows, pauliAct (rowPauli n (c.stab.row i)) ψ = ψ) ↔
        ∃ x : Fin m → ℂ, ∀ a : Fin (2 ^ n), ψ (bitsOf n a) = ∑ j : Fin m, V a j * x j) (i : ℕ) (hi : i < r) :
    generator n c i * V = V := by
  ext a j
  have hψ := (h fun b => V ((bitsEquiv n).symm b) j).mpr ⟨Pi.single j 1, fun a => by
    rw [← bitsEquiv_apply, Equiv.symm_apply_apply, Finset.sum_eq_single j]
    · simp
    · intro b _ hb
      simp [Pi.single_eq_of_ne hb]
    · simp⟩ i (hr ▸ hi)
  have := congrFun hψ (bitsOf n a)
  simp only [pauliAct, mulVec, dotProduct] at this
  rw [← bitsEquiv_apply, Equiv.symm_apply_apply] at this
  rw [← this, mul_apply, ← Equiv.sum_comp (bitsEquiv n)]
  simp only [Equiv.symm_apply_apply, generator]
  rfl

section
variable {eigh : Eigh} {s : StabInput} {n : ℕ} {c : StabCode} {errors : List (Arr ℂ)}

/-- C44.  A code with one logical qubit, given by independent binary generators without odd numbers of Y, and a trace
preserving list of 2 by 2 errors: the procedure builds a channel from one qubit to `n` qubits; its Kraus operators
are, for all `n`-fold tensor products `E` of the errors, `K V` with the encoder `V` and the corrected error `K`, and
they are trace preserving. -/
theorem C44_channel (hE : eigh.Correct) (h : stabInit s n 1 none = .ok c) (hn : 0 < n) (hb : BinaryArr c.stab)
    (hY : ∀ i < c.stab.rows, parityY (rowPauli n (c.stab.row i)) = 0) (hind : Independent n c.stab)
    (hsh : ∀ e ∈ errors, e.rows = 2 ∧ e.cols = 2)
    (htp : TracePreserving fun i : Fin errors.length => errors[i].mat 2 2) :
    ∃ o V ops, effectiveKraus eigh s n 1 errors = .ok o ∧ QChan.init true ops 1 n 2 2 [] = .ok o ∧
      encodeKraus eigh c = .ok V ∧ V.rows = 2 ^ n ∧ V.cols = 2 ^ 1 ∧
      (V.mat (2 ^ n) (2 ^ 1))ᴴ * V.mat (2 ^ n) (2 ^ 1) = 1 ∧
      (∀ i < c.stab.rows, generator n c i * V.mat (2 ^ n) (2 ^ 1) = V.mat (2 ^ n) (2 ^ 1)) ∧
      ops.len = errors.length ^ n ∧
      (∀ i : Fin (errors.length ^ n), ∃ K,
        CorrectedBy c.stab.rows (generator n c)
          (tensorPow (fun i : Fin errors.length => errors[i].mat 2 2) n i) K ∧
        ops.ops (errors.length ^ n) (2 ^ n) (2 ^ 1) i = K * V.mat (2 ^ n) (2 ^ 1)) ∧
      TracePreserving (ops.ops (errors.length ^ n) (2 ^ n) (2 ^ 1)) := by
  have hne : errors ≠ [] := by
    rintro rfl
    have := congrFun (congrFun htp 0) 0
    simp at this
  -- the error channel
  obtain ⟨A, a1, a2, a3, a4, a5⟩ := arr3_ofList hne hsh
  have hA : (fun i : Fin errors.length => errors[i].mat 2 2) = A.ops errors.length 2 2 := by
    funext i
    ext x y
    simp only [Arr3.ops, Arr.mat]
    rw [a5 i i.2]
    rfl
  rw [hA] at htp ⊢
  obtain ⟨chan, hchan⟩ := init_exact false A 1 1 2 2 [] (by rw [a2]; exact List.length_pos_iff.mpr hne) (by rw [a4]; rfl)
    (by rw [a3]; rfl) (by rw [a2]; exact htp)
  obtain ⟨c1, c2, c3, -⟩ := qchanInit_ok hchan
  obtain ⟨u1, u2, u3⟩ := update_holds chan 1 n le_rfl hn c1 (by rw [c3]; simp)
  have hk : (chan.update n).2.kraus = A := u3.1.trans c2
  have hops := nth_ops_dims (l := errors.length) (r := 2) (c := 2) hn u2 (by rw [hk, a2]) (by rw [hk, a3]) (by rw [hk, a4])
  rw [hk] at hops
  obtain ⟨n1, n2, n3⟩ := nth_dims hn u2
  rw [hk] at n1 n2 n3
  rw [a2] at n1
  rw [a3] at n2
  rw [a4] at n3
  generalize hB : (chan.update n).2.nth = B at hops n1 n2 n3
  -- the encoder
  obtain ⟨V, v1, v2, v3⟩ := C19_dimension eigh hE s n 1 c h hn hb hY hind
  obtain ⟨V', m, w1, w2, w3, w4, w5, -⟩ := C19_encoder_isometry eigh hE s n 1 none c h hn hb hY
  rw [v1] at w1
  injection w1 with w1
  subst w1
  obtain rfl : m = 2 ^ 1 := w3.symm.trans v3
  have hgen := fun i hi => generator_encoder (V := V.mat (2 ^ n) (2 ^ 1)) rfl w5 i hi
  -- the corrected errors
  obtain ⟨out, o1, o2, o3⟩ := C20_corrected s n 1 none c h hn hb ((List.range B.len).map B.nth) (by
    intro e he
    obtain ⟨i, -, rfl⟩ := List.mem_map.mp he
    exact ⟨n2, n3⟩)
  have hlen : out.length = errors.length ^ n := by
    rw [← o2.length_eq, List.length_map, List.length_range, n1]
  have hget : ∀ i (hi : i < out.length), out[i].rows = 2 ^ n ∧ out[i].cols = 2 ^ n ∧
      CorrectedBy c.stab.rows (generator n c) ((B.nth i).mat (2 ^ n) (2 ^ n)) (out[i].mat (2 ^ n) (2 ^ n)) := by
    intro i hi
    have := (List.forall₂_iff_get.mp o2).2 i (by rw [List.length_map, List.length_range, n1, ← hlen]; exact hi) hi
    simpa using this
  have hmap : (out.mapM fun x => x.dot V) = .ok (out.map fun x => x.mul V) := by
    apply mapM_ok_of
    intro x hx
    obtain ⟨i, hi, rfl⟩ := List.mem_iff_getElem.mp hx
    unfold Arr.dot
    rw [if_pos]
    rw [(hget i hi).2.1, v2]
  obtain ⟨ops, p1, p2, p3, p4, p5⟩ := arr3_ofList (l := out.map fun x => x.mul V) (r := 2 ^ n) (c := 2 ^ 1) (by
      intro h0
      have := congrArg List.length h0
      rw [List.length_map, hlen] at this
      exact absurd this (pow_ne_zero _ (fun h => hne (List.length_eq_zero_iff.mp h)))) (by
      intro e he
      obtain ⟨x, hx, rfl⟩ := List.mem_map.mp he
      obtain ⟨i, hi, rfl⟩ := List.mem_iff_getElem.mp hx
      exact ⟨(hget i hi).1, v3⟩)
  rw [List.length_map, hlen] at p2
  have hopsK : ∀ i : Fin (errors.length ^ n), ops.ops (errors.length ^ n) (2 ^ n) (2 ^ 1) i =
      (out[i.val]'(by rw [hlen]; exact i.2)).mat (2 ^ n) (2 ^ n) * V.mat (2 ^ n) (2 ^ 1) := by
    intro i
    have hi : i.val < out.length := by rw [hlen]; exact i.2
    rw [← Arr.mat_mul _ _ _ _ _ (hget i hi).2.1]
    ext x y
    simp only [Arr3.ops, Arr.mat]
    rw [p5 i (by rw [List.length_map]; exact hi), List.getElem_map]
  have hBops : ∀ i : Fin (errors.length ^ n), (B.nth i).mat (2 ^ n) (2 ^ n) = tensorPow (A.ops errors.length 2 2) n i :=
    fun i => congrFun hops i
  have htpo : TracePreserving (ops.ops (errors.length ^ n) (2 ^ n) (2 ^ 1)) := by
    have hE1 := tensorPow_tp _ n htp
    unfold TracePreserving at hE1 ⊢
    have hK : ∀ i : Fin (errors.length ^ n), (ops.ops (errors.length ^ n) (2 ^ n) (2 ^ 1) i)ᴴ * ops.ops (errors.length ^ n) (2 ^ n) (2 ^ 1) i =
        (V.mat (2 ^ n) (2 ^ 1))ᴴ * ((tensorPow (A.ops errors.length 2 2) n i)ᴴ * tensorPow (A.ops errors.length 2 2) n i) *
          V.mat (2 ^ n) (2 ^ 1) := by
      intro i
      have hi : i.val < out.length := by rw [hlen]; exact i.2
      have key : (out[i.val].mat (2 ^ n) (2 ^ n))ᴴ * out[i.val].mat (2 ^ n) (2 ^ n) =
          (tensorPow (A.ops errors.length 2 2) n i)ᴴ * tensorPow (A.ops errors.length 2 2) n i := by
        have h3 := (hget i hi).2.2
        rw [hBops i] at h3
        rcases h3 with ⟨-, h3⟩ | ⟨g, -, -, -, h3⟩
        · rw [h3]
        · rw [h3, conjTranspose_mul, Matrix.mul_assoc, ← Matrix.mul_assoc (generator n c g)ᴴ,
            show (generator n c g)ᴴ * generator n c g = 1 from pauliN_unitary _, Matrix.one_mul]
      rw [hopsK i, ← key, conjTranspose_mul]
      simp only [Matrix.mul_assoc]
    rw [Finset.sum_congr rfl fun i _ => hK i, ← Matrix.sum_mul, ← Matrix.mul_sum, hE1, Matrix.mul_one]
    exact w4
  obtain ⟨o, ho⟩ := init_exact true ops 1 n 2 2 [] (by
      rw [p2]; exact pow_pos (List.length_pos_iff.mpr hne) _) p4 p3 (by rw [p2]; exact htpo)
  refine ⟨o, V, ops, ?_, ho, v1, v2, v3, w4, hgen, p2, ?_, htpo⟩
  · cases errors with
    | nil => exact absurd rfl hne
    | cons e es =>
      unfold effectiveKraus
      simp only
      rw [if_neg (by rw [(hsh e (by simp)).2]; decide), h, ok_bind']
      unfold QChan.ofList
      rw [a1, ok_bind', hchan, ok_bind', if_neg one_ne_zero, Nat.div_one, u1, ok_bind', v1, ok_bind', hB, o1, ok_bind',
        hmap, ok_bind', p1, ok_bind', ho]
  · intro i
    have hi : i.val < out.length := by rw [hlen]; exact i.2
    refine ⟨out[i.val].mat (2 ^ n) (2 ^ n), ?_, hopsK i⟩
    rw [← hBops i]
    exact (hget i hi).2.2

theorem coherent_same_object {g : Rng} {sp : Scipy} {eig : Eigvalsh} {sqrtm : Sqrtm} {o o' : KrausObj} {n rank : ℕ}
    {optimizer : String} {param : ParamArg} {lipschitz usePool : PyNum} {maxiter : ℕ} {samples : SamplesArg} {reg : Bool}
    {x : Except PyErr OptOutput} (hcur : o.curN = n)
    (h : QChan.optimizeCoherent g sp eig sqrtm o n rank optimizer param lipschitz usePool maxiter samples reg =
      (x, o')) : o' = o := by
  unfold QChan.optimizeCoherent QChan.sync at h
  rw [if_neg (by simp [hcur])] at h
  exact (congrArg Prod.snd h).symm

theorem fidelity_same_object {g : Rng} {sp : Scipy} {eig : Eigvalsh} {sqrtm : Sqrtm} {o o' : KrausObj} {n : ℕ}
    {optimizer : String} {param : ParamArg} {lipschitz usePool : PyNum} {maxiter : ℕ} {samples : SamplesArg}
    {x : Except PyErr OptOutput} (hcur : o.curN = n)
    (h : QChan.optimizeFidelity g sp eig sqrtm o n optimizer param lipschitz usePool maxiter samples = (x, o')) :
    o' = o := by
  unfold QChan.optimizeFidelity QChan.sync at h
  rw [if_neg (by simp [hcur])] at h
  exact (congrArg Prod.snd h).symm

/-- C44.  When `optimize="coherent"` returns for such a code and such errors, `optimal_rho` is a density matrix of one
qubit and `optimal_val` is the value of `coherent_information` of the effective channel at it, between
`-n log₂ (number of errors)` and `n`. -/
theorem C44_coherent {g : Rng} {sp : Scipy} {eig : Eigvalsh} {sqrtm : Sqrtm} {opts : Option EffOptions}
    {out : OptOutput} (hE : eigh.Correct) (hsp : sp.Correct) (heig : eig.Correct)
    (h : stabInit s n 1 none = .ok c) (hn : 0 < n) (hb : BinaryArr c.stab)
    (hY : ∀ i < c.stab.rows, parityY (rowPauli n (c.stab.row i)) = 0) (hind : Independent n c.stab)
    (hsh : ∀ e ∈ errors, e.rows = 2 ∧ e.cols = 2)
    (htp : TracePreserving fun i : Fin errors.length => errors[i].mat 2 2)
    (hout : effectiveChannel eigh g sp eig sqrtm s n 1 errors (some "coherent") opts = .ok out) :
    out.rho.rows = 2 ∧ out.rho.cols = 2 ∧ IsDensity (out.rho.mat 2 2) ∧
      ∃ o v, effectiveKraus eigh s n 1 errors = .ok o ∧ out.val = .num v ∧
        (QChan.coherentInformation eig o out.rho 1 false).1 = .ok v ∧
        v ≤ n ∧ -(n * Real.logb 2 (errors.length : ℝ)) ≤ v := by
  obtain ⟨o, V, ops, e1, e2, -, -, -, -, -, e3, -, e4⟩ := C44_channel hE h hn hb hY hind hsh htp
  unfold effectiveChannel at hout
  simp only at hout
  rw [if_neg (by simp), e1, ok_bind'] at hout
  simp only [if_true] at hout
  rcases hout' : QChan.optimizeCoherent g sp eig sqrtm o 1 2 "slsqp" (.str "overparam") (.int 25) (.int 3)
    250 ⟨false, []⟩ false with ⟨x, o'⟩
  rw [hout'] at hout
  obtain rfl : x = .ok out := hout
  have hsy : o' = o := coherent_same_object (qchanInit_ok e2).1.cur hout'
  have hst := C51_coherent_state (calls := []) e2 hout'
  simp only [pow_one] at hst
  refine ⟨hst.1, hst.2.1, ⟨hst.2.2.1, hst.2.2.2.1⟩, o, ?_⟩
  obtain ⟨v, r1, r2, r3⟩ := C51_coherent_range (calls := []) hsp heig e2 (Or.inl rfl) (by
    refine ⟨by simp, ?_⟩
    simp) (by rw [e3]; exact e4) hout' (Or.inr (by decide))
  obtain ⟨w, w1, w2⟩ := C39_optimize_coherent hsp hout' (Or.inr (by decide))
  rw [r1] at w1
  injection w1 with w1
  subst w1
  rw [hsy] at w2
  refine ⟨v, e1, r1, by rw [w2], ?_, ?_⟩
  · simpa [Real.logb_pow] using r2
  · rw [e3] at r3
    simpa [Real.logb_pow] using r3

/-- C44.  `optimize` has to be the string "coherent" or "fidelity", and the first error must have `2^k` columns: all
other calls raise `TypeError`. -/
theorem C44_guards {g : Rng} {sp : Scipy} {eig : Eigvalsh} {sqrtm : Sqrtm} {opts : Option EffOptions} {k : ℕ}
    {optimize : Option String} {e : Arr ℂ}
    (hbad : (optimize ≠ some "coherent" ∧ optimize ≠ some "fidelity") ∨ e.cols ≠ 2 ^ k) :
    effectiveChannel eigh g sp eig sqrtm s n k (e :: errors) optimize opts = .error .type := by
  unfold effectiveChannel
  cases optimize with
  | none => rfl
  | some t =>
    simp only
    by_cases h1 : t = "coherent" ∨ t = "fidelity"
    · rw [if_neg (not_not.mpr h1)]
      rcases hbad with ⟨h2, h3⟩ | h2
      · simp only [ne_eq, Option.some.injEq] at h2 h3
        exact absurd h1 (not_or.mpr ⟨h2, h3⟩)
      · unfold effectiveKraus
        simp only
        rw [if_pos (fun h => h2 h.symm)]
        rfl
    · rw [if_pos h1]

/-- C44.  Without errors the call raises `IndexError`. -/
theorem C44_no_errors {g : Rng} {sp : Scipy} {eig : Eigvalsh} {sqrtm : Sqrtm} {opts : Option EffOptions} {k : ℕ}
    {optimize : Option String} (h : optimize = some "coherent" ∨ optimize = some "fidelity") :
    effectiveChannel eigh g sp eig sqrtm s n k [] optimize opts = .error .index := by
  rcases h with rfl | rfl <;> rfl

/-- C44, refuted for more than one logical qubit (or none): although the guard asks for errors with `2^k` columns, no
list of errors, no code and no option makes the call return unless `k = 1`. -/
theorem C44_multi_qubit_refuted {g : Rng} {sp : Scipy} {eig : Eigvalsh} {sqrtm : Sqrtm} {opts : Option EffOptions}
    {k : ℕ} {optimize : Option String} (hk : k ≠ 1) (out : OptOutput) :
    effectiveChannel eigh g sp eig sqrtm s n k errors optimize opts ≠ .ok out := by
  have key : ∀ o, effectiveKraus eigh s n k errors ≠ .ok o := by
    intro o ho
    unfold effectiveKraus at ho
    cases errors with
    | nil => cases ho
    | cons e es =>
      simp only at ho
      by_cases h1 : 2 ^ k = e.cols
      · rw [if_neg (not_not.mpr h1)] at ho
        obtain ⟨stab, -, ho⟩ := bind_ok_iff.mp ho
        obtain ⟨chan, hch, -⟩ := bind_ok_iff.mp ho
        unfold QChan.ofList at hch
        obtain ⟨A, hA, hch⟩ := bind_ok_iff.mp hch
        obtain ⟨-, -, -, -, -, -, -, -, -, hc, -⟩ := qchanInit_ok hch
        have : A.cols = e.cols := by
          unfold Arr3.ofList at hA
          simp only at hA
          split_ifs at hA
          injection hA with hA
          rw [← hA]
        rw [this] at hc
        exact hk (Nat.pow_right_injective le_rfl (h1.trans hc))
      · rw [if_pos h1] at ho
        cases ho
  intro ho
  unfold effectiveChannel at ho
  cases optimize with
  | none => cases ho
  | some t =>
    simp only at ho
    by_cases h1 : t = "coherent" ∨ t = "fidelity"
    · rw [if_neg (not_not.mpr h1)] at ho
      obtain ⟨o, h1, -⟩ := bind_ok_iff.mp ho
      exact key o h1
    · rw [if_pos h1] at ho
      cases ho

/-- C44, refuted for `optimize="fidelity"`: for every code on at least two qubits the call never returns, since it
compares one-qubit states with `n`-qubit states. -/
theorem C44_fidelity_refuted {g : Rng} {sp : Scipy} {eig : Eigvalsh} {sqrtm : Sqrtm} {opts : Option EffOptions}
    (hE : eigh.Correct) (hsp : sp.Correct) (hsqrt : sqrtm.Correct)
    (h : stabInit s n 1 none = .ok c) (hn : 2 ≤ n) (hb : BinaryArr c.stab)
    (hY : ∀ i < c.stab.rows, parityY (rowPauli n (c.stab.row i)) = 0) (hind : Independent n c.stab)
    (hsh : ∀ e ∈ errors, e.rows = 2 ∧ e.cols = 2)
    (htp : TracePreserving fun i : Fin errors.length => errors[i].mat 2 2) (out : OptOutput) :
    effectiveChannel eigh g sp eig sqrtm s n 1 errors (some "fidelity") opts ≠ .ok out := by
  intro hout
  obtain ⟨o, V, ops, e1, e2, -⟩ := C44_channel hE h (by omega) hb hY hind hsh htp
  unfold effectiveChannel at hout
  simp only at hout
  rw [if_neg (by simp), e1, ok_bind', if_neg (by decide)] at hout
  rcases hout' : QChan.optimizeFidelity g sp eig sqrtm o 1 "slsqp" (.str "overparam") (.int 25) (.int 3)
    250 ⟨false, []⟩ with ⟨x, o'⟩
  rw [hout'] at hout
  obtain rfl : x = .ok out := hout
  have hsy : o' = o := fidelity_same_object (qchanInit_ok e2).1.cur hout'
  have hst := C51_fidelity_state (calls := []) e2 hout'
  obtain ⟨w, w1, w2⟩ := C39_optimize_fidelity hsp hout' (Or.inr (by decide))
  rw [hsy] at w2
  have := C50_dimensions hsqrt e2 [] 1 (by
    refine ⟨by simp, ?_⟩
    simp) out.rho hst.1 hst.2.1 hst.2.2.1 (by
    simp only [pow_one]
    intro h2
    have := Nat.pow_right_injective le_rfl ((pow_one 2).trans h2 : 2 ^ 1 = 2 ^ n)
    omega)
  rw [show QChan.history o [] = o from rfl, w2] at this
  cases this

/-- C44, refuted for `options`: the documented dictionary has no effect. -/
theorem C44_options_refuted {g : Rng} {sp : Scipy} {eig : Eigvalsh} {sqrtm : Sqrtm} {k : ℕ} {optimize : Option String}
    (opts opts' : Option EffOptions) :
    effectiveChannel eigh g sp eig sqrtm s n k errors optimize opts =
      effectiveChannel eigh g sp eig sqrtm s n k errors optimize opts' := rfl

end

/-! ### C56 -/

namespace Spec

/-- A scalar multiple of I, X, Y or Z. -/
def IsPauliMultiple (E : Matrix (Fin 2) (Fin 2) ℂ) : Prop :=
  ∃ a : ℂ, E = a • 1 ∨ E = a • !![0, 1; 1, 0] ∨ E = a • !![0, -Complex.I; Complex.I, 0] ∨ E = a • !![1, 0; 0, -1]

end Spec

theorem isPauliMultiple_form {E : Matrix (Fin 2) (Fin 2) ℂ} (h : IsPauliMultiple E) :
    ∃ (a : ℂ) (x z : ZMod 2), ∀ i j : Fin 2,
      E i j = a * (if ((i.val : ℕ) : ZMod 2) = ((j.val : ℕ) : ZMod 2) + x then sgn (z * ((j.val : ℕ) : ZMod 2)) else 0) := by
  have h11 : (1 : ZMod 2) + 1 = 0 := by decide
  have h01 : ¬ (0 : ZMod 2) = 1 := by decide
  obtain ⟨a, rfl | rfl | rfl | rfl⟩ := h
  · refine ⟨a, 0, 0, ?_⟩
    intro i j
    fin_cases i <;> fin_cases j <;> simp [sgn, h01]
  · refine ⟨a, 1, 0, ?_⟩
    intro i j
    fin_cases i <;> fin_cases j <;> simp [sgn, h01, h11]
  · refine ⟨Complex.I * a, 1, 1, ?_⟩
    intro i j
    fin_cases i <;> fin_cases j <;> simp [sgn, h01, h11, mul_comm]
  · refine ⟨a, 0, 1, ?_⟩
    intro i j
    fin_cases i <;> fin_cases j <;> simp [sgn, h01]

theorem prod_sgn {n : ℕ} (f : Fin n → ZMod 2) : ∏ t, (sgn (f t) : ℂ) = sgn (∑ t, f t) := by
  induction n with
  | zero => simp [sgn]
  | succ n ih =>
    rw [Fin.prod_univ_succ, Fin.sum_univ_succ, ih]
    exact (sgn_add _ _).symm

theorem tensorProd_pauli_of {n : ℕ} {E : Fin n → Matrix (Fin 2) (Fin 2) ℂ} {a : Fin n → ℂ} {x z : Fin n → ZMod 2}
    (hE : ∀ t (i j : Fin 2), E t i j = a t *
      (if ((i.val : ℕ) : ZMod 2) = ((j.val : ℕ) : ZMod 2) + x t then sgn (z t * ((j.val : ℕ) : ZMod 2)) else 0)) :
    tensorProd E = (∏ t, a t) • pauliN ⟨x, z⟩ := by
  ext i j
  have hbit : ∀ (i : Fin (2 ^ n)) (t : Fin n), (((digit i t).val : ℕ) : ZMod 2) = bitsOf n i t := by
    intro i t
    simp only [digit, bitsOf]
    exact ZMod.natCast_mod _ 2
  show _ = (∏ t, a t) * (if bitsOf n i = bitsOf n j + x then sgn (dotp z (bitsOf n j)) else 0)
  simp only [tensorProd, hE, hbit, Finset.prod_mul_distrib]
  congr 1
  by_cases hx : bitsOf n i = bitsOf n j + x
  · rw [if_pos hx, show dotp z (bitsOf n j) = ∑ t, z t * bitsOf n j t from rfl, ← prod_sgn]
    exact Finset.prod_congr rfl fun t _ => if_pos (congrFun hx t)
  · rw [if_neg hx]
    obtain ⟨t, ht⟩ := Function.ne_iff.mp hx
    exact Finset.prod_eq_zero (Finset.mem_univ t) (if_neg ht)

/-- A tensor product of multiples of Pauli matrices is a multiple of a Pauli operator. -/
theorem tensorProd_pauli {n : ℕ} (E : Fin n → Matrix (Fin 2) (Fin 2) ℂ) (h : ∀ t, IsPauliMultiple (E t)) :
    ∃ (a : ℂ) (p : Pauli n), tensorProd E = a • pauliN p := by
  choose a x z hE using fun t => isPauliMultiple_form (h t)
  exact ⟨∏ t, a t, ⟨x, z⟩, tensorProd_pauli_of hE⟩

/-- Whatever generator is chosen: the corrected Pauli error acts on the code as the error itself, up to a sign. -/
theorem corrected_encoder {n m r : ℕ} {c : StabCode} {V : Matrix (Fin (2 ^ n)) (Fin m) ℂ}
    (hV : ∀ i < r, generator n c i * V = V) {a : ℂ} {p : Pauli n} {K : Matrix (Fin (2 ^ n)) (Fin (2 ^ n)) ℂ}
    (h : CorrectedBy r (generator n c) (a • pauliN p) K) :
    ∃ u : ZMod 2, K * V = (sgn u : ℂ) • ((a • pauliN p) * V) := by
  rcases h with ⟨-, rfl⟩ | ⟨i, hi, -, -, rfl⟩
  · exact ⟨0, by simp [sgn]⟩
  · refine ⟨symp (rowPauli n (c.stab.row i)) p, ?_⟩
    have hg : generator n c i = pauliN (rowPauli n (c.stab.row i)) := rfl
    conv_rhs => rw [← hV i hi]
    rw [hg, ← Matrix.mul_assoc (a • pauliN p), Matrix.mul_smul, pauliN_comm]
    simp only [Matrix.smul_mul, smul_smul, mul_comm]

section
variable {eigh : Eigh} {s : StabInput} {n : ℕ} {c : StabCode} {errors : List (Arr ℂ)}

/-- C56, refuted.  For every code with one logical qubit and every Pauli channel, the "corrected" effective channel
returns exactly what the errors do to the encoded state, `∑ E V ρ V† E†`: nothing is corrected. -/
theorem C56_no_correction_refuted (hE : eigh.Correct) (h : stabInit s n 1 none = .ok c) (hn : 0 < n)
    (hb : BinaryArr c.stab) (hY : ∀ i < c.stab.rows, parityY (rowPauli n (c.stab.row i)) = 0)
    (hind : Independent n c.stab) (hsh : ∀ e ∈ errors, e.rows = 2 ∧ e.cols = 2)
    (htp : TracePreserving fun i : Fin errors.length => errors[i].mat 2 2)
    (hp : ∀ e ∈ errors, IsPauliMultiple (e.mat 2 2)) (rho : Arr ℂ) (hr : rho.rows = 2) (hc : rho.cols = 2) :
    ∃ o V out, effectiveKraus eigh s n 1 errors = .ok o ∧ encodeKraus eigh c = .ok V ∧
      (QChan.channel o rho 1 false).1 = .ok out ∧ out.rows = 2 ^ n ∧ out.cols = 2 ^ n ∧
      out.mat (2 ^ n) (2 ^ n) =
        applyKraus (tensorPow (fun i : Fin errors.length => errors[i].mat 2 2) n)
          (V.mat (2 ^ n) 2 * rho.mat 2 2 * (V.mat (2 ^ n) 2)ᴴ) := by
  obtain ⟨o, V, ops, e1, e2, e3, -, -, -, e4, e5, e6, -⟩ := C44_channel hE h hn hb hY hind hsh htp
  obtain ⟨out, x1, x2, x3, x4⟩ := api_channel_one e2 [] (by
    refine ⟨by simp, ?_⟩
    simp) rho hr hc
  refine ⟨o, V, out, e1, e3, x1, x2, x3, ?_⟩
  rw [x4, e5]
  unfold applyKraus
  refine Finset.sum_congr rfl fun i _ => ?_
  obtain ⟨K, k1, k2⟩ := e6 i
  obtain ⟨a, p, hap⟩ := tensorProd_pauli (fun t => errors[digit i t].mat 2 2) fun t => hp _ (List.getElem_mem _)
  have hap' : tensorPow (fun i : Fin errors.length => errors[i].mat 2 2) n i = a • pauliN p := hap
  rw [hap'] at k1 ⊢
  obtain ⟨u, hu⟩ := corrected_encoder e4 k1
  rw [k2, hu, conjTranspose_smul]
  have hs : (sgn u : ℂ) * star (sgn u : ℂ) = 1 := by
    unfold sgn
    split_ifs <;> simp
  generalize a • pauliN p = M
  simp only [Matrix.smul_mul, Matrix.mul_smul, smul_smul]
  rw [mul_comm, hs, one_smul, conjTranspose_mul]
  simp only [Matrix.mul_assoc]
  rfl

/-- C56, refuted for every detected error: if the error anticommutes with a generator, so that its syndrome is not
zero, the "corrected" operator sends the whole code to the orthogonal complement of the code. -/
theorem C56_leaves_code_refuted (hE : eigh.Correct) (h : stabInit s n 1 none = .ok c) (hn : 0 < n)
    (hb : BinaryArr c.stab) (hY : ∀ i < c.stab.rows, parityY (rowPauli n (c.stab.row i)) = 0)
    (hind : Independent n c.stab) (hsh : ∀ e ∈ errors, e.rows = 2 ∧ e.cols = 2)
    (htp : TracePreserving fun i : Fin errors.length => errors[i].mat 2 2)
    (hp : ∀ e ∈ errors, IsPauliMultiple (e.mat 2 2)) :
    ∃ o V ops, effectiveKraus eigh s n 1 errors = .ok o ∧ QChan.init true ops 1 n 2 2 [] = .ok o ∧
      encodeKraus eigh c = .ok V ∧ ops.len = errors.length ^ n ∧
      ∀ i : Fin (errors.length ^ n), ∀ g < c.stab.rows,
        let E := tensorPow (fun i : Fin errors.length => errors[i].mat 2 2) n i
        E * generator n c g = -(generator n c g * E) →
          (V.mat (2 ^ n) 2)ᴴ * ops.ops (errors.length ^ n) (2 ^ n) 2 i = 0 := by
  obtain ⟨o, V, ops, e1, e2, e3, -, -, -, e4, e5, e6, -⟩ := C44_channel hE h hn hb hY hind hsh htp
  refine ⟨o, V, ops, e1, e2, e3, e5, ?_⟩
  intro i g hg E hanti
  obtain ⟨K, k1, k2⟩ := e6 i
  obtain ⟨a, p, hap⟩ := tensorProd_pauli (fun t => errors[digit i t].mat 2 2) fun t => hp _ (List.getElem_mem _)
  have hap' : E = a • pauliN p := hap
  rw [show tensorPow (fun i : Fin errors.length => errors[i].mat 2 2) n i = a • pauliN p from hap] at k1
  obtain ⟨u, hu⟩ := corrected_encoder e4 k1
  have hV := e4 g hg
  have hherm : (generator n c g)ᴴ = generator n c g := pauliN_hermitian _ (hY g hg)
  have hz : (V.mat (2 ^ n) (2 ^ 1))ᴴ * (E * V.mat (2 ^ n) (2 ^ 1)) = 0 := by
    have h1 : (V.mat (2 ^ n) (2 ^ 1))ᴴ * (E * V.mat (2 ^ n) (2 ^ 1)) =
        -((V.mat (2 ^ n) (2 ^ 1))ᴴ * (E * V.mat (2 ^ n) (2 ^ 1))) := by
      conv_lhs => rw [← hV, ← Matrix.mul_assoc E, hanti, Matrix.neg_mul, Matrix.mul_neg, conjTranspose_mul, hherm,
        Matrix.mul_assoc, Matrix.mul_assoc (generator n c g) E, ← Matrix.mul_assoc (generator n c g) (generator n c g),
        show generator n c g * generator n c g = 1 from pauliN_sq _ (hY g hg), Matrix.one_mul]
    ext x y
    have h2 := congrFun (congrFun h1 x) y
    exact self_eq_neg.mp h2
  rw [hap'] at hz
  show (V.mat (2 ^ n) (2 ^ 1))ᴴ * ops.ops (errors.length ^ n) (2 ^ n) (2 ^ 1) i = 0
  rw [k2, hu, Matrix.mul_smul, hz, smul_zero]

end

/-! ### A concrete code and channel -/

/-- XXI and IXX, the code that corrects one phase flip. -/
theorem codePhase : ∃ c, stabInit (.rows [[1, 1, 0, 0, 0, 0], [0, 1, 1, 0, 0, 0]]) 3 1 none = .ok c ∧
    BinaryArr c.stab ∧ Independent 3 c.stab ∧ c.stab.rows = 2 ∧
    c.stab.row 0 = [1, 1, 0, 0, 0, 0] ∧ c.stab.row 1 = [0, 1, 1, 0, 0, 0] := by
  obtain ⟨c, h1, h2, h3, h4, h5, h6⟩ := concrete_code (l := [[1, 1, 0, 0, 0, 0], [0, 1, 1, 0, 0, 0]]) (n := 3) (k := 1)
    (r := 2) (e := 0) (by decide) (by decide) (by decide) (by unfold IsBinary; decide) (by decide)
    (independent_cert _ (fun j a => if j = 0 ∧ a = 0 ∨ j = 2 ∧ a = 1 then 1 else 0) (by decide))
    (fun F _ => rank_cert (M := Matrix.of fun (i : Fin 2) (j : Fin 3) =>
        (Arr.ofRows (2 * 3) [[1, 1, 0, 0, 0, 0], [0, 1, 1, 0, 0, 0]]).get i j)
      !![1, 0; 0, 1] !![1, 1, 0; 0, 1, 1] !![1, 0; 0, 1] !![1, -1; 0, 1; 0, 0] (by decide) (by decide) F)
    (Or.inl rfl)
  refine ⟨c, h1, h2, h3, ?_⟩
  rw [h4]
  decide

/-- A phase flip with probability 16/25. -/
noncomputable def phaseErrors : List (Arr ℂ) :=
  [⟨2, 2, fun i j => if i = j then 3 / 5 else 0⟩, ⟨2, 2, fun i j => if i = j then if i = 0 then 4 / 5 else -4 / 5 else 0⟩]

theorem phaseErrors_shape : ∀ e ∈ phaseErrors, e.rows = 2 ∧ e.cols = 2 := by simp [phaseErrors]

theorem phaseErrors_tp : TracePreserving fun i : Fin phaseErrors.length => phaseErrors[i].mat 2 2 := by
  have h : ∀ m : ℕ, [m.AtLeastTwo] → (starRingEnd ℂ) (OfNat.ofNat m) = OfNat.ofNat m := fun m _ => map_ofNat _ m
  show ∑ i : Fin 2, _ = _
  rw [Fin.sum_univ_two]
  ext a b
  fin_cases a <;> fin_cases b <;>
    simp [phaseErrors, Arr.mat, Matrix.mul_apply, Fin.sum_univ_two, h 3, h 4, h 5] <;> norm_num

theorem phaseErrors_pauli : ∀ e ∈ phaseErrors, IsPauliMultiple (e.mat 2 2) := by
  intro e he
  simp only [phaseErrors, List.mem_cons, List.not_mem_nil, or_false] at he
  rcases he with rfl | rfl
  · refine ⟨3 / 5, Or.inl ?_⟩
    ext a b
    fin_cases a <;> fin_cases b <;> simp [Arr.mat]
  · refine ⟨4 / 5, Or.inr (Or.inr (Or.inr ?_))⟩
    ext a b
    fin_cases a <;> fin_cases b <;> simp [Arr.mat] <;> norm_num

/-- The hypotheses of C44 hold for the phase flip code; there the returned object has eight Kraus operators. -/
example : ∃ eigh c o, eigh.Correct ∧
    stabInit (.rows [[1, 1, 0, 0, 0, 0], [0, 1, 1, 0, 0, 0]]) 3 1 none = .ok c ∧
    effectiveKraus eigh (.rows [[1, 1, 0, 0, 0, 0], [0, 1, 1, 0, 0, 0]]) 3 1 phaseErrors = .ok o ∧ o.kraus.len = 8 := by
  obtain ⟨c, h1, h2, h3, h4, h5, h6⟩ := codePhase
  obtain ⟨eigh, hE⟩ := exists_eigh
  obtain ⟨o, V, ops, e1, e2, -, -, -, -, -, e3, -⟩ := C44_channel hE h1 (by decide) h2 (by
    intro i hi
    rw [h4] at hi
    interval_cases i
    · rw [h5]; decide
    · rw [h6]; decide) h3 phaseErrors_shape phaseErrors_tp
  exact ⟨eigh, c, o, hE, h1, e1, by rw [(qchanInit_ok e2).2.1, e3]; rfl⟩

/-- C56 on the phase flip code: after a single phase flip on the first qubit, which the code can correct, the
"corrected" state is orthogonal to the code. -/
theorem C56_single_flip_refuted : ∃ eigh c o V ops, eigh.Correct ∧
    stabInit (.rows [[1, 1, 0, 0, 0, 0], [0, 1, 1, 0, 0, 0]]) 3 1 none = .ok c ∧
    effectiveKraus eigh (.rows [[1, 1, 0, 0, 0, 0], [0, 1, 1, 0, 0, 0]]) 3 1 phaseErrors = .ok o ∧
    QChan.init true ops 1 3 2 2 [] = .ok o ∧ encodeKraus eigh c = .ok V ∧
    tensorPow (fun i : Fin phaseErrors.length => phaseErrors[i].mat 2 2) 3 (4 : Fin 8) =
      (36 / 125 : ℂ) • pauliN ⟨![0, 0, 0], ![1, 0, 0]⟩ ∧
    (V.mat 8 2)ᴴ * ops.ops 8 8 2 4 = 0 := by
  obtain ⟨c, h1, h2, h3, h4, h5, h6⟩ := codePhase
  obtain ⟨eigh, hE⟩ := exists_eigh
  obtain ⟨o, V, ops, e1, e2, e3, -, e4⟩ := C56_leaves_code_refuted hE h1 (by decide) h2 (by
    intro i hi
    rw [h4] at hi
    interval_cases i
    · rw [h5]; decide
    · rw [h6]; decide) h3 phaseErrors_shape phaseErrors_tp phaseErrors_pauli
  have hten : tensorPow (fun i : Fin phaseErrors.length => phaseErrors[i].mat 2 2) 3 (4 : Fin 8) =
      (36 / 125 : ℂ) • pauliN ⟨![0, 0, 0], ![1, 0, 0]⟩ := by
    have := tensorProd_pauli_of (n := 3)
      (E := fun t => phaseErrors[digit (m := 2) (n := 3) (4 : Fin 8) t].mat 2 2) (a := ![4 / 5, 3 / 5, 3 / 5])
      (x := ![0, 0, 0]) (z := ![1, 0, 0]) (by
        intro t i j
        fin_cases t <;> fin_cases i <;> fin_cases j <;> simp [phaseErrors, digit, Arr.mat, sgn] <;> norm_num)
    rw [Fin.prod_univ_three] at this
    refine this.trans ?_
    congr 1
    simp only [Matrix.cons_val]
    norm_num
  refine ⟨eigh, c, o, V, ops, hE, h1, e1, e2, e3, hten, ?_⟩
  refine e4 (4 : Fin 8) 0 (by rw [h4]; decide) ?_
  have hg : generator 3 c 0 = pauliN (rowPauli 3 [1, 1, 0, 0, 0, 0]) := by rw [← h5]; rfl
  rw [hg]
  refine (congrArg (· * _) hten).trans (Eq.trans ?_ (congrArg (fun M => -(_ * M)) hten).symm)
  simp only [Matrix.smul_mul, Matrix.mul_smul]
  rw [pauliN_comm, show symp (⟨![0, 0, 0], ![1, 0, 0]⟩ : Pauli 3) (rowPauli 3 [1, 1, 0, 0, 0, 0]) = 1 by decide]
  simp [sgn]

end PyQ
