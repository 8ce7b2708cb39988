import Verif.Props.AvgFid

/-!
# C84: the decoder optimisation with `sparse=True`

`optimize_decoder_stabilizers` builds the same operators with `sparse=True` as without, but the programme is never set up
from sparse operators: the call raises for every code and every channel.
-/

namespace PyQ

open Matrix Spec

/-- C84, the part that holds: for every code with one logical qubit and every trace preserving list of 2 by 2 errors the
operators built with `sparse=True` are, one by one, those built without it. -/
theorem C84_operators_partial {eigh : Eigh} (hE : eigh.Correct) {s : StabInput} {n : ℕ} {c : StabCode}
    {errors : List (Arr ℂ)} (h : stabInit s n 1 none = .ok c) (hn : 0 < n) (hb : BinaryArr c.stab)
    (hY : ∀ i < c.stab.rows, parityY (rowPauli n (c.stab.row i)) = 0) (hind : Independent n c.stab)
    (hsh : ∀ e ∈ errors, e.rows = 2 ∧ e.cols = 2)
    (htp : TracePreserving fun i : Fin errors.length => errors[i].mat 2 2) :
    ∃ K K', decoderKraus eigh s n 1 errors false = .ok K ∧ decoderKraus eigh s n 1 errors true = .ok K' ∧
      List.Forall₂ Arr.Same K K' := by
  obtain ⟨K, V, k1, k2, -, -, -, -, k3, k4, k5⟩ := C46_operators false hE h hn hb hY hind hsh htp
  obtain ⟨K', V', l1, l2, -, -, -, -, l3, l4, l5⟩ := C46_operators true hE h hn hb hY hind hsh htp
  rw [k2] at l2
  injection l2 with l2
  subst l2
  refine ⟨K, K', k1, l1, List.forall₂_iff_get.mpr ⟨k3.trans l3.symm, ?_⟩⟩
  intro i hi hi'
  obtain ⟨a1, a2⟩ := k4 K[i] (List.getElem_mem _)
  obtain ⟨b1, b2⟩ := l4 K'[i] (List.getElem_mem _)
  have e1 := k5 ⟨i, hi⟩ ⟨i, k3 ▸ hi⟩ rfl
  have e2 := l5 ⟨i, hi'⟩ ⟨i, k3 ▸ hi⟩ rfl
  show Arr.Same K[i] K'[i]
  rw [Arr.same_iff_mat, a1, a2, b1, b2]
  exact ⟨rfl, rfl, e1.trans e2.symm⟩

/-- C84, refuted: with `sparse=True` the optimisation never returns, for no code, no channel and no solver. -/
theorem C84_never_returns_refuted {eigh : Eigh} {sol : SdpSolver} {s : StabInput} {n k : ℕ} (errors : List (Arr ℂ))
    (out : Arr ℂ × ℝ) : optimizeDecoderStabilizers eigh sol s n k errors true ≠ .ok out := by
  intro h
  obtain ⟨K, -, h⟩ := bind_ok_iff.mp h
  rw [if_pos rfl] at h
  unfold optimizeEntangFidSparse at h
  split at h
  · cases h
  · split at h <;> cases h

/-- C84, refuted: where the call without `sparse` returns an optimal programme, the one with it raises `ValueError`. -/
theorem C84_value_error_refuted {eigh : Eigh} (hE : eigh.Correct) {sol : SdpSolver} {s : StabInput} {n : ℕ} {c : StabCode}
    {errors : List (Arr ℂ)} (h : stabInit s n 1 none = .ok c) (hn : 0 < n) (hb : BinaryArr c.stab)
    (hY : ∀ i < c.stab.rows, parityY (rowPauli n (c.stab.row i)) = 0) (hind : Independent n c.stab)
    (hsh : ∀ e ∈ errors, e.rows = 2 ∧ e.cols = 2)
    (htp : TracePreserving fun i : Fin errors.length => errors[i].mat 2 2) :
    (∃ out, optimizeDecoderStabilizers eigh sol s n 1 errors false = .ok out) ∧
      optimizeDecoderStabilizers eigh sol s n 1 errors true = .error .value := by
  obtain ⟨K, V, k1, k2, -, -, -, -, k3, k4, k5⟩ := C46_operators false hE h hn hb hY hind hsh htp
  obtain ⟨K', V', l1, l2, -, -, -, -, l3, l4, l5⟩ := C46_operators true hE h hn hb hY hind hsh htp
  have hpos : 0 < errors.length := by
    rcases errors with _ | ⟨e, es⟩
    · have := congrFun (congrFun htp 0) 0
      simp at this
    · simp
  have hne : ∀ L : List (Arr ℂ), L.length = errors.length ^ n → L ≠ [] := by
    rintro L hL rfl
    have := pow_pos hpos n
    simp at hL
    omega
  constructor
  · have hd : ∃ p, entangFidProblem K 1 n 2 2 = .ok p := by
      have hK := hne K k3
      rcases K with _ | ⟨a, as⟩
      · exact absurd rfl hK
      · unfold entangFidProblem
        simp only
        have hr : ∀ x ∈ a :: as, x.rows * x.cols = 2 ^ 1 * 2 ^ n := by
          intro x hx
          rw [(k4 x hx).1, (k4 x hx).2, mul_comm]
        rw [if_pos (fun x hx => (hr x (List.mem_cons_of_mem _ hx)).trans (hr a List.mem_cons_self).symm),
          if_pos (show (outerAdjoint a).rows = _ from hr a List.mem_cons_self)]
        exact ⟨_, rfl⟩
    obtain ⟨p, hp⟩ := hd
    refine ⟨sol p, ?_⟩
    unfold optimizeDecoderStabilizers optimizeEntangFid
    rw [k1, ok_bind', if_neg (by decide), hp]
    rfl
  · unfold optimizeDecoderStabilizers optimizeEntangFidSparse
    rw [l1, ok_bind', if_pos rfl]
    have hK := hne K' l3
    rcases K' with _ | ⟨a, as⟩
    · exact absurd rfl hK
    · simp only
      rw [if_neg]
      intro hall
      have := hall a List.mem_cons_self
      rw [(l4 a List.mem_cons_self).1, (l4 a List.mem_cons_self).2] at this
      have h2 := Nat.eq_one_of_mul_eq_one_left this
      omega

/-- The two-qubit code with the generator `XI` and no noise: the hypotheses are met, and only `sparse=True` fails. -/
example {eigh : Eigh} (hE : eigh.Correct) {sol : SdpSolver} :
    (∃ out, optimizeDecoderStabilizers eigh sol (.rows [[1, 0, 0, 0]]) 2 1 [Arr.eye 2] false = .ok out) ∧
      optimizeDecoderStabilizers eigh sol (.rows [[1, 0, 0, 0]]) 2 1 [Arr.eye 2] true = .error .value := by
  obtain ⟨c, h1, h2, h3, h4, h5⟩ := codeXI
  refine C84_value_error_refuted hE h1 (by decide) h2 ?_ h3 (by simp [Arr.eye]) ?_
  · intro i hi
    rw [h4] at hi
    interval_cases i
    rw [h5]
    decide
  · have heye : (fun i : Fin [(Arr.eye 2 : Arr ℂ)].length => [(Arr.eye 2 : Arr ℂ)][i].mat 2 2) = fun _ => 1 := by
      funext i
      obtain ⟨i, hi⟩ := i
      have : i = 0 := by simpa using hi
      subst this
      ext x y
      simp [Arr.eye, Arr.mat, Matrix.one_apply, Fin.ext_iff]
    rw [heye]
    show ∑ a : Fin 1, _ = _
    simp

/-- C46: for an accepted code without logical qubits and an accepted channel the procedure raises a ZeroDivisionError, with and without
`sparse`. -/
theorem C46_no_qubit_error {eigh : Eigh} {sol : SdpSolver} {s : StabInput} {n : ℕ} {c : StabCode} {errors : List (Arr ℂ)} {sp : Bool}
    {o : KrausObj} (h : stabInit s n 0 none = .ok c) (ho : QChan.ofList sp errors 1 1 2 2 [] = .ok o) :
    optimizeDecoderStabilizers eigh sol s n 0 errors sp = .error .zeroDivision := by
  unfold optimizeDecoderStabilizers decoderKraus
  rw [h, ho]
  rfl

/-- One qubit with the generator X and no noise. -/
example (eigh : Eigh) (sol : SdpSolver) : optimizeDecoderStabilizers eigh sol (.rows [[1, 0]]) 1 0 [Arr.eye 2] false =
    .error .zeroDivision := by
  obtain ⟨c, h1, -⟩ := concrete_code (l := [[1, 0]]) (n := 1) (k := 0)
    (r := 1) (e := 0) (by decide) (by decide) (by decide) (by unfold IsBinary; decide) (by decide)
    (independent_cert _ (fun j a => if j = 0 ∧ a = 0 then 1 else 0) (by decide))
    (fun F _ => rank_cert (M := Matrix.of fun (i : Fin 1) (j : Fin 1) => (Arr.ofRows (2 * 1) [[1, 0]]).get i j)
      !![1] !![1] !![1] !![1] (by decide) (by decide) F)
    (Or.inl rfl)
  obtain ⟨o, ho⟩ := init_exact false ⟨1, 2, 2, fun k => (([Arr.eye 2] : List (Arr ℂ)).getD k (Arr.zeros 0 0)).get⟩ 1 1 2 2 [] (by decide) rfl rfl (by
    show ∑ k : Fin 1, _ = _
    rw [Fin.sum_univ_one]
    ext i j
    fin_cases i <;> fin_cases j <;> simp [Arr3.ops, Arr.eye, Matrix.mul_apply, Fin.sum_univ_two])
  refine C46_no_qubit_error (o := o) h1 ?_
  rw [← ho]
  have hA : Arr3.ofList [(Arr.eye 2 : Arr ℂ)] = .ok ⟨1, 2, 2, fun k => (([Arr.eye 2] : List (Arr ℂ)).getD k (Arr.zeros 0 0)).get⟩ := by
    simp only [Arr3.ofList]
    rw [if_pos (by simp)]
    rfl
  unfold QChan.ofList
  rw [hA]
  rfl

end PyQ
