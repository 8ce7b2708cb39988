import Verif.Props.Choi
import Verif.Props.KrausCompose

/-!
# C118: Choi objects with different numbers of input and output particles

`channel` keeps the particles `num_out, ..., 2 num_out - 1` of the list of input and output particles.  These are the outputs only if
there are as many inputs as outputs.
-/

namespace PyQ

open Matrix

namespace ChoiObj

theorem splitIndex_skip (e b : ℕ) (rest : List (ℕ × Bool)) (r : ℕ) :
    splitIndex (List.replicate b (e, false) ++ rest) r =
      ((splitIndex rest (r / e ^ b)).1, (splitIndex rest (r / e ^ b)).2 * e ^ b + r % e ^ b) := by
  induction b generalizing r with
  | zero => simp [Nat.mod_one]
  | succ b ih =>
    rw [List.replicate_succ, List.cons_append]
    simp only [splitIndex, Bool.false_eq_true, if_false]
    rw [ih, Nat.div_div_eq_div_mul, ← pow_succ']
    congr 1
    rw [pow_succ', Nat.mod_mul]
    ring

/-- The factors of the partial trace for twice as many inputs as outputs. -/
theorem ptrace_factors_half (b d e : ℕ) :
    ((List.range (List.replicate (b + b) d ++ List.replicate b e).length).map fun i =>
      ((List.replicate (b + b) d ++ List.replicate b e).getD i 0, decide (i ∈ List.range' b b))).reverse =
      List.replicate b (e, false) ++ (List.replicate b (d, true) ++ List.replicate b (d, false)) := by
  have h : (List.range (List.replicate (b + b) d ++ List.replicate b e).length).map (fun i =>
      ((List.replicate (b + b) d ++ List.replicate b e).getD i 0, decide (i ∈ List.range' b b))) =
      List.replicate b (d, false) ++ (List.replicate b (d, true) ++ List.replicate b (e, false)) := by
    apply List.ext_getElem
    · simp; omega
    · intro i h1 h2
      simp only [List.length_map, List.length_range, List.length_append, List.length_replicate] at h1
      simp only [List.getElem_map, List.getElem_range, List.getElem_append, List.length_replicate,
        List.getElem_replicate, List.mem_range'_1]
      rw [List.getD_eq_getElem?_getD, List.getElem?_eq_getElem (by simpa using h1), Option.getD_some]
      simp only [List.getElem_append, List.length_replicate, List.getElem_replicate]
      by_cases hi : i < b
      · simp [hi, show i < b + b by omega]
      · by_cases hi' : i < b + b
        · simp [hi, hi', show i - b < b by omega]; omega
        · simp [hi, hi', show ¬ i - b < b by omega]
  rw [h, List.reverse_append, List.reverse_append, List.reverse_replicate, List.reverse_replicate, List.reverse_replicate,
    List.append_assoc]

end ChoiObj

variable {q : QutipChecks} {C : Arr ℂ} {a b d e : ℕ} {o : ChoiObj}

/-- **C118 refuted**, more outputs than inputs: `channel` and with it `coherent_information` raise for every state. -/
theorem C118_more_outputs_refuted (h : ChoiObj.init q C a b d e = .ok o) (hab : a < b) (eig : Eigvalsh) (sqrtm : Sqrtm)
    (rho : Arr ℂ) (reg : Bool) :
    ∃ err, ChoiQ.channel o rho 1 false = .error err ∧ ChoiQ.coherentInformation eig sqrtm o rho 1 reg = .error err := by
  obtain ⟨rfl, -⟩ := choiInit_ok h
  have hch : ∃ err, ChoiQ.channel ⟨C, a, b, d, e⟩ rho 1 false = .error err := by
    unfold ChoiQ.channel ChoiObj.channel ChoiObj.outputDim
    simp only
    rcases C.dot (rho.transpose.kron (Arr.eye (e ^ b))) with x | x
    · exact ⟨x, rfl⟩
    · refine ⟨.type, ?_⟩
      show ChoiObj.ptrace x _ _ = _
      unfold ChoiObj.ptrace
      rw [if_neg]
      intro hk
      have := hk (b + (b - 1)) (by rw [List.mem_range'_1]; omega)
      rw [List.length_append, List.length_replicate, List.length_replicate] at this
      omega
  obtain ⟨err, he⟩ := hch
  refine ⟨err, he, ?_⟩
  unfold ChoiQ.coherentInformation
  rw [he]
  rfl

/-- **C118 refuted**, twice as many inputs as outputs of equal dimension: whatever the channel is, `channel` returns the transpose of
the state of the second half of the inputs. -/
theorem C118_half_refuted (h : ChoiObj.init q C (b + b) b d d = .ok o) (hsq : C.rows = C.cols)
    (htp : Spec.traceOutput (C.mat (d ^ b * d ^ b * d ^ b) (d ^ b * d ^ b * d ^ b)) = 1)
    (rho : Arr ℂ) (hr : rho.rows = d ^ b * d ^ b) (hc : rho.cols = d ^ b * d ^ b) :
    ∃ out, ChoiQ.channel o rho 1 false = .ok out ∧ out.rows = d ^ b ∧ out.cols = d ^ b ∧
      ∀ x x' : Fin (d ^ b), out.mat (d ^ b) (d ^ b) x x' =
        ∑ u : Fin (d ^ b), rho.mat (d ^ b * d ^ b) (d ^ b * d ^ b) (finProdFinEquiv (u, x')) (finProdFinEquiv (u, x)) := by
  obtain ⟨rfl, hcols⟩ := choiInit_ok h
  rw [pow_add] at hcols
  set N := d ^ b with hN
  have hk : (rho.transpose.kron (Arr.eye N)).rows = N * N * N := by rw [← hc]; rfl
  have hk' : (rho.transpose.kron (Arr.eye N)).cols = N * N * N := by rw [← hr]; rfl
  have hcols' : C.cols = N * N * N := by rw [hcols]; ring
  have hdot : C.dot (rho.transpose.kron (Arr.eye N)) = .ok (C.mul (rho.transpose.kron (Arr.eye N))) := by
    unfold Arr.dot
    rw [if_pos (by rw [hk, hcols'])]
  have key1 : ∀ {p : ℕ} (y : Fin p) (x : Fin N), (finProdFinEquiv (y, x) : ℕ) % N = x := by
    intro p y x
    rw [finProdFinEquiv_apply_val, Nat.add_mul_mod_self_left, Nat.mod_eq_of_lt x.2]
  have key2 : ∀ {p : ℕ} (y : Fin p) (x : Fin N), (finProdFinEquiv (y, x) : ℕ) / N = y := by
    intro p y x
    rw [finProdFinEquiv_apply_val, Nat.add_mul_div_left _ _ (lt_of_le_of_lt (Nat.zero_le _) x.2),
      Nat.div_eq_of_lt x.2, zero_add]
  set M := C.mul (rho.transpose.kron (Arr.eye N)) with hM
  have hMr : M.rows = N * N * N := hsq.trans hcols'
  have hMc : M.cols = N * N * N := hk'
  have hpt : ∃ out, ChoiObj.ptrace M (List.replicate (b + b) d ++ List.replicate b d) (List.range' b b) = .ok out ∧
      out.rows = N ∧ out.cols = N ∧ ∀ x x' : Fin N, out.get x x' = ∑ u : Fin N, ∑ z : Fin N,
        M.get (finProdFinEquiv (finProdFinEquiv (u, x), z)) (finProdFinEquiv (finProdFinEquiv (u, x'), z)) := by
    unfold ChoiObj.ptrace
    rw [if_pos (by
      intro k hk
      rw [List.mem_range'_1] at hk
      rw [List.length_append, List.length_replicate, List.length_replicate]
      omega)]
    simp only [ChoiObj.ptrace_factors_half]
    refine ⟨_, rfl, ?_, ?_, ?_⟩
    · simp [List.filter_append, List.prod_replicate, hN]
    · simp [List.filter_append, List.prod_replicate, hN]
    · intro x x'
      have hsplit : ∀ (u x z : Fin N), ChoiObj.splitIndex (List.replicate b (d, false) ++ (List.replicate b (d, true) ++
          List.replicate b (d, false))) (finProdFinEquiv (finProdFinEquiv (u, x), z)) = ((x : ℕ), (u : ℕ) * N + z) := by
        intro u x z
        rw [ChoiObj.splitIndex_skip, ChoiObj.splitIndex_kept, ChoiObj.splitIndex_traced, ← hN, key1, key2, key1, key2, zero_mul, zero_add,
          Nat.mod_eq_of_lt u.2]
      have hinj : ∀ u z u' z' : Fin N, (u : ℕ) * N + z = (u' : ℕ) * N + z' → u = u' ∧ z = z' := by
        intro u z u' z' hh
        have e1 : (finProdFinEquiv (u, z) : ℕ) = finProdFinEquiv (u', z') := by
          rw [finProdFinEquiv_apply_val, finProdFinEquiv_apply_val]
          linarith [mul_comm (u : ℕ) N, mul_comm (u' : ℕ) N]
        have e2 := finProdFinEquiv.injective (Fin.ext e1)
        exact ⟨congrArg Prod.fst e2, congrArg Prod.snd e2⟩
      simp only [hMr, hMc]
      rw [Finset.sum_range, Spec.sum_index, Spec.sum_index]
      refine Finset.sum_congr rfl fun u _ => ?_
      rw [Finset.sum_eq_single x]
      · refine Finset.sum_congr rfl fun z _ => ?_
        rw [Finset.sum_range, Spec.sum_index, Spec.sum_index, Finset.sum_eq_single u]
        · rw [Finset.sum_eq_single x']
          · rw [Finset.sum_eq_single z]
            · rw [hsplit, hsplit, if_pos ⟨rfl, rfl, rfl⟩]
            · intro z' _ hz'
              rw [hsplit, hsplit, if_neg]
              rintro ⟨-, -, hh⟩
              exact hz' (hinj _ _ _ _ hh).2.symm
            · simp
          · intro y _ hy
            refine Finset.sum_eq_zero fun z' _ => ?_
            rw [hsplit, hsplit, if_neg]
            rintro ⟨-, hh, -⟩
            exact hy (Fin.ext hh)
          · simp
        · intro u' _ hu'
          refine Finset.sum_eq_zero fun y _ => Finset.sum_eq_zero fun z' _ => ?_
          rw [hsplit, hsplit, if_neg]
          rintro ⟨-, -, hh⟩
          exact hu' (hinj _ _ _ _ hh).1.symm
        · simp
      · intro y _ hy
        refine Finset.sum_eq_zero fun z _ => ?_
        rw [Finset.sum_range]
        refine Finset.sum_eq_zero fun t _ => ?_
        rw [hsplit, if_neg]
        rintro ⟨hh, -, -⟩
        exact hy (Fin.ext hh)
      · simp
  obtain ⟨out, h1, h2, h3, h4⟩ := hpt
  refine ⟨out, ?_, h2, h3, ?_⟩
  · unfold ChoiQ.channel ChoiObj.channel ChoiObj.outputDim
    simp only [← hN, hdot]
    exact h1
  intro x x'
  rw [Arr.mat_apply, h4]
  refine Finset.sum_congr rfl fun u _ => ?_
  have hMe : ∀ (w v : Fin (N * N)) (z : Fin N), M.get (finProdFinEquiv (w, z)) (finProdFinEquiv (v, z)) =
      ∑ y : Fin (N * N), C.get (finProdFinEquiv (w, z)) (finProdFinEquiv (y, z)) * rho.get v y := by
    intro w v z
    change ∑ k ∈ Finset.range C.cols, _ = _
    rw [hcols', Finset.sum_range, Spec.sum_index]
    refine Finset.sum_congr rfl fun y _ => ?_
    have hent : ∀ t : Fin N, (rho.transpose.kron (Arr.eye N)).get (finProdFinEquiv (y, t)) (finProdFinEquiv (v, z)) =
        rho.get v y * if t = z then 1 else 0 := by
      intro t
      change rho.get (_ / N) (_ / N) * (if _ % N = _ % N then 1 else 0) = _
      rw [key1, key1, key2, key2]
      simp only [Fin.ext_iff]
    simp only [hent]
    rw [Finset.sum_eq_single z]
    · rw [if_pos rfl, mul_one]
    · intro t _ ht
      rw [if_neg ht, mul_zero, mul_zero]
    · simp
  simp only [hMe]
  rw [Finset.sum_comm, Finset.sum_eq_single (finProdFinEquiv (u, x))]
  · rw [← Finset.sum_mul]
    have := congrFun (congrFun htp (finProdFinEquiv (u, x))) (finProdFinEquiv (u, x))
    rw [Matrix.one_apply_eq] at this
    refine (congrArg (· * _) this).trans ?_
    rw [one_mul]
    rfl
  · intro y _ hy
    rw [← Finset.sum_mul]
    have := congrFun (congrFun htp (finProdFinEquiv (u, x))) y
    rw [Matrix.one_apply_ne (Ne.symm hy)] at this
    refine (congrArg (· * _) this).trans ?_
    rw [zero_mul]
  · simp

/-- **C118 refuted**, an instance: the partial trace of two qubits that keeps the first.  The constructor accepts its Choi matrix; of the
state with the first qubit zero and the second one, the channel leaves a qubit that is zero, and `channel` returns one that is one. -/
theorem C118_partial_trace_refuted : ∃ (q : QutipChecks) (o : ChoiObj) (out : Arr ℂ),
    ChoiObj.init q (Arr.ofMat (Spec.choi (ptraceOps.ops 2 2 4))) 2 1 2 2 = .ok o ∧
    ChoiQ.channel o ⟨4, 4, fun i j => if i = 1 ∧ j = 1 then 1 else 0⟩ 1 false = .ok out ∧
    out.mat 2 2 = !![0, 0; 0, 1] ∧
    Spec.applyKraus (ptraceOps.ops 2 2 4) ((⟨4, 4, fun i j => if i = 1 ∧ j = 1 then 1 else 0⟩ : Arr ℂ).mat 4 4) = !![1, 0; 0, 0] := by
  have hC : (Arr.ofMat (Spec.choi (ptraceOps.ops 2 2 4))).mat (2 ^ 1 * 2 ^ 1 * 2 ^ 1) (2 ^ 1 * 2 ^ 1 * 2 ^ 1) =
      Spec.choi (ptraceOps.ops ptraceOps.len (2 ^ 1) (2 ^ 2)) := Arr.ofMat_mat _
  have ho : ChoiObj.init ⟨fun _ _ _ => true, fun _ _ _ => true⟩ (Arr.ofMat (Spec.choi (ptraceOps.ops 2 2 4))) (1 + 1) 1 2 2 =
      .ok ⟨Arr.ofMat (Spec.choi (ptraceOps.ops 2 2 4)), 1 + 1, 1, 2, 2⟩ := by
    unfold ChoiObj.init
    rw [if_neg (by show ¬ ((8 : ℕ) ≠ _); decide)]
    rfl
  obtain ⟨out, h1, -, -, h4⟩ := C118_half_refuted ho rfl (by
    rw [hC]
    exact (Spec.tp_iff_traceOutput _).mp ptraceOps_tp) ⟨4, 4, fun i j => if i = 1 ∧ j = 1 then 1 else 0⟩ rfl rfl
  refine ⟨_, _, out, ho, h1, ?_, ?_⟩
  · ext x x'
    refine (h4 x x').trans ?_
    change ∑ u : Fin 2, _ = _
    rw [Fin.sum_univ_two]
    fin_cases x <;> fin_cases x' <;> simp [Arr.mat, finProdFinEquiv]
  · ext x x'
    unfold Spec.applyKraus
    change (∑ k : Fin 2, ptraceOps.ops 2 2 4 k * _ * (ptraceOps.ops 2 2 4 k)ᴴ : Matrix (Fin 2) (Fin 2) ℂ) x x' = _
    rw [Fin.sum_univ_two]
    fin_cases x <;> fin_cases x' <;> simp [Arr.mat, ptraceOps, Arr3.ops, Matrix.mul_apply, Fin.sum_univ_four]

/-- The hypotheses of `C118_more_outputs_refuted` are met by the isometry that doubles a basis state, with one input and two outputs. -/
example (eig : Eigvalsh) (sqrtm : Sqrtm) (rho : Arr ℂ) : ∃ o, ChoiObj.init ⟨fun _ _ _ => true, fun _ _ _ => true⟩
      (Arr.ofMat (Spec.choi fun _ : Fin 1 => (Matrix.of fun (x : Fin 4) (y : Fin 2) => if (x : ℕ) = 3 * y then (1 : ℂ) else 0))) 1 2 2 2 =
        .ok o ∧
    ∃ err, ChoiQ.channel o rho 1 false = .error err ∧ ChoiQ.coherentInformation eig sqrtm o rho 1 false = .error err := by
  have ho : ChoiObj.init ⟨fun _ _ _ => true, fun _ _ _ => true⟩
      (Arr.ofMat (Spec.choi fun _ : Fin 1 => (Matrix.of fun (x : Fin 4) (y : Fin 2) => if (x : ℕ) = 3 * y then (1 : ℂ) else 0))) 1 2 2 2 =
        .ok ⟨Arr.ofMat (Spec.choi fun _ : Fin 1 => (Matrix.of fun (x : Fin 4) (y : Fin 2) => if (x : ℕ) = 3 * y then (1 : ℂ) else 0)),
          1, 2, 2, 2⟩ := by
    unfold ChoiObj.init
    rw [if_neg (by show ¬ ((8 : ℕ) ≠ _); decide)]
    rfl
  exact ⟨_, ho, C118_more_outputs_refuted ho (by decide) eig sqrtm rho false⟩

end PyQ
