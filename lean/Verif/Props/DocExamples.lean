import Verif.Props.StdChannels
import Verif.Props.Dephrasure
import Verif.Props.Shapes
import Verif.Props.Channel
import Verif.Props.OptimizeState
import Verif.Props.LogicalCircuit
import Verif.Props.EndToEnd

/-! # C109: the examples of the documentation

The three README files show how the library is used.  The theorems follow the examples, for every value of the
parameters and not only for those printed. -/

namespace PyQ

open Matrix Spec

/-! ### README.md: the bit-flip channel -/

/-- The operators which README.md gives for the bit-flip channel: `[(1 - p) * I, p * X]`. -/
noncomputable def Spec.readmeFlip (p : ℝ) : List (Arr ℂ) :=
  [Arr.ofMat (((1 - p : ℝ) : ℂ) • (!![1, 0; 0, 1] : Matrix (Fin 2) (Fin 2) ℂ)),
    Arr.ofMat ((p : ℂ) • (!![0, 1; 1, 0] : Matrix (Fin 2) (Fin 2) ℂ))]

/-- The operators of the bit-flip channel: `[sqrt(1 - p) * I, sqrt(p) * X]`. -/
noncomputable def Spec.flipList (p : ℝ) : List (Arr ℂ) := [Arr.ofMat (bitFlip p 0), Arr.ofMat (bitFlip p 1)]

theorem readmeFlip_near {p : ℝ} :
    (Spec.NearlyTP fun k : Fin (readmeFlip p).length => (readmeFlip p)[k].mat (2 ^ 1) (2 ^ 1)) ↔
      |2 * p * (1 - p)| < 1 / 10 ^ 5 := by
  have key : (∑ k : Fin 2, (((![((1 - p : ℝ) : ℂ) • !![1, 0; 0, 1], (p : ℂ) • !![0, 1; 1, 0]] :
      Fin 2 → Matrix (Fin 2) (Fin 2) ℂ) k)ᴴ * (![((1 - p : ℝ) : ℂ) • !![1, 0; 0, 1], (p : ℂ) • !![0, 1; 1, 0]] :
      Fin 2 → Matrix (Fin 2) (Fin 2) ℂ) k)) - 1 = ((-(2 * p * (1 - p)) : ℝ) : ℂ) • (1 : Matrix (Fin 2) (Fin 2) ℂ) := by
    ext i j
    fin_cases i <;> fin_cases j <;> simp [Fin.sum_univ_two, Matrix.mul_apply, Matrix.conjTranspose_apply] <;> ring
  have hfam : (fun k : Fin (readmeFlip p).length => (readmeFlip p)[k].mat (2 ^ 1) (2 ^ 1)) =
      (![((1 - p : ℝ) : ℂ) • !![1, 0; 0, 1], (p : ℂ) • !![0, 1; 1, 0]] : Fin 2 → Matrix (Fin 2) (Fin 2) ℂ) := by
    funext k
    have hk : k = (0 : Fin 2) ∨ k = (1 : Fin 2) := by
      have := k.2
      simp only [readmeFlip, List.length_cons, List.length_nil] at this
      rcases (by omega : (k : ℕ) = 0 ∨ (k : ℕ) = 1) with h | h
      · exact Or.inl (Fin.ext h)
      · exact Or.inr (Fin.ext h)
    rcases hk with rfl | rfl
    · exact Arr.ofMat_mat _
    · exact Arr.ofMat_mat _
  rw [hfam]
  have hdef : ∀ K : Fin 2 → Matrix (Fin 2) (Fin 2) ℂ, Spec.NearlyTP K ↔
      ∀ i j : Fin 2, ‖((∑ k, (K k)ᴴ * K k) - 1) i j‖ < 1 / 10 ^ 5 := fun _ => Iff.rfl
  refine (hdef _).trans ?_
  rw [key]
  constructor
  · intro h
    have h00 := h 0 0
    rwa [Matrix.smul_apply, Matrix.one_apply_eq, smul_eq_mul, mul_one, Complex.norm_real, Real.norm_eq_abs, abs_neg] at h00
  · intro h i j
    rw [Matrix.smul_apply, Matrix.one_apply]
    split_ifs
    · rw [smul_eq_mul, mul_one, Complex.norm_real, Real.norm_eq_abs, abs_neg]; exact h
    · simp

/-- C109 is false of the first example of README.md: the constructor raises `AssertionError` on the operators
`[(1 - p) * I, p * X]` for every `p` with `2 p (1 - p) ≥ 1e-5`, because they do not preserve the trace. -/
theorem C109_bitflip_refuted (chk : QutipChecks) (orth : List ℕ) (sp : Bool) (p : ℝ) (hp : 1 / 10 ^ 5 ≤ 2 * p * (1 - p)) :
    Chan.init chk (.list (readmeFlip p)) (.list 1 1) 2 2 orth sp = .error .assertion := by
  obtain ⟨A, e1, e2, e3, e4, e5⟩ := arr3_ofList (l := readmeFlip p) (by simp [readmeFlip]) (r := 2) (c := 2)
    (by intro e he; simp only [readmeFlip, List.mem_cons, List.not_mem_nil, or_false] at he; rcases he with rfl | rfl <;> exact ⟨rfl, rfl⟩)
  have : QChan.init sp A 1 1 2 2 orth = .error .assertion := by
    refine init_not_tp sp A 1 1 2 2 orth (by rw [e2]; simp [readmeFlip]) e4 e3 ?_
    rintro o rfl ho
    have h1 := (isTP_iff o (2 ^ 1) (2 ^ 1) e3 e4).1 ho
    have key : ∀ (n : ℕ) (hn : n = (readmeFlip p).length), Spec.NearlyTP (o.kraus.ops n (2 ^ 1) (2 ^ 1)) →
        Spec.NearlyTP fun k : Fin (readmeFlip p).length => (readmeFlip p)[k].mat (2 ^ 1) (2 ^ 1) := by
      rintro n rfl h
      convert h using 2 with k
      ext i j
      simp only [Arr.mat, Arr3.ops, e5 k k.2]
      rfl
    have := readmeFlip_near.1 (key _ e2 h1)
    rw [abs_of_nonneg (le_trans (by norm_num) hp)] at this
    linarith
  simp only [Chan.init, Chan.initKraus, readmeFlip] at e1 ⊢
  simp only [e1, bind, Except.bind, (forKraus_ok (x := (1, 1))).2 rfl, this]

/-- C109, the bit-flip channel with the roots: the constructor accepts it for every probability, `channel(I, 1)` is the
identity, and the complementary channel gives `diag(2 (1 - p), 2 p)` at the identity: as README.md says, the channel is
unital and its complement is not (unless `p = 1/2`). -/
theorem C109_bitflip_partial (chk : QutipChecks) (sp : Bool) {p : ℝ} (h0 : 0 ≤ p) (h1 : p ≤ 1) :
    ∃ k, Chan.init chk (.list (flipList p)) (.list 1 1) 2 2 [] sp = .ok ⟨sp, .kraus k⟩ ∧
      (∃ X, (QChan.channel k (Arr.eye 2) 1 false).1 = .ok X ∧ X.rows = 2 ∧ X.cols = 2 ∧ X.mat 2 2 = 1) ∧
      (∃ W, (QChan.entropyExchange k (Arr.eye 2) 1).1 = .ok [W] ∧ W.rows = 2 ∧ W.cols = 2 ∧
        W.mat 2 2 = !![((2 * (1 - p) : ℝ) : ℂ), 0; 0, ((2 * p : ℝ) : ℂ)]) := by
  have htp := bitFlip_tp h0 h1
  have hA : ∃ A, Arr3.ofList (flipList p) = .ok A ∧ A.len = 2 ∧ A.rows = 2 ∧ A.cols = 2 ∧ A.ops 2 2 2 = bitFlip p := by
    obtain ⟨A, e1, e2, e3, e4, e5⟩ := arr3_ofList (l := flipList p) (by simp [flipList]) (r := 2) (c := 2)
      (by intro e he; simp only [flipList, List.mem_cons, List.not_mem_nil, or_false] at he; rcases he with rfl | rfl <;> exact ⟨rfl, rfl⟩)
    refine ⟨A, e1, e2, e3, e4, ?_⟩
    funext k
    have g0 := e5 0 (by simp [flipList])
    have g1 := e5 1 (by simp [flipList])
    fin_cases k
    · refine Eq.trans ?_ (Arr.ofMat_mat (bitFlip p 0))
      ext i j
      exact congrFun (congrFun g0 i) j
    · refine Eq.trans ?_ (Arr.ofMat_mat (bitFlip p 1))
      ext i j
      exact congrFun (congrFun g1 i) j
  obtain ⟨A, e1, e2, e3, e4, e5⟩ := hA
  obtain ⟨k, hk⟩ : ∃ k, QChan.init sp A 1 1 2 2 [] = .ok k := by
    refine (qchanInit_iff sp A 1 1 2 2 []).2 ⟨by omega, e3, e4, ?_⟩
    rw [e2]
    change Spec.NearlyTP (A.ops 2 2 2)
    rw [e5]
    intro i j
    rw [show ∑ k, (bitFlip p k)ᴴ * bitFlip p k = 1 from htp, sub_self]
    simp
  have heye : (Arr.eye 2 : Arr ℂ).mat 2 2 = 1 := by
    ext i j
    simp [Arr.mat, Arr.eye, Matrix.one_apply, Fin.ext_iff]
  have hp0 := amp_mul_self h0
  have hp1 := amp_mul_self (sub_nonneg.mpr h1)
  rw [Complex.ofReal_sub, Complex.ofReal_one] at hp1
  have hc0 : ∀ x, (starRingEnd ℂ) (amp x) = amp x := fun x => by simp [amp]
  refine ⟨k, ?_, ?_, ?_⟩
  · simp only [Chan.init, Chan.initKraus, flipList] at e1 ⊢
    simp only [e1, bind, Except.bind, (forKraus_ok (x := (1, 1))).2 rfl, hk]
    rfl
  · obtain ⟨X, x1, x2, x3, x4⟩ := api_channel_one hk [] ⟨by simp, by simp⟩ (Arr.eye 2) rfl rfl
    refine ⟨X, x1, x2, x3, ?_⟩
    rw [e2] at x4
    change X.mat 2 2 = applyKraus (A.ops 2 2 2) ((Arr.eye 2 : Arr ℂ).mat 2 2) at x4
    rw [x4, e5, heye]
    ext i j
    rw [applyKraus_apply]
    fin_cases i <;> fin_cases j <;>
      simp [bitFlip, Fin.sum_univ_two, Matrix.mul_apply, hc0] <;> linear_combination hp0 + hp1
  · obtain ⟨W, x1, x2, x3, x4⟩ := api_exchange_one hk (Or.inr rfl) [] ⟨by simp, by simp⟩ (Arr.eye 2) rfl rfl
    rw [e2] at x2 x3 x4
    refine ⟨W, x1, x2, x3, ?_⟩
    change W.mat 2 2 = entropyExchange (A.ops 2 2 2) ((Arr.eye 2 : Arr ℂ).mat 2 2) at x4
    rw [x4, e5, heye]
    ext i j
    unfold Spec.entropyExchange
    rw [mul_one]
    simp only [Matrix.trace, Matrix.diag, Matrix.mul_apply, Matrix.conjTranspose_apply, Fin.sum_univ_two]
    fin_cases i <;> fin_cases j <;> simp [bitFlip, hc0]
    · linear_combination 2 * hp1
    · linear_combination 2 * hp0

/-! ### chan/README.md: two channels one after the other, the complementary channel, the minimum fidelity -/

/-- C109 is false of `chan2 + chan1` in chan/README.md: for any two channels from one qubit to one qutrit (as in
the example, `[1, 1], 2, 3`), dense or sparse, after any calls, the sum raises `TypeError`. -/
theorem C109_serial_refuted (chk : QutipChecks) (eigh : Eigh) {sp₁ sp₂ : Bool} {ops₁ ops₂ : Arr3 ℂ} {orth₁ orth₂ : List ℕ}
    {s t : KrausObj} (hs : QChan.init sp₁ ops₁ 1 1 2 3 orth₁ = .ok s) (ht : QChan.init sp₂ ops₂ 1 1 2 3 orth₂ = .ok t)
    (cs ct : List QChan.Call) :
    Chan.add chk eigh (Chan.history ⟨sp₁, .kraus s⟩ cs) (Chan.history ⟨sp₂, .kraus t⟩ ct) = .error .type := by
  rw [chanAdd_eq hs]
  obtain ⟨-, h2, -, -, -, -, -, -, h9, h10, h11, -⟩ := qchanInit_ok ht
  obtain ⟨-, -, -, -, -, -, -, -, g9, g10, g11, -⟩ := qchanInit_ok hs
  obtain ⟨p1, -⟩ := history_static t ct
  have hk : Chan.krausArray eigh (Chan.history ⟨sp₂, .kraus t⟩ ct) = .ok ops₂ := congrArg _ (p1.trans h2)
  rw [hk]
  have : serialConcat ops₁ ops₂ = .error .type := by
    unfold serialConcat
    rw [if_pos ⟨g9.ne', h9.ne', by rw [h11, g10]; decide⟩]
  simp only [bind, Except.bind, this]

/-- C109 is false of `entropy_exchange(rho, n=1, adjoint=True)` in chan/README.md, where the channel has four operators
and `rho` is 3 by 3: the call raises `ValueError`, whatever `rho` is. -/
theorem C109_adjoint_refuted {sp : Bool} {ops : Arr3 ℂ} {orth : List ℕ} {o : KrausObj}
    (h : QChan.init sp ops 1 1 2 3 orth = .ok o) (hl : ops.len = 4) {calls : List QChan.Call}
    (hsafe : SafeUses sp (calls.map QChan.Call.uses ++ [1])) (rho : Arr ℂ) (hr : rho.rows = 3) (hc : rho.cols = 3) :
    (QChan.entropyExchangeAdj (QChan.history o calls) rho 1).1 = .error .value := by
  cases sp
  · exact C87_adjoint_dense_partial h hsafe rho (by rw [hl]; decide) (Or.inl (by rw [hr, hl]; decide))
  · exact (C87_adjoint_sparse h hsafe rho).1 (by rw [hr, hc, hl]; decide)

/-- C109 is false of `optimize_fidelity` in chan/README.md, which is called for a channel from a qubit to a qutrit: if
the output dimension differs from the input dimension the search returns nothing, for every number of uses, with
differential evolution or a pool, whatever the other options are. -/
theorem C109_fidelity_refuted {g : Rng} {scipy : Scipy} {eig : Eigvalsh} {sqrtm : Sqrtm} (hsp : scipy.Correct)
    (hsqrt : sqrtm.Correct) {sp : Bool} {ops : Arr3 ℂ} {a b d e : ℕ} {orth : List ℕ} {o : KrausObj}
    (h : QChan.init sp ops a b d e orth = .ok o) (hne : d ^ a ≠ e ^ b) {n : ℕ} (hn : n ≠ 0) {calls : List QChan.Call}
    (hsafe : SafeUses sp (calls.map QChan.Call.uses ++ [n])) {optimizer name : String} {lipschitz usePool : PyNum}
    {maxiter : ℕ} {samples : SamplesArg} (hm : optimizer = "diffev" ∨ usePool.toInt ≠ 0) (out : OptOutput) (o' : KrausObj) :
    QChan.optimizeFidelity g scipy eig sqrtm (QChan.history o calls) n optimizer (.str name) lipschitz usePool maxiter
      samples ≠ (.ok out, o') := by
  intro hopt
  obtain ⟨v, hv, hval⟩ := C39_optimize_fidelity hsp hopt hm
  obtain ⟨d1, d2, d3⟩ := C51_fidelity_state h hopt
  unfold QChan.optimizeFidelity at hopt
  rcases hs : QChan.sync (QChan.history o calls) n with ⟨x | u, o1⟩
  · rw [hs] at hopt
    have := congrArg Prod.fst hopt
    cases this
  rw [hs] at hopt
  simp only [Prod.mk.injEq] at hopt
  obtain ⟨hopt, rfl⟩ := hopt
  obtain ⟨rr, rfl⟩ := sync_history hs
  have hsafe2 : Spec.SafeUses sp ((calls ++ [QChan.Call.channel rr n false]).map QChan.Call.uses ++ [n]) := by
    rw [List.map_append]; exact safe_twice hsafe
  have := C50_dimensions hsqrt h _ n hsafe2 out.rho d1 d2 d3.1 (fun hh => hne (Nat.pow_left_injective hn hh))
  rw [hval] at this
  cases this

/-- The dephrasure channel of chan/README.md is accepted and meets the hypotheses of the last three theorems. -/
example (sp : Bool) {p q : ℝ} (p0 : 0 ≤ p) (p1 : p ≤ 1) (q0 : 0 ≤ q) (q1 : q ≤ 1) :
    ∃ o, QChan.init sp (opsArr (dephrasure p q)) 1 1 2 3 [] = .ok o ∧ (opsArr (dephrasure p q)).len = 4 ∧
      SafeUses sp (([] : List QChan.Call).map QChan.Call.uses ++ [1]) ∧ (2 : ℕ) ^ 1 ≠ 3 ^ 1 := by
  obtain ⟨o, ho⟩ := opsArr_init sp (a := 1) (b := 1) (d := 2) (e := 3) (dephrasure p q) (by decide) (dephrasure_tp p0 p1 q0 q1) []
  exact ⟨o, ho, rfl, ⟨by simp, by simp⟩, by decide⟩

/-! ### PyQCodes/README.md: the logical operator and the error correction -/

/-- C109, the first example of PyQCodes/README.md: encode zeros, apply the logical operator `Xi`, decode: the ancillas hold
the basis state with a one at place `i` and zeros elsewhere, for every code. -/
theorem C109_logical (s : StabInput) (n k : ℕ) (c : StabCode) (h : stabInit s n k none = .ok c)
    (hb : BinaryArr c.stab) (hind : Independent n c.stab) (i : Fin k) (hi10 : (i : ℕ) < 10) :
    ∃ enc xs dec, encodingCircuit c n (List.replicate k 0) = .ok enc ∧
      logicalCircuit c n ['X', Char.ofNat (48 + i)] = .ok xs ∧ decodingCircuit c n true = .ok dec ∧
      run dec (tensor (run xs (run enc (ket 0))) (ket 0)) =
        tensor (run enc (ket 0) : Amp n) (ket (Pi.single i 1 : Fin k → ZMod 2)) := by
  obtain ⟨gs, gs', hs, g1, g2, g3, g4⟩ := C14_logical_X s n k c h hb hind (List.replicate k 0) (by simp)
    (fun v hv => Or.inl (List.eq_of_mem_replicate hv)) i i.2 hi10
  obtain ⟨enc, dec, d1, d2, -, d4⟩ := C15_decoding s n k c h hb hind n true (Or.inl ⟨rfl, rfl⟩)
  have hzero : bitsList (0 : Fin k → ZMod 2) = List.replicate k 0 := by
    simp [bitsList, List.ofFn_const]
  have hset : bitsList (Pi.single i 1 : Fin k → ZMod 2) = (List.replicate k 0).set i (1 - (List.replicate k (0 : ℤ)).getD i 0) := by
    apply List.ext_getElem
    · simp [bitsList]
    · intro j h1 h2
      simp only [bitsList, List.getElem_ofFn, List.getElem_set, List.getElem_replicate]
      rw [List.getD_eq_getElem _ _ (by simp)]
      by_cases hij : (i : ℕ) = j
      · subst hij; simp; rfl
      · rw [if_neg hij, Pi.single_eq_of_ne (by intro hh; exact hij (congrArg Fin.val hh).symm)]; rfl
  have e0 : enc 0 = gs := Except.ok.inj ((d1 0).symm.trans (by rw [hzero]; exact g1))
  have e1 : enc (Pi.single i 1) = gs' := Except.ok.inj ((d1 _).symm.trans (by rw [hset]; exact g2))
  refine ⟨gs, hs, dec, g1, g3, d2, ?_⟩
  have := d4 (Pi.single (Pi.single i 1) 1)
  rw [Finset.sum_eq_single (Pi.single i 1 : Fin k → ZMod 2) (fun δ _ hδ => by rw [Pi.single_eq_of_ne hδ, zero_smul])
    (fun hh => absurd (Finset.mem_univ _) hh), Finset.sum_eq_single (Pi.single i 1 : Fin k → ZMod 2)
    (fun δ _ hδ => by rw [Pi.single_eq_of_ne hδ, zero_smul]) (fun hh => absurd (Finset.mem_univ _) hh)] at this
  simp only [Pi.single_eq_same, one_smul] at this
  rw [e0, e1] at this
  rw [g4]
  exact this

/-- C109 is false of the error correction in PyQCodes/README.md, for every code: "apply the stabilizer to reverse the
error" reverses nothing.  If the error `e` hits an encoded state, then after applying any row of the code, or none, the
state is the one before the error, up to one phase, iff it was so without the correction, that is, iff `e` is in the
group. -/
theorem C109_recipe_refuted (s : StabInput) (n k : ℕ) (c : StabCode) (h : stabInit s n k none = .ok c)
    (hb : BinaryArr c.stab) (hind : Independent n c.stab)
    (hY : ∀ a < c.stab.rows, parityY (rowPauli n (c.stab.row a)) = 0) (e : List ℤ) :
    ∃ enc : (Fin k → ZMod 2) → List Gate, (∀ δ, encodingCircuit c n (bitsList δ) = .ok (enc δ)) ∧
      ((∃ ω : ℂ, ∀ α : (Fin k → ZMod 2) → ℂ, pauliAct (rowPauli n e) (∑ δ, α δ • (run (enc δ) (ket 0) : Amp n)) =
          ω • ∑ δ, α δ • run (enc δ) (ket 0)) ↔ (rowPauli n e).vec ∈ groupOf n c.iter) ∧
      ∀ g ∈ c.iter, ∃ corr, applyStabilizerCircuit n (.bin g) = .ok corr ∧
        ((∃ ω : ℂ, ∀ α : (Fin k → ZMod 2) → ℂ,
          run corr (pauliAct (rowPauli n e) (∑ δ, α δ • (run (enc δ) (ket 0) : Amp n))) = ω • ∑ δ, α δ • run (enc δ) (ket 0)) ↔
        (rowPauli n e).vec ∈ groupOf n c.iter) := by
  obtain ⟨-, -, -, hsh, -, -, -⟩ := accepted_facts h hb hind
  obtain ⟨enc, e1, -⟩ := encoded_family h hb hind
  refine ⟨enc, e1, ?_, ?_⟩
  · have hbin : IsBinary (List.replicate (2 * n) (0 : ℤ)) := fun v hv => Or.inl (List.eq_of_mem_replicate hv)
    obtain ⟨enc', corr, dec, f1, f2, -, f4, -⟩ := C61_correction s n k c h hb hind hY e (List.replicate (2 * n) 0) (by simp) hbin
    have henc : enc' = enc := funext fun δ => Except.ok.inj ((f1 δ).symm.trans (e1 δ))
    subst henc
    obtain ⟨gs, str, c1, c2, -, c4⟩ := C48_apply_stabilizer n (List.replicate (2 * n) 0) (by simp) hbin
    rw [f2] at c1
    cases c1
    have hz : rowPauli n (List.replicate (2 * n) 0) = ⟨0, 0⟩ := by
      have h0 : ∀ j, (List.replicate (2 * n) (0 : ℤ)).getD j 0 = 0 := fun j => by simp [List.getD_replicate]
      simp only [rowPauli, h0]
      congr 1 <;> funext _ <;> simp
    have hvec : (rowPauli n (List.replicate (2 * n) 0)).vec = 0 := by rw [hz]; rfl
    have hrun : ∀ ψ : Amp n, run corr ψ = Complex.I ^ (str.count 'Y') • ψ := fun ψ => by
      rw [c4, hz]
      exact congrArg _ (pauliAct_one ψ)
    rw [hvec, add_zero] at f4
    rw [← f4]
    have hI : Complex.I ^ (str.count 'Y') ≠ 0 := pow_ne_zero _ Complex.I_ne_zero
    constructor
    · rintro ⟨ω, hω⟩
      exact ⟨Complex.I ^ (str.count 'Y') * ω, fun α => by rw [hrun, hω, smul_smul]⟩
    · rintro ⟨ω, hω⟩
      refine ⟨(Complex.I ^ (str.count 'Y'))⁻¹ * ω, fun α => ?_⟩
      rw [mul_smul, ← hω α, hrun, smul_smul, inv_mul_cancel₀ hI, one_smul]
  · intro g hg
    have hmem : (rowPauli n g).vec ∈ groupOf n c.iter := Submodule.subset_span ⟨g, hg, rfl⟩
    obtain ⟨a, ha, rfl⟩ := iter_mem.mp hg
    obtain ⟨enc', corr, dec, f1, f2, -, f4, -⟩ := C61_correction s n k c h hb hind hY e (c.normalForm.row a)
      (by rw [row_length, hsh.cols]) (row_binary hsh.binary ha)
    have henc : enc' = enc := funext fun δ => Except.ok.inj ((f1 δ).symm.trans (e1 δ))
    subst henc
    exact ⟨corr, f2, f4.trans (Submodule.add_mem_iff_left _ hmem)⟩

/-- The code of PyQCodes/README.md. -/
theorem codeReadme : ∃ c, stabInit (.rows [[1, 1, 0, 0, 0, 0], [1, 0, 1, 0, 0, 0]]) 3 1 none = .ok c ∧
    stabInit (.strs ["XXI".toList, "XIX".toList]) 3 1 none = .ok c ∧
    BinaryArr c.stab ∧ Independent 3 c.stab ∧ (∀ a < c.stab.rows, parityY (rowPauli 3 (c.stab.row a)) = 0) ∧
    c.iter = [[1, 0, 1, 0, 0, 0], [0, 1, 1, 0, 0, 0]] := by
  obtain ⟨c, h1, h2, h3, h4, h5, h6⟩ := concrete_code (l := [[1, 1, 0, 0, 0, 0], [1, 0, 1, 0, 0, 0]]) (n := 3) (k := 1)
    (r := 2) (e := 0) (by decide) (by decide) (by decide) (by unfold IsBinary; decide) (by decide)
    (independent_cert _ (fun j a => if j = 1 ∧ a = 0 ∨ j = 2 ∧ a = 1 then 1 else 0) (by decide))
    (fun F _ => rank_cert (M := Matrix.of fun (i : Fin 2) (j : Fin 3) =>
        (Arr.ofRows (2 * 3) [[1, 1, 0, 0, 0, 0], [1, 0, 1, 0, 0, 0]]).get i j)
      !![1, 0; 0, 1] !![1, 1, 0; 1, 0, 1] !![1, 0; 0, 1] !![0, 0; 1, 0; 0, 1] (by decide) (by decide) F)
    (Or.inl rfl)
  refine ⟨c, h1, ?_, h2, h3, ?_, ?_⟩
  · rw [← h1]
    rfl
  · rw [h4]; decide
  · unfold StabCode.iter
    rw [h6]
    decide

theorem even_group {c : StabCode} (h : c.iter = [[1, 0, 1, 0, 0, 0], [0, 1, 1, 0, 0, 0]]) (x y z : ℤ) :
    (rowPauli 3 [x, y, z, 0, 0, 0]).vec ∈ groupOf 3 c.iter ↔ Even (x + y + z) := by
  have hval : ∀ x y z : ℤ, (rowPauli 3 [x, y, z, 0, 0, 0]).vec = (![(x : ZMod 2), y, z], 0) := by
    intro x y z
    refine Prod.ext ?_ ?_ <;> funext j <;> fin_cases j <;> simp [rowPauli, Pauli.vec]
  unfold groupOf
  have hset : {v | ∃ r ∈ c.iter, v = (rowPauli 3 r).vec} =
      {((![1, 0, 1], 0) : BVec 3), ((![0, 1, 1], 0) : BVec 3)} := by
    ext v
    rw [h]
    simp only [List.mem_cons, List.not_mem_nil, or_false, exists_eq_or_imp, exists_eq_left, hval, Set.mem_setOf_eq,
      Set.mem_insert_iff, Set.mem_singleton_iff]
    simp
  rw [hset, Submodule.mem_span_pair, hval, ← ZMod.intCast_eq_zero_iff_even]
  push_cast
  constructor
  · rintro ⟨a, b, hab⟩
    have h0 := congrFun (congrArg Prod.fst hab) 0
    have h1 := congrFun (congrArg Prod.fst hab) 1
    have h2 := congrFun (congrArg Prod.fst hab) 2
    simp at h0 h1 h2
    rw [← h0, ← h1, ← h2]
    have : ∀ a b : ZMod 2, a + b + (a + b) = 0 := by decide
    exact this a b
  · intro hs
    refine ⟨x, y, Prod.ext ?_ (by simp)⟩
    have : (x : ZMod 2) + y = z := by
      revert hs
      generalize (x : ZMod 2) = a
      generalize (y : ZMod 2) = b
      generalize (z : ZMod 2) = c
      revert a b c
      decide
    funext j
    fin_cases j <;> simp [this]

/-- C109, the error correction of PyQCodes/README.md on the code and the errors of the example: whatever qubits the
bit-flip channel flips, every measurement gives 0, so that no correction is applied; and the state is the one before the
error, up to a phase, only if an even number of qubits was flipped. -/
theorem C109_dephasing_refuted (x y z : ℤ) (hx : x = 0 ∨ x = 1) (hy : y = 0 ∨ y = 1) (hz : z = 0 ∨ z = 1) :
    ∃ (c : StabCode) (enc : (Fin 1 → ZMod 2) → List Gate),
      stabInit (.strs ["XXI".toList, "XIX".toList]) 3 1 none = .ok c ∧
      (∀ δ, encodingCircuit c 3 (bitsList δ) = .ok (enc δ)) ∧
      (∀ δ, ∀ g ∈ c.iter, ∃ gs, syndromeCircuit c 3 3 (.bin g) = .ok (gs, 3) ∧
        measProb 3 0 (run gs (tensor (pauliAct (rowPauli 3 [x, y, z, 0, 0, 0]) (run (enc δ) (ket 0))) (qubit 0))) = 1) ∧
      ((∃ ω : ℂ, ∀ α : (Fin 1 → ZMod 2) → ℂ,
        pauliAct (rowPauli 3 [x, y, z, 0, 0, 0]) (∑ δ, α δ • (run (enc δ) (ket 0) : Amp 3)) =
          ω • ∑ δ, α δ • run (enc δ) (ket 0)) ↔ Even (x + y + z)) := by
  obtain ⟨c, -, c1, c2, c3, c4, c5⟩ := codeReadme
  obtain ⟨enc, e1, e2, -⟩ := C109_recipe_refuted _ 3 1 c c1 c2 c3 c4 [x, y, z, 0, 0, 0]
  refine ⟨c, enc, c1, e1, ?_, e2.trans (even_group c5 x y z)⟩
  intro δ g hg
  obtain ⟨enc', f1, f2⟩ := C16_encoded _ 3 1 c c1 c2 c3 c4 (bitsList δ) (bitsList_length δ) (bitsList_binary δ)
    [x, y, z, 0, 0, 0] rfl
  have : enc' = enc δ := Except.ok.inj (f1.symm.trans (e1 δ))
  subst this
  obtain ⟨gs, v, g1, g2, g3⟩ := f2 g hg
  refine ⟨gs, g1, ?_⟩
  have hv : v = 0 := by
    rw [c5] at hg
    simp only [List.mem_cons, List.not_mem_nil, or_false] at hg
    rcases hx with rfl | rfl <;> rcases hy with rfl | rfl <;> rcases hz with rfl | rfl <;> rcases hg with rfl | rfl <;>
      exact (Except.ok.inj (g2.symm.trans (by decide : _ = Except.ok (0 : ℤ))))
  rw [hv] at g3
  simpa using g3

/-- The hypotheses of the theorems on codes are met by the code of the example. -/
example : ∃ c, stabInit (.strs ["XXI".toList, "XIX".toList]) 3 1 none = .ok c ∧ BinaryArr c.stab ∧ Independent 3 c.stab ∧
    (∀ a < c.stab.rows, parityY (rowPauli 3 (c.stab.row a)) = 0) :=
  let ⟨c, _, c1, c2, c3, c4, _⟩ := codeReadme
  ⟨c, c1, c2, c3, c4⟩

/-- The probability of the example in README.md meets the hypothesis of `C109_bitflip_refuted`. -/
example : (1 : ℝ) / 10 ^ 5 ≤ 2 * (1 / 4) * (1 - 1 / 4) := by norm_num

end PyQ
