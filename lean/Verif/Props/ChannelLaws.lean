import Verif.Props.KrausCompose
import Verif.Props.EntropyBounds
import Verif.Props.ChoiInfo

/-!
# C122: sums and products of channels obey the laws of composition and tensor product

`QChan.add` is `A + B` (first `B`, then `A`), `QChan.mul` is `A * B` (side by side).
-/

namespace PyQ

open Matrix
open scoped ComplexOrder

/-! ### Two families of operators of one channel behave alike -/

section Same

variable {sp sp' : Bool} {ops ops' : Arr3 ℂ} {a b d e : ℕ} {orth orth' : List ℕ} {o o' : KrausObj}

theorem same_channel_api (h : QChan.init sp ops a b d e orth = .ok o) (h' : QChan.init sp' ops' a b d e orth' = .ok o')
    (hsame : Spec.SameChannel (ops.ops ops.len (e ^ b) (d ^ a)) (ops'.ops ops'.len (e ^ b) (d ^ a)))
    (c c' : List QChan.Call) (n : ℕ) (hs : Spec.SafeUses sp (c.map QChan.Call.uses ++ [n]))
    (hs' : Spec.SafeUses sp' (c'.map QChan.Call.uses ++ [n])) (rho : Arr ℂ)
    (hr : rho.rows = (d ^ a) ^ n) (hc : rho.cols = (d ^ a) ^ n) :
    ∃ x y, (QChan.channel (QChan.history o c) rho n false).1 = .ok x ∧
      (QChan.channel (QChan.history o' c') rho n false).1 = .ok y ∧ Arr.Same x y := by
  obtain ⟨x, x1, x2, x3, x4⟩ := api_channel h c n hs rho hr hc
  obtain ⟨y, y1, y2, y3, y4⟩ := api_channel h' c' n hs' rho hr hc
  refine ⟨x, y, x1, y1, ?_⟩
  rw [Arr.same_iff_mat, x2, x3, y2, y3]
  exact ⟨rfl, rfl, by rw [x4, y4, Spec.sameChannel_tensorPow hsame n]⟩

end Same

theorem applyKraus_serial {l₁ l₂ a b c : ℕ} (K : Fin l₁ → Matrix (Fin a) (Fin b) ℂ) (L : Fin l₂ → Matrix (Fin b) (Fin c) ℂ)
    (ρ : Matrix (Fin c) (Fin c) ℂ) :
    Spec.applyKraus (fun k : Fin (l₁ * l₂) => K k.divNat * L k.modNat) ρ = Spec.applyKraus K (Spec.applyKraus L ρ) := by
  unfold Spec.applyKraus
  simp only [Matrix.mul_sum, Matrix.sum_mul]
  rw [← Spec.sum_finProd fun i j => K i * (L j * ρ * (L j)ᴴ) * (K i)ᴴ]
  simp only [conjTranspose_mul, Matrix.mul_assoc]

/-- The interchange law for families of matrices. -/
theorem interchange_same {lA lB lC lD a b c d p q : ℕ} (A : Fin lA → Matrix (Fin a) (Fin c) ℂ)
    (B : Fin lB → Matrix (Fin b) (Fin d) ℂ) (C : Fin lC → Matrix (Fin c) (Fin p) ℂ) (D : Fin lD → Matrix (Fin d) (Fin q) ℂ) :
    Spec.SameChannel
      (fun k : Fin (lA * lB * (lC * lD)) => Spec.kron (A k.divNat.divNat) (B k.divNat.modNat) *
        Spec.kron (C k.modNat.divNat) (D k.modNat.modNat))
      (fun k : Fin (lA * lC * (lB * lD)) => Spec.kron (A k.divNat.divNat * C k.divNat.modNat)
        (B k.modNat.divNat * D k.modNat.modNat)) := by
  intro ρ
  unfold Spec.applyKraus
  simp only [Spec.kron_mul]
  rw [Spec.sum_finProd fun (x : Fin (lA * lB)) (y : Fin (lC * lD)) =>
      Spec.kron (A x.divNat * C y.divNat) (B x.modNat * D y.modNat) * ρ *
        (Spec.kron (A x.divNat * C y.divNat) (B x.modNat * D y.modNat))ᴴ,
    Spec.sum_finProd fun (x : Fin (lA * lC)) (y : Fin (lB * lD)) =>
      Spec.kron (A x.divNat * C x.modNat) (B y.divNat * D y.modNat) * ρ *
        (Spec.kron (A x.divNat * C x.modNat) (B y.divNat * D y.modNat))ᴴ,
    Spec.sum_finProd fun (i : Fin lA) (j : Fin lB) => ∑ y : Fin (lC * lD),
      Spec.kron (A i * C y.divNat) (B j * D y.modNat) * ρ * (Spec.kron (A i * C y.divNat) (B j * D y.modNat))ᴴ,
    Spec.sum_finProd fun (i : Fin lA) (k : Fin lC) => ∑ y : Fin (lB * lD),
      Spec.kron (A i * C k) (B y.divNat * D y.modNat) * ρ * (Spec.kron (A i * C k) (B y.divNat * D y.modNat))ᴴ]
  refine Finset.sum_congr rfl fun i _ => ?_
  have l1 : ∀ j, ∑ y : Fin (lC * lD), Spec.kron (A i * C y.divNat) (B j * D y.modNat) * ρ *
      (Spec.kron (A i * C y.divNat) (B j * D y.modNat))ᴴ =
      ∑ k, ∑ l, Spec.kron (A i * C k) (B j * D l) * ρ * (Spec.kron (A i * C k) (B j * D l))ᴴ := fun j =>
    Spec.sum_finProd fun k l => Spec.kron (A i * C k) (B j * D l) * ρ * (Spec.kron (A i * C k) (B j * D l))ᴴ
  have l2 : ∀ k, ∑ y : Fin (lB * lD), Spec.kron (A i * C k) (B y.divNat * D y.modNat) * ρ *
      (Spec.kron (A i * C k) (B y.divNat * D y.modNat))ᴴ =
      ∑ j, ∑ l, Spec.kron (A i * C k) (B j * D l) * ρ * (Spec.kron (A i * C k) (B j * D l))ᴴ := fun k =>
    Spec.sum_finProd fun j l => Spec.kron (A i * C k) (B j * D l) * ρ * (Spec.kron (A i * C k) (B j * D l))ᴴ
  simp only [l1, l2]
  exact Finset.sum_comm

section Interchange

variable {sA sB sC sD : Bool} {oA oB oC oD : Arr3 ℂ} {dA eA dB eB dC dD : ℕ} {rA rB rC rD : List ℕ}
  {A B C D AB CD L AC BD R : KrausObj}

/-- **C122, interchange.**  For channels on one particle each, `(A * B) + (C * D)` and `(A + C) * (B + D)` are the same channel:
whenever both are constructed they do the same to every matrix, for every number of uses and after any calls, and they have the
same coherent information for every positive input. -/
theorem C122_interchange (hA : QChan.init sA oA 1 1 dA eA rA = .ok A) (hB : QChan.init sB oB 1 1 dB eB rB = .ok B)
    (hC : QChan.init sC oC 1 1 dC dA rC = .ok C) (hD : QChan.init sD oD 1 1 dD dB rD = .ok D)
    (hAB : QChan.mul A B = .ok AB) (hCD : QChan.mul C D = .ok CD) (hL : QChan.add AB CD = .ok L)
    (hAC : QChan.add A C = .ok AC) (hBD : QChan.add B D = .ok BD) (hR : QChan.mul AC BD = .ok R)
    (c c' : List QChan.Call) (n : ℕ)
    (hs : Spec.SafeUses (sA || sB || (sC || sD)) (c.map QChan.Call.uses ++ [n]))
    (hs' : Spec.SafeUses (sA || sB || (sC || sD)) (c'.map QChan.Call.uses ++ [n])) (rho : Arr ℂ)
    (hr : rho.rows = (dC * dD) ^ n) (hc : rho.cols = (dC * dD) ^ n) :
    (∃ x y, (QChan.channel (QChan.history L c) rho n false).1 = .ok x ∧
      (QChan.channel (QChan.history R c') rho n false).1 = .ok y ∧ Arr.Same x y) ∧
    ∀ (eig : Eigvalsh), eig.Correct → (rho.mat ((dC * dD) ^ n) ((dC * dD) ^ n)).PosSemidef → ∀ reg,
      ∃ v, (QChan.coherentInformation eig (QChan.history L c) rho n reg).1 = .ok v ∧
        (QChan.coherentInformation eig (QChan.history R c') rho n reg).1 = .ok v := by
  have iAB := (mul_inv hA hB [] []).symm.trans hAB
  have iCD := (mul_inv hC hD [] []).symm.trans hCD
  obtain ⟨iL, -⟩ := add_inv iAB iCD [] [] hL
  obtain ⟨iAC, -⟩ := add_inv hA hC [] [] hAC
  obtain ⟨iBD, -⟩ := add_inv hB hD [] [] hBD
  have iR := (mul_inv iAC iBD [] []).symm.trans hR
  obtain ⟨-, -, -, -, -, -, -, -, a9, a10, a11, -⟩ := qchanInit_ok hA
  obtain ⟨-, -, -, -, -, -, -, -, b9, b10, b11, -⟩ := qchanInit_ok hB
  obtain ⟨-, -, -, -, -, -, -, -, c9, c10, c11, -⟩ := qchanInit_ok hC
  obtain ⟨-, -, -, -, -, -, -, -, d9, d10, d11, -⟩ := qchanInit_ok hD
  rw [pow_one] at a10 a11 b10 b11 c10 c11 d10 d11
  have hbool : (sA || sC || (sB || sD)) = (sA || sB || (sC || sD)) := by
    cases sA <;> cases sB <;> cases sC <;> cases sD <;> rfl
  rw [hbool] at iR
  have hsame : Spec.SameChannel
      (((oA.kron oB).compose (oC.kron oD)).ops ((oA.kron oB).compose (oC.kron oD)).len ((eA * eB) ^ 1) ((dC * dD) ^ 1))
      (((oA.compose oC).kron (oB.compose oD)).ops ((oA.compose oC).kron (oB.compose oD)).len ((eA * eB) ^ 1)
        ((dC * dD) ^ 1)) := by
    rw [pow_one, pow_one]
    have l1 : ((oA.kron oB).compose (oC.kron oD)).len = oA.len * oB.len * (oC.len * oD.len) := rfl
    have l2 : ((oA.compose oC).kron (oB.compose oD)).len = oA.len * oC.len * (oB.len * oD.len) := rfl
    rw [l1, l2, compose_ops (oA.kron oB) (oC.kron oD) (oA.len * oB.len) (oC.len * oD.len) (eA * eB) (dA * dB) (dC * dD)
        (by rw [← a10, ← b10]; rfl) rfl,
      kron_ops oA oB oA.len oB.len eA eB dA dB rfl b11 b10, kron_ops oC oD oC.len oD.len dA dB dC dD rfl d11 d10,
      kron_ops (oA.compose oC) (oB.compose oD) (oA.len * oC.len) (oB.len * oD.len) eA eB dC dD rfl b11 d10,
      compose_ops oA oC oA.len oC.len eA dA dC a10 rfl, compose_ops oB oD oB.len oD.len eB dB dD b10 rfl]
    exact interchange_same _ _ _ _
  rw [show (dC * dD) ^ n = ((dC * dD) ^ 1) ^ n by rw [pow_one]] at hr hc
  refine ⟨same_channel_api iL iR hsame c c' n hs hs' rho hr hc, fun eig heig hpos reg => ?_⟩
  rw [show (dC * dD) ^ n = ((dC * dD) ^ 1) ^ n by rw [pow_one]] at hpos
  exact C66_representation heig iL iR (Or.inr rfl) (Or.inr rfl) hsame c c' n hs hs' rho hr hc hpos reg

/-- **C122, the law is not empty.**  For exactly trace preserving channels on one particle each with matching dimensions all six
channels of the interchange law are constructed. -/
theorem C122_constructed (hA : QChan.init sA oA 1 1 dA eA rA = .ok A) (hB : QChan.init sB oB 1 1 dB eB rB = .ok B)
    (hC : QChan.init sC oC 1 1 dC dA rC = .ok C) (hD : QChan.init sD oD 1 1 dD dB rD = .ok D)
    (tA : Spec.TracePreserving (oA.ops oA.len (eA ^ 1) (dA ^ 1))) (tB : Spec.TracePreserving (oB.ops oB.len (eB ^ 1) (dB ^ 1)))
    (tC : Spec.TracePreserving (oC.ops oC.len (dA ^ 1) (dC ^ 1))) (tD : Spec.TracePreserving (oD.ops oD.len (dB ^ 1) (dD ^ 1))) :
    ∃ AB CD L AC BD R, QChan.mul A B = .ok AB ∧ QChan.mul C D = .ok CD ∧ QChan.add AB CD = .ok L ∧
      QChan.add A C = .ok AC ∧ QChan.add B D = .ok BD ∧ QChan.mul AC BD = .ok R := by
  obtain ⟨AB, hAB, -⟩ := C32_mul_partial hA hB [] [] tA tB
  obtain ⟨CD, hCD, -⟩ := C32_mul_partial hC hD [] [] tC tD
  obtain ⟨AC, hAC, -⟩ := C32_add hA hC [] [] tA tC rfl
  obtain ⟨BD, hBD, -⟩ := C32_add hB hD [] [] tB tD rfl
  have pAB := C26_trace_preserving hA hB [] [] hAB tA tB
  have pCD := C26_trace_preserving hC hD [] [] hCD tC tD
  have pAC := C25_trace_preserving hA hC [] [] hAC tA tC
  have pBD := C25_trace_preserving hB hD [] [] hBD tB tD
  have iAB := (mul_inv hA hB [] []).symm.trans hAB
  have iCD := (mul_inv hC hD [] []).symm.trans hCD
  obtain ⟨iAC, -⟩ := add_inv hA hC [] [] hAC
  obtain ⟨iBD, -⟩ := add_inv hB hD [] [] hBD
  rw [(qchanInit_ok iAB).2.1] at pAB
  rw [(qchanInit_ok iCD).2.1] at pCD
  rw [(qchanInit_ok iAC).2.1] at pAC
  rw [(qchanInit_ok iBD).2.1] at pBD
  rw [pow_one eA, pow_one eB, pow_one dA, pow_one dB] at pAB
  rw [pow_one dA, pow_one dB, pow_one dC, pow_one dD] at pCD
  obtain ⟨L, hL, -⟩ := C32_add iAB iCD [] [] (by rw [pow_one, pow_one]; exact pAB) (by rw [pow_one, pow_one]; exact pCD) rfl
  obtain ⟨R, hR, -⟩ := C32_mul_partial iAC iBD [] [] pAC pBD
  exact ⟨AB, CD, L, AC, BD, R, hAB, hCD, hL, hAC, hBD, hR⟩

end Interchange

/-- The interchange law for four dephasing channels and three uses. -/
example : ∃ A AB L AC R x y, QChan.init false dephOps 1 1 2 2 [] = .ok A ∧ QChan.mul A A = .ok AB ∧ QChan.add AB AB = .ok L ∧
    QChan.add A A = .ok AC ∧ QChan.mul AC AC = .ok R ∧
    (QChan.channel L (Arr.eye 64) 3 false).1 = .ok x ∧ (QChan.channel R (Arr.eye 64) 3 false).1 = .ok y ∧ Arr.Same x y := by
  obtain ⟨A, hA⟩ := deph_ok false []
  obtain ⟨AB, CD, L, AC, BD, R, h1, h2, h3, h4, h5, h6⟩ :=
    C122_constructed hA hA hA hA dephOps_tp dephOps_tp dephOps_tp dephOps_tp
  have e1 : CD = AB := by
    have : (Except.ok CD : Except PyErr KrausObj) = .ok AB := h2.symm.trans h1
    injection this
  have e2 : BD = AC := by
    have : (Except.ok BD : Except PyErr KrausObj) = .ok AC := h5.symm.trans h4
    injection this
  subst e1 e2
  obtain ⟨⟨x, y, hx, hy, hxy⟩, -⟩ := C122_interchange hA hA hA hA h1 h2 h3 h4 h5 h6 [] [] 3 ⟨by simp, by simp⟩ ⟨by simp, by simp⟩
    (Arr.eye 64) rfl rfl
  exact ⟨A, CD, L, BD, R, x, y, hA, h1, h3, h4, h6, hx, hy, hxy⟩

/-! ### Products -/

section Product

variable {sp₁ sp₂ sp₃ : Bool} {ops₁ ops₂ ops₃ : Arr3 ℂ} {a₁ b₁ d₁ e₁ a₂ b₂ d₂ e₂ a₃ b₃ d₃ e₃ : ℕ} {orth₁ orth₂ orth₃ : List ℕ}
  {s o q so oq : KrausObj}

theorem Arr3.kron_assoc (A B C : Arr3 ℂ) : (A.kron B).kron C = A.kron (B.kron C) := by
  unfold Arr3.kron
  simp only [Arr3.mk.injEq, Nat.mul_assoc, true_and]
  funext k i j
  simp only [Nat.mod_mul_left_div_self, Nat.mod_mul_left_mod, Nat.div_div_eq_div_mul, Nat.mul_comm C.len, Nat.mul_comm C.rows,
    Nat.mul_comm C.cols, mul_assoc]

/-- **C122, products are associative.**  `(A * B) * C` and `A * (B * C)` are the same object, or the same exception. -/
theorem C122_mul_assoc (hs : QChan.init sp₁ ops₁ a₁ b₁ d₁ e₁ orth₁ = .ok s) (ho : QChan.init sp₂ ops₂ a₂ b₂ d₂ e₂ orth₂ = .ok o)
    (hq : QChan.init sp₃ ops₃ a₃ b₃ d₃ e₃ orth₃ = .ok q) (h1 : QChan.mul s o = .ok so) (h2 : QChan.mul o q = .ok oq) :
    QChan.mul so q = QChan.mul s oq := by
  have i1 := (mul_inv hs ho [] []).symm.trans h1
  have i2 := (mul_inv ho hq [] []).symm.trans h2
  refine (mul_inv i1 hq [] []).trans (Eq.trans ?_ (mul_inv hs i2 [] []).symm)
  rw [Arr3.kron_assoc, Bool.or_assoc, Nat.mul_assoc, Nat.mul_assoc]

/-- The product of `n + 1` copies of one channel is the array of `n + 1` uses. -/
theorem copies_init {sp : Bool} {ops : Arr3 ℂ} {d e : ℕ} {orth : List ℕ} {s : KrausObj} (hs : QChan.init sp ops 1 1 d e orth = .ok s)
    (T : ℕ → KrausObj) (h0 : T 0 = s) (n : ℕ) (hT : ∀ i < n, QChan.mul s (T i) = .ok (T (i + 1))) :
    ∃ orth', (orth = [] → orth' = []) ∧ QChan.init sp (powArr ops (n + 1)) 1 1 (d ^ (n + 1)) (e ^ (n + 1)) orth' = .ok (T n) := by
  induction n with
  | zero => exact ⟨orth, id, by rw [h0, zero_add, pow_one, pow_one]; exact hs⟩
  | succ n ih =>
    obtain ⟨orth', -, ih⟩ := ih fun i hi => hT i (by omega)
    have := (mul_inv hs ih [] []).symm.trans (hT n (by omega))
    rw [Bool.or_self, ← powArr_succ ops (by omega : 1 ≤ n + 1), mul_comm d, mul_comm e, ← pow_succ, ← pow_succ] at this
    exact ⟨[], fun _ => rfl, this⟩

/-- For an exactly trace preserving channel the products of all numbers of copies are constructed. -/
theorem C122_copies_constructed {sp : Bool} {ops : Arr3 ℂ} {d e : ℕ} {orth : List ℕ} {s : KrausObj}
    (hs : QChan.init sp ops 1 1 d e orth = .ok s) (ht : Spec.TracePreserving (ops.ops ops.len (e ^ 1) (d ^ 1))) :
    ∃ T : ℕ → KrausObj, T 0 = s ∧ ∀ i, QChan.mul s (T i) = .ok (T (i + 1)) := by
  have step : ∀ p : {t : KrausObj // ∃ A f g r, QChan.init sp A 1 1 f g r = .ok t ∧
      Spec.TracePreserving (A.ops A.len (g ^ 1) (f ^ 1))},
      ∃ q : {t : KrausObj // ∃ A f g r, QChan.init sp A 1 1 f g r = .ok t ∧
        Spec.TracePreserving (A.ops A.len (g ^ 1) (f ^ 1))}, QChan.mul s p.1 = .ok q.1 := by
    rintro ⟨t, A, f, g, r, h, hp⟩
    obtain ⟨q, hq, -⟩ := C32_mul_partial hs h [] [] ht hp
    have iq := (mul_inv hs h [] []).symm.trans hq
    have pq := C26_trace_preserving hs h [] [] hq ht hp
    rw [(qchanInit_ok iq).2.1] at pq
    rw [pow_one e, pow_one g, pow_one d, pow_one f] at pq
    rw [Bool.or_self] at iq
    exact ⟨⟨q, _, _, _, _, iq, by rw [pow_one, pow_one]; exact pq⟩, hq⟩
  choose f hf using step
  refine ⟨fun n => (Nat.rec ⟨s, ops, d, e, orth, hs, ht⟩ (fun _ => f) n : {t : KrausObj // _}).1, rfl, fun i => ?_⟩
  exact hf _

/-- **C122, copies.**  `A * (A * (... * A))` with `n` factors, used once, is `A` used `n` times: it does the same to every matrix,
product or not, and has the same coherent information for every positive input. -/
theorem C122_copies {sp : Bool} {ops : Arr3 ℂ} {d e : ℕ} {orth : List ℕ} {s : KrausObj} (hs : QChan.init sp ops 1 1 d e orth = .ok s)
    (T : ℕ → KrausObj) (h0 : T 0 = s) (n : ℕ) (hT : ∀ i < n, QChan.mul s (T i) = .ok (T (i + 1))) (c c' : List QChan.Call)
    (hc₁ : Spec.SafeUses sp (c.map QChan.Call.uses ++ [1])) (hc₂ : Spec.SafeUses sp (c'.map QChan.Call.uses ++ [n + 1]))
    (rho : Arr ℂ) (hr : rho.rows = d ^ (n + 1)) (hc : rho.cols = d ^ (n + 1)) :
    (∃ x y, (QChan.channel (QChan.history (T n) c) rho 1 false).1 = .ok x ∧
      (QChan.channel (QChan.history s c') rho (n + 1) false).1 = .ok y ∧ Arr.Same x y) ∧
    ∀ (eig : Eigvalsh), eig.Correct → sp = true ∨ orth = [] → (rho.mat (d ^ (n + 1)) (d ^ (n + 1))).PosSemidef →
      ∃ v, (QChan.coherentInformation eig (QChan.history (T n) c) rho 1 false).1 = .ok v ∧
        (QChan.coherentInformation eig (QChan.history s c') rho (n + 1) false).1 = .ok v := by
  obtain ⟨orth', ho', hT'⟩ := copies_init hs T h0 n hT
  obtain ⟨-, -, -, -, -, -, -, -, h9, h10, h11, -⟩ := qchanInit_ok hs
  rw [pow_one] at h10 h11
  obtain ⟨p1, p2, p3⟩ := powArr_dims ops (by omega : 1 ≤ n + 1)
  have hops : (powArr ops (n + 1)).ops (ops.len ^ (n + 1)) (e ^ (n + 1)) (d ^ (n + 1)) =
      Spec.tensorPow (ops.ops ops.len e d) (n + 1) := by
    have := powArr_ops ops (by omega : 1 ≤ n + 1)
    rw [h10, h11] at this
    exact this
  constructor
  · obtain ⟨x, x1, x2, x3, x4⟩ := api_channel_one hT' c hc₁ rho (by rw [pow_one]; exact hr) (by rw [pow_one]; exact hc)
    obtain ⟨y, y1, y2, y3, y4⟩ := api_channel hs c' (n + 1) hc₂ rho (by rw [pow_one]; exact hr) (by rw [pow_one]; exact hc)
    refine ⟨x, y, x1, y1, ?_⟩
    rw [pow_one] at x2 x3 y2 y3
    rw [pow_one (e ^ (n + 1)), pow_one (d ^ (n + 1)), p1, hops] at x4
    rw [pow_one e, pow_one d] at y4
    rw [Arr.same_iff_mat, x2, x3, y2, y3]
    exact ⟨rfl, rfl, x4.trans y4.symm⟩
  · intro eig heig ho hpos
    obtain ⟨x, W, -, x2, x3, x4, w2, w3, w4, hv⟩ := C45_coherent_value (eig := eig) hT' (ho.imp id ho') c 1 hc₁ rho
      (by rw [pow_one, pow_one]; exact hr) (by rw [pow_one, pow_one]; exact hc) false
    obtain ⟨y, V, -, y2, y3, y4, u2, u3, u4, hv'⟩ := C45_coherent_value (eig := eig) hs ho c' (n + 1) hc₂ rho
      (by rw [pow_one]; exact hr) (by rw [pow_one]; exact hc) false
    rw [tensorPow_one_eq, pow_one (e ^ (n + 1)), pow_one (d ^ (n + 1)), pow_one (e ^ (n + 1)), pow_one (d ^ (n + 1)),
      pow_one (powArr ops (n + 1)).len, p1, hops] at x4 w4
    rw [pow_one e, pow_one d] at y4 u4
    rw [pow_one, pow_one] at x2 x3
    rw [pow_one, p1] at w2 w3
    rw [pow_one] at y2 y3
    have e1 : entropyOne eig entropyCut x = entropyOne eig entropyCut y :=
      entropy_same heig entropyCut_nonneg x2 x3 y2 y3
        (by rw [x4]; exact (Spec.applyKraus_posSemidef _ hpos).isHermitian) (x4.trans y4.symm)
    have e2 : entropyOne eig entropyCut W = entropyOne eig entropyCut V :=
      entropy_same heig entropyCut_nonneg w2 w3 u2 u3
        (by rw [w4]; exact (Spec.exchange_posSemidef _ hpos).isHermitian) (w4.trans u4.symm)
    exact ⟨_, hv, by rw [hv', e1, e2]; rfl⟩

/-- Three copies of the dephasing channel. -/
example : ∃ (s : KrausObj) (T : ℕ → KrausObj) (x y : Arr ℂ), QChan.init false dephOps 1 1 2 2 [] = .ok s ∧ T 0 = s ∧
    (∀ i, QChan.mul s (T i) = .ok (T (i + 1))) ∧ (QChan.channel (T 2) (Arr.eye 8) 1 false).1 = .ok x ∧
    (QChan.channel s (Arr.eye 8) 3 false).1 = .ok y ∧ Arr.Same x y := by
  obtain ⟨s, hs⟩ := deph_ok false []
  obtain ⟨T, h0, hT⟩ := C122_copies_constructed hs dephOps_tp
  obtain ⟨⟨x, y, h⟩, -⟩ := C122_copies hs T h0 2 (fun i _ => hT i) [] [] ⟨by simp, by simp⟩ ⟨by simp, by simp⟩ (Arr.eye 8) rfl rfl
  exact ⟨s, T, x, y, hs, h0, hT, h⟩

/-- Exchanging the two factors of `Fin (m * n)`. -/
def swapFin (m n : ℕ) : Fin (m * n) ≃ Fin (n * m) :=
  (finProdFinEquiv.symm.trans (Equiv.prodComm _ _)).trans finProdFinEquiv

theorem swapFin_div {m n : ℕ} (x : Fin (m * n)) : (swapFin m n x).divNat = x.modNat ∧ (swapFin m n x).modNat = x.divNat := by
  have : finProdFinEquiv.symm (swapFin m n x) = (x.modNat, x.divNat) := by
    unfold swapFin
    simp only [Equiv.trans_apply, Equiv.symm_apply_apply]
    rfl
  exact ⟨congrArg Prod.fst this, congrArg Prod.snd this⟩

theorem swapFin_val {m n i j : ℕ} (_hi : i < m) (hj : j < n) (h : i * n + j < m * n) :
    (swapFin m n ⟨i * n + j, h⟩ : ℕ) = j * m + i := by
  have hn : 0 < n := by omega
  unfold swapFin
  simp only [Equiv.trans_apply, finProdFinEquiv_symm_apply, Equiv.prodComm_apply, Prod.swap, finProdFinEquiv_apply_val,
    Fin.divNat, Fin.modNat]
  have h1 : (i * n + j) / n = i := by rw [Nat.mul_comm, Nat.mul_add_div hn, Nat.div_eq_of_lt hj, Nat.add_zero]
  have h2 : (i * n + j) % n = j := by rw [Nat.mul_comm, Nat.mul_add_mod, Nat.mod_eq_of_lt hj]
  rw [h1, h2]
  ring

theorem kron_swapFin {a b c d : ℕ} (A : Matrix (Fin a) (Fin c) ℂ) (B : Matrix (Fin b) (Fin d) ℂ) :
    (Spec.kron B A).submatrix (swapFin a b) (swapFin c d) = Spec.kron A B := by
  ext i j
  simp only [Matrix.submatrix_apply, Spec.kron, swapFin_div]
  ring

theorem applyKraus_swap {l₁ l₂ a b c d : ℕ} (A : Fin l₁ → Matrix (Fin a) (Fin c) ℂ) (B : Fin l₂ → Matrix (Fin b) (Fin d) ℂ)
    (ρ : Matrix (Fin (c * d)) (Fin (c * d)) ℂ) (σ : Matrix (Fin (d * c)) (Fin (d * c)) ℂ)
    (h : σ.submatrix (swapFin c d) (swapFin c d) = ρ) :
    (Spec.applyKraus (fun k : Fin (l₂ * l₁) => Spec.kron (B k.divNat) (A k.modNat)) σ).submatrix (swapFin a b) (swapFin a b) =
      Spec.applyKraus (fun k : Fin (l₁ * l₂) => Spec.kron (A k.divNat) (B k.modNat)) ρ := by
  subst h
  unfold Spec.applyKraus
  rw [Spec.sum_finProd fun j i => Spec.kron (B j) (A i) * σ * (Spec.kron (B j) (A i))ᴴ,
    Spec.sum_finProd fun i j => Spec.kron (A i) (B j) * σ.submatrix (swapFin c d) (swapFin c d) * (Spec.kron (A i) (B j))ᴴ,
    Finset.sum_comm]
  ext x y
  simp only [Matrix.submatrix_apply, Matrix.sum_apply]
  refine Finset.sum_congr rfl fun i _ => Finset.sum_congr rfl fun j _ => ?_
  have e : Spec.kron (A i) (B j) * σ.submatrix (swapFin c d) (swapFin c d) * (Spec.kron (A i) (B j))ᴴ =
      (Spec.kron (B j) (A i) * σ * (Spec.kron (B j) (A i))ᴴ).submatrix (swapFin a b) (swapFin a b) := by
    rw [← kron_swapFin (A i) (B j), conjTranspose_submatrix, submatrix_mul_equiv, submatrix_mul_equiv]
  rw [e]
  rfl

/-- **C122, order of the factors.**  `B * A` is `A * B` with the two systems exchanged: if `rho'` is `rho` with its systems
exchanged, so are the results. -/
theorem C122_mul_swap {d₁ e₁ d₂ e₂ : ℕ} {t t' : KrausObj} (hs : QChan.init sp₁ ops₁ 1 1 d₁ e₁ orth₁ = .ok s)
    (ho : QChan.init sp₂ ops₂ 1 1 d₂ e₂ orth₂ = .ok o) (ht : QChan.mul s o = .ok t) (ht' : QChan.mul o s = .ok t')
    (c c' : List QChan.Call) (h₁ : Spec.SafeUses (sp₁ || sp₂) (c.map QChan.Call.uses ++ [1]))
    (h₂ : Spec.SafeUses (sp₁ || sp₂) (c'.map QChan.Call.uses ++ [1])) (rho rho' : Arr ℂ)
    (hr : rho.rows = d₁ * d₂) (hc : rho.cols = d₁ * d₂) (hr' : rho'.rows = d₂ * d₁) (hc' : rho'.cols = d₂ * d₁)
    (hrho : ∀ i < d₁, ∀ j < d₂, ∀ i' < d₁, ∀ j' < d₂,
      rho'.get (j * d₁ + i) (j' * d₁ + i') = rho.get (i * d₂ + j) (i' * d₂ + j')) :
    ∃ x y, (QChan.channel (QChan.history t c) rho 1 false).1 = .ok x ∧
      (QChan.channel (QChan.history t' c') rho' 1 false).1 = .ok y ∧ x.rows = e₁ * e₂ ∧ x.cols = e₁ * e₂ ∧
      y.rows = e₂ * e₁ ∧ y.cols = e₂ * e₁ ∧
      ∀ i < e₁, ∀ j < e₂, ∀ i' < e₁, ∀ j' < e₂,
        y.get (j * e₁ + i) (j' * e₁ + i') = x.get (i * e₂ + j) (i' * e₂ + j') := by
  have i1 := (mul_inv hs ho [] []).symm.trans ht
  have i2 := (mul_inv ho hs [] []).symm.trans ht'
  rw [Bool.or_comm] at i2
  obtain ⟨-, -, -, -, -, -, -, -, h9, h10, h11, -⟩ := qchanInit_ok hs
  obtain ⟨-, -, -, -, -, -, -, -, g9, g10, g11, -⟩ := qchanInit_ok ho
  rw [pow_one] at h10 h11 g10 g11
  obtain ⟨x, x1, x2, x3, x4⟩ := api_channel_one i1 c h₁ rho (by rw [pow_one]; exact hr) (by rw [pow_one]; exact hc)
  obtain ⟨y, y1, y2, y3, y4⟩ := api_channel_one i2 c' h₂ rho' (by rw [pow_one]; exact hr') (by rw [pow_one]; exact hc')
  rw [pow_one] at x2 x3 y2 y3
  have l1 : (ops₁.kron ops₂).len = ops₁.len * ops₂.len := rfl
  have l2 : (ops₂.kron ops₁).len = ops₂.len * ops₁.len := rfl
  rw [pow_one, pow_one, l1, kron_ops ops₁ ops₂ ops₁.len ops₂.len e₁ e₂ d₁ d₂ rfl g11 g10] at x4
  rw [pow_one, pow_one, l2, kron_ops ops₂ ops₁ ops₂.len ops₁.len e₂ e₁ d₂ d₁ rfl h11 h10] at y4
  have split : ∀ {m n : ℕ} (z : Fin (m * n)), ∃ i, ∃ j, ∃ h : i * n + j < m * n, i < m ∧ j < n ∧ z = ⟨i * n + j, h⟩ := by
    intro m n z
    have hn : 0 < n := by
      rcases Nat.eq_zero_or_pos n with h | h
      · subst h; exact absurd z.2 (by simp)
      · exact h
    refine ⟨z / n, z % n, ?_, Nat.div_lt_of_lt_mul (lt_of_lt_of_eq z.2 (Nat.mul_comm _ _)), Nat.mod_lt _ hn, ?_⟩
    · rw [Nat.div_add_mod']; exact z.2
    · exact Fin.ext (Nat.div_add_mod' _ _).symm
  have key := applyKraus_swap (ops₁.ops ops₁.len e₁ d₁) (ops₂.ops ops₂.len e₂ d₂) (rho.mat (d₁ * d₂) (d₁ * d₂))
    (rho'.mat (d₂ * d₁) (d₂ * d₁)) (by
      ext z z'
      obtain ⟨i, j, h, hi, hj, rfl⟩ := split z
      obtain ⟨i', j', h', hi', hj', rfl⟩ := split z'
      simp only [Matrix.submatrix_apply, Arr.mat, swapFin_val hi hj h, swapFin_val hi' hj' h']
      exact hrho i hi j hj i' hi' j' hj')
  rw [← x4, ← y4] at key
  refine ⟨x, y, x1, y1, x2, x3, y2, y3, fun i hi j hj i' hi' j' hj' => ?_⟩
  have bd : ∀ {i j : ℕ}, i < e₁ → j < e₂ → i * e₂ + j < e₁ * e₂ := by
    intro i j hi hj
    nlinarith
  have := congrFun (congrFun key ⟨i * e₂ + j, bd hi hj⟩) ⟨i' * e₂ + j', bd hi' hj'⟩
  simp only [Matrix.submatrix_apply, Arr.mat, swapFin_val hi hj (bd hi hj), swapFin_val hi' hj' (bd hi' hj')] at this
  exact this

end Product

/-- The two products of two channels are constructed together for exactly trace preserving channels. -/
example : ∃ s o t t', QChan.init false dephOps 1 1 2 2 [] = .ok s ∧ QChan.init true dephOps 1 1 2 2 [] = .ok o ∧
    QChan.mul s o = .ok t ∧ QChan.mul o s = .ok t' ∧ QChan.mul t s = QChan.mul s t' := by
  obtain ⟨s, hs⟩ := deph_ok false []
  obtain ⟨o, ho⟩ := deph_ok true []
  obtain ⟨t, ht, -⟩ := C32_mul_partial hs ho [] [] dephOps_tp dephOps_tp
  obtain ⟨t', ht', -⟩ := C32_mul_partial ho hs [] [] dephOps_tp dephOps_tp
  exact ⟨s, o, t, t', hs, ho, ht, ht', C122_mul_assoc hs ho hs ht ht'⟩

/-! ### The identity -/

section Identity

/-- One operator, the identity matrix of size `N`. -/
def eyeOps (N : ℕ) : Arr3 ℂ := ⟨1, N, N, fun _ i j => if i = j then 1 else 0⟩

theorem eyeOps_ops (N : ℕ) : (eyeOps N).ops 1 N N = fun _ => 1 := by
  funext k
  ext i j
  simp only [Arr3.ops, eyeOps, Matrix.one_apply, Fin.ext_iff]

theorem eyeOps_tp (N : ℕ) : Spec.TracePreserving ((eyeOps N).ops (eyeOps N).len N N) := by
  show Spec.TracePreserving ((eyeOps N).ops 1 N N)
  rw [eyeOps_ops]
  unfold Spec.TracePreserving
  simp

theorem applyKraus_eye (N : ℕ) (ρ : Matrix (Fin N) (Fin N) ℂ) : Spec.applyKraus ((eyeOps N).ops 1 N N) ρ = ρ := by
  rw [eyeOps_ops]
  unfold Spec.applyKraus
  simp

variable {sp sI sJ : Bool} {ops : Arr3 ℂ} {a b d e : ℕ} {orth rI rJ : List ℕ} {A I J AI JA : KrausObj}

/-- **C122, identity.**  For the identity channels `I` on the input and `J` on the output of `A`, `A + I` and `J + A` are `A`: they
do the same to every matrix, for every number of uses, and have the same coherent information. -/
theorem C122_identity (hA : QChan.init sp ops a b d e orth = .ok A) (hI : QChan.init sI (eyeOps (d ^ a)) a a d d rI = .ok I)
    (hJ : QChan.init sJ (eyeOps (e ^ b)) b b e e rJ = .ok J) (hAI : QChan.add A I = .ok AI) (hJA : QChan.add J A = .ok JA)
    (c c₁ c₂ : List QChan.Call) (n : ℕ) (hs : Spec.SafeUses sp (c.map QChan.Call.uses ++ [n]))
    (hs₁ : Spec.SafeUses (sp || sI) (c₁.map QChan.Call.uses ++ [n]))
    (hs₂ : Spec.SafeUses (sJ || sp) (c₂.map QChan.Call.uses ++ [n])) (rho : Arr ℂ)
    (hr : rho.rows = (d ^ a) ^ n) (hc : rho.cols = (d ^ a) ^ n) :
    (∃ x y z, (QChan.channel (QChan.history A c) rho n false).1 = .ok x ∧
      (QChan.channel (QChan.history AI c₁) rho n false).1 = .ok y ∧
      (QChan.channel (QChan.history JA c₂) rho n false).1 = .ok z ∧ Arr.Same x y ∧ Arr.Same x z) ∧
    ∀ (eig : Eigvalsh), eig.Correct → sp = true ∨ orth = [] → (rho.mat ((d ^ a) ^ n) ((d ^ a) ^ n)).PosSemidef → ∀ reg,
      ∃ v, (QChan.coherentInformation eig (QChan.history A c) rho n reg).1 = .ok v ∧
        (QChan.coherentInformation eig (QChan.history AI c₁) rho n reg).1 = .ok v ∧
        (QChan.coherentInformation eig (QChan.history JA c₂) rho n reg).1 = .ok v := by
  obtain ⟨i1, -⟩ := add_inv hA hI [] [] hAI
  obtain ⟨i2, -⟩ := add_inv hJ hA [] [] hJA
  obtain ⟨-, -, -, -, -, -, -, -, h9, h10, h11, -⟩ := qchanInit_ok hA
  have s1 : Spec.SameChannel (ops.ops ops.len (e ^ b) (d ^ a))
      ((ops.compose (eyeOps (d ^ a))).ops (ops.compose (eyeOps (d ^ a))).len (e ^ b) (d ^ a)) := by
    intro ρ
    have l1 : (ops.compose (eyeOps (d ^ a))).len = ops.len * 1 := rfl
    rw [l1, compose_ops ops (eyeOps (d ^ a)) ops.len 1 (e ^ b) (d ^ a) (d ^ a) h10 rfl, applyKraus_serial, applyKraus_eye]
  have s2 : Spec.SameChannel (ops.ops ops.len (e ^ b) (d ^ a))
      (((eyeOps (e ^ b)).compose ops).ops ((eyeOps (e ^ b)).compose ops).len (e ^ b) (d ^ a)) := by
    intro ρ
    have l1 : ((eyeOps (e ^ b)).compose ops).len = 1 * ops.len := rfl
    rw [l1, compose_ops (eyeOps (e ^ b)) ops 1 ops.len (e ^ b) (e ^ b) (d ^ a) rfl rfl, applyKraus_serial, applyKraus_eye]
  constructor
  · obtain ⟨x, y, x1, y1, hxy⟩ := same_channel_api hA i1 s1 c c₁ n hs hs₁ rho hr hc
    obtain ⟨x', z, x1', z1, hxz⟩ := same_channel_api hA i2 s2 c c₂ n hs hs₂ rho hr hc
    have : (Except.ok x' : Except PyErr (Arr ℂ)) = .ok x := x1'.symm.trans x1
    injection this with this
    subst this
    exact ⟨x', y, z, x1, y1, z1, hxy, hxz⟩
  · intro eig heig ho hpos reg
    obtain ⟨v, v1, v2⟩ := C66_representation heig hA i1 ho (Or.inr rfl) s1 c c₁ n hs hs₁ rho hr hc hpos reg
    obtain ⟨w, w1, w2⟩ := C66_representation heig hA i2 ho (Or.inr rfl) s2 c c₂ n hs hs₂ rho hr hc hpos reg
    have : (Except.ok w : Except PyErr ℝ) = .ok v := w1.symm.trans v1
    injection this with this
    subst this
    exact ⟨w, v1, v2, w2⟩

/-- The identity laws for the dephasing channel. -/
example : ∃ A I AI IA, QChan.init false dephOps 1 1 2 2 [] = .ok A ∧ QChan.init true (eyeOps 2) 1 1 2 2 [] = .ok I ∧
    QChan.add A I = .ok AI ∧ QChan.add I A = .ok IA ∧ ∃ x y z, (QChan.channel A (Arr.eye 4) 2 false).1 = .ok x ∧
      (QChan.channel AI (Arr.eye 4) 2 false).1 = .ok y ∧ (QChan.channel IA (Arr.eye 4) 2 false).1 = .ok z ∧
      Arr.Same x y ∧ Arr.Same x z := by
  obtain ⟨A, hA⟩ := deph_ok false []
  obtain ⟨I, hI⟩ := init_exact true (eyeOps (2 ^ 1)) 1 1 2 2 [] Nat.one_pos rfl rfl (eyeOps_tp _)
  obtain ⟨AI, h1, -⟩ := C32_add hA hI [] [] dephOps_tp (eyeOps_tp _) rfl
  obtain ⟨IA, h2, -⟩ := C32_add hI hA [] [] (eyeOps_tp _) dephOps_tp rfl
  obtain ⟨h, -⟩ := C122_identity hA hI hI h1 h2 [] [] [] 2 ⟨by simp, by simp⟩ ⟨by simp, by simp⟩ ⟨by simp, by simp⟩
    (Arr.eye 4) rfl rfl
  exact ⟨A, I, AI, IA, hA, hI, h1, h2, h⟩

end Identity

end PyQ
