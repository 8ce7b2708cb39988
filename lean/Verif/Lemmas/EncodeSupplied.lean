import Verif.Lemmas.Codeword

/-! The encoder of a code whose logical X operators were supplied by the caller. -/

namespace PyQ

open Spec

variable {n k r : ℕ} {nf : Arr ℤ}

/-- The label reached by the encoder with the X operators `LX`, on natural indices. -/
def suppliedN (n k r : ℕ) (LX : Arr ℤ) (δ : ℕ → ZMod 2) (j : ℕ) : ZMod 2 :=
  if j < r then 0
  else if j < n - k then ∑ i ∈ Finset.range k, if LX.get i j = 1 then δ i else 0
  else δ (j - (n - k))

/-- The encoder of a code in normal form with any logical X operators. -/
theorem encoding_supplied {c : StabCode} (hn : c.n = n) (hk : c.k = k) (hst : c.stab.rows = c.normalForm.rows)
    (hsh : NormalShape n k c.rank c.normalForm) (hX : k ≤ c.logicalX.rows)
    (δ : List ℤ) (hlen : δ.length = k) (hδ : IsBinary δ) :
    ∃ gs, encodingCircuit c n δ = .ok gs ∧ (∀ g ∈ gs, g.WF n) ∧
      run gs (ket 0) = projected ((List.range c.rank).map fun i => rowPauli n (c.normalForm.row i))
        (fun j : Fin n => suppliedN n k c.rank c.logicalX (bitFn δ) j) := by
  have h1 := hsh.rows
  have h2 := hsh.rank_le
  obtain ⟨L, hL1, hL2, hL3⟩ := generators_ok hsh
  set m := n - k with hm
  set qs := List.range' c.rank (m - c.rank) with hqs
  have hlx : (if c.rank < c.stab.rows then
      if c.logicalX.rows < c.k then .error .index else .ok ((List.range c.k).reverse.flatMap (logicalXGates c))
      else .ok [] : Except PyErr (List Gate)) =
      .ok ((List.range k).reverse.flatMap fun i => cxG (fun q => c.logicalX.get i q = 1) (m + i) qs) := by
    have e : logicalXGates c = fun i => cxG (fun q => c.logicalX.get i q = 1) (m + i) qs := by
      funext i; unfold logicalXGates cxG; rw [hn, hk]
    by_cases hlt : c.rank < c.stab.rows
    · rw [if_pos hlt, if_neg (by omega), hk, e]
    · rw [if_neg hlt]
      have : qs = [] := by rw [hqs, show m - c.rank = 0 by omega]; rfl
      rw [this]
      simp [cxG]
  have hrun : encodingCircuit c n δ =
      .ok (δ.zipIdx.flatMap (prepG m) ++
        (((List.range k).reverse.flatMap fun i => cxG (fun q => c.logicalX.get i q = 1) (m + i) qs) ++ L.flatten)) := by
    unfold encodingCircuit pyAssert
    rw [if_pos (by rw [hk, hlen]), if_pos hn.symm]
    simp only [ok_bind']
    rw [hlx, hL1, hn, hk, prep_ok δ hδ]
    simp only [ok_bind', pure_ok', ← List.flatMap_def, List.append_assoc]
    rfl
  refine ⟨_, hrun, ?_, ?_⟩
  · intro g hg
    simp only [List.mem_append] at hg
    rcases hg with hg | hg | hg
    · simp only [List.mem_flatMap] at hg
      obtain ⟨⟨v, i⟩, hi, hg⟩ := hg
      have := mem_zipIdx_lt hi
      unfold prepG at hg
      split_ifs at hg <;> simp at hg
      subst hg
      simp only at this
      exact ⟨by simp only; omega, by simp⟩
    · simp only [List.mem_flatMap, cxG, List.mem_reverse, List.mem_range] at hg
      obtain ⟨i, hi, q, hq, hg⟩ := hg
      rw [hqs, List.mem_range'_1] at hq
      split_ifs at hg <;> simp at hg
      subst hg
      refine ⟨by simp only; omega, ?_⟩
      intro c' hc'
      simp at hc'
      subst hc'
      exact ⟨by omega, by simp only; omega⟩
    · exact hL2 g hg
  · rw [run_append, run_append, run_prepG m 0 δ hδ (by omega)]
    rw [run_cxAll (fun i q => c.logicalX.get i q = 1) m qs (List.nodup_range' ..) (by
      intro q hq; rw [hqs, List.mem_range'_1] at hq; omega) (by omega), hL3]
    · congr 1
      funext j
      unfold suppliedN bitFn
      rw [List.map_reverse, List.sum_reverse, sum_map_range]
      have hjn := j.2
      by_cases hjr : j.val < c.rank
      · rw [if_pos hjr, if_neg (by omega)]
        rw [Finset.sum_eq_zero]
        · simp
        · intro i _
          rw [if_neg]
          rintro ⟨h, -⟩
          rw [hqs, List.mem_range'_1] at h; omega
      · rw [if_neg hjr]
        by_cases hjm : j.val < m
        · rw [if_pos hjm, if_neg (by omega)]
          simp only [Pi.zero_apply, zero_add]
          apply Finset.sum_congr rfl
          intro i hi
          rw [Finset.mem_range] at hi
          have hbit : bitAt (fun j : Fin n => if m + 0 ≤ j.val then ((δ.getD (j.val - (m + 0)) 0 : ℤ) : ZMod 2) else 0) (m + i)
              = ((δ.getD i 0 : ℤ) : ZMod 2) := by
            rw [bitAt_of_lt _ (by omega), if_pos (by simp only; omega)]
            simp
          have hin : j.val ∈ qs := by rw [hqs, List.mem_range'_1]; omega
          by_cases h1 : c.logicalX.get i j = 1
          · rw [if_pos ⟨hin, h1⟩, if_pos h1]
            simp only [Nat.add_zero] at hbit ⊢
            rw [hbit]
          · rw [if_neg (fun h => h1 h.2), if_neg h1]
        · rw [if_neg hjm, if_pos (by omega), Finset.sum_eq_zero]
          · rw [add_zero, Pi.zero_apply, zero_add, Nat.add_zero]
          · intro i _
            rw [if_neg]
            rintro ⟨h, -⟩
            rw [hqs, List.mem_range'_1] at h; omega
    · intro j hj
      rw [bitAt_of_lt _ (by omega), List.map_reverse, List.sum_reverse, sum_map_range, if_neg (by simp only; omega),
        Finset.sum_eq_zero]
      · simp
      · intro i _
        rw [if_neg]
        rintro ⟨h, -⟩
        rw [hqs, List.mem_range'_1] at h; simp only at h; omega

/-- A lower row of the normal form on the label reached: the label bit plus the bit it should have been. -/
theorem lower_dot_supplied (hsh : NormalShape n k r nf) {a : ℕ} (ha1 : r ≤ a) (ha2 : a < nf.rows) (LX : Arr ℤ)
    (δ : ℕ → ZMod 2) :
    dotp (rowPauli n (nf.row a)).z (fun j : Fin n => suppliedN n k r LX δ j) =
      suppliedN n k r LX δ a + labelN n k r nf δ a := by
  have h1 := hsh.rows
  have h2 := hsh.rank_le
  rw [rowPauli_z_fun hsh.cols,
    dotp_range (fun j => ((nf.get a (n + j) : ℤ) : ZMod 2)) (suppliedN n k r LX δ), sum_blocks h2 h1]
  have s1 : ∑ j ∈ Finset.range r, ((nf.get a (n + j) : ℤ) : ZMod 2) * suppliedN n k r LX δ j = 0 := by
    apply Finset.sum_eq_zero
    intro j hj
    rw [Finset.mem_range] at hj
    unfold suppliedN
    rw [if_pos hj, mul_zero]
  have s2 : ∑ t ∈ Finset.range (nf.rows - r), ((nf.get a (n + (r + t)) : ℤ) : ZMod 2) * suppliedN n k r LX δ (r + t)
      = suppliedN n k r LX δ a := by
    rw [Finset.sum_eq_single (a - r)]
    · rw [show r + (a - r) = a by omega, hsh.lowerI a ha1 ha2 a ha1 ha2, if_pos rfl]; simp
    · intro t ht hne
      rw [Finset.mem_range] at ht
      rw [hsh.lowerI a ha1 ha2 (r + t) (by omega) (by omega), if_neg (by omega)]; simp
    · intro h; exact absurd (Finset.mem_range.mpr (by omega)) h
  have s3 : ∑ t ∈ Finset.range k, ((nf.get a (n + (nf.rows + t)) : ℤ) : ZMod 2) * suppliedN n k r LX δ (nf.rows + t)
      = labelN n k r nf δ a := by
    conv_rhs => unfold labelN
    rw [if_neg (by omega), if_pos (by omega)]
    apply Finset.sum_congr rfl
    intro t ht
    unfold suppliedN
    rw [if_neg (by omega), if_neg (by omega), show nf.rows + t - (n - k) = t by omega,
      show n + (nf.rows + t) = n + (n - k) + t by omega]
  rw [s1, s2, s3, zero_add]

end PyQ
