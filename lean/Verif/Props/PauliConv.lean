import Verif.Model.Pauli
import Verif.Spec.Pauli
import Verif.Lemmas.Except

/-! # C01, C02: conversion between Pauli strings and binary representations -/

namespace PyQ

open Spec

private theorem pauliBits_ok {c : Char} (h : IsPauli c) : pauliBits c = .ok (bits c) := by
  rcases h with rfl | rfl | rfl | rfl <;> rfl

private theorem pauliBits_error {c : Char} (h : ¬ IsPauli c) : pauliBits c = .error .value := by
  unfold IsPauli at h
  push Not at h
  simp [pauliBits, h]

private theorem pauliChar_bits {c : Char} (h : IsPauli c) : pauliChar (bits c).1 (bits c).2 = .ok c := by
  rcases h with rfl | rfl | rfl | rfl <;> rfl

theorem pauliStrRow_ok {p : List Char} (h : IsPauliString p) :
    pauliStrRow p.length p = .ok (p.map (fun c => (bits c).1) ++ p.map (fun c => (bits c).2)) := by
  have h1 : (List.range p.length).mapM (symbolAt p) = .ok (p.map bits) := by
    rw [mapM_ok_iff, List.forall₂_iff_get]
    refine ⟨by simp, ?_⟩
    intro i h1 h2
    simp only [List.get_eq_getElem, List.getElem_range, List.getElem_map, symbolAt]
    have hi : i < p.length := by simpa using h1
    rw [List.getElem?_eq_getElem hi]
    exact pauliBits_ok (h _ (List.getElem_mem hi))
  unfold pauliStrRow
  rw [h1]
  simp [List.map_map, Function.comp_def]

private theorem zip_map_fst_snd (p : List Char) :
    (p.map (fun c => (bits c).1)).zip (p.map (fun c => (bits c).2)) = p.map bits := by
  induction p with
  | nil => rfl
  | cons a l ih => simp [ih]

private theorem binaryRepToPauliStr_bits {p : List Char} (h : IsPauliString p) :
    binaryRepToPauliStr (p.map (fun c => (bits c).1) ++ p.map (fun c => (bits c).2)) = .ok p := by
  unfold binaryRepToPauliStr
  have hl : (p.map (fun c => (bits c).1) ++ p.map (fun c => (bits c).2)).length / 2 = p.length := by
    simp; omega
  simp only [hl]
  rw [List.take_left' (by simp), List.drop_left' (by simp), zip_map_fst_snd, mapM_ok_iff,
    List.forall₂_map_left_iff, List.forall₂_same]
  intro c hc
  exact pauliChar_bits (h c hc)

/-- **C01 (a)**.  For every non-empty list of equally long Pauli strings the conversion to the binary representation
succeeds, gives one 0/1 row of length `2n` per string, and converting every row back gives the same strings. -/
theorem C01_string_roundtrip (n : ℕ) (paulis : List (List Char)) (hne : paulis ≠ [])
    (hlen : ∀ p ∈ paulis, p.length = n) (hp : ∀ p ∈ paulis, IsPauliString p) :
    ∃ rows, pauliStrToBinaryRepresentation paulis = .ok rows ∧
      rows.length = paulis.length ∧ (∀ r ∈ rows, r.length = 2 * n ∧ IsBinary r) ∧
      rows.mapM binaryRepToPauliStr = .ok paulis := by
  obtain ⟨p0, rest, rfl⟩ := List.exists_cons_of_ne_nil hne
  have h0 : p0.length = n := hlen p0 (by simp)
  refine ⟨(p0 :: rest).map fun p => p.map (fun c => (bits c).1) ++ p.map (fun c => (bits c).2), ?_, by simp, ?_, ?_⟩
  · unfold pauliStrToBinaryRepresentation
    apply mapM_ok_of
    intro p hpm
    have := pauliStrRow_ok (hp p hpm)
    rwa [hlen p hpm, ← h0] at this
  · intro r hr
    obtain ⟨p, hpm, rfl⟩ := List.mem_map.mp hr
    constructor
    · simp [hlen p hpm]; omega
    · intro v hv
      simp only [List.mem_append, List.mem_map] at hv
      rcases hv with ⟨c, hc, rfl⟩ | ⟨c, hc, rfl⟩ <;> rcases hp p hpm c hc with rfl | rfl | rfl | rfl <;> decide
  · rw [mapM_ok_iff, List.forall₂_map_left_iff, List.forall₂_same]
    intro p hpm
    exact binaryRepToPauliStr_bits (hp p hpm)

example : (["XZI".toList, "YYX".toList] ≠ []) ∧ (∀ p ∈ ["XZI".toList, "YYX".toList], p.length = 3) ∧
    (∀ p ∈ ["XZI".toList, "YYX".toList], IsPauliString p) ∧
    pauliStrToBinaryRepresentation ["XZI".toList, "YYX".toList] = .ok [[1, 0, 0, 0, 1, 0], [1, 1, 1, 1, 1, 0]] := by
  refine ⟨by simp, by decide, ?_, by decide⟩
  intro p hp c hc
  have : ∀ p ∈ ["XZI".toList, "YYX".toList], ∀ c ∈ p, IsPauli c := by decide
  exact this p hp c hc

private theorem pauliChar_binary {x z : ℤ} (hx : x = 0 ∨ x = 1) (hz : z = 0 ∨ z = 1) :
    ∃ c, pauliChar x z = .ok c ∧ IsPauli c ∧ bits c = (x, z) := by
  rcases hx with rfl | rfl <;> rcases hz with rfl | rfl
  · exact ⟨'I', rfl, Or.inl rfl, rfl⟩
  · exact ⟨'Z', rfl, Or.inr (Or.inr (Or.inr rfl)), rfl⟩
  · exact ⟨'X', rfl, Or.inr (Or.inl rfl), rfl⟩
  · exact ⟨'Y', rfl, Or.inr (Or.inr (Or.inl rfl)), rfl⟩

private theorem mapM_pauliChar (xs zs : List ℤ) (hl : xs.length = zs.length) (hx : IsBinary xs) (hz : IsBinary zs) :
    ∃ s : List Char, (xs.zip zs).mapM (fun xz => pauliChar xz.1 xz.2) = .ok s ∧ IsPauliString s ∧
      s.map (fun c => (bits c).1) = xs ∧ s.map (fun c => (bits c).2) = zs := by
  induction xs generalizing zs with
  | nil =>
    cases zs with
    | nil => exact ⟨[], rfl, by simp [IsPauliString], rfl, rfl⟩
    | cons => simp at hl
  | cons x xs ih =>
    cases zs with
    | nil => simp at hl
    | cons z zs =>
      obtain ⟨s, h1, h2, h3, h4⟩ := ih zs (by simpa using hl) (fun v hv => hx v (by simp [hv]))
        (fun v hv => hz v (by simp [hv]))
      obtain ⟨c, hc1, hc2, hc3⟩ := pauliChar_binary (hx x (by simp)) (hz z (by simp))
      refine ⟨c :: s, ?_, ?_, ?_, ?_⟩
      · rw [List.zip_cons_cons, mapM_cons_except, h1, hc1]; rfl
      · intro d hd
        rcases List.mem_cons.mp hd with rfl | hd
        · exact hc2
        · exact h2 d hd
      · simp [h3, hc3]
      · simp [h4, hc3]

/-- **C01 (b)**.  Every 0/1 row of even length `2n` converts to a Pauli string of length `n` and back to the same row. -/
theorem C01_binary_roundtrip (n : ℕ) (b : List ℤ) (hl : b.length = 2 * n) (hb : IsBinary b) :
    ∃ s, binaryRepToPauliStr b = .ok s ∧ s.length = n ∧ IsPauliString s ∧
      pauliStrToBinaryRepresentation [s] = .ok [b] := by
  have hn : b.length / 2 = n := by omega
  obtain ⟨s, h1, h2, h3, h4⟩ := mapM_pauliChar (b.take n) (b.drop n) (by simp; omega)
    (fun v hv => hb v (List.mem_of_mem_take hv)) (fun v hv => hb v (List.mem_of_mem_drop hv))
  have hsl : s.length = n := by
    have := congrArg List.length h3
    simp at this; omega
  refine ⟨s, by unfold binaryRepToPauliStr; simpa only [hn] using h1, hsl, h2, ?_⟩
  unfold pauliStrToBinaryRepresentation
  have := pauliStrRow_ok h2
  rw [h3, h4, List.take_append_drop] at this
  rw [mapM_ok_iff]
  exact List.Forall₂.cons this List.Forall₂.nil

example : binaryRepToPauliStr [0, 0, 1, 1, 0, 0] = .ok "ZIX".toList ∧ IsBinary [0, 0, 1, 1, 0, 0] := by
  refine ⟨by decide, ?_⟩
  unfold IsBinary; decide

/-- **C02 (a)**.  The string conversion fails exactly on the empty list (`IndexError`) or at the first string and first
position `j` below the length of the first string where the string has ended (`IndexError`) or has a
letter that is not a Pauli letter (`ValueError`). -/
theorem C02_string_errors (paulis : List (List Char)) (e : PyErr) :
    pauliStrToBinaryRepresentation paulis = .error e ↔
      (paulis = [] ∧ e = .index) ∨
      ∃ pre p post, paulis = pre ++ p :: post ∧
        (∀ q ∈ pre, ∀ j < (paulis.headD []).length, ∃ c, q[j]? = some c ∧ IsPauli c) ∧
        ∃ j < (paulis.headD []).length, (∀ i < j, ∃ c, p[i]? = some c ∧ IsPauli c) ∧
          ((p[j]? = none ∧ e = .index) ∨ (∃ c, p[j]? = some c ∧ ¬ IsPauli c ∧ e = .value)) := by
  -- one symbol
  have hsym : ∀ (p : List Char) (j : ℕ), (∃ y, symbolAt p j = .ok y) ↔ ∃ c, p[j]? = some c ∧ IsPauli c := by
    intro p j
    unfold symbolAt
    rcases h : p[j]? with _ | c
    · simp
    · by_cases hc : IsPauli c
      · simp [pauliBits_ok hc, hc]
      · simp [pauliBits_error hc, hc]
  have hsymE : ∀ (p : List Char) (j : ℕ), symbolAt p j = .error e ↔
        (p[j]? = none ∧ e = .index) ∨ (∃ c, p[j]? = some c ∧ ¬ IsPauli c ∧ e = .value) := by
    intro p j
    unfold symbolAt
    rcases h : p[j]? with _ | c
    · simp [eq_comm]
    · by_cases hc : IsPauli c
      · simp [pauliBits_ok hc, hc]
      · simp [pauliBits_error hc, hc, eq_comm]
  have hrowOk : ∀ n (p : List Char), (∃ y, pauliStrRow n p = .ok y) ↔ ∀ j < n, ∃ c, p[j]? = some c ∧ IsPauli c := by
    intro n p
    unfold pauliStrRow
    rcases h : (List.range n).mapM (symbolAt p) with e' | ys
    · simp only [error_bind', reduceCtorEq, exists_false, false_iff]
      intro hall
      obtain ⟨pre, a, post, h1, h2, h3⟩ := mapM_error_iff.mp h
      have ha : a < n := by
        have : a ∈ List.range n := by rw [h1]; simp
        simpa using this
      obtain ⟨y, hy⟩ := (hsym p a).mpr (hall a ha)
      rw [hy] at h3; cases h3
    · simp only [ok_bind', pure_ok', Except.ok.injEq, exists_eq', true_iff]
      intro j hj
      rw [mapM_ok_iff, List.forall₂_iff_get] at h
      have := h.2 j (by simpa using hj) (by rw [← h.1]; simpa using hj)
      simp only [List.get_eq_getElem, List.getElem_range] at this
      exact (hsym p j).mp ⟨_, this⟩
  have hrowErr : ∀ n (p : List Char), pauliStrRow n p = .error e ↔
      ∃ j < n, (∀ i < j, ∃ c, p[i]? = some c ∧ IsPauli c) ∧
          ((p[j]? = none ∧ e = .index) ∨ (∃ c, p[j]? = some c ∧ ¬ IsPauli c ∧ e = .value)) := by
    intro n p
    have h0 : pauliStrRow n p = .error e ↔ (List.range n).mapM (symbolAt p) = .error e := by
      unfold pauliStrRow
      rcases (List.range n).mapM (symbolAt p) with e' | ys <;> simp
    rw [h0, mapM_error_iff]
    constructor
    · rintro ⟨pre, a, post, h1, h2, h3⟩
      have hlen : pre.length < n := by
        have := congrArg List.length h1; simp at this; omega
      have hget : ∀ i (hi : i < pre.length), pre[i] = i := by
        intro i hi
        have : (List.range n)[i]? = (pre ++ a :: post)[i]? := by rw [h1]
        rw [List.getElem?_append_left hi, List.getElem?_eq_getElem hi, List.getElem?_eq_getElem (by simp; omega)] at this
        simpa using this.symm
      have ha : a = pre.length := by
        have : (List.range n)[pre.length]? = (pre ++ a :: post)[pre.length]? := by rw [h1]
        rw [List.getElem?_eq_getElem (by simpa using hlen)] at this
        simpa using this.symm
      refine ⟨a, ha ▸ hlen, ?_, (hsymE p a).mp h3⟩
      intro i hi
      exact (hsym p i).mp (h2 i (by
        have := List.getElem_mem (l := pre) (n := i) (by omega)
        rwa [hget i (by omega)] at this))
    · rintro ⟨j, hj, h1, h2⟩
      refine ⟨List.range j, j, (List.range' (j + 1) (n - (j + 1))), ?_, ?_, (hsymE p j).mpr h2⟩
      · rw [List.range_eq_range', List.range_eq_range']
        rw [show j :: List.range' (j + 1) (n - (j + 1)) = List.range' j (n - j) from by
          rw [show n - j = (n - (j + 1)) + 1 by omega, List.range'_succ]]
        have := List.range'_append (s := 0) (m := j) (n := n - j) (step := 1)
        simp only [one_mul, zero_add] at this
        rw [this]; congr 1; omega
      · intro x hx
        exact (hsym p x).mpr (h1 x (by simpa using hx))
  cases paulis with
  | nil => simp [pauliStrToBinaryRepresentation, eq_comm]
  | cons p0 rest =>
    unfold pauliStrToBinaryRepresentation
    simp only [List.headD_cons, reduceCtorEq, false_and, false_or]
    rw [mapM_error_iff]
    constructor
    · rintro ⟨pre, a, post, h1, h2, h3⟩
      exact ⟨pre, a, post, h1, fun q hq => (hrowOk _ q).mp (h2 q hq), (hrowErr _ a).mp h3⟩
    · rintro ⟨pre, a, post, h1, h2, h3⟩
      exact ⟨pre, a, post, h1, fun q hq => (hrowOk _ q).mpr (h2 q hq), (hrowErr _ a).mpr h3⟩

example : pauliStrToBinaryRepresentation ["XZ".toList, "XQ".toList] = .error .value ∧
    pauliStrToBinaryRepresentation ["XZ".toList, "X".toList] = .error .index ∧
    pauliStrToBinaryRepresentation ["XZ".toList, "XZQQ".toList] = .ok [[1, 0, 0, 1], [1, 0, 0, 1]] := by decide

/-- **C02 (b)**.  Converting a row of length `2n` (or `2n + 1`; the last entry is ignored) to a string fails only with `RuntimeError`, and exactly when at some
position neither entry is one and they are not both zero. -/
theorem C02_binary_errors (n : ℕ) (b : List ℤ) (hn : b.length / 2 = n) (e : PyErr) :
    binaryRepToPauliStr b = .error e ↔
      e = .runtime ∧ ∃ i < n, ∃ x z, b[i]? = some x ∧ b[n + i]? = some z ∧ x ≠ 1 ∧ z ≠ 1 ∧ ¬ (x = 0 ∧ z = 0) := by
  have hchar : ∀ x z : ℤ, pauliChar x z = .error e ↔ (e = .runtime ∧ x ≠ 1 ∧ z ≠ 1 ∧ ¬ (x = 0 ∧ z = 0)) := by
    intro x z
    unfold pauliChar
    by_cases h1 : x = 1 <;> by_cases h2 : z = 1 <;> by_cases h3 : x = 0 ∧ z = 0 <;>
      simp [h1, h2, h3, eq_comm] <;> aesop
  have hcharOk : ∀ x z : ℤ, (∀ e, pauliChar x z ≠ .error e) → ∃ y, pauliChar x z = .ok y := by
    intro x z h
    rcases h' : pauliChar x z with e' | y
    · exact absurd h' (h e')
    · exact ⟨y, rfl⟩
  have hall : ∀ x z : ℤ, ∀ e', pauliChar x z = .error e' → e' = .runtime := by
    intro x z e'
    unfold pauliChar
    split_ifs <;> simp [eq_comm]
  unfold binaryRepToPauliStr
  simp only [hn]
  have hzip : ∀ i x z, ((b.take n).zip (b.drop n))[i]? = some (x, z) ↔
      i < n ∧ b[i]? = some x ∧ b[n + i]? = some z := by
    intro i x z
    rw [List.getElem?_zip_eq_some]
    simp only [List.getElem?_drop, List.getElem?_take]
    split_ifs with h <;> simp [h]
  constructor
  · intro h
    obtain ⟨pre, a, post, h1, h2, h3⟩ := mapM_error_iff.mp h
    have hg : ((b.take n).zip (b.drop n))[pre.length]? = some (a.1, a.2) := by rw [h1]; simp
    obtain ⟨hi, hx, hz⟩ := (hzip _ _ _).mp hg
    obtain ⟨he, h5⟩ := (hchar _ _).mp h3
    exact ⟨he, pre.length, hi, a.1, a.2, hx, hz, h5⟩
  · rintro ⟨rfl, i, hi, x, z, hx, hz, h5⟩
    have hg := (hzip i x z).mpr ⟨hi, hx, hz⟩
    have hmem : (x, z) ∈ (b.take n).zip (b.drop n) := List.mem_of_getElem? hg
    rcases hr : ((b.take n).zip (b.drop n)).mapM (fun xz => pauliChar xz.1 xz.2) with e' | r
    · obtain ⟨pre, a, post, -, -, h3⟩ := mapM_error_iff.mp hr
      rw [hr, hall _ _ _ h3]
    · exfalso
      rw [mapM_ok_iff, List.forall₂_iff_get] at hr
      obtain ⟨j, hj, hj2⟩ := List.getElem_of_mem hmem
      have := hr.2 j hj (by rw [← hr.1]; exact hj)
      simp only [List.get_eq_getElem, hj2] at this
      rw [(hchar x z).mpr ⟨rfl, h5⟩] at this
      cases this

/-- Entries other than 0 and 1 are accepted when the partner entry is one: `(1, 5)` reads as X. -/
example : binaryRepToPauliStr [1, 5] = .ok "X".toList ∧ binaryRepToPauliStr [0, 5] = .error .runtime := by decide

end PyQ
