import Verif.Np
import Mathlib.Data.List.Forall2

/-! Helper lemmas about `mapM` and `foldlM` in the exception monad. -/

namespace PyQ

variable {ε α β : Type}

theorem mapM_cons_except (f : α → Except ε β) (a : α) (l : List α) :
    (a :: l).mapM f = (f a).bind fun b => (l.mapM f).bind fun bs => .ok (b :: bs) := by
  simp only [List.mapM_cons]
  rfl

theorem mapM_ok_iff {f : α → Except ε β} {l : List α} {r : List β} :
    l.mapM f = .ok r ↔ List.Forall₂ (fun a b => f a = .ok b) l r := by
  induction l generalizing r with
  | nil =>
    simp only [List.mapM_nil, List.forall₂_nil_left_iff]
    constructor
    · intro h; injection h with h; exact h.symm
    · rintro rfl; rfl
  | cons a l ih =>
    rw [mapM_cons_except]
    rcases hfa : f a with e | b
    · simp only [Except.bind, reduceCtorEq, false_iff]
      intro h
      cases h with
      | cons h1 h2 => rw [hfa] at h1; cases h1
    · rcases hl : l.mapM f with e | bs
      · simp only [Except.bind]
        constructor
        · intro h; cases h
        · intro h
          cases h with
          | cons h1 h2 => rw [ih.mpr h2] at hl; cases hl
      · simp only [Except.bind]
        constructor
        · intro h; injection h with h; subst h
          exact List.Forall₂.cons hfa (ih.mp hl)
        · intro h
          cases h with
          | cons h1 h2 =>
            rw [hfa] at h1; injection h1 with h1
            rw [ih.mpr h2] at hl; injection hl with hl
            rw [h1, hl]

theorem mapM_ok_of {f : α → Except ε β} {g : α → β} {l : List α} (h : ∀ a ∈ l, f a = .ok (g a)) :
    l.mapM f = .ok (l.map g) := by
  rw [mapM_ok_iff]
  rw [List.forall₂_map_right_iff]
  exact List.forall₂_same.mpr h

theorem mapM_error_iff {f : α → Except ε β} {l : List α} {e : ε} :
    l.mapM f = .error e ↔
      ∃ pre a post, l = pre ++ a :: post ∧ (∀ x ∈ pre, ∃ y, f x = .ok y) ∧ f a = .error e := by
  induction l with
  | nil =>
    simp only [List.mapM_nil]
    constructor
    · intro h; cases h
    · rintro ⟨pre, a, post, h, -⟩; simp at h
  | cons a l ih =>
    rw [mapM_cons_except]
    rcases hfa : f a with e' | b
    · simp only [Except.bind]
      constructor
      · intro h; injection h with h; subst h
        exact ⟨[], a, l, rfl, by simp, hfa⟩
      · rintro ⟨pre, a', post, h, hp, he⟩
        cases pre with
        | nil => simp only [List.nil_append, List.cons.injEq] at h; rw [h.1, he] at hfa; injection hfa with hfa; rw [hfa]
        | cons p pre =>
          simp only [List.cons_append, List.cons.injEq] at h
          obtain ⟨y, hy⟩ := hp p (by simp)
          rw [← h.1, hfa] at hy; cases hy
    · have key : (Except.bind (Except.ok b) fun b => (l.mapM f).bind fun bs => .ok (b :: bs)) = .error e
          ↔ l.mapM f = .error e := by
        rcases l.mapM f with e' | bs <;> simp [Except.bind]
      rw [key, ih]
      constructor
      · rintro ⟨pre, a', post, h, hp, he⟩
        refine ⟨a :: pre, a', post, by simp [h], ?_, he⟩
        intro x hx
        rcases List.mem_cons.mp hx with rfl | hx
        · exact ⟨b, hfa⟩
        · exact hp x hx
      · rintro ⟨pre, a', post, h, hp, he⟩
        cases pre with
        | nil => simp only [List.nil_append, List.cons.injEq] at h; rw [h.1, he] at hfa; cases hfa
        | cons p pre =>
          simp only [List.cons_append, List.cons.injEq] at h
          exact ⟨pre, a', post, h.2, fun x hx => hp x (by simp [hx]), he⟩

theorem foldlM_cons_except {γ : Type} (f : γ → α → Except ε γ) (c : γ) (a : α) (l : List α) :
    (a :: l).foldlM f c = (f c a).bind fun c' => l.foldlM f c' := by
  simp only [List.foldlM_cons]; rfl

theorem foldlM_append_except {γ : Type} (f : γ → α → Except ε γ) (c : γ) (l l' : List α) :
    (l ++ l').foldlM f c = (l.foldlM f c).bind fun c' => l'.foldlM f c' := by
  simp only [List.foldlM_append]; rfl

theorem except_bind_ok {x : Except ε α} {f : α → Except ε β} {b : β} :
    x.bind f = .ok b ↔ ∃ a, x = .ok a ∧ f a = .ok b := by
  rcases x with e | a <;> simp [Except.bind]

theorem except_bind_error {x : Except ε α} {f : α → Except ε β} {e : ε} :
    x.bind f = .error e ↔ x = .error e ∨ ∃ a, x = .ok a ∧ f a = .error e := by
  rcases x with e' | a <;> simp [Except.bind]

@[simp] theorem ok_bind' (a : α) (f : α → Except ε β) : (Except.ok a >>= f) = f a := rfl
@[simp] theorem error_bind' (e : ε) (f : α → Except ε β) : (Except.error e >>= f) = .error e := rfl
@[simp] theorem pure_ok' (a : α) : (pure a : Except ε α) = .ok a := rfl

end PyQ
