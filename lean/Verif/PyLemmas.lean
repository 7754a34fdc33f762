import Verif.Py
import Mathlib.Tactic.Linarith
import Mathlib.Tactic.Ring

/-! Lemmas about the Python/numpy vocabulary. -/

namespace PyPE

@[simp] theorem ok_bind {α β : Type} (a : α) (f : α → PyM β) :
    ((Except.ok a : PyM α) >>= f) = f a := rfl

@[simp] theorem error_bind {α β : Type} (e : PyErr) (f : α → PyM β) :
    ((Except.error e : PyM α) >>= f) = .error e := rfl

@[simp] theorem pure_eq_ok {α : Type} (a : α) : (pure a : PyM α) = .ok a := rfl

theorem bind_eq_ok {α β : Type} {x : PyM α} {f : α → PyM β} {b : β} :
    (x >>= f) = .ok b ↔ ∃ a, x = .ok a ∧ f a = .ok b := by
  cases x with
  | error e => simp [bind, Except.bind]
  | ok a => simp [bind, Except.bind]

theorem foldl_max_spec (xs : List ℝ) (x : ℝ) :
    (xs.foldl max x = x ∨ xs.foldl max x ∈ xs) ∧ x ≤ xs.foldl max x ∧ ∀ y ∈ xs, y ≤ xs.foldl max x := by
  induction xs generalizing x with
  | nil => simp
  | cons a xs ih =>
    obtain ⟨h1, h2, h3⟩ := ih (max x a)
    refine ⟨?_, (le_max_left x a).trans h2, ?_⟩
    · rcases h1 with h1 | h1
      · rcases max_choice x a with hm | hm
        · left; rw [List.foldl_cons, h1, hm]
        · right; rw [List.foldl_cons, h1, hm]; simp
      · right; simp only [List.foldl_cons]; exact List.mem_cons_of_mem _ h1
    · intro y hy
      rcases List.mem_cons.mp hy with rfl | hy
      · exact (le_max_right x y).trans h2
      · exact h3 y hy

/-- `numpy.max` returns an element that bounds all others, and raises only on an empty array. -/
theorem npMax_spec {l : List ℝ} {m : ℝ} (h : npMax l = .ok m) : m ∈ l ∧ ∀ x ∈ l, x ≤ m := by
  cases l with
  | nil => simp [npMax] at h
  | cons a xs =>
    simp only [npMax, Except.ok.injEq] at h
    subst h
    obtain ⟨h1, h2, h3⟩ := foldl_max_spec xs a
    constructor
    · rcases h1 with h1 | h1
      · rw [h1]; simp
      · exact List.mem_cons_of_mem _ h1
    · intro x hx
      rcases List.mem_cons.mp hx with rfl | hx
      · exact h2
      · exact h3 x hx

theorem npMax_ok {l : List ℝ} (h : l ≠ []) : ∃ m, npMax l = .ok m := by
  cases l with
  | nil => exact absurd rfl h
  | cons a xs => exact ⟨_, rfl⟩

theorem npMax_eq_of {l : List ℝ} {m : ℝ} (h1 : m ∈ l) (h2 : ∀ x ∈ l, x ≤ m) : npMax l = .ok m := by
  obtain ⟨m', hm'⟩ := npMax_ok (l := l) (by rintro rfl; simp at h1)
  obtain ⟨h3, h4⟩ := npMax_spec hm'
  rw [hm', le_antisymm (h2 _ h3) (h4 _ h1)]

theorem npMax_error_iff {l : List ℝ} : npMax l = .error .valueError ↔ l = [] := by
  cases l <;> simp [npMax]

theorem getIdx_ok {α : Type} {a : List α} {i : ℕ} {x : α} : getIdx a i = .ok x ↔ a[i]? = some x := by
  unfold getIdx
  cases a[i]? <;> simp

theorem getIdx_of_lt {α : Type} {a : List α} {i : ℕ} (h : i < a.length) : getIdx a i = .ok a[i] := by
  rw [getIdx_ok, List.getElem?_eq_getElem h]

theorem getIdx_error {α : Type} {a : List α} {i : ℕ} (h : a.length ≤ i) :
    getIdx a i = .error .indexError := by
  unfold getIdx; rw [List.getElem?_eq_none h]

theorem getLast_ok {α : Type} {a : List α} {x : α} : getLast a = .ok x ↔ a.getLast? = some x := by
  unfold getLast
  cases a.getLast? <;> simp

theorem getLast_append {α : Type} (a : List α) (x : α) : getLast (a ++ [x]) = .ok x := by
  simp [getLast]

theorem fancy_nil {α : Type} (a : List α) : fancy a [] = .ok [] := rfl

theorem fancy_cons {α : Type} (a : List α) (i : ℕ) (is : List ℕ) :
    fancy a (i :: is) = (do let x ← getIdx a i; let xs ← fancy a is; return x :: xs) := by
  simp [fancy, List.mapM_cons]

/-- Fancy indexing picks, position by position, the element with the given index. -/
theorem fancy_spec {α : Type} {a b : List α} {ind : List ℕ} :
    fancy a ind = .ok b ↔ b.length = ind.length ∧ ∀ k i : ℕ, ind[k]? = some i → a[i]? = b[k]? ∧ i < a.length := by
  induction ind generalizing b with
  | nil =>
    rw [fancy_nil]
    constructor
    · rintro h; cases h; simp
    · rintro ⟨h, -⟩
      rw [List.length_nil, List.length_eq_zero_iff] at h; rw [h]
  | cons i is ih =>
    rw [fancy_cons]
    constructor
    · intro h
      obtain ⟨x, hx, h⟩ := bind_eq_ok.mp h
      obtain ⟨xs, hxs, h⟩ := bind_eq_ok.mp h
      cases h
      obtain ⟨hl, hk⟩ := ih.mp hxs
      refine ⟨by simp [hl], ?_⟩
      intro k j hj
      cases k with
      | zero =>
        simp only [List.getElem?_cons_zero, Option.some.injEq] at hj ⊢
        subst hj
        have := getIdx_ok.mp hx
        exact ⟨this, (List.getElem?_eq_some_iff.mp this).1⟩
      | succ k => simpa using hk k j (by simpa using hj)
    · rintro ⟨hl, hk⟩
      cases b with
      | nil => simp at hl
      | cons x xs =>
        have h0 := hk 0 i (by simp)
        have hx : getIdx a i = .ok x := getIdx_ok.mpr (by simpa using h0.1)
        have hxs : fancy a is = .ok xs := ih.mpr ⟨by simpa using hl, fun k j hj => by
          have := hk (k+1) j (by simpa using hj); simpa using this⟩
        rw [hx, hxs]; rfl

theorem fancy_ok {α : Type} {a : List α} {ind : List ℕ} (h : ∀ i ∈ ind, i < a.length) :
    ∃ b, fancy a ind = .ok b := by
  induction ind with
  | nil => exact ⟨[], rfl⟩
  | cons i is ih =>
    obtain ⟨b, hb⟩ := ih fun j hj => h j (List.mem_cons_of_mem _ hj)
    exact ⟨_, by rw [fancy_cons, getIdx_of_lt (h i (by simp)), hb]; rfl⟩

theorem fancy_error {α : Type} {a : List α} {ind : List ℕ} {e : PyErr} (h : fancy a ind = .error e) :
    e = .indexError ∧ ∃ i ∈ ind, a.length ≤ i := by
  induction ind with
  | nil => simp [fancy_nil] at h
  | cons i is ih =>
    rw [fancy_cons] at h
    by_cases hi : i < a.length
    · rw [getIdx_of_lt hi] at h
      cases hf : fancy a is with
      | ok b => rw [hf] at h; simp at h
      | error e' =>
        rw [hf] at h
        simp only [ok_bind, error_bind, Except.error.injEq] at h
        subst h
        obtain ⟨h1, j, hj, h2⟩ := ih hf
        exact ⟨h1, j, List.mem_cons_of_mem _ hj, h2⟩
    · rw [getIdx_error (by omega)] at h
      simp only [error_bind, Except.error.injEq] at h
      exact ⟨h.symm, i, by simp, by omega⟩

theorem fancy_mem {α : Type} {a b : List α} {ind : List ℕ} (h : fancy a ind = .ok b) :
    ∀ x ∈ b, x ∈ a := by
  obtain ⟨hl, hk⟩ := fancy_spec.mp h
  intro x hx
  obtain ⟨k, hk', rfl⟩ := List.getElem_of_mem hx
  have hlt : k < ind.length := by omega
  have := hk k ind[k] (List.getElem?_eq_getElem hlt)
  rw [List.getElem?_eq_getElem hk'] at this
  exact List.mem_of_getElem? this.1

theorem fancy_range {α : Type} (a : List α) : fancy a (List.range a.length) = .ok a := by
  rw [fancy_spec]
  refine ⟨by simp, ?_⟩
  intro k i hi
  have := List.getElem?_eq_some_iff.mp hi
  obtain ⟨h1, h2⟩ := this
  simp only [List.getElem_range] at h2
  subst h2
  simp only [List.length_range] at h1
  exact ⟨rfl, h1⟩

theorem npAdd_ok {a b : List ℝ} (h : a.length = b.length) :
    npAdd a b = .ok (List.zipWith (· + ·) a b) := by simp [npAdd, h]

theorem npSub_ok {a b : List ℝ} (h : a.length = b.length) :
    npSub a b = .ok (List.zipWith (· - ·) a b) := by simp [npSub, h]

end PyPE
