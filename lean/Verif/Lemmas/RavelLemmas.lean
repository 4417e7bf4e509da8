import Mathlib.Tactic.NormNum
import Mathlib.Tactic.Ring
import Verif.Lemmas.BroadcastLemmas

/-! Row-major positions: `ravel` and `unravel` are inverse, and split along concatenated shapes. -/

namespace Storch
namespace Ten

theorem numel_append (s t : List Nat) : numel (s ++ t) = numel s * numel t := by
  induction s with
  | nil => simp [numel]
  | cons d s ih =>
    simp only [numel, List.cons_append, List.foldr_cons] at ih ⊢
    rw [ih, Nat.mul_assoc]

theorem numel_cons (d : Nat) (s : List Nat) : numel (d :: s) = d * numel s := rfl

theorem ravel_lt {s i : List Nat} (h : InB i s) : ravel s i < numel s := by
  induction h with
  | nil => simp [ravel, numel]
  | @cons x d i s hd _ ih =>
    rw [ravel, numel_cons]
    calc x * numel s + ravel s i < x * numel s + numel s := by omega
      _ = (x + 1) * numel s := by ring
      _ ≤ d * numel s := Nat.mul_le_mul_right _ hd

theorem ravel_append {s i : List Nat} (h : s.length = i.length) (s' i' : List Nat) :
    ravel (s ++ s') (i ++ i') = ravel s i * numel s' + ravel s' i' := by
  induction s generalizing i with
  | nil =>
    cases i with
    | nil => simp [ravel]
    | cons _ _ => simp at h
  | cons d s ih =>
    cases i with
    | nil => simp at h
    | cons x i =>
      simp only [List.length_cons, Nat.add_right_cancel_iff] at h
      simp only [List.cons_append, ravel]
      rw [ih h, numel_append]
      ring

theorem unravel_ravel {s i : List Nat} (h : InB i s) : unravel s (ravel s i) = i := by
  induction h with
  | nil => rfl
  | @cons x d i s hd ht ih =>
    have hr := ravel_lt ht
    rw [ravel, unravel]
    congr 1
    · rw [Nat.mul_comm, Nat.mul_add_div (by omega), Nat.div_eq_of_lt hr, Nat.add_zero]
    · rw [Nat.mul_comm, Nat.mul_add_mod, Nat.mod_eq_of_lt hr, ih]

theorem inB_append {i s i' s' : List Nat} (h : InB i s) (h' : InB i' s') : InB (i ++ i') (s ++ s') := by
  induction h with
  | nil => exact h'
  | cons hd _ ih => exact .cons hd ih

/-- Reading the flattened tensor: row `ravel s i`, rest `e`. -/
theorem unravel_flat {s i r e : List Nat} (hi : InB i s) (he : InB e r) :
    unravel (s ++ r) (ravel s i * numel r + ravel r e) = i ++ e := by
  rw [← ravel_append hi.length_eq.symm, unravel_ravel (inB_append hi he)]

/-- Restoring the flattened tensor: position `i ++ e` is found in row `ravel s i`. -/
theorem unravel_unflat {s i r e : List Nat} (hi : InB i s) (he : InB e r) :
    unravel (numel s :: r) (ravel (s ++ r) (i ++ e)) = ravel s i :: e := by
  rw [ravel_append hi.length_eq.symm]
  have : ravel s i * numel r + ravel r e = ravel (numel s :: r) (ravel s i :: e) := rfl
  rw [this, unravel_ravel]
  exact .cons (ravel_lt hi) he

end Ten
end Storch
