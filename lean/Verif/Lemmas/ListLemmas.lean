import Verif.Model.Base
import Mathlib.Data.List.Basic
import Mathlib.Data.List.Nodup
import Mathlib.Data.List.Perm.Basic

/-! Helper lemmas on lists: swapping positions, index search, erasing inserted positions. -/

namespace Storch
variable {β γ : Type _}

@[simp] theorem length_swapAt (l : List β) (i j : Nat) : (swapAt l i j).length = l.length := by
  unfold swapAt; split <;> simp

theorem swapAt_of_lt {l : List β} {i j : Nat} (hi : i < l.length) (hj : j < l.length) :
    swapAt l i j = (l.set i l[j]).set j l[i] := by
  simp [swapAt, List.getElem?_eq_getElem hi, List.getElem?_eq_getElem hj]

theorem getElem?_swapAt {l : List β} {i j : Nat} (hi : i < l.length) (hj : j < l.length) (k : Nat) :
    (swapAt l i j)[k]? = if k = j then l[i]? else if k = i then l[j]? else l[k]? := by
  rw [swapAt_of_lt hi hj]
  simp only [List.getElem?_set, List.length_set]
  by_cases h1 : k = j
  · subst h1; simp [hj, List.getElem?_eq_getElem hi]
  · by_cases h2 : k = i
    · subst h2; simp [h1, Ne.symm h1, hi, List.getElem?_eq_getElem hj]
    · simp [h1, h2, Ne.symm h1, Ne.symm h2]

theorem swapAt_swapAt {l : List β} {i j : Nat} (hi : i < l.length) (hj : j < l.length) :
    swapAt (swapAt l i j) i j = l := by
  apply List.ext_getElem?
  intro k
  rw [getElem?_swapAt (by simpa using hi) (by simpa using hj), getElem?_swapAt hi hj,
    getElem?_swapAt hi hj, getElem?_swapAt hi hj]
  split_ifs <;> simp_all

theorem map_swapAt (f : β → γ) {l : List β} {i j : Nat} (hi : i < l.length) (hj : j < l.length) :
    (swapAt l i j).map f = swapAt (l.map f) i j := by
  apply List.ext_getElem?
  intro k
  rw [List.getElem?_map, getElem?_swapAt hi hj,
    getElem?_swapAt (by simpa using hi) (by simpa using hj)]
  split_ifs <;> simp

theorem swapAt_append_left {l : List β} {i j : Nat} (hi : i < l.length) (hj : j < l.length)
    (m : List β) : swapAt (l ++ m) i j = swapAt l i j ++ m := by
  apply List.ext_getElem?
  intro k
  rw [getElem?_swapAt (by simp; omega) (by simp; omega)]
  rw [List.getElem?_append_left hi, List.getElem?_append_left hj]
  rcases Nat.lt_or_ge k l.length with hk | hk
  · have e : (swapAt l i j ++ m)[k]? = (swapAt l i j)[k]? :=
      List.getElem?_append_left (by simpa using hk)
    rw [e, getElem?_swapAt hi hj, List.getElem?_append_left hk]
  · have e : (swapAt l i j ++ m)[k]? = m[k - l.length]? := by
      rw [List.getElem?_append_right (by simpa using hk)]; simp
    rw [e, if_neg (by omega), if_neg (by omega), List.getElem?_append_right hk]

theorem swapAt_perm (l : List β) (i j : Nat) : (swapAt l i j).Perm l := by
  unfold swapAt
  split
  · rename_i a b ha hb
    obtain ⟨hi, rfl⟩ := List.getElem?_eq_some_iff.1 ha
    obtain ⟨hj, rfl⟩ := List.getElem?_eq_some_iff.1 hb
    exact List.set_set_perm hi hj
  · exact List.Perm.refl _

theorem eraseIdx_append_length (l r : List β) (a : β) :
    (l ++ a :: r).eraseIdx l.length = l ++ r := by
  induction l with
  | nil => rfl
  | cons x xs ih => simp [ih]

theorem insertIdx_append_length (l r : List β) (a : β) :
    (l ++ r).insertIdx l.length a = l ++ a :: r := by
  induction l with
  | nil => simp
  | cons x xs ih => simp [ih]

end Storch
