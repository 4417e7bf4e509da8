import Verif.Lemmas.PlateLemmas
import Mathlib.Algebra.Field.Rat
import Mathlib.Tactic.NormNum

/-!
# Properties C01 – C03: tensor construction and plate equality
-/

namespace Storch
variable {α : Type _}

/-! ## Specification (independent of the constructor's loop) -/

/-- The plates are admissible for a tensor of this shape: different names, and the shape starts with
the sizes of the plates whose size is not one. -/
def Admissible (plates : List (Plate α)) (shape : List Nat) : Prop :=
  (∀ i j (hi : i < plates.length) (hj : j < plates.length),
      plates[i].name = plates[j].name → i = j) ∧
  ∃ rest, shape = (plates.map Plate.n).filter (fun k => k ≠ 1) ++ rest

theorem filter_map_n (plates : List (Plate α)) :
    (plates.map Plate.n).filter (fun k => k ≠ 1) =
      (plates.filter (fun p => p.n ≠ 1)).map Plate.n := by
  rw [List.filter_map]; rfl

theorem nodup_names_iff (plates : List (Plate α)) :
    (plates.map Plate.name).Nodup ↔
      ∀ i j (hi : i < plates.length) (hj : j < plates.length),
        plates[i].name = plates[j].name → i = j := by
  rw [List.nodup_iff_injective_getElem]
  constructor
  · intro h i j hi hj hij
    have := @h ⟨i, by simpa using hi⟩ ⟨j, by simpa using hj⟩ (by simpa using hij)
    simpa using this
  · intro h ⟨i, hi⟩ ⟨j, hj⟩ hij
    simp only [List.getElem_map] at hij
    exact Fin.ext (h i j (by simpa using hi) (by simpa using hj) hij)

/-- **C01.** Construction succeeds exactly on admissible plates. -/
theorem C01_construct_iff (t : Ten α) (plates : List (Plate α)) :
    (∃ s, STen.mk' t plates = .ok s) ↔ Admissible plates t.shape := by
  have key := fun r => checkPlates_ok_iff t.shape plates [] 0 r
  unfold STen.mk' Admissible
  rw [← nodup_names_iff, filter_map_n]
  cases h : STen.checkPlates t.shape plates [] 0 with
  | error e =>
    simp only [reduceCtorEq, exists_false, false_iff]
    rintro ⟨h1, rest, h2⟩
    have := (key _).2 ⟨h1, by simp, ⟨rest, by simpa using h2.symm⟩, rfl⟩
    rw [h] at this
    cases this
  | ok d =>
    obtain ⟨h1, _, ⟨rest, h3⟩, _⟩ := (key d).1 h
    simp only [Except.ok.injEq, exists_eq', true_iff]
    exact ⟨h1, rest, by simpa using h3.symm⟩

/-- **C01.** What a successful construction stores: the given tensor and plates, the number of plates
of size other than one, and the remaining dimensions as event shape. -/
theorem C01_construct_result (t : Ten α) (plates : List (Plate α)) (s : STen α)
    (h : STen.mk' t plates = .ok s) :
    s.ten = t ∧ s.plates = plates ∧
    s.plateDims = ((plates.map Plate.n).filter (fun k => k ≠ 1)).length ∧
    t.shape = (plates.map Plate.n).filter (fun k => k ≠ 1) ++ s.eventShape ∧
    s.eventDims + s.plateDims = t.ndim := by
  unfold STen.mk' at h
  cases hc : STen.checkPlates t.shape plates [] 0 with
  | error e => simp [hc] at h
  | ok d =>
    simp only [hc, Except.ok.injEq] at h
    subst h
    obtain ⟨_, _, ⟨rest, h3⟩, h4⟩ := (checkPlates_ok_iff _ _ _ _ _).1 hc
    simp only [List.drop_zero] at h3
    have hs : t.shape = (plates.map Plate.n).filter (fun k => k ≠ 1) ++ rest := by
      rw [filter_map_n]; exact h3.symm
    have hd : d = ((plates.map Plate.n).filter (fun k => k ≠ 1)).length := by
      rw [filter_map_n, List.length_map]; omega
    refine ⟨rfl, rfl, hd, ?_, ?_⟩
    · simp only [STen.eventShape]
      rw [hs, hd, List.drop_left]
    · simp only [STen.eventDims, STen.eventShape, Ten.ndim, List.length_drop]
      have : d ≤ t.shape.length := by rw [hs, hd]; simp
      omega

/-- **C01.** The only exception of the constructor's plate check is ValueError. -/
theorem C01_construct_error (t : Ten α) (plates : List (Plate α)) (e : Err)
    (h : STen.mk' t plates = .error e) : e = .value ∧ ¬ Admissible plates t.shape := by
  constructor
  · unfold STen.mk' at h
    cases hc : STen.checkPlates t.shape plates [] 0 with
    | error e' =>
      simp only [hc, Except.error.injEq] at h
      exact h ▸ checkPlates_error _ _ _ _ hc
    | ok d => simp [hc] at h
  · rw [← C01_construct_iff]
    rintro ⟨s, hs⟩
    simp [h] at hs

/-- **C01.** `plate_dims` agrees with `multi_dim_plates()` exactly when no plate is empty: the
constructor skips plates of size one, `multi_dim_plates` keeps plates of size greater than one, and a
plate of size zero falls between. -/
theorem C01_multi_dim_plates (t : Ten α) (plates : List (Plate α)) (s : STen α)
    (h : STen.mk' t plates = .ok s) :
    s.multiDimPlates.length = s.plateDims ↔ ∀ p ∈ plates, p.n ≠ 0 := by
  have hr := C01_construct_result t plates s h
  rw [hr.2.2.1, filter_map_n, List.length_map, STen.multiDimPlates, hr.2.1]
  clear hr h
  induction plates with
  | nil => simp
  | cons p ps ih =>
    have hle : (ps.filter (fun p => decide (1 < p.n))).length ≤
        (ps.filter (fun p => p.n ≠ 1)).length := by
      clear ih
      induction ps with
      | nil => simp
      | cons q qs ihq =>
        simp only [List.filter_cons]
        by_cases h1 : q.n = 1
        · simpa [h1] using ihq
        · by_cases h0 : 1 < q.n
          · simpa [h1, h0] using ihq
          · simp only [h0, decide_false, Bool.false_eq_true, if_false, ne_eq, h1,
              not_false_eq_true, decide_true, if_true, List.length_cons] at ihq ⊢
            omega
    simp only [List.filter_cons, List.mem_cons, forall_eq_or_imp]
    rcases Nat.lt_trichotomy p.n 1 with h | h | h
    · have h0 : p.n = 0 := by omega
      simp [h0]
      simp only [ne_eq, decide_not] at hle
      omega
    · simpa [h] using ih
    · have h1 : p.n ≠ 1 := by omega
      have h0 : p.n ≠ 0 := by omega
      simpa [h, h1, h0] using ih

/-! Concrete cases: a (3, 2, 5) tensor with plates of sizes 3, 1, 2, and a rejected one. -/

/-- A case for `C01_construct_result` and `C01_multi_dim_plates`: three plates, one of size one. -/
example : (STen.mk' (⟨[3, 2, 5], fun _ => (0 : ℚ)⟩ : Ten ℚ)
    [.default "a" 3 [], .default "b" 1 [], .default "c" 2 []]).toOption.map
      (fun s => (s.plateDims, s.eventShape)) = some (2, [5]) := by decide

/-- A case for `C01_construct_error`: two plates of the same name. -/
example : (STen.mk' (⟨[3, 2], fun _ => (0 : ℚ)⟩ : Ten ℚ)
    [.default "a" 3 [], .default "a" 2 []]).toOption.isNone = true := by decide

/-! ## C02, C03: plate equality -/

section
variable [ValEq α]

/-- **C02.** Plate equality is an equivalence relation, for all mixtures of plate classes and
weights. -/
theorem C02_equivalence : Equivalence (fun p q : Plate α => p.pyEq q = true) :=
  ⟨Plate.pyEq_refl, Plate.pyEq_symm, Plate.pyEq_trans⟩

/-- **C02.** Equal plates agree on name, size and class. -/
theorem C02_respects (p q : Plate α) (h : p.pyEq q = true) :
    p.name = q.name ∧ p.n = q.n ∧ p.kind = q.kind :=
  ⟨(Plate.pyEq_iff.1 h).1, (Plate.pyEq_iff.1 h).2.1, (Plate.pyEq_iff.1 h).2.2.1⟩

/-- **C02.** Plates whose storch weights differ in shape or in any element are different. -/
theorem C02_storch_weights_distinguish (p q : Plate α) (s t : Ten α) (a b : List String)
    (hp : p.weight = .storch s a) (hq : q.weight = .storch t b)
    (hne : s.shape ≠ t.shape ∨
      ∃ idx, Ten.InB idx s.shape ∧ ValEq.veq (s.get idx) (t.get idx) = false) :
    p.pyEq q = false := by
  rw [Bool.eq_false_iff]
  intro h
  have hw := (Plate.pyEq_iff.1 h).2.2.2
  rw [hp, hq] at hw
  obtain ⟨h1, h2⟩ := Ten.eqAll_iff.1 hw
  rcases hne with hs | ⟨idx, hi, hv⟩
  · exact hs h1
  · rw [h2 idx hi] at hv; cases hv

/-- **C02.** A storch-weighted plate never equals a torch-weighted one. -/
theorem C02_weight_kind (p q : Plate α) (s t : Ten α) (a : List String)
    (hp : p.weight = .storch s a) (hq : q.weight = .torch t) :
    p.pyEq q = false ∧ q.pyEq p = false := by
  have : ∀ x y : Plate α, x.weight = .storch s a → y.weight = .torch t → x.pyEq y = false := by
    intro x y hx hy
    rw [Bool.eq_false_iff]
    intro h
    have hw := (Plate.pyEq_iff.1 h).2.2.2
    rw [hx, hy] at hw
    exact hw
  exact ⟨this p q hp hq, by rw [Plate.pyEq_comm]; exact this p q hp hq⟩

/-- The reflected-operand rule matters: the two `__eq__` methods alone are not symmetric. -/
theorem C02_methods_alone_not_symmetric [DivisionRing α] :
    ∃ p q : Plate α, p.eqMethod q = true ∧ q.eqMethod p = false ∧ p.pyEq q = false :=
  ⟨.default "a" 2 [], .mk "a" 2 (.torch (Ten.scalar 1)) (.anc 0) [], by
    simp [Plate.eqMethod, Plate.pyEq, Plate.baseEq, Plate.default, Plate.kind, Plate.weight,
      Plate.name, Plate.n]⟩

/-- **C03, the part that holds.** If the weights are storch tensors and some element differs, the
plates differ; and if both have the default torch weight `1/n`, equal plates do have equal weights. -/
theorem C03_partial [DivisionRing α] (p q : Plate α) (h : p.pyEq q = true)
    (hp : (∃ t a, p.weight = .storch t a) ∨
      p.weight = .torch (Ten.scalar (1 / (p.n : α))) ∧
      q.weight = .torch (Ten.scalar (1 / (q.n : α)))) :
    p.weight.ten.shape = q.weight.ten.shape ∧
    ∀ idx, Ten.InB idx p.weight.ten.shape →
      ValEq.veq (p.weight.ten.get idx) (q.weight.ten.get idx) = true := by
  obtain ⟨h1, h2, h3, h4⟩ := Plate.pyEq_iff.1 h
  rcases hp with ⟨t, a, ht⟩ | ⟨hp, hq⟩
  · rw [ht] at h4 ⊢
    cases hw : q.weight with
    | torch u => rw [hw] at h4; exact h4.elim
    | storch u b =>
      rw [hw] at h4
      exact Ten.eqAll_iff.1 h4
  · rw [hp, hq, h2]
    exact ⟨rfl, fun _ _ => ValEq.refl _⟩

end

/-- **C03 is refuted.** Two plates with the same name and size and different torch weights (as ARM and
REBAR install them) compare equal. -/
theorem C03_refuted :
    ∃ p q : Plate ℚ, p.pyEq q = true ∧ p.weight.ten.shape = q.weight.ten.shape ∧
      ∃ idx, Ten.InB idx p.weight.ten.shape ∧ p.weight.ten.get idx ≠ q.weight.ten.get idx :=
  ⟨.mk "z" 2 (.torch ⟨[2], fun idx => if idx = [0] then 1 else 0⟩) .plain [],
   .mk "z" 2 (.torch ⟨[2], fun _ => 1 / 2⟩) .plain [], by decide, rfl, [0],
   List.Forall₂.cons (by decide) List.Forall₂.nil, by
    show (if [0] = [0] then (1 : ℚ) else 0) ≠ 1 / 2
    norm_num⟩

/-- A case for `C02_equivalence`, `C02_respects` and `C03_partial`: equal plates with storch weights. -/
example : (Plate.mk "z" 2 (.storch ⟨[2], fun _ => (5 : Int)⟩ ["z"]) .plain []).pyEq
    (.mk "z" 2 (.storch ⟨[2], fun _ => 5⟩ ["z"]) .plain []) = true := by decide

/-- A case for `C02_weight_kind` and `C02_methods_alone_not_symmetric`: the plates differ only in the kind of the weight. -/
example : (Plate.mk "z" 2 (.storch ⟨[], fun _ => (5 : Int)⟩ []) .plain []).pyEq
    (.mk "z" 2 (.torch ⟨[], fun _ => 5⟩) .plain []) = false := by decide

/-- A case for `C02_storch_weights_distinguish`: the weights differ in one element. -/
example : (Plate.mk "z" 2 (.storch ⟨[2], fun _ => (5 : Int)⟩ ["z"]) .plain []).pyEq
    (.mk "z" 2 (.storch ⟨[2], fun i => if i = [1] then 3 else 5⟩ ["z"]) .plain [])
      = false := by decide

end Storch
