import Verif.Props.UniqueProps

/-!
# C101: unique samples and the plates they came from do not mix
-/

namespace Storch
open Ten

variable {α : Type _}

/-- Specification: `Replaced r p` if the plate `r` was replaced by the unique plate `p`, directly or by way of other
unique plates that `p` replaced. -/
inductive Replaced : UPlate α → UPlate α → Prop
  | here {r : UPlate α} {name n sh inv} : r ∈ sh → Replaced r (.uniq name n sh inv)
  | deep {r q : UPlate α} {name n sh inv} : q ∈ sh → Replaced r q → Replaced r (.uniq name n sh inv)

section mix
variable [Zero α] [ValEq α]

mutual
theorem hasShrunken_iff (q : UPlate α) : ∀ p : UPlate α,
    UPlate.hasShrunken q p = true ↔ ∃ r, Replaced r p ∧ Plate.pyEq q.view r.view = true
  | .base p => by
    simp only [UPlate.hasShrunken, Bool.false_eq_true, false_iff]
    rintro ⟨r, h, -⟩
    cases h
  | .uniq name n sh inv => by
    rw [UPlate.hasShrunken, anyShrunken_iff q sh]
    constructor
    · rintro ⟨s, hs, h | ⟨r, hr, h⟩⟩
      · exact ⟨s, .here hs, h⟩
      · exact ⟨r, .deep hs hr, h⟩
    · rintro ⟨r, hr, h⟩
      cases hr with
      | here hs => exact ⟨r, hs, .inl h⟩
      | deep hs hr => exact ⟨_, hs, .inr ⟨r, hr, h⟩⟩
theorem anyShrunken_iff (q : UPlate α) : ∀ sh : List (UPlate α),
    UPlate.anyShrunken q sh = true ↔
      ∃ s ∈ sh, Plate.pyEq q.view s.view = true ∨ ∃ r, Replaced r s ∧ Plate.pyEq q.view r.view = true
  | [] => by simp [UPlate.anyShrunken]
  | s :: sh => by
    rw [UPlate.anyShrunken, Bool.or_eq_true, Bool.or_eq_true, hasShrunken_iff q s, anyShrunken_iff q sh]
    simp only [List.mem_cons, exists_eq_or_imp]
end

theorem collect_iff (L : List (UPlate α)) :
    UPlate.collect L = .error .value ↔
      ∃ p ∈ L, ∃ q ∈ L, ∃ r, Replaced r p ∧ Plate.pyEq q.view r.view = true := by
  unfold UPlate.collect
  have : L.any (fun p => L.any (fun q => UPlate.hasShrunken q p)) = true ↔
      ∃ p ∈ L, ∃ q ∈ L, ∃ r, Replaced r p ∧ Plate.pyEq q.view r.view = true := by
    simp only [List.any_eq_true, hasShrunken_iff]
  rw [← this]
  split
  · simp [*]
  · simp [*]

/-- The check passes or raises `ValueError`. -/
theorem collect_cases (L : List (UPlate α)) : UPlate.collect L = .ok () ∨ UPlate.collect L = .error .value := by
  unfold UPlate.collect
  split
  · exact .inr rfl
  · exact .inl rfl

/-- **C101**, for all plates that a call collects: if a unique plate is among them together with one of the plates that it
replaced, at any depth, the call raises `ValueError`; and if the name of no replaced plate is among them, the check
passes. -/
theorem C101_replaced (L : List (UPlate α)) :
    (∀ p ∈ L, ∀ q ∈ L, Replaced q p → UPlate.collect L = .error .value) ∧
      ((∀ p ∈ L, ∀ r, Replaced r p → r.name ∉ L.map UPlate.name) → UPlate.collect L = .ok ()) := by
  refine ⟨fun p hp q hq h => (collect_iff L).2 ⟨p, hp, q, hq, q, h, Plate.pyEq_refl _⟩, fun h => ?_⟩
  refine (collect_cases L).resolve_right fun he => ?_
  obtain ⟨p, hp, q, hq, r, hr, hx⟩ := (collect_iff L).1 he
  refine h p hp r hr (List.mem_map.2 ⟨q, hq, ?_⟩)
  have := Plate.pyEq_name hx
  rwa [view_name, view_name] at this

/-- What `unique` returns has one plate, which replaced the plates with several samples. -/
theorem unique_plates {tu : Ten α → Except Err (Ten α × Ten Nat)} {t u : UTen α} {name : String}
    (hu : t.unique tu name = .ok u) : ∃ k inv, u.plates = [.uniq ("uq_plate_" ++ name) k t.multiDim inv] := by
  unfold UTen.unique at hu
  obtain ⟨_, _, hu⟩ := bind_ok hu
  obtain ⟨_, _, hu⟩ := bind_ok hu
  obtain ⟨⟨x, inv⟩, _, hu⟩ := bind_ok hu
  obtain ⟨_, _, hu⟩ := bind_ok hu
  split at hu
  · cases hu
  · cases hu
  · exact ⟨_, inv, (utenMk_ok hu).1⟩

/-- **C101** for `unique`: whatever is computed from the unique samples (a tensor whose plates include theirs) cannot be
combined with anything that still has one of the plates with several samples of the tensor that they come from, nor with
any plate that these had replaced.  Missing for C101: plates with one sample, `C101_single_refuted`. -/
theorem C101_unique_partial {tu : Ten α → Except Err (Ten α × Ten Nat)} {t u : UTen α} {name : String}
    (hu : t.unique tu name = .ok u) (L : List (UPlate α)) (hL : ∀ p ∈ u.plates, p ∈ L) {q : UPlate α} (hq : q ∈ L)
    (h : (q ∈ t.plates ∧ 1 < q.n) ∨ ∃ p ∈ t.plates, 1 < p.n ∧ Replaced q p) :
    UPlate.collect L = .error .value := by
  obtain ⟨k, inv, hp⟩ := unique_plates hu
  have hmem : ∀ p, p ∈ t.plates → 1 < p.n → p ∈ t.multiDim := fun p h1 h2 =>
    List.mem_filter.2 ⟨h1, by simpa using h2⟩
  refine (C101_replaced L).1 _ (hL _ (by rw [hp]; exact List.mem_singleton.2 rfl)) q hq ?_
  rcases h with ⟨h1, h2⟩ | ⟨p, h1, h2, h3⟩
  · exact .here (hmem _ h1 h2)
  · exact .deep (hmem _ h1 h2) h3

/-- C101 is false for plates with one sample: `unique` removes them (the result has the unique plate only) but does not
record them, so that the unique samples can be combined with the tensor's own plate and no exception tells. -/
theorem C101_single_refuted {tu : Ten α → Except Err (Ten α × Ten Nat)} {t u : UTen α} {name : String}
    (hu : t.unique tu name = .ok u) (hb : ∀ p ∈ t.plates, p.isUniq = false) (hnd : (t.plates.map UPlate.name).Nodup)
    (hfresh : "uq_plate_" ++ name ∉ t.plates.map UPlate.name) {q : UPlate α} (hq : q ∈ t.plates) (hn : q.n = 1) :
    q ∉ u.plates ∧ UPlate.collect (u.plates ++ [q]) = .ok () := by
  obtain ⟨k, inv, hp⟩ := unique_plates hu
  rw [hp]
  have hq' := hb q hq
  refine ⟨fun h => ?_, (C101_replaced _).2 ?_⟩
  · rw [List.mem_singleton.1 h] at hq'
    cases hq'
  · intro p hpm r hr
    simp only [List.cons_append, List.nil_append, List.mem_cons, List.not_mem_nil, or_false] at hpm
    have hrm : r ∈ t.multiDim := by
      rcases hpm with rfl | rfl
      · cases hr with
        | here h => exact h
        | deep h h' =>
          have := hb _ (List.mem_filter.1 h).1
          cases h' <;> cases this
      · cases hr <;> cases hq'
    obtain ⟨h1, h2⟩ := List.mem_filter.1 hrm
    have h2 : 1 < r.n := by simpa using h2
    simp only [List.cons_append, List.nil_append, List.map_cons, List.map_nil, List.mem_cons, List.not_mem_nil, or_false,
      not_or]
    refine ⟨fun e => hfresh ?_, fun e => ?_⟩
    · exact List.mem_map.2 ⟨r, h1, e⟩
    · have : r = q := List.inj_on_of_nodup_map hnd h1 hq e
      rw [this] at h2
      omega

end mix

namespace UniqueMixCase

/-- An ordinary plate. -/
def x : UPlate Int := .base (.mk "x" 3 (.torch (scalar 0)) .plain [])

/-- Another. -/
def y : UPlate Int := .base (.mk "y" 2 (.torch (scalar 0)) .plain [])

/-- A unique plate that replaced a unique plate that replaced `x`. -/
def p : UPlate Int := .uniq "uq_plate_b" 2 [.uniq "uq_plate_a" 2 [x] ⟨[3], fun _ => 0⟩] ⟨[2], fun _ => 0⟩

/-- A case for `C101_replaced`, at depth two, and one that passes. -/
example : UPlate.collect [y, p, x] = .error .value ∧ UPlate.collect [y, p] = .ok () := by
  refine ⟨(C101_replaced _).1 p (by simp) x (by simp) (.deep (List.mem_singleton.2 rfl) (.here (List.mem_singleton.2 rfl))),
    (C101_replaced _).2 ?_⟩
  intro q hq r hr
  simp only [List.mem_cons, List.not_mem_nil, or_false] at hq
  rcases hq with rfl | rfl
  · cases hr
  · cases hr with
    | here h =>
      rw [List.mem_singleton.1 h]
      decide
    | deep h h' =>
      rw [List.mem_singleton.1 h] at h'
      cases h' with
      | here h =>
        rw [List.mem_singleton.1 h]
        decide
      | deep h h' =>
        rw [List.mem_singleton.1 h] at h'
        cases h'

/-- A case for `C101_unique_partial`: three pairs, two of them equal, next to the plate of the three. -/
example : ∃ u, UniqueCase.t.unique someUnique "t" = .ok u ∧
    UPlate.collect (u.plates ++ [y, x]) = .error .value := by
  obtain ⟨u, k, inv, h, _⟩ := C62_partial (α := Int) someUnique_ok (t := UniqueCase.t) (name := "t") (m := 3) (ev := [2])
    (p := x) rfl (by simp [UniqueCase.t, UPlate.n, Plate.n])
    (by simp [UniqueCase.t, UPlate.isUniq]) (by simp [UniqueCase.t]) rfl rfl rfl (by simp) (by simp [numel])
  exact ⟨u, h, C101_unique_partial h _ (fun p hp => List.mem_append_left _ hp) (q := x) (by simp)
    (.inl ⟨by simp [UniqueCase.t, x], by decide⟩)⟩

/-- A plate of one sample. -/
def one : UPlate Int := .base (.mk "z" 1 (.torch (scalar 0)) .plain [])

/-- Three samples of pairs under two plates, one of which has one sample. -/
def t : UTen Int := ⟨⟨[3, 2], fun idx => if idx.headD 0 = 1 then 5 else idx.getD 1 0⟩, [one, x], 1⟩

/-- A case for `C101_single_refuted`. -/
example : ∃ u, t.unique someUnique "t" = .ok u ∧ one ∉ u.plates ∧ UPlate.collect (u.plates ++ [one]) = .ok () := by
  obtain ⟨u, k, inv, h, _⟩ := C62_partial (α := Int) someUnique_ok (t := t) (name := "t") (m := 3) (ev := [2])
    (p := x) rfl (by simp [t, one, x, UPlate.n, Plate.n])
    (by simp [t, one, x, UPlate.isUniq]) (by decide) rfl rfl rfl (by simp) (by simp [numel])
  exact ⟨u, h, C101_single_refuted h (by simp [t, one, x, UPlate.isUniq]) (by decide) (by decide) (q := one) (by simp [t]) rfl⟩

end UniqueMixCase

end Storch
