import Verif.Model.Samplers
import Mathlib.Tactic.SplitIfs
import Mathlib.Data.List.Basic

/-! # Lemmas about sampling methods shared by estimators (C87) -/

namespace Storch.Samplers

/-- The sampling method `s` is as before, and none is lost. -/
structure Keeps (s : Nat) (w w' : World) : Prop where
  len : w.samplers.length ≤ w'.samplers.length
  same : w'.samplers[s]? = w.samplers[s]?

theorem Keeps.refl (s : Nat) (w : World) : Keeps s w w := ⟨Nat.le_refl _, rfl⟩

theorem Keeps.trans {s : Nat} {a b c : World} (h1 : Keeps s a b) (h2 : Keeps s b c) : Keeps s a c :=
  ⟨Nat.le_trans h1.len h2.len, h2.same.trans h1.same⟩

/-- The names and classes of all sampling methods are as before. -/
structure Fixed (w w' : World) : Prop where
  len : w.samplers.length ≤ w'.samplers.length
  same : ∀ i, i < w.samplers.length → (w'.samplers[i]?).map (fun s => (s.plate, s.cls)) = (w.samplers[i]?).map (fun s => (s.plate, s.cls))

theorem Fixed.refl (w : World) : Fixed w w := ⟨Nat.le_refl _, fun _ _ => rfl⟩

theorem Fixed.trans {a b c : World} (h1 : Fixed a b) (h2 : Fixed b c) : Fixed a c :=
  ⟨Nat.le_trans h1.len h2.len, fun i hi => (h2.same i (Nat.lt_of_lt_of_le hi h1.len)).trans (h1.same i hi)⟩

theorem newSampler_keeps {s : Nat} {w : World} (h : s < w.samplers.length) (plate : String) (cls : Cls) :
    Keeps s w (newSampler plate cls w).1 := by
  refine ⟨by simp [newSampler], ?_⟩
  simp only [newSampler]
  rw [List.getElem?_append_left h]

theorem newSampler_fixed (w : World) (plate : String) (cls : Cls) : Fixed w (newSampler plate cls w).1 := by
  refine ⟨by simp [newSampler], ?_⟩
  intro i hi
  simp only [newSampler]
  rw [List.getElem?_append_left hi]

theorem setSample_keeps {s i : Nat} (h : s ≠ i) (f : Nat × Fn) (w : World) : Keeps s w (setSample i f w).1 := by
  rw [setSample]
  cases w.samplers[i]? with
  | none => exact .refl s w
  | some x =>
    obtain ⟨pl, c, a, b⟩ := x
    cases c <;> exact ⟨by simp, by simp [Ne.symm h]⟩

theorem setSample_fixed (i : Nat) (f : Nat × Fn) (w : World) : Fixed w (setSample i f w).1 := by
  rw [setSample]
  cases hx : w.samplers[i]? with
  | none => exact .refl w
  | some x =>
    obtain ⟨pl, c, a, b⟩ := x
    have key : Fixed w { w with samplers := w.samplers.set i ⟨pl, c, some f, b⟩ } := by
      refine ⟨by simp, ?_⟩
      intro j hj
      by_cases hji : i = j
      · subst hji
        simp only [List.getElem?_set_self hj, hx, Option.map_some]
      · simp [hji]
    cases c <;> first | exact key | exact .refl w

theorem setWeight_keeps {s i : Nat} (h : s ≠ i) (f : Nat × WFn) (w : World) : Keeps s w (setWeight i f w).1 := by
  rw [setWeight]
  cases w.samplers[i]? with
  | none => exact .refl s w
  | some x => exact ⟨by simp, by simp [Ne.symm h]⟩

theorem setWeight_fixed (i : Nat) (f : Nat × WFn) (w : World) : Fixed w (setWeight i f w).1 := by
  rw [setWeight]
  cases hx : w.samplers[i]? with
  | none => exact .refl w
  | some x =>
    obtain ⟨pl, c, a, b⟩ := x
    refine ⟨by simp, ?_⟩
    intro j hj
    by_cases hji : i = j
    · subst hji
      simp only [List.getElem?_set_self hj, hx, Option.map_some]
    · simp [hji]

theorem newId_keeps (s : Nat) (w : World) : Keeps s w (newId w).1 := ⟨Nat.le_refl _, rfl⟩

theorem newId_fixed (w : World) : Fixed w (newId w).1 := ⟨Nat.le_refl _, fun _ _ => rfl⟩

theorem orDefault_keeps {s : Nat} {w : World} (h : s < w.samplers.length) {arg : Option Nat} (ha : arg ≠ some s)
    (plate : String) (n : Nat) : Keeps s w (orDefault plate arg n w).1 ∧ s ≠ (orDefault plate arg n w).2 := by
  cases arg with
  | some i => exact ⟨.refl s w, by intro e; exact ha (by rw [e]; rfl)⟩
  | none => exact ⟨newSampler_keeps h _ _, Nat.ne_of_lt h⟩

theorem orDefault_fixed (w : World) (arg : Option Nat) (plate : String) (n : Nat) : Fixed w (orDefault plate arg n w).1 := by
  cases arg with
  | some i => exact .refl w
  | none => exact newSampler_fixed _ _ _

/-! ### Constructors -/

theorem initScore_world (plate : String) (arg : Option Nat) (n : Nat) (b : Baseline) (w : World) :
    (initScore plate arg n b w).1 = (orDefault plate arg n (newId w).1).1 := by
  simp only [initScore]
  split
  · rfl
  · cases b <;> simp only []
    split
    · rfl
    · split_ifs <;> rfl

theorem initFn_world (kind : Kind) (f : Fn) (plate : String) (arg : Option Nat) (n : Nat) (w : World) :
    (initFn kind f plate arg n w).1 = (setSample (orDefault plate arg n (newId w).1).2 (w.made, f) (orDefault plate arg n (newId w).1).1).1 := by
  simp only [initFn]
  split
  · rename_i h; rw [show (w.made, f) = ((newId w).2, f) from rfl, h]
  · rename_i h
    rw [show (w.made, f) = ((newId w).2, f) from rfl, h]
    split <;> rfl

theorem initFn_keeps {s : Nat} {w : World} (h : s < w.samplers.length) {arg : Option Nat} (ha : arg ≠ some s) (kind : Kind) (f : Fn)
    (plate : String) (n : Nat) : Keeps s w (initFn kind f plate arg n w).1 := by
  rw [initFn_world]
  obtain ⟨h1, h2⟩ := orDefault_keeps (w := (newId w).1) h ha plate n
  exact ((newId_keeps s w).trans h1).trans (setSample_keeps h2 _ _)

theorem initFn_fixed (w : World) (arg : Option Nat) (kind : Kind) (f : Fn) (plate : String) (n : Nat) :
    Fixed w (initFn kind f plate arg n w).1 := by
  rw [initFn_world]
  exact ((newId_fixed w).trans (orDefault_fixed _ _ _ _)).trans (setSample_fixed _ _ _)

theorem initScore_keeps {s : Nat} {w : World} (h : s < w.samplers.length) {arg : Option Nat} (ha : arg ≠ some s) (b : Baseline)
    (plate : String) (n : Nat) : Keeps s w (initScore plate arg n b w).1 := by
  rw [initScore_world]
  exact (newId_keeps s w).trans (orDefault_keeps (w := (newId w).1) h ha plate n).1

theorem initScore_fixed (w : World) (arg : Option Nat) (b : Baseline) (plate : String) (n : Nat) :
    Fixed w (initScore plate arg n b w).1 := by
  rw [initScore_world]
  exact (newId_fixed w).trans (orDefault_fixed _ _ _ _)

theorem initWeighted_world (kind : Kind) (f : Fn) (g : WFn) (plate : String) (arg : Option Nat) (n : Nat) (w : World) :
    let a := orDefault plate arg n (newId w).1
    let b := (setSample a.2 (w.made, f) a.1).1
    (initWeighted kind f g plate arg n w).1 = b ∨ (initWeighted kind f g plate arg n w).1 = (setWeight a.2 (w.made, g) b).1 := by
  simp only [initWeighted]
  split
  · rename_i h; rw [show (w.made, f) = ((newId w).2, f) from rfl, h]; exact .inl rfl
  · rename_i h
    rw [show (w.made, f) = ((newId w).2, f) from rfl, h]
    right
    split
    · rename_i h'; rw [show (w.made, g) = ((newId w).2, g) from rfl, h']
    · rename_i h'
      rw [show (w.made, g) = ((newId w).2, g) from rfl, h']
      split
      · rfl
      · split_ifs <;> rfl

theorem initWeighted_keeps {s : Nat} {w : World} (h : s < w.samplers.length) {arg : Option Nat} (ha : arg ≠ some s) (kind : Kind)
    (f : Fn) (g : WFn) (plate : String) (n : Nat) : Keeps s w (initWeighted kind f g plate arg n w).1 := by
  obtain ⟨h1, h2⟩ := orDefault_keeps (w := (newId w).1) h ha plate n
  have h3 := ((newId_keeps s w).trans h1).trans (setSample_keeps h2 (w.made, f) _)
  rcases initWeighted_world kind f g plate arg n w with e | e
  · rw [e]; exact h3
  · rw [e]; exact h3.trans (setWeight_keeps h2 _ _)

theorem initWeighted_fixed (w : World) (arg : Option Nat) (kind : Kind) (f : Fn) (g : WFn) (plate : String) (n : Nat) :
    Fixed w (initWeighted kind f g plate arg n w).1 := by
  have h3 := ((newId_fixed w).trans (orDefault_fixed _ arg plate n)).trans (setSample_fixed (orDefault plate arg n (newId w).1).2 (w.made, f) _)
  rcases initWeighted_world kind f g plate arg n w with e | e
  · rw [e]; exact h3
  · rw [e]; exact h3.trans (setWeight_fixed _ _ _)

/-- The estimator `Infer` makes for sampling. -/
def inferInner (t : DType) (plate : String) (arg : Option Nat) (n : Nat) (w : World) : World × Except Err Method :=
  match t with
  | .rsample => initFn .reparam .reparam plate arg n w
  | .discrete => initFn .gumbel .gumbel plate arg n w
  | .other => initScore plate arg n (if n = 1 then .movingAverage else .batchAverage) w

theorem initInfer_eq (t : DType) (plate : String) (arg : Option Nat) (n : Nat) (w : World) :
    initInfer t plate arg n w =
      match inferInner t plate arg n (newId w).1 with
      | (w, .error e) => (w, .error e)
      | (w1, .ok m) =>
        match initScore plate arg n .none w1 with
        | (w, .error e) => (w, .error e)
        | (w2, .ok _) => (w2, .ok ⟨w.made, .infer t, m.sampler, m.id⟩) := by
  cases t <;> rfl

theorem inferInner_keeps {s : Nat} {w : World} (h : s < w.samplers.length) {arg : Option Nat} (ha : arg ≠ some s) (t : DType)
    (plate : String) (n : Nat) : Keeps s w (inferInner t plate arg n w).1 := by
  cases t
  · exact initFn_keeps h ha _ _ _ _
  · exact initFn_keeps h ha _ _ _ _
  · exact initScore_keeps h ha _ _ _

theorem inferInner_fixed (w : World) (arg : Option Nat) (t : DType) (plate : String) (n : Nat) :
    Fixed w (inferInner t plate arg n w).1 := by
  cases t
  · exact initFn_fixed _ _ _ _ _ _
  · exact initFn_fixed _ _ _ _ _ _
  · exact initScore_fixed _ _ _ _ _

theorem initInfer_keeps {s : Nat} {w : World} (h : s < w.samplers.length) {arg : Option Nat} (ha : arg ≠ some s) (t : DType)
    (plate : String) (n : Nat) : Keeps s w (initInfer t plate arg n w).1 := by
  have h1 := (newId_keeps s w).trans (inferInner_keeps (w := (newId w).1) h ha t plate n)
  rw [initInfer_eq]
  rcases hr : inferInner t plate arg n (newId w).1 with ⟨w1, e | m⟩
  · rw [hr] at h1; exact h1
  · rw [hr] at h1
    simp only
    have h2 := h1.trans (initScore_keeps (w := w1) (Nat.lt_of_lt_of_le h h1.len) ha .none plate n)
    rcases hr2 : initScore plate arg n .none w1 with ⟨w2, e | m2⟩ <;> (rw [hr2] at h2; exact h2)

theorem initInfer_fixed (w : World) (arg : Option Nat) (t : DType) (plate : String) (n : Nat) :
    Fixed w (initInfer t plate arg n w).1 := by
  have h1 := (newId_fixed w).trans (inferInner_fixed (newId w).1 arg t plate n)
  rw [initInfer_eq]
  rcases hr : inferInner t plate arg n (newId w).1 with ⟨w1, e | m⟩
  · rw [hr] at h1; exact h1
  · rw [hr] at h1
    simp only
    have h2 := h1.trans (initScore_fixed w1 arg .none plate n)
    rcases hr2 : initScore plate arg n .none w1 with ⟨w2, e | m2⟩ <;> (rw [hr2] at h2; exact h2)

theorem construct_keeps {s : Nat} {w : World} (h : s < w.samplers.length) {arg : Option Nat} (ha : arg ≠ some s) (kind : Kind)
    (plate : String) (n : Nat) : Keeps s w (construct kind plate arg n w).1 := by
  cases kind with
  | score b => exact initScore_keeps h ha _ _ _
  | reparam => exact initFn_keeps h ha _ _ _ _
  | gumbel => exact initFn_keeps h ha _ _ _ _
  | entmax => exact initFn_keeps h ha _ _ _ _
  | disarm => exact initFn_keeps h ha _ _ _ _
  | arm => exact initWeighted_keeps h ha _ _ _ _ _
  | relax c => exact initWeighted_keeps h ha _ _ _ _ _
  | infer t => exact initInfer_keeps h ha _ _ _
  | expect => exact (newId_keeps s w).trans (newSampler_keeps (w := (newId w).1) h _ _)
  | wor k => exact (newId_keeps s w).trans (newSampler_keeps (w := (newId w).1) h _ _)

theorem construct_fixed (w : World) (arg : Option Nat) (kind : Kind) (plate : String) (n : Nat) :
    Fixed w (construct kind plate arg n w).1 := by
  cases kind with
  | score b => exact initScore_fixed _ _ _ _ _
  | reparam => exact initFn_fixed _ _ _ _ _ _
  | gumbel => exact initFn_fixed _ _ _ _ _ _
  | entmax => exact initFn_fixed _ _ _ _ _ _
  | disarm => exact initFn_fixed _ _ _ _ _ _
  | arm => exact initWeighted_fixed _ _ _ _ _ _ _
  | relax c => exact initWeighted_fixed _ _ _ _ _ _ _
  | infer t => exact initInfer_fixed _ _ _ _ _
  | expect => exact (newId_fixed w).trans (newSampler_fixed _ _ _)
  | wor k => exact (newId_fixed w).trans (newSampler_fixed _ _ _)

theorem run_fixed (p : List Cmd) (w : World) : Fixed w (run w p) := by
  induction p generalizing w with
  | nil => exact .refl w
  | cons c p ih =>
    refine Fixed.trans ?_ (ih (step w c))
    cases c with
    | sampler plate cls => exact newSampler_fixed _ _ _
    | method kind plate arg n => exact construct_fixed _ _ _ _ _

theorem run_append (w : World) (p q : List Cmd) : run w (p ++ q) = run (run w p) q := List.foldl_append

end Storch.Samplers
