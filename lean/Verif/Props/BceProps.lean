import Verif.Model.Expose
import Verif.Props.CallProps

/-!
# Functions that torch does not broadcast
-/

namespace Storch
variable {α : Type _} [ValEq α]

/-- C06 for `torch.nn.functional.binary_cross_entropy`, which torch does not broadcast: whatever it does with tensors, called on
storch tensors it receives tensors with one leading dimension of full size per collected plate (excluded_init.py:62,
tensor.py:243-268). -/
theorem C06_bce (hook : UnwrapHook α) (hh : PlainHook hook) (ignoreWrap : Bool) (ops : List (Operand α)) (hg : GoodOps ops)
    (hst : stens ops ≠ []) :
    ∃ (ts : List (Ten α)) (P : List (Plate α)), FirstOcc P ((stens ops).flatMap STen.plates) ∧
      List.Forall₂ (ExpandedOp (P.filter (fun p => decide (1 < p.n))) (maxEv ops)) ops ts ∧
      ∀ (fn : Fn α) (out : Except Err (Val α)), fn ⟨ts.map Val.torch, []⟩ = out →
        torchFunction hook ⟨false, ignoreWrap⟩ ⟨"binary_cross_entropy", fn⟩ (opArgs ops) =
          match out with
          | .error e => .error e
          | .ok v => if ignoreWrap then .ok v else v.wrapOut P false := by
  obtain ⟨ts, P, h1, h2, h3⟩ := C06_expanded hook hh ops hg
  refine ⟨ts, P, h2, h3, ?_⟩
  rintro fn out rfl
  have n1 : "binary_cross_entropy" ∉ exceptionMethods := by decide +kernel
  have n2 : "binary_cross_entropy" ∉ excludedMethods := by decide +kernel
  have n3 : "binary_cross_entropy" ∈ expandMethods := by decide +kernel
  have hp : (stens ops).isEmpty = false := by cases h : stens ops <;> simp_all
  have hf : P.filter (fun q => !decide (q.name ∈ ([] : List String))) = P := List.filter_eq_self.2 (by simp)
  rw [torchFunction]
  simp only [n1, n2, n3, if_false, if_true]
  rw [handleDet]
  simp only [Bool.false_eq_true, if_false, h1, hp, hf]
  rfl

section Examples
private def bceP (s : String) (n : Nat) : Plate Int := .mk s n (.torch (.scalar 1)) .plain []
/-- plates x (2), y (3). -/
private def bceA : STen Int := ⟨⟨[2, 3], fun l => (l.foldl (fun a i => 10 * a + i) 0 : Nat)⟩, [bceP "x" 2, bceP "y" 3], 2⟩
/-- plate y (3). -/
private def bceB : STen Int := ⟨⟨[3], fun l => (l.headD 0 : Nat)⟩, [bceP "y" 3], 1⟩
private def bceOps : List (Operand Int) := [.st bceA false, .st bceB false]

/-- The hypotheses of `C06_bce` hold for a call with two tensors over different plates. -/
example : GoodOps bceOps ∧ stens bceOps ≠ [] := by
  refine ⟨⟨?_, ?_, ?_⟩, by simp [bceOps, stens]⟩
  · intro t ht
    simp only [bceOps, stens, List.mem_cons, List.not_mem_nil, or_false] at ht
    rcases ht with rfl | rfl
    · refine ⟨by decide, ?_, rfl, rfl⟩
      intro p hp
      simp only [bceA, List.mem_cons, List.not_mem_nil, or_false] at hp
      rcases hp with rfl | rfl <;> decide
    · refine ⟨by decide, ?_, rfl, rfl⟩
      intro p hp
      simp only [bceB, List.mem_cons, List.not_mem_nil, or_false] at hp
      rcases hp with rfl; decide
  · intro t ht p hp
    simp only [bceOps, stens, List.mem_cons, List.not_mem_nil, or_false] at ht
    rcases ht with rfl | rfl
    · simp only [bceA, List.mem_cons, List.not_mem_nil, or_false] at hp
      rcases hp with rfl | rfl <;> rfl
    · simp only [bceB, List.mem_cons, List.not_mem_nil, or_false] at hp
      rcases hp with rfl; rfl
  · intro t ht u hu p hp q hq hn
    simp only [bceOps, stens, List.mem_cons, List.not_mem_nil, or_false] at ht hu
    rcases ht with rfl | rfl <;> rcases hu with rfl | rfl <;>
      simp only [bceA, bceB, List.mem_cons, List.not_mem_nil, or_false] at hp hq
    · rcases hp with rfl | rfl <;> rcases hq with rfl | rfl <;> first | rfl | exact absurd hn (by decide)
    · subst hq; rcases hp with rfl | rfl <;> first | rfl | exact absurd hn (by decide)
    · subst hp; rcases hq with rfl | rfl <;> first | rfl | exact absurd hn (by decide)
    · subst hp; subst hq; rfl

/-- Both arguments arrive with the shape `(2, 3)`. -/
example : (match torchFunction (fun _ t => .ok t) ⟨false, false⟩ ⟨"binary_cross_entropy", fun a => match a.pos with
      | [.torch t, .torch u] => if t.shape = u.shape then .ok (.torch u) else .error .torch
      | _ => .error .type⟩ (opArgs bceOps) with
    | .ok (.st t false) => some (t.plates.map Plate.name, t.ten.shape, t.ten.get [1, 2])
    | _ => Option.none) = some (["x", "y"], [2, 3], 2) := by decide +kernel
end Examples

end Storch
