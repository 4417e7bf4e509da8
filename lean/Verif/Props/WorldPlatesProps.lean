import Verif.Props.CollectProps
import Verif.Model.World

/-!
# C04 for the tensors in the graph: the plates that the result of a call carries
-/

namespace Storch
namespace World
variable {α : Type _} [ValEq α]

theorem tensorsL_st (f : Nat → STen α) (args : List Nat) :
    tensorsL (args.map (fun i => Val.st (f i) false)) = args.map f := by
  induction args with
  | nil => rfl
  | cons a as ih => simp [tensorsL, Val.tensors, ih]

/-- **C04** in the graph: a call on existing tensors with ordinary plates that returns a new torch tensor makes one new
tensor, whose parents are the arguments; its plates are the plates of the arguments in the order of their first occurrence,
without those that the wrapper reduces. -/
theorem C04_node {env : Env α} {args : List Nat} {reduced : List String} {name : String} {t : Ten α} {w w' : World α}
    (hargs : args ≠ []) (hplain : ∀ i ∈ args, ∀ p ∈ w.plates i, p.kind = .plain) (hi : w.ignoreWrap = false)
    (h : detCall env args reduced name (fun w => (w, .ok ())) [.torch t] w = (w', .ok ())) :
    w'.size = w.size + 1 ∧ (w'.node w.size).ten = t ∧ (w'.node w.size).parents = args.map (fun p => (p, false)) ∧
      ∃ R, FirstOcc R (args.flatMap w.plates) ∧ (R.map Plate.name).Nodup ∧
        w'.plates w.size = R.filter (fun q => !decide (q.name ∈ reduced)) := by
  unfold detCall at h
  split at h
  · simp at h
  · split at h
    · simp at h
    · split at h
      · simp at h
      · rename_i ps hps
        simp only [hi, Bool.false_eq_true, if_false] at h
        unfold prepPlates at hps
        split at hps
        · cases hps
        · rename_i p hp
          cases hps
          have ht : Args.tensors (⟨args.map (fun i => .st (w.sten i) false), []⟩ : Args α) = args.map w.sten := by
            simp [Args.tensors, tensorsL_st, tensorsL]
          obtain ⟨-, h2, h3⟩ := C04_collected env.hook {} _ (by
            intro s hs q hq
            rw [ht] at hs
            obtain ⟨i, hi, rfl⟩ := List.mem_map.1 hs
            exact hplain i hi q hq) p hp
          have hall : Args.allPlates (⟨args.map (fun i => .st (w.sten i) false), []⟩ : Args α) =
              args.flatMap w.plates := by
            simp only [Args.allPlates, ht, List.flatMap_map]
            rfl
          rw [hall] at h3
          simp only [wrapOuts, newNode] at h
          split at h
          · simp at h
          · rename_i w'' id hn
            split at hn
            · simp at hn
            · simp only [Prod.mk.injEq, Except.ok.injEq] at hn
              simp only [Prod.mk.injEq, and_true] at h
              obtain ⟨rfl, rfl⟩ := hn
              subst h
              refine ⟨rfl, by simp, by simp, p.plates, h3, h2, ?_⟩
              simp [World.plates, PlateSrc.addr, PlateSrc.store]

namespace WorldPlatesCase

/-- A plate. -/
def plate (name : String) (n : Nat) : Plate Int := .mk name n (.torch (Ten.scalar 0)) .plain []

/-- Two tensors: one over `x` and `y`, one over `y` and `z`. -/
def w0 : World Int :=
  let w1 := (newNode init .plain none ⟨[2, 3], fun _ => 0⟩ [] (.fresh [plate "x" 2, plate "y" 3]) false none).1
  (newNode w1 .plain none ⟨[3, 4], fun _ => 0⟩ [] (.fresh [plate "y" 3, plate "z" 4]) false none).1

/-- The hooks of ordinary plates. -/
def env : Env Int := ⟨fun _ => 0, fun _ x => .ok x⟩

/-- The call of the case: a function of the second and the first tensor that reduces `y`. -/
def called : World Int × Except Err Unit :=
  detCall env [1, 0] ["y"] "f" (fun w => (w, .ok ())) [.torch ⟨[4, 2], fun _ => 0⟩] w0

/-- A case for `C04_node`: the result has the plates `z` and `x`. -/
example : called.2.isOk = true ∧ (called.1.plates 2).map Plate.name = ["z", "x"] ∧ w0.ignoreWrap = false ∧
    ∀ i ∈ [1, 0], ∀ p ∈ w0.plates i, p.kind = .plain := by
  refine ⟨by decide +kernel, by decide +kernel, rfl, ?_⟩
  intro i hi p hp
  simp only [List.mem_cons, List.not_mem_nil, or_false] at hi
  rcases hi with rfl | rfl
  · have hp : p ∈ [plate "y" 3, plate "z" 4] := hp
    simp only [List.mem_cons, List.not_mem_nil, or_false] at hp
    rcases hp with rfl | rfl <;> rfl
  · have hp : p ∈ [plate "x" 2, plate "y" 3] := hp
    simp only [List.mem_cons, List.not_mem_nil, or_false] at hp
    rcases hp with rfl | rfl <;> rfl

end WorldPlatesCase

end World
end Storch
