import Verif.Lemmas.ExecLemmas
import Verif.Lemmas.PlateLemmas

/-!
# Plates of the tensors of a state
-/

namespace Storch
variable {α : Type _} {ins : Bool}
open World

namespace World

/-- What the constructor checks. -/
def Fits (ps : List (Plate α)) (shape : List Nat) (dims : Nat) : Prop :=
  STen.checkPlates shape ps [] 0 = .ok dims

/-- The names in every list of plates differ; and the plates of every tensor, apart from plates inserted
in front, passed the check of the constructor. -/
structure PlatesOK (ins : Bool) (w : World α) : Prop where
  names : ∀ a, ((w.plateList a).map Plate.name).Nodup
  fits : ∀ i < w.size, ∃ l ps, w.plates i = l ++ ps ∧ (ins = false → l = []) ∧
    Fits ps (w.node i).ten.shape (w.node i).plateDims

theorem Fits.nodup {ps : List (Plate α)} {shape dims} (h : Fits ps shape dims) : (ps.map Plate.name).Nodup :=
  ((checkPlates_ok_iff _ _ _ _ _).1 h).1

theorem PlatesOK.newNode {w w' : World α} (hl : LinksOK w) (h : PlatesOK ins w) {kind name t parents src rg m id}
    (hn : newNode w kind name t parents src rg m = (w', .ok id)) : PlatesOK ins w' := by
  obtain ⟨rfl, h2, h3, _, _, _, h7, _, h9, h10, _, h12, _⟩ := newNode_spec hn
  constructor
  · intro a
    rw [h10]
    cases src with
    | shared b => exact h.names a
    | fresh ps =>
      simp only [PlateSrc.store]
      split
      · exact Fits.nodup h12
      · exact h.names a
  · intro i hi
    by_cases hid : i = w.size
    · subst hid
      refine ⟨[], w.srcPlates src, ?_, fun _ => rfl, ?_⟩
      · rw [World.plates, h9, h10]
        cases src <;> simp [PlateSrc.addr, PlateSrc.store, srcPlates]
      · rw [h7]; exact h12
    · have hi' : i < w.size := by omega
      obtain ⟨l, ps, e1, e2, e3⟩ := h.fits i hi'
      refine ⟨l, ps, ?_, e2, ?_⟩
      · rw [← e1, World.plates, World.plates, h3 i hid, h10]
        have := hl.plates i hi'
        cases src with
        | shared b => rfl
        | fresh ps => simp only [PlateSrc.store]; rw [if_neg (by omega)]
      · rw [h3 i hid]; exact e3

theorem PlatesOK.prim {w w' : World α} (hl : LinksOK w) (h : PlatesOK ins w) (hp : Prim ins w w') :
    PlatesOK ins w' := by
  cases hp with
  | same hs =>
    obtain ⟨s1, s2, s3, _⟩ := hs
    refine ⟨by rw [s3]; exact h.names, ?_⟩
    intro i hi
    rw [World.plates, s3, s2]
    exact h.fits i (s1 ▸ hi)
  | new _ _ hn => exact h.newNode hl hn
  | insertPlate a p hi hn =>
    constructor
    · intro b
      simp only
      split
      · simp only [List.map_cons, List.nodup_cons, List.mem_map, not_exists, not_and]
        exact ⟨fun q hq => hn q hq, h.names a⟩
      · exact h.names b
    · intro i hi'
      obtain ⟨l, ps, e1, e2, e3⟩ := h.fits i hi'
      simp only [World.plates] at e1 ⊢
      split
      · rename_i ha
        exact ⟨p :: l, ps, by rw [List.cons_append, ← e1, ha], by rw [hi]; simp, e3⟩
      · exact ⟨l, ps, e1, e2, e3⟩
  | mark x hx =>
    refine ⟨h.names, ?_⟩
    intro i hi
    have := h.fits i hi
    simp only [World.plates, World.mark] at this ⊢
    split
    · rename_i hix; subst hix; exact this
    · exact this
  | cut x hx hc =>
    refine ⟨h.names, ?_⟩
    intro i hi
    have := h.fits i hi
    simp only [World.plates, World.cut] at this ⊢
    split
    · rename_i hix; subst hix; exact this
    · exact this
  | mimic hm =>
    obtain ⟨hx, w1, hn, h2, h3, h4, h5, _, _⟩ := mimic_spec hm
    have h1 := h.newNode hl hn
    obtain ⟨_, g2, g3, _⟩ := newNode_spec hn
    refine ⟨by rw [h5]; exact h1.names, ?_⟩
    intro i hi
    have hf := h1.fits i (by omega)
    rw [World.plates, h5]
    by_cases hid : i = w.size
    · subst hid; rw [h4]; exact hf
    · rw [h3 i hid, ← g3 i hid]; exact hf

theorem PlatesOK.prims {w w' : World α} (hl : LinksOK w) (h : PlatesOK ins w) (hp : Prims ins w w') :
    PlatesOK ins w' := by
  induction hp with
  | refl => exact h
  | tail hp' hp ih => exact ih.prim (hl.prims hp') hp

theorem PlatesOK.init [Inhabited α] : PlatesOK ins (World.init : World α) := by
  constructor
  · intro a; simp [World.init]
  · intro i hi; simp [World.init] at hi

/-- Programs keep the plates in order. -/
theorem PlatesOK.exec [ValEq α] [Inhabited α] (env : Env α) (c : Cmd α) (hd : c.denotes = true → ins = true) :
    PlatesOK ins (Storch.exec env c World.init).1 :=
  PlatesOK.init.prims LinksOK.init (exec_eff env c hd World.init LinksOK.init VarsOK.init).prims

end World

end Storch
