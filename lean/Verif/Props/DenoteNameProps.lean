import Verif.Props.DenoteProps

/-!
# C98: the node that `denote_independent` and `gather_samples` make, and its name
-/

namespace Storch
variable {α : Type _}
open World

section
variable [ValEq α]

/-- What the new independent tensor is, whichever list of plates it is made with. -/
theorem newIndep_node (env : Env α) (w w' : World α) (t : Ten α) (parents : List Nat) (src : PlateSrc α)
    (tn pn : String) (wt : Option (Weight α)) (h : newIndep env w t parents src tn pn wt = (w', .ok ())) :
    w'.size = w.size + 1 ∧ (w'.node w.size).kind = .indep ∧ (w'.node w.size).name = some tn ∧
      (w'.node w.size).parents = parents.map (fun p => (p, false)) ∧ (w'.node w.size).requiresGrad = false ∧
      ∀ i < w.size, w'.node i = w.node i := by
  have key : ∀ (w1 w2 : World α) (s : PlateSrc α) (r : Nat), w1.size = w.size → w1.node = w.node →
      newNode w1 .indep (some tn) t parents s false none = (w2, .ok r) →
      w2.size = w.size + 1 ∧ (w2.node w.size).kind = .indep ∧ (w2.node w.size).name = some tn ∧
        (w2.node w.size).parents = parents.map (fun p => (p, false)) ∧ (w2.node w.size).requiresGrad = false ∧
        ∀ i < w.size, w2.node i = w.node i := by
    intro w1 w2 s r hs hn hk
    unfold newNode at hk
    split at hk
    · cases (Prod.mk.inj hk).2
    · obtain ⟨hk, -⟩ := Prod.mk.inj hk
      subst hk
      refine ⟨by simp [hs], by simp [hs], by simp [hs], by simp [hs], by simp [hs], fun i hi => ?_⟩
      simp only [hs, if_neg (Nat.ne_of_lt hi), hn]
  unfold newIndep at h
  split at h
  · cases (Prod.mk.inj h).2
  · simp only at h
    split at h
    · cases (Prod.mk.inj h).2
    · split at h
      · cases (Prod.mk.inj h).2
      · cases src with
        | fresh ps =>
          simp only at h
          split at h
          · cases (Prod.mk.inj h).2
          · rename_i hk
            obtain ⟨h, -⟩ := Prod.mk.inj h
            subst h
            refine key _ _ _ _ ?_ ?_ hk <;> rfl
        | shared a =>
          simp only at h
          split at h
          · cases (Prod.mk.inj h).2
          · rename_i hk
            obtain ⟨h, -⟩ := Prod.mk.inj h
            subst h
            refine key _ _ _ _ ?_ ?_ hk <;> rfl

/-- Whenever `denote_independent` on a storch tensor succeeds, it has made one new tensor: an independent tensor whose
only parent is the argument, called after the argument and the plate, or after the plate alone if the argument has no
name or the empty one.  The tensors there were have the same value, name and parents as before; the list of plates of
the argument is another matter (`C17_argument_refuted`). -/
theorem C98_named (env : Env α) (w w' : World α) (x dim : Nat) (pn : String) (wt : Option (Weight α))
    (h : exec env (.denote x dim pn wt) w = (w', .ok ())) :
    w'.size = w.size + 1 ∧ (w'.node w.size).kind = .indep ∧ (w'.node w.size).parents = [(x, false)] ∧
      (∀ i < w.size, w'.node i = w.node i) ∧
      (∀ s, (w.node x).name = some s → s ≠ "" → (w'.node w.size).name = some (s ++ "_indep_" ++ pn)) ∧
      ((w.node x).name = none ∨ (w.node x).name = some "" → (w'.node w.size).name = some pn) := by
  simp only [exec, World.denote] at h
  split at h
  · cases (Prod.mk.inj h).2
  · split at h
    · cases (Prod.mk.inj h).2
    · split at h
      · cases (Prod.mk.inj h).2
      · obtain ⟨h1, h2, h3, h4, -, h6⟩ := newIndep_node env w w' _ _ _ _ _ _ h
        refine ⟨h1, h2, h4, h6, fun s hs hne => ?_, fun hn => ?_⟩
        · rw [h3, hs, indepName, if_neg hne]
        · rcases hn with hn | hn
          · rw [h3, hn]
            rfl
          · rw [h3, hn]
            rfl

/-- Whenever `denote_independent` on a torch tensor succeeds, the new tensor has no parents and the name of the
plate. -/
theorem C98_torch_named (env : Env α) (w w' : World α) (t : Ten α) (dim : Nat) (pn : String) (wt : Option (Weight α))
    (h : exec env (.denoteTorch t dim pn wt) w = (w', .ok ())) :
    w'.size = w.size + 1 ∧ (w'.node w.size).kind = .indep ∧ (w'.node w.size).parents = [] ∧
      (∀ i < w.size, w'.node i = w.node i) ∧ (w'.node w.size).name = some pn := by
  simp only [exec, World.denoteTorch] at h
  split at h
  · cases (Prod.mk.inj h).2
  · split at h
    · cases (Prod.mk.inj h).2
    · obtain ⟨h1, h2, h3, h4, -, h6⟩ := newIndep_node env w w' _ _ _ _ _ _ h
      exact ⟨h1, h2, h4, h6, h3⟩

/-- Whenever `gather_samples` on storch tensors succeeds, the list has a first sample, the parents of the new tensor
are exactly the gathered samples in their order, and it is called after the first sample and the plate. -/
theorem C16_named (env : Env α) (w w' : World α) (xs : List Nat) (pn : String) (wt : Option (Weight α))
    (h : exec env (.gather xs pn wt) w = (w', .ok ())) :
    ∃ x rest, xs = x :: rest ∧ w'.size = w.size + 1 ∧ (w'.node w.size).kind = .indep ∧
      (w'.node w.size).parents = xs.map (fun p => (p, false)) ∧
      (∀ i < w.size, w'.node i = w.node i) ∧
      (∀ s, (w.node x).name = some s → s ≠ "" → (w'.node w.size).name = some (s ++ "_indep_" ++ pn)) ∧
      ((w.node x).name = none ∨ (w.node x).name = some "" → (w'.node w.size).name = some pn) := by
  simp only [exec, World.gather] at h
  split at h
  · cases (Prod.mk.inj h).2
  · split at h
    · cases (Prod.mk.inj h).2
    · split at h
      · cases (Prod.mk.inj h).2
      · cases xs with
        | nil => cases (Prod.mk.inj h).2
        | cons x rest =>
          obtain ⟨h1, h2, h3, h4, -, h6⟩ := newIndep_node env w w' _ _ _ _ _ _ h
          refine ⟨x, rest, rfl, h1, h2, h4, h6, fun s hs hne => ?_, fun hn => ?_⟩
          · rw [h3, hs, indepName, if_neg hne]
          · rcases hn with hn | hn
            · rw [h3, hn]
              rfl
            · rw [h3, hn]
              rfl

end

/-- A case for `C98_named`: the call succeeds on `oneRow`, whose tensor is called `a`. -/
example : let w := (exec plainEnv oneRow World.init).1
    let r := exec plainEnv (.denote 0 1 "s" none) w
    r.2 = .ok () ∧ (w.node 0).name = some "a" ∧ (r.1.node 1).name = some "a_indep_s" ∧
      (r.1.node 1).parents = [(0, false)] := by decide +kernel

/-- A case for `C98_torch_named`. -/
example : let r := exec plainEnv (.denoteTorch ⟨[2, 3], fun i => 10 * i.getD 0 0 + i.getD 1 0⟩ 1 "s" none) World.init
    r.2 = .ok () ∧ (r.1.node 0).name = some "s" ∧ (r.1.node 0).parents = [] := by decide +kernel

/-- A case for `C16_named`: two tensors of the same shape are gathered. -/
example : let w := (exec plainEnv (.seq oneRow oneRow) World.init).1
    let r := exec plainEnv (.gather [1, 0] "s" none) w
    r.2 = .ok () ∧ (r.1.node 2).name = some "a_indep_s" ∧ (r.1.node 2).parents = [(1, false), (0, false)] := by
  decide +kernel

end Storch
