import Verif.Lemmas.CleanLemmas

/-!
# Programs as sequences of primitive changes
-/

namespace Storch
variable {α : Type _} {ins : Bool}

namespace World

/-- The context variables are the same. -/
structure SameCtx (w w' : World α) : Prop where
  ctxDet : w'.ctxDet = w.ctxDet
  ctxStoch : w'.ctxStoch = w.ctxStoch
  stochParents : w'.stochParents = w.stochParents
  plateLinks : w'.plateLinks = w.plateLinks
  gradEnabled : w'.gradEnabled = w.gradEnabled

theorem SameCtx.rfl' {w : World α} : SameCtx w w := ⟨rfl, rfl, rfl, rfl, rfl⟩

theorem SameCtx.trans {a b c : World α} (h : SameCtx a b) (h' : SameCtx b c) : SameCtx a c :=
  ⟨h'.1.trans h.1, h'.2.trans h.2, h'.3.trans h.3, h'.4.trans h.4, h'.5.trans h.5⟩

theorem SameVars.ctx {w w' : World α} (h : SameVars w w') : SameCtx w w' := ⟨h.1, h.2, h.3, h.4, h.6⟩

/-- What every command does to a good state. -/
structure Eff (ins : Bool) (w w' : World α) : Prop where
  prims : Prims ins w w'
  vars : VarsOK w'
  ctx : SameCtx w w'

/-- A state transformer with that property. -/
def BodyOK (ins : Bool) (f : World α → World α × Except Err Unit) : Prop :=
  ∀ w, LinksOK w → VarsOK w → Eff ins w (f w).1

theorem Eff.rfl' {w : World α} (h : VarsOK w) : Eff ins w w := ⟨.refl, h, SameCtx.rfl'⟩

theorem Eff.trans {a b c : World α} (h : Eff ins a b) (h' : Eff ins b c) : Eff ins a c :=
  ⟨h.prims.trans h'.prims, h'.vars, h.ctx.trans h'.ctx⟩

theorem Eff.links {a b : World α} (h : Eff ins a b) (hl : LinksOK a) : LinksOK b := hl.prims h.prims

theorem Eff.of {a b : World α} (hv : VarsOK a) (hp : Prims ins a b) (h : SameVars a b) : Eff ins a b :=
  ⟨hp, hv.mono hp.size_le h, h.ctx⟩

theorem newNode_eff {w w' : World α} {kind name t parents src rg m r} (hv : VarsOK w)
    (hp : ∀ p ∈ parents, p < w.size)
    (hs : ∀ a, src = .shared a → ∃ j, j < w.size ∧ a = (w.node j).platesAt)
    (h : newNode w kind name t parents src rg m = (w', r)) : Eff ins w w' :=
  .of hv (newNode_prims hp hs h) (newNode_vars h)

/-- A shared list of plates belongs to a tensor. -/
def Shared (w : World α) (sh : Option Nat) : Prop :=
  ∀ a, sh = some a → ∃ j, j < w.size ∧ a = (w.node j).platesAt

theorem newNode_shared {w w' : World α} {kind name t parents src rg m id}
    (h : newNode w kind name t parents src rg m = (w', .ok id)) {sh : Option Nat} (hs : Shared w sh) :
    Shared w' sh := by
  obtain ⟨h1, h2, h3, _⟩ := newNode_spec h
  intro a ha
  obtain ⟨j, hj, hja⟩ := hs a ha
  exact ⟨j, by omega, by rw [h3 j (by omega)]; exact hja⟩

section
variable [ValEq α]

omit [ValEq α] in
theorem wrapOuts_sameVars (args : List Nat) (plates : List (Plate α)) (name : String) (os : List (Out α)) :
    ∀ sh k (w : World α), (∀ p ∈ args, p < w.size) → Shared w sh → VarsOK w →
      Prims ins w (wrapOuts args plates name os sh k w).1 ∧ SameVars w (wrapOuts args plates name os sh k w).1 := by
  induction os with
  | nil => intro sh k w _ _ _; exact ⟨.refl, SameVars.rfl'⟩
  | cons o os ih =>
    intro sh k w ha hs hv
    cases o with
    | none => rw [wrapOuts]; exact ih sh k w ha hs hv
    | st o =>
      rw [wrapOuts]
      split
      · split
        · exact ⟨.refl, SameVars.rfl'⟩
        · split
          · exact ⟨.refl, SameVars.rfl'⟩
          · split
            · rename_i h; exact ⟨newNode_prims ha (by simp) h, newNode_vars h⟩
            · rename_i w1 id h
              have he := newNode_eff (ins := ins) hv ha (by simp) h
              have := ih sh (k + 1) w1 (fun p hp => lt_of_lt_of_le (ha p hp) he.prims.size_le)
                (newNode_shared h hs) he.vars
              exact ⟨he.prims.trans this.1, (newNode_vars h).trans this.2⟩
      · exact ⟨.refl, SameVars.rfl'⟩
    | torch t =>
      simp only [wrapOuts]
      have hsrc : ∀ a, (match sh with | some a => PlateSrc.shared a | .none => .fresh plates) = .shared a →
          ∃ j, j < w.size ∧ a = (w.node j).platesAt := by
        intro a h
        cases sh with
        | none => simp at h
        | some b => simp at h; exact hs a (by rw [h])
      split
      · rename_i h; exact ⟨newNode_prims ha hsrc h, newNode_vars h⟩
      · rename_i w1 id h
        have he := newNode_eff (ins := ins) hv ha hsrc h
        have := ih (some (sh.getD id)) (k + 1) w1 (fun p hp => lt_of_lt_of_le (ha p hp) he.prims.size_le)
          (by
            cases sh with
            | none =>
              obtain ⟨h1, h2, _, _, _, _, _, _, h9, _⟩ := newNode_spec h
              intro a ha
              simp only [Option.getD_none, Option.some.injEq] at ha
              exact ⟨id, by omega, by rw [h9]; exact ha.symm⟩
            | some b => exact newNode_shared h hs) he.vars
        exact ⟨he.prims.trans this.1, (newNode_vars h).trans this.2⟩

omit [ValEq α] in
theorem stochOuts_sameVars (args : List Nat) (plates : List (Plate α)) (os : List (Out α)) :
    ∀ sh (w : World α), (∀ p ∈ args, p < w.size) → Shared w sh → VarsOK w →
      Prims ins w (stochOuts args plates os sh w).1 ∧ SameVars w (stochOuts args plates os sh w).1 := by
  induction os with
  | nil => intro sh w _ _ _; exact ⟨.refl, SameVars.rfl'⟩
  | cons o os ih =>
    intro sh w ha hs hv
    cases o with
    | none => exact ⟨.refl, SameVars.rfl'⟩
    | st o =>
      rw [stochOuts]
      split
      · split
        · exact ih sh w ha hs hv
        · exact ⟨.refl, SameVars.rfl'⟩
      · exact ⟨.refl, SameVars.rfl'⟩
    | torch t =>
      simp only [stochOuts]
      have hsrc : ∀ a, (match sh with | some a => PlateSrc.shared a | .none => .fresh plates) = .shared a →
          ∃ j, j < w.size ∧ a = (w.node j).platesAt := by
        intro a h
        cases sh with
        | none => simp at h
        | some b => simp at h; exact hs a (by rw [h])
      split
      · rename_i h; exact ⟨newNode_prims ha hsrc h, newNode_vars h⟩
      · rename_i w1 id h
        have he := newNode_eff (ins := ins) hv ha hsrc h
        have := ih (some (sh.getD id)) w1 (fun p hp => lt_of_lt_of_le (ha p hp) he.prims.size_le)
          (by
            cases sh with
            | none =>
              obtain ⟨h1, h2, _, _, _, _, _, _, h9, _⟩ := newNode_spec h
              intro a ha
              simp only [Option.getD_none, Option.some.injEq] at ha
              exact ⟨id, by omega, by rw [h9]; exact ha.symm⟩
            | some b => exact newNode_shared h hs) he.vars
        exact ⟨he.prims.trans this.1, (newNode_vars h).trans this.2⟩

omit [ValEq α] in
theorem not_any_le {w : World α} {l : List Nat} (h : ¬ (l.any (fun i => decide (w.size ≤ i))) = true) :
    ∀ p ∈ l, p < w.size := by
  simpa using h

omit [ValEq α] in
/-- Changing module variables only. -/
theorem same_prims {w w' : World α} (h1 : w'.size = w.size) (h2 : w'.node = w.node)
    (h3 : w'.plateList = w.plateList) (h4 : w'.kidList = w.kidList) : Prims ins w w' :=
  .single (.same ⟨h1, h2, h3, h4⟩)

omit [ValEq α] in
theorem LinksOK.same {w w' : World α} (h : LinksOK w) (h1 : w'.size = w.size) (h2 : w'.node = w.node)
    (h3 : w'.plateList = w.plateList) (h4 : w'.kidList = w.kidList) : LinksOK w' :=
  h.prims (same_prims (ins := false) h1 h2 h3 h4)

theorem detCall_eff (env : Env α) (args : List Nat) (reduced : List String) (name : String)
    {body : World α → World α × Except Err Unit} (hb : BodyOK ins body) (outs : List (Out α)) :
    BodyOK ins (detCall env args reduced name body outs) := by
  intro w hl hv
  unfold detCall
  split
  · exact .rfl' hv
  · rename_i hargs
    have hargs := not_any_le hargs
    split
    · exact .rfl' hv
    · split
      · exact .rfl' hv
      · split
        · exact hb w hl hv
        · rename_i plates _ hne
          have he := hb { w with ctxDet := w.ctxDet + 1 } (hl.same rfl rfl rfl rfl) ⟨hv.1, hv.2, hv.3⟩
          have p1 : Prims ins w { w with ctxDet := w.ctxDet + 1 } := same_prims rfl rfl rfl rfl
          generalize hr : body { w with ctxDet := w.ctxDet + 1 } = r at he
          obtain ⟨w1, res⟩ := r
          have p2 : Prims ins w1 { w1 with ctxDet := w1.ctxDet - 1 } := same_prims rfl rfl rfl rfl
          simp only at he
          have he2 : Eff ins w { w1 with ctxDet := w1.ctxDet - 1 } := by
            refine ⟨p1.trans (he.prims.trans p2), ⟨he.vars.1, he.vars.2, he.vars.3⟩, ?_⟩
            have := he.ctx
            refine ⟨?_, this.2, this.3, this.4, this.5⟩
            have h1 := this.ctxDet
            simp only at h1 ⊢
            omega
          simp only [hr]
          split
          · exact he2
          · split
            · exact he2
            · have := wrapOuts_sameVars (ins := ins) args (plates.filter (fun q => !decide (q.name ∈ reduced))) name outs none 1
                { w1 with ctxDet := w1.ctxDet - 1 }
                (fun p hp => lt_of_lt_of_le (hargs p hp) he2.prims.size_le) (by intro a ha; cases ha) he2.vars
              exact he2.trans (.of he2.vars this.1 this.2)

theorem stochCall_eff (env : Env α) (callOk : Bool) (args : List Nat)
    {body : World α → World α × Except Err Unit} (hb : BodyOK ins body) (outs : List (Out α)) :
    BodyOK ins (stochCall env callOk args body outs) := by
  intro w hl hv
  unfold stochCall
  split
  · exact .rfl' hv
  · rename_i hargs
    have hargs := not_any_le hargs
    split
    · exact .rfl' hv
    · rename_i hctx
      simp only [Bool.or_eq_true, decide_eq_true_eq, not_or, Bool.not_eq_true] at hctx
      split
      · exact .rfl' hv
      · split
        · exact .rfl' hv
        · rename_i plates _
          have he := hb { w with plateLinks := plates, stochParents := args, ctxStoch := true }
            (hl.same rfl rfl rfl rfl) ⟨hv.1, hargs, by simp⟩
          have p1 : Prims ins w { w with plateLinks := plates, stochParents := args, ctxStoch := true } :=
            same_prims rfl rfl rfl rfl
          generalize hr : body { w with plateLinks := plates, stochParents := args, ctxStoch := true } = r at he
          obtain ⟨w1, res⟩ := r
          have p2 : Prims ins w1 { w1 with plateLinks := [], stochParents := [], ctxStoch := false } :=
            same_prims rfl rfl rfl rfl
          simp only at he
          have he2 : Eff ins w { w1 with plateLinks := [], stochParents := [], ctxStoch := false } := by
            refine ⟨p1.trans (he.prims.trans p2), ⟨he.vars.1, by simp, by simp⟩, ?_⟩
            have := he.ctx
            have hq := hv.quiet hctx.1
            exact ⟨this.1, hctx.1.symm, hq.1.symm, hq.2.symm, this.5⟩
          simp only [hr]
          split
          · exact he2
          · have := stochOuts_sameVars (ins := ins) args plates outs none
              { w1 with plateLinks := [], stochParents := [], ctxStoch := false }
              (fun p hp => lt_of_lt_of_le (hargs p hp) he2.prims.size_le) (by intro a ha; cases ha) he2.vars
            exact he2.trans (.of he2.vars this.1 this.2)

omit [ValEq α] in
theorem addParents_lt {n : Nat} (ps : List Nat) : ∀ acc, (∀ p ∈ acc, p < n) → (∀ p ∈ ps, p < n) →
    ∀ p ∈ addParents acc ps, p < n := by
  induction ps with
  | nil => intro acc h _; exact h
  | cons q ps ih =>
    intro acc h h'
    rw [addParents]
    apply ih
    · split
      · exact h
      · intro p hp
        rcases List.mem_append.1 hp with hp | hp
        · exact h p hp
        · rw [List.mem_singleton] at hp; subst hp; exact h' p (by simp)
    · intro p hp; exact h' p (by simp [hp])

theorem sampleCall_eff (env : Env α) (s : SampleCall α)
    {body : World α → World α × Except Err Unit} (hb : BodyOK ins body) : BodyOK ins (sampleCall env s body) := by
  intro w hl hv
  unfold sampleCall
  split
  · exact .rfl' hv
  · rename_i hargs
    have hargs := not_any_le hargs
    simp only
    split
    · exact .rfl' hv
    · have he := hb { w with ignoreWrap := true } (hl.same rfl rfl rfl rfl) ⟨hv.1, hv.2, hv.3⟩
      have hpar := addParents_lt s.params w.stochParents hv.parents hargs
      have p1 : Prims ins w { w with ignoreWrap := true } := same_prims rfl rfl rfl rfl
      generalize hr : body { w with ignoreWrap := true } = r at he
      obtain ⟨w1, res⟩ := r
      simp only at he
      have he1 : Eff ins w w1 := ⟨p1.trans he.prims, he.vars,
        ⟨he.ctx.1, he.ctx.2, he.ctx.3, he.ctx.4, he.ctx.5⟩⟩
      simp only
      split
      · exact he1
      · have he2 : Eff ins w { w1 with ignoreWrap := false } :=
          he1.trans ⟨same_prims rfl rfl rfl rfl, ⟨he1.vars.1, he1.vars.2, he1.vars.3⟩, ⟨rfl, rfl, rfl, rfl, rfl⟩⟩
        split
        · exact he2
        · split
          · exact he2
          · split
            · rename_i h
              exact he2.trans (newNode_eff he2.vars (fun p hp => lt_of_lt_of_le (hpar p hp) he2.prims.size_le) (by simp) h)
            · rename_i w2 id h
              have he3 := he2.trans (newNode_eff he2.vars
                (fun p hp => lt_of_lt_of_le (hpar p hp) he2.prims.size_le) (by simp) h)
              have hid := newNode_ok h
              have he4 : Eff ins w { w2 with methods := if s.method ∈ w2.methods then w2.methods else w2.methods ++ [s.method] } :=
                he3.trans ⟨same_prims rfl rfl rfl rfl, ⟨he3.vars.1, he3.vars.2, he3.vars.3⟩, ⟨rfl, rfl, rfl, rfl, rfl⟩⟩
              have hid' : id < w2.size := by rw [hid.2, hid.1]; omega
              split
              · exact he4
              · split
                · rename_i h'
                  exact he4.trans (newNode_eff he4.vars (by simpa using hid')
                    (fun a ha => ⟨id, hid', by cases ha; rfl⟩) h')
                · rename_i h'
                  exact he4.trans (newNode_eff he4.vars (by simpa using hid')
                    (fun a ha => ⟨id, hid', by cases ha; rfl⟩) h')

end

theorem newIndep_eff (env : Env α) {w : World α} (hv : VarsOK w) (t : Ten α) {parents : List Nat}
    (src : PlateSrc α) (tn pn : String) (weight : Option (Weight α)) (hp : ∀ p ∈ parents, p < w.size)
    (hs : ∀ a, src = .shared a → ins = true ∧ ∃ j, j < w.size ∧ a = (w.node j).platesAt) :
    Eff ins w (newIndep env w t parents src tn pn weight).1 := by
  unfold newIndep
  split
  · exact .rfl' hv
  · rename_i n _ _
    simp only
    split
    · exact .rfl' hv
    · rename_i hnm
      split
      · exact .rfl' hv
      · rename_i wt _
        cases src with
        | fresh ps =>
          simp only
          split
          · rename_i h; exact newNode_eff hv hp (by simp) h
          · rename_i h; exact newNode_eff hv hp (by simp) h
        | shared a =>
          simp only [srcPlates]
          have h1 : Eff ins w { w with plateList := fun b =>
              if b = a then (Plate.mk pn n wt .plain (w.plateList a) :: w.plateList a) else w.plateList b } :=
            ⟨.single (.insertPlate a _ (hs a rfl).1 (by
              intro q hq he
              exact hnm (List.any_eq_true.2 ⟨q, hq, beq_iff_eq.2 he⟩))), ⟨hv.1, hv.2, hv.3⟩, ⟨rfl, rfl, rfl, rfl, rfl⟩⟩
          have hs' := (hs a rfl).2
          split
          · rename_i h; exact h1.trans (newNode_eff h1.vars hp (fun b hb => by cases hb; exact hs') h)
          · rename_i h; exact h1.trans (newNode_eff h1.vars hp (fun b hb => by cases hb; exact hs') h)

theorem registerCost_eff {w : World α} (hv : VarsOK w) (t : Ten α) {parents : List Nat} (src : PlateSrc α)
    (name : Option String) (hp : ∀ p ∈ parents, p < w.size)
    (hs : ∀ a, src = .shared a → ∃ j, j < w.size ∧ a = (w.node j).platesAt) :
    Eff ins w (registerCost w t parents src name).1 := by
  unfold registerCost
  split
  · rename_i h; exact newNode_eff hv hp hs h
  · rename_i w1 id h
    have he := newNode_eff (ins := ins) hv hp hs h
    have hid := newNode_ok h
    simp only
    split
    · refine he.trans ⟨same_prims rfl rfl rfl rfl, ⟨?_, he.vars.2, he.vars.3⟩, ⟨rfl, rfl, rfl, rfl, rfl⟩⟩
      intro c hc
      simp only [List.mem_append, List.mem_singleton] at hc
      rcases hc with hc | rfl
      · exact he.vars.costs c hc
      · change c < w1.size; omega
    · exact he

theorem reset_eff : BodyOK ins (reset : World α → World α × Except Err Unit) := by
  intro w hl hv
  obtain ⟨w1, h1, h2⟩ := cleanAll_spec w.costs hl.pre hv.costs
  rw [reset, h1]
  have he : Eff ins w w1 := .of hv h2.prims.loosen h2.vars
  exact he.trans ⟨same_prims rfl rfl rfl rfl, ⟨by simp, he.vars.2, he.vars.3⟩, ⟨rfl, rfl, rfl, rfl, rfl⟩⟩

theorem mimic_eff {w : World α} (hv : VarsOK w) (x : Nat) (t : Ten α) (ps : List (Plate α)) :
    Eff ins w (mimic w x t ps).1 := by
  generalize h : mimic w x t ps = r
  obtain ⟨w', res⟩ := r
  cases res with
  | ok u =>
    obtain ⟨hx, w1, hn, h2, h3, h4, h5, h6, h7⟩ := mimic_spec h
    exact .of hv (.single (.mimic h)) h7
  | error e =>
    have : w' = w := by
      unfold mimic at h
      split at h
      · cases h; rfl
      · split at h
        · cases h; rfl
        · split at h
          · rename_i hn; cases h; exact newNode_error hn
          · cases h
    subst this
    exact .rfl' hv

theorem surrogateLoss_eff {script : World α → World α × Except Err Unit} (hs : BodyOK ins script) :
    BodyOK ins (surrogateLoss script) := by
  intro w hl hv
  unfold surrogateLoss
  split
  · exact .rfl' hv
  · exact hs w hl hv

theorem backward_eff (cg : Bool) {script : World α → World α × Except Err Unit} (hs : BodyOK ins script)
    (sl : Nat) (late : Option Err) : BodyOK ins (backward cg script sl late) := by
  intro w hl hv
  have he := surrogateLoss_eff hs w hl hv
  unfold backward
  generalize surrogateLoss script w = r at he
  obtain ⟨w1, res⟩ := r
  simp only at he
  cases res with
  | error e => exact he
  | ok u =>
    simp only
    split
    · exact he
    · split
      · exact he
      · split
        · exact he
        · rename_i hsl
          obtain ⟨w2, h1, h2⟩ := cleanNode_spec (he.links hl).pre (not_le.1 hsl)
          rw [h1]
          simp only
          have he2 : Eff ins w w2 := he.trans (.of he.vars h2.prims.loosen h2.vars)
          exact he2.trans (reset_eff w2 (he2.links hl) he2.vars)

end World

open World

theorem addCost_eff [ValEq α] (env : World.Env α) {w : World α} (hl : LinksOK w) (hv : VarsOK w) (x : Nat)
    (name : Option String) : Eff ins w (World.addCost env w x name).1 := by
  unfold World.addCost
  split
  · exact .rfl' hv
  · rename_i hx
    simp only
    split
    · exact .rfl' hv
    · split
      · rename_i r w1 e hr
        split at hr
        · cases hr
        · have := detCall_eff (ins := ins) env [x] [] "squeeze" (body := fun w => (w, .ok ()))
            (fun w _ hv => .rfl' hv) [.torch (squeezeLast (w.node x).ten)] w hl hv
          generalize detCall env [x] [] "squeeze" (fun w => (w, .ok ())) [.torch (squeezeLast (w.node x).ten)] w = q at *
          obtain ⟨w2, res⟩ := q
          cases res with
          | error e' => simp only [Prod.mk.injEq] at hr; rw [← hr.1]; exact this
          | ok u =>
            simp only at hr
            split at hr
            · cases hr; exact this
            · cases hr
      · rename_i r w1 c hr
        have key : Eff ins w w1 ∧ c < w1.size := by
          split at hr
          · cases hr; exact ⟨.rfl' hv, not_le.1 hx⟩
          · have := detCall_eff (ins := ins) env [x] [] "squeeze" (body := fun w => (w, .ok ()))
              (fun w _ hv => .rfl' hv) [.torch (squeezeLast (w.node x).ten)] w hl hv
            have hsz : ∀ w1, detCall env [x] [] "squeeze" (fun w => (w, .ok ()))
                [.torch (squeezeLast (w.node x).ten)] w = (w1, .ok ()) → w1.ignoreWrap = false → w.size < w1.size := by
              intro w1 h hi
              unfold detCall at h
              split at h
              · cases h
              · split at h
                · cases h
                · split at h
                  · cases h
                  · split at h
                    · rename_i hne; cases hne
                    · simp only at h
                      split at h
                      · cases h; rename_i hi'; simp only at hi; rw [hi] at hi'; cases hi'
                      · rw [wrapOuts] at h
                        split at h
                        · cases h
                        · rename_i hn
                          rw [wrapOuts] at h
                          cases h
                          have := (newNode_ok hn).2
                          simp only at this
                          omega
            generalize detCall env [x] [] "squeeze" (fun w => (w, .ok ())) [.torch (squeezeLast (w.node x).ten)] w = q at *
            obtain ⟨w2, res⟩ := q
            cases res with
            | error e' => cases hr
            | ok u =>
              simp only at hr
              split at hr
              · cases hr
              · rename_i hi
                cases hr
                exact ⟨this, hsz _ rfl (by simpa using hi)⟩
        split
        · exact key.1
        · exact key.1.trans (registerCost_eff key.1.vars _ _ _ (by simpa using key.2)
            (fun a ha => ⟨c, key.2, by cases ha; rfl⟩))

theorem gradTensor_sameVars {w w' : World α} {outputs : List Nat} {x : GArg α} {g r}
    (ho : ∀ i ∈ outputs, i < w.size) (hx : ∀ i ∈ x.ids, i < w.size)
    (h : gradTensor w outputs x g = (w', r)) : Prims ins w w' ∧ SameVars w w' := by
  have hf : ∀ a, (PlateSrc.fresh [] : PlateSrc α) = .shared a → ∃ j, j < w.size ∧ a = (w.node j).platesAt := by
    simp
  cases x with
  | st i =>
    have hi : ∀ j ∈ outputs ++ [i], j < w.size := by
      intro j hj
      rcases List.mem_append.1 hj with hj | hj
      · exact ho j hj
      · exact hx j hj
    have hs : ∀ a, (PlateSrc.shared (w.node i).platesAt : PlateSrc α) = .shared a →
        ∃ j, j < w.size ∧ a = (w.node j).platesAt := fun a ha =>
      ⟨i, hx i (by simp [GArg.ids]), by cases ha; rfl⟩
    simp only [gradTensor] at h
    split at h
    · cases h; exact ⟨.refl, SameVars.rfl'⟩
    · split at h
      · exact ⟨newNode_prims hi hs h, newNode_vars h⟩
      · split at h
        · cases h; exact ⟨.refl, SameVars.rfl'⟩
        · cases h; exact ⟨newNode_prims hi hf (Prod.mk.eta).symm, newNode_vars (Prod.mk.eta).symm⟩
  | torch t =>
    simp only [gradTensor] at h
    split at h
    · exact ⟨newNode_prims ho (by simp) h, newNode_vars h⟩
    · cases h; exact ⟨newNode_prims ho hf (Prod.mk.eta).symm, newNode_vars (Prod.mk.eta).symm⟩

theorem gradLoop_sameVars (outputs : List Nat) (xs : List (GArg α)) :
    ∀ gs (w : World α), (∀ i ∈ outputs, i < w.size) → (∀ i ∈ xs.flatMap GArg.ids, i < w.size) →
      Prims ins w (gradLoop outputs xs gs w).1 ∧ SameVars w (gradLoop outputs xs gs w).1 := by
  induction xs with
  | nil => intro gs w _ _; cases gs <;> exact ⟨.refl, SameVars.rfl'⟩
  | cons x xs ih =>
    intro gs w ho hx
    cases gs with
    | nil => exact ⟨.refl, SameVars.rfl'⟩
    | cons g gs =>
      have hx0 : ∀ i ∈ x.ids, i < w.size := fun i hi => hx i (by simp [hi])
      rw [gradLoop]
      split
      · rename_i h; exact gradTensor_sameVars ho hx0 h
      · rename_i w1 id h
        obtain ⟨h1, h2⟩ := gradTensor_sameVars (ins := ins) ho hx0 h
        have hle := h1.size_le
        obtain ⟨h3, h4⟩ := ih gs w1 (fun i hi => lt_of_lt_of_le (ho i hi) hle)
          (fun i hi => lt_of_lt_of_le (hx i (by
            rw [List.flatMap_cons]; exact List.mem_append_right _ hi)) hle)
        split
        · rename_i h'; rw [h'] at h3 h4; exact ⟨h1.trans h3, h2.trans h4⟩
        · rename_i h'; rw [h'] at h3 h4; exact ⟨h1.trans h3, h2.trans h4⟩

theorem gradCall_sameVars [ValEq α] (env : Env α) (ag : Autograd' α) (outputs : List Nat) (inputs : List (GArg α))
    (gos : Option (List (GArg α))) (w : World α) :
    Prims ins w (gradCall env ag outputs inputs gos w).1 ∧ SameVars w (gradCall env ag outputs inputs gos w).1 := by
  unfold gradCall
  split
  · exact ⟨.refl, SameVars.rfl'⟩
  · rename_i hany
    have hall := not_any_le hany
    split
    · exact ⟨.refl, SameVars.rfl'⟩
    · split
      · split
        · split
          · exact ⟨.refl, SameVars.rfl'⟩
          · exact gradLoop_sameVars outputs inputs _ w (fun i hi => hall i (by simp [hi]))
              (fun i hi => hall i (List.mem_append_left _ (List.mem_append_right _ hi)))
        · exact ⟨.refl, SameVars.rfl'⟩
      · exact ⟨.refl, SameVars.rfl'⟩

/-- What a program that calls `storch.grad` leaves alone. -/
theorem grad_exec_sameVars [ValEq α] (env : Env α) (ag : Autograd' α) (outputs : List Nat) (inputs : List (GArg α))
    (gos : Option (List (GArg α))) (w : World α) :
    Prims ins w (exec env (.grad ag outputs inputs gos) w).1 ∧ SameVars w (exec env (.grad ag outputs inputs gos) w).1 := by
  have h := gradCall_sameVars (ins := ins) env ag outputs inputs gos w
  simp only [exec]
  generalize gradCall env ag outputs inputs gos w = r at h
  obtain ⟨w1, res⟩ := r
  cases res with
  | error e => exact h
  | ok ids => exact h

/-- `denote_independent` on a storch tensor occurs in the program. -/
def Cmd.denotes : Cmd α → Bool
  | .denote _ _ _ _ => true
  | .seq a b => a.denotes || b.denotes
  | .attempt a b => a.denotes || b.denotes
  | .det _ _ _ body _ => body.denotes
  | .stoch _ _ body _ => body.denotes
  | .ignoring body => body.denotes
  | .gradMode _ body => body.denotes
  | .sample _ body => body.denotes
  | .surrogate script => script.denotes
  | .backward _ script _ _ => script.denotes
  | _ => false

/-- Every program, from every good state, is a sequence of primitive changes, keeps the module variables
in order and restores the contexts. -/
theorem exec_eff [ValEq α] (env : World.Env α) (c : Cmd α) (hd : c.denotes = true → ins = true) :
    BodyOK ins (exec env c) := by
  induction c with
  | skip => intro w hl hv; exact .rfl' hv
  | fail e => intro w hl hv; exact .rfl' hv
  | use ids => intro w hl hv; simp only [exec]; split <;> exact .rfl' hv
  | seq a b iha ihb =>
    intro w hl hv
    have ha := iha (fun h => hd (by simp [Cmd.denotes, h])) w hl hv
    simp only [exec]
    split
    · rename_i h; rw [h] at ha; exact ha
    · rename_i w1 h; rw [h] at ha; exact ha.trans (ihb (fun h => hd (by simp [Cmd.denotes, h])) w1 (ha.links hl) ha.vars)
  | attempt a b iha ihb =>
    intro w hl hv
    have ha := iha (fun h => hd (by simp [Cmd.denotes, h])) w hl hv
    simp only [exec]
    split
    · rename_i w1 _ h; rw [h] at ha; exact ha.trans (ihb (fun h => hd (by simp [Cmd.denotes, h])) w1 (ha.links hl) ha.vars)
    · rename_i h; rw [h] at ha; exact ha
  | tensor name t parents plates =>
    intro w hl hv
    simp only [exec]
    split
    · exact .rfl' hv
    · rename_i hp
      split
      · rename_i h; exact newNode_eff hv (not_any_le hp) (by simp) h
      · rename_i h; exact newNode_eff hv (not_any_le hp) (by simp) h
  | det args reduced name body outs ih => exact detCall_eff env args reduced name (ih hd) outs
  | stoch callOk args body outs ih => exact stochCall_eff env callOk args (ih hd) outs
  | ignoring body ih =>
    intro w hl hv
    simp only [exec, ignoringCall]
    have he := ih hd { w with ignoreWrap := true } (hl.same rfl rfl rfl rfl) ⟨hv.1, hv.2, hv.3⟩
    have p1 : Prims ins w { w with ignoreWrap := true } := same_prims rfl rfl rfl rfl
    generalize hr : exec env body { w with ignoreWrap := true } = r at he
    obtain ⟨w1, res⟩ := r
    have he1 : Eff ins w w1 := ⟨p1.trans he.prims, he.vars,
      ⟨he.ctx.1, he.ctx.2, he.ctx.3, he.ctx.4, he.ctx.5⟩⟩
    cases res with
    | error e => exact he1
    | ok u =>
      exact he1.trans ⟨same_prims rfl rfl rfl rfl, ⟨he1.vars.1, he1.vars.2, he1.vars.3⟩, ⟨rfl, rfl, rfl, rfl, rfl⟩⟩
  | gradMode on body ih =>
    intro w hl hv
    simp only [exec]
    have he := ih hd { w with gradEnabled := on } (hl.same rfl rfl rfl rfl) ⟨hv.1, hv.2, hv.3⟩
    have p1 : Prims ins w { w with gradEnabled := on } := same_prims rfl rfl rfl rfl
    have p2 : Prims ins (exec env body { w with gradEnabled := on }).1
      { (exec env body { w with gradEnabled := on }).1 with gradEnabled := w.gradEnabled } :=
      same_prims rfl rfl rfl rfl
    exact ⟨p1.trans (he.prims.trans p2),
      ⟨he.vars.1, he.vars.2, he.vars.3⟩, ⟨he.ctx.1, he.ctx.2, he.ctx.3, he.ctx.4, rfl⟩⟩
  | sample s body ih => exact sampleCall_eff env s (ih hd)
  | denote x dim pn wt =>
    intro w hl hv
    simp only [exec, World.denote]
    split
    · exact .rfl' hv
    · rename_i hx
      split
      · exact .rfl' hv
      · split
        · exact .rfl' hv
        · exact newIndep_eff env hv _ _ _ _ _ (by simpa using hx)
            (fun a ha => ⟨hd rfl, x, not_le.1 hx, by cases ha; rfl⟩)
  | denoteTorch t dim pn wt =>
    intro w hl hv
    simp only [exec, World.denoteTorch]
    split
    · exact .rfl' hv
    · split
      · exact .rfl' hv
      · exact newIndep_eff env hv _ _ _ _ _ (by simp) (by simp)
  | gather xs pn wt =>
    intro w hl hv
    simp only [exec, World.gather]
    split
    · exact .rfl' hv
    · rename_i hx
      split
      · exact .rfl' hv
      · split
        · exact .rfl' hv
        · cases xs with
          | nil => exact .rfl' hv
          | cons x xs => exact newIndep_eff env hv _ _ _ _ _ (not_any_le hx) (by simp)
  | gatherTorch xs pn wt =>
    intro w hl hv
    simp only [exec, World.gatherTorch]
    split
    · exact .rfl' hv
    · split
      · exact .rfl' hv
      · exact newIndep_eff env hv _ _ _ _ _ (by simp) (by simp)
  | addCost x name =>
    intro w hl hv
    have he := addCost_eff (ins := ins) env hl hv x name
    simp only [exec]
    generalize World.addCost env w x name = r at he
    obtain ⟨w1, res⟩ := r
    cases res with
    | error e => exact he
    | ok id => exact he.trans ⟨same_prims rfl rfl rfl rfl, ⟨he.vars.1, he.vars.2, he.vars.3⟩, ⟨rfl, rfl, rfl, rfl, rfl⟩⟩
  | addCostTorch t name =>
    intro w hl hv
    have he := registerCost_eff (ins := ins) hv t (.fresh []) name (parents := []) (by simp) (by simp)
    simp only [exec, World.addCostTorch]
    generalize World.registerCost w t [] (.fresh []) name = r at he
    obtain ⟨w1, res⟩ := r
    cases res with
    | error e => exact he
    | ok id => exact he.trans ⟨same_prims rfl rfl rfl rfl, ⟨he.vars.1, he.vars.2, he.vars.3⟩, ⟨rfl, rfl, rfl, rfl, rfl⟩⟩
  | mimic x t ps => intro w hl hv; exact mimic_eff hv x t ps
  | grad ag os is gos =>
    intro w hl hv
    obtain ⟨h1, h2⟩ := grad_exec_sameVars (ins := ins) env ag os is gos w
    exact ⟨h1, hv.mono h1.size_le h2, ⟨h2.1, h2.2, h2.3, h2.4, h2.6⟩⟩
  | surrogate script ih => exact surrogateLoss_eff (ih hd)
  | backward cg script sl late ih => exact backward_eff cg (ih hd) sl late
  | reset => exact reset_eff

theorem VarsOK.init [Inhabited α] : VarsOK (World.init : World α) := by
  constructor <;> simp [World.init]

/-- Every reachable state is a sequence of primitive changes away from the initial state. -/
theorem Reachable.good [ValEq α] [Inhabited α] {env : World.Env α} {w : World α} (h : Reachable env w) :
    Prims true World.init w ∧ LinksOK w ∧ VarsOK w := by
  obtain ⟨c, rfl⟩ := h
  have := exec_eff (ins := true) env c (fun _ => rfl) World.init LinksOK.init VarsOK.init
  exact ⟨this.prims, this.links LinksOK.init, this.vars⟩

end Storch
