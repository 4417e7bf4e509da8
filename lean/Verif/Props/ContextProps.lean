import Verif.Props.GraphProps

/-!
# C26 - C28: wrapper contexts
-/

namespace Storch
variable {α : Type _}
open World

/-! ### Specification -/

/-- The contexts are as they were: how deep inside deterministic functions, whether inside a stochastic
function, torch's gradient mode; and, if nothing is registered outside stochastic functions, the parents and
plates registered for sampling. -/
structure CtxKept (w w' : World α) : Prop where
  det : w'.ctxDet = w.ctxDet
  stoch : w'.ctxStoch = w.ctxStoch
  grad : w'.gradEnabled = w.gradEnabled
  links : (w.ctxStoch = false → w.stochParents = [] ∧ w.plateLinks = []) →
    w'.stochParents = w.stochParents ∧ w'.plateLinks = w.plateLinks

theorem CtxKept.rfl' {w : World α} : CtxKept w w := ⟨rfl, rfl, rfl, fun _ => ⟨rfl, rfl⟩⟩

theorem CtxKept.trans {a b c : World α} (h : CtxKept a b) (h' : CtxKept b c) : CtxKept a c := by
  refine ⟨h'.1.trans h.1, h'.2.trans h.2, h'.3.trans h.3, ?_⟩
  intro hq
  obtain ⟨h1, h2⟩ := h.4 hq
  have := h'.4 (by rw [h.2, h1, h2]; exact hq)
  exact ⟨this.1.trans h1, this.2.trans h2⟩

theorem SameVars.kept {w w' : World α} (h : SameVars w w') : CtxKept w w' :=
  ⟨h.1, h.2, h.6, fun _ => ⟨h.3, h.4⟩⟩

/-! ### The calls, from any state -/

theorem wrapOuts_vars (args : List Nat) (plates : List (Plate α)) (name : String) (os : List (Out α)) :
    ∀ sh k (w : World α), SameVars w (wrapOuts args plates name os sh k w).1 := by
  induction os with
  | nil => intro sh k w; exact SameVars.rfl'
  | cons o os ih =>
    intro sh k w
    cases o with
    | none => rw [wrapOuts]; exact ih sh k w
    | st o =>
      rw [wrapOuts]
      split
      · split
        · exact SameVars.rfl'
        · split
          · exact SameVars.rfl'
          · split
            · rename_i h; exact newNode_vars h
            · rename_i w1 id h; exact (newNode_vars h).trans (ih sh (k + 1) w1)
      · exact SameVars.rfl'
    | torch t =>
      simp only [wrapOuts]
      split
      · rename_i h; exact newNode_vars h
      · rename_i w1 id h; exact (newNode_vars h).trans (ih _ (k + 1) w1)

theorem stochOuts_vars (args : List Nat) (plates : List (Plate α)) (os : List (Out α)) :
    ∀ sh (w : World α), SameVars w (stochOuts args plates os sh w).1 := by
  induction os with
  | nil => intro sh w; exact SameVars.rfl'
  | cons o os ih =>
    intro sh w
    cases o with
    | none => exact SameVars.rfl'
    | st o =>
      rw [stochOuts]
      split
      · split
        · exact ih sh w
        · exact SameVars.rfl'
      · exact SameVars.rfl'
    | torch t =>
      simp only [stochOuts]
      split
      · rename_i h; exact newNode_vars h
      · rename_i w1 id h; exact (newNode_vars h).trans (ih _ w1)

theorem newIndep_vars (env : Env α) (w : World α) (t : Ten α) (parents : List Nat) (src : PlateSrc α)
    (tn pn : String) (wt : Option (Weight α)) : SameVars w (newIndep env w t parents src tn pn wt).1 := by
  unfold newIndep
  split
  · exact SameVars.rfl'
  · simp only
    split
    · exact SameVars.rfl'
    · split
      · exact SameVars.rfl'
      · cases src with
        | fresh ps =>
          simp only
          split
          · rename_i h; exact newNode_vars h
          · rename_i h; exact newNode_vars h
        | shared a =>
          simp only
          split
          · rename_i h; have := newNode_vars h; exact ⟨this.1, this.2, this.3, this.4, this.5, this.6, this.7, this.8, this.9, this.10⟩
          · rename_i h; have := newNode_vars h; exact ⟨this.1, this.2, this.3, this.4, this.5, this.6, this.7, this.8, this.9, this.10⟩

theorem cleanEach_vars {f : World α → Nat → Except Err (World α)}
    (hf : ∀ w x w', f w x = .ok w' → SameVars w w') (es : List (Nat × Bool)) :
    ∀ w w', cleanEach f es w = .ok w' → SameVars w w' := by
  induction es with
  | nil => intro w w' h; cases h; exact SameVars.rfl'
  | cons e es ih =>
    intro w w' h
    rw [cleanEach] at h
    split at h
    · cases h
    · rename_i w1 h1; exact (hf _ _ _ h1).trans (ih _ _ h)

theorem clean_vars (fuel : Nat) : ∀ (w : World α) x w', clean fuel w x = .ok w' → SameVars w w' := by
  induction fuel with
  | zero => intro w x w' h; cases h
  | succ fuel ih =>
    intro w x w' h
    rw [clean] at h
    split at h
    · cases h; exact SameVars.rfl'
    · split at h
      · cases h
      · rename_i w1 h1
        split at h
        · cases h
        · rename_i w2 h2
          cases h
          have g0 : SameVars w (w.mark x) := by constructor <;> rfl
          have g1 := cleanEach_vars ih _ _ _ h1
          have g2 := cleanEach_vars ih _ _ _ h2
          have g3 : SameVars w2 (w2.cut x) := by constructor <;> rfl
          exact ((g0.trans g1).trans g2).trans g3

theorem cleanAll_vars (cs : List Nat) : ∀ (w w' : World α), cleanAll cs w = .ok w' → SameVars w w' := by
  induction cs with
  | nil => intro w w' h; cases h; exact SameVars.rfl'
  | cons c cs ih =>
    intro w w' h
    rw [cleanAll] at h
    split at h
    · cases h
    · rename_i w1 h1; exact (clean_vars _ _ _ _ h1).trans (ih _ _ h)

theorem reset_kept (w : World α) : CtxKept w (reset w).1 := by
  unfold reset
  split
  · exact .rfl'
  · rename_i w1 h
    have := (SameVars.kept (cleanAll_vars _ _ _ h))
    exact ⟨this.1, this.2, this.3, this.4⟩

theorem registerCost_kept (w : World α) (t : Ten α) (parents : List Nat) (src : PlateSrc α) (name : Option String) :
    CtxKept w (registerCost w t parents src name).1 := by
  unfold registerCost
  split
  · rename_i h; exact SameVars.kept (newNode_vars h)
  · rename_i h
    have := SameVars.kept (newNode_vars h)
    simp only
    split
    · exact ⟨this.1, this.2, this.3, this.4⟩
    · exact this

theorem mimic_vars (w : World α) (x : Nat) (t : Ten α) (ps : List (Plate α)) :
    SameVars w (mimic w x t ps).1 := by
  unfold mimic
  split
  · exact SameVars.rfl'
  · split
    · exact SameVars.rfl'
    · split
      · rename_i h; exact newNode_vars h
      · rename_i h; have := newNode_vars h; exact ⟨this.1, this.2, this.3, this.4, this.5, this.6, this.7, this.8, this.9, this.10⟩

section
variable [ValEq α]

theorem detCall_kept (env : Env α) (args : List Nat) (reduced : List String) (name : String)
    {body : World α → World α × Except Err Unit} (hb : ∀ w, CtxKept w (body w).1) (outs : List (Out α)) (w : World α) :
    CtxKept w (detCall env args reduced name body outs w).1 := by
  unfold detCall
  split
  · exact .rfl'
  · split
    · exact .rfl'
    · split
      · exact .rfl'
      · split
        · exact hb w
        · have he := hb { w with ctxDet := w.ctxDet + 1 }
          have he2 : CtxKept w { (body { w with ctxDet := w.ctxDet + 1 }).1 with
              ctxDet := (body { w with ctxDet := w.ctxDet + 1 }).1.ctxDet - 1 } := by
            refine ⟨?_, he.2, he.3, he.4⟩
            have h1 := he.det
            simp only at h1 ⊢
            omega
          simp only
          split
          · exact he2
          · split
            · exact he2
            · exact he2.trans (SameVars.kept (wrapOuts_vars ..))

theorem stochCall_kept (env : Env α) (callOk : Bool) (args : List Nat)
    {body : World α → World α × Except Err Unit} (hb : ∀ w, CtxKept w (body w).1) (outs : List (Out α)) (w : World α) :
    CtxKept w (stochCall env callOk args body outs w).1 := by
  unfold stochCall
  split
  · exact .rfl'
  · split
    · exact .rfl'
    · rename_i hctx
      simp only [Bool.or_eq_true, decide_eq_true_eq, not_or, Bool.not_eq_true] at hctx
      split
      · exact .rfl'
      · split
        · exact .rfl'
        · rename_i plates _
          have he := hb { w with plateLinks := plates, stochParents := args, ctxStoch := true }
          have he2 : CtxKept w { (body { w with plateLinks := plates, stochParents := args, ctxStoch := true }).1 with
              plateLinks := [], stochParents := [], ctxStoch := false } := by
            refine ⟨he.1, hctx.1.symm, he.3, ?_⟩
            intro hq
            exact ⟨(hq hctx.1).1.symm, (hq hctx.1).2.symm⟩
          simp only
          split
          · exact he2
          · exact he2.trans (SameVars.kept (stochOuts_vars ..))

theorem sampleCall_kept (env : Env α) (s : SampleCall α)
    {body : World α → World α × Except Err Unit} (hb : ∀ w, CtxKept w (body w).1) (w : World α) :
    CtxKept w (sampleCall env s body w).1 := by
  unfold sampleCall
  split
  · exact .rfl'
  · simp only
    split
    · exact .rfl'
    · have he := hb { w with ignoreWrap := true }
      generalize body { w with ignoreWrap := true } = r at he
      obtain ⟨w1, res⟩ := r
      simp only at he
      have he1 : CtxKept w w1 := ⟨he.1, he.2, he.3, he.4⟩
      have he2 : CtxKept w { w1 with ignoreWrap := false } := ⟨he.1, he.2, he.3, he.4⟩
      simp only
      split
      · exact he1
      · split
        · exact he2
        · split
          · exact he2
          · split
            · rename_i h; exact he2.trans (SameVars.kept (newNode_vars h))
            · rename_i w2 id h
              have he3 := he2.trans (SameVars.kept (newNode_vars h))
              have he4 : CtxKept w { w2 with methods := if s.method ∈ w2.methods then w2.methods else w2.methods ++ [s.method] } :=
                ⟨he3.1, he3.2, he3.3, he3.4⟩
              split
              · exact he4
              · split
                · rename_i h'; exact he4.trans (SameVars.kept (newNode_vars h'))
                · rename_i h'; exact he4.trans (SameVars.kept (newNode_vars h'))

theorem addCost_kept (env : Env α) (w : World α) (x : Nat) (name : Option String) :
    CtxKept w (World.addCost env w x name).1 := by
  have hd := detCall_kept env [x] [] "squeeze" (body := fun w => (w, .ok ())) (fun _ => .rfl')
    [.torch (squeezeLast (w.node x).ten)] w
  unfold World.addCost
  split
  · exact .rfl'
  · simp only
    split
    · exact .rfl'
    · split
      · rename_i r w1 e hr
        split at hr
        · cases hr
        · split at hr
          · rename_i h; rw [h] at hd; cases hr; exact hd
          · rename_i h; rw [h] at hd
            split at hr <;> cases hr
            exact hd
      · rename_i r w1 c hr
        have key : CtxKept w w1 := by
          split at hr
          · cases hr; exact .rfl'
          · split at hr
            · cases hr
            · rename_i h; rw [h] at hd
              split at hr <;> cases hr
              exact hd
        split
        · exact key
        · exact key.trans (registerCost_kept ..)

/-- Whatever program runs, in whatever state, and whether it returns or raises anywhere inside: afterwards
the contexts are as they were. -/
theorem C26_contexts (env : Env α) (c : Cmd α) : ∀ w, CtxKept w (exec env c w).1 := by
  induction c with
  | skip => intro w; exact .rfl'
  | fail e => intro w; exact .rfl'
  | use ids => intro w; simp only [exec]; split <;> exact .rfl'
  | seq a b iha ihb =>
    intro w
    have ha := iha w
    simp only [exec]
    split
    · rename_i h; rw [h] at ha; exact ha
    · rename_i w1 h; rw [h] at ha; exact ha.trans (ihb w1)
  | attempt a b iha ihb =>
    intro w
    have ha := iha w
    simp only [exec]
    split
    · rename_i w1 _ h; rw [h] at ha; exact ha.trans (ihb w1)
    · rename_i h; rw [h] at ha; exact ha
  | tensor name t parents plates =>
    intro w
    simp only [exec]
    split
    · exact .rfl'
    · split
      · rename_i h; exact SameVars.kept (newNode_vars h)
      · rename_i h; exact SameVars.kept (newNode_vars h)
  | det args reduced name body outs ih => exact detCall_kept env args reduced name ih outs
  | stoch callOk args body outs ih => exact stochCall_kept env callOk args ih outs
  | ignoring body ih =>
    intro w
    have he := ih { w with ignoreWrap := true }
    simp only [exec, ignoringCall]
    split
    · rename_i h; rw [h] at he; exact ⟨he.1, he.2, he.3, he.4⟩
    · rename_i h; rw [h] at he; exact ⟨he.1, he.2, he.3, he.4⟩
  | gradMode on body ih =>
    intro w
    have he := ih { w with gradEnabled := on }
    exact ⟨he.1, he.2, rfl, he.4⟩
  | sample s body ih => exact sampleCall_kept env s ih
  | denote x dim pn wt =>
    intro w
    simp only [exec, World.denote]
    split
    · exact .rfl'
    · split
      · exact .rfl'
      · split
        · exact .rfl'
        · exact SameVars.kept (newIndep_vars ..)
  | denoteTorch t dim pn wt =>
    intro w
    simp only [exec, World.denoteTorch]
    split
    · exact .rfl'
    · split
      · exact .rfl'
      · exact SameVars.kept (newIndep_vars ..)
  | gather xs pn wt =>
    intro w
    simp only [exec, World.gather]
    split
    · exact .rfl'
    · split
      · exact .rfl'
      · split
        · exact .rfl'
        · cases xs with
          | nil => exact .rfl'
          | cons x xs => exact SameVars.kept (newIndep_vars ..)
  | gatherTorch xs pn wt =>
    intro w
    simp only [exec, World.gatherTorch]
    split
    · exact .rfl'
    · split
      · exact .rfl'
      · exact SameVars.kept (newIndep_vars ..)
  | addCost x name =>
    intro w
    have he := addCost_kept env w x name
    simp only [exec]
    generalize World.addCost env w x name = r at he
    obtain ⟨w1, res⟩ := r
    cases res with
    | error e => exact he
    | ok id => exact ⟨he.1, he.2, he.3, he.4⟩
  | addCostTorch t name =>
    intro w
    have he := registerCost_kept w t [] (.fresh []) name
    simp only [exec, World.addCostTorch]
    generalize World.registerCost w t [] (.fresh []) name = r at he
    obtain ⟨w1, res⟩ := r
    cases res with
    | error e => exact he
    | ok id => exact ⟨he.1, he.2, he.3, he.4⟩
  | mimic x t ps => intro w; exact SameVars.kept (mimic_vars ..)
  | grad ag os is gos => intro w; exact SameVars.kept (grad_exec_sameVars (ins := false) env ag os is gos w).2
  | surrogate script ih =>
    intro w
    simp only [exec, surrogateLoss]
    split
    · exact .rfl'
    · exact ih w
  | backward cg script sl late ih =>
    intro w
    have hs : CtxKept w (surrogateLoss (exec env script) w).1 := by
      simp only [surrogateLoss]
      split
      · exact .rfl'
      · exact ih w
    simp only [exec, World.backward]
    split
    · rename_i h; rw [h] at hs; exact hs
    · rename_i w1 h; rw [h] at hs
      split
      · exact hs
      · split
        · exact hs
        · split
          · exact hs
          · split
            · exact hs
            · rename_i w2 h2
              exact (hs.trans (SameVars.kept (clean_vars _ _ _ _ h2))).trans (reset_kept w2)
  | reset => exact reset_kept

end

/-- A nest of wrapped calls that raises in the innermost one. -/
def raising : Cmd Int :=
  .seq (.tensor none ⟨[], fun _ => 1⟩ [] [])
    (.det [0] [] "f" (.det [0] [] "g" (.attempt (.det [0] [] "h" (.fail .value) []) (.fail .type)) []) [])

/-- The contexts do change inside: in the body of `f` a stochastic function is rejected. -/
example : (exec plainEnv raising World.init).2 = .error .type ∧
    (exec plainEnv (.seq (.tensor none ⟨[], fun _ => 1⟩ [] [])
      (.det [0] [] "f" (.stoch true [0] .skip []) [])) World.init).2 = .error .runtime := by
  decide +kernel

/-! ### C27 -/

/-- The command `a` occurs in the program, at whatever depth. -/
inductive Occurs : Cmd α → Cmd α → Prop
  | here (c) : Occurs c c
  | seqL {a b c} : Occurs c a → Occurs c (.seq a b)
  | seqR {a b c} : Occurs c b → Occurs c (.seq a b)
  | attemptL {a b c} : Occurs c a → Occurs c (.attempt a b)
  | attemptR {a b c} : Occurs c b → Occurs c (.attempt a b)
  | det {args red name body outs c} : Occurs c body → Occurs c (.det args red name body outs)
  | stoch {ok args body outs c} : Occurs c body → Occurs c (.stoch ok args body outs)
  | ignoring {body c} : Occurs c body → Occurs c (.ignoring body)
  | gradMode {on body c} : Occurs c body → Occurs c (.gradMode on body)
  | sample {s body c} : Occurs c body → Occurs c (.sample s body)
  | surrogate {script c} : Occurs c script → Occurs c (.surrogate script)
  | backward {cg script sl late c} : Occurs c script → Occurs c (.backward cg script sl late)

/-- The program neither contains an `ignore_wrapping` block nor draws samples, which uses one. -/
def NoIgnore (p : Cmd α) : Prop :=
  (∀ body, ¬ Occurs (.ignoring body) p) ∧ ∀ s body, ¬ Occurs (.sample s body) p

section
variable [ValEq α]

theorem detCall_ignore (env : Env α) (args : List Nat) (reduced : List String) (name : String)
    {body : World α → World α × Except Err Unit} (hb : ∀ w, (body w).1.ignoreWrap = w.ignoreWrap)
    (outs : List (Out α)) (w : World α) :
    (detCall env args reduced name body outs w).1.ignoreWrap = w.ignoreWrap := by
  unfold detCall
  split
  · rfl
  · split
    · rfl
    · split
      · rfl
      · split
        · exact hb w
        · have he := hb { w with ctxDet := w.ctxDet + 1 }
          simp only
          split
          · exact he
          · split
            · exact he
            · rw [(wrapOuts_vars ..).ignoreWrap]; exact he

theorem stochCall_ignore (env : Env α) (callOk : Bool) (args : List Nat)
    {body : World α → World α × Except Err Unit} (hb : ∀ w, (body w).1.ignoreWrap = w.ignoreWrap)
    (outs : List (Out α)) (w : World α) :
    (stochCall env callOk args body outs w).1.ignoreWrap = w.ignoreWrap := by
  unfold stochCall
  split
  · rfl
  · split
    · rfl
    · split
      · rfl
      · split
        · rfl
        · rename_i plates _
          have he := hb { w with plateLinks := plates, stochParents := args, ctxStoch := true }
          simp only
          split
          · exact he
          · rw [(stochOuts_vars ..).ignoreWrap]; exact he

omit [ValEq α] in
theorem registerCost_ignore (w : World α) (t : Ten α) (parents : List Nat) (src : PlateSrc α) (name : Option String) :
    (registerCost w t parents src name).1.ignoreWrap = w.ignoreWrap := by
  unfold registerCost
  split
  · rename_i h; exact (newNode_vars h).ignoreWrap
  · rename_i h
    have := (newNode_vars h).ignoreWrap
    simp only
    split
    · exact this
    · exact this

theorem addCost_ignore (env : Env α) (w : World α) (x : Nat) (name : Option String) :
    (World.addCost env w x name).1.ignoreWrap = w.ignoreWrap := by
  have hd := detCall_ignore env [x] [] "squeeze" (body := fun w => (w, .ok ())) (fun _ => rfl)
    [.torch (squeezeLast (w.node x).ten)] w
  unfold World.addCost
  split
  · rfl
  · simp only
    split
    · rfl
    · split
      · rename_i r w1 e hr
        split at hr
        · cases hr
        · split at hr
          · rename_i h; rw [h] at hd; cases hr; exact hd
          · rename_i h; rw [h] at hd
            split at hr <;> cases hr
            exact hd
      · rename_i r w1 c hr
        have key : w1.ignoreWrap = w.ignoreWrap := by
          split at hr
          · cases hr; rfl
          · split at hr
            · cases hr
            · rename_i h; rw [h] at hd
              split at hr <;> cases hr
              exact hd
        split
        · exact key
        · rw [registerCost_ignore]; exact key

omit [ValEq α] in
theorem reset_ignore (w : World α) : (reset w).1.ignoreWrap = w.ignoreWrap := by
  unfold reset
  split
  · rfl
  · rename_i h; exact (cleanAll_vars _ _ _ h).ignoreWrap

/-- A program without `ignore_wrapping` blocks and samples keeps the flag as it is, at every point. -/
theorem ignore_kept (env : Env α) (c : Cmd α) (hc : NoIgnore c) :
    ∀ w, (exec env c w).1.ignoreWrap = w.ignoreWrap := by
  induction c with
  | skip => intro w; rfl
  | fail e => intro w; rfl
  | use ids => intro w; simp only [exec]; split <;> rfl
  | seq a b iha ihb =>
    intro w
    have ha := iha ⟨fun x h => hc.1 x (.seqL h), fun x y h => hc.2 x y (.seqL h)⟩ w
    have ihb := ihb ⟨fun x h => hc.1 x (.seqR h), fun x y h => hc.2 x y (.seqR h)⟩
    simp only [exec]
    split
    · rename_i h; rw [h] at ha; exact ha
    · rename_i w1 h; rw [h] at ha; rw [ihb w1]; exact ha
  | attempt a b iha ihb =>
    intro w
    have ha := iha ⟨fun x h => hc.1 x (.attemptL h), fun x y h => hc.2 x y (.attemptL h)⟩ w
    have ihb := ihb ⟨fun x h => hc.1 x (.attemptR h), fun x y h => hc.2 x y (.attemptR h)⟩
    simp only [exec]
    split
    · rename_i w1 _ h; rw [h] at ha; rw [ihb w1]; exact ha
    · rename_i h; rw [h] at ha; exact ha
  | tensor name t parents plates =>
    intro w
    simp only [exec]
    split
    · rfl
    · split
      · rename_i h; exact (newNode_vars h).ignoreWrap
      · rename_i h; exact (newNode_vars h).ignoreWrap
  | det args reduced name body outs ih =>
    exact detCall_ignore env args reduced name
      (ih ⟨fun x h => hc.1 x (.det h), fun x y h => hc.2 x y (.det h)⟩) outs
  | stoch callOk args body outs ih =>
    exact stochCall_ignore env callOk args
      (ih ⟨fun x h => hc.1 x (.stoch h), fun x y h => hc.2 x y (.stoch h)⟩) outs
  | ignoring body ih => exact absurd (.here _) (hc.1 body)
  | gradMode on body ih =>
    intro w
    exact ih ⟨fun x h => hc.1 x (.gradMode h), fun x y h => hc.2 x y (.gradMode h)⟩ { w with gradEnabled := on }
  | sample s body ih => exact absurd (.here _) (hc.2 s body)
  | denote x dim pn wt =>
    intro w
    simp only [exec, World.denote]
    split
    · rfl
    · split
      · rfl
      · split
        · rfl
        · exact (newIndep_vars ..).ignoreWrap
  | denoteTorch t dim pn wt =>
    intro w
    simp only [exec, World.denoteTorch]
    split
    · rfl
    · split
      · rfl
      · exact (newIndep_vars ..).ignoreWrap
  | gather xs pn wt =>
    intro w
    simp only [exec, World.gather]
    split
    · rfl
    · split
      · rfl
      · split
        · rfl
        · cases xs with
          | nil => rfl
          | cons x xs => exact (newIndep_vars ..).ignoreWrap
  | gatherTorch xs pn wt =>
    intro w
    simp only [exec, World.gatherTorch]
    split
    · rfl
    · split
      · rfl
      · exact (newIndep_vars ..).ignoreWrap
  | addCost x name =>
    intro w
    have he := addCost_ignore env w x name
    simp only [exec]
    generalize World.addCost env w x name = r at he
    obtain ⟨w1, res⟩ := r
    cases res with
    | error e => exact he
    | ok id => exact he
  | addCostTorch t name =>
    intro w
    have he := registerCost_ignore w t [] (.fresh []) name
    simp only [exec, World.addCostTorch]
    generalize World.registerCost w t [] (.fresh []) name = r at he
    obtain ⟨w1, res⟩ := r
    cases res with
    | error e => exact he
    | ok id => exact he
  | mimic x t ps => intro w; exact (mimic_vars ..).ignoreWrap
  | grad ag os is gos => intro w; exact (grad_exec_sameVars (ins := false) env ag os is gos w).2.ignoreWrap
  | surrogate script ih =>
    intro w
    simp only [exec, surrogateLoss]
    split
    · rfl
    · exact ih ⟨fun x h => hc.1 x (.surrogate h), fun x y h => hc.2 x y (.surrogate h)⟩ w
  | backward cg script sl late ih =>
    intro w
    have hs : (surrogateLoss (exec env script) w).1.ignoreWrap = w.ignoreWrap := by
      simp only [surrogateLoss]
      split
      · rfl
      · exact ih ⟨fun x h => hc.1 x (.backward h), fun x y h => hc.2 x y (.backward h)⟩ w
    simp only [exec, World.backward]
    split
    · rename_i h; rw [h] at hs; exact hs
    · rename_i w1 h; rw [h] at hs
      split
      · exact hs
      · split
        · exact hs
        · split
          · exact hs
          · split
            · exact hs
            · rename_i w2 h2
              rw [reset_ignore, (clean_vars _ _ _ _ h2).ignoreWrap]; exact hs
  | reset => exact reset_ignore

/-- Where wrapping was active before the block and the body falls through, wrapping is active afterwards,
whatever the body does; and where the body contains no further block and no sampling, wrapping is off all
through the block, so that the body runs as if the flag was simply set.
Missing from C27: bodies that raise, and blocks inside blocks (`C27_refuted`). -/
theorem C27_falls_through_partial (env : Env α) (body : Cmd α) (w w' : World α)
    (h : exec env (.ignoring body) w = (w', .ok ())) : w'.ignoreWrap = false := by
  simp only [exec, ignoringCall] at h
  split at h
  · cases h
  · cases h; rfl

theorem C27_stays_off_partial (env : Env α) (a b : Cmd α) (ha : NoIgnore a) (w w1 : World α)
    (h : exec env a { w with ignoreWrap := true } = (w1, .ok ())) :
    exec env (.ignoring (.seq a b)) w = ignoringCall (exec env b) w1 ∧ w1.ignoreWrap = true := by
  have hi := ignore_kept env a ha { w with ignoreWrap := true }
  rw [h] at hi
  refine ⟨?_, hi⟩
  simp only [exec, ignoringCall, h]
  have : { w1 with ignoreWrap := true } = w1 := by
    have hi' : w1.ignoreWrap = true := hi
    cases w1
    simp only at hi'
    subst hi'
    rfl
  rw [this]

/-- Every body that raises leaves wrapping switched off, if it contains no further block. -/
theorem C27_raises_refuted (env : Env α) (body : Cmd α) (hb : NoIgnore body) (w w' : World α) (e : Err)
    (h : exec env (.ignoring body) w = (w', .error e)) : w'.ignoreWrap = true := by
  have hi := ignore_kept env body hb { w with ignoreWrap := true }
  simp only [exec, ignoringCall] at h
  split at h
  · rename_i h1; rw [h1] at hi; cases h; exact hi
  · cases h

/-- After an inner block, the outer block no longer has an effect. -/
theorem C27_nested_refuted (env : Env α) (inner rest : Cmd α) (w w1 : World α)
    (h : exec env (.ignoring inner) { w with ignoreWrap := true } = (w1, .ok ())) :
    exec env (.ignoring (.seq (.ignoring inner) rest)) w =
      (match exec env rest w1 with
        | (w2, .error e) => (w2, .error e)
        | (w2, .ok ()) => ({ w2 with ignoreWrap := false }, .ok ())) ∧ w1.ignoreWrap = false := by
  refine ⟨?_, C27_falls_through_partial env inner _ _ h⟩
  rw [exec, ignoringCall, exec, h]
  rfl

end

/-- `try: with ignore_wrapping(): raise ValueError` / `except: pass`: afterwards wrapping is off for good.
Then `with ignore_wrapping(): (with ignore_wrapping(): pass); f(x)`: the result of `f` is wrapped, although
it is computed inside the outer block. -/
theorem C27_refuted :
    (exec plainEnv (.attempt (.ignoring (.fail .value)) .skip) World.init).1.ignoreWrap = true ∧
    (exec plainEnv (.seq (.tensor none ⟨[], fun _ => 1⟩ [] [])
      (.ignoring (.seq (.ignoring .skip) (.det [0] [] "f" .skip [.torch ⟨[], fun _ => 1⟩])))) World.init).1.size = 2 ∧
    (exec plainEnv (.seq (.tensor none ⟨[], fun _ => 1⟩ [] [])
      (.ignoring (.det [0] [] "f" .skip [.torch ⟨[], fun _ => 1⟩]))) World.init).1.size = 1 := by
  decide +kernel

/-- The hypothesis of `C27_stays_off_partial` and the other partial theorems: a body that computes with a wrapped function. -/
example : NoIgnore (α := Int) (.det [0] [] "f" .skip [.torch ⟨[], fun _ => 1⟩]) := by
  constructor
  · intro b h; cases h with | det h => cases h
  · intro s b h; cases h with | det h => cases h

/-! ### C28 -/

/-- The program with every call of a stochastic function, of `denote_independent` and of `gather_samples`,
at whatever depth, replaced by `raise RuntimeError` (after the arguments were evaluated). -/
def rejectAll : Cmd α → Cmd α
  | .stoch _ args _ _ => .seq (.use args) (.fail .runtime)
  | .denote x _ _ _ => .seq (.use [x]) (.fail .runtime)
  | .denoteTorch _ _ _ _ => .fail .runtime
  | .gather xs _ _ => .seq (.use xs) (.fail .runtime)
  | .gatherTorch _ _ _ => .fail .runtime
  | .seq a b => .seq (rejectAll a) (rejectAll b)
  | .attempt a b => .attempt (rejectAll a) (rejectAll b)
  | .det args red name body outs => .det args red name (rejectAll body) outs
  | .ignoring body => .ignoring (rejectAll body)
  | .gradMode on body => .gradMode on (rejectAll body)
  | .sample s body => .sample s (rejectAll body)
  | .surrogate script => .surrogate (rejectAll script)
  | .backward cg script sl late => .backward cg (rejectAll script) sl late
  | c => c

section
variable [ValEq α]

theorem detCall_congr (env : Env α) (args : List Nat) (reduced : List String) (name : String)
    {f g : World α → World α × Except Err Unit} (outs : List (Out α)) (w : World α)
    (h0 : args = [] → f w = g w) (h1 : f { w with ctxDet := w.ctxDet + 1 } = g { w with ctxDet := w.ctxDet + 1 }) :
    detCall env args reduced name f outs w = detCall env args reduced name g outs w := by
  unfold detCall
  simp only [h1]
  by_cases ha : args = []
  · rw [h0 ha]
  · simp only [ha, if_false]

theorem sampleCall_congr (env : Env α) (s : SampleCall α) {f g : World α → World α × Except Err Unit}
    (w : World α) (h : f { w with ignoreWrap := true } = g { w with ignoreWrap := true }) :
    sampleCall env s f w = sampleCall env s g w := by
  unfold sampleCall
  simp only [h]

/-- In a deterministic or stochastic context. -/
def InCtx (w : World α) : Prop := 0 < w.ctxDet ∨ w.ctxStoch = true

theorem rejectAll_exec (env : Env α) (c : Cmd α) : ∀ w, InCtx w → exec env (rejectAll c) w = exec env c w := by
  have hin : ∀ w : World α, InCtx w → (w.ctxStoch || decide (0 < w.ctxDet)) = true := by
    intro w h
    rcases h with h | h <;> simp [h]
  have huse : ∀ (ids : List Nat) (w : World α), exec env (.seq (.use ids) (.fail .runtime)) w =
      if ids.any (fun i => decide (w.size ≤ i)) then (w, .error .name) else (w, .error .runtime) := by
    intro ids w
    simp only [exec]
    by_cases h : ids.any (fun i => decide (w.size ≤ i)) = true
    · rw [if_pos h, if_pos h]
    · rw [if_neg h, if_neg h]
  have hkeep : ∀ (a : Cmd α) (w w1 : World α) r, InCtx w → exec env a w = (w1, r) → InCtx w1 := by
    intro a w w1 r hw h
    have := C26_contexts env a w
    rw [h] at this
    rw [InCtx, this.det, this.stoch]
    exact hw
  induction c with
  | skip => intro w _; rfl
  | fail e => intro w _; rfl
  | use ids => intro w _; rfl
  | seq a b iha ihb =>
    intro w hw
    rw [rejectAll, exec, exec, iha w hw]
    split
    · rfl
    · rename_i h; exact ihb _ (hkeep a w _ _ hw h)
  | attempt a b iha ihb =>
    intro w hw
    rw [rejectAll, exec, exec, iha w hw]
    split
    · rename_i h; exact ihb _ (hkeep a w _ _ hw h)
    · rfl
  | tensor name t parents plates => intro w _; rfl
  | det args reduced name body outs ih =>
    intro w hw
    rw [rejectAll, exec, exec]
    exact detCall_congr env args reduced name outs w (fun _ => ih w hw)
      (ih _ (Or.inl (Nat.succ_pos _)))
  | stoch callOk args body outs ih =>
    intro w hw
    rw [rejectAll, huse, exec, stochCall, hin w hw]
    rfl
  | ignoring body ih =>
    intro w hw
    rw [rejectAll, exec, exec, ignoringCall, ignoringCall, ih { w with ignoreWrap := true } hw]
  | gradMode on body ih =>
    intro w hw
    rw [rejectAll, exec, exec, ih { w with gradEnabled := on } hw]
  | sample s body ih =>
    intro w hw
    rw [rejectAll, exec, exec]
    exact sampleCall_congr env s w (ih _ hw)
  | denote x dim pn wt =>
    intro w hw
    rw [rejectAll, huse, exec, World.denote, hin w hw]
    simp
  | denoteTorch t dim pn wt =>
    intro w hw
    rw [rejectAll, exec, exec, World.denoteTorch, hin w hw]
    rfl
  | gather xs pn wt =>
    intro w hw
    rw [rejectAll, huse, exec, World.gather, hin w hw]
    rfl
  | gatherTorch xs pn wt =>
    intro w hw
    rw [rejectAll, exec, exec, World.gatherTorch, hin w hw]
    rfl
  | addCost x name => intro w _; rfl
  | addCostTorch t name => intro w _; rfl
  | mimic x t ps => intro w _; rfl
  | grad ag os is gos => intro w _; rfl
  | surrogate script ih =>
    intro w hw
    rw [rejectAll, exec, exec, surrogateLoss, surrogateLoss, ih w hw]
  | backward cg script sl late ih =>
    intro w hw
    rw [rejectAll, exec, exec, World.backward, World.backward, surrogateLoss, surrogateLoss, ih w hw]
  | reset => intro w _; rfl

/-- In the body of a deterministic function with storch arguments, and in the body of a stochastic
function, every call of a stochastic function, of `denote_independent` and of `gather_samples`, at whatever
depth, is a `raise RuntimeError` and nothing else: replacing all of them by it does not change what the
program does, in any state.
Missing from C28: sampling from a distribution, which is accepted (`C28_refuted`). -/
theorem C28_rejected_partial (env : Env α) (body : Cmd α) (outs : List (Out α)) (args : List Nat) (w : World α) :
    (args ≠ [] → ∀ red name, exec env (.det args red name body outs) w =
      exec env (.det args red name (rejectAll body) outs) w) ∧
    ∀ ok, exec env (.stoch ok args body outs) w = exec env (.stoch ok args (rejectAll body) outs) w := by
  constructor
  · intro ha red name
    rw [exec, exec]
    exact detCall_congr env args red name outs w (fun h => absurd h ha)
      (rejectAll_exec env body _ (Or.inl (Nat.succ_pos _))).symm
  · intro ok
    have h : ∀ plates, exec env (rejectAll body)
        { w with plateLinks := plates, stochParents := args, ctxStoch := true } =
        exec env body { w with plateLinks := plates, stochParents := args, ctxStoch := true } :=
      fun plates => rejectAll_exec env body _ (Or.inr rfl)
    rw [exec, exec]
    unfold stochCall
    simp only [h]

end

/-- A sample drawn in the body of the deterministic function `f(x)`. -/
def samplesInside : Cmd Int :=
  .seq (.tensor none ⟨[], fun _ => 1⟩ [] [])
    (.det [0] [] "f" (.sample ⟨[0], true, "z", 0, ⟨[2], fun _ => 1⟩, none⟩ .skip) [.none])

/-- Sampling inside a deterministic function is accepted: a stochastic tensor is added to the graph. -/
theorem C28_refuted : (exec plainEnv samplesInside World.init).2 = .ok () ∧
    (exec plainEnv samplesInside World.init).1.size = 2 ∧
    ((exec plainEnv samplesInside World.init).1.node 1).kind = .stoch ∧
    (exec plainEnv samplesInside World.init).1.kids 0 = [(1, false)] := by
  decide +kernel

/-- A case for `C28_rejected_partial`, `denote_independent` in the body of `f(x)`, after a nested call that raised: what the
program does, and that outside of `f` it is accepted. -/
example :
    let d : Cmd Int := .denote 0 0 "p" none
    let body : Cmd Int := .attempt (.det [0] [] "g" (.fail .value) []) d
    let x : Cmd Int := .tensor none ⟨[1], fun _ => 1⟩ [] []
    rejectAll body = .attempt (.det [0] [] "g" (.fail .value) []) (.seq (.use [0]) (.fail .runtime)) ∧
    (exec plainEnv (.seq x (.det [0] [] "f" body [])) World.init).2 = .error .runtime ∧
    (exec plainEnv (.seq x d) World.init).2 = .ok () := by
  refine ⟨rfl, ?_, ?_⟩ <;> decide +kernel

end Storch
