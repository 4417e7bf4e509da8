import Verif.Props.ContextProps

/-!
# C29, C30: the cost registry and backward
-/

namespace Storch
variable {α : Type _}
open World

/-! ### Specification -/

/-- The costs accepted while gradients were enabled since the last reset, in call order, according to the
observer's notes. -/
def accepted : List Event → List Nat
  | [] => []
  | .didReset :: es => accepted es
  | .addedCost id grad :: es =>
    if Event.didReset ∈ es then accepted es
    else if grad then id :: accepted es
    else accepted es

theorem accepted_append_reset (es : List Event) : accepted (es ++ [.didReset]) = [] := by
  induction es with
  | nil => rfl
  | cons e es ih =>
    cases e with
    | addedCost id g => rw [List.cons_append, accepted, if_pos (by simp), ih]
    | didReset => rw [List.cons_append, accepted, ih]

theorem accepted_append_cost (es : List Event) (id : Nat) (g : Bool) :
    accepted (es ++ [.addedCost id g]) = accepted es ++ (if g then [id] else []) := by
  induction es with
  | nil => cases g <;> rfl
  | cons e es ih =>
    cases e with
    | addedCost id' g' =>
      rw [List.cons_append, accepted, accepted]
      by_cases h : Event.didReset ∈ es
      · rw [if_pos (by simp [h]), if_pos h, ih]
      · rw [if_neg (by simp [h]), if_neg h, ih]
        cases g' <;> simp
    | didReset => rw [List.cons_append, accepted, accepted, ih]

/-- The registry agrees with the notes. -/
def Agrees (w : World α) : Prop := w.costs = accepted w.log

theorem Agrees.of_same {w w' : World α} (h : Agrees w) (hc : w'.costs = w.costs) (hl : w'.log = w.log) :
    Agrees w' := by rw [Agrees, hc, hl]; exact h

theorem SameVars.agrees {w w' : World α} (h : SameVars w w') (ha : Agrees w) : Agrees w' :=
  ha.of_same h.costs h.log

theorem registerCost_ok {w w' : World α} {t : Ten α} {parents src name id}
    (h : registerCost w t parents src name = (w', .ok id)) :
    w'.costs = w.costs ++ (if w.gradEnabled then [id] else []) ∧ w'.log = w.log := by
  unfold registerCost at h
  split at h
  · cases h
  · rename_i w1 id' hn
    have hv := newNode_vars hn
    cases h
    rw [hv.gradEnabled]
    split
    · exact ⟨by rw [hv.costs], hv.log⟩
    · exact ⟨by rw [hv.costs, List.append_nil], hv.log⟩

theorem registerCost_error {w w' : World α} {t : Ten α} {parents src name e}
    (h : registerCost w t parents src name = (w', .error e)) : w' = w := by
  unfold registerCost at h
  split at h
  · rename_i hn; cases h; exact newNode_error hn
  · cases h

section
variable [ValEq α]

theorem detCall_skip_vars (env : Env α) (args : List Nat) (reduced : List String) (name : String)
    (outs : List (Out α)) (w : World α) :
    SameVars w (detCall env args reduced name (fun w => (w, .ok ())) outs w).1 := by
  unfold detCall
  split
  · exact SameVars.rfl'
  · split
    · exact SameVars.rfl'
    · split
      · exact SameVars.rfl'
      · split
        · exact SameVars.rfl'
        · have h0 : SameVars w { w with ctxDet := w.ctxDet + 1 - 1 } := by constructor <;> rfl
          simp only
          split
          · exact h0
          · exact h0.trans (wrapOuts_vars ..)

/-- What `add_cost` does before it registers the cost. -/
theorem addCost_cases (env : Env α) (w : World α) (x : Nat) (name : Option String) :
    (∃ w1 e, World.addCost env w x name = (w1, .error e) ∧ SameVars w w1) ∨
    ∃ w1 c, World.addCost env w x name = registerCost w1 (w1.node c).ten [c] (.shared (w1.node c).platesAt) name ∧
      SameVars w w1 := by
  have hd := detCall_skip_vars env [x] [] "squeeze" [.torch (squeezeLast (w.node x).ten)] w
  unfold World.addCost
  split
  · exact Or.inl ⟨_, _, rfl, SameVars.rfl'⟩
  · simp only
    split
    · exact Or.inl ⟨_, _, rfl, SameVars.rfl'⟩
    · split
      · rename_i r w1 e hr
        left
        refine ⟨w1, e, rfl, ?_⟩
        split at hr
        · cases hr
        · split at hr
          · rename_i h; rw [h] at hd; cases hr; exact hd
          · rename_i h; rw [h] at hd
            split at hr <;> cases hr
            exact hd
      · rename_i r w1 c hr
        have key : SameVars w w1 := by
          split at hr
          · cases hr; exact SameVars.rfl'
          · split at hr
            · cases hr
            · rename_i h; rw [h] at hd
              split at hr <;> cases hr
              exact hd
        split
        · exact Or.inl ⟨_, _, rfl, key⟩
        · exact Or.inr ⟨_, _, rfl, key⟩

omit [ValEq α] in
theorem reset_agrees (w : World α) (h : Agrees w) : Agrees (reset w).1 := by
  unfold reset
  split
  · exact h
  · rw [Agrees]; exact (accepted_append_reset _).symm

theorem exec_agrees (env : Env α) (c : Cmd α) : ∀ w, Agrees w → Agrees (exec env c w).1 := by
  induction c with
  | skip => intro w h; exact h
  | fail e => intro w h; exact h
  | use ids => intro w h; simp only [exec]; split <;> exact h
  | seq a b iha ihb =>
    intro w hw
    have ha := iha w hw
    simp only [exec]
    split
    · rename_i h; rw [h] at ha; exact ha
    · rename_i w1 h; rw [h] at ha; exact ihb w1 ha
  | attempt a b iha ihb =>
    intro w hw
    have ha := iha w hw
    simp only [exec]
    split
    · rename_i w1 _ h; rw [h] at ha; exact ihb w1 ha
    · rename_i h; rw [h] at ha; exact ha
  | tensor name t parents plates =>
    intro w hw
    simp only [exec]
    split
    · exact hw
    · split
      · rename_i h; exact SameVars.agrees (newNode_vars h) hw
      · rename_i h; exact SameVars.agrees (newNode_vars h) hw
  | det args reduced name body outs ih =>
    intro w hw
    simp only [exec]
    unfold detCall
    split
    · exact hw
    · split
      · exact hw
      · split
        · exact hw
        · split
          · exact ih w hw
          · have he := ih { w with ctxDet := w.ctxDet + 1 } hw
            simp only
            split
            · exact he
            · split
              · exact he
              · exact SameVars.agrees (wrapOuts_vars ..) he
  | stoch callOk args body outs ih =>
    intro w hw
    simp only [exec]
    unfold stochCall
    split
    · exact hw
    · split
      · exact hw
      · split
        · exact hw
        · split
          · exact hw
          · rename_i plates _
            have he := ih { w with plateLinks := plates, stochParents := args, ctxStoch := true } hw
            simp only
            split
            · exact he
            · exact SameVars.agrees (stochOuts_vars ..) he
  | ignoring body ih =>
    intro w hw
    have he := ih { w with ignoreWrap := true } hw
    simp only [exec, ignoringCall]
    split
    · rename_i h; rw [h] at he; exact he
    · rename_i h; rw [h] at he; exact he
  | gradMode on body ih => intro w hw; exact ih { w with gradEnabled := on } hw
  | sample s body ih =>
    intro w hw
    simp only [exec]
    unfold sampleCall
    split
    · exact hw
    · simp only
      split
      · exact hw
      · have he := ih { w with ignoreWrap := true } hw
        generalize exec env body { w with ignoreWrap := true } = r at he
        obtain ⟨w1, res⟩ := r
        simp only at he
        have he2 : Agrees { w1 with ignoreWrap := false } := he
        simp only
        split
        · exact he
        · split
          · exact he2
          · split
            · exact he2
            · split
              · rename_i h; exact SameVars.agrees (newNode_vars h) he2
              · rename_i w2 id h
                have he3 := SameVars.agrees (newNode_vars h) he2
                have he4 : Agrees { w2 with methods := if s.method ∈ w2.methods then w2.methods else w2.methods ++ [s.method] } := he3
                split
                · exact he4
                · split
                  · rename_i h'; exact SameVars.agrees (newNode_vars h') he4
                  · rename_i h'; exact SameVars.agrees (newNode_vars h') he4
  | denote x dim pn wt =>
    intro w hw
    simp only [exec, World.denote]
    split
    · exact hw
    · split
      · exact hw
      · split
        · exact hw
        · exact SameVars.agrees (newIndep_vars ..) hw
  | denoteTorch t dim pn wt =>
    intro w hw
    simp only [exec, World.denoteTorch]
    split
    · exact hw
    · split
      · exact hw
      · exact SameVars.agrees (newIndep_vars ..) hw
  | gather xs pn wt =>
    intro w hw
    simp only [exec, World.gather]
    split
    · exact hw
    · split
      · exact hw
      · split
        · exact hw
        · cases xs with
          | nil => exact hw
          | cons x xs => exact SameVars.agrees (newIndep_vars ..) hw
  | gatherTorch xs pn wt =>
    intro w hw
    simp only [exec, World.gatherTorch]
    split
    · exact hw
    · split
      · exact hw
      · exact SameVars.agrees (newIndep_vars ..) hw
  | addCost x name =>
    intro w hw
    simp only [exec]
    rcases addCost_cases env w x name with ⟨w1, e, h1, h2⟩ | ⟨w1, c, h1, h2⟩
    · rw [h1]; exact SameVars.agrees h2 hw
    · rw [h1]
      have h3 := SameVars.agrees h2 hw
      generalize h4 : registerCost w1 (w1.node c).ten [c] (.shared (w1.node c).platesAt) name = r
      obtain ⟨w2, res⟩ := r
      cases res with
      | error e => rw [registerCost_error h4]; exact h3
      | ok id =>
        obtain ⟨h5, h6⟩ := registerCost_ok h4
        show w2.costs = accepted (w2.log ++ [.addedCost id w.gradEnabled])
        rw [accepted_append_cost, h5, h6, ← h2.gradEnabled, h3]
  | addCostTorch t name =>
    intro w hw
    simp only [exec, World.addCostTorch]
    generalize h4 : World.registerCost w t [] (.fresh []) name = r
    obtain ⟨w2, res⟩ := r
    cases res with
    | error e => rw [registerCost_error h4]; exact hw
    | ok id =>
      obtain ⟨h5, h6⟩ := registerCost_ok h4
      show w2.costs = accepted (w2.log ++ [.addedCost id w.gradEnabled])
      rw [accepted_append_cost, h5, h6, hw]
  | mimic x t ps => intro w hw; exact SameVars.agrees (mimic_vars ..) hw
  | grad ag os is gos => intro w hw; exact SameVars.agrees (grad_exec_sameVars (ins := false) env ag os is gos w).2 hw
  | surrogate script ih =>
    intro w hw
    simp only [exec, surrogateLoss]
    split
    · exact hw
    · exact ih w hw
  | backward cg script sl late ih =>
    intro w hw
    have hs : Agrees (surrogateLoss (exec env script) w).1 := by
      simp only [surrogateLoss]
      split
      · exact hw
      · exact ih w hw
    simp only [exec, World.backward]
    split
    · rename_i h; rw [h] at hs; exact hs
    · rename_i w1 h; rw [h] at hs
      split
      · exact hs
      · split
        · exact hs
        · split
          · exact hs
          · split
            · exact hs
            · rename_i w2 h2
              exact reset_agrees w2 (SameVars.agrees (clean_vars _ _ _ _ h2) hs)
  | reset => exact reset_agrees

/-- In every reachable state the registry is the list of the costs accepted while gradients were enabled
since the last reset, in call order. -/
theorem C29_registry [Inhabited α] (env : Env α) (w : World α) (hr : Reachable env w) :
    w.costs = accepted w.log := by
  obtain ⟨c, rfl⟩ := hr
  exact exec_agrees env c World.init rfl

/-- A rejected call changes nothing in the registry, nor in any other module variable. -/
theorem C29_rejected (env : Env α) (w w' : World α) (x : Nat) (name : Option String) (e : Err)
    (h : exec env (.addCost x name) w = (w', .error e)) : w'.costs = w.costs ∧ SameVars w w' := by
  simp only [exec] at h
  rcases addCost_cases env w x name with ⟨w1, e', h1, h2⟩ | ⟨w1, c, h1, h2⟩
  · rw [h1, noteCost] at h; cases h; exact ⟨h2.costs, h2⟩
  · rw [h1] at h
    generalize h4 : registerCost w1 (w1.node c).ten [c] (.shared (w1.node c).platesAt) name = r at h
    obtain ⟨w2, res⟩ := r
    cases res with
    | error e' =>
      rw [noteCost] at h; cases h
      rw [registerCost_error h4]; exact ⟨h2.costs, h2⟩
    | ok id => rw [noteCost] at h; cases h

/-- Which calls are rejected: a cost with an event shape other than `()` and `(1,)`, and one without a
name.  An unnamed torch tensor is accepted. -/
theorem C29_value_errors (env : Env α) (w : World α) (x : Nat) (hx : x < w.size) (name : Option String)
    (h : ((w.sten x).eventShape ≠ [] ∧ (w.sten x).eventShape ≠ [1]) ∨
      ((w.sten x).eventShape = [] ∧ (name = none ∨ name = some ""))) :
    exec env (.addCost x name) w = (w, .error .value) := by
  simp only [exec, World.addCost]
  rw [if_neg (not_le.2 hx)]
  rcases h with h | ⟨h1, h2⟩
  · rw [if_pos h]; rfl
  · rw [if_neg (by simp [h1]), if_pos h1]
    simp only [if_pos h2]
    rfl

/-- An accepted cost is a new tensor with the very tensor and plates of the argument, the given name, and
the argument as only parent; it is registered exactly if gradients are enabled. -/
theorem C29_accepted (env : Env α) (w : World α) (x : Nat) (hx : x < w.size) (name : String) (hn : name ≠ "")
    (hs : (w.sten x).eventShape = []) (d : Nat)
    (hfit : STen.checkPlates (w.node x).ten.shape (w.plates x) [] 0 = .ok d) :
    ∃ w', exec env (.addCost x (some name)) w = (w', .ok ()) ∧ w'.size = w.size + 1 ∧
      (w'.node w.size).kind = .cost ∧ (w'.node w.size).ten = (w.node x).ten ∧
      (w'.node w.size).name = some name ∧ w'.plates w.size = w.plates x ∧
      (w'.node w.size).parents = [(x, false)] ∧
      w'.costs = w.costs ++ (if w.gradEnabled then [w.size] else []) ∧
      w'.log = w.log ++ [.addedCost w.size w.gradEnabled] := by
  simp only [exec, World.addCost]
  rw [if_neg (not_le.2 hx), if_neg (by simp [hs]), if_pos hs]
  simp only [if_neg (show ¬ (some name = none ∨ some name = some "") by simp [hn])]
  generalize h4 : registerCost w (w.node x).ten [x] (.shared (w.node x).platesAt) (some name) = r
  obtain ⟨w2, res⟩ := r
  have h4' := h4
  unfold registerCost at h4
  split at h4
  · rename_i hnn
    unfold newNode at hnn
    rw [srcPlates, show w.plateList (w.node x).platesAt = w.plates x from rfl, hfit] at hnn
    cases hnn
  · rename_i w1 id hnn
    obtain ⟨g1, g2, g3, g4, g5, g6, g7, g8, g9, g10, g11, g12, g13, _⟩ := newNode_spec hnn
    subst g1
    simp only [Prod.mk.injEq] at h4
    obtain ⟨hw2, rfl⟩ := h4
    obtain ⟨h5, h6⟩ := registerCost_ok h4'
    have hnode : w2.node = w1.node := by rw [← hw2]; split <;> rfl
    have hpl : w2.plateList = w1.plateList := by rw [← hw2]; split <;> rfl
    have hsz : w2.size = w1.size := by rw [← hw2]; split <;> rfl
    refine ⟨_, rfl, hsz.trans g2, ?_, ?_, ?_, ?_, ?_, h5, ?_⟩
    · simp only [hnode, g8]
    · simp only [hnode, g7]
    · simp only [hnode, g13]
    · simp only [World.plates, hnode, hpl, g9, g10, PlateSrc.addr, PlateSrc.store]
    · simp only [hnode, g4]; rfl
    · simp only [h6]

end

/-- Costs: accepted, accepted without gradients, rejected for their shape, rejected for want of a name,
accepted. -/
def fiveCosts : Cmd Int :=
  .seq (.tensor none ⟨[], fun _ => 1⟩ [] []) <|
  .seq (.tensor none ⟨[2], fun _ => 1⟩ [] []) <|
  .seq (.addCost 0 (some "a")) <|
  .seq (.gradMode false (.addCost 0 (some "b"))) <|
  .seq (.attempt (.addCost 1 (some "c")) .skip) <|
  .seq (.attempt (.addCost 0 none) .skip) <|
  .addCostTorch ⟨[], fun _ => 5⟩ none

/-- A case for `C29_rejected` and `C29_value_errors`: a vector of two, and a scalar without a name. -/
example : let w := (exec plainEnv (.seq (.tensor none ⟨[2], fun _ => 1⟩ [] []) (.tensor none ⟨[], fun _ => 1⟩ [] []) :
      Cmd Int) World.init).1
    (exec plainEnv (.addCost 0 (some "c")) w).2 = .error .value ∧ (exec plainEnv (.addCost 1 none) w).2 = .error .value := by
  decide +kernel

/-- The hypotheses of `C29_accepted` hold after creating a scalar. -/
example : let w := (exec plainEnv (.tensor none ⟨[], fun _ => 1⟩ [] [] : Cmd Int) World.init).1
    0 < w.size ∧ (w.sten 0).eventShape = [] ∧ STen.checkPlates (w.node 0).ten.shape (w.plates 0) [] 0 = .ok 0 := by
  decide +kernel

/-- A case for `C29_registry`: the registry after `fiveCosts` holds the first and the last. -/
example : (exec plainEnv fiveCosts World.init).1.costs = [2, 4] ∧
    (exec plainEnv fiveCosts World.init).1.log = [.addedCost 2 true, .addedCost 3 false, .addedCost 4 true] := by
  decide +kernel

/-! ### C30 -/

/-- The program does not itself add costs, reset or run backward; this holds for everything that
`surrogate_loss` runs, unless an estimator was written to do so. -/
def LeavesCosts (p : Cmd α) : Prop :=
  (∀ x n, ¬ Occurs (.addCost x n) p) ∧ (∀ t n, ¬ Occurs (.addCostTorch t n) p) ∧ ¬ Occurs .reset p ∧
    ∀ cg s sl l, ¬ Occurs (.backward cg s sl l) p

theorem LeavesCosts.sub {p q : Cmd α} (h : LeavesCosts p) (hq : ∀ c, Occurs c q → Occurs c p) : LeavesCosts q :=
  ⟨fun x n ho => h.1 x n (hq _ ho), fun x n ho => h.2.1 x n (hq _ ho), fun ho => h.2.2.1 (hq _ ho),
    fun a b c d ho => h.2.2.2 a b c d (hq _ ho)⟩

section
variable [ValEq α]

theorem leavesCosts_exec (env : Env α) (c : Cmd α) (hc : LeavesCosts c) :
    ∀ w, (exec env c w).1.costs = w.costs := by
  induction c with
  | skip => intro w; rfl
  | fail e => intro w; rfl
  | use ids => intro w; simp only [exec]; split <;> rfl
  | seq a b iha ihb =>
    intro w
    have ha := iha (hc.sub fun _ => .seqL) w
    simp only [exec]
    split
    · rename_i h; rw [h] at ha; exact ha
    · rename_i w1 h; rw [h] at ha; rw [ihb (hc.sub fun _ => .seqR) w1]; exact ha
  | attempt a b iha ihb =>
    intro w
    have ha := iha (hc.sub fun _ => .attemptL) w
    simp only [exec]
    split
    · rename_i w1 _ h; rw [h] at ha; rw [ihb (hc.sub fun _ => .attemptR) w1]; exact ha
    · rename_i h; rw [h] at ha; exact ha
  | tensor name t parents plates =>
    intro w
    simp only [exec]
    split
    · rfl
    · split
      · rename_i h; exact (newNode_vars h).costs
      · rename_i h; exact (newNode_vars h).costs
  | det args reduced name body outs ih =>
    intro w
    have ih := ih (hc.sub fun _ => .det)
    simp only [exec]
    unfold detCall
    split
    · rfl
    · split
      · rfl
      · split
        · rfl
        · split
          · exact ih w
          · have he := ih { w with ctxDet := w.ctxDet + 1 }
            simp only
            split
            · exact he
            · split
              · exact he
              · rw [(wrapOuts_vars ..).costs]; exact he
  | stoch callOk args body outs ih =>
    intro w
    have ih := ih (hc.sub fun _ => .stoch)
    simp only [exec]
    unfold stochCall
    split
    · rfl
    · split
      · rfl
      · split
        · rfl
        · split
          · rfl
          · rename_i plates _
            have he := ih { w with plateLinks := plates, stochParents := args, ctxStoch := true }
            simp only
            split
            · exact he
            · rw [(stochOuts_vars ..).costs]; exact he
  | ignoring body ih =>
    intro w
    have he := ih (hc.sub fun _ => .ignoring) { w with ignoreWrap := true }
    simp only [exec, ignoringCall]
    split
    · rename_i h; rw [h] at he; exact he
    · rename_i h; rw [h] at he; exact he
  | gradMode on body ih => intro w; exact ih (hc.sub fun _ => .gradMode) { w with gradEnabled := on }
  | sample s body ih =>
    intro w
    have ih := ih (hc.sub fun _ => .sample)
    simp only [exec]
    unfold sampleCall
    split
    · rfl
    · simp only
      split
      · rfl
      · have he := ih { w with ignoreWrap := true }
        generalize exec env body { w with ignoreWrap := true } = r at he
        obtain ⟨w1, res⟩ := r
        simp only at he
        simp only
        split
        · exact he
        · split
          · exact he
          · split
            · exact he
            · split
              · rename_i h; rw [(newNode_vars h).costs]; exact he
              · rename_i w2 id h
                have he3 : w2.costs = w.costs := by rw [(newNode_vars h).costs]; exact he
                split
                · exact he3
                · split
                  · rename_i h'; rw [(newNode_vars h').costs]; exact he3
                  · rename_i h'; rw [(newNode_vars h').costs]; exact he3
  | denote x dim pn wt =>
    intro w
    simp only [exec, World.denote]
    split
    · rfl
    · split
      · rfl
      · split
        · rfl
        · exact (newIndep_vars ..).costs
  | denoteTorch t dim pn wt =>
    intro w
    simp only [exec, World.denoteTorch]
    split
    · rfl
    · split
      · rfl
      · exact (newIndep_vars ..).costs
  | gather xs pn wt =>
    intro w
    simp only [exec, World.gather]
    split
    · rfl
    · split
      · rfl
      · split
        · rfl
        · cases xs with
          | nil => rfl
          | cons x xs => exact (newIndep_vars ..).costs
  | gatherTorch xs pn wt =>
    intro w
    simp only [exec, World.gatherTorch]
    split
    · rfl
    · split
      · rfl
      · exact (newIndep_vars ..).costs
  | addCost x name => exact absurd (.here _) (hc.1 x name)
  | addCostTorch t name => exact absurd (.here _) (hc.2.1 t name)
  | mimic x t ps => intro w; exact (mimic_vars ..).costs
  | grad ag os is gos => intro w; exact (grad_exec_sameVars (ins := false) env ag os is gos w).2.costs
  | surrogate script ih =>
    intro w
    simp only [exec, surrogateLoss]
    split
    · rfl
    · exact ih (hc.sub fun _ => .surrogate) w
  | backward cg script sl late ih => exact absurd (.here _) (hc.2.2.2 cg script sl late)
  | reset => exact absurd (.here _) hc.2.2.1

/-- After a completed `backward()` no cost is registered, and a further backward raises RuntimeError and
changes nothing. -/
theorem C30_slate (env : Env α) (w w' : World α) (script : Cmd α) (sl : Nat) (late : Option Err)
    (h : exec env (.backward false script sl late) w = (w', .ok ())) :
    w'.costs = [] ∧ ∀ cg script' sl' late',
      exec env (.backward cg script' sl' late') w' = (w', .error .runtime) := by
  obtain ⟨w1, w2, _, _, _, _, _, h5⟩ := backward_false_ok h
  have hc : w'.costs = [] := by
    unfold reset at h5
    split at h5 <;> cases h5
    rfl
  refine ⟨hc, ?_⟩
  intro cg script' sl' late'
  simp only [exec, World.backward, surrogateLoss]
  rw [if_pos hc]

/-- With `create_graph=True` the costs stay, whatever happens; and whenever the surrogate loss or the
backward pass raises, the registry is unchanged, with and without `create_graph`. -/
theorem C30_kept (env : Env α) (w w' : World α) (cg : Bool) (script : Cmd α) (hs : LeavesCosts script)
    (sl : Nat) (late : Option Err) (r : Except Err Unit)
    (h : exec env (.backward cg script sl late) w = (w', r)) (hk : cg = true ∨ (∃ e, r = .error e)) :
    w'.costs = w.costs := by
  have h0 : (surrogateLoss (exec env script) w).1.costs = w.costs := by
    simp only [surrogateLoss]
    split
    · rfl
    · exact leavesCosts_exec env script hs w
  simp only [exec, World.backward] at h
  split at h
  · rename_i h1; rw [h1] at h0; cases h; exact h0
  · rename_i w1 h1; rw [h1] at h0
    split at h
    · cases h; exact h0
    · split at h
      · cases h; exact h0
      · rename_i hcg
        rcases hk with hk | ⟨e, rfl⟩
        · exact absurd hk hcg
        · split at h
          · cases h; exact h0
          · split at h
            · cases h; exact h0
            · rename_i w2 h2
              unfold reset at h
              split at h
              · cases h
                rw [(clean_vars _ _ _ _ h2).costs]; exact h0
              · cases h

/-- From every reachable state with a registered cost, `backward()` completes if the surrogate loss is
built and torch's backward pass does not raise: cleaning cannot fail. -/
theorem C30_completes [Inhabited α] (env : Env α) (w w1 : World α) (hr : Reachable env w) (script : Cmd α)
    (sl : Nat) (hcosts : w.costs ≠ []) (h1 : exec env script w = (w1, .ok ())) (hsl : sl < w1.size) :
    ∃ w', exec env (.backward false script sl none) w = (w', .ok ()) := by
  obtain ⟨_, hl, hv⟩ := hr.good
  have he := exec_eff (ins := true) env script (fun _ => rfl) w hl hv
  rw [h1] at he
  obtain ⟨w2, g1, g2⟩ := cleanNode_spec (he.links hl).pre hsl
  obtain ⟨w3, g3, g4⟩ := cleanAll_spec w2.costs (g2.pre (he.links hl).pre)
    (by rw [g2.vars.costs, g2.size]; exact he.vars.costs)
  simp only [exec, World.backward, surrogateLoss]
  rw [if_neg hcosts, h1]
  simp only [Bool.false_eq_true, if_false]
  rw [if_neg (not_le.2 hsl), g1]
  simp only
  rw [reset, g3]
  exact ⟨_, rfl⟩

/-- The methods that sampled since the last reset: after a completed `backward()` none is registered any
more, and each that was registered when the surrogate loss had been built has been reset exactly once;
with `create_graph=True` none is reset and all stay registered. -/
theorem C30_methods [Inhabited α] (env : Env α) (w w1 w' : World α) (hr : Reachable env w) (cg : Bool)
    (script : Cmd α) (sl : Nat) (hsl : sl < w1.size) (h1 : exec env script w = (w1, .ok ()))
    (h : exec env (.backward cg script sl none) w = (w', .ok ())) :
    if cg then w'.methods = w1.methods ∧ w'.resets = w1.resets
    else w'.methods = [] ∧ ∀ m, w'.resets m = w1.resets m + (if m ∈ w1.methods then 1 else 0) := by
  obtain ⟨_, hl, hv⟩ := hr.good
  have he := exec_eff (ins := true) env script (fun _ => rfl) w hl hv
  rw [h1] at he
  obtain ⟨w2, g1, g2⟩ := cleanNode_spec (he.links hl).pre hsl
  obtain ⟨w3, g3, g4⟩ := cleanAll_spec w2.costs (g2.pre (he.links hl).pre)
    (by rw [g2.vars.costs, g2.size]; exact he.vars.costs)
  simp only [exec, World.backward, surrogateLoss] at h
  by_cases hc : w.costs = []
  · rw [if_pos hc] at h; cases h
  · rw [if_neg hc, h1] at h
    cases cg with
    | true =>
      simp only [if_true] at h
      cases h
      exact ⟨rfl, rfl⟩
    | false =>
      simp only [Bool.false_eq_true, if_false] at h
      rw [if_neg (not_le.2 hsl), g1] at h
      simp only at h
      rw [reset, g3] at h
      cases h
      refine ⟨rfl, ?_⟩
      intro m
      simp only [g4.vars.methods, g4.vars.resets, g2.vars.methods, g2.vars.resets]
      split_ifs <;> rfl

end

/-- A case for `C30_methods`: the method 7 sampled, and is reset by the backward call, which forgets it. -/
example : let start : Cmd Int := .seq (.tensor none ⟨[], fun _ => 1⟩ [] []) (.seq
      (.sample ⟨[0], true, "z", 7, ⟨[2], fun _ => 1⟩, none⟩ .skip) (.addCost 1 (some "c")))
    let loss : Cmd Int := .det [2] [] "sum" .skip [.torch ⟨[2], fun _ => 1⟩]
    (exec plainEnv start World.init).1.methods = [7] ∧
    (exec plainEnv (.seq start (.backward false loss 3 none)) World.init).2 = .ok () ∧
    (exec plainEnv (.seq start (.backward false loss 3 none)) World.init).1.methods = [] ∧
    (exec plainEnv (.seq start (.backward false loss 3 none)) World.init).1.resets 7 = 1 ∧
    (exec plainEnv (.seq start (.backward false loss 3 none)) World.init).1.resets 8 = 0 := by
  decide +kernel

/-- A case for `C30_kept`, `C30_completes` and `C30_slate`: two backward calls with `create_graph=True`, of which one raises,
then one without; what is registered after each. -/
example :
    let start : Cmd Int := .seq (.tensor none ⟨[], fun _ => 1⟩ [] []) (.addCost 0 (some "c"))
    let loss : Cmd Int := .det [1] [] "sum" .skip [.torch ⟨[], fun _ => 1⟩]
    let twice : Cmd Int := .seq start (.seq (.backward true loss 2 none)
      (.attempt (.backward true loss 2 (some .torch)) .skip))
    (exec plainEnv twice World.init).1.costs = [1] ∧
    (exec plainEnv (.seq twice (.backward false loss 2 none)) World.init).1.costs = [] ∧
    (exec plainEnv (.seq twice (.backward false loss 2 none)) World.init).2 = .ok () ∧
    LeavesCosts loss := by
  refine ⟨by decide +kernel, by decide +kernel, by decide +kernel, ?_, ?_, ?_, ?_⟩
  · intro x n h; cases h with | det h => cases h
  · intro x n h; cases h with | det h => cases h
  · intro h; cases h with | det h => cases h
  · intro a b c d h; cases h with | det h => cases h

end Storch
