import Verif.Model.AD
import Verif.Props.HookProps

/-!
# C58: gradients that are kept after cleaning are off the autograd graph
-/

namespace Storch

section
variable {E : Type _} {θ₀ : E}

/-- An element that is not on the autograd graph: it is the same for all values of the parameters. -/
def OffGraph (x : AD E θ₀) : Prop := ∀ θ θ' : E, x θ = x θ'

/-- A tensor that is not on the autograd graph. -/
def TenOffGraph (t : Ten (AD E θ₀)) : Prop := ∀ idx, OffGraph (t.get idx)

/-- None of the recorded gradients is on the autograd graph. -/
def GradsOffGraph (st : HookState (AD E θ₀)) : Prop := ∀ n g, (n, g) ∈ st.grads → TenOffGraph g.ten

theorem offGraph_sum (l : List (AD E θ₀)) (h : ∀ x ∈ l, OffGraph x) : OffGraph l.sum := by
  induction l with
  | nil => intro θ θ'; rfl
  | cons x l ih =>
    intro θ θ'
    rw [List.sum_cons, AD.add_apply, AD.add_apply, h x (by simp) θ θ', ih (fun y hy => h y (by simp [hy])) θ θ']

theorem offGraph_add {a b t : Ten (AD E θ₀)} (ha : TenOffGraph a) (hb : TenOffGraph b)
    (h : Ten.elementwise List.sum [a, b] = .ok t) : TenOffGraph t := by
  rw [Ten.elementwise] at h
  split at h
  · cases h
  · cases h
    intro idx
    refine offGraph_sum _ ?_
    intro x hx
    simp only [List.map_cons, List.map_nil, List.mem_cons, List.not_mem_nil, or_false] at hx
    rcases hx with rfl | rfl
    · exact ha _
    · exact hb _

theorem mk'_ten {α : Type _} {t : Ten α} {ps : List (Plate α)} {s : STen α} (h : STen.mk' t ps = .ok s) : s.ten = t := by
  rw [STen.mk'] at h
  split at h
  · cases h
  · cases h; rfl

theorem mem_dictSet {β : Type _} {name n : String} {v w : β} {d : List (String × β)} (h : (n, w) ∈ dictSet name v d) :
    (n, w) ∈ d ∨ w = v := by
  induction d with
  | nil => simp only [dictSet, List.mem_singleton, Prod.mk.injEq] at h; exact Or.inr h.2
  | cons e d ih =>
    rw [dictSet] at h
    split at h
    · rcases List.mem_cons.1 h with h | h
      · exact Or.inr (Prod.mk.inj h).2
      · exact Or.inl (List.mem_cons_of_mem _ h)
    · rcases List.mem_cons.1 h with h | h
      · exact Or.inl (by rw [h]; simp)
      · rcases ih h with h | h
        · exact Or.inl (List.mem_cons_of_mem _ h)
        · exact Or.inr h

theorem dictGet_mem {β : Type _} {name : String} {v : β} {d : List (String × β)} (h : dictGet name d = some v) :
    (name, v) ∈ d := by
  induction d with
  | nil => cases h
  | cons e d ih =>
    rw [dictGet] at h
    split at h
    · rename_i he
      cases h
      rw [← he]; simp
    · exact List.mem_cons_of_mem _ (ih h)

theorem deliver_offGraph {st st' : HookState (AD E θ₀)} {name : String} {g : Ten (AD E θ₀)} (hg : TenOffGraph g)
    (hs : GradsOffGraph st) (h : deliver st name g = .ok st') : GradsOffGraph st' := by
  have hset : ∀ s : STen (AD E θ₀), TenOffGraph s.ten →
      GradsOffGraph { st with grads := dictSet name s st.grads } := by
    intro s hs' n w hw
    rcases mem_dictSet hw with hw | rfl
    · exact hs n w hw
    · exact hs'
  rw [deliver] at h
  split at h
  · cases h; exact hs
  · split at h
    · cases h; exact hs
    · rw [callHook] at h
      split at h
      · cases h; exact hs
      · split at h
        · rename_i g0 hg0
          split at h
          · cases h
          · rename_i t ht
            split at h
            · cases h
            · rename_i s hs'
              cases h
              refine hset s ?_
              rw [mk'_ten hs']
              exact offGraph_add (hs _ _ (dictGet_mem hg0)) hg ht
        · split at h
          · cases h
          · rename_i s hs'
            cases h
            refine hset s ?_
            rw [mk'_ten hs']
            exact hg

/-- Beginning with recorded gradients off the graph. -/
theorem runHooks_offGraph (es : List (HookEvent (AD E θ₀))) (st st' : HookState (AD E θ₀)) (hs : GradsOffGraph st)
    (hg : ∀ n g, HookEvent.gradient n g ∈ es → TenOffGraph g) (h : runHooks st es = .ok st') : GradsOffGraph st' := by
  induction es generalizing st with
  | nil => cases h; exact hs
  | cons e es ih =>
    cases e with
    | clean => exact ih (cleanHooks st) hs (fun n g hm => hg n g (List.mem_cons_of_mem _ hm)) h
    | gradient n g =>
      rw [runHooks] at h
      split at h
      · cases h
      · rename_i st1 h1
        exact ih st1 (deliver_offGraph (hg n g (by simp)) hs h1) (fun n g hm => hg n g (List.mem_cons_of_mem _ hm)) h

/-- C58, what holds: when the gradients that arrive are off the graph (the first `backward` without
`create_graph`), so are the recorded ones, whenever the tensor is cleaned.  Missing: gradients that are on the
graph stay on it (`C58_refuted`). -/
theorem C58_first_order_partial (categorical : Bool) (params : List (DistrParam (AD E θ₀)))
    (es : List (HookEvent (AD E θ₀))) (hg : ∀ n g, HookEvent.gradient n g ∈ es → TenOffGraph g)
    (st : HookState (AD E θ₀)) (h : runHooks (HookState.init categorical params) es = .ok st) : GradsOffGraph st :=
  runHooks_offGraph es _ st (by intro n g hm; cases hm) hg h

/-- C58, the general case: what is recorded after cleaning depends on the parameters as the sum of the gradients
that arrived before does; cleaning changes nothing about it. -/
theorem C58_clean_keeps_partial (categorical : Bool) (params : List (DistrParam (AD E θ₀))) (shapes : String → List Nat)
    (es es' : List (HookEvent (AD E θ₀))) (hes : HookEvent.clean ∉ es)
    (hgood : GoodEvents shapes (HookState.init categorical params) (es ++ .clean :: es')) (n : String)
    (ps : List (Plate (AD E θ₀))) (hn : dictGet n (HookState.init categorical params).hooks = some ps)
    (g : Ten (AD E θ₀)) (hgm : HookEvent.gradient n g ∈ es) :
    ∃ st t, runHooks (HookState.init categorical params) (es ++ .clean :: es') = .ok st ∧
      dictGet n st.grads = some t ∧ ∀ idx, Ten.InB idx (shapes n) → ∀ θ,
        (t.ten.get idx) θ = (es.map (fun e => match e with
          | .gradient m g => if m = n then (g.get idx) θ else 0
          | .clean => 0)).sum := by
  obtain ⟨st, h1, h2, _⟩ := C53_accumulates categorical params shapes _ hgood
  have hd : ∀ l : List (HookEvent (AD E θ₀)), HookEvent.clean ∉ l →
      delivered n (l ++ .clean :: es') = delivered n l := by
    intro l hl
    induction l with
    | nil => rfl
    | cons e l ih =>
      cases e with
      | clean => simp at hl
      | gradient m g =>
        have := ih (fun h => hl (List.mem_cons_of_mem _ h))
        rw [List.cons_append, delivered, delivered, this]
  have hsum : ∀ (l : List (HookEvent (AD E θ₀))), HookEvent.clean ∉ l → ∀ idx θ,
      (((delivered n l).map (fun g => g.get idx)).sum : AD E θ₀) θ = (l.map (fun e => match e with
          | .gradient m g => if m = n then (g.get idx) θ else 0
          | .clean => 0)).sum := by
    intro l hl idx θ
    induction l with
    | nil => rfl
    | cons e l ih =>
      cases e with
      | clean => simp at hl
      | gradient m g =>
        have := ih (fun h => hl (List.mem_cons_of_mem _ h))
        rw [delivered, List.map_cons, List.sum_cons]
        by_cases hm : m = n
        · simp only [hm, if_true, List.map_cons, List.sum_cons, AD.add_apply]
          rw [this]
        · simp only [hm, if_false, zero_add]
          rw [this]
  have hmem : g ∈ delivered n es := by
    clear h1 h2 hgood hd hsum
    induction es with
    | nil => cases hgm
    | cons e l ih =>
      cases e with
      | clean => simp at hes
      | gradient m g' =>
        rw [delivered]
        rcases List.mem_cons.1 hgm with h | h
        · cases h; simp
        · have := ih (fun h => hes (List.mem_cons_of_mem _ h)) h
          split
          · exact List.mem_cons_of_mem _ this
          · exact this
  have hI := h2 n ps hn
  rw [hd es hes] at hI
  cases hc : delivered n es with
  | nil => rw [hc] at hmem; cases hmem
  | cons a l =>
    rw [hc] at hI
    obtain ⟨t, t1, _, _, t4⟩ := hI
    refine ⟨st, t, h1, t1, fun idx hidx θ => ?_⟩
    rw [t4 idx hidx, ← hc, hsum es hes idx θ]

end

/-- One parameter `θ`, whose gradient is `2 θ` (the derivative of `θ²`, computed with `create_graph`). -/
def quadraticGrad : HookEvent (AD ℝ (3 : ℝ)) := .gradient "probs" ⟨[], fun _ => fun θ => 2 * θ⟩

/-- C58 is false: the comment of `_clean` says that stored higher-order derivatives are removed from the graph, but
the detached copies are dropped and the recorded gradient still depends on the parameters. -/
theorem C58_refuted : ∃ st t, runHooks (HookState.init false [⟨"probs", true, false, []⟩] : HookState (AD ℝ (3 : ℝ)))
    [quadraticGrad, .clean] = .ok st ∧ dictGet "probs" st.grads = some t ∧ ¬ TenOffGraph t.ten ∧ ¬ GradsOffGraph st := by
  refine ⟨_, _, rfl, rfl, ?_, ?_⟩
  · intro h
    have := h [] (0 : ℝ) (1 : ℝ)
    norm_num at this
  · intro h
    have := h "probs" _ (by exact List.mem_singleton.2 rfl) [] (0 : ℝ) (1 : ℝ)
    norm_num at this

/-- A constant gradient is recorded and stays off the graph. -/
example : ∃ st, runHooks (HookState.init false [⟨"probs", true, false, []⟩] : HookState (AD ℝ (3 : ℝ)))
    [.gradient "probs" ⟨[], fun _ => fun _ => 5⟩, .clean] = .ok st ∧ st.grads.length = 1 ∧ GradsOffGraph st := by
  refine ⟨_, rfl, rfl, C58_first_order_partial false [⟨"probs", true, false, []⟩]
    [.gradient "probs" ⟨[], fun _ => fun _ => 5⟩, .clean] ?_ _ rfl⟩
  intro n g hg idx θ θ'
  simp only [List.mem_cons, HookEvent.gradient.injEq, reduceCtorEq, List.not_mem_nil, or_false] at hg
  obtain ⟨_, rfl⟩ := hg
  rfl

/-- The hypotheses of the general case for that gradient. -/
example : ∃ st t, runHooks (HookState.init false [⟨"probs", true, false, []⟩] : HookState (AD ℝ (3 : ℝ)))
    ([quadraticGrad, quadraticGrad] ++ .clean :: []) = .ok st ∧ dictGet "probs" st.grads = some t ∧
    ∀ θ, (t.ten.get []) θ = 2 * θ + 2 * θ := by
  obtain ⟨st, t, h1, h2, h3⟩ := C58_clean_keeps_partial false [⟨"probs", true, false, []⟩] (fun _ => [])
    [quadraticGrad, quadraticGrad] [] (by simp [quadraticGrad]) ⟨by
      intro n ps hn
      simp only [HookState.init, hookedParams, Bool.false_and, Bool.false_eq_true, if_false, if_true, List.map_cons,
        List.map_nil, dictGet] at hn
      split at hn
      · cases hn; exact ⟨0, rfl⟩
      · exact absurd hn (by simp), by
      intro n g hg
      simp only [quadraticGrad, List.cons_append, List.nil_append, List.mem_cons, HookEvent.gradient.injEq, reduceCtorEq,
        List.not_mem_nil, or_false, or_self] at hg
      obtain ⟨_, rfl⟩ := hg
      rfl⟩ "probs" [] rfl _ (by exact List.mem_cons_self)
  refine ⟨st, t, h1, h2, fun θ => ?_⟩
  rw [h3 [] .nil θ]
  simp [quadraticGrad]

end Storch
