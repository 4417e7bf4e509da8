import Verif.Lemmas.MirrorLemmas
import Verif.Props.WalkProps

/-!
# C20 - C23: differentiable paths, cleaning, consistency of the graph
-/

namespace Storch
variable {α : Type _}
open World

/-! ### Specification -/

/-- Tensor `a` holds a link, to a parent or to a child, that leads to `b`. -/
def HoldsLink (w : World α) (a b : Nat) : Prop :=
  (∃ d, (b, d) ∈ (w.node a).parents) ∨ ∃ d, (b, d) ∈ w.kidList (w.node a).kidsAt

/-- `b` can be reached from `a` along links. -/
def Connected (w : World α) : Nat → Nat → Prop := Relation.ReflTransGen (HoldsLink w)

/-- Tensor `i` holds no links. -/
def Unlinked (w : World α) (i : Nat) : Prop :=
  (w.node i).parents = [] ∧ w.kidList (w.node i).kidsAt = []

/-- A link between parent `p` and child `c`, recorded in either of them. -/
def Edge (w : World α) (p c : Nat) : Prop :=
  p < w.size ∧ c < w.size ∧ ((∃ d, (p, d) ∈ (w.node c).parents) ∨ ∃ d, (c, d) ∈ w.kidList (w.node p).kidsAt)

/-- `c` holds the very tensor of its parent `x`, as a registered cost does: gradients flow from `c` to
`x`. -/
def HoldsTensorOf (w : World α) (c x : Nat) : Prop :=
  (∃ d, (x, d) ∈ (w.node c).parents) ∧ (w.node c).ten = (w.node x).ten

/-! ### C21 -/

theorem mem_nbrs {w : World α} {a b : Nat} : b ∈ nbrs w a ↔ HoldsLink w a b := by
  simp only [nbrs, List.mem_map, List.mem_append, HoldsLink, World.kids, World.parents, Prod.exists]
  constructor
  · rintro ⟨x, d, h | h, rfl⟩
    · exact Or.inr ⟨d, h⟩
    · exact Or.inl ⟨d, h⟩
  · rintro (⟨d, h⟩ | ⟨d, h⟩)
    · exact ⟨b, d, Or.inr h, rfl⟩
    · exact ⟨b, d, Or.inl h, rfl⟩

theorem Cl.done {w w' : World α} {S : List Nat} (h : Cl w S w') {i : Nat} (hr : ReachU w S i) :
    Cleaned w' i ∧ ¬ Cleaned w i := by
  induction hr with
  | start hs hc => exact ⟨h.starts _ hs, hc⟩
  | step hr hn hc ih =>
    refine ⟨?_, hc⟩
    rcases h.new _ ih.2 with h1 | ⟨_, _, _, h4⟩
    · exact absurd (by rw [Cleaned, ← h1]; exact ih.1) ih.2
    · exact h4 _ hn

theorem Cl.unlinked {w w' : World α} {S : List Nat} (h : Cl w S w') {i : Nat} (hr : ReachU w S i) :
    Unlinked w' i := by
  obtain ⟨h1, h2⟩ := Cl.done h hr
  rcases h.new _ h2 with h3 | ⟨h3, h4, _⟩
  · exact absurd (by rw [Cleaned, ← h3]; exact h1) h2
  · rw [Unlinked, h3]; exact ⟨rfl, h4⟩

theorem ReachU.of_connected {w : World α} (hnone : ∀ i < w.size, (w.node i).cleaned = false)
    (hp : CleanPre w) {x i : Nat} (hx : x < w.size) (h : Connected w x i) : ReachU w [x] i := by
  induction h with
  | refl => exact .start (by simp) (by rw [Cleaned, hnone x hx]; simp)
  | tail _ hl ih =>
    have hlt := ReachU.lt hp (by simpa using hx) ih
    have hn := mem_nbrs.2 hl
    exact ih.step hn (by rw [Cleaned, hnone _ (hp.range _ hlt _ hn)]; simp)

theorem ReachU.connected {w : World α} {x i : Nat} (h : ReachU w [x] i) : Connected w x i := by
  induction h with
  | start hs _ => rw [List.mem_singleton] at hs; subst hs; exact .refl
  | step _ hn _ ih => exact ih.tail (mem_nbrs.1 hn)

/-- Cleaning any tensor of a finite graph none of whose tensors was cleaned before terminates, whatever
the links are; it empties the links of exactly the tensors connected to the start, keeps everything else
of all tensors, and a second call changes nothing. -/
theorem C21_clean (w : World α) (x : Nat) (hx : x < w.size)
    (hrange : ∀ i < w.size, ∀ n, HoldsLink w i n → n < w.size)
    (hnone : ∀ i < w.size, (w.node i).cleaned = false)
    (hlist : ∀ i < w.size, ∃ j, (w.node i).kidsAt = 2 * j) :
    ∃ w', cleanNode w x = .ok w' ∧
      (∀ i, Connected w x i → Unlinked w' i ∧ (w'.node i).cleaned = true) ∧
      (∀ i < w.size, ¬ Connected w x i → w'.node i = w.node i ∧ w'.kids i = w.kids i) ∧
      (∀ i, (w'.node i).ten = (w.node i).ten ∧ w'.plates i = w.plates i) ∧
      w'.size = w.size ∧ w'.costs = w.costs ∧
      cleanNode w' x = .ok w' := by
  have hp : CleanPre w := by
    refine ⟨fun i hi n hn => hrange i hi n (mem_nbrs.1 hn), ?_⟩
    intro i hi j hj
    obtain ⟨k, hk⟩ := hlist i hi
    omega
  obtain ⟨w', h1, h2⟩ := cleanNode_spec hp hx
  have hnode : ∀ i < w.size, ¬ Connected w x i → w'.node i = w.node i := by
    intro i hi hc
    rcases h2.new i (by rw [Cleaned, hnone i hi]; simp) with h3 | ⟨_, _, h5, _⟩
    · exact h3
    · exact absurd (ReachU.connected h5) hc
  have hfields : ∀ i, (w'.node i).ten = (w.node i).ten ∧ (w'.node i).platesAt = (w.node i).platesAt := by
    intro i
    by_cases hc : Cleaned w i
    · rw [h2.old i hc]; exact ⟨rfl, rfl⟩
    · rcases h2.new i hc with h3 | ⟨h3, _⟩ <;> rw [h3] <;> exact ⟨rfl, rfl⟩
  refine ⟨w', h1, ?_, ?_, ?_, h2.size, h2.vars.costs, ?_⟩
  · intro i hi
    have hr := ReachU.of_connected hnone hp hx hi
    exact ⟨Cl.unlinked h2 hr, (Cl.done h2 hr).1⟩
  · intro i hi hc
    have hn := hnode i hi hc
    refine ⟨hn, ?_⟩
    have := h2.lists (w.node i).kidsAt
    rw [World.kids, World.kids, hn]
    rcases this with h3 | ⟨j, hj, _⟩
    · exact h3
    · obtain ⟨k, hk⟩ := hlist i hi
      omega
  · intro i
    refine ⟨(hfields i).1, ?_⟩
    rw [World.plates, World.plates, h2.plateList, (hfields i).2]
  · rw [cleanNode, clean, if_pos (h2.starts x (by simp))]

/-- The graph `0 → 1 → 2 → 0`, a cycle, with a separate tensor `3` whose parent is `4`. -/
def cyclic : World Int :=
  { (World.init : World Int) with
    size := 5
    node := fun i => ⟨.plain, none, ⟨[], fun _ => (i : Int)⟩, 0, 0,
      if i = 0 then [(2, false)] else if i = 1 then [(0, false)] else if i = 2 then [(1, false)]
      else if i = 3 then [(4, false)] else [], 2 * i, false, false, none, i⟩
    kidList := fun a => if a = 0 then [(1, false)] else if a = 2 then [(2, false)]
      else if a = 4 then [(0, false)] else if a = 8 then [(3, false)] else [] }

/-- The hypotheses of `C21_clean` hold for `cyclic`. -/
example : (∀ i < cyclic.size, ∀ n, HoldsLink cyclic i n → n < cyclic.size) ∧
    (∀ i < cyclic.size, (cyclic.node i).cleaned = false) ∧
    (∀ i < cyclic.size, ∃ j, (cyclic.node i).kidsAt = 2 * j) := by
  refine ⟨?_, fun _ _ => rfl, fun i _ => ⟨i, rfl⟩⟩
  intro i hi n hn
  have hb : ∀ i < 5, ∀ e ∈ (cyclic.kids i ++ cyclic.parents i).map Prod.fst, e < 5 := by decide +kernel
  exact hb i hi n (mem_nbrs.2 hn)

/-- Cleaning `1` in `cyclic` leaves `3` and `4` alone. -/
example : ((cleanNode cyclic 1).toOption.map (fun w => ((List.range 5).map w.parents, (List.range 5).map w.kids))) =
    some ([[], [], [], [(4, false)], []], [[], [], [], [], [(3, false)]]) := by decide +kernel

/-! ### C22 -/

theorem ran {p : World α × Except Err Unit} (h : p.2 = .ok ()) : p = (p.1, .ok ()) := by
  cases p; cases h; rfl

theorem Reachable.of [ValEq α] [Inhabited α] (env : Env α) (c : Cmd α) :
    Reachable env (exec env c World.init).1 := ⟨c, rfl⟩

/-- Reached from one of the starts through tensors that were not cleaned in an earlier iteration. -/
inductive Took (w : World α) (S : List Nat) : Nat → Prop
  | start {s} : s ∈ S → (w.node s).cleaned = false → Took w S s
  | step {i n} : Took w S i → HoldsLink w i n → (w.node n).cleaned = false → Took w S n

theorem Took.reachU {w : World α} {S : List Nat} {i : Nat} (h : Took w S i) : ReachU w S i := by
  induction h with
  | start hs hc => exact .start hs (by rw [Cleaned, hc]; simp)
  | step _ hl hc ih => exact ih.step (mem_nbrs.2 hl) (by rw [Cleaned, hc]; simp)

theorem backward_false_ok [ValEq α] {env : Env α} {script : Cmd α} {sl : Nat} {late : Option Err}
    {w w' : World α} (h : exec env (.backward false script sl late) w = (w', .ok ())) :
    ∃ w1 w2, w.costs ≠ [] ∧ exec env script w = (w1, .ok ()) ∧ late = none ∧ sl < w1.size ∧
      cleanNode w1 sl = .ok w2 ∧ reset w2 = (w', .ok ()) := by
  simp only [exec, World.backward, World.surrogateLoss] at h
  split at h
  · cases h
  · rename_i w1 hs
    split at hs
    · cases hs
    · rename_i hc
      split at h
      · cases h
      · simp only [Bool.false_eq_true, if_false] at h
        split at h
        · cases h
        · rename_i hsl
          split at h
          · cases h
          · rename_i w2 h2
            exact ⟨w1, w2, hc, hs, rfl, not_le.1 hsl, h2, h⟩

/-- After a completed `backward()`, every tensor reached from the surrogate loss or from a registered cost
through tensors that were not cleaned in an earlier iteration holds no links.
Missing from C22: tensors that were cleaned in an earlier iteration and are used again (`C22_refuted`). -/
theorem C22_unlinked_partial [ValEq α] [Inhabited α] (env : Env α) (w w' : World α) (hr : Reachable env w)
    (script : Cmd α) (sl : Nat) (late : Option Err)
    (h : exec env (.backward false script sl late) w = (w', .ok ())) :
    ∃ w1, exec env script w = (w1, .ok ()) ∧ ∀ i, Took w1 (sl :: w1.costs) i → Unlinked w' i := by
  obtain ⟨w1, w2, _, h1, _, h3, h4, h5⟩ := backward_false_ok h
  refine ⟨w1, h1, ?_⟩
  obtain ⟨_, hl, hv⟩ := hr.good
  have he := exec_eff (ins := true) env script (fun _ => rfl) w hl hv
  rw [h1] at he
  simp only at he
  have hl1 := he.links hl
  obtain ⟨w2', g1, g2⟩ := cleanNode_spec hl1.pre h3
  rw [g1] at h4; cases h4
  obtain ⟨w3, g3, g4⟩ := cleanAll_spec w2.costs (g2.pre hl1.pre)
    (by rw [g2.vars.costs, g2.size]; exact he.vars.costs)
  rw [reset, g3] at h5
  simp only [Prod.mk.injEq, and_true] at h5
  have g5 := Cl.trans hl1.pre (T := w2.costs) (by rw [g2.vars.costs]; exact he.vars.costs) (by simpa using h3) g2 g4
  intro i hi
  have hu := Cl.unlinked g5 (i := i) (by
    rw [g2.vars.costs]
    exact hi.reachU)
  rw [← h5]
  exact hu

/-- An environment in which plates have no hook. -/
def plainEnv : Env Int := ⟨fun n => if n = 1 then 1 else 0, fun _ a => .ok a⟩

/-- `x = storch.Tensor(1.); add_cost(x, "c"); backward()`, then `y = f(x); add_cost(y, "d"); backward()`
with the same `x`. -/
def reuse : Cmd Int :=
  .seq (.tensor none ⟨[], fun _ => 1⟩ [] []) <|
  .seq (.addCost 0 (some "c")) <|
  .seq (.backward false (.det [1] [] "sum" .skip [.torch ⟨[], fun _ => 1⟩]) 2 none) <|
  .seq (.det [0] [] "f" .skip [.torch ⟨[], fun _ => 3⟩]) <|
  .seq (.addCost 3 (some "d")) <|
  .backward false (.det [4] [] "sum" .skip [.torch ⟨[], fun _ => 3⟩]) 5 none

/-- In the second iteration of `reuse` the tensor `0` takes part: it is a parent of `3`, which is a parent
of the cost `4`. -/
theorem C22_refuted : ∃ w' : World Int, exec plainEnv reuse World.init = (w', .ok ()) ∧
    ¬ Unlinked w' 0 ∧ w'.kids 0 = [(3, false)] := by
  refine ⟨(exec plainEnv reuse World.init).1, ?_, ?_, ?_⟩
  · have : (exec plainEnv reuse World.init).2 = .ok () := by decide +kernel
    exact ran this
  · have : ((exec plainEnv reuse World.init).1.kidList (((exec plainEnv reuse World.init).1.node 0).kidsAt)) ≠ [] := by
      decide +kernel
    exact fun h => this h.2
  · decide +kernel

/-- A case for `C22_unlinked_partial`, the first iteration of `reuse`: all three tensors take part, and are freed. -/
example : let w' := (exec plainEnv (.seq (.tensor none ⟨[], fun _ => 1⟩ [] []) <|
    .seq (.addCost 0 (some "c")) <|
    .backward false (.det [1] [] "sum" .skip [.torch ⟨[], fun _ => 1⟩]) 2 none) World.init).1
    (List.range 3).map w'.kids = [[], [], []] ∧ (List.range 3).map w'.parents = [[], [], []] := by
  decide +kernel

/-! ### C23 -/

theorem edge_rank {w : World α} (hl : LinksOK w) {p c : Nat} (h : Edge w p c) : w.rank p < w.rank c := by
  obtain ⟨hp, hc, ⟨d, h⟩ | ⟨d, h⟩⟩ := h
  · have h1 := (hl.parents c hc _ h).1
    have h2 := hl.addr p hp
    simp only at h1
    omega
  · exact (hl.kids _ _ h).2.1

/-- In every reachable state every parent was created before its child, links lead to existing tensors,
and no path along links, recorded on whichever side, returns to its start. -/
theorem C23_acyclic [ValEq α] [Inhabited α] (env : Env α) (w : World α) (hr : Reachable env w) :
    (∀ c < w.size, ∀ p d, (p, d) ∈ (w.node c).parents → p < c) ∧
    (∀ p < w.size, ∀ c d, (c, d) ∈ w.kidList (w.node p).kidsAt → c < w.size) ∧
    ∀ i, ¬ Relation.TransGen (Edge w) i i := by
  obtain ⟨_, hl, _⟩ := hr.good
  refine ⟨?_, ?_, ?_⟩
  · intro c hc p d hp
    have h1 := (hl.parents c hc _ hp).1
    have h2 := hl.addr c hc
    simp only at h1
    omega
  · intro p _ c d hc
    exact (hl.kids _ _ hc).1
  · have key : ∀ i j, Relation.TransGen (Edge w) i j → w.rank i < w.rank j := by
      intro i j h
      induction h with
      | single h => exact edge_rank hl h
      | tail _ h ih => exact ih.trans (edge_rank hl h)
    intro i h
    exact absurd (key i i h) (lt_irrefl _)

theorem count_fst {l : List (Nat × Bool)} (h : ∀ e ∈ l, e.2 = false) (n : Nat) :
    (l.map Prod.fst).count n = l.count (n, false) := by
  induction l with
  | nil => rfl
  | cons e l ih =>
    obtain ⟨a, b⟩ := e
    have hb := h (a, b) (by simp)
    simp only at hb
    subst hb
    rw [List.map_cons, List.count_cons, List.count_cons, ih (fun e he => h e (by simp [he]))]
    simp

/-- In every reachable state, between tensors that were never cleaned, parent and child links mirror each
other with multiplicity, provided that the parent is not one of the copies made by `surrogate_loss` and
was not copied.
Missing from C23: those copies (`C23_refuted`). -/
theorem C23_mirror_partial [ValEq α] [Inhabited α] (env : Env α) (w : World α) (hr : Reachable env w)
    (p c : Nat) (hp : p < w.size) (hc : c < w.size)
    (hcp : (w.node p).cleaned = false) (hcc : (w.node c).cleaned = false)
    (hs : (w.node p).origin = p ∧ ∀ i < w.size, (w.node i).origin = p → i = p) :
    ((w.parents c).map Prod.fst).count p = ((w.kids p).map Prod.fst).count c := by
  obtain ⟨hpr, hl, _⟩ := hr.good
  have hm := MirrorOK.init.prims LinksOK.init hpr
  have hk := hm.kidsAt hl hp hcp hs
  rw [count_fst (fun e he => (hl.parents c hc e he).2), World.kids,
    count_fst (fun e he => (hl.kids _ e he).2.2), hk]
  exact hm.mirror p hp c hc hcp hcc hs

/-- A program that draws a sample, uses it twice in `f(x, x)`, and copies it as `surrogate_loss` does. -/
def copies : Cmd Int :=
  .seq (.tensor none ⟨[], fun _ => 1⟩ [] []) <|
  .seq (.sample ⟨[0], true, "x", 0, ⟨[2], fun _ => 1⟩, none⟩ .skip) <|
  .seq (.det [1, 1] [] "f" .skip [.torch ⟨[2], fun _ => 2⟩]) <|
  .mimic 1 ⟨[2], fun _ => 1⟩ [Plate.mk "x" 2 (.torch (Ten.scalar 0)) .plain []]

/-- After `copies`, the copy `3` lists `2` as a child twice, and `2` does not list it as a parent. -/
theorem C23_refuted : ∃ w : World Int, exec plainEnv copies World.init = (w, .ok ()) ∧
    (∀ i < w.size, (w.node i).cleaned = false) ∧
    ((w.kids 3).map Prod.fst).count 2 = 2 ∧ ((w.parents 2).map Prod.fst).count 3 = 0 := by
  refine ⟨(exec plainEnv copies World.init).1, ?_, ?_, ?_, ?_⟩
  · have : (exec plainEnv copies World.init).2 = .ok () := by decide +kernel
    exact ran this
  · decide +kernel
  · decide +kernel
  · decide +kernel

/-- A reachable state with links for `C23_acyclic`; the hypotheses of `C23_mirror_partial` hold for `0` and `1` in that state: `1` is a child of `0`. -/
example : let w := (exec plainEnv copies World.init).1
    0 < w.size ∧ 1 < w.size ∧ (w.node 0).cleaned = false ∧ (w.node 1).cleaned = false ∧
    ((w.node 0).origin = 0 ∧ ∀ i < w.size, (w.node i).origin = 0 → i = 0) ∧
    ((w.parents 1).map Prod.fst).count 0 = 1 := by decide +kernel

/-! ### C20 -/

theorem walk_no_links {ex : Links} {start : Nat} (h : nexts ex true start = []) (fuel : Nat) (hf : 2 ≤ fuel) :
    walk ex { onlyDiff := true } fuel start = .ok [start] := by
  obtain ⟨k, rfl⟩ := Nat.exists_eq_add_of_le hf
  rw [Nat.add_comm, walk]
  simp only [if_true]
  rw [dfsLoop]
  simp only [List.not_mem_nil, decide_false, Bool.not_false, Bool.or_true, if_true, h]
  rfl

/-- In every reachable state `has_differentiable_path` says "no" for all tensors except a tensor and
itself. -/
theorem C20_always_false_partial [ValEq α] [Inhabited α] (env : Env α) (w : World α) (hr : Reachable env w)
    (output input : Nat) (fuel : Nat) (hf : 2 ≤ fuel) :
    hasDifferentiablePath w.kids fuel output input = .ok (decide (output = input)) := by
  obtain ⟨_, hl, _⟩ := hr.good
  have h : nexts w.kids true input = [] := by
    rw [nexts, List.map_eq_nil_iff, List.filter_eq_nil_iff]
    intro e he
    rw [(hl.kids _ e he).2.2]
    simp
  rw [hasDifferentiablePath, walk_no_links h fuel hf]
  simp

/-- `x = storch.Tensor(1.); add_cost(x, "c")` -/
def costOfX : Cmd Int := .seq (.tensor none ⟨[], fun _ => 1⟩ [] []) (.addCost 0 (some "c"))

/-- The cost holds the tensor of `x`, so its gradient with respect to `x` is one; the answer is "no". -/
theorem C20_refuted : ∃ w : World Int, exec plainEnv costOfX World.init = (w, .ok ()) ∧
    w.costs = [1] ∧ HoldsTensorOf w 1 0 ∧
    ∀ fuel, 2 ≤ fuel → hasDifferentiablePath w.kids fuel 1 0 = .ok false := by
  refine ⟨(exec plainEnv costOfX World.init).1, ?_, ?_, ?_, ?_⟩
  · have : (exec plainEnv costOfX World.init).2 = .ok () := by decide +kernel
    exact ran this
  · decide +kernel
  · refine ⟨⟨false, ?_⟩, ?_⟩
    · decide +kernel
    · rfl
  · intro fuel hf
    exact C20_always_false_partial plainEnv _ (Reachable.of _ _) 1 0 fuel hf

end Storch
