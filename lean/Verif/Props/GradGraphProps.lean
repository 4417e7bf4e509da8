import Verif.Lemmas.GradGraphLemmas

/-!
# C67: `has_backwards_path`
-/

namespace Storch
variable {N T : Type _} [DecidableEq N] [DecidableEq T] [Fintype N]

/-! ### Specification -/

/-- `p` can be reached from `n` along `next_functions`. -/
inductive GradReaches (G : GradGraph N T) (n : N) : N → Prop
  | refl : GradReaches G n n
  | step {a b : N} : GradReaches G n a → some b ∈ G.next a → GradReaches G n b

/-- The gradient functions of the tensor `output` are connected to the tensor `x`. -/
def GradConnected (G : GradGraph N T) (output x : T) : Prop :=
  x = output ∨ ∃ n p, G.gradFn output = some n ∧ GradReaches G n p ∧ (G.leaf p = some x ∨ G.gradFn x = some p)

omit [DecidableEq N] [DecidableEq T] [Fintype N] in
theorem gradReaches_iff {G : GradGraph N T} {n p : N} : GradReaches G n p ↔ Relation.ReflTransGen G.Edge n p := by
  constructor
  · intro h
    induction h with
    | refl => exact .refl
    | step _ hb ih => exact ih.tail hb
  · intro h
    induction h with
    | refl => exact .refl
    | tail _ hb ih => exact .step ih hb

omit [Fintype N] in
theorem gradMatch_iff {G : GradGraph N T} {p : N} {x : T} :
    gradMatch G p x = true ↔ G.leaf p = some x ∨ G.gradFn x = some p := by
  simp [gradMatch]

omit [DecidableEq N] [Fintype N] in
theorem mem_todo {output : T} {inputs : List T} {k : Nat} {x : T} :
    (k, x) ∈ (inputs.zipIdx.filter (fun x => decide (x.1 ≠ output))).map (fun x => (x.2, x.1)) ↔
      inputs[k]? = some x ∧ x ≠ output := by
  simp only [List.mem_map, List.mem_filter, Prod.mk.injEq, Prod.exists, List.mem_zipIdx_iff_getElem?, decide_eq_true_eq]
  constructor
  · rintro ⟨a, b, ⟨h1, h2⟩, rfl, rfl⟩
    exact ⟨h1, h2⟩
  · rintro ⟨h1, h2⟩
    exact ⟨x, k, ⟨h1, h2⟩, rfl, rfl⟩

/-! ### Properties -/

omit [DecidableEq T] in
/-- C67, the walk: `walk_backward_graph` terminates on every graph (cyclic or not) and yields every node that can be
reached exactly once. -/
theorem C67_walk (G : GradGraph N T) {t : T} {n : N} (hn : G.gradFn t = some n) :
    ∃ ps, walkBackward G t = .ok ps ∧ ps.Nodup ∧ ∀ p, p ∈ ps ↔ GradReaches G n p := by
  refine ⟨_, by rw [walkBackward, hn], walk_nodup _ _ _, fun p => ?_⟩
  rw [mem_walk, gradReaches_iff]

/-- C67, soundness: every flag that is set belongs to an input that is connected to the output. -/
theorem C67_sound (G : GradGraph N T) {output : T} {inputs : List T} {l : List Bool}
    (h : hasPath G output inputs = .ok (.flags l)) :
    l.length = inputs.length ∧ ∀ k : Nat, l[k]? = some true → ∃ x, inputs[k]? = some x ∧ GradConnected G output x := by
  rw [hasPath] at h
  split at h
  · injection h with h
    injection h with h
    subst h
    refine ⟨by simp, ?_⟩
    intro k hk
    rw [List.getElem?_map] at hk
    cases hx : inputs[k]? <;> simp [hx] at hk
  · rename_i n hn
    dsimp only at h
    split at h
    · cases h
    · obtain ⟨ps, p1, p2, p3⟩ := C67_walk G hn
      rw [p1] at h
      injection h with h
      injection h with h
      subst h
      refine ⟨by rw [search_length]; simp, ?_⟩
      intro k hk
      rcases search_sound G ps _ _ k hk with h1 | ⟨p, hp, x, hx, hm⟩
      · rw [List.getElem?_map] at h1
        cases hx : inputs[k]? with
        | none => simp [hx] at h1
        | some x =>
          simp only [hx, Option.map_some, Option.some.injEq, decide_eq_true_eq] at h1
          exact ⟨x, rfl, .inl h1⟩
      · obtain ⟨h1, h2⟩ := mem_todo.1 hx
        exact ⟨x, h1, .inr ⟨n, p, hn, (p3 p).1 hp, gradMatch_iff.1 hm⟩⟩

/-- C67, the part of completeness that holds: if no node of the graph belongs to two of the inputs, and the output has
a gradient function and is not the only input, then the flag of every input other than the first says whether it is
connected.  Missing: the first input (`C67_first_refuted`), inputs with a common node (`C67_shared_refuted`), and
inputs that are all the output (`C67_same_refuted`). -/
theorem C67_complete_partial (G : GradGraph N T) {output : T} {inputs : List T} {n : N} (hn : G.gradFn output = some n)
    (hne : ∃ x ∈ inputs, x ≠ output) (hnd : inputs.Nodup)
    (hone : ∀ p, ∀ x ∈ inputs, ∀ y ∈ inputs, (G.leaf p = some x ∨ G.gradFn x = some p) →
      (G.leaf p = some y ∨ G.gradFn y = some p) → x = y) :
    ∃ l, hasPath G output inputs = .ok (.flags l) ∧ l.length = inputs.length ∧
      ∀ (k : Nat) x, inputs[k + 1]? = some x → (l[k + 1]? = some true ↔ GradConnected G output x) := by
  obtain ⟨ps, p1, p2, p3⟩ := C67_walk G hn
  set todo := (inputs.zipIdx.filter (fun x => decide (x.1 ≠ output))).map (fun x => (x.2, x.1)) with htodo
  have hlen : todo.length ≠ 0 := by
    obtain ⟨x, hx, hxo⟩ := hne
    obtain ⟨k, hk⟩ := List.mem_iff_getElem?.1 hx
    have := mem_todo.2 ⟨hk, hxo⟩
    intro h0
    rw [← htodo, List.eq_nil_of_length_eq_zero h0] at this
    cases this
  have hok : hasPath G output inputs =
      .ok (.flags (searchPaths G ps todo (inputs.map (fun x => decide (x = output))))) := by
    rw [hasPath, hn]
    simp only [p1]
    rw [if_neg]
    exact hlen
  refine ⟨_, hok, (C67_sound G hok).1, ?_⟩
  intro k x hx
  have hkl : k + 1 < inputs.length := (List.getElem?_eq_some_iff.1 hx).1
  constructor
  · intro h
    obtain ⟨y, hy, hc⟩ := (C67_sound G hok).2 _ h
    rw [hx] at hy
    injection hy with hy
    exact hy ▸ hc
  · intro hc
    by_cases hxo : x = output
    · apply search_mono
      rw [List.getElem?_map, hx]
      simp [hxo]
    · rcases hc with h | ⟨n', p, hn', hp, hm⟩
      · exact absurd h hxo
      · rw [hn] at hn'
        injection hn' with hn'
        subst hn'
        refine search_complete G ps todo _ ?_ (mem_todo.2 ⟨hx, hxo⟩) (by simpa using hkl) ((p3 p).2 hp) (gradMatch_iff.2 hm)
        rintro q ⟨a, y⟩ hy ⟨b, z⟩ hz h1 h2
        obtain ⟨y1, y2⟩ := mem_todo.1 hy
        obtain ⟨z1, z2⟩ := mem_todo.1 hz
        have e : y = z := hone q y (List.mem_of_getElem? y1) z (List.mem_of_getElem? z1) (gradMatch_iff.1 h1) (gradMatch_iff.1 h2)
        subst e
        obtain ⟨a1, a2⟩ := List.getElem?_eq_some_iff.1 y1
        obtain ⟨b1, b2⟩ := List.getElem?_eq_some_iff.1 z1
        have : a = b := (List.Nodup.getElem_inj_iff hnd).1 (a2.trans b2.symm)
        rw [this]

/-- C67 is false for the first input: unless it is the output itself its flag is never set, in any graph, because
`if found_i` is false for the index 0. -/
theorem C67_first_refuted (G : GradGraph N T) {output x : T} {inputs : List T} {l : List Bool} (hx : x ≠ output)
    (h : hasPath G output (x :: inputs) = .ok (.flags l)) : l[0]? = some false := by
  rw [hasPath] at h
  split at h
  · injection h with h
    injection h with h
    subst h
    rfl
  · dsimp only at h
    split at h
    · cases h
    · split at h
      · cases h
      · injection h with h
        injection h with h
        subst h
        rw [search_zero]
        simp [hx]

/-- C67 is false when all inputs are the output: the function returns the number `False` although the inputs are
connected, and for a stochastic output with such a parameter it raises a TypeError. -/
theorem C67_same_refuted (G : GradGraph N T) {output sample : T} {n m : N} (hn : G.gradFn output = some n)
    (hm : G.gradFn sample = some m) (k : Nat) (params : List T) :
    hasPath G output (List.replicate k output) = .ok .noSearch ∧ GradConnected G output output ∧
      hasPathStoch G sample (output :: params) (List.replicate k output) = .error .type := by
  have h : hasPath G output (List.replicate k output) = .ok .noSearch := by
    rw [hasPath, hn]
    have : (List.filter (fun x : T × Nat => decide (x.1 ≠ output)) (List.replicate k output).zipIdx) = [] := by
      rw [List.filter_eq_nil_iff]
      rintro ⟨a, b⟩ hab
      have h1 := List.mem_zipIdx_iff_getElem?.1 hab
      have h2 : a = output := List.eq_of_mem_replicate (List.mem_of_getElem? h1)
      simp [h2]
    simp only [this, List.map_nil, List.length_nil, if_true]
  refine ⟨h, .inl rfl, ?_⟩
  rw [hasPathStoch, hm, orPaths, h]

theorem orPaths_sound (G : GradGraph N T) {inputs : List T} (params : List T) {has l : List Bool}
    (h : orPaths G inputs params has = .ok l) {k : Nat} (hk : l[k]? = some true) :
    has[k]? = some true ∨ ∃ p ∈ params, ∃ x, inputs[k]? = some x ∧ GradConnected G p x := by
  induction params generalizing has with
  | nil => rw [orPaths] at h; injection h with h; subst h; exact .inl hk
  | cons p ps ih =>
    rw [orPaths] at h
    split at h
    · cases h
    · cases h
    · rename_i l' hl'
      rcases ih h with h1 | ⟨p', h1, h2⟩
      · rw [List.getElem?_zipWith] at h1
        cases ha : has[k]? with
        | none => simp [ha] at h1
        | some a =>
          cases hb : l'[k]? with
          | none => simp [ha, hb] at h1
          | some b =>
            simp only [ha, hb, Option.some.injEq, Bool.or_eq_true] at h1
            rcases h1 with rfl | rfl
            · exact .inl rfl
            · obtain ⟨x, hx, hc⟩ := (C67_sound G hl').2 k hb
              exact .inr ⟨p, List.mem_cons_self, x, hx, hc⟩
      · exact .inr ⟨p', List.mem_cons_of_mem _ h1, h2⟩

/-- C67, soundness for stochastic outputs: every flag that is set belongs to an input that is connected to one of the
parameters of the distribution. -/
theorem C67_stochastic (G : GradGraph N T) {output : T} {params inputs : List T} {l : List Bool}
    (h : hasPathStoch G output params inputs = .ok (.flags l)) {k : Nat} (hk : l[k]? = some true) :
    ∃ p ∈ params, ∃ x, inputs[k]? = some x ∧ GradConnected G p x := by
  have hf : ∀ {m : List T}, ¬ ((m.map fun _ => false)[k]? = some true) := by
    intro m h'
    rw [List.getElem?_map] at h'
    cases hx : m[k]? <;> simp [hx] at h'
  rw [hasPathStoch] at h
  split at h
  · injection h with h
    injection h with h
    subst h
    exact absurd hk hf
  · split at h
    · cases h
    · rename_i l' hl'
      injection h with h
      injection h with h
      subst h
      rcases orPaths_sound G params hl' hk with h1 | h1
      · exact absurd h1 hf
      · exact h1

/-! ### Cases -/

namespace GradCase

/-- `out = x * y`, where `x` and `y` are leaves and `z` is not part of the graph: nodes 0 (the multiplication), 1 and 2
(the leaves); tensors 0 (`out`), 1 (`x`), 2 (`y`), 3 (`z`). -/
def G : GradGraph (Fin 3) (Fin 4) where
  next n := if n = 0 then [some 1, none, some 2] else []
  leaf n := if n = 1 then some 1 else if n = 2 then some 2 else none
  gradFn t := if t = 0 then some 0 else none

theorem connected (x : Fin 4) (hx : x = 1 ∨ x = 2) : GradConnected G 0 x := by
  rcases hx with rfl | rfl
  · exact .inr ⟨0, 1, rfl, .step .refl (by decide), .inl (by decide)⟩
  · exact .inr ⟨0, 2, rfl, .step .refl (by decide), .inl (by decide)⟩

end GradCase

/-- `C67_complete_partial` applies to the inputs `z`, `x`, `y`. -/
example : ∃ l, hasPath GradCase.G 0 [3, 1, 2] = .ok (.flags l) ∧ l[1]? = some true ∧ l[2]? = some true := by
  obtain ⟨l, h1, -, h2⟩ := C67_complete_partial GradCase.G (output := 0) (inputs := [3, 1, 2]) (n := 0) (by decide)
    ⟨1, by decide, by decide⟩ (by decide) (by decide)
  exact ⟨l, h1, (h2 0 1 rfl).2 (GradCase.connected 1 (.inl rfl)), (h2 1 2 rfl).2 (GradCase.connected 2 (.inr rfl))⟩

/-- `C67_first_refuted` applies: `x` is connected, but is the first input. -/
example : ∃ l, hasPath GradCase.G 0 [1, 2] = .ok (.flags l) ∧ l[0]? = some false ∧ GradConnected GradCase.G 0 1 := by
  obtain ⟨l, h1, -, -⟩ := C67_complete_partial GradCase.G (output := 0) (inputs := [1, 2]) (n := 0) (by decide)
    ⟨1, by decide, by decide⟩ (by decide) (by decide)
  exact ⟨l, h1, C67_first_refuted GradCase.G (by decide) h1, GradCase.connected 1 (.inl rfl)⟩

/-- A case for `C67_stochastic`: a distribution with the parameter `out`; the flag of `x` is set. -/
example : ∃ l, hasPathStoch GradCase.G 0 [0] [3, 1] = .ok (.flags l) ∧ l[1]? = some true := by
  have hw : walkBackward GradCase.G 0 = .ok [0, 1, 2] := by
    simp [walkBackward, walkQueue, GradCase.G]
  have h0 : GradCase.G.gradFn 0 = some 0 := by decide
  simp only [hasPathStoch, orPaths, hasPath, hw, h0]
  exact ⟨_, rfl, rfl⟩

/-- C67 is false for inputs that belong to the same node, here the same tensor given twice: only the first of them is
found. -/
theorem C67_shared_refuted :
    ∃ l, hasPath GradCase.G 0 [3, 1, 1] = .ok (.flags l) ∧ l = [false, true, false] ∧ GradConnected GradCase.G 0 1 := by
  have hw : walkBackward GradCase.G 0 = .ok [0, 1, 2] := by
    simp [walkBackward, walkQueue, GradCase.G]
  refine ⟨_, ?_, rfl, GradCase.connected 1 (.inl rfl)⟩
  have h0 : GradCase.G.gradFn 0 = some 0 := by decide
  rw [hasPath, hw, h0]
  rfl

end Storch
