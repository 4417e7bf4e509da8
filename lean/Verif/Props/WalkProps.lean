import Verif.Lemmas.WalkLemmas
import Mathlib.Data.Set.Finite.Basic
import Mathlib.Order.Interval.Set.Basic
import Mathlib.Order.Interval.Finset.Nat

/-!
# C18, C19: graph walks and the order of the surrogate loss
-/

namespace Storch

/-! ### Specification -/

/-- There is a link from `a` to `b` (a differentiable one, if only those count). -/
def Linked (ex : Links) (onlyDiff : Bool) (a b : Nat) : Prop :=
  ∃ d, (b, d) ∈ ex a ∧ (onlyDiff = true → d = true)

/-- `b` can be reached from `a` along links. -/
def Reaches (ex : Links) (onlyDiff : Bool) : Nat → Nat → Prop :=
  Relation.ReflTransGen (Linked ex onlyDiff)

/-- `b` is `n` links away from `a` along some path. -/
inductive Path (ex : Links) (onlyDiff : Bool) : Nat → Nat → Nat → Prop
  | nil (a) : Path ex onlyDiff 0 a a
  | snoc {n a b c} : Path ex onlyDiff n a b → Linked ex onlyDiff b c → Path ex onlyDiff (n + 1) a c

/-- `n` is the length of a shortest path from `a` to `b`. -/
def IsDist (ex : Links) (onlyDiff : Bool) (n a b : Nat) : Prop :=
  Path ex onlyDiff n a b ∧ ∀ m, Path ex onlyDiff m a b → n ≤ m

/-- `x` stands before `y` in the list. -/
def Before (l : List Nat) (x y : Nat) : Prop := ∃ l1 l2 l3, l = l1 ++ x :: l2 ++ y :: l3

/-- The order in which `surrogate_loss` visits the ancestors of a cost (inference.py:132). -/
def surrogateWalk : WalkCfg := { depthFirst := false, reverse := true }

/-! ### Lemmas -/

theorem mem_nexts {ex : Links} {od : Bool} {a b : Nat} : b ∈ nexts ex od a ↔ Linked ex od a b := by
  simp only [nexts, List.mem_map, List.mem_filter, Linked, Prod.exists]
  constructor
  · rintro ⟨x, d, ⟨h1, h2⟩, rfl⟩
    refine ⟨d, h1, ?_⟩
    intro h; subst h; simpa using h2
  · rintro ⟨d, h1, h2⟩
    refine ⟨b, d, ⟨h1, ?_⟩, rfl⟩
    cases od
    · simp
    · simp [h2 rfl]

theorem Path.reaches {ex : Links} {od : Bool} {n a b : Nat} (h : Path ex od n a b) : Reaches ex od a b := by
  induction h with
  | nil => exact .refl
  | snoc _ hl ih => exact ih.tail hl

theorem Reaches.path {ex : Links} {od : Bool} {a b : Nat} (h : Reaches ex od a b) : ∃ n, Path ex od n a b := by
  induction h with
  | refl => exact ⟨0, .nil _⟩
  | tail _ hl ih => obtain ⟨n, hn⟩ := ih; exact ⟨n + 1, hn.snoc hl⟩

theorem IsDist.unique {ex : Links} {od : Bool} {n m a b : Nat} (h : IsDist ex od n a b)
    (h' : IsDist ex od m a b) : n = m :=
  Nat.le_antisymm (h.2 _ h'.1) (h'.2 _ h.1)

/-- The result of the breadth-first loop: all reachable nodes, once each, by increasing distance. -/
theorem bfs_result {ex : Links} {od : Bool} {start : Nat} (hfin : {x | Reaches ex od start x}.Finite) :
    ∃ r N, (∀ fuel, N ≤ fuel → bfsLoop ex od false fuel [start] [start] [] = .ok r) ∧ r.Nodup ∧
      (∀ x, x ∈ r ↔ Reaches ex od start x) ∧
      ∃ d : Nat → Nat, (∀ x ∈ r, IsDist ex od (d x) start x) ∧ (r.map d).Pairwise (· ≤ ·) := by
  let V := hfin.toFinset
  have hV : ClosedIn ex od V := by
    intro v hv w hw
    simp only [V, Set.Finite.mem_toFinset, Set.mem_ofPred_eq] at hv ⊢
    exact hv.tail (mem_nexts.1 hw)
  obtain ⟨r, d, h1, h2, h3⟩ := bfsLoop_spec hV (P := fun n x => Path ex od n start x)
    (fun n v w h hw => h.snoc (mem_nexts.1 hw)) (V.card + 1) [start] [] (fun _ => 0)
    (by intro x hx; simp only [List.nil_append, List.mem_singleton] at hx; subst hx; exact hfin.mem_toFinset.2 Relation.ReflTransGen.refl)
    ⟨by simp, by intro x hx; simp only [List.nil_append, List.mem_singleton] at hx; subst hx; exact .nil _,
      by simp, by simp, by simp⟩ (by simp)
  have hmono : ∀ k, bfsLoop ex od false (V.card + 1 + k) [start] [start] [] = .ok r := by
    intro k
    induction k with
    | zero => simpa using h1
    | succ k ih => exact bfsLoop_mono ih
  have hcl := h2.closed
  have hnd := h2.nodup
  have hre := h2.reach
  have hso := h2.sorted
  simp only [List.append_nil] at hcl hnd hre hso
  have hst := h3 start (by simp)
  have hpath : ∀ n x, Path ex od n start x → x ∈ r ∧ d x ≤ n := by
    have : ∀ n a x, Path ex od n a x → a = start → x ∈ r ∧ d x ≤ n := by
      intro n a x h
      induction h with
      | nil a => rintro rfl; exact ⟨hst.1, by rw [hst.2]⟩
      | snoc _ hl ih =>
        intro ha
        have := ih ha
        have h' := hcl _ this.1 _ (mem_nexts.2 hl)
        exact ⟨h'.1, by omega⟩
    intro n x h
    exact this n start x h rfl
  refine ⟨r, V.card + 1, ?_, hnd, ?_, d, ?_, hso⟩
  · intro fuel hf
    obtain ⟨k, rfl⟩ := Nat.exists_eq_add_of_le hf
    exact hmono k
  · intro x
    constructor
    · intro h; exact (hre x h).reaches
    · intro h; obtain ⟨n, hn⟩ := h.path; exact (hpath n x hn).1
  · intro x hx
    exact ⟨hre x hx, fun m hm => (hpath m x hm).2⟩

theorem before_of_sorted {d : Nat → Nat} {r : List Nat} (hs : (r.map d).Pairwise (· ≤ ·)) {x y : Nat}
    (hx : x ∈ r) (hy : y ∈ r) (h : d y < d x) : Before r.reverse x y := by
  induction r with
  | nil => simp at hx
  | cons a r ih =>
    rw [List.map_cons, List.pairwise_cons] at hs
    rcases List.mem_cons.1 hx with rfl | hx'
    · rcases List.mem_cons.1 hy with rfl | hy'
      · omega
      · have := hs.1 _ (List.mem_map_of_mem hy')
        omega
    · rcases List.mem_cons.1 hy with rfl | hy'
      · obtain ⟨l1, l2, hl⟩ := List.append_of_mem (List.mem_reverse.2 hx')
        exact ⟨l1, l2, [], by rw [List.reverse_cons, hl]⟩
      · obtain ⟨l1, l2, l3, hl⟩ := ih hs.2 hx' hy'
        exact ⟨l1, l2, l3 ++ [a], by rw [List.reverse_cons, hl]; simp⟩

/-! ### Theorems -/

/-- C18: a walk over a finite graph, cyclic or not, terminates and yields exactly the nodes reachable
from the start node (which is included), each exactly once, for both strategies and both directions. -/
theorem C18_walk {ex : Links} {cfg : WalkCfg} (hrep : cfg.repeatVisited = false) {start : Nat}
    (hfin : {x | Reaches ex cfg.onlyDiff start x}.Finite) :
    ∃ r N, (∀ fuel, N ≤ fuel → walk ex cfg fuel start = .ok r) ∧ r.Nodup ∧
      ∀ x, x ∈ r ↔ Reaches ex cfg.onlyDiff start x := by
  obtain ⟨df, rev, od, rep⟩ := cfg
  simp only at hrep hfin ⊢
  subst hrep
  cases df with
  | true =>
    let V := hfin.toFinset
    have hV : ClosedIn ex od V := by
      intro v hv w hw
      simp only [V, Set.Finite.mem_toFinset, Set.mem_ofPred_eq] at hv ⊢
      exact hv.tail (mem_nexts.1 hw)
    obtain ⟨r, h1, h2, h3⟩ := dfsLoop_spec hV (P := fun x => Reaches ex od start x)
      (fun v w h hw => h.tail (mem_nexts.1 hw)) _ [start] []
      (by intro x hx; rw [List.mem_singleton] at hx; subst hx; exact hfin.mem_toFinset.2 Relation.ReflTransGen.refl)
      ⟨by simp, by intro x hx; simp only [List.mem_singleton, List.not_mem_nil, or_false] at hx; subst hx; exact .refl,
        by simp⟩ (Nat.lt_succ_self _)
    generalize ([start].length + ∑ v ∈ V \ ([] : List Nat).toFinset, (nexts ex od v).length).succ = N at h1
    refine ⟨r, N, ?_, h2.nodup, ?_⟩
    · intro fuel hf
      obtain ⟨k, rfl⟩ := Nat.exists_eq_add_of_le hf
      simp only [walk, if_true]
      clear hf
      induction k with
      | zero => exact h1
      | succ k ih => exact dfsLoop_mono ih
    · intro x
      constructor
      · intro hx; exact h2.reach x (Or.inr hx)
      · intro hx
        induction hx with
        | refl => exact h3 start (Or.inl (by simp))
        | tail _ hl ih =>
          rcases h2.closed _ ih _ (mem_nexts.2 hl) with h | h
          · simp at h
          · exact h
  | false =>
    obtain ⟨r, N, h1, h2, h3, _⟩ := bfs_result hfin
    refine ⟨if rev then r.reverse else r, N, ?_, ?_, ?_⟩
    · intro fuel hf
      simp [walk, h1 fuel hf]
    · cases rev
      · simpa using h2
      · simpa using h2
    · intro x
      cases rev
      · simpa using h3 x
      · simpa using h3 x

/-- C19, the part that holds: of two ancestors of the cost, the one further away from the cost is
processed first.  Missing: an ancestor that also has a short path to the cost can be processed after its
descendants (`C19_refuted`). -/
theorem C19_by_distance_partial {parents : Links} {c : Nat}
    (hfin : {x | Reaches parents false c x}.Finite) :
    ∃ r N, (∀ fuel, N ≤ fuel → walk parents surrogateWalk fuel c = .ok r) ∧ r.Nodup ∧
      (∀ x, x ∈ r ↔ Reaches parents false c x) ∧
      ∀ x y m n, IsDist parents false m c x → IsDist parents false n c y → n < m → Before r x y := by
  obtain ⟨r, N, h1, h2, h3, d, h4, h5⟩ := bfs_result hfin
  refine ⟨r.reverse, N, ?_, by simpa using h2, by simpa using h3, ?_⟩
  · intro fuel hf
    simp [walk, surrogateWalk, h1 fuel hf]
  · intro x y m n hx hy hlt
    have hxr := (h3 x).2 hx.1.reaches
    have hyr := (h3 y).2 hy.1.reaches
    refine before_of_sorted h5 hxr hyr ?_
    rw [(h4 x hxr).unique hx, (h4 y hyr).unique hy]
    exact hlt

/-- C19 for layered graphs, such as chains: when all paths from the cost to a node have the same length,
every ancestor is processed before its descendants. -/
theorem C19_layered_partial {parents : Links} {c : Nat}
    (hfin : {x | Reaches parents false c x}.Finite)
    (hlay : ∀ x m n, Path parents false m c x → Path parents false n c x → m = n) :
    ∃ r N, (∀ fuel, N ≤ fuel → walk parents surrogateWalk fuel c = .ok r) ∧
      (∀ x, x ∈ r ↔ Reaches parents false c x) ∧
      ∀ x y, Reaches parents false c y → Relation.TransGen (Linked parents false) y x → Before r x y := by
  obtain ⟨r, N, h1, _, h3, h4⟩ := C19_by_distance_partial hfin
  refine ⟨r, N, h1, h3, ?_⟩
  intro x y hy hyx
  obtain ⟨n, hn⟩ := hy.path
  have : ∃ m, n < m ∧ Path parents false m c x := by
    clear h4
    induction hyx with
    | single hl => exact ⟨n + 1, by omega, hn.snoc hl⟩
    | tail _ hl ih => obtain ⟨m, hm, hp⟩ := ih; exact ⟨m + 1, by omega, hp.snoc hl⟩
  obtain ⟨m, hm, hp⟩ := this
  exact h4 x y m n ⟨hp, fun k hk => (hlay x m k hp hk).le⟩ ⟨hn, fun k hk => (hlay y n k hn hk).le⟩ hm

/-- The parent links of `cost = f(z0, z1)` with `z1` sampled given `z0`: 0 is `z0`, 1 is `z1`, 2 the
result of `f`, 3 the cost. -/
def diamond : Links
  | 1 => [(0, false)]
  | 2 => [(0, false), (1, false)]
  | 3 => [(2, false)]
  | _ => []

/-- C19 is false: in the acyclic graph `diamond` the sample `z1` is processed before its ancestor
`z0`. -/
theorem C19_refuted :
    (∀ a b, Linked diamond false a b → b < a) ∧ Linked diamond false 1 0 ∧
      walk diamond surrogateWalk 5 3 = .ok [1, 0, 2, 3] ∧ Before [1, 0, 2, 3] 1 0 := by
  refine ⟨?_, ⟨false, by simp [diamond], by simp⟩, by rfl, ⟨[], [], [2, 3], rfl⟩⟩
  rintro a b ⟨d, h, _⟩
  unfold diamond at h
  split at h <;> simp only [List.mem_cons, Prod.mk.injEq, List.not_mem_nil, or_false] at h
  · omega
  · omega
  · omega

/-! ### Hypotheses met: a cyclic graph for C18, a chain for C19 -/

/-- 0 → 1 → 2 → 0 and 1 → 3. -/
def cyclicEx : Links
  | 0 => [(1, false)]
  | 1 => [(2, false), (3, true)]
  | 2 => [(0, false)]
  | _ => []

theorem linked_lt {ex : Links} {od : Bool} {k : Nat} (h : ∀ a, ∀ e ∈ ex a, e.1 < k) {s : Nat} (hs : s < k) :
    {x | Reaches ex od s x}.Finite := by
  apply Set.Finite.subset (Finset.finite_toSet (Finset.range k))
  intro x hx
  rw [Finset.mem_coe, Finset.mem_range]
  rcases Relation.ReflTransGen.cases_tail hx with h' | ⟨y, _, d, hd, _⟩
  · subst h'; exact hs
  · exact h y _ hd

/-- A case for `C18_walk`: a graph with a cycle, walked with both strategies. -/
example : {x | Reaches cyclicEx false 0 x}.Finite ∧
    walk cyclicEx {} 10 0 = .ok [0, 1, 3, 2] ∧
    walk cyclicEx { depthFirst := false } 10 0 = .ok [0, 1, 2, 3] := by
  refine ⟨linked_lt (k := 4) ?_ (by decide), by rfl, by rfl⟩
  intro a e he
  unfold cyclicEx at he
  split at he <;> simp only [List.mem_cons, List.not_mem_nil, or_false] at he
  · subst he; decide
  · rcases he with rfl | rfl <;> decide
  · subst he; decide

/-- 3 → 2 → 1 → 0. -/
def chainEx : Links
  | 0 => []
  | n + 1 => [(n, false)]

theorem chainEx_path {m a x : Nat} (h : Path chainEx false m a x) : a = x + m := by
  induction h with
  | nil => rfl
  | snoc _ hl ih =>
    rename_i n a b c _
    obtain ⟨d, hd, _⟩ := hl
    cases b with
    | zero => simp [chainEx] at hd
    | succ b => simp only [chainEx, List.mem_singleton, Prod.mk.injEq] at hd; omega

/-- A case for `C19_layered_partial`: a chain. -/
example : (∀ x m n, Path chainEx false m 3 x → Path chainEx false n 3 x → m = n) ∧
    walk chainEx surrogateWalk 10 3 = .ok [0, 1, 2, 3] :=
  ⟨fun x m n h h' => by have := chainEx_path h; have := chainEx_path h'; omega, by rfl⟩

end Storch
