import Verif.Lemmas.TopoLemmas
import Verif.Props.WalkProps
import Mathlib.Order.WellFounded
import Mathlib.Data.Fintype.Card
import Mathlib.Order.RelClasses
import Std.Data.String.ToNat

/-!
# C24, C25: `topological_sort` and `print_graph`
-/

namespace Storch

/-! ### Specification -/

/-- `n` lists `p` as a parent as often as `p` lists `n` as a child. -/
def Mirrored (parents kids : Links) : Prop :=
  ∀ p n, ((kids p).map Prod.fst).count n = ((parents n).map Prod.fst).count p

/-- `x` is one of the costs or an ancestor of one. -/
def LeadsTo (parents : Links) (costs : List Nat) (x : Nat) : Prop :=
  ∃ c ∈ costs, Reaches parents false c x

/-- The pairs of a node and its label in the printed lines. -/
def Line.labels : Line → List (Nat × String)
  | .node n l => [(n, l)]
  | .edge p lp _ n ln => [(p, lp), (n, ln)]

/-! ### C24 -/

theorem mirrored_linked {parents kids : Links} (h : Mirrored parents kids) {a b : Nat} :
    Linked kids false a b ↔ Linked parents false b a := by
  have h1 : ∀ (ex : Links) (a b : Nat), Linked ex false a b ↔ b ∈ (ex a).map Prod.fst := by
    intro ex a b
    simp [Linked]
  rw [h1, h1, ← List.count_pos_iff, ← List.count_pos_iff, h]

/-- C24: on a graph with mirrored links in which the ancestors of the costs are finitely many,
`topological_sort` of distinct leaf costs terminates without error, lists each node at most once, only
costs and ancestors of costs, and every node after all its children. -/
theorem C24_topological {isCost : Nat → Bool} {parents kids : Links} {costs : List Nat}
    (hmir : Mirrored parents kids) (hnd : costs.Nodup)
    (hcost : ∀ c ∈ costs, isCost c = true ∧ kids c = [])
    (hfin : {x | LeadsTo parents costs x}.Finite) :
    ∃ r N, (∀ fuel, N ≤ fuel → topologicalSort isCost parents kids fuel costs = .ok r) ∧ r.Nodup ∧
      (∀ x ∈ r, LeadsTo parents costs x) ∧ (∀ c ∈ costs, c ∈ r) ∧
      (∀ x ∈ r, ∀ k, Linked kids false x k → Before r k x) ∧
      -- all ancestors are listed when every descendant of an ancestor leads to a cost
      ((∀ x, ¬ Relation.TransGen (Linked parents false) x x) →
        (∀ x k, LeadsTo parents costs x → Reaches kids false x k → LeadsTo parents costs k) →
        ∀ x, LeadsTo parents costs x → x ∈ r) := by
  let V := hfin.toFinset
  have hstep : ∀ x p, LeadsTo parents costs x → p ∈ (parents x).map Prod.fst → LeadsTo parents costs p := by
    rintro x p ⟨c, hc, hr⟩ hp
    obtain ⟨e, he, rfl⟩ := List.mem_map.1 hp
    exact ⟨c, hc, hr.tail ⟨e.2, he, by simp⟩⟩
  obtain ⟨r, edges, h1, h2⟩ := topoLoop_spec (costs := costs) (P := LeadsTo parents costs) (V := V)
    (fun p n => hmir p n) (fun c hc => (hcost c hc).2) hstep
    (fun x hx => hfin.mem_toFinset.2 hx) (V.card + 1) costs.reverse [] (fun _ => none)
    ⟨by simpa using hnd, by intro p m; simp [waiting, kidCount], by intro p; simp,
      by intro x hx; exact ⟨x, by simpa using hx, .refl⟩,
      by
        intro x hx k hk
        rw [(hcost x (by simpa using hx)).2] at hk
        simp at hk,
      by intro l1 x l2 h; simp at h⟩ (by simp)
  have hmono : ∀ k, topoLoop parents kids (V.card + 1 + k) costs.reverse [] (fun _ => none) = .ok r := by
    intro k
    induction k with
    | zero => exact h1
    | succ k ih => exact topoLoop_mono ih
  have hmem := h2.mem
  have hnd' := h2.nodup
  have hre := h2.reach
  simp only [List.append_nil] at hmem hnd' hre
  refine ⟨r, V.card + 1, ?_, hnd', hre, fun c hc => (hmem c).2 (Or.inl hc), ?_, ?_⟩
  · intro fuel hf
    obtain ⟨k, rfl⟩ := Nat.exists_eq_add_of_le hf
    rw [topologicalSort, if_neg, hmono k]
    simp only [Bool.not_eq_true, List.any_eq_false]
    intro c hc
    simp [hcost c hc]
  · intro x hx k hk
    obtain ⟨l1, l2, hl⟩ := List.append_of_mem hx
    obtain ⟨d, hd, _⟩ := hk
    have := h2.order l1 x l2 hl k (List.mem_map.2 ⟨(k, d), hd, rfl⟩)
    obtain ⟨m1, m2, hm⟩ := List.append_of_mem this
    exact ⟨m1, m2, l2, by rw [hl, hm]⟩
  · intro hac hdesc
    -- the children order on the finite set of ancestors is well-founded
    let R : V → V → Prop := fun a b => Relation.TransGen (Linked parents false) a.1 b.1
    have : IsTrans V R := ⟨fun a b c h h' => h.trans h'⟩
    have : Std.Irrefl R := ⟨fun a h => hac a.1 h⟩
    have hwf : WellFounded R := Finite.wellFounded_of_trans_of_irrefl R
    have key : ∀ x : V, x.1 ∈ r := by
      intro x
      induction x using hwf.induction with
      | _ x ih =>
        obtain ⟨x, hx⟩ := x
        have hxl : LeadsTo parents costs x := hfin.mem_toFinset.1 hx
        have hkids : ∀ k ∈ (kids x).map Prod.fst, k ∈ r := by
          intro k hk
          obtain ⟨e, he, rfl⟩ := List.mem_map.1 hk
          have hl : Linked kids false x e.1 := ⟨e.2, he, by simp⟩
          have hkl := hdesc x e.1 hxl (.single hl)
          exact ih ⟨e.1, hfin.mem_toFinset.2 hkl⟩ (.single ((mirrored_linked hmir).1 hl))
        by_cases hc : x ∈ costs
        · exact (hmem x).2 (Or.inl hc)
        · rw [hmem]
          right
          obtain ⟨c, hcc, hr⟩ := hxl
          rcases Relation.ReflTransGen.cases_tail hr with h | ⟨y, _, hyx⟩
          · exact absurd (h ▸ hcc) hc
          · have hne : y ∈ (kids x).map Prod.fst := by
              obtain ⟨d, hd, _⟩ := (mirrored_linked hmir).2 hyx
              exact List.mem_map.2 ⟨(y, d), hd, rfl⟩
            have hempty : waiting kids edges x = [] := by
              rw [List.eq_nil_iff_forall_not_mem]
              intro m hm
              have hcnt := h2.count x m
              by_cases hmr : m ∈ r
              · rw [if_pos hmr] at hcnt
                exact absurd (List.count_pos_iff.2 hm) (by omega)
              · rw [if_neg hmr] at hcnt
                have := List.count_pos_iff.2 hm
                rw [hcnt] at this
                exact hmr (hkids m (List.count_pos_iff.1 this))
            rw [waiting] at hempty
            cases he : edges x with
            | some c => rw [he] at hempty; simp only at hempty; rw [hempty]
            | none => rw [he] at hempty; simp only at hempty; rw [hempty] at hne; simp at hne
    intro x hx
    exact key ⟨x, hfin.mem_toFinset.2 hx⟩

/-! ### C25 -/

theorem bracket_inj {a b d e : List Char} (hd : '[' ∉ d) (he : '[' ∉ e)
    (h : a ++ '[' :: d = b ++ '[' :: e) : a = b ∧ d = e := by
  induction a generalizing b with
  | nil =>
    cases b with
    | nil => simpa using h
    | cons x b =>
      simp only [List.nil_append, List.cons_append, List.cons.injEq] at h
      exact absurd (by rw [h.2]; simp) hd
  | cons x a ih =>
    cases b with
    | nil =>
      simp only [List.nil_append, List.cons_append, List.cons.injEq] at h
      exact absurd (by rw [← h.2]; simp) he
    | cons y b =>
      simp only [List.cons_append, List.cons.injEq] at h
      have := ih h.2
      exact ⟨by rw [h.1, this.1], this.2⟩

/-- A label determines its base and its number. -/
theorem nodeLabel_inj {a b : String} {i j : Nat} (h : nodeLabel a i = nodeLabel b j) : a = b ∧ i = j := by
  have hno : ∀ k : Nat, '[' ∉ (Nat.repr k).toList := by
    intro k hk
    rw [Nat.toList_repr] at hk
    exact absurd (Nat.isDigit_of_mem_toDigits (by decide) (by decide) hk) (by decide)
  have h' := congrArg String.toList h
  simp only [nodeLabel, String.toList_append] at h'
  have h2 : ∀ (x : String) (k : Nat), x.toList ++ "[".toList ++ (Nat.repr k).toList ++ "]".toList =
      (x.toList ++ '[' :: (Nat.repr k).toList) ++ [']'] := by intro x k; simp
  rw [h2, h2] at h'
  have h3 := (List.append_inj' h' rfl).1
  have h4 := bracket_inj (hno i) (hno j) h3
  exact ⟨String.toList_inj.1 h4.1, Nat.repr_injective (String.toList_inj.1 h4.2)⟩

/-- Every name given so far has a number below the counter of its base, and no name was given twice. -/
structure NamesOK (st : PrintState) : Prop where
  form : ∀ n s, st.names n = some s → ∃ b k m, s = nodeLabel b k ∧ st.counters b = some m ∧ k < m
  inj : ∀ m n s, st.names m = some s → st.names n = some s → m = n

theorem freshLabel_spec (c : String → Option Nat) (b : String) :
    ∃ k, (freshLabel c b).1 = nodeLabel b k ∧ (∀ m, c b = some m → k = m) ∧
      (freshLabel c b).2 b = some (k + 1) ∧ ∀ s, s ≠ b → (freshLabel c b).2 s = c s := by
  unfold freshLabel
  cases h : c b with
  | none => exact ⟨0, by simp, by simp, by simp, fun s hs => by simp [hs]⟩
  | some m => exact ⟨m, by simp, by simp, by simp, fun s hs => by simp [hs]⟩

theorem getName_spec (info : Nat → PrintNode) (n : Nat) {st : PrintState} (h : NamesOK st) :
    NamesOK (getName info n st).2 ∧ (getName info n st).2.names n = some (getName info n st).1 ∧
      ∀ m s, st.names m = some s → (getName info n st).2.names m = some s := by
  unfold getName
  cases hn : st.names n with
  | some s => exact ⟨h, hn, fun _ _ h => h⟩
  | none =>
    simp only
    generalize (info n).base = base
    obtain ⟨k, h1, h2, h3, h4⟩ := freshLabel_spec st.counters base
    have hfresh : ∀ m s, st.names m = some s → s ≠ (freshLabel st.counters base).1 := by
      intro m s hm he
      obtain ⟨b, j, c, g1, g2, g3⟩ := h.form m s hm
      rw [h1, g1] at he
      have := nodeLabel_inj he
      obtain ⟨rfl, rfl⟩ := this
      have := h2 c g2
      omega
    refine ⟨⟨?_, ?_⟩, by simp, ?_⟩
    · intro m s hm
      by_cases hmn : m = n
      · simp only [hmn, if_true, Option.some.injEq] at hm
        exact ⟨base, k, k + 1, by rw [← hm, h1], h3, by omega⟩
      · simp only [hmn, if_false] at hm
        obtain ⟨b, j, c, g1, g2, g3⟩ := h.form m s hm
        by_cases hb : b = base
        · subst hb
          exact ⟨b, j, k + 1, g1, h3, by have := h2 c g2; omega⟩
        · exact ⟨b, j, c, g1, by simp only [h4 b hb, g2], g3⟩
    · intro a b s ha hb
      by_cases han : a = n <;> by_cases hbn : b = n
      · rw [han, hbn]
      · simp only [han, hbn, if_true, if_false, Option.some.injEq] at ha hb
        exact absurd ha.symm (hfresh b s hb)
      · simp only [han, hbn, if_true, if_false, Option.some.injEq] at ha hb
        exact absurd hb.symm (hfresh a s ha)
      · simp only [han, hbn, if_false] at ha hb
        exact h.inj a b s ha hb
    · intro m s hm
      by_cases hmn : m = n
      · rw [hmn, hn] at hm; cases hm
      · simp [hmn, hm]

theorem NamesOK.init : NamesOK PrintState.init := ⟨by simp [PrintState.init], by simp [PrintState.init]⟩

theorem printNodes_spec (info : Nat → PrintNode) (ns : List Nat) : ∀ {st}, NamesOK st →
    NamesOK (printNodes info ns st).2 ∧
      (∀ l ∈ (printNodes info ns st).1, ∀ e ∈ l.labels, (printNodes info ns st).2.names e.1 = some e.2) ∧
      ∀ m s, st.names m = some s → (printNodes info ns st).2.names m = some s := by
  induction ns with
  | nil => intro st h; exact ⟨h, by simp [printNodes], fun _ _ h => h⟩
  | cons n ns ih =>
    intro st h
    obtain ⟨g1, g2, g3⟩ := getName_spec info n h
    obtain ⟨i1, i2, i3⟩ := ih g1
    refine ⟨i1, ?_, fun m s hm => i3 m s (g3 m s hm)⟩
    intro l hl e he
    simp only [printNodes, List.mem_cons] at hl
    rcases hl with rfl | hl
    · simp only [Line.labels, List.mem_singleton] at he
      subst he
      exact i3 _ _ g2
    · exact i2 l hl e he

theorem printEdges_spec (info : Nat → PrintNode) (n : Nat) (ln : String) (ps : List (Nat × Bool)) :
    ∀ {st}, NamesOK st → st.names n = some ln →
      NamesOK (printEdges info n ln ps st).2 ∧
      (∀ l ∈ (printEdges info n ln ps st).1, ∀ e ∈ l.labels,
        (printEdges info n ln ps st).2.names e.1 = some e.2) ∧
      ∀ m s, st.names m = some s → (printEdges info n ln ps st).2.names m = some s := by
  induction ps with
  | nil => intro st h _; exact ⟨h, by simp [printEdges], fun _ _ h => h⟩
  | cons p ps ih =>
    obtain ⟨p, d⟩ := p
    intro st h hln
    obtain ⟨g1, g2, g3⟩ := getName_spec info p h
    obtain ⟨i1, i2, i3⟩ := ih g1 (g3 _ _ hln)
    refine ⟨i1, ?_, fun m s hm => i3 m s (g3 m s hm)⟩
    intro l hl e he
    simp only [printEdges, List.mem_cons] at hl
    rcases hl with rfl | hl
    · simp only [Line.labels, List.mem_cons, List.not_mem_nil, or_false] at he
      rcases he with rfl | rfl
      · exact i3 _ _ g2
      · exact i3 _ _ (g3 _ _ hln)
    · exact i2 l hl e he

theorem printAllEdges_spec (info : Nat → PrintNode) (parents : Links) (ns : List Nat) :
    ∀ {st}, NamesOK st →
      NamesOK (printAllEdges info parents ns st).2 ∧
      (∀ l ∈ (printAllEdges info parents ns st).1, ∀ e ∈ l.labels,
        (printAllEdges info parents ns st).2.names e.1 = some e.2) ∧
      ∀ m s, st.names m = some s → (printAllEdges info parents ns st).2.names m = some s := by
  induction ns with
  | nil => intro st h; exact ⟨h, by simp [printAllEdges], fun _ _ h => h⟩
  | cons n ns ih =>
    intro st h
    obtain ⟨g1, g2, g3⟩ := getName_spec info n h
    obtain ⟨e1, e2, e3⟩ := printEdges_spec info n (getName info n st).1 (parents n) g1 g2
    obtain ⟨i1, i2, i3⟩ := ih e1
    refine ⟨i1, ?_, fun m s hm => i3 m s (e3 m s (g3 m s hm))⟩
    intro l hl e he
    simp only [printAllEdges, List.mem_append] at hl
    rcases hl with hl | hl
    · exact i3 _ _ (e2 l hl e he)
    · exact i2 l hl e he

/-- C25: in everything `print_graph` prints, a node always has the same label and two different nodes
never have the same label, whatever names the user chose. -/
theorem C25_labels {info : Nat → PrintNode} {parents kids : Links} {fuel : Nat} {costs : List Nat}
    {lines : List Line} (h : printGraph info parents kids fuel costs = .ok lines) :
    ∀ l ∈ lines, ∀ l' ∈ lines, ∀ e ∈ l.labels, ∀ e' ∈ l'.labels, e.1 = e'.1 ↔ e.2 = e'.2 := by
  rw [printGraph] at h
  split at h
  · cases h
  · rename_i nodes _
    cases h
    obtain ⟨a1, a2, a3⟩ := printNodes_spec info nodes NamesOK.init
    obtain ⟨b1, b2, b3⟩ := printAllEdges_spec info parents nodes a1
    have key : ∀ l ∈ (printNodes info nodes PrintState.init).1 ++
        (printAllEdges info parents nodes (printNodes info nodes PrintState.init).2).1,
        ∀ e ∈ l.labels,
          (printAllEdges info parents nodes (printNodes info nodes PrintState.init).2).2.names e.1 = some e.2 := by
      intro l hl e he
      rcases List.mem_append.1 hl with hl | hl
      · exact b3 _ _ (a2 l hl e he)
      · exact b2 l hl e he
    intro l hl l' hl' e he e' he'
    have k1 := key l hl e he
    have k2 := key l' hl' e' he'
    constructor
    · intro heq
      rw [heq, k2] at k1
      exact (Option.some.inj k1).symm
    · intro heq
      rw [heq] at k1
      exact b1.inj _ _ _ k1 k2

/-- C25: what is printed: a line for every node of `topological_sort`, then a line for every parent link
of these nodes. -/
theorem C25_lines {info : Nat → PrintNode} {parents kids : Links} {fuel : Nat} {costs : List Nat}
    {lines : List Line} (h : printGraph info parents kids fuel costs = .ok lines) :
    ∃ nodes, topologicalSort (fun c => (info c).isCost) parents kids fuel costs = .ok nodes ∧
      lines.map (fun l => match l with
        | .node n _ => (n, none)
        | .edge p _ d n _ => (n, some (p, d))) =
      nodes.map (fun n => (n, none)) ++ nodes.flatMap (fun n => (parents n).map (fun e => (n, some e))) := by
  rw [printGraph] at h
  split at h
  · cases h
  · rename_i nodes hn
    cases h
    refine ⟨nodes, hn, ?_⟩
    rw [List.map_append]
    congr 1
    · generalize PrintState.init = st
      clear hn
      induction nodes generalizing st with
      | nil => rfl
      | cons n ns ih => simpa [printNodes] using ih _
    · generalize (printNodes info nodes PrintState.init).2 = st
      clear hn
      induction nodes generalizing st with
      | nil => rfl
      | cons n ns ih =>
        simp only [printAllEdges, List.map_append, List.flatMap_cons]
        rw [ih]
        congr 1
        generalize (getName info n st).1 = ln
        generalize (getName info n st).2 = st'
        generalize parents n = ps
        induction ps generalizing st' with
        | nil => rfl
        | cons p ps ihp => obtain ⟨p, d⟩ := p; simpa [printEdges] using ihp _

/-- What the label of a node starts with: its name, or a letter for its kind if it has none or an empty one. -/
def IsStem (i : PrintNode) (b : String) : Prop :=
  (∃ s, i.name = some s ∧ s ≠ "" ∧ b = s) ∨
    ((i.name = none ∨ i.name = some "") ∧
      ((i.stochastic = true ∧ b = "s") ∨ (i.stochastic = false ∧ i.isCost = true ∧ b = "c") ∨
        (i.stochastic = false ∧ i.isCost = false ∧ b = "d")))

theorem isStem_iff (i : PrintNode) (b : String) : IsStem i b ↔ b = i.base := by
  obtain ⟨nm, st, c⟩ := i
  cases nm with
  | none => cases st <;> cases c <;> simp [IsStem, PrintNode.base, PrintNode.kindLetter]
  | some s =>
    by_cases hs : s = ""
    · subst hs; cases st <;> cases c <;> simp [IsStem, PrintNode.base, PrintNode.kindLetter]
    · simp only [IsStem, PrintNode.base, hs, if_false, Option.some.injEq, reduceCtorEq, false_and, or_false]
      exact ⟨fun ⟨_, e, _, e'⟩ => e'.trans e.symm, fun e => ⟨s, rfl, hs, e⟩⟩

theorem printNodes_numbers (info : Nat → PrintNode) (ns : List Nat) : ∀ {st : PrintState}, ns.Nodup →
    (∀ n ∈ ns, st.names n = none) → ∀ pre n post, ns = pre ++ n :: post →
    (printNodes info ns st).1[pre.length]? = some (.node n (nodeLabel (info n).base
      ((st.counters (info n).base).getD 0 + (pre.filter fun m => (info m).base = (info n).base).length))) := by
  induction ns with
  | nil => intro st _ _ pre n post h; simp at h
  | cons a ns ih =>
    intro st hd hnone pre n post h
    have ha : st.names a = none := hnone a (by simp)
    cases pre with
    | nil =>
      simp only [List.nil_append, List.cons.injEq] at h
      obtain ⟨rfl, rfl⟩ := h
      simp only [printNodes, getName, ha, freshLabel, List.length_nil, List.getElem?_cons_zero, List.filter_nil, Nat.add_zero]
      cases st.counters (info a).base <;> rfl
    | cons q pre =>
      simp only [List.cons_append, List.cons.injEq] at h
      obtain ⟨rfl, rfl⟩ := h
      rw [List.nodup_cons] at hd
      have hnext : ∀ m ∈ pre ++ n :: post, (getName info a st).2.names m = none := by
        intro m hm
        have hma : m ≠ a := fun h => hd.1 (h ▸ hm)
        simp only [getName, ha, hma, if_false]
        exact hnone m (List.mem_cons_of_mem _ hm)
      have hi := ih hd.2 hnext pre n post rfl
      simp only [printNodes, List.length_cons, List.getElem?_cons_succ]
      rw [hi]
      congr 3
      simp only [getName, ha]
      obtain ⟨k, h1, h2, h3, h4⟩ := freshLabel_spec st.counters (info a).base
      by_cases hb : (info a).base = (info n).base
      · rw [← hb, h3]
        have : (st.counters (info a).base).getD 0 = k := by
          cases hc : st.counters (info a).base with
          | none =>
            have h5 := h3
            simp only [freshLabel, hc, if_true, Option.some.injEq] at h5
            simp only [Option.getD_none]; omega
          | some m => rw [h2 m hc]; rfl
        simp only [List.filter_cons, decide_true, if_true, List.length_cons, Option.getD_some, this]
        omega
      · rw [h4 _ (fun h => hb h.symm)]
        simp [hb]

/-- C25: which labels are printed.  The line of a node starts with its stem, that is its name or the letter of its kind, and the
number of nodes with the same stem in the lines before, starting from one for the stems "s", "c" and "d" and from zero for
others. -/
theorem C25_numbers {info : Nat → PrintNode} {parents kids : Links} {fuel : Nat} {costs : List Nat}
    {lines : List Line} (h : printGraph info parents kids fuel costs = .ok lines) {pre post : List Nat} {n : Nat}
    (hs : topologicalSort (fun c => (info c).isCost) parents kids fuel costs = .ok (pre ++ n :: post))
    (hd : (pre ++ n :: post).Nodup) {b : String} (hb : IsStem (info n) b) (stem : Nat → String)
    (hstem : ∀ m ∈ pre, IsStem (info m) (stem m)) :
    lines[pre.length]? = some (.node n (b ++ "[" ++
      toString ((if b = "s" ∨ b = "c" ∨ b = "d" then 1 else 0) + (pre.map stem).count b) ++ "]")) := by
  rw [printGraph, hs] at h
  simp only [Except.ok.injEq] at h
  have key := printNodes_numbers info _ (st := PrintState.init) hd (fun _ _ => rfl) pre n post rfl
  rw [(isStem_iff _ _).1 hb, ← h, List.getElem?_append_left (by
    obtain ⟨hl, -⟩ := List.getElem?_eq_some_iff.1 key
    exact hl), key]
  have hcount : (pre.filter fun m => (info m).base = (info n).base).length = (pre.map stem).count (info n).base := by
    rw [List.count, List.countP_map, List.countP_eq_length_filter]
    congr 1
    apply List.filter_congr
    intro m hm
    simp [(isStem_iff _ _).1 (hstem m hm), beq_eq_decide]
  have hinit : (PrintState.init.counters (info n).base).getD 0 =
      if (info n).base = "s" ∨ (info n).base = "c" ∨ (info n).base = "d" then 1 else 0 := by
    simp only [PrintState.init]
    split <;> rfl
  rw [hcount, hinit, nodeLabel]
  rfl

/-- C24: anything but a list of leaf costs is rejected with ValueError: a node that is not a cost, or a
cost on which something was computed. -/
theorem C24_rejects (isCost : Nat → Bool) (parents kids : Links) (fuel : Nat) (costs : List Nat)
    (h : ∃ c ∈ costs, isCost c = false ∨ kids c ≠ []) :
    topologicalSort isCost parents kids fuel costs = .error .value := by
  obtain ⟨c, hc, h⟩ := h
  rw [topologicalSort, if_pos]
  rw [List.any_eq_true]
  refine ⟨c, hc, ?_⟩
  rcases h with h | h
  · simp [h]
  · simp [h]

/-! ### Hypotheses met -/

/-- The child links of `diamond`, with a second use of 0 by 2. -/
def diamondKids : Links
  | 0 => [(1, false), (2, false)]
  | 1 => [(2, false)]
  | 2 => [(3, false)]
  | _ => []

/-- Names a user might choose; node 0 is called like the label of another one. -/
def diamondInfo : Nat → PrintNode
  | 0 => ⟨some "s[1]", true, false⟩
  | 1 => ⟨some "s", true, false⟩
  | 2 => ⟨none, false, false⟩
  | _ => ⟨some "c", false, true⟩

/-- A case for `C24_topological`: the ancestors of the cost of `diamond`. -/
example : Mirrored diamond diamondKids ∧ [3].Nodup ∧ {x | LeadsTo diamond [3] x}.Finite ∧
    (∀ c ∈ [3], (diamondInfo c).isCost = true ∧ diamondKids c = []) ∧
    topologicalSort (fun c => (diamondInfo c).isCost) diamond diamondKids 10 [3] = .ok [3, 2, 1, 0] := by
  refine ⟨?_, by decide, ?_, ?_, by rfl⟩
  · intro p n
    rcases p with _ | _ | _ | p <;> rcases n with _ | _ | _ | _ | n <;> simp [diamond, diamondKids]
  · apply Set.Finite.subset (linked_lt (ex := diamond) (od := false) (k := 4) (s := 3) ?_ (by decide))
    · rintro x ⟨c, hc, hr⟩
      rw [List.mem_singleton] at hc
      subst hc
      exact hr
    · intro a e he
      unfold diamond at he
      split at he <;> simp only [List.mem_cons, List.not_mem_nil, or_false] at he
      · subst he; decide
      · rcases he with rfl | rfl <;> decide
      · subst he; decide
  · intro c hc
    rw [List.mem_singleton] at hc
    subst hc
    exact ⟨rfl, rfl⟩

/-- A case for `C24_rejects`: sorting from node 2, on which the cost was computed, is rejected. -/
example : diamondKids 2 ≠ [] ∧
    topologicalSort (fun _ => true) diamond diamondKids 10 [2] = .error .value := by decide

/-- A case for `C25_labels` and `C25_lines`: the user's name `s[1]` of node 0 is the label generated for node 1. -/
example : ∃ lines, printGraph diamondInfo diamond diamondKids 10 [3] = .ok lines ∧
    (lines.flatMap Line.labels).take 4 = [(3, "c[1]"), (2, "d[1]"), (1, "s[1]"), (0, "s[1][0]")] :=
  ⟨_, rfl, by decide⟩

/-- A case for `C25_numbers`: the third line, of the node 1 with the name "s". -/
example : ∃ lines, printGraph diamondInfo diamond diamondKids 10 [3] = .ok lines ∧
    lines[2]? = some (.node 1 ("s" ++ "[" ++ toString (1 + 0) ++ "]")) := by
  refine ⟨_, rfl, ?_⟩
  exact C25_numbers (info := diamondInfo) (parents := diamond) (kids := diamondKids) (fuel := 10) (costs := [3]) rfl
    (pre := [3, 2]) (post := [0]) (n := 1) rfl (by decide) (b := "s") (Or.inl ⟨"s", rfl, by decide, rfl⟩)
    (fun m => if m = 3 then "c" else "d") (by
      intro m hm
      simp only [List.mem_cons, List.not_mem_nil, or_false] at hm
      rcases hm with rfl | rfl
      · exact Or.inl ⟨"c", rfl, by decide, rfl⟩
      · exact Or.inr ⟨Or.inl rfl, Or.inr (Or.inr ⟨rfl, rfl, rfl⟩)⟩)

/-- A case of `C25_numbers` where two nodes have the stem "c": an unnamed cost after one called "c". -/
example : ∃ lines, printGraph (fun n => if n = 0 then ⟨some "c", false, true⟩ else ⟨none, false, true⟩) (fun _ => []) (fun _ => [])
      10 [1, 0] = .ok lines ∧ lines.flatMap Line.labels = [(0, "c[1]"), (1, "c[2]")] :=
  ⟨_, rfl, by decide⟩

end Storch
