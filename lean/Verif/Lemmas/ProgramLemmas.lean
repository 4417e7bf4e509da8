import Verif.Model.Sampling
import Verif.Props.ScoreProps

/-! Runs of programs that sample with `MonteCarlo`. -/

namespace Storch

section plates
variable {α : Type _} [ValEq α]

theorem isIn_pool {pool ps : List (Plate α)} (hp : (pool.map Plate.name).Nodup) (hs : ∀ p ∈ ps, p ∈ pool)
    {p : Plate α} (hm : p ∈ pool) : p.isIn ps = true ↔ p ∈ ps := by
  rw [Plate.isIn_iff]
  constructor
  · rintro ⟨x, hx, he⟩
    exact pyEq_of_same_list hp (hs x hx) hm (Plate.pyEq_name he) ▸ hx
  · exact fun h => ⟨p, h, Plate.pyEq_refl _⟩

/-- Collecting plates of a pool. -/
theorem addPlates_pool {pool : List (Plate α)} (hp : (pool.map Plate.name).Nodup) (ps : List (Plate α)) :
    ∀ pre : List (Plate α), (∀ p ∈ pre, p ∈ pool) → (∀ p ∈ ps, p ∈ pool) → (pre.map Plate.name).Nodup →
      ((addPlates pre ps).map Plate.name).Nodup ∧ ∀ p, p ∈ addPlates pre ps ↔ p ∈ pre ∨ p ∈ ps := by
  induction ps with
  | nil => intro pre _ _ hn; exact ⟨hn, fun p => by simp [addPlates]⟩
  | cons q ps ih =>
    intro pre h1 h2 hn
    have hq := h2 q (by simp)
    rw [addPlates]
    by_cases hm : q.isIn pre = true
    · rw [if_pos hm]
      obtain ⟨i1, i2⟩ := ih pre h1 (fun p hp' => h2 p (List.mem_cons_of_mem _ hp')) hn
      have hm' := (isIn_pool hp h1 hq).1 hm
      refine ⟨i1, fun p => ?_⟩
      rw [i2 p, List.mem_cons]
      constructor
      · rintro (h | h)
        · exact Or.inl h
        · exact Or.inr (Or.inr h)
      · rintro (h | rfl | h)
        · exact Or.inl h
        · exact Or.inl hm'
        · exact Or.inr h
    · rw [if_neg hm]
      have hm' : q ∉ pre := fun h => hm ((isIn_pool hp h1 hq).2 h)
      obtain ⟨i1, i2⟩ := ih (pre ++ [q]) (by
          intro p hp'
          rcases List.mem_append.1 hp' with h | h
          · exact h1 p h
          · rw [List.mem_singleton.1 h]; exact hq)
        (fun p hp' => h2 p (List.mem_cons_of_mem _ hp')) (by
          rw [List.map_append, List.nodup_append]
          refine ⟨hn, by simp, ?_⟩
          intro a ha b hb e
          simp only [List.map_cons, List.map_nil, List.mem_singleton] at hb
          obtain ⟨x, hx, rfl⟩ := List.mem_map.1 ha
          exact hm' (pyEq_of_same_list hp (h1 x hx) hq (e.trans hb) ▸ hx))
      refine ⟨i1, fun p => ?_⟩
      rw [i2 p, List.mem_append, List.mem_singleton, List.mem_cons, or_assoc]

/-- The plates collected from storch tensors. -/
theorem callPlates_st (ts : List (Operand α)) :
    callPlates ts = (ts.map Operand.plates).foldl addPlates [] := by
  have key : ∀ (ts : List (Operand α)) (c : Coll α) (m : Nat),
      (collectList (ts.map Operand.val) c m).1.plates = (ts.map Operand.plates).foldl addPlates c.plates := by
    intro ts
    induction ts with
    | nil => intro c m; simp [collectList]
    | cons t ts ih =>
      intro c m
      cases t with
      | st t s => simp only [List.map_cons, collectList, Operand.val, Val.collect, List.foldl_cons, ih,
          Operand.plates]
      | torch t => simp only [List.map_cons, collectList, Operand.val, Val.collect, List.foldl_cons, ih,
          Operand.plates, addPlates]
  simp only [callPlates, collectArgs, opArgs, List.map_nil, collectList]
  rw [key]

/-- An element-wise call on scalar-valued operands, with the plates of the result in their order. -/
theorem opCall_plates {hook : UnwrapHook α} (hh : PlainHook hook) {pool : List (Plate α)}
    (hp : PoolOK pool) (f : List α → α) {ops : List (Operand α)} (h : ∀ o ∈ ops, ScalarOp pool o) :
    ∃ r, opCall hook f ops = .ok r ∧ ScalarOp pool r ∧ r.plates = callPlates ops ∧
      (∀ p, p ∈ r.plates ↔ ∃ o ∈ ops, p ∈ o.plates) ∧
      (∀ ι, r.at ι = f (ops.map (fun o => o.at ι))) ∧ (stens ops ≠ [] → ∃ t, r = .st t false) := by
  obtain ⟨r, r1, r2, r3, r4, r5⟩ := opCall_scalar hh hp f h
  refine ⟨r, r1, r2, ?_, r3, r4, r5⟩
  by_cases hst : stens ops = []
  · have hall : ∀ o ∈ ops, o.plates = [] := by
      intro o ho
      cases o with
      | st t s =>
        have : t ∈ stens ops := mem_stens.2 ⟨s, ho⟩
        rw [hst] at this; cases this
      | torch t => rfl
    have hr : r.plates = [] := by
      rw [List.eq_nil_iff_forall_not_mem]
      intro p hm
      obtain ⟨o, ho, hpo⟩ := (r3 p).1 hm
      rw [hall o ho] at hpo; cases hpo
    rw [hr, callPlates_st]
    have : ops.map Operand.plates = List.replicate ops.length [] := by
      rw [List.eq_replicate_iff]
      refine ⟨by simp, ?_⟩
      intro b hb
      obtain ⟨o, ho, rfl⟩ := List.mem_map.1 hb
      exact hall o ho
    rw [this]
    clear this
    induction ops.length with
    | zero => rfl
    | succ n ih => simpa [List.replicate_succ, addPlates] using ih
  · have hg := goodOps_pool hp h
    obtain ⟨r', e1, _, e3, _⟩ := elementwise_call hook hh f ops hg hst (by
        intro t ht
        have := h _ ht
        rw [ScalarOp] at this
        rw [Ten.ndim, this]; simp) [] (by
        rw [maxEv_scalar h]
        have : ops.map (Operand.evShape 0) = List.replicate ops.length [] := by
          rw [List.eq_replicate_iff]
          refine ⟨by simp, ?_⟩
          intro b hb
          obtain ⟨o, ho, rfl⟩ := List.mem_map.1 hb
          have := h o ho
          cases o with
          | st t s => simp [Operand.evShape, this.2.1]
          | torch t =>
            rw [ScalarOp] at this
            simp [Operand.evShape, this]
        rw [this]
        exact bshapes_nils _)
    have : opCall hook f ops = .ok (.st r' false) := by rw [opCall, e1]
    rw [this] at r1
    cases r1
    exact e3

end plates

section
variable {E : Type _} {θ₀ : E}

/-! ### The plates of the samples -/

/-- The plates of the tensor called `s`. -/
def platesIn (lay : List (String × List (Plate (AD E θ₀)))) (s : String) : List (Plate (AD E θ₀)) :=
  match lay.find? (fun e => e.1 == s) with
  | some e => e.2
  | none => []

/-- The plates of the tensors called `args`, each once. -/
noncomputable def argPlates (lay : List (String × List (Plate (AD E θ₀)))) (args : List String) :
    List (Plate (AD E θ₀)) := (args.map (platesIn lay)).foldl addPlates []

/-- Every sample has its own plate and those of the tensors its distribution is computed from. -/
noncomputable def layout (inv : Nat → AD E θ₀) : List (ScoreVar E) → List (String × List (Plate (AD E θ₀)))
  | [] => []
  | d :: ds => (d.name, mcPlate inv d.name d.n (argPlates (layout inv ds) d.args) ::
      argPlates (layout inv ds) d.args) :: layout inv ds

/-- All plates. -/
noncomputable def poolOf (inv : Nat → AD E θ₀) : List (ScoreVar E) → List (Plate (AD E θ₀))
  | [] => []
  | d :: ds => mcPlate inv d.name d.n (argPlates (layout inv ds) d.args) :: poolOf inv ds

/-- The indices of the entries of a sample. -/
def idxOf (ps : List (Plate (AD E θ₀))) : List (String × Nat) :=
  (ps.filter (fun p => decide (1 < p.n))).map (fun p => (p.name, p.n))

/-- The random variable that a sampling statement draws. -/
def ScoreVar.decl (d : ScoreVar E) (ps : List (Plate (AD E θ₀))) : Decl E ℝ :=
  ⟨d.name, idxOf ps, d.args, d.support, fun θ ρ v => d.prob (d.param θ (d.args.map ρ)) v⟩

/-- The program that a list of sampling statements (last to first) runs. -/
noncomputable def declsOf (inv : Nat → AD E θ₀) : List (ScoreVar E) → List (Decl E ℝ)
  | [] => []
  | d :: ds => declsOf inv ds ++ [d.decl (mcPlate inv d.name d.n (argPlates (layout inv ds) d.args) ::
      argPlates (layout inv ds) d.args)]

/-- Statements that make sense: new names, parameters computed from earlier samples, at least one sample,
and probabilities that sum to one. -/
def GoodVars : List (ScoreVar E) → Prop
  | [] => True
  | d :: ds => GoodVars ds ∧ d.name ∉ ds.map ScoreVar.name ∧ (∀ s ∈ d.args, s ∈ ds.map ScoreVar.name) ∧
      1 ≤ d.n ∧ ∀ π, ∑ v ∈ d.support, d.prob π v = 1

/-- What is known about the plates of the samples. -/
structure LayoutOK (inv : Nat → AD E θ₀) (vars : List (ScoreVar E)) : Prop where
  poolNames : (poolOf inv vars).map Plate.name = vars.map ScoreVar.name
  layNames : (layout inv vars).map Prod.fst = vars.map ScoreVar.name
  varNames : (vars.map ScoreVar.name).Nodup
  nodup : ∀ e ∈ layout inv vars, (e.2.map Plate.name).Nodup
  sub : ∀ e ∈ layout inv vars, ∀ p ∈ e.2, p ∈ poolOf inv vars
  closed : ∀ e ∈ layout inv vars, ∀ p ∈ e.2, ∀ q ∈ p.parents, q ∈ e.2
  made : ∀ p ∈ poolOf inv vars, 1 ≤ p.n ∧ p = mcPlate inv p.name p.n p.parents
  up : ∀ p ∈ poolOf inv vars, ∀ q ∈ p.parents, q ∈ poolOf inv vars ∧ ∀ r ∈ q.parents, r ∈ p.parents
  rank : ∃ rank : String → Nat, (∀ s ∈ vars.map ScoreVar.name, rank s < vars.length) ∧
    ∀ a b, ParentOf (poolOf inv vars) a b → rank a < rank b

theorem LayoutOK.platesIn_mem {inv : Nat → AD E θ₀} {vars : List (ScoreVar E)} (h : LayoutOK inv vars)
    {s : String} (hs : s ∈ vars.map ScoreVar.name) : (s, platesIn (layout inv vars) s) ∈ layout inv vars := by
  rw [← h.layNames] at hs
  obtain ⟨e, he, rfl⟩ := List.mem_map.1 hs
  have : ((layout inv vars).find? (fun x => x.1 == e.1)).isSome = true := by
    rw [List.find?_isSome]; exact ⟨e, he, by simp⟩
  obtain ⟨x, hx⟩ := Option.isSome_iff_exists.1 this
  have h1 := List.find?_some hx
  have h2 := List.mem_of_find?_eq_some hx
  rw [platesIn, hx]
  simp only [beq_iff_eq] at h1
  rw [← h1]
  exact h2

theorem LayoutOK.args {inv : Nat → AD E θ₀} {vars : List (ScoreVar E)} (h : LayoutOK inv vars)
    {args : List String} (hs : ∀ s ∈ args, s ∈ vars.map ScoreVar.name) :
    ((argPlates (layout inv vars) args).map Plate.name).Nodup ∧
    ∀ p, p ∈ argPlates (layout inv vars) args ↔ ∃ s ∈ args, p ∈ platesIn (layout inv vars) s := by
  have hpn : ((poolOf inv vars).map Plate.name).Nodup := h.poolNames ▸ h.varNames
  have key : ∀ (args : List String) (pre : List (Plate (AD E θ₀))), (∀ s ∈ args, s ∈ vars.map ScoreVar.name) →
      (∀ p ∈ pre, p ∈ poolOf inv vars) → (pre.map Plate.name).Nodup →
      (((args.map (platesIn (layout inv vars))).foldl addPlates pre).map Plate.name).Nodup ∧
      ∀ p, p ∈ (args.map (platesIn (layout inv vars))).foldl addPlates pre ↔
        p ∈ pre ∨ ∃ s ∈ args, p ∈ platesIn (layout inv vars) s := by
    intro args
    induction args with
    | nil => intro pre _ _ hn; exact ⟨hn, by simp⟩
    | cons s args ih =>
      intro pre hs h1 hn
      have hse := h.platesIn_mem (hs s (by simp))
      obtain ⟨a1, a2⟩ := addPlates_pool hpn (platesIn (layout inv vars) s) pre h1 (h.sub _ hse) hn
      obtain ⟨i1, i2⟩ := ih (addPlates pre (platesIn (layout inv vars) s))
        (fun x hx => hs x (List.mem_cons_of_mem _ hx))
        (by
          intro p hp
          rcases (a2 p).1 hp with h' | h'
          · exact h1 p h'
          · exact h.sub _ hse p h') a1
      refine ⟨i1, fun p => ?_⟩
      simp only [List.map_cons, List.foldl_cons]
      rw [i2 p, a2 p]
      simp only [List.mem_cons, exists_eq_or_imp, or_assoc]
  obtain ⟨k1, k2⟩ := key args [] hs (by simp) (by simp)
  exact ⟨k1, fun p => by rw [argPlates, k2 p]; simp⟩

theorem layoutOK (inv : Nat → AD E θ₀) : ∀ vars : List (ScoreVar E), GoodVars vars → LayoutOK inv vars
  | [], _ => by
    refine ⟨rfl, rfl, List.nodup_nil, ?_, ?_, ?_, ?_, ?_, fun _ => 0, ?_, ?_⟩
    all_goals simp [layout, poolOf, ParentOf]
  | d :: ds, hg => by
    obtain ⟨g1, g2, g3, g4, g5⟩ := hg
    have h := layoutOK inv ds g1
    obtain ⟨a1, a2⟩ := h.args g3
    have asub : ∀ p ∈ argPlates (layout inv ds) d.args, p ∈ poolOf inv ds := by
      intro p hp
      obtain ⟨s, hs, hm⟩ := (a2 p).1 hp
      exact h.sub _ (h.platesIn_mem (g3 s hs)) p hm
    have aclosed : ∀ p ∈ argPlates (layout inv ds) d.args, ∀ q ∈ p.parents,
        q ∈ argPlates (layout inv ds) d.args := by
      intro p hp q hq
      obtain ⟨s, hs, hm⟩ := (a2 p).1 hp
      exact (a2 q).2 ⟨s, hs, h.closed _ (h.platesIn_mem (g3 s hs)) p hm q hq⟩
    have anew : d.name ∉ (argPlates (layout inv ds) d.args).map Plate.name := by
      intro hm
      obtain ⟨p, hp, he⟩ := List.mem_map.1 hm
      exact g2 (h.poolNames ▸ he ▸ List.mem_map_of_mem (asub p hp))
    refine ⟨?_, ?_, ?_, ?_, ?_, ?_, ?_, ?_, ?_⟩
    · simp only [poolOf, List.map_cons, h.poolNames]; rfl
    · simp only [layout, List.map_cons, h.layNames]
    · simp only [List.map_cons, List.nodup_cons]; exact ⟨g2, h.varNames⟩
    · intro e he
      rcases List.mem_cons.1 he with rfl | he
      · simp only [List.map_cons, List.nodup_cons]; exact ⟨anew, a1⟩
      · exact h.nodup e he
    · intro e he p hp
      rcases List.mem_cons.1 he with rfl | he
      · rcases List.mem_cons.1 hp with rfl | hp
        · exact List.mem_cons_self
        · exact List.mem_cons_of_mem _ (asub p hp)
      · exact List.mem_cons_of_mem _ (h.sub e he p hp)
    · intro e he p hp q hq
      rcases List.mem_cons.1 he with rfl | he
      · rcases List.mem_cons.1 hp with rfl | hp
        · exact List.mem_cons_of_mem _ hq
        · exact List.mem_cons_of_mem _ (aclosed p hp q hq)
      · exact h.closed e he p hp q hq
    · intro p hp
      rcases List.mem_cons.1 hp with rfl | hp
      · exact ⟨g4, rfl⟩
      · exact h.made p hp
    · intro p hp q hq
      rcases List.mem_cons.1 hp with rfl | hp
      · exact ⟨List.mem_cons_of_mem _ (asub q hq), aclosed q hq⟩
      · exact ⟨List.mem_cons_of_mem _ (h.up p hp q hq).1, (h.up p hp q hq).2⟩
    · obtain ⟨rank, r1, r2⟩ := h.rank
      refine ⟨fun s => if s = d.name then ds.length else rank s, ?_, ?_⟩
      · intro s hs
        simp only [List.length_cons]
        split
        · omega
        · rename_i hne
          rcases List.mem_cons.1 hs with rfl | hs
          · exact absurd rfl hne
          · have := r1 s hs; omega
      · rintro a b ⟨p, hp, rfl, q, hq, rfl⟩
        rcases List.mem_cons.1 hp with rfl | hp
        · have hq' := asub q hq
          have : q.name ∈ ds.map ScoreVar.name := h.poolNames ▸ List.mem_map_of_mem hq'
          have hne : q.name ≠ d.name := fun e => g2 (e ▸ this)
          show (if q.name = d.name then ds.length else rank q.name) <
            if d.name = d.name then ds.length else rank d.name
          rw [if_neg hne, if_pos rfl]
          exact r1 _ this
        · have hqp := (h.up p hp q hq).1
          have h1 : q.name ∈ ds.map ScoreVar.name := h.poolNames ▸ List.mem_map_of_mem hqp
          have h2 : p.name ∈ ds.map ScoreVar.name := h.poolNames ▸ List.mem_map_of_mem hp
          have n1 : q.name ≠ d.name := fun e => g2 (e ▸ h1)
          have n2 : p.name ≠ d.name := fun e => g2 (e ▸ h2)
          simp only
          rw [if_neg n1, if_neg n2]
          exact r2 _ _ ⟨p, hp, rfl, q, hq, rfl⟩

theorem LayoutOK.pool {inv : Nat → AD E θ₀} {vars : List (ScoreVar E)} (h : LayoutOK inv vars) :
    PoolOK (poolOf inv vars) := by
  refine ⟨h.poolNames ▸ h.varNames, ?_, ?_⟩
  · intro p hp; rw [(h.made p hp).2]; rfl
  · obtain ⟨rank, _, r2⟩ := h.rank
    intro k hk
    have : ∀ a b, Relation.TransGen (ParentOf (poolOf inv vars)) a b → rank a < rank b := by
      intro a b hab
      induction hab with
      | single h' => exact r2 _ _ h'
      | tail _ h' ih => exact ih.trans (r2 _ _ h')
    exact lt_irrefl _ (this k k hk)

theorem LayoutOK.weights {inv : Nat → AD E θ₀} {vars : List (ScoreVar E)} (h : LayoutOK inv vars) :
    TorchWeights (poolOf inv vars) := by
  intro p hp
  rw [(h.made p hp).2]
  exact ⟨.scalar _ rfl rfl, Ten.scalar (inv p.n), rfl⟩

/-- `1 / m` -/
noncomputable def invN (m : Nat) : AD E θ₀ := AD.const (1 / (m : ℝ))

theorem LayoutOK.normalised {vars : List (ScoreVar E)} (h : LayoutOK (θ₀ := θ₀) invN vars) :
    ∀ p ∈ poolOf (θ₀ := θ₀) invN vars, p.Normalised := by
  intro p hp ι
  have hn := (h.made p hp).1
  have hw : p.weight = .torch (Ten.scalar (invN p.n)) := by rw [(h.made p hp).2]; rfl
  have : ∀ k ∈ Finset.range p.n, p.weightAt id (Function.update ι p.name k) = invN p.n := by
    intro k _
    rw [Plate.weightAt, hw]
    rfl
  rw [Finset.sum_congr rfl this, Finset.sum_const, Finset.card_range]
  funext θ
  have hne : (p.n : ℝ) ≠ 0 := by positivity
  rw [nsmul_eq_mul]
  show ((p.n : AD E θ₀) θ) * (1 / (p.n : ℝ)) = 1
  rw [show ((p.n : AD E θ₀) θ) = (p.n : ℝ) from rfl]
  field_simp

/-! ### The program that is run -/

theorem declsOf_names (inv : Nat → AD E θ₀) (vars : List (ScoreVar E)) :
    (declsOf inv vars).map Decl.name = (vars.map ScoreVar.name).reverse := by
  induction vars with
  | nil => rfl
  | cons d ds ih => simp [declsOf, ih, ScoreVar.decl]

theorem platesIn_cons_ne {lay : List (String × List (Plate (AD E θ₀)))} {e : String × List (Plate (AD E θ₀))}
    {s : String} (h : e.1 ≠ s) : platesIn (e :: lay) s = platesIn lay s := by
  rw [platesIn, platesIn, List.find?_cons_of_neg (by simpa using h)]

theorem platesIn_cons_eq {lay : List (String × List (Plate (AD E θ₀)))} {e : String × List (Plate (AD E θ₀))} :
    platesIn (e :: lay) e.1 = e.2 := by
  rw [platesIn, List.find?_cons_of_pos (by simp)]

/-- The declarations are those of the variables, with their plates. -/
theorem mem_declsOf {inv : Nat → AD E θ₀} {vars : List (ScoreVar E)} (hg : GoodVars vars) {x : Decl E ℝ} :
    x ∈ declsOf inv vars ↔ ∃ d ∈ vars, x = d.decl (platesIn (layout inv vars) d.name) := by
  induction vars with
  | nil => simp [declsOf]
  | cons d ds ih =>
    obtain ⟨g1, g2, -⟩ := hg
    rw [declsOf, List.mem_append, ih g1, List.mem_singleton]
    simp only [List.mem_cons, exists_eq_or_imp]
    rw [or_comm]
    refine or_congr ?_ ?_
    · rw [layout, platesIn_cons_eq (e := (d.name, _))]
    · refine exists_congr fun d' => and_congr_right fun hd' => ?_
      have hne : d.name ≠ d'.name := fun e => g2 (e ▸ List.mem_map_of_mem hd')
      rw [layout, platesIn_cons_ne (e := (d.name, _)) hne]

theorem idxOf_names {ps : List (Plate (AD E θ₀))} (h : (ps.map Plate.name).Nodup) :
    ((idxOf ps).map Prod.fst).Nodup := by
  rw [idxOf, List.map_map]
  exact h.sublist (List.filter_sublist.map _)

theorem GoodVars.earlier {vars : List (ScoreVar E)} (hg : GoodVars vars) {d : ScoreVar E} (hd : d ∈ vars) :
    (∀ s ∈ d.args, s ∈ vars.map ScoreVar.name) ∧ 1 ≤ d.n ∧ ∀ π, ∑ v ∈ d.support, d.prob π v = 1 := by
  induction vars with
  | nil => cases hd
  | cons x ds ih =>
    obtain ⟨g1, g2, g3, g4, g5⟩ := hg
    rcases List.mem_cons.1 hd with rfl | hd
    · exact ⟨fun s hs => List.mem_cons_of_mem _ (g3 s hs), g4, g5⟩
    · obtain ⟨h1, h2⟩ := ih g1 hd
      exact ⟨fun s hs => List.mem_cons_of_mem _ (h1 s hs), h2⟩

theorem GoodVars.args_sub {inv : Nat → AD E θ₀} {vars : List (ScoreVar E)} (hg : GoodVars vars)
    {d : ScoreVar E} (hd : d ∈ vars) : ∀ s ∈ d.args, ∀ p ∈ platesIn (layout inv vars) s,
      p ∈ platesIn (layout inv vars) d.name := by
  induction vars with
  | nil => cases hd
  | cons x ds ih =>
    obtain ⟨g1, g2, g3, g4, g5⟩ := hg
    have h := layoutOK inv ds g1
    intro s hs p hp
    rcases List.mem_cons.1 hd with rfl | hd
    · have hne : d.name ≠ s := fun e => g2 (e ▸ g3 s hs)
      rw [layout, platesIn_cons_ne hne] at hp
      rw [layout, platesIn_cons_eq (e := (d.name, _))]
      exact List.mem_cons_of_mem _ (((h.args g3).2 p).2 ⟨s, hs, hp⟩)
    · have h1 : x.name ≠ s := fun e => g2 (e ▸ (g1.earlier hd).1 s hs)
      have h2 : x.name ≠ d.name := fun e => g2 (e ▸ List.mem_map_of_mem hd)
      rw [layout, platesIn_cons_ne h1] at hp
      rw [layout, platesIn_cons_ne h2]
      exact ih g1 hd s hs p hp

theorem declsOf_earlier {inv : Nat → AD E θ₀} {vars : List (ScoreVar E)} (hg : GoodVars vars) :
    ∀ l1 x l2, declsOf inv vars = l1 ++ x :: l2 → ∀ s ∈ x.deps, s ∈ l1.map Decl.name := by
  induction vars with
  | nil => intro l1 x l2 h; simp [declsOf] at h
  | cons d ds ih =>
    obtain ⟨g1, g2, g3, g4, g5⟩ := hg
    intro l1 x l2 h s hs
    rw [declsOf] at h
    rcases List.append_eq_append_iff.1 h with ⟨a, h1, h2⟩ | ⟨a, h1, h2⟩
    · rcases a with _ | ⟨y, a⟩
      · simp only [List.nil_append, List.cons.injEq] at h2
        obtain ⟨rfl, rfl⟩ := h2
        rw [List.append_nil] at h1
        rw [h1, declsOf_names, List.mem_reverse]
        exact g3 s hs
      · exfalso
        have := congrArg List.length h2
        simp at this
    · rcases a with _ | ⟨y, a⟩
      · rw [List.append_nil] at h1
        simp only [List.nil_append, List.cons.injEq] at h2
        obtain ⟨rfl, rfl⟩ := h2
        rw [← h1, declsOf_names, List.mem_reverse]
        exact g3 s hs
      · rw [List.cons_append, List.cons.injEq] at h2
        obtain ⟨rfl, rfl⟩ := h2
        exact ih g1 l1 x a h1 s hs

theorem declsOf_program {inv : Nat → AD E θ₀} {vars : List (ScoreVar E)} (hg : GoodVars vars) (θ : E) :
    Program (declsOf inv vars) θ := by
  have h := layoutOK inv vars hg
  refine ⟨?_, ?_, declsOf_earlier hg, ?_, ?_, ?_⟩
  · rw [declsOf_names, List.nodup_reverse]; exact h.varNames
  · intro x hx
    obtain ⟨d, hd, rfl⟩ := (mem_declsOf hg).1 hx
    exact idxOf_names (h.nodup _ (h.platesIn_mem (List.mem_map_of_mem hd)))
  · intro x hx x' hx' hdep q hq
    obtain ⟨d, hd, rfl⟩ := (mem_declsOf hg).1 hx
    obtain ⟨d', hd', rfl⟩ := (mem_declsOf hg).1 hx'
    simp only [ScoreVar.decl, idxOf, List.mem_map, List.mem_filter] at hq ⊢
    obtain ⟨p, ⟨hp1, hp2⟩, rfl⟩ := hq
    exact ⟨p, ⟨hg.args_sub hd d'.name hdep p hp1, hp2⟩, rfl⟩
  · intro x hx θ' ρ ρ' v hagree
    obtain ⟨d, hd, rfl⟩ := (mem_declsOf hg).1 hx
    have : d.args.map ρ = d.args.map ρ' := List.map_congr_left hagree
    simp only [ScoreVar.decl, this]
  · intro x hx ρ
    obtain ⟨d, hd, rfl⟩ := (mem_declsOf hg).1 hx
    exact (hg.earlier hd).2.2 _

theorem poolFor {vars : List (ScoreVar E)} (hg : GoodVars vars) :
    PoolFor (poolOf (θ₀ := θ₀) invN vars) (declsOf (θ₀ := θ₀) invN vars) := by
  have h := layoutOK (θ₀ := θ₀) invN vars hg
  refine ⟨h.pool, h.weights, h.normalised, ?_⟩
  intro x hx q hq
  obtain ⟨d, hd, rfl⟩ := (mem_declsOf hg).1 hx
  simp only [ScoreVar.decl, idxOf, List.mem_map, List.mem_filter] at hq
  obtain ⟨p, ⟨hp1, hp2⟩, rfl⟩ := hq
  exact ⟨p, h.sub _ (h.platesIn_mem (List.mem_map_of_mem hd)) p hp1, rfl, rfl⟩

theorem trajectory_declsOf {inv : Nat → AD E θ₀} {vars : List (ScoreVar E)} (hg : GoodVars vars) {d : ScoreVar E}
    (hd : d ∈ vars) (ω : Draws ℝ) (ι : String → Nat) : trajectory (declsOf inv vars) ω ι d.name =
      ω d.name (((platesIn (layout inv vars) d.name).filter (fun p => decide (1 < p.n))).map
        (fun p => ι p.name)) := by
  have := trajectory_decl (declsOf_program (inv := inv) hg θ₀).names
    ((mem_declsOf hg).2 ⟨d, hd, rfl⟩) ω ι
  rw [ScoreVar.decl] at this
  rw [this, idxOf, List.map_map]
  rfl

/-! ### Runs -/

/-- The tensors in a run hold what was drawn. -/
structure EntryOK (inv : Nat → AD E θ₀) (vars : List (ScoreVar E)) (ω : Draws ℝ) (d : ScoreVar E)
    (t : STen (AD E θ₀)) (p : Operand (AD E θ₀)) : Prop where
  wf : t.WF
  plates : t.plates = platesIn (layout inv vars) d.name
  scalar : t.eventShape = []
  val : ∀ ι θ, t.sample ι [] θ = trajectory (declsOf inv vars) ω ι d.name
  param : ScalarOp (poolOf inv vars) p
  paramSub : ∀ q ∈ p.plates, q ∈ t.plates
  paramVal : ∀ ι θ, p.at ι θ = d.param θ (d.args.map (trajectory (declsOf inv vars) ω ι))

/-- A run: the tensors of all variables. -/
def EnvOK (inv : Nat → AD E θ₀) (vars : List (ScoreVar E)) (ω : Draws ℝ) (env : RunEnv E θ₀) : Prop :=
  ∀ d ∈ vars, ∃ t p, env.find? (fun e => e.1 == d.name) = some (d.name, t, p) ∧ EntryOK inv vars ω d t p

theorem ScalarOp.mono {α : Type _} {pool pool' : List (Plate α)} (h : ∀ p ∈ pool, p ∈ pool') {o : Operand α}
    (ho : ScalarOp pool o) : ScalarOp pool' o := by
  cases o with
  | st t s => exact ⟨ho.1, ho.2.1, fun p hp => h p (ho.2.2 p hp)⟩
  | torch t => exact ho

/-- Looking up samples. -/
theorem EnvOK.get {inv : Nat → AD E θ₀} {vars : List (ScoreVar E)} (hg : GoodVars vars) {ω : Draws ℝ}
    {env : RunEnv E θ₀} (h : EnvOK inv vars ω env) {args : List String}
    (ha : ∀ s ∈ args, s ∈ vars.map ScoreVar.name) :
    ∃ ts, env.get args = .ok ts ∧ (∀ o ∈ ts, ScalarOp (poolOf inv vars) o) ∧
      ts.map Operand.plates = args.map (platesIn (layout inv vars)) ∧
      (args ≠ [] → stens ts ≠ []) ∧
      ∀ ι θ, (ts.map (fun o => o.at ι)).map (fun x => x θ) = args.map (trajectory (declsOf inv vars) ω ι) := by
  have hl := layoutOK inv vars hg
  induction args with
  | nil => exact ⟨[], rfl, by simp, rfl, by simp, by simp⟩
  | cons s args ih =>
    obtain ⟨ts, h1, h2, h3, _, h5⟩ := ih (fun x hx => ha x (List.mem_cons_of_mem _ hx))
    obtain ⟨d, hd, rfl⟩ := List.mem_map.1 (ha s (by simp))
    obtain ⟨t, p, e1, e2⟩ := h d hd
    refine ⟨.st t true :: ts, ?_, ?_, ?_, by simp [stens], ?_⟩
    · rw [RunEnv.get, e1, h1]
    · intro o ho
      rcases List.mem_cons.1 ho with rfl | ho
      · refine ⟨e2.wf, e2.scalar, ?_⟩
        rw [e2.plates]
        exact hl.sub _ (hl.platesIn_mem (List.mem_map_of_mem hd))
      · exact h2 o ho
    · simp only [List.map_cons, h3, Operand.plates, e2.plates]
    · intro ι θ
      simp only [List.map_cons, h5 ι θ]
      rw [Operand.at, Operand.sample, e2.val]

theorem trajectory_older {inv : Nat → AD E θ₀} {d : ScoreVar E} {ds : List (ScoreVar E)}
    (hg : GoodVars (d :: ds)) {s : String} (hs : s ∈ ds.map ScoreVar.name) (ω : Draws ℝ) (ι : String → Nat) :
    trajectory (declsOf inv (d :: ds)) ω ι s = trajectory (declsOf inv ds) ω ι s := by
  obtain ⟨x, hx, rfl⟩ := List.mem_map.1 hs
  have hne : d.name ≠ x.name := fun e => hg.2.1 (e ▸ hs)
  rw [trajectory_declsOf hg (List.mem_cons_of_mem _ hx), trajectory_declsOf hg.1 hx, layout,
    platesIn_cons_ne (e := (d.name, _)) hne]

/-- Every program runs, and its tensors hold what was drawn. -/
theorem runVars_ok {hook : UnwrapHook (AD E θ₀)} (hh : PlainHook hook) (inv : Nat → AD E θ₀) (ω : Draws ℝ) :
    ∀ vars : List (ScoreVar E), GoodVars vars → ∃ env, runVars hook inv ω vars = .ok env ∧ EnvOK inv vars ω env
  | [], _ => ⟨[], rfl, by intro d hd; cases hd⟩
  | d :: ds, hg => by
    obtain ⟨env, r1, r2⟩ := runVars_ok hh inv ω ds hg.1
    have hg' := hg
    obtain ⟨g1, g2, g3, g4, g5⟩ := hg
    have hl := layoutOK inv ds g1
    have hl' := layoutOK inv (d :: ds) hg'
    obtain ⟨ts, t1, t2, t3, _, t5⟩ := r2.get g1 g3
    obtain ⟨p, p1, p2, p3, p4, p5, _⟩ := opCall_plates hh hl.pool (liftFn d.param) t2
    have hps : p.plates = argPlates (layout inv ds) d.args := by
      rw [p3, callPlates_st, t3, argPlates]
    obtain ⟨a1, a2⟩ := hl.args g3
    have asub : ∀ q ∈ argPlates (layout inv ds) d.args, q ∈ poolOf inv ds := hps ▸ p2.sub
    have hmp : methodPlates [] [p] = argPlates (layout inv ds) d.args := by
      rw [← hps]
      cases p with
      | st t s =>
        simp only [methodPlates, Operand.plates]
        rw [addPlates_self t.plates p2.1.names [] (by simp), List.nil_append]
      | torch t => rfl
    have hshape : p.shape = ((argPlates (layout inv ds) d.args).filter (fun q => decide (1 < q.n))).map Plate.n := by
      rw [← hps]
      cases p with
      | st t s =>
        have := p2.1.shape
        rw [p2.2.1, List.append_nil] at this
        exact this
      | torch t => exact p2
    have hpl := hl'.platesIn_mem (s := d.name) (by simp)
    have hlay : platesIn (layout inv (d :: ds)) d.name =
        mcPlate inv d.name d.n (argPlates (layout inv ds) d.args) :: argPlates (layout inv ds) d.args := by
      rw [layout, platesIn_cons_eq (e := (d.name, _))]
    have hnd := hl'.nodup _ hpl
    have hpos : ∀ q ∈ platesIn (layout inv (d :: ds)) d.name, 1 ≤ q.n :=
      fun q hq => (hl'.made q (hl'.sub _ hpl q hq)).1
    rw [hlay] at hnd hpos
    have hany : (argPlates (layout inv ds) d.args).any (fun q => q.name == d.name) = false := by
      rw [List.any_eq_false]
      intro q hq he
      simp only [beq_iff_eq] at he
      exact g2 (hl.poolNames ▸ he ▸ List.mem_map_of_mem (asub q hq))
    -- the tensor that is drawn
    set T : Ten (AD E θ₀) := ⟨d.n :: p.shape, fun idx => AD.const (ω d.name (if d.n = 1 then idx.tail else idx))⟩
      with hT
    set T' : Ten (AD E θ₀) := if d.n = 1 then squeeze0 T else T with hT'
    have hT'shape : T'.shape = ((mcPlate inv d.name d.n (argPlates (layout inv ds) d.args) ::
        argPlates (layout inv ds) d.args).filter (fun q => decide (1 < q.n))).map Plate.n ++ [] := by
      rw [List.append_nil, List.filter_cons]
      by_cases hn : d.n = 1
      · rw [hT', if_pos hn, hT, hn]
        have : ¬ 1 < (mcPlate inv d.name 1 (argPlates (layout inv ds) d.args)).n := by simp [mcPlate, Plate.n]
        simp only [squeeze0, this, decide_false]
        exact hshape
      · have : 1 < (mcPlate inv d.name d.n (argPlates (layout inv ds) d.args)).n := by
          simp only [mcPlate, Plate.n]; omega
        rw [hT', if_neg hn, hT, if_pos (by simpa using this), List.map_cons, ← hshape]
        rfl
    have hT'get : ∀ idx, T'.get idx = AD.const (ω d.name idx) := by
      intro idx
      by_cases hn : d.n = 1
      · rw [hT', if_pos hn, hT]
        simp [hn, squeeze0]
      · rw [hT', if_neg hn, hT]
        simp [hn]
    obtain ⟨t, m1, m2, m3, m4, m5⟩ := checkPlates_ok_of hnd hpos T' [] hT'shape
    have hrun : d.run hook inv (ω d.name) env = .ok (t, p) := by
      rw [ScoreVar.run, t1]
      simp only [p1]
      rw [monteCarlo]
      simp only [hmp, hany, Bool.false_eq_true, if_false]
      rw [if_neg (by omega)]
      rw [show (if d.n = 1 then squeeze0 T else T) = T' from rfl] at *
      simp only [m1]
    refine ⟨(d.name, t, p) :: env, ?_, ?_⟩
    · rw [runVars, r1]
      simp only [hrun]
    · intro x hx
      rcases List.mem_cons.1 hx with rfl | hx
      · refine ⟨t, p, by rw [List.find?_cons_of_pos (by simp)], m4, by rw [m3, hlay], m5, ?_, ?_, ?_, ?_⟩
        · intro ι θ
          rw [trajectory_declsOf hg' (by simp), STen.sample, m2, hT'get, m5, hlay, STen.multiDimPlates, m3]
          simp [Ten.bidx, AD.const]
        · exact p2.mono (fun q hq => List.mem_cons_of_mem _ hq)
        · intro q hq
          rw [m3]
          exact List.mem_cons_of_mem _ (hps ▸ hq)
        · intro ι θ
          rw [p5 ι, liftFn, t5 ι θ]
          congr 1
          exact List.map_congr_left (fun s hs => (trajectory_older hg' (g3 s hs) ω ι).symm)
      · have hxn : x.name ∈ ds.map ScoreVar.name := List.mem_map_of_mem hx
        have hne : d.name ≠ x.name := fun e => g2 (e ▸ hxn)
        obtain ⟨t', p', e1, e2⟩ := r2 x hx
        refine ⟨t', p', ?_, e2.wf, ?_, e2.scalar, ?_, ?_, e2.paramSub, ?_⟩
        · rw [List.find?_cons_of_neg (by simpa using hne)]; exact e1
        · rw [e2.plates, layout, platesIn_cons_ne hne]
        · intro ι θ; rw [e2.val, trajectory_older hg' hxn]
        · exact e2.param.mono (fun q hq => List.mem_cons_of_mem _ hq)
        · intro ι θ
          rw [e2.paramVal]
          congr 1
          exact List.map_congr_left (fun s hs => (trajectory_older hg' ((g1.earlier hx).1 s hs) ω ι).symm)

end

end Storch
