import Verif.Model.Mixed
import Verif.Lemmas.MixedExpect
import Verif.Lemmas.EnumerateLemmas
import Verif.Lemmas.WeightedLemmas
import Verif.Props.MonteCarloProps

/-! Runs of programs that use `ScoreFunction`, `Expect` and `Reparameterization`. -/

namespace Storch

section pools
variable {α : Type _} [ValEq α]

/-- A new plate. -/
theorem PoolOK.cons {pool : List (Plate α)} (h : PoolOK pool) {x : Plate α} (hk : x.kind = .plain)
    (hn : x.name ∉ pool.map Plate.name) (hx : ∀ q ∈ x.parents, q ∈ pool)
    (hup : ∀ p ∈ pool, ∀ q ∈ p.parents, q ∈ pool) : PoolOK (x :: pool) := by
  refine ⟨by simp only [List.map_cons, List.nodup_cons]; exact ⟨hn, h.names⟩, ?_, ?_⟩
  · intro p hp
    rcases List.mem_cons.1 hp with rfl | hp
    · exact hk
    · exact h.plain p hp
  · have hpar : ∀ a b, ParentOf (x :: pool) a b → a ∈ pool.map Plate.name ∧ (b ≠ x.name → ParentOf pool a b) := by
      rintro a b ⟨p, hp, rfl, q, hq, rfl⟩
      rcases List.mem_cons.1 hp with rfl | hp
      · exact ⟨List.mem_map_of_mem (hx q hq), fun hne => absurd rfl hne⟩
      · exact ⟨List.mem_map_of_mem (hup p hp q hq), fun _ => ⟨p, hp, rfl, q, hq, rfl⟩⟩
    have key : ∀ a b, Relation.TransGen (ParentOf (x :: pool)) a b →
        a ∈ pool.map Plate.name ∧ (b ≠ x.name → Relation.TransGen (ParentOf pool) a b) := by
      intro a b hab
      induction hab with
      | single h' => exact ⟨(hpar _ _ h').1, fun hne => .single ((hpar _ _ h').2 hne)⟩
      | tail _ h' ih =>
        refine ⟨ih.1, fun hne => .tail (ih.2 ?_) ((hpar _ _ h').2 hne)⟩
        rintro rfl
        exact hn (hpar _ _ h').1
    intro k hk'
    obtain ⟨h1, h2⟩ := key k k hk'
    exact h.acyclic k (h2 (fun e => hn (e ▸ h1)))

/-- Name and size. -/
def Plate.key (p : Plate α) : String × Nat := (p.name, p.n)

/-- Appending the elements that are not there yet. -/
def addKeys : List (String × Nat) → List (String × Nat) → List (String × Nat)
  | pre, [] => pre
  | pre, q :: qs => if q ∈ pre then addKeys pre qs else addKeys (pre ++ [q]) qs

theorem addPlates_keys {pool : List (Plate α)} (hp : (pool.map Plate.name).Nodup) (ps : List (Plate α)) :
    ∀ pre : List (Plate α), (∀ p ∈ pre, p ∈ pool) → (∀ p ∈ ps, p ∈ pool) →
      (addPlates pre ps).map Plate.key = addKeys (pre.map Plate.key) (ps.map Plate.key) ∧
        ∀ p ∈ addPlates pre ps, p ∈ pool := by
  induction ps with
  | nil => intro pre h1 _; exact ⟨rfl, h1⟩
  | cons q ps ih =>
    intro pre h1 h2
    have hq := h2 q (by simp)
    have hmem : q.isIn pre = true ↔ q.key ∈ pre.map Plate.key := by
      rw [isIn_pool hp h1 hq]
      constructor
      · exact fun h => List.mem_map_of_mem h
      · intro h
        obtain ⟨x, hx, he⟩ := List.mem_map.1 h
        exact pyEq_of_same_list hp (h1 x hx) hq (congrArg Prod.fst he) ▸ hx
    rw [addPlates, List.map_cons, addKeys]
    by_cases hm : q.isIn pre = true
    · rw [if_pos hm, if_pos (hmem.1 hm)]
      exact ih pre h1 (fun p hp' => h2 p (List.mem_cons_of_mem _ hp'))
    · rw [if_neg hm, if_neg (fun h => hm (hmem.2 h))]
      obtain ⟨i1, i2⟩ := ih (pre ++ [q]) (by
          intro p hp'
          rcases List.mem_append.1 hp' with h | h
          · exact h1 p h
          · rw [List.mem_singleton.1 h]; exact hq)
        (fun p hp' => h2 p (List.mem_cons_of_mem _ hp'))
      exact ⟨by rw [i1, List.map_append]; rfl, i2⟩

theorem foldl_keys {pool : List (Plate α)} (hp : (pool.map Plate.name).Nodup) (ls : List (List (Plate α))) :
    ∀ pre : List (Plate α), (∀ p ∈ pre, p ∈ pool) → (∀ l ∈ ls, ∀ p ∈ l, p ∈ pool) →
      (ls.foldl addPlates pre).map Plate.key = (ls.map (fun l => l.map Plate.key)).foldl addKeys (pre.map Plate.key) := by
  induction ls with
  | nil => intro pre _ _; rfl
  | cons l ls ih =>
    intro pre h1 h2
    obtain ⟨a1, a2⟩ := addPlates_keys hp l pre h1 (h2 l (by simp))
    rw [List.foldl_cons, ih _ a2 (fun l' hl => h2 l' (List.mem_cons_of_mem _ hl)), a1]
    rfl

theorem methodPlates_one {pool : List (Plate α)} {p : Operand α} (h : ScalarOp pool p) :
    methodPlates [] [p] = p.plates := by
  cases p with
  | st t s =>
    simp only [methodPlates, Operand.plates]
    rw [addPlates_self t.plates h.1.names [] (by simp), List.nil_append]
  | torch t => rfl

theorem ScalarOp.shape_eq {pool : List (Plate α)} {p : Operand α} (h : ScalarOp pool p) :
    p.shape = (p.plates.filter (fun q => decide (1 < q.n))).map Plate.n := by
  cases p with
  | st t s =>
    have := h.1.shape
    rw [h.2.1, List.append_nil] at this
    exact this
  | torch t => exact h

end pools

section
variable {E : Type _} {θ₀ : E}

theorem outcomes_one {n : Nat} (k : Fin (n ^ 1)) (j : Fin 1) : (outcomes 1 n k j : Nat) = k := by
  have hk : (k : Nat) < n := by simpa using k.2
  have := outcome_getD k (j := 0) (by simp)
  have hj : j = ⟨0, by simp⟩ := Subsingleton.elim _ _
  rw [hj, ← this]
  have h1 : allIdx (List.replicate 1 n) = (List.range n).map (fun i => [i]) := by
    simp [allIdx, List.map_eq_flatMap]
  rw [h1]
  simp [hk]

/-- Is the variable, or its noise, sampled? -/
def MixHow.drawn : MixHow → Bool
  | .score _ => true
  | .expect => false
  | .reparam _ _ => true

/-- Is it `ScoreFunction`? -/
def MixHow.scored : MixHow → Bool
  | .score _ => true
  | .expect => false
  | .reparam _ _ => false

/-- The value of a variable whose distribution has the parameter `π`, from what is drawn. -/
def MixHow.out : MixHow → ℝ → ℝ → ℝ
  | .reparam _ path, π, v => path π v
  | _, _, v => v

theorem MixHow.expect_of {h : MixHow} (hd : h.drawn = false) : h = .expect := by cases h <;> first | rfl | cases hd

theorem MixHow.drawn_of_scored {h : MixHow} (hd : h.scored = true) : h.drawn = true := by
  cases h <;> first | rfl | cases hd

/-- What one statement makes. -/
structure MixStep (d : MixVar E) (p : Operand (AD E θ₀)) (draw : List Nat → ℝ) (t : STen (AD E θ₀))
    (x : Plate (AD E θ₀)) : Prop where
  name : x.name = d.name
  n : x.n = d.size
  kind : x.kind = .plain
  parents : x.parents = p.plates
  weightOK : WeightOK x
  over : t.plates = x :: p.plates
  wf : t.WF
  scalar : t.eventShape = []
  val : ∀ ι, Valid t.plates ι → ∀ θ,
    t.sample ι [] θ = d.how.out (p.at ι θ) (draw (t.multiDimPlates.map (fun q => ι q.name)))
  weight : ∀ ι, Valid t.plates ι → ∀ θ, (d.how = .expect → ∀ v ∈ d.values, 0 < d.prob (p.at ι θ) v) →
    x.weightAt id ι θ = if d.how.drawn then 1 / (d.size : ℝ)
      else d.prob (p.at ι θ) (draw (t.multiDimPlates.map (fun q => ι q.name)))

/-- The element of a parameter at a position. -/
theorem ScalarOp.at_get {α : Type _} [ValEq α] {pool : List (Plate α)} {p : Operand α} (h : ScalarOp pool p)
    (ι : String → Nat) :
    p.under.get ((p.plates.filter (fun q => decide (1 < q.n))).map (fun q => ι q.name)) = p.at ι := by
  cases p with
  | st t s =>
    rw [Operand.at, Operand.sample, STen.sample, h.2.1, STen.multiDimPlates]
    simp [Operand.under, Operand.plates, Ten.bidx]
  | torch t =>
    have h' : t.shape = [] := h
    simp [Operand.at, Operand.sample, Operand.under, Operand.plates, h', Ten.bidx]

theorem ScalarOp.posSizes {α : Type _} [ValEq α] {pool : List (Plate α)} {p : Operand α} (h : ScalarOp pool p) :
    ∀ q ∈ p.plates, 1 ≤ q.n := by
  cases p with
  | st t s => exact h.1.pos
  | torch t => intro q hq; cases hq

/-- `MonteCarlo` with samples given element by element. -/
theorem monteCarlo_scalar {name : String} {n : Nat} {pool : List (Plate (AD E θ₀))} {p : Operand (AD E θ₀)}
    (hs : ScalarOp pool p) (hfresh : name ∉ p.plates.map Plate.name) (h1 : 1 ≤ n)
    (smp : Nat → Ten (AD E θ₀)) (hsmp : (smp n).shape = n :: p.shape) :
    ∃ t, monteCarlo invN name n [] [p] smp = .ok (t, mcPlate invN name n p.plates) ∧
      t.plates = mcPlate invN name n p.plates :: p.plates ∧ t.WF ∧ t.eventShape = [] ∧
      (∀ ι, t.sample ι [] = (smp n).get ((if n = 1 then 0 else ι name) ::
        (p.plates.filter (fun q => decide (1 < q.n))).map (fun q => ι q.name))) ∧
      t.multiDimPlates = (if n = 1 then [] else [mcPlate invN name n p.plates]) ++
        p.plates.filter (fun q => decide (1 < q.n)) := by
  have hmp := methodPlates_one hs
  have hshape := hs.shape_eq
  have hany : p.plates.any (fun q => q.name == name) = false := by
    rw [List.any_eq_false]
    intro q hq he
    simp only [beq_iff_eq] at he
    exact hfresh (he ▸ List.mem_map_of_mem hq)
  have hfil : (mcPlate (invN (θ₀ := θ₀)) name n p.plates :: p.plates).filter (fun q => decide (1 < q.n)) =
      (if n = 1 then [] else [mcPlate invN name n p.plates]) ++ p.plates.filter (fun q => decide (1 < q.n)) := by
    rw [List.filter_cons]
    by_cases hn : n = 1
    · rw [if_pos hn, if_neg (by simp [mcPlate, Plate.n, hn]), List.nil_append]
    · have hlt : 1 < (mcPlate (invN (θ₀ := θ₀)) name n p.plates).n := show 1 < n by omega
      rw [if_neg hn, if_pos (decide_eq_true hlt)]
      rfl
  obtain ⟨t, m1, m2, m3, m4, m5⟩ := checkPlates_ok_of
    (R := mcPlate (invN (θ₀ := θ₀)) name n p.plates :: p.plates)
    (by simp only [List.map_cons, List.nodup_cons]; exact ⟨hfresh, hs.nodup⟩)
    (by
      intro q hq
      rcases List.mem_cons.1 hq with rfl | hq
      · exact h1
      · exact hs.posSizes q hq) (if n = 1 then squeeze0 (smp n) else smp n) []
    (by
      rw [List.append_nil, hfil]
      by_cases hn : n = 1
      · subst hn
        simp only [if_true, List.nil_append]
        rw [squeeze0, hsmp]
        exact hshape
      · rw [if_neg hn, if_neg hn, hsmp, hshape]; rfl)
  have hmd : t.multiDimPlates = (if n = 1 then [] else [mcPlate invN name n p.plates]) ++
      p.plates.filter (fun q => decide (1 < q.n)) := by rw [STen.multiDimPlates, m3, hfil]
  refine ⟨t, ?_, m3, m4, m5, ?_, hmd⟩
  · simp only [monteCarlo, hmp, hany, Bool.false_eq_true, if_false, hsmp]
    rw [if_neg (by omega), m1]
  · intro ι
    rw [STen.sample, m2, m5, hmd]
    by_cases hn : n = 1
    · subst hn
      simp only [if_true, List.nil_append]
      rw [squeeze0, hsmp]
      simp [Ten.bidx]
    · simp only [if_neg hn, List.cons_append, List.nil_append, List.map_cons]
      simp [Ten.bidx]
      rfl

theorem MixVar.sample_ok {hook : UnwrapHook (AD E θ₀)} (hh : PlainHook hook) {d : MixVar E}
    {pool : List (Plate (AD E θ₀))} (hp : PoolOK pool) (hup : ∀ p ∈ pool, ∀ q ∈ p.parents, q ∈ pool)
    (hnew : d.name ∉ pool.map Plate.name) {p : Operand (AD E θ₀)}
    (hs : ScalarOp pool p) (h1 : 1 ≤ d.size) (hm : d.how = .expect → 2 ≤ d.size)
    (hb : d.how = .expect → d.size ≤ 10000) {draw : List Nat → ℝ}
    (hdraw : d.how = .expect → ∀ i rest, i < d.values.length → d.values[i]? = some (draw (i :: rest))) :
    ∃ t x, d.sample hook invN draw p = .ok (t, x) ∧ MixStep d p draw t x := by
  have hmp := methodPlates_one hs
  have hfresh : d.name ∉ p.plates.map Plate.name := by
    intro hm
    obtain ⟨q, hq, he⟩ := List.mem_map.1 hm
    exact hnew (he ▸ List.mem_map_of_mem (hs.sub q hq))
  cases hhow : d.how with
  | score n =>
    have hn : d.size = n := by rw [MixVar.size, hhow]
    rw [hn] at h1
    obtain ⟨t, m1, m3, m4, m5, m6, m7⟩ := monteCarlo_scalar hs hfresh h1
      (fun k => (⟨k :: p.shape, fun idx => AD.const (draw (if k = 1 then idx.tail else idx))⟩ : Ten (AD E θ₀))) rfl
    refine ⟨t, mcPlate invN d.name n p.plates, ?_, rfl, hn.symm ▸ rfl, rfl, rfl, .scalar _ rfl rfl, m3, m4, m5, ?_, ?_⟩
    · simp only [MixVar.sample, hhow]
      exact m1
    · intro ι _ θ
      rw [m6 ι, m7, hhow]
      by_cases hn1 : n = 1
      · simp only [if_pos hn1, List.tail_cons, List.nil_append]
        rfl
      · simp only [if_neg hn1]
        rfl
    · intro ι _ θ _
      rw [hhow, hn]
      rfl
  | reparam n path =>
    have hn : d.size = n := by rw [MixVar.size, hhow]
    rw [hn] at h1
    obtain ⟨t, m1, m3, m4, m5, m6, m7⟩ := monteCarlo_scalar hs hfresh h1
      (fun k => (⟨k :: p.shape, fun idx => fun θ => path (p.under.get idx.tail θ)
        (draw (if k = 1 then idx.tail else idx))⟩ : Ten (AD E θ₀))) rfl
    refine ⟨t, mcPlate invN d.name n p.plates, ?_, rfl, hn.symm ▸ rfl, rfl, rfl, .scalar _ rfl rfl, m3, m4, m5, ?_, ?_⟩
    · simp only [MixVar.sample, hhow]
      exact m1
    · intro ι _ θ
      rw [m6 ι, m7, hhow]
      by_cases hn1 : n = 1
      · simp only [if_pos hn1, List.tail_cons, hs.at_get, List.nil_append]
        rfl
      · simp only [if_neg hn1, List.tail_cons, hs.at_get]
        rfl
    · intro ι _ θ _
      rw [hhow, hn]
      rfl
  | expect =>
    have hn : d.size = d.values.length := by rw [MixVar.size, hhow]
    have hb' := hb hhow
    have h2 := hm hhow
    have hshape := hs.shape_eq
    rw [hn] at h2 hb'
    have hpool' : PoolOK (mcPlate (invN (θ₀ := θ₀)) d.name (d.values.length ^ 1) p.plates :: pool) :=
      hp.cons rfl hnew hs.sub hup
    have hdistr : EnumDistr invN d.name (methodPlates [] [p])
        (⟨[d.values.length], fun idx => AD.const (d.values.getD (idx.headD 0) 0)⟩ : Ten (AD E θ₀)) [] [] 1
        d.values.length (logProbOf hook d.prob p)
        (fun ι _ v => fun θ => Real.log (d.prob (p.at ι θ) (d.values.getD v 0))) := by
      rw [hmp]
      refine ⟨rfl, h2, le_refl _, Or.inr ⟨rfl, rfl⟩, hs.nodup, hfresh, hs.posSizes, Or.inl rfl, fun q hq => hp.plain q (hs.sub q hq), ?_⟩
      intro x hx hxp hxe
      obtain ⟨r, r1, r2, r3, r4, r5⟩ := opCall_scalar hh hpool' (logElt d.prob) (ops := [.st x true, p]) (by
        intro o ho
        simp only [List.mem_cons, List.not_mem_nil, or_false] at ho
        rcases ho with rfl | rfl
        · refine ⟨hx, hxe, ?_⟩
          intro q hq
          rw [hxp] at hq
          rcases List.mem_cons.1 hq with rfl | hq
          · exact List.mem_cons_self
          · exact List.mem_cons_of_mem _ (hs.sub q hq)
        · exact hs.mono (fun q hq => List.mem_cons_of_mem _ hq))
      obtain ⟨lp, rfl⟩ := r5 (by simp [stens])
      refine ⟨lp, by rw [logProbOf, r1], r2.1, ?_, r2.2.1, ?_⟩
      · intro q
        rw [show lp.plates = (Operand.st lp false).plates from rfl, r3 q]
        simp only [List.mem_cons, List.not_mem_nil, or_false, exists_eq_or_imp, exists_eq_left]
        rw [Operand.plates]
        refine ⟨fun h' => h'.elim id (fun hq => ?_), Or.inl⟩
        rw [hxp]; exact List.mem_cons_of_mem _ hq
      · intro ι e v he hv
        cases he
        have := r4 ι
        rw [Operand.at, Operand.sample] at this
        rw [this, List.map_cons, List.map_cons, List.map_nil, show (Operand.st x true).at ι = x.sample ι [] from rfl]
        have hx' := hv [] .nil
        rw [List.nil_append] at hx'
        rw [hx']
        rfl
    obtain ⟨t, x, e1, e2, e3, e4, e5, e6, e7, e8, e9, _, e11⟩ := enumerate_spec hh hdistr (budget := 10000) (by simpa using hb')
    rw [hmp] at e1 e5 e6
    have hpos : ∀ ι, Valid t.plates ι → ι d.name < d.values.length := by
      intro ι hι
      have := hι x (by rw [e6]; exact List.mem_cons_self)
      rw [e2, e3, pow_one] at this
      exact this
    have hall : t.multiDimPlates = x :: p.plates.filter (fun q => decide (1 < q.n)) := by
      have hx : 1 < x.n := by rw [e3, pow_one]; exact h2
      rw [STen.multiDimPlates, e6, List.filter_cons, if_pos (decide_eq_true hx)]
    have hval : ∀ ι, Valid t.plates ι →
        d.values.getD (ι d.name) 0 = draw (t.multiDimPlates.map (fun q => ι q.name)) := by
      intro ι hι
      rw [hall]
      have := hdraw hhow (ι d.name) ((p.plates.filter (fun q => decide (1 < q.n))).map (fun q => ι q.name)) (hpos ι hι)
      rw [List.getD_eq_getElem?_getD, this, List.map_cons, e2]
      rfl
    refine ⟨t, x, ?_, e2, by rw [e3, pow_one, hn], e4, e5, e9, e6, e7, e8, ?_, ?_⟩
    · simp only [MixVar.sample, hhow]
      rw [hshape]
      rw [List.append_nil] at e1
      exact e1
    · intro ι hι θ
      have hk := hpos ι hι
      have h := (e11 ι hι ⟨ι d.name, by simpa using hk⟩ rfl).1 [] [] .nil .nil (by simp)
      rw [List.append_nil] at h
      rw [h, outcomes_one, ← hval ι hι, hhow]
      rfl
    · intro ι hι θ hpr
      have hk := hpos ι hι
      have h := (e11 ι hι ⟨ι d.name, by simpa using hk⟩ rfl).2
      rw [h, hhow, if_neg (by simp [MixHow.drawn])]
      rw [AD.exp_apply]
      show Real.exp (Real.log (d.prob (p.at ι θ) (d.values.getD (outcomes 1 d.values.length
        ⟨ι d.name, by simpa using hk⟩ ⟨0, by simp⟩) 0)) + 0) = _
      rw [add_zero, outcomes_one]
      show Real.exp (Real.log (d.prob (p.at ι θ) (d.values.getD (ι d.name) 0))) = _
      rw [Real.exp_log]
      · exact congrArg _ (hval ι hι)
      apply hpr hhow
      rw [List.getD_eq_getElem?_getD, List.getElem?_eq_getElem hk]
      exact List.getElem_mem hk

/-! ### Whole programs -/

/-- The statement with the same plate that samples: it has the same place in the program. -/
noncomputable def MixVar.score (d : MixVar E) : ScoreVar E :=
  ⟨d.name, d.size, d.args, d.param, by classical exact d.values.toFinset, d.prob, none⟩

/-- The values of the variables, from what is drawn: the noise of the reparameterised ones, the values of the others.
The statements are listed last to first. -/
noncomputable def mixVal (θ : E) (ρ : String → ℝ) : List (MixVar E) → String → ℝ
  | [], _ => 0
  | d :: ds, s => if s = d.name then d.how.out (d.param θ (d.args.map (mixVal θ ρ ds))) (ρ s) else mixVal θ ρ ds s

/-- The random variable of a statement: the noise, if it is reparameterised, else the variable itself.  Its law is
that of the distribution with the parameter computed from the values of earlier variables; it depends on everything that
is drawn for the variables above. -/
noncomputable def MixVar.decl (θ₀ : E) (vars : List (MixVar E)) (d : MixVar E) : Decl E ℝ :=
  ⟨d.name, idxOf (platesIn (layout (θ₀ := θ₀) invN (vars.map MixVar.score)) d.name),
    by classical exact (vars.map MixVar.name).filter (fun s => decide (Above (vars.map MixVar.score) d.args s)),
    by classical exact d.values.toFinset,
    fun θ ρ v => d.prob (d.param θ (d.args.map (mixVal θ ρ vars))) v⟩

/-- The program of random variables. -/
noncomputable def mixProg (θ₀ : E) (vars : List (MixVar E)) : List (Decl E ℝ) :=
  (vars.map (MixVar.decl θ₀ vars)).reverse

/-- The plates of a variable, by name and size. -/
noncomputable def mixKeys (θ₀ : E) (vars : List (MixVar E)) (s : String) : List (String × Nat) :=
  (platesIn (layout (θ₀ := θ₀) invN (vars.map MixVar.score)) s).map Plate.key

/-- The enumerated variables have their values in order: value `i` at position `i` of their own plate, which comes
first. -/
def ListedDraws (vars : List (MixVar E)) (ω : Draws ℝ) : Prop :=
  ∀ d ∈ vars, d.how = .expect → ∀ i rest, i < d.values.length → d.values[i]? = some (ω d.name (i :: rest))

/-- The numbers of samples: no distribution is computed both from variables with one sample and from variables with
several (see C55), and enumerated variables have at least two values. -/
structure MixSizes (vars : List (MixVar E)) : Prop where
  unmixed : Unmixed (vars.map MixVar.score)
  listed : ∀ d ∈ vars, d.how = .expect → 2 ≤ d.size

/-- All variables have several samples or values. -/
theorem MixSizes.several {vars : List (MixVar E)} (h : ∀ d ∈ vars, 2 ≤ d.size) : MixSizes vars := by
  refine ⟨?_, fun d hd _ => h d hd⟩
  intro d _
  left
  intro d' hd' _
  obtain ⟨x, hx, rfl⟩ := List.mem_map.1 hd'
  exact h x hx

/-- All variables have one sample. -/
theorem MixSizes.ones {vars : List (MixVar E)} (h : ∀ d ∈ vars, d.size = 1 ∧ d.how ≠ .expect) : MixSizes vars := by
  refine ⟨?_, fun d hd he => absurd he (h d hd).2⟩
  intro d _
  right
  intro d' hd' _
  obtain ⟨x, hx, rfl⟩ := List.mem_map.1 hd'
  exact (h x hx).1

theorem MixSizes.tail {d : MixVar E} {ds : List (MixVar E)} (h : MixSizes (d :: ds)) : MixSizes ds := by
  have hm : ∀ {args t}, Above (ds.map MixVar.score) args t → Above ((d :: ds).map MixVar.score) args t :=
    fun h' => h'.mono (fun _ hx => List.mem_cons_of_mem _ hx)
  refine ⟨?_, ?_⟩
  · intro x hx
    rcases h.unmixed x (List.mem_cons_of_mem _ hx) with h' | h'
    · exact Or.inl (fun y hy ha => h' y (List.mem_cons_of_mem _ hy) (hm ha))
    · exact Or.inr (fun y hy ha => h' y (List.mem_cons_of_mem _ hy) (hm ha))
  · exact fun x hx he => h.listed x (List.mem_cons_of_mem _ hx) he

/-- Statements that make sense: new names, parameters computed from earlier variables, probabilities that sum to one,
at least one sample or value, each value listed once, not more values than the budget, and noise whose law does not
depend on the parameters. -/
structure GoodMix (vars : List (MixVar E)) : Prop where
  good : GoodVars (vars.map MixVar.score)
  sizes : MixSizes vars
  once : ∀ d ∈ vars, d.values.Nodup
  budget : ∀ d ∈ vars, d.how = .expect → d.size ≤ 10000
  noise : ∀ d ∈ vars, d.how.drawn = true → d.how.scored = false → ∀ π π' v, d.prob π v = d.prob π' v

theorem GoodMix.tail {d : MixVar E} {ds : List (MixVar E)} (h : GoodMix (d :: ds)) : GoodMix ds :=
  ⟨h.good.1, h.sizes.tail, fun x hx => h.once x (List.mem_cons_of_mem _ hx),
    fun x hx => h.budget x (List.mem_cons_of_mem _ hx), fun x hx => h.noise x (List.mem_cons_of_mem _ hx)⟩

theorem GoodVars.nodup : ∀ {vars : List (ScoreVar E)}, GoodVars vars → (vars.map ScoreVar.name).Nodup
  | [], _ => List.nodup_nil
  | d :: ds, h => by
    simp only [List.map_cons, List.nodup_cons]
    exact ⟨h.2.1, GoodVars.nodup h.1⟩

theorem score_names (vars : List (MixVar E)) : (vars.map MixVar.score).map ScoreVar.name = vars.map MixVar.name := by
  rw [List.map_map]; rfl

theorem GoodMix.layOK {vars : List (MixVar E)} (h : GoodMix vars) :
    LayoutOK (θ₀ := θ₀) invN (vars.map MixVar.score) := layoutOK _ _ h.good

theorem GoodMix.nodup {vars : List (MixVar E)} (h : GoodMix vars) : (vars.map MixVar.name).Nodup := by
  rw [← score_names]; exact h.good.nodup

theorem GoodVars.posSize : ∀ {vars : List (ScoreVar E)}, GoodVars vars → ∀ d ∈ vars, 1 ≤ d.n
  | [], _, _, hd => by cases hd
  | x :: ds, h, d, hd => by
    rcases List.mem_cons.1 hd with rfl | hd
    · exact h.2.2.2.1
    · exact GoodVars.posSize h.1 d hd

theorem GoodMix.posSize {vars : List (MixVar E)} (h : GoodMix vars) {d : MixVar E} (hd : d ∈ vars) : 1 ≤ d.size :=
  h.good.posSize d.score (List.mem_map_of_mem hd)

theorem mem_mixProg {vars : List (MixVar E)} {x : Decl E ℝ} :
    x ∈ mixProg θ₀ vars ↔ ∃ d ∈ vars, x = d.decl θ₀ vars := by
  rw [mixProg, List.mem_reverse, List.mem_map]
  exact ⟨fun ⟨d, hd, h⟩ => ⟨d, hd, h.symm⟩, fun ⟨d, hd, h⟩ => ⟨d, hd, h.symm⟩⟩

theorem mixProg_names (vars : List (MixVar E)) :
    (mixProg θ₀ vars).map Decl.name = (vars.map MixVar.name).reverse := by
  rw [mixProg, List.map_reverse, List.map_map]; rfl

theorem GoodMix.progNodup {vars : List (MixVar E)} (h : GoodMix vars) : ((mixProg θ₀ vars).map Decl.name).Nodup := by
  rw [mixProg_names, List.nodup_reverse]; exact h.nodup

theorem GoodMix.traj {vars : List (MixVar E)} (h : GoodMix vars) {d : MixVar E} (hd : d ∈ vars) (ω : Draws ℝ)
    (ι : String → Nat) : trajectory (mixProg θ₀ vars) ω ι d.name =
      ω d.name (((mixKeys θ₀ vars d.name).filter (fun q => decide (1 < q.2))).map (fun q => ι q.1)) := by
  have := trajectory_decl (h.progNodup (θ₀ := θ₀)) (mem_mixProg.2 ⟨d, hd, rfl⟩) ω ι
  rw [show (d.decl θ₀ vars).name = d.name from rfl] at this
  rw [this, MixVar.decl, idxOf, mixKeys, List.map_map]
  rw [List.filter_map (f := Plate.key), List.map_map]
  rfl

theorem mixVal_congr {θ : E} {ρ ρ' : String → ℝ} : ∀ {vars : List (MixVar E)},
    (∀ s ∈ vars.map MixVar.name, ρ s = ρ' s) → ∀ s, mixVal θ ρ vars s = mixVal θ ρ' vars s
  | [], _, _ => rfl
  | d :: ds, h, s => by
    have ih := mixVal_congr (θ := θ) (vars := ds) (fun s hs => h s (List.mem_cons_of_mem _ hs))
    rw [mixVal, mixVal]
    by_cases hs : s = d.name
    · rw [if_pos hs, if_pos hs, List.map_congr_left (fun s _ => ih s), h s (by simp [hs])]
    · rw [if_neg hs, if_neg hs, ih]

theorem mixVal_older {θ : E} {ρ : String → ℝ} {d : MixVar E} {ds : List (MixVar E)} {s : String} (h : s ≠ d.name) :
    mixVal θ ρ (d :: ds) s = mixVal θ ρ ds s := by rw [mixVal, if_neg h]

/-- The arguments of a statement are earlier variables. -/
theorem GoodMix.earlier {vars : List (MixVar E)} (hg : GoodMix vars) {d : MixVar E} (hd : d ∈ vars) :
    ∀ s ∈ d.args, s ∈ vars.map MixVar.name := by
  intro s hs
  have := (hg.good.earlier (List.mem_map_of_mem hd)).1 s hs
  rwa [score_names] at this

/-- The value of a variable. -/
theorem mixVal_eq {θ : E} {ρ : String → ℝ} : ∀ {vars : List (MixVar E)}, GoodMix vars → ∀ {d : MixVar E}, d ∈ vars →
    mixVal θ ρ vars d.name = d.how.out (d.param θ (d.args.map (mixVal θ ρ vars))) (ρ d.name)
  | [], _, _, hd => by cases hd
  | x :: ds, hg, d, hd => by
    have hn := hg.nodup
    rw [List.map_cons, List.nodup_cons] at hn
    have hold : ∀ s ∈ ds.map MixVar.name, mixVal θ ρ (x :: ds) s = mixVal θ ρ ds s :=
      fun s hs => mixVal_older (fun e => hn.1 (e ▸ hs))
    have hgd := hg.good
    rw [List.map_cons] at hgd
    rcases List.mem_cons.1 hd with rfl | hd
    · rw [mixVal, if_pos rfl]
      congr 2
      refine List.map_congr_left (fun s hs => (hold s ?_).symm)
      have := hgd.2.2.1 s hs
      rwa [score_names] at this
    · rw [hold _ (List.mem_map_of_mem hd), mixVal_eq hg.tail hd]
      congr 2
      exact List.map_congr_left (fun s hs => (hold s (hg.tail.earlier hd s hs)).symm)

/-- The value of a variable depends on what is drawn for it and for the variables above it. -/
theorem mixVal_above {θ : E} {ρ ρ' : String → ℝ} : ∀ {vars : List (MixVar E)}, GoodMix vars → ∀ {s : String},
    (∀ t, Above (vars.map MixVar.score) [s] t → ρ t = ρ' t) → mixVal θ ρ vars s = mixVal θ ρ' vars s
  | [], _, _, _ => rfl
  | x :: ds, hg, s, h => by
    rw [mixVal, mixVal]
    have hsub : ∀ d ∈ ds.map MixVar.score, d ∈ (x :: ds).map MixVar.score :=
      fun d hd => by rw [List.map_cons]; exact List.mem_cons_of_mem _ hd
    by_cases hs : s = x.name
    · rw [if_pos hs, if_pos hs, h s (.arg (by simp))]
      congr 2
      refine List.map_congr_left (fun t ht => mixVal_above hg.tail (fun u hu => h u ?_))
      refine (hu.mono hsub).trans (.step (d := x.score) (by simp) ?_ ht)
      exact .arg (by rw [hs]; simp [MixVar.score])
    · rw [if_neg hs, if_neg hs]
      exact mixVal_above hg.tail (fun u hu => h u (hu.mono hsub))

theorem mem_deps {vars : List (MixVar E)} {d : MixVar E} {s : String} : s ∈ (d.decl θ₀ vars).deps ↔
    s ∈ vars.map MixVar.name ∧ Above (vars.map MixVar.score) d.args s := by
  simp only [MixVar.decl, List.mem_filter, decide_eq_true_eq]

/-- What is above the arguments of a statement is earlier. -/
theorem above_suffix {pre ds : List (MixVar E)} {d : MixVar E} (hg : GoodMix (pre ++ d :: ds)) {s : String}
    (h : Above ((pre ++ d :: ds).map MixVar.score) d.args s) : s ∈ ds.map MixVar.name := by
  have htail : ∀ (pre : List (MixVar E)), GoodMix (pre ++ d :: ds) → GoodMix (d :: ds) := by
    intro pre
    induction pre with
    | nil => exact fun h => h
    | cons x pre ih => exact fun h => ih h.tail
  have hd := htail pre hg
  have hgd := hd.good
  rw [List.map_cons] at hgd
  induction h with
  | arg hs =>
    have := hgd.2.2.1 _ hs
    rwa [score_names] at this
  | step hx _ hs ih =>
    obtain ⟨x, hx', rfl⟩ := List.mem_map.1 hx
    obtain ⟨y, hy, he⟩ := List.mem_map.1 ih
    have hy' : y ∈ pre ++ d :: ds := List.mem_append_right _ (List.mem_cons_of_mem _ hy)
    have : y = x := List.inj_on_of_nodup_map hg.nodup hy' hx' he
    subst this
    exact hd.tail.earlier hy _ hs

theorem GoodMix.program {vars : List (MixVar E)} (hg : GoodMix vars) (θ : E) : Program (mixProg θ₀ vars) θ := by
  have hl := hg.layOK (θ₀ := θ₀)
  refine ⟨hg.progNodup, ?_, ?_, ?_, ?_, ?_⟩
  · intro x hx
    obtain ⟨d, hd, rfl⟩ := mem_mixProg.1 hx
    exact idxOf_names (hl.nodup _ (hl.platesIn_mem (by rw [score_names]; exact List.mem_map_of_mem hd)))
  · intro l1 x l2 he s hs
    rw [mixProg] at he
    have he' := congrArg List.reverse he
    rw [List.reverse_reverse, List.reverse_append, List.reverse_cons, List.append_assoc, List.singleton_append] at he'
    obtain ⟨a, b, h1, h2, h3⟩ := List.map_eq_append_iff.1 he'
    obtain ⟨d, ds, h4, h5, h6⟩ := List.map_eq_cons_iff.1 h3
    subst h4
    rw [← h5, mem_deps] at hs
    have hg' := hg
    have hs' := hs.2
    rw [h1] at hg' hs'
    have := above_suffix hg' hs'
    have hl1 : l1 = (ds.map (MixVar.decl θ₀ vars)).reverse := by rw [h6, List.reverse_reverse]
    rw [hl1, List.map_reverse, List.mem_reverse, List.map_map]
    exact this
  · intro x hx x' hx' hdep q hq
    obtain ⟨d, hd, rfl⟩ := mem_mixProg.1 hx
    obtain ⟨d', hd', rfl⟩ := mem_mixProg.1 hx'
    have hab := (mem_deps.1 hdep).2
    have hsub : ∀ s, Above (vars.map MixVar.score) d.args s →
        ∀ p ∈ platesIn (layout (θ₀ := θ₀) invN (vars.map MixVar.score)) s,
          p ∈ platesIn (layout (θ₀ := θ₀) invN (vars.map MixVar.score)) d.name := by
      intro s hs
      induction hs with
      | arg h => exact hg.good.args_sub (List.mem_map_of_mem hd) _ h
      | step hy _ ha ih => exact fun p hp => ih p (hg.good.args_sub hy _ ha p hp)
    simp only [MixVar.decl, idxOf, List.mem_map, List.mem_filter] at hq ⊢
    obtain ⟨p, ⟨hp1, hp2⟩, rfl⟩ := hq
    exact ⟨p, ⟨hsub _ hab p hp1, hp2⟩, rfl⟩
  · intro x hx θ' ρ ρ' v hagree
    obtain ⟨d, hd, rfl⟩ := mem_mixProg.1 hx
    have : d.args.map (mixVal θ' ρ vars) = d.args.map (mixVal θ' ρ' vars) := by
      refine List.map_congr_left (fun s hs => mixVal_above hg (fun t ht => hagree t (mem_deps.2 ⟨?_, ?_⟩)))
      · have hab : Above (vars.map MixVar.score) d.args t := ht.trans (.arg hs)
        cases hab with
        | arg h => exact hg.earlier hd _ h
        | step hy _ ha =>
          obtain ⟨y, hy', rfl⟩ := List.mem_map.1 hy
          exact hg.earlier hy' _ ha
      · exact ht.trans (.arg hs)
    simp only [MixVar.decl, this]
  · intro x hx ρ
    obtain ⟨d, hd, rfl⟩ := mem_mixProg.1 hx
    exact (hg.good.earlier (List.mem_map_of_mem hd)).2.2 _

/-- The tensors of a variable hold its values. -/
structure MixEntry (vars : List (MixVar E)) (ω : Draws ℝ) (pool : List (Plate (AD E θ₀))) (d : MixVar E)
    (t : STen (AD E θ₀)) (p : Operand (AD E θ₀)) : Prop where
  wf : t.WF
  keys : t.plates.map Plate.key = mixKeys θ₀ vars d.name
  sub : ∀ q ∈ t.plates, q ∈ pool
  closed : ∀ q ∈ t.plates, ∀ r ∈ q.parents, r ∈ t.plates
  scalar : t.eventShape = []
  val : ∀ ι, Valid pool ι → ∀ θ, t.sample ι [] θ = mixVal θ (trajectory (mixProg θ₀ vars) ω ι) vars d.name
  param : ScalarOp pool p
  paramSub : ∀ q ∈ p.plates, q ∈ t.plates
  paramVal : ∀ ι, Valid pool ι → ∀ θ,
    p.at ι θ = d.param θ (d.args.map (mixVal θ (trajectory (mixProg θ₀ vars) ω ι) vars))

/-- The weight of the plate of a variable at a position where `ρ` is drawn. -/
noncomputable def MixVar.weightOf (vars : List (MixVar E)) (d : MixVar E) (θ : E) (ρ : String → ℝ) : ℝ :=
  if d.how.drawn then 1 / (d.size : ℝ) else d.prob (d.param θ (d.args.map (mixVal θ ρ vars))) (ρ d.name)

/-- All values of the enumerated variables have positive probability. -/
def PositiveAt (vars : List (MixVar E)) (θ : E) : Prop :=
  ∀ d ∈ vars, d.how = .expect → ∀ xs, ∀ v ∈ d.values, 0 < d.prob (d.param θ xs) v

/-- A run. -/
structure MixRun (vars : List (MixVar E)) (ω : Draws ℝ) (env : RunEnv E θ₀) (pool : List (Plate (AD E θ₀))) :
    Prop where
  keys : pool.map Plate.key = vars.map (fun d => (d.name, d.size))
  ok : PoolOK pool
  weights : Weights pool
  up : ∀ p ∈ pool, ∀ q ∈ p.parents, q ∈ pool
  parents : ∀ p ∈ pool, (∀ q ∈ p.parents, ∀ x ∈ q.parents, x ∈ p.parents) ∧ ∃ d ∈ vars, d.name = p.name ∧
    ∀ q ∈ p.parents, ∃ d' ∈ vars, Above (vars.map MixVar.score) d.args d'.name ∧ q.n = d'.size
  entries : ∀ d ∈ vars, ∃ t p, env.find? (fun e => e.1 == d.name) = some (d.name, t, p) ∧
    MixEntry vars ω pool d t p
  weightAt : ∀ d ∈ vars, ∀ q ∈ pool, q.name = d.name → ∀ ι, Valid pool ι → ∀ θ, PositiveAt vars θ →
    q.weightAt id ι θ = d.weightOf vars θ (trajectory (mixProg θ₀ vars) ω ι)

theorem MixRun.names {vars : List (MixVar E)} {ω : Draws ℝ} {env : RunEnv E θ₀} {pool : List (Plate (AD E θ₀))}
    (h : MixRun vars ω env pool) : pool.map Plate.name = vars.map MixVar.name := by
  have := congrArg (List.map Prod.fst) h.keys
  rw [List.map_map, List.map_map] at this
  exact this

theorem MixRun.find {vars : List (MixVar E)} {ω : Draws ℝ} {env : RunEnv E θ₀} {pool : List (Plate (AD E θ₀))}
    (h : MixRun vars ω env pool) {q : Plate (AD E θ₀)} (hq : q ∈ pool) : ∃ d ∈ vars, d.name = q.name ∧ d.size = q.n := by
  have : q.key ∈ vars.map (fun d => (d.name, d.size)) := h.keys ▸ List.mem_map_of_mem hq
  obtain ⟨d, hd, he⟩ := List.mem_map.1 this
  exact ⟨d, hd, congrArg Prod.fst he, congrArg Prod.snd he⟩

theorem MixRun.posSize {vars : List (MixVar E)} (hg : GoodMix vars) {ω : Draws ℝ} {env : RunEnv E θ₀}
    {pool : List (Plate (AD E θ₀))} (h : MixRun vars ω env pool) : ∀ q ∈ pool, 1 ≤ q.n := by
  intro q hq
  obtain ⟨d, hd, _, e⟩ := h.find hq
  rw [← e]; exact hg.posSize hd

/-- The plates of a tensor nest as the computation needs it. -/
theorem MixRun.nested {vars : List (MixVar E)} (hg : GoodMix vars) {ω : Draws ℝ} {env : RunEnv E θ₀}
    {pool : List (Plate (AD E θ₀))} (h : MixRun vars ω env pool) {ps : List (Plate (AD E θ₀))} (hs : ∀ p ∈ ps, p ∈ pool)
    (hc : ∀ p ∈ ps, ∀ q ∈ p.parents, q ∈ ps) : ParentsAllOrNone (ps.filter (fun p => decide (1 < p.n))) := by
  intro p hp
  obtain ⟨hp1, hp2⟩ := List.mem_filter.1 hp
  obtain ⟨_, d, hd, _, hpar⟩ := h.parents p (hs p hp1)
  rcases hg.sizes.unmixed d.score (List.mem_map_of_mem hd) with h' | h'
  · left
    intro q hq
    obtain ⟨d', hd', ha, hn⟩ := hpar q hq
    have : 1 < d'.size := h' d'.score (List.mem_map_of_mem hd') ha
    exact ⟨q, List.mem_filter.2 ⟨hc p hp1 q hq, by simpa [hn] using this⟩, Plate.pyEq_refl _⟩
  · right
    have hone : ∀ q ∈ p.parents, q.n = 1 := by
      intro q hq
      obtain ⟨d', hd', ha, hn⟩ := hpar q hq
      rw [hn]; exact h' d'.score (List.mem_map_of_mem hd') ha
    have hname : ∀ q ∈ p.parents, ∀ x ∈ ps.filter (fun p => decide (1 < p.n)), x.name ≠ q.name := by
      intro q hq x hx e
      obtain ⟨hx1, hx2⟩ := List.mem_filter.1 hx
      have := pool_eq h.ok (hs x hx1) (hs q (hc p hp1 q hq)) e
      subst this
      rw [hone x hq] at hx2
      simp at hx2
    refine ⟨?_, hname⟩
    intro q hq x hx
    have : q ∈ p.parents := by
      have key : ∀ {q p : Plate (AD E θ₀)}, IsAncestor q p → p ∈ pool → q ∈ p.parents := by
        intro q p h''
        induction h'' with
        | parent h' => intro _; exact h'
        | step _ h2 ih => intro hpp; exact (h.parents _ hpp).1 _ h2 _ (ih (h.up _ hpp _ h2))
      exact key hq (hs p hp1)
    cases he : x.pyEq q with
    | false => rfl
    | true => exact absurd (Plate.pyEq_name he) (hname q this x hx)

/-- The plates of what is computed from variables. -/
noncomputable def mixArgKeys (θ₀ : E) (vars : List (MixVar E)) (args : List String) : List (String × Nat) :=
  (argPlates (layout (θ₀ := θ₀) invN (vars.map MixVar.score)) args).map Plate.key

theorem mixArgKeys_eq {vars : List (MixVar E)} (hg : GoodMix vars) {args : List String}
    (ha : ∀ s ∈ args, s ∈ vars.map MixVar.name) :
    mixArgKeys θ₀ vars args = (args.map (mixKeys θ₀ vars)).foldl addKeys [] := by
  have hl := hg.layOK (θ₀ := θ₀)
  rw [mixArgKeys, argPlates, foldl_keys (hl.poolNames ▸ hl.varNames) _ [] (by simp), List.map_map]
  · rfl
  · intro l hl' p hp
    obtain ⟨s, hs, rfl⟩ := List.mem_map.1 hl'
    exact hl.sub _ (hl.platesIn_mem (by rw [score_names]; exact ha s hs)) p hp

/-- Looking up variables. -/
theorem MixRun.get {vars : List (MixVar E)} {ω : Draws ℝ} {env : RunEnv E θ₀} {pool : List (Plate (AD E θ₀))}
    (h : MixRun vars ω env pool) {args : List String} (ha : ∀ s ∈ args, s ∈ vars.map MixVar.name) :
    ∃ ts, env.get args = .ok ts ∧ (∀ o ∈ ts, ScalarOp pool o) ∧
      ts.map (fun o => o.plates.map Plate.key) = args.map (mixKeys θ₀ vars) ∧
      (args ≠ [] → stens ts ≠ []) ∧ (∀ o ∈ ts, ∀ q ∈ o.plates, ∀ r ∈ q.parents, r ∈ o.plates) ∧
      ∀ ι, Valid pool ι → ∀ θ, (ts.map (fun o => o.at ι)).map (fun x => x θ) =
        args.map (mixVal θ (trajectory (mixProg θ₀ vars) ω ι) vars) := by
  induction args with
  | nil => exact ⟨[], rfl, by simp, rfl, by simp, by simp, by simp⟩
  | cons s args ih =>
    obtain ⟨ts, h1, h2, h3, _, h4, h5⟩ := ih (fun x hx => ha x (List.mem_cons_of_mem _ hx))
    obtain ⟨d, hd, rfl⟩ := List.mem_map.1 (ha s (by simp))
    obtain ⟨t, p, e1, e2⟩ := h.entries d hd
    refine ⟨.st t true :: ts, ?_, ?_, ?_, by simp [stens], ?_, ?_⟩
    · rw [RunEnv.get, e1, h1]
    · intro o ho
      rcases List.mem_cons.1 ho with rfl | ho
      · exact ⟨e2.wf, e2.scalar, e2.sub⟩
      · exact h2 o ho
    · rw [List.map_cons, List.map_cons, h3, Operand.plates, e2.keys]
    · intro o ho
      rcases List.mem_cons.1 ho with rfl | ho
      · exact e2.closed
      · exact h4 o ho
    · intro ι hι θ
      simp only [List.map_cons, h5 ι hι θ]
      rw [Operand.at, Operand.sample, e2.val ι hι]

/-- Something computed from variables. -/
theorem MixRun.call {hook : UnwrapHook (AD E θ₀)} (hh : PlainHook hook) {vars : List (MixVar E)} (hg : GoodMix vars)
    {ω : Draws ℝ} {env : RunEnv E θ₀} {pool : List (Plate (AD E θ₀))} (h : MixRun vars ω env pool)
    {args : List String} (ha : ∀ s ∈ args, s ∈ vars.map MixVar.name) (f : E → List ℝ → ℝ) :
    ∃ ts r, env.get args = .ok ts ∧ opCall hook (liftFn f) ts = .ok r ∧ ScalarOp pool r ∧
      r.plates.map Plate.key = mixArgKeys θ₀ vars args ∧ (∀ q ∈ r.plates, ∀ x ∈ q.parents, x ∈ r.plates) ∧
      (args ≠ [] → ∃ t, r = .st t false) ∧
      ∀ ι, Valid pool ι → ∀ θ, r.at ι θ = f θ (args.map (mixVal θ (trajectory (mixProg θ₀ vars) ω ι) vars)) := by
  obtain ⟨ts, t1, t2, t3, t4, t5, t6⟩ := h.get ha
  obtain ⟨r, r1, r2, r3, r4, r5, r6⟩ := opCall_plates hh h.ok (liftFn f) t2
  refine ⟨ts, r, t1, r1, r2, ?_, ?_, fun hne => r6 (t4 hne), ?_⟩
  · rw [mixArgKeys_eq hg ha, r3, callPlates_st, foldl_keys h.ok.names _ [] (by simp), List.map_map, ← t3]
    · rfl
    · intro l hl p hp
      obtain ⟨o, ho, rfl⟩ := List.mem_map.1 hl
      exact (t2 o ho).sub p hp
  · intro q hq x hx
    obtain ⟨o, ho, hm⟩ := (r4 q).1 hq
    exact (r4 x).2 ⟨o, ho, t5 o ho q hm x hx⟩
  · intro ι hι θ
    rw [r5 ι, liftFn, t6 ι hι θ]

theorem mixKeys_cons_ne {d : MixVar E} {ds : List (MixVar E)} {s : String} (h : d.name ≠ s) :
    mixKeys θ₀ (d :: ds) s = mixKeys θ₀ ds s := by
  rw [mixKeys, mixKeys, List.map_cons, layout, platesIn_cons_ne (e := (d.score.name, _)) h]

theorem mixKeys_cons_eq {d : MixVar E} {ds : List (MixVar E)} :
    mixKeys θ₀ (d :: ds) d.name = (d.name, d.size) :: mixArgKeys θ₀ ds d.args := by
  rw [mixKeys, List.map_cons, layout, show d.name = d.score.name from rfl, platesIn_cons_eq (e := (d.score.name, _))]
  rfl

theorem mixTrajectory_older {d : MixVar E} {ds : List (MixVar E)} (hg : GoodMix (d :: ds)) {s : String}
    (hs : s ∈ ds.map MixVar.name) (ω : Draws ℝ) (ι : String → Nat) :
    trajectory (mixProg θ₀ (d :: ds)) ω ι s = trajectory (mixProg θ₀ ds) ω ι s := by
  have hn := hg.nodup
  rw [List.map_cons, List.nodup_cons] at hn
  obtain ⟨x, hx, rfl⟩ := List.mem_map.1 hs
  rw [hg.traj (List.mem_cons_of_mem _ hx), hg.tail.traj hx, mixKeys_cons_ne (fun e => hn.1 (e ▸ hs))]

theorem mixValue_older {d : MixVar E} {ds : List (MixVar E)} (hg : GoodMix (d :: ds)) {s : String}
    (hs : s ∈ ds.map MixVar.name) (θ : E) (ω : Draws ℝ) (ι : String → Nat) :
    mixVal θ (trajectory (mixProg θ₀ (d :: ds)) ω ι) (d :: ds) s = mixVal θ (trajectory (mixProg θ₀ ds) ω ι) ds s := by
  have hn := hg.nodup
  rw [List.map_cons, List.nodup_cons] at hn
  rw [mixVal_older (fun e => hn.1 (e ▸ hs))]
  exact mixVal_congr (fun s hs => mixTrajectory_older hg hs ω ι) s

/-- Every program runs, and its tensors hold the values. -/
theorem runMixed_ok {hook : UnwrapHook (AD E θ₀)} (hh : PlainHook hook) (ω : Draws ℝ) :
    ∀ vars : List (MixVar E), GoodMix vars → ListedDraws vars ω →
      ∃ env pool, runMixed hook invN ω vars = .ok env ∧ MixRun vars ω env pool
  | [], _, _ => by
    refine ⟨[], [], rfl, rfl, ⟨List.nodup_nil, by simp, ?_⟩, ?_, by simp, by simp, by simp, by simp⟩
    · intro k hk
      have key : ∀ a b, ¬ ParentOf ([] : List (Plate (AD E θ₀))) a b := by
        rintro a b ⟨p, hp, _⟩; cases hp
      cases hk with
      | single h => exact key _ _ h
      | tail _ h => exact key _ _ h
    · intro p hp; cases hp
  | d :: ds, hg, hω => by
    obtain ⟨env, pool, r1, r2⟩ := runMixed_ok hh ω ds hg.tail (fun x hx => hω x (List.mem_cons_of_mem _ hx))
    have hgd := hg.good
    simp only [List.map_cons] at hgd
    obtain ⟨g1, g2, g3, g4, g5⟩ := hgd
    have g2' : d.name ∉ ds.map MixVar.name := by rw [← score_names]; exact g2
    have g3' : ∀ s ∈ d.args, s ∈ ds.map MixVar.name := by rw [← score_names]; exact g3
    obtain ⟨ts, p, t1, p1, p2, p3, p4, _, p6⟩ := r2.call hh hg.tail g3' d.param
    have hnew : d.name ∉ pool.map Plate.name := by rw [r2.names]; exact g2'
    have habove : ∀ q ∈ p.plates, ∃ d' ∈ ds, Above (ds.map MixVar.score) d.args d'.name ∧ q.n = d'.size := by
      intro q hq
      have hm : q.key ∈ mixArgKeys θ₀ ds d.args := p3 ▸ List.mem_map_of_mem hq
      rw [mixArgKeys, List.mem_map] at hm
      obtain ⟨x, hx, he⟩ := hm
      obtain ⟨s, hs, hm⟩ := (((layoutOK (θ₀ := θ₀) invN _ g1).args g3).2 x).1 hx
      obtain ⟨d', hd', h1, h2, h3⟩ := platesIn_above g1 (g3 s hs) x hm
      obtain ⟨y, hy, rfl⟩ := List.mem_map.1 hd'
      exact ⟨y, hy, h1.trans (.arg hs), (congrArg Prod.snd he).symm.trans h3⟩
    have hcons : ∀ {args t}, Above (ds.map MixVar.score) args t → Above ((d :: ds).map MixVar.score) args t :=
      fun h' => h'.mono (fun _ hx => List.mem_cons_of_mem _ hx)
    obtain ⟨t, x, s1, s2⟩ := MixVar.sample_ok hh r2.ok r2.up hnew p2 (hg.posSize (by simp))
      (hg.sizes.listed d (by simp)) (hg.budget d (by simp)) (draw := ω d.name) (hω d (by simp))
    have hkeys : t.plates.map Plate.key = mixKeys θ₀ (d :: ds) d.name := by
      rw [s2.over, List.map_cons, p3, mixKeys_cons_eq]
      congr 1
      rw [Plate.key, s2.name, s2.n]
    have hsub : ∀ q ∈ t.plates, q ∈ x :: pool := by
      intro q hq
      rw [s2.over] at hq
      rcases List.mem_cons.1 hq with rfl | hq
      · exact List.mem_cons_self
      · exact List.mem_cons_of_mem _ (p2.sub q hq)
    have hvt : ∀ ι, Valid (x :: pool) ι → Valid t.plates ι := fun ι hι q hq => hι q (hsub q hq)
    have hvp : ∀ ι, Valid (x :: pool) ι → Valid pool ι := fun ι hι q hq => hι q (List.mem_cons_of_mem _ hq)
    have hval : ∀ ι, ω d.name (t.multiDimPlates.map (fun q => ι q.name)) = trajectory (mixProg θ₀ (d :: ds)) ω ι d.name := by
      intro ι
      rw [hg.traj (by simp), ← hkeys, List.filter_map, List.map_map]
      rfl
    have hparam : ∀ ι, Valid (x :: pool) ι → ∀ θ,
        p.at ι θ = d.param θ (d.args.map (mixVal θ (trajectory (mixProg θ₀ (d :: ds)) ω ι) (d :: ds))) := by
      intro ι hι θ
      rw [p6 ι (hvp ι hι)]
      congr 1
      exact List.map_congr_left (fun s hs => (mixValue_older hg (g3' s hs) θ ω ι).symm)
    refine ⟨(d.name, t, p) :: env, x :: pool, ?_, ?_, ?_, ?_, ?_, ?_, ?_, ?_⟩
    · rw [runMixed, r1]
      simp only [MixVar.run, t1, p1, s1]
    · rw [List.map_cons, List.map_cons, r2.keys, Plate.key, s2.name, s2.n]
    · refine r2.ok.cons s2.kind (s2.name ▸ hnew) ?_ r2.up
      rw [s2.parents]; exact p2.sub
    · intro q hq
      rcases List.mem_cons.1 hq with rfl | hq
      · exact s2.weightOK
      · exact r2.weights q hq
    · intro q hq y hy
      rcases List.mem_cons.1 hq with rfl | hq
      · rw [s2.parents] at hy
        exact List.mem_cons_of_mem _ (p2.sub y hy)
      · exact List.mem_cons_of_mem _ (r2.up q hq y hy)
    · intro q hq
      rcases List.mem_cons.1 hq with rfl | hq
      · rw [s2.parents]
        refine ⟨p4, d, by simp, s2.name.symm, fun q hq => ?_⟩
        obtain ⟨d', hd', ha, hn⟩ := habove q hq
        exact ⟨d', List.mem_cons_of_mem _ hd', hcons ha, hn⟩
      · obtain ⟨h1, y, hy, h2, h3⟩ := r2.parents q hq
        refine ⟨h1, y, List.mem_cons_of_mem _ hy, h2, fun z hz => ?_⟩
        obtain ⟨d', hd', ha, hn⟩ := h3 z hz
        exact ⟨d', List.mem_cons_of_mem _ hd', hcons ha, hn⟩
    · intro y hy
      rcases List.mem_cons.1 hy with rfl | hy
      · refine ⟨t, p, by rw [List.find?_cons_of_pos (by simp)], s2.wf, hkeys, hsub, ?_, s2.scalar, ?_, ?_, ?_, hparam⟩
        · intro q hq z hz
          rw [s2.over] at hq ⊢
          rcases List.mem_cons.1 hq with rfl | hq
          · rw [s2.parents] at hz
            exact List.mem_cons_of_mem _ hz
          · exact List.mem_cons_of_mem _ (p4 q hq z hz)
        · intro ι hι θ
          rw [s2.val ι (hvt ι hι), hval, hparam ι hι, mixVal_eq hg (by simp)]
        · exact p2.mono (fun q hq => List.mem_cons_of_mem _ hq)
        · intro q hq
          rw [s2.over]
          exact List.mem_cons_of_mem _ hq
      · have hyn : y.name ∈ ds.map MixVar.name := List.mem_map_of_mem hy
        have hne : d.name ≠ y.name := fun e => g2' (e ▸ hyn)
        obtain ⟨t', p', e1, e2⟩ := r2.entries y hy
        refine ⟨t', p', ?_, e2.wf, ?_, ?_, e2.closed, e2.scalar, ?_, ?_, e2.paramSub, ?_⟩
        · rw [List.find?_cons_of_neg (by simpa using hne)]; exact e1
        · rw [e2.keys, mixKeys_cons_ne hne]
        · exact fun q hq => List.mem_cons_of_mem _ (e2.sub q hq)
        · intro ι hι θ; rw [e2.val ι (hvp ι hι), mixValue_older hg hyn]
        · exact e2.param.mono (fun q hq => List.mem_cons_of_mem _ hq)
        · intro ι hι θ
          rw [e2.paramVal ι (hvp ι hι)]
          congr 1
          exact List.map_congr_left (fun s hs => (mixValue_older hg (hg.tail.earlier hy s hs) θ ω ι).symm)
    · intro y hy q hq hqn ι hι θ hpos
      rcases List.mem_cons.1 hy with rfl | hy
      · rcases List.mem_cons.1 hq with rfl | hq
        · have := s2.weight ι (hvt ι hι) θ (fun hn v hv => by rw [hparam ι hι]; exact hpos y (by simp) hn _ v hv)
          rw [this, MixVar.weightOf, hval ι, hparam ι hι]
        · exact absurd (hqn ▸ List.mem_map_of_mem hq) hnew
      · have hyn : y.name ∈ ds.map MixVar.name := List.mem_map_of_mem hy
        rcases List.mem_cons.1 hq with rfl | hq
        · rw [s2.name] at hqn
          exact absurd (hqn ▸ hyn) g2'
        · rw [r2.weightAt y hy q hq hqn ι (hvp ι hι) θ (fun z hz => hpos z (List.mem_cons_of_mem _ hz))]
          unfold MixVar.weightOf
          have ha : y.args.map (mixVal θ (trajectory (mixProg θ₀ (d :: ds)) ω ι) (d :: ds)) =
              y.args.map (mixVal θ (trajectory (mixProg θ₀ ds) ω ι) ds) :=
            List.map_congr_left (fun s hs => mixValue_older hg (hg.tail.earlier hy s hs) θ ω ι)
          rw [ha, mixTrajectory_older hg hyn]

/-! ### Costs -/

/-- A cost computed from variables of the program; the walk finds variables above it, and among them every one that uses
`ScoreFunction` and whose distribution depends on the parameters, directly or through reparameterised variables. -/
structure GoodMixCost (θ₀ : E) (vars : List (MixVar E)) (k : MixCost E) : Prop where
  nonempty : k.args ≠ []
  args : ∀ s ∈ k.args, s ∈ vars.map MixVar.name
  sub : ∀ d ∈ k.walk, d ∈ vars
  above : ∀ d ∈ k.walk, Above (vars.map MixVar.score) k.args d.name
  nodup : (k.walk.map MixVar.name).Nodup
  finds : ∀ d ∈ vars, d.how.scored = true → Above (vars.map MixVar.score) k.args d.name → d ∈ k.walk ∨
    ∀ θ ρ v, (d.decl θ₀ vars).mass θ ρ v = (d.decl θ₀ vars).mass θ₀ ρ v

/-- Is the variable, or its noise, sampled? -/
noncomputable def mixDrawn (vars : List (MixVar E)) (x : Decl E ℝ) : Bool :=
  vars.any (fun d => d.name == x.name && d.how.drawn)

theorem mixDrawn_decl {vars : List (MixVar E)} (hg : GoodMix vars) {d : MixVar E} (hd : d ∈ vars) :
    mixDrawn vars (d.decl θ₀ vars) = d.how.drawn := by
  rw [mixDrawn, Bool.eq_iff_iff, List.any_eq_true]
  simp only [Bool.and_eq_true, beq_iff_eq]
  constructor
  · rintro ⟨x, hx, h1, h2⟩
    have : x = d := List.inj_on_of_nodup_map hg.nodup hx hd h1
    exact this ▸ h2
  · exact fun h => ⟨d, hd, rfl, h⟩

/-- The cost of the statistical model. -/
noncomputable def MixCost.spec (θ₀ : E) (vars : List (MixVar E)) (k : MixCost E) : CostSpec E ℝ :=
  ⟨fun θ ρ => k.f θ (k.args.map (mixVal θ ρ vars)), (k.walk.filter (fun d => d.how.scored)).map (fun d => d.decl θ₀ vars),
    by classical exact (vars.map MixVar.name).filter (fun s => decide (Above (vars.map MixVar.score) k.args s))⟩

theorem MixCost.mem_anc {vars : List (MixVar E)} {k : MixCost E} {s : String} : s ∈ (k.spec θ₀ vars).anc ↔
    s ∈ vars.map MixVar.name ∧ Above (vars.map MixVar.score) k.args s := by
  simp only [MixCost.spec, List.mem_filter, decide_eq_true_eq]

theorem GoodMixCost.spec {vars : List (MixVar E)} (hg : GoodMix vars) {k : MixCost E} (hk : GoodMixCost θ₀ vars k) :
    (k.spec θ₀ vars).MixOK (mixProg θ₀ vars) (mixDrawn vars) θ₀ := by
  refine ⟨?_, ?_, ?_, ?_, ?_, ?_⟩
  · intro x hx
    obtain ⟨d, hd, rfl⟩ := List.mem_map.1 hx
    obtain ⟨h1, h2⟩ := List.mem_filter.1 hd
    exact ⟨mem_mixProg.2 ⟨d, hk.sub d h1, rfl⟩, by rw [mixDrawn_decl hg (hk.sub d h1)]; exact MixHow.drawn_of_scored h2,
      MixCost.mem_anc.2 ⟨List.mem_map_of_mem (hk.sub d h1), hk.above d h1⟩⟩
  · simp only [MixCost.spec, List.map_map]
    exact hk.nodup.sublist (List.filter_sublist.map _)
  · intro x hx hxa s hs
    obtain ⟨d, hd, rfl⟩ := mem_mixProg.1 hx
    have hup : ∀ t, Above (vars.map MixVar.score) d.args t → Above (vars.map MixVar.score) k.args t := by
      intro t ht
      induction ht with
      | arg h => exact .step (d := d.score) (List.mem_map_of_mem hd) (MixCost.mem_anc.1 hxa).2 h
      | step hy _ ha ih => exact .step hy ih ha
    exact MixCost.mem_anc.2 ⟨(mem_deps.1 hs).1, hup s (mem_deps.1 hs).2⟩
  · intro s hs
    rw [mixProg_names, List.mem_reverse]
    exact (MixCost.mem_anc.1 hs).1
  · intro θ ρ ρ' hagree
    simp only [MixCost.spec]
    congr 1
    refine List.map_congr_left (fun s hs => mixVal_above hg (fun t ht => hagree t (MixCost.mem_anc.2 ⟨?_, ?_⟩)))
    · have hab : Above (vars.map MixVar.score) k.args t := ht.trans (.arg hs)
      cases hab with
      | arg h => exact hk.args _ h
      | step hy _ ha =>
        obtain ⟨y, hy', rfl⟩ := List.mem_map.1 hy
        exact hg.earlier hy' _ ha
    · exact ht.trans (.arg hs)
  · intro x hx hxa hdr
    obtain ⟨d, hd, rfl⟩ := mem_mixProg.1 hx
    rw [mixDrawn_decl hg hd] at hdr
    cases hsc : d.how.scored with
    | true =>
      rcases hk.finds d hd hsc (MixCost.mem_anc.1 hxa).2 with h | h
      · exact Or.inl (List.mem_map_of_mem (List.mem_filter.2 ⟨h, hsc⟩))
      · exact Or.inr h
    | false => exact Or.inr (fun θ ρ v => hg.noise d hd hdr hsc _ _ v)

/-- The size of the plate with the given name. -/
def mixSize (vars : List (MixVar E)) (s : String) : Nat := ((vars.find? (fun d => d.name == s)).map MixVar.size).getD 1

/-- The values of the variable with the given name. -/
def mixVals (vars : List (MixVar E)) (s : String) : List ℝ :=
  ((vars.find? (fun d => d.name == s)).map MixVar.values).getD []

theorem find_mixVar {vars : List (MixVar E)} (hg : GoodMix vars) {d : MixVar E} (hd : d ∈ vars) :
    vars.find? (fun x => x.name == d.name) = some d := by
  have : (vars.find? (fun x => x.name == d.name)).isSome = true := by
    rw [List.find?_isSome]; exact ⟨d, hd, by simp⟩
  obtain ⟨x, hx⟩ := Option.isSome_iff_exists.1 this
  have h1 := List.find?_some hx
  have h2 := List.mem_of_find?_eq_some hx
  simp only [beq_iff_eq] at h1
  rw [hx, List.inj_on_of_nodup_map hg.nodup h2 hd h1]

theorem mixSize_eq {vars : List (MixVar E)} (hg : GoodMix vars) {d : MixVar E} (hd : d ∈ vars) :
    mixSize vars d.name = d.size := by rw [mixSize, find_mixVar hg hd]; rfl

theorem mixVals_eq {vars : List (MixVar E)} (hg : GoodMix vars) {d : MixVar E} (hd : d ∈ vars) :
    mixVals vars d.name = d.values := by rw [mixVals, find_mixVar hg hd]; rfl

/-- The plates of a cost are those of the variables above it. -/
theorem mixArgKeys_perm {vars : List (MixVar E)} (hg : GoodMix vars) {k : MixCost E} (hk : GoodMixCost θ₀ vars k) :
    (mixArgKeys θ₀ vars k.args).Perm (((mixProg θ₀ vars).filter
      (fun d => decide (d.name ∈ (k.spec θ₀ vars).anc))).map (fun d => (d.name, mixSize vars d.name))) := by
  have hl := hg.layOK (θ₀ := θ₀)
  have hargs : ∀ s ∈ k.args, s ∈ (vars.map MixVar.score).map ScoreVar.name := by rw [score_names]; exact hk.args
  obtain ⟨a1, a2⟩ := hl.args hargs
  have hprog : ((mixProg θ₀ vars).map Decl.name).Nodup := by
    exact hg.progNodup
  have hup : ∀ s, Above (vars.map MixVar.score) k.args s → s ∈ (vars.map MixVar.score).map ScoreVar.name ∧
      ∀ p ∈ platesIn (layout (θ₀ := θ₀) invN (vars.map MixVar.score)) s,
        p ∈ argPlates (layout (θ₀ := θ₀) invN (vars.map MixVar.score)) k.args := by
    intro s hs
    induction hs with
    | arg h => exact ⟨hargs _ h, fun p hp => (a2 p).2 ⟨_, h, hp⟩⟩
    | step hd _ ha ih => exact ⟨(hg.good.earlier hd).1 _ ha, fun p hp => ih.2 p (hg.good.args_sub hd _ ha p hp)⟩
  have hown : ∀ {vs : List (ScoreVar E)}, GoodVars vs → ∀ d ∈ vs,
      ∃ p ∈ platesIn (layout (θ₀ := θ₀) invN vs) d.name, p.key = (d.name, d.n) := by
    intro vs
    induction vs with
    | nil => intro _ d hd; cases hd
    | cons x vs ih =>
      intro h d hd
      rcases List.mem_cons.1 hd with rfl | hd
      · refine ⟨mcPlate invN d.name d.n (argPlates (layout invN vs) d.args), ?_, rfl⟩
        rw [layout, platesIn_cons_eq (e := (d.name, _))]
        exact List.mem_cons_self
      · obtain ⟨p, hp, hk'⟩ := ih h.1 d hd
        refine ⟨p, ?_, hk'⟩
        rw [layout, platesIn_cons_ne (e := (x.name, _)) (fun e => h.2.1 ((show x.name = d.name from e) ▸ List.mem_map_of_mem hd))]
        exact hp
  rw [List.perm_ext_iff_of_nodup]
  · intro q
    rw [mixArgKeys, List.mem_map, List.mem_map]
    constructor
    · rintro ⟨p, hp, rfl⟩
      obtain ⟨s, hs, hm⟩ := (a2 p).1 hp
      obtain ⟨d, hd, h1, h2, h3⟩ := platesIn_above hg.good (hargs s hs) p hm
      obtain ⟨d, hd', rfl⟩ := List.mem_map.1 hd
      refine ⟨d.decl θ₀ vars, List.mem_filter.2 ⟨mem_mixProg.2 ⟨d, hd', rfl⟩, ?_⟩, ?_⟩
      · rw [decide_eq_true_eq]
        exact MixCost.mem_anc.2 ⟨List.mem_map_of_mem hd', h1.trans (.arg hs)⟩
      · rw [Plate.key, h2, h3, show (d.decl θ₀ vars).name = d.name from rfl, mixSize_eq hg hd']
        rfl
    · rintro ⟨x, hx, rfl⟩
      obtain ⟨hx1, hx2⟩ := List.mem_filter.1 hx
      obtain ⟨d, hd, rfl⟩ := mem_mixProg.1 hx1
      rw [decide_eq_true_eq] at hx2
      obtain ⟨p, hp, hpk⟩ := hown hg.good d.score (List.mem_map_of_mem hd)
      refine ⟨p, (hup d.name (MixCost.mem_anc.1 hx2).2).2 p hp, ?_⟩
      rw [hpk, show (d.decl θ₀ vars).name = d.name from rfl, mixSize_eq hg hd]
      rfl
  · refine List.Nodup.of_map Prod.fst ?_
    rw [mixArgKeys, List.map_map]
    exact a1
  · refine List.Nodup.of_map Prod.fst ?_
    rw [List.map_map]
    exact hprog.sublist (List.filter_sublist.map _)

/-- The log-probability of a variable. -/
theorem MixEntry.logProb {hook : UnwrapHook (AD E θ₀)} (hh : PlainHook hook) {vars : List (MixVar E)} {ω : Draws ℝ}
    {pool : List (Plate (AD E θ₀))} (hp : PoolOK pool) {d : MixVar E} {t : STen (AD E θ₀)} {p : Operand (AD E θ₀)}
    (h : MixEntry vars ω pool d t p) :
    ∃ G, ParentOK pool t ∧ LogProbOK t (logProbOf hook d.prob p) [] G ∧
      ∀ ι, Valid pool ι → ∀ θ, sumEvent [] G ι θ =
        Real.log ((d.decl θ₀ vars).mass θ (trajectory (mixProg θ₀ vars) ω ι)
          (mixVal θ (trajectory (mixProg θ₀ vars) ω ι) vars d.name)) := by
  refine ⟨fun ι _ => fun θ => Real.log (d.prob (p.at ι θ) (t.sample ι [] θ)), ⟨h.wf, h.sub, ?_⟩, ?_, ?_⟩
  · exact fun q hq r hr => ⟨r, h.closed q hq r hr, Plate.pyEq_refl _⟩
  · intro x hx
    obtain ⟨r, r1, r2, r3, r4, r5⟩ := opCall_scalar hh hp
      (logElt d.prob) (ops := [.st x true, p]) (by
      intro o ho
      simp only [List.mem_cons, List.not_mem_nil, or_false] at ho
      rcases ho with rfl | rfl
      · exact ⟨hx.wf, hx.event.trans h.scalar, fun q hq => h.sub q ((hx.plates q).1 hq)⟩
      · exact h.param)
    obtain ⟨lp, rfl⟩ := r5 (by simp [stens])
    refine ⟨lp, ?_, r2.1, ?_, r2.2.1, ?_⟩
    · rw [logProbOf, r1]
    · intro q
      rw [show lp.plates = (Operand.st lp false).plates from rfl, r3 q]
      simp only [List.mem_cons, List.not_mem_nil, or_false, exists_eq_or_imp, exists_eq_left]
      rw [Operand.plates, hx.plates q]
      exact ⟨fun h' => h'.elim id (h.paramSub q), Or.inl⟩
    · intro ι e he
      cases he
      have := r4 ι
      rw [Operand.at, Operand.sample] at this
      rw [this]
      rw [List.map_cons, List.map_cons, List.map_nil, show (Operand.st x true).at ι = x.sample ι [] from rfl,
        hx.values]
      rfl
  · intro ι hι θ
    rw [show sumEvent (α := AD E θ₀) [] (fun ι _ => fun θ => Real.log (d.prob (p.at ι θ) (t.sample ι [] θ))) ι θ =
      Real.log (d.prob (p.at ι θ) (t.sample ι [] θ)) + 0 from rfl, add_zero, h.paramVal ι hι, h.val ι hι]
    rfl

/-- The tensors found by the walk, and what they contribute. -/
theorem findMixed_ok {hook : UnwrapHook (AD E θ₀)} (hh : PlainHook hook) {vars : List (MixVar E)} (hg : GoodMix vars)
    {ω : Draws ℝ} {env : RunEnv E θ₀} {pool : List (Plate (AD E θ₀))} (h : MixRun vars ω env pool)
    {c : STen (AD E θ₀)} (hc : CostOK pool c) (hn : ParentsAllOrNone c.multiDimPlates)
    (walk : List (MixVar E)) (hw : ∀ d ∈ walk, d ∈ vars)
    (hcov : ∀ d ∈ walk, ∀ s ∈ mixKeys θ₀ vars d.name, s ∈ c.plates.map Plate.key) :
    ∃ ss ests, findMixed hook invN env walk = .ok ss ∧ List.Forall₂ (Contributes hook pool c) ss ests ∧
      (∀ e ∈ ests, e.cv = none) ∧ (∀ e ∈ ests, ∀ s ∈ e.names, s ∈ c.plates.map Plate.name) ∧
      ∀ ι, Valid pool ι → ∀ θ, (ests.map (fun e => e.lp ι)).sum θ =
        ((walk.filter (fun d => d.how.scored)).map (fun d =>
          Real.log ((d.decl θ₀ vars).mass θ (trajectory (mixProg θ₀ vars) ω ι)
            (trajectory (mixProg θ₀ vars) ω ι d.name)))).sum := by
  induction walk with
  | nil => exact ⟨[], [], rfl, .nil, by simp, by simp, fun _ _ _ => rfl⟩
  | cons d walk ih =>
    obtain ⟨ss, ests, s1, s2, s3, s4, s5⟩ := ih (fun x hx => hw x (List.mem_cons_of_mem _ hx))
      (fun x hx => hcov x (List.mem_cons_of_mem _ hx))
    obtain ⟨t, p, e1, e2⟩ := h.entries d (hw d (by simp))
    obtain ⟨G, g1, g2, g3⟩ := e2.logProb hh h.ok
    have hfind : findMixed hook invN env (d :: walk) = .ok (d.sampled hook invN (t, p) :: ss) := by
      rw [findMixed, e1]
      simp only [s1]
    have hquiet : d.how.scored = false → Contributes hook pool c (d.sampled hook invN (t, p)) ⟨[], fun _ => 0, none⟩ →
        ∃ ss ests, findMixed hook invN env (d :: walk) = .ok ss ∧ List.Forall₂ (Contributes hook pool c) ss ests ∧
          (∀ e ∈ ests, e.cv = none) ∧ (∀ e ∈ ests, ∀ s ∈ e.names, s ∈ c.plates.map Plate.name) ∧
          ∀ ι, Valid pool ι → ∀ θ, (ests.map (fun e => e.lp ι)).sum θ =
            (((d :: walk).filter (fun d => d.how.scored)).map (fun d =>
              Real.log ((d.decl θ₀ vars).mass θ (trajectory (mixProg θ₀ vars) ω ι)
                (trajectory (mixProg θ₀ vars) ω ι d.name)))).sum := by
      intro hq hcon
      refine ⟨_, ⟨[], fun _ => 0, none⟩ :: ests, hfind, .cons hcon s2, ?_, ?_, ?_⟩
      · intro e he
        rcases List.mem_cons.1 he with rfl | he
        · rfl
        · exact s3 e he
      · intro e he
        rcases List.mem_cons.1 he with rfl | he
        · intro s hs; cases hs
        · exact s4 e he
      · intro ι hι θ
        rw [List.filter_cons_of_neg (by simp [hq]), List.map_cons, List.sum_cons, zero_add, s5 ι hι]
    cases hhow : d.how with
    | expect =>
      refine hquiet (by rw [hhow]; rfl) ?_
      rw [MixVar.sampled, hhow]
      exact expect_contributes_any hh h.ok h.weights hc hn g1
    | reparam n path =>
      refine hquiet (by rw [hhow]; rfl) ?_
      rw [MixVar.sampled, hhow]
      exact reparam_contributes
    | score n =>
      refine ⟨_, ⟨t.plates.map Plate.name, sumEvent [] G, none⟩ :: ests, hfind, .cons ?_ s2, ?_, ?_, ?_⟩
      · rw [MixVar.sampled, hhow]
        exact score_contributes_any hh h.ok h.weights hc hn g1 g2 invN n d.name
      · intro e he
        rcases List.mem_cons.1 he with rfl | he
        · rfl
        · exact s3 e he
      · intro e he
        rcases List.mem_cons.1 he with rfl | he
        · intro s hs
          obtain ⟨q, hq, rfl⟩ := List.mem_map.1 hs
          have := hcov d (by simp) q.key (e2.keys ▸ List.mem_map_of_mem hq)
          obtain ⟨q', hq', he'⟩ := List.mem_map.1 this
          exact List.mem_map.2 ⟨q', hq', congrArg Prod.fst he'⟩
        · exact s4 e he
      · intro ι hι θ
        rw [List.filter_cons_of_pos (by simp [hhow, MixHow.scored]), List.map_cons, List.sum_cons, List.map_cons, List.sum_cons,
          AD.add_apply, s5 ι hι]
        refine congrArg (fun z => z + _) ((g3 ι hι θ).trans ?_)
        rw [mixVal_eq hg (hw d (by simp)), hhow]
        rfl

theorem list_sum_map_sub {β : Type*} (l : List β) (f g : β → ℝ) :
    (l.map (fun x => f x - g x)).sum = (l.map f).sum - (l.map g).sum := by
  induction l with
  | nil => simp
  | cons a l ih => simp only [List.map_cons, List.sum_cons, ih]; ring

/-- What one cost adds to the surrogate loss. -/
noncomputable def mixValue (θ₀ : E) (vars : List (MixVar E)) (k : MixCost E) (ω : Draws ℝ) (θ : E) : ℝ :=
  sumOver (mixArgKeys θ₀ vars k.args) (fun ι => mixTerm (mixProg θ₀ vars) (mixDrawn vars) (mixSize vars) θ₀
    (k.spec θ₀ vars) θ (trajectory (mixProg θ₀ vars) ω ι)) (fun _ => 0)

theorem MixCost.run_ok {hook : UnwrapHook (AD E θ₀)} (hh : PlainHook hook) {vars : List (MixVar E)} (hg : GoodMix vars)
    {ω : Draws ℝ} {env : RunEnv E θ₀} {pool : List (Plate (AD E θ₀))} (h : MixRun vars ω env pool) {k : MixCost E}
    (hk : GoodMixCost θ₀ vars k) :
    ∃ c ests, k.run hook invN env = .ok c ∧ CostContributes hook pool c (c.1, ests) ∧
      ∀ θ, PositiveAt vars θ → costTotal pool c.1 ests θ = mixValue θ₀ vars k ω θ := by
  obtain ⟨ts, r, t1, r1, r2, r3, r4, r5, r6⟩ := h.call hh hg hk.args k.f
  obtain ⟨c, rfl⟩ := r5 hk.nonempty
  have hkeys : c.plates.map Plate.key = mixArgKeys θ₀ vars k.args := r3
  have hc : CostOK pool c := ⟨r2, fun p hp q hq => ⟨q, r4 p hp q hq, Plate.pyEq_refl _⟩⟩
  have hn : ParentsAllOrNone c.multiDimPlates := h.nested hg r2.sub r4
  have hperm := mixArgKeys_perm hg hk
  have hl := hg.layOK (θ₀ := θ₀)
  have hcov : ∀ d ∈ k.walk, ∀ s ∈ mixKeys θ₀ vars d.name, s ∈ c.plates.map Plate.key := by
    intro d hd s hs
    rw [hkeys, hperm.mem_iff, List.mem_map]
    obtain ⟨p, hp, rfl⟩ := List.mem_map.1 hs
    obtain ⟨d', hd', h1, h2, h3⟩ := platesIn_above hg.good
      (by rw [score_names]; exact List.mem_map_of_mem (hk.sub d hd)) p hp
    obtain ⟨d', hd'', rfl⟩ := List.mem_map.1 hd'
    refine ⟨d'.decl θ₀ vars, List.mem_filter.2 ⟨mem_mixProg.2 ⟨d', hd'', rfl⟩, ?_⟩, ?_⟩
    · rw [decide_eq_true_eq]
      exact MixCost.mem_anc.2 ⟨List.mem_map_of_mem hd'', h1.trans (hk.above d hd)⟩
    · rw [Plate.key, h2, h3, show (d'.decl θ₀ vars).name = d'.name from rfl, mixSize_eq hg hd'']
      rfl
  obtain ⟨ss, ests, s1, s2, s3, s4, s5⟩ := findMixed_ok hh hg h hc hn k.walk hk.sub hcov
  refine ⟨(c, ss), ests, ?_, ⟨rfl, hc, s2⟩, ?_⟩
  · rw [MixCost.run, t1]
    simp only [r1, s1]
  intro θ hθ
  rw [costTotal, cvTotal_none pool s3, zero_add, boxTotal]
  have hpm : (named pool (ests.flatMap Est.names ++ c.plates.map Plate.name)).Perm c.plates := by
    apply perm_of_pool h.ok.names (h.ok.names.sublist (List.filter_sublist.map _)) r2.nodup
    intro p
    simp only [List.mem_filter, decide_eq_true_eq]
    constructor
    · rintro ⟨h1, h2⟩
      have : p.name ∈ c.plates.map Plate.name := by
        rcases List.mem_append.1 h2 with h2 | h2
        · obtain ⟨e, he, hs⟩ := List.mem_flatMap.1 h2
          exact s4 e he _ hs
        · exact h2
      obtain ⟨q, hq, he⟩ := List.mem_map.1 this
      exact pool_eq h.ok (r2.sub q hq) h1 he ▸ hq
    · intro hm; exact ⟨r2.sub p hm, List.mem_append_right _ (List.mem_map_of_mem hm)⟩
  rw [weightedTotal_perm id hpm r2.nodup, total_eval, mixValue, ← hkeys]
  have hk' : c.plates.map Plate.key = c.plates.map (fun p => (p.name, p.n)) := rfl
  rw [hk', ← sum_assign]
  congr 1
  apply List.map_congr_left
  intro idx hidx
  have hv : Valid pool (assign c.plates idx (fun _ => 0)) := by
    have h1 := assign_valid r2.nodup hidx (fun _ => 0)
    intro q hq
    by_cases hm : q.name ∈ c.plates.map Plate.name
    · obtain ⟨q', hq', he⟩ := List.mem_map.1 hm
      have := pool_eq h.ok (r2.sub q' hq') hq he
      exact h1 q (this ▸ hq')
    · rw [assign_of_notMem _ _ _ _ hm]
      have := h.posSize hg q hq
      omega
  set ι := assign c.plates idx (fun _ => 0) with hι
  rw [mixTerm, AD.mul_apply]
  have hbox : boxElt ((ests.map (fun e => e.lp ι)).sum) θ =
      Real.exp (logRatio (k.spec θ₀ vars).active θ θ₀ (trajectory (mixProg θ₀ vars) ω ι)) := by
    show Real.exp ((ests.map (fun e => e.lp ι)).sum θ - (ests.map (fun e => e.lp ι)).sum θ₀) = _
    rw [s5 ι hv, s5 ι hv, logRatio, MixCost.spec, List.map_map, ← list_sum_map_sub]
    rfl
  rw [hbox, show c.sample ι [] θ = (k.spec θ₀ vars).f θ (trajectory (mixProg θ₀ vars) ω ι) from r6 ι hv θ]
  congr 1
  rw [jointWeight, map_list_prod, List.map_map]
  -- the weights
  have hwt : c.plates.map (fun p => AD.eval θ (p.weightAt id ι)) =
      (c.plates.map Plate.key).map (fun q => (vars.find? (fun d => d.name == q.1)).elim 0
        (fun d => d.weightOf vars θ (trajectory (mixProg θ₀ vars) ω ι))) := by
    rw [List.map_map]
    apply List.map_congr_left
    intro p hp
    obtain ⟨d, hd, e1, _⟩ := h.find (r2.sub p hp)
    have := h.weightAt d hd p (r2.sub p hp) e1.symm ι hv θ hθ
    simp only [Function.comp, Plate.key, ← e1, find_mixVar hg hd, Option.elim_some]
    exact this
  have hwt' : (c.plates.map (fun p => AD.eval θ (p.weightAt id ι))).prod =
      (((mixProg θ₀ vars).filter (fun d => decide (d.name ∈ (k.spec θ₀ vars).anc))).map
        (fun d => mixWeight (mixDrawn vars) (mixSize vars) θ d (trajectory (mixProg θ₀ vars) ω ι))).prod := by
    rw [hwt, hkeys, (hperm.map _).prod_eq, List.map_map]
    congr 1
    apply List.map_congr_left
    intro x hx
    obtain ⟨d, hd, rfl⟩ := mem_mixProg.1 (List.mem_filter.1 hx).1
    simp only [Function.comp, show (d.decl θ₀ vars).name = d.name from rfl, find_mixVar hg hd, Option.elim_some,
      mixWeight, mixDrawn_decl hg hd, mixSize_eq hg hd, MixVar.weightOf]
    rfl
  exact hwt'

theorem runMixCosts_ok {hook : UnwrapHook (AD E θ₀)} (hh : PlainHook hook) {vars : List (MixVar E)}
    (hg : GoodMix vars) {ω : Draws ℝ} {env : RunEnv E θ₀} {pool : List (Plate (AD E θ₀))}
    (h : MixRun vars ω env pool) (costs : List (MixCost E)) (hk : ∀ k ∈ costs, GoodMixCost θ₀ vars k) :
    ∃ cs es, runMixCosts hook invN env costs = .ok cs ∧ cs.length = costs.length ∧
      List.Forall₂ (CostContributes hook pool) cs es ∧
      ∀ θ, PositiveAt vars θ → lossTotal pool es θ = (costs.map (fun k => mixValue θ₀ vars k ω θ)).sum := by
  induction costs with
  | nil => exact ⟨[], [], rfl, rfl, .nil, fun _ _ => rfl⟩
  | cons k costs ih =>
    obtain ⟨cs, es, s1, s2, s3, s4⟩ := ih (fun x hx => hk x (List.mem_cons_of_mem _ hx))
    obtain ⟨c, e, c1, c2, c3⟩ := MixCost.run_ok hh hg h (hk k (by simp))
    refine ⟨c :: cs, (c.1, e) :: es, ?_, by simp [s2], .cons c2 s3, ?_⟩
    · rw [runMixCosts, c1]
      simp only [s1]
    · intro θ hθ
      have := s4 θ hθ
      rw [lossTotal] at this ⊢
      rw [List.map_cons, List.sum_cons, AD.add_apply, this, List.map_cons, List.sum_cons, c3 θ hθ]

theorem mixed_runs {hook : UnwrapHook (AD E θ₀)} (hh : PlainHook hook) {vars : List (MixVar E)} (hg : GoodMix vars)
    {costs : List (MixCost E)} (hne : costs ≠ []) (hk : ∀ k ∈ costs, GoodMixCost θ₀ vars k) {ω : Draws ℝ}
    (hω : ListedDraws vars ω) :
    ∃ r, runMixedProgram hook invN vars costs ω = .ok r ∧ r.plates = [] ∧ r.ten.shape = [] ∧
      ∀ θ, PositiveAt vars θ → r.ten.get [] θ = (costs.map (fun k => mixValue θ₀ vars k ω θ)).sum := by
  obtain ⟨env, pool, e1, e2⟩ := runMixed_ok hh ω vars hg hω
  obtain ⟨cs, es, c1, c2, c3, c4⟩ := runMixCosts_ok hh hg e2 costs hk
  have hne' : cs ≠ [] := by
    rintro rfl
    exact hne (List.length_eq_zero_iff.1 c2.symm)
  obtain ⟨r, r1, r2, r3, r4⟩ := surrogateLoss_any hh e2.ok e2.weights hne' c3
  refine ⟨r, ?_, r2, r3, fun θ hθ => by rw [r4]; exact c4 θ hθ⟩
  rw [runMixedProgram, e1]
  simp only [c1]
  exact r1

end

end Storch
