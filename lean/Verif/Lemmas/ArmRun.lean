import Verif.Lemmas.ArmLemmas
import Verif.Props.SurrogateProps

/-! The run of a program with one variable sampled with `ARM`. -/

namespace Storch
variable {α : Type _}

/-! ### One plate -/

/-- A plate of several samples with one weight per sample. -/
def vecPlate (name : String) (m : Nat) (w : Nat → α) : Plate α :=
  .mk name m (.torch ⟨[m], fun idx => w (idx.headD 0)⟩) .plain []

theorem acyclic_noParents {ps : List (Plate α)} (h : ∀ p ∈ ps, p.parents = []) : AcyclicPlates ps := by
  intro k hk
  have : ∀ a b, Relation.TransGen (ParentOf ps) a b → False := by
    intro a b hab
    induction hab with
    | single h' => obtain ⟨p, hp, -, h2⟩ := h'; rw [h p hp] at h2; simp at h2
    | tail _ _ ih => exact ih
  exact this k k hk

theorem single_closed {p : Plate α} [ValEq α] (h : p.parents = []) : ParentClosed [p] := by
  intro q hq r hr
  rw [List.mem_singleton.1 hq, h] at hr
  cases hr

theorem weightedTotal_single [Semiring α] (p : Plate α) (v : (String → Nat) → α) (ι : String → Nat) :
    weightedTotal id [p] v ι = ((List.range p.n).map (fun k => p.weightAt id (Function.update ι p.name k) *
      v (Function.update ι p.name k))).sum := by
  have : ∀ (l : List Nat), l.flatMap (fun i => [[i]]) = l.map (fun i => [i]) := by
    intro l; induction l <;> simp_all
  simp [weightedTotal, allIdx, this, assign, Function.comp_def]

variable [ValEq α]

omit [ValEq α] in
theorem vec_pool (name : String) (m : Nat) (w : Nat → α) : PoolOK [vecPlate name m w] :=
  ⟨by simp, by intro p hp; rw [List.mem_singleton.1 hp]; rfl,
    acyclic_noParents (by intro p hp; rw [List.mem_singleton.1 hp]; rfl)⟩

omit [ValEq α] in
theorem vec_weights (name : String) {m : Nat} (hm : 1 < m) (w : Nat → α) : TorchWeights [vecPlate name m w] := by
  intro p hp
  rw [List.mem_singleton.1 hp]
  exact ⟨.vector ⟨[m], fun idx => w (idx.headD 0)⟩ rfl rfl hm, _, rfl⟩

omit [ValEq α] in
theorem vec_weightAt (name : String) (m : Nat) (w : Nat → α) (ι : String → Nat) :
    (vecPlate name m w).weightAt id ι = w (ι name) := rfl

/-- A scalar-valued tensor over that plate. -/
def vecTen (name : String) (m : Nat) (w : Nat → α) (v : Nat → α) : STen α :=
  ⟨⟨[m], fun idx => v (idx.headD 0)⟩, [vecPlate name m w], 1⟩

omit [ValEq α] in
theorem eq_single_of {p : Plate α} {ps : List (Plate α)} (hn : (ps.map Plate.name).Nodup)
    (h : ∀ q, q ∈ ps ↔ q = p) : ps = [p] := by
  have := (List.perm_ext_iff_of_nodup hn.of_map (List.nodup_singleton p)).2 (by simpa using h)
  exact List.perm_singleton.1 this

omit [ValEq α] in
theorem vec_mk {name : String} {m : Nat} (hm : 1 < m) (w : Nat → α) (t : Ten α) (ht : t.shape = [m]) :
    ∃ r, STen.mk' t [vecPlate name m w] = .ok r ∧ r.ten = t ∧ r.plates = [vecPlate name m w] ∧ r.WF ∧
      r.eventShape = [] := by
  have hm' : ([vecPlate name m w].filter (fun p => decide (1 < p.n))) = [vecPlate name m w] := by
    simp [vecPlate, Plate.n, hm]
  exact checkPlates_ok_of (R := [vecPlate name m w]) (by simp)
    (by intro p hp; rw [List.mem_singleton.1 hp]; exact hm.le) t [] (by rw [hm', ht]; rfl)

omit [ValEq α] in
/-- A scalar-valued tensor over one plate has one entry per sample. -/
theorem vec_shape {name : String} {m : Nat} (hm : 1 < m) (w : Nat → α) {r : STen α} (hr : r.WF)
    (hp : r.plates = [vecPlate name m w]) (he : r.eventShape = []) :
    r.ten.shape = [m] ∧ ∀ ι, r.sample ι [] = r.ten.get [ι name] := by
  have hmd : r.multiDimPlates = [vecPlate name m w] := by
    rw [STen.multiDimPlates, hp]; simp [vecPlate, Plate.n, hm]
  refine ⟨?_, fun ι => ?_⟩
  · rw [hr.shape, hmd, he]; rfl
  · rw [sample_scalar he, hmd]; rfl

section
variable {E : Type _} {θ₀ : E}

/-- The value of `z` at the position `k` of the plate. -/
def armZ (φ : AD E θ₀) (n : Nat) (eps : Nat → ℝ) (k : Nat) : AD E θ₀ := fun θ =>
  if k < n then eps k + φ θ else -eps (k - n) + φ θ

/-- The weights `ARM` sets. -/
noncomputable def armW (n k : Nat) : AD E θ₀ := AD.const (if k < n then 1 / (n : ℝ) else 0)

theorem armSample_run {inv : Nat → AD E θ₀} (hinv : ∀ k, inv k = AD.const (1 / (k : ℝ))) (name : String) {n : Nat}
    (hn : 1 ≤ n) (φ : AD E θ₀) (eps : List Nat → ℝ) :
    ∃ z, armSample inv name n [] true (.torch (.scalar φ)) (fun k => ⟨k :: [], fun idx => AD.const (eps idx)⟩) =
        .ok (z, vecPlate name (2 * n) (armW n)) ∧ z.WF ∧ z.plates = [vecPlate name (2 * n) (armW n)] ∧
      z.eventShape = [] ∧ ∀ ι, z.sample ι [] = armZ φ n (fun i => eps [i]) (ι name) := by
  have h2 : n + n ≠ 0 := by omega
  have h3 : n + n ≠ 1 := by omega
  have h4 : (n + n) / 2 = n := by omega
  have h5 : n + n = 2 * n := by omega
  have hpl : vecPlate name (2 * n) (armW n) = Plate.mk name (n + n) (.torch ⟨[n + n], fun idx : List Nat =>
      if idx.headD 0 < n then inv n else (0 : AD E θ₀)⟩) .plain [] := by
    rw [vecPlate, h5]
    congr 3
    funext idx
    rw [armW, hinv]
    split <;> rfl
  have hw : (⟨⟨[2 * n], fun idx : List Nat => if idx.headD 0 < n then AD.const (eps idx) + (Ten.scalar φ).get idx.tail
        else -AD.const (eps ((idx.headD 0 - n) :: idx.tail)) + (Ten.scalar φ).get idx.tail⟩,
      [vecPlate name (2 * n) (armW n)], 1⟩ : STen (AD E θ₀)).WF := by
    have h6 : 1 < 2 * n := by omega
    refine ⟨by simp, ?_, ?_, ?_⟩
    · intro p hp; rw [List.mem_singleton.1 hp]; simp [vecPlate, Plate.n]; omega
    · simp [STen.multiDimPlates, STen.eventShape, vecPlate, Plate.n, h6]
    · simp [STen.multiDimPlates, vecPlate, Plate.n, h6]
  refine ⟨_, ?_, hw, rfl, rfl, ?_⟩
  · rw [hpl]
    have h6 : n ≠ 0 := by omega
    have h7 : ¬ n + n ≤ 1 := by omega
    rw [armSample, if_neg (by simp), monteCarlo]
    simp only [methodPlates, armTensor, Operand.raw, Ten.scalar, List.headD_cons, List.any_nil, Bool.false_eq_true,
      if_false, h2, h3, mcPlate, STen.mk', STen.checkPlates, Plate.n, Plate.name, List.length_cons, List.length_nil,
      armWeights, Plate.kind, Plate.parents, List.not_mem_nil]
    simp [h5, h6]
  · intro ι
    rw [(vec_shape (by omega) _ hw rfl rfl).2]
    funext θ
    simp only [armZ, List.headD_cons, List.tail_cons]
    by_cases hk : ι name < n
    · simp [hk, Ten.scalar]
    · simp [hk, Ten.scalar]

/-- `(x > 0.0).float()`. -/
noncomputable def stepR (x : ℝ) : ℝ := if 0 < x then 1 else 0

/-- The value of the sample at position `k`. -/
noncomputable def armX (φ : AD E θ₀) (n : Nat) (eps : Nat → ℝ) (k : Nat) : ℝ := stepR (armZ φ n eps k θ₀)

/-- The magic box of the log-probability of the `k`-th sample. -/
noncomputable def armBox (ℓ : ℝ → ℝ) (φ : AD E θ₀) (eps : Nat → ℝ) (k : Nat) (θ : E) : ℝ :=
  Real.exp (ℓ (eps k + φ θ₀ - φ θ) - ℓ (eps k + φ θ₀ - φ θ₀))

/-- The surrogate loss of the program. -/
noncomputable def armLoss (ℓ : ℝ → ℝ) (φ : AD E θ₀) (n : Nat) (eps : Nat → ℝ) (f : E → ℝ → ℝ) (θ : E) : ℝ :=
  ∑ k ∈ Finset.range n, 1 / (n : ℝ) * (armBox ℓ φ eps k θ * ((1 - armBox ℓ φ eps k θ) *
    (1 / 2 * (f θ (armX φ n eps k) + f θ (armX φ n eps (k + n)))) + f θ (armX φ n eps k)))

theorem armProgram_run {hook : UnwrapHook (AD E θ₀)} (hh : PlainHook hook) {inv : Nat → AD E θ₀}
    (hinv : ∀ k, inv k = AD.const (1 / (k : ℝ))) (ℓ : ℝ → ℝ) (name : String) {n : Nat} (hn : 1 ≤ n) (φ : AD E θ₀)
    (eps : List Nat → ℝ) (f : E → ℝ → ℝ) :
    ∃ L, armProgram hook inv ℓ name n (.torch (.scalar φ)) eps f = .ok L ∧ L.plates = [] ∧ L.ten.shape = [] ∧
      ∀ θ, L.ten.get [] θ = armLoss ℓ φ n (fun i => eps [i]) f θ := by
  set P : Plate (AD E θ₀) := vecPlate name (2 * n) (armW n) with hP
  have h1 : 1 < 2 * n := by omega
  have hpool : PoolOK [P] := vec_pool _ _ _
  have hw : TorchWeights [P] := vec_weights _ h1 _
  obtain ⟨z, z1, z2, z3, z4, z5⟩ := armSample_run hinv name hn φ eps
  have hz : ScalarOp [P] (.st z true) := ⟨z2, z4, by rw [z3]; exact fun p hp => hp⟩
  -- the sample
  obtain ⟨r, r1, r2, r3, r4, r5⟩ := opCall_scalar hh hpool (oneElt stepElt) (ops := [.st z true]) (by simpa using hz)
  obtain ⟨r, rfl⟩ := r5 (by simp [stens])
  have hrp : r.plates = [P] := eq_single_of r2.1.names (fun q => by
    have := r3 q
    simp only [List.mem_singleton, exists_eq_left, Operand.plates, z3] at this
    exact this)
  obtain ⟨hrs, hrv⟩ := vec_shape h1 _ r2.1 hrp r2.2.1
  obtain ⟨x, x1, x2, x3, x4, x5⟩ := vec_mk (name := name) h1 (armW n) r.ten hrs
  have hxv : ∀ ι, x.sample ι [] = AD.const (armX φ n (fun i => eps [i]) (ι name)) := by
    intro ι
    rw [(vec_shape h1 _ x4 x3 x5).2, x2, ← hrv]
    have := r4 ι
    rw [Operand.at, Operand.sample] at this
    rw [this]
    simp only [List.map_cons, List.map_nil, oneElt, Operand.at, Operand.sample, z5]
    rfl
  have hx : ScalarOp [P] (.st x true) := ⟨x4, x5, by rw [x3]; exact fun p hp => hp⟩
  -- the cost
  obtain ⟨c, c1, c2, c3, c4, c5⟩ := opCall_scalar hh hpool (liftFn (θ₀ := θ₀) (fun θ xs => f θ (xs.headD 0)))
    (ops := [.st x true]) (by simpa using hx)
  obtain ⟨c, rfl⟩ := c5 (by simp [stens])
  have hcp : c.plates = [P] := eq_single_of c2.1.names (fun q => by
    have := c3 q
    simp only [List.mem_singleton, exists_eq_left, Operand.plates, x3] at this
    exact this)
  have hcv : ∀ ι θ, c.sample ι [] θ = f θ (armX φ n (fun i => eps [i]) (ι name)) := by
    intro ι θ
    have := c4 ι
    rw [Operand.at, Operand.sample] at this
    rw [this]
    simp only [List.map_cons, List.map_nil, Operand.at, Operand.sample, hxv, liftFn]
    rfl
  have hclosed : ParentClosed [P] := single_closed rfl
  have hcok : CostOK [P] c := ⟨c2, by rw [hcp]; exact hclosed⟩
  have hmd : c.multiDimPlates = [P] := by
    rw [STen.multiDimPlates, hcp]; simp [hP, vecPlate, Plate.n, h1]
  have hmz : z.multiDimPlates = [P] := by
    rw [STen.multiDimPlates, z3]; simp [hP, vecPlate, Plate.n, h1]
  have hmiss : missingPlates c z = [] := by
    rw [missingPlates, hmd, hmz, List.filter_eq_nil_iff]
    intro p hp
    have := (isInMethod_pool (ps := [P]) hpool (fun _ h => h) hp).2 hp
    simp [this]
  have hseen : ∀ ι, seenCost c z ι = c.sample ι [] := by
    intro ι
    rw [seenCost, hmiss]
    simp [weightedTotal, allIdx, assign]
  have hcontr := arm_contributes hh hpool hw hcok (by
      rw [hmd]; intro p hp; left; intro q hq; rw [List.mem_singleton.1 hp] at hq; cases hq)
    (t := z) ⟨z2, by rw [z3]; exact fun p hp => hp, by rw [z3]; exact hclosed⟩ z4
    (by rw [hmz, hcp]; exact fun p hp => hp)
    (by
      rw [hcp]; intro p hp h; rw [List.mem_singleton.1 hp] at h
      exact absurd h (by simp only [hP, vecPlate, Plate.n]; omega))
    (shiftLogD ℓ) (AD.const (1 / 2)) (logits := .torch (.scalar φ)) rfl (by intro p hp; cases hp) (own := P)
    (by rw [z3]; simp [hP]) (by intro hp; cases hp) (n := n) rfl hn
  obtain ⟨L, L1, L2, L3, L4⟩ := surrogateLoss_spec hh hpool hw
    (costs := [(c, [armSampled hook (shiftLogD ℓ) (AD.const (1 / 2)) P.name (.torch (.scalar φ)) z])]) (by simp)
    (es := [(c, [_])])
    (.cons ⟨rfl, hcok, .cons hcontr .nil⟩ .nil)
  refine ⟨L, ?_, L2, L3, ?_⟩
  · rw [armProgram]
    simp only [Operand.shape, Ten.scalar] at z1 ⊢
    rw [z1]
    simp only [armPost, r1, z3, ← hP]
    rw [← hP] at x1
    simp only [x1, c1]
    exact L1
  · intro θ
    rw [L4]
    have hnm : named [P] ([] ++ z.plates.map Plate.name ++ (z.plates.map Plate.name ++ z.plates.map Plate.name)) =
        [P] := by simp [named, z3, hP]
    have hnm' : named [P] ((List.map Plate.name z.plates ++ []) ++ List.map Plate.name c.plates) = [P] := by
      simp [named, z3, hP]
    have hPn : P.n = n + n := by simp [hP, vecPlate, Plate.n]; omega
    have hPname : P.name = name := rfl
    simp only [lossTotal, List.map_cons, List.map_nil, List.sum_cons, List.sum_nil, add_zero, costTotal, cvTotal,
      List.flatMap_cons, List.flatMap_nil, boxTotal]
    rw [hnm, hnm', weightedTotal_single, weightedTotal_single]
    have hev : ∀ (l : List Nat) (g : Nat → AD E θ₀), (l.map g).sum θ = (l.map (fun k => g k θ)).sum := by
      intro l g
      induction l with
      | nil => rfl
      | cons a l ih => simp [ih]
    rw [AD.add_apply, hev, hev, ← List.sum_map_add, hPn, sum_range_list,
      Finset.sum_range_add]
    have hup : ∀ k, (Function.update (fun _ => 0) P.name k : String → Nat) name = k := fun k => by simp [hPname]
    have hwt : ∀ k, Plate.weightAt id P (Function.update (fun _ => 0) P.name k) θ =
        if k < n then 1 / (n : ℝ) else 0 := by
      intro k
      rw [hP, vec_weightAt, ← hP, hup]
      rfl
    have hsplit : ∀ (a b r : ℝ), a = r → b = 0 → a + b = r := by intro a b r h1 h2; rw [h1, h2, add_zero]
    apply hsplit
    · rw [armLoss]
      apply Finset.sum_congr rfl
      intro k hk
      have hkn : k < n := Finset.mem_range.1 hk
      have hk2 : (n + n) / 2 = n := by omega
      have hlp : armLp (shiftLogD ℓ) P (Operand.torch (Ten.scalar φ)) z (Function.update (fun _ => 0) P.name k) =
          (fun θ => ℓ (eps [k] + φ θ₀ - φ θ) : AD E θ₀) := by
        rw [armLp, hPn, hk2, hPname]
        rw [if_pos (by simpa using hkn), z5]
        funext θ
        simp only [Function.update_self, armZ, shiftLogD, AD.val, if_pos hkn]
        rfl
      have hbx : boxElt (α := AD E θ₀) (fun θ => ℓ (eps [k] + φ θ₀ - φ θ)) θ = armBox ℓ φ (fun i => eps [i]) k θ := rfl
      have hbase : armBase (AD.const (1 / 2)) P (seenCost c z) (Function.update (fun _ => 0) P.name k) θ =
          1 / 2 * (f θ (armX φ n (fun i => eps [i]) k) + f θ (armX φ n (fun i => eps [i]) (k + n))) := by
        rw [armBase, hPn, hk2, hPname, if_pos (by simpa using hkn)]
        simp only [hseen, AD.mul_apply, AD.add_apply, hcv, Function.update_self, AD.const_apply]
      simp only [zero_add]
      simp only [AD.mul_apply, hlp, AD.sub_apply, AD.one_apply, hbx, hbase, hcv, hwt, if_pos hkn, hup]
      ring
    · apply Finset.sum_eq_zero
      intro x _
      simp only [AD.mul_apply, hwt, if_neg (show ¬ n + x < n by omega), zero_mul, add_zero]

end

end Storch
