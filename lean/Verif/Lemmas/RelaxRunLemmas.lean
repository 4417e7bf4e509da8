import Verif.Model.RelaxRun
import Verif.Props.RelaxProps

/-!
# The run of a program with one variable sampled with `RELAX`
-/

namespace Storch
open Gumbel

/-- The position of sample `k` in a tensor over one plate of size `n`. -/
def at1 (n k : Nat) : List Nat := if 1 < n then [k] else []

/-- The dimensions of one plate. -/
def shape1 (n : Nat) : List Nat := if 1 < n then [n] else []

section
variable {α : Type _}

theorem relax_bidx_inB {e s : List Nat} (h : Ten.InB e s) : Ten.bidx s e = e := by
  unfold Ten.InB at h
  induction h with
  | nil => rfl
  | @cons a b l l' hab _ ih =>
    simp only [Ten.bidx, List.zipWith_cons_cons] at ih ⊢
    rw [ih]
    congr 1
    split
    · omega
    · rfl

theorem single_view {x : STen α} (hx : x.WF) {P : Plate α} (hp : x.plates = [P]) :
    x.ten.shape = shape1 P.n ++ x.eventShape ∧ x.plateDims = (shape1 P.n).length ∧
      ∀ ι e, Ten.InB e x.eventShape → x.sample ι e = x.ten.get (at1 P.n (ι P.name) ++ e) := by
  have hm : x.multiDimPlates = if 1 < P.n then [P] else [] := by
    rw [STen.multiDimPlates, hp]
    by_cases h : 1 < P.n <;> simp [h]
  refine ⟨?_, ?_, ?_⟩
  · rw [hx.shape, hm, shape1]; split <;> rfl
  · rw [hx.dims, hm, shape1]; split <;> rfl
  · intro ι e he
    rw [STen.sample, hm, relax_bidx_inB he, at1]; split <;> rfl

variable [ValEq α]

/-- Tensors with the same values over one plate have the same entries. -/
theorem same_view {x t : STen α} (h : SameValues x t) {P : Plate α} (hp : t.plates = [P]) (ht : t.WF) :
    x.plates = [P] ∧ x.ten.shape = t.ten.shape ∧ x.plateDims = t.plateDims ∧
      (∀ k e, Ten.InB e t.eventShape → x.ten.get (at1 P.n k ++ e) = t.ten.get (at1 P.n k ++ e)) := by
  have hxp : x.plates = [P] := eq_single_of h.wf.names (fun q => by simpa [hp] using h.plates q)
  obtain ⟨a1, a2, a3⟩ := single_view h.wf hxp
  obtain ⟨b1, b2, b3⟩ := single_view ht hp
  refine ⟨hxp, by rw [a1, b1, h.event], by rw [a2, b2], fun k e he => ?_⟩
  have := h.values (fun _ => k) e
  rwa [a3 _ _ (by rw [h.event]; exact he), b3 _ _ he] at this

theorem same_inB {x t : STen α} (h : SameValues x t) {P : Plate α} (hp : t.plates = [P]) (ht : t.WF) {idx : List Nat}
    (hi : Ten.InB idx t.ten.shape) : x.ten.get idx = t.ten.get idx := by
  obtain ⟨-, -, -, hv⟩ := same_view h hp ht
  obtain ⟨b1, -, -⟩ := single_view ht hp
  rw [b1, shape1] at hi
  unfold at1 at hv
  by_cases hn : 1 < P.n
  · simp only [if_pos hn, List.singleton_append] at hi hv
    cases hi with
    | cons _ h2 => exact hv _ _ h2
  · simp only [if_neg hn, List.nil_append] at hi hv
    exact hv 0 _ hi

end

section
variable {E : Type _} {θ₀ : E} {m K : Nat}

theorem inB_dropLast {idx s : List Nat} {K : Nat} (h : Ten.InB idx (s ++ [K])) (i : Fin K) :
    Ten.InB (idx.dropLast ++ [i.val]) (s ++ [K]) := by
  unfold Ten.InB at h ⊢
  have hl := h.length_eq
  have hne : idx ≠ [] := by rintro rfl; simp at hl
  have hs : idx = idx.dropLast ++ [idx.getLast hne] := (List.dropLast_append_getLast hne).symm
  rw [hs] at h
  have hlen : idx.dropLast.length = s.length := by
    simp only [List.length_append, List.length_singleton] at hl
    simp only [List.length_dropLast]; omega
  have h1 := List.forall₂_take s.length h
  rw [List.take_left' hlen, List.take_left' rfl] at h1
  exact List.rel_append h1 (.cons i.isLt .nil)

/-- Functions of the rows give the same tensor for tensors with the same values. -/
theorem mapRows_same (F : List Nat → (Fin K → AD E θ₀) → Fin K → AD E θ₀) {x t : STen (AD E θ₀)} (h : SameValues x t)
    {P : Plate (AD E θ₀)} (hp : t.plates = [P]) (ht : t.WF) {s : List Nat} (hs : t.ten.shape = s ++ [K]) :
    mapRows F x = mapRows F t := by
  obtain ⟨a1, a2, a3, -⟩ := same_view h hp ht
  unfold mapRows
  rw [a1, hp, a3]
  congr 1
  refine Ten.mk.injEq .. |>.mpr ⟨a2, ?_⟩
  funext idx
  by_cases hi : Ten.InB idx t.ten.shape ∧ idx.getLastD 0 < K
  · rw [dif_pos hi, dif_pos (show Ten.InB idx x.ten.shape ∧ idx.getLastD 0 < K by rw [a2]; exact hi)]
    congr 1
    funext i
    refine same_inB h hp ht ?_
    rw [hs] at hi ⊢
    exact inB_dropLast hi.1 i
  · rw [dif_neg hi, dif_neg (show ¬ (Ten.InB idx x.ten.shape ∧ idx.getLastD 0 < K) by rw [a2]; exact hi)]

theorem mapRows_wf (F : List Nat → (Fin K → AD E θ₀) → Fin K → AD E θ₀) {t : STen (AD E θ₀)} (h : t.WF) :
    (mapRows F t).WF ∧ (mapRows F t).plates = t.plates ∧ (mapRows F t).eventShape = t.eventShape ∧
      (mapRows F t).ten.shape = t.ten.shape :=
  ⟨⟨h.names, h.pos, h.shape, h.dims⟩, rfl, rfl, rfl⟩

/-- A row of the result. -/
theorem mapRows_get (F : List Nat → (Fin K → AD E θ₀) → Fin K → AD E θ₀) {t : STen (AD E θ₀)} {pos : List Nat} (i : Fin K)
    (h : Ten.InB (pos ++ [i.val]) t.ten.shape) :
    (mapRows F t).ten.get (pos ++ [i.val]) = F pos (fun i => t.ten.get (pos ++ [i.val])) i := by
  unfold mapRows
  simp only
  have hl : (pos ++ [i.val]).getLastD 0 = i.val := by simp
  rw [dif_pos ⟨h, by rw [hl]; exact i.isLt⟩]
  simp only [List.dropLast_concat]
  congr 1
  exact Fin.ext hl

theorem same_refl {t : STen (AD E θ₀)} (h : t.WF) : SameValues t t := ⟨h, fun _ => Iff.rfl, rfl, fun _ _ => rfl⟩

theorem at1_inB {n k : Nat} (hk : k < n) {e es : List Nat} (he : Ten.InB e es) : Ten.InB (at1 n k ++ e) (shape1 n ++ es) := by
  unfold at1 shape1
  by_cases hn : 1 < n
  · rw [if_pos hn, if_pos hn]; exact .cons hk he
  · rw [if_neg hn, if_neg hn]; exact he

theorem inB2 {d i m K : Nat} (hd : d < m) (hi : i < K) : Ten.InB [d, i] [m, K] := .cons hd (.cons hi .nil)

/-- The number per sample. -/
theorem perSample_is (g : E → (Fin m → Fin K → ℝ) → ℝ) {x t : STen (AD E θ₀)} (h : SameValues x t)
    {P : Plate (AD E θ₀)} (hp : t.plates = [P]) (hpar : P.parents = []) (ht : t.WF) (hs : t.eventShape = [m, K]) :
    OpIs [P] (.st (perSample g x) false) [P.name]
      (fun ι θ => g θ (fun d i => t.ten.get (at1 P.n (ι P.name) ++ [d.val, i.val]) θ)) := by
  obtain ⟨a1, a2, a3, a4⟩ := same_view h hp ht
  obtain ⟨b1, b2, -⟩ := single_view ht hp
  have hev : (perSample g x).eventShape = [] := by
    simp [perSample, STen.eventShape]
  have hsh : (perSample g x).ten.shape = shape1 P.n := by
    show x.ten.shape.take x.plateDims = _
    rw [a2, a3, b1, b2, List.take_left' rfl]
  have hmd : (perSample g x).multiDimPlates = if 1 < P.n then [P] else [] := by
    rw [STen.multiDimPlates, show (perSample g x).plates = x.plates from rfl, a1]
    by_cases h : 1 < P.n <;> simp [h]
  have hwf : (perSample g x).WF := by
    refine ⟨h.wf.names, h.wf.pos, ?_, ?_⟩
    · rw [hsh, hev, hmd, shape1]; split <;> rfl
    · rw [show (perSample g x).plateDims = x.plateDims from rfl, a3, b2, hmd, shape1]; split <;> rfl
  have hpl : (perSample g x).plates = [P] := a1
  refine ⟨⟨hwf, hev, by rw [hpl]; exact fun _ h => h⟩, ?_, ?_, ?_⟩
  · rw [Operand.plates, hpl]; exact single_closed hpar
  · intro p hm
    rw [Operand.plates, hpl, List.mem_singleton.1 hm]
    simp
  · intro ι
    show (perSample g x).sample ι [] = _
    rw [(single_view hwf hpl).2.2 ι [] (by rw [hev]; exact .nil), List.append_nil]
    funext θ
    show g θ _ = g θ _
    congr 1
    funext d i
    rw [a4 _ _ (by rw [hs]; exact inB2 d.isLt i.isLt)]


/-! ### The samples -/

/-- The relaxed sample. -/
noncomputable def RelaxVar.zAt (d : RelaxVar E m K) (eps : ℝ) (u : Nat → Fin K → ℝ) (θ : E) (r : Fin m) : Fin K → ℝ :=
  relaxedCategorical eps (d.temp θ) (d.prob θ r) (u r)

/-- The hard sample. -/
noncomputable def RelaxVar.hardAt (d : RelaxVar E m K) (am : (Fin K → ℝ) → Fin K) (eps : ℝ) (θ₀ : E) (u : Nat → Fin K → ℝ)
    (r : Fin m) : Fin K → ℝ :=
  discretizeRow am (d.zAt eps u θ₀ r)

/-- The conditional sample given the hard sample `h`. -/
noncomputable def RelaxVar.ztAt (d : RelaxVar E m K) (am : (Fin K → ℝ) → Fin K) (eps : ℝ) (h : Fin m → Fin K → ℝ)
    (v : Nat → Fin K → ℝ) (θ : E) (r : Fin m) : Fin K → ℝ :=
  conditionalRow am eps (d.temp θ) (h r) (d.prob θ r) (v r)

/-- The log-probability of the hard sample `h`. -/
noncomputable def RelaxVar.lpAt (d : RelaxVar E m K) (am : (Fin K → ℝ) → Fin K) (eps : ℝ) (h : Fin m → Fin K → ℝ) (θ : E) : ℝ :=
  ∑ r : Fin m, Real.log (clampProbs eps (d.prob θ r (am (h r))))

/-- What one sample adds to the surrogate loss. -/
noncomputable def RelaxVar.term (d : RelaxVar E m K) (am : (Fin K → ℝ) → Fin K) (eps : ℝ) (θ₀ : E)
    (f : E → (Fin m → Fin K → ℝ) → ℝ) (u v : Nat → Fin K → ℝ) : AD E θ₀ :=
  let h := d.hardAt am eps θ₀ u
  let lp : AD E θ₀ := d.lpAt am eps h
  let eta : AD E θ₀ := d.eta
  let z : AD E θ₀ := fun θ => d.net θ (d.zAt eps u θ)
  let zt : AD E θ₀ := fun θ => d.net θ (d.ztAt am eps h v θ)
  let c : AD E θ₀ := fun θ => f θ h
  boxElt lp * (relaxCv eta lp z zt + c)

/-- The numbers of row `r` of sample `k`: the plate of a single sample has no dimension. -/
def noiseAt (n : Nat) (w : Nat → Nat → Fin K → ℝ) (pos : List Nat) : Fin K → ℝ :=
  w (if 1 < n then pos.headD 0 else 0) (pos.getLastD 0)

theorem noiseAt_at (n : Nat) (w : Nat → Nat → Fin K → ℝ) {k : Nat} (hk : k < n) (r : Nat) :
    noiseAt n w (at1 n k ++ [r]) = w k r := by
  unfold noiseAt at1
  by_cases hn : 1 < n
  · simp [hn]
  · have : k = 0 := by omega
    simp [hn, this]

theorem relaxSample_run {inv : Nat → AD E θ₀} (d : RelaxVar E m K) (eps : ℝ) (name : String) {n : Nat} (hn : 1 ≤ n)
    (u : Nat → Nat → Fin K → ℝ) (q : Ten (AD E θ₀)) :
    ∃ t, relaxSample inv name n [] [.torch q] false (fun t => t) (fun t => t) (d.relaxed eps u) =
        .ok (t, mcPlate inv name n []) ∧ t.WF ∧ t.plates = [mcPlate inv name n []] ∧ t.eventShape = [m, K] ∧
      ∀ k, k < n → ∀ (r : Fin m) (i : Fin K), t.ten.get (at1 n k ++ [r.val, i.val]) = fun θ => d.zAt eps (u k) θ r i := by
  have hf : ([mcPlate inv name n []].filter (fun p => decide (1 < p.n))) = if 1 < n then [mcPlate inv name n []] else [] := by
    by_cases h : 1 < n <;> simp [h, mcPlate, Plate.n]
  have hval : ∀ k (r : Fin m) (i : Fin K), (d.relaxed (θ₀ := θ₀) eps u n).get [k, r.val, i.val] =
      fun θ => d.zAt eps (u k) θ r i := by
    intro k r i
    funext θ
    simp [RelaxVar.relaxed, RelaxVar.zAt]
  by_cases h1 : n = 1
  · subst h1
    obtain ⟨t, a1, a2, a3, a4, a5⟩ := checkPlates_ok_of (R := [mcPlate inv name 1 []]) (by simp)
      (by intro p hp; rw [List.mem_singleton.1 hp]; exact hn) (squeeze0 (d.relaxed (θ₀ := θ₀) eps u 1)) [m, K]
      (by rw [hf]; rfl)
    refine ⟨t, ?_, a4, a3, a5, ?_⟩
    · rw [relaxSample, monteCarlo]
      simp only [methodPlates, List.any_nil, Bool.false_eq_true, if_false, relaxTensor, RelaxVar.relaxed] at a1 ⊢
      simp only [one_ne_zero, if_false, if_true]
      rw [a1]
      simp [relaxWeights]
    · intro k hk r i
      have : k = 0 := by omega
      subst this
      rw [a2, ← hval]
      rfl
  · obtain ⟨t, a1, a2, a3, a4, a5⟩ := checkPlates_ok_of (R := [mcPlate inv name n []]) (by simp)
      (by intro p hp; rw [List.mem_singleton.1 hp]; exact hn) (d.relaxed (θ₀ := θ₀) eps u n) [m, K]
      (by rw [hf, if_pos (by omega)]; rfl)
    refine ⟨t, ?_, a4, a3, a5, ?_⟩
    · rw [relaxSample, monteCarlo]
      simp only [methodPlates, List.any_nil, Bool.false_eq_true, if_false, relaxTensor, RelaxVar.relaxed] at a1 ⊢
      rw [if_neg (show n ≠ 0 by omega), if_neg h1, a1]
      simp [relaxWeights]
    · intro k hk r i
      rw [a2, ← hval, at1, if_pos (by omega)]
      rfl

theorem mc_pool (inv : Nat → AD E θ₀) (name : String) (n : Nat) : PoolOK [mcPlate inv name n []] :=
  ⟨by simp, by intro p hp; rw [List.mem_singleton.1 hp]; rfl,
    acyclic_noParents (by intro p hp; rw [List.mem_singleton.1 hp]; rfl)⟩

theorem mc_weights (inv : Nat → AD E θ₀) (name : String) (n : Nat) : TorchWeights [mcPlate inv name n []] := by
  intro p hp
  rw [List.mem_singleton.1 hp]
  exact ⟨.scalar _ rfl rfl, _, rfl⟩

/-- The log-probability on tensors with the values of `h`. -/
theorem logProb_ok (d : RelaxVar E m K) (am : (Fin K → ℝ) → Fin K) (eps : ℝ) {h : STen (AD E θ₀)} (hh : h.WF)
    {P : Plate (AD E θ₀)} (hp : h.plates = [P]) (he : h.eventShape = [m, K]) :
    LogProbOK h (fun x => .ok (d.logProb am eps x)) [m] (fun ι e => fun θ =>
      Real.log (clampProbs eps (d.prob θ (e.headD 0)
        (am (fun i => (h.ten.get (at1 P.n (ι P.name) ++ [e.headD 0, i.val])).val))))) := by
  intro x hx
  obtain ⟨a1, a2, a3, a4⟩ := same_view hx hp hh
  obtain ⟨b1, b2, -⟩ := single_view hh hp
  have hsh : (d.logProb am eps x).ten.shape = shape1 P.n ++ [m] := by
    show x.ten.shape.dropLast = _
    rw [a2, b1, he, show shape1 P.n ++ [m, K] = (shape1 P.n ++ [m]) ++ [K] by simp, List.dropLast_concat]
  have hpd : (d.logProb am eps x).plateDims = (shape1 P.n).length := a3.trans b2
  have hev : (d.logProb am eps x).eventShape = [m] := by
    rw [STen.eventShape, hsh, hpd, List.drop_left' rfl]
  have hpl : (d.logProb am eps x).plates = [P] := a1
  have hmd : (d.logProb am eps x).multiDimPlates = if 1 < P.n then [P] else [] := by
    rw [STen.multiDimPlates, hpl]
    by_cases h : 1 < P.n <;> simp [h]
  have hwf : (d.logProb am eps x).WF := by
    refine ⟨hx.wf.names, hx.wf.pos, ?_, ?_⟩
    · rw [hsh, hev, hmd, shape1]; split <;> rfl
    · rw [hpd, hmd, shape1]; split <;> rfl
  refine ⟨_, rfl, hwf, fun p => by rw [hpl, hp], hev, ?_⟩
  intro ι e hie
  rw [(single_view hwf hpl).2.2 ι e (by rw [hev]; exact hie)]
  cases hie with
  | cons hr h2 =>
    cases h2
    rename_i r
    funext θ
    have hl : (at1 P.n (ι P.name) ++ [r]).getLastD 0 = r := by simp
    simp only [RelaxVar.logProb, hl, List.headD_cons]
    congr 4
    funext i
    rw [List.append_assoc]
    have := a4 (ι P.name) [r, i.val] (by rw [he]; exact inB2 hr i.isLt)
    simp only [List.cons_append, List.nil_append]
    rw [this]

theorem list_sum_apply (l : List Nat) (g : Nat → AD E θ₀) (θ : E) : (l.map g).sum θ = (l.map (fun k => g k θ)).sum := by
  induction l with
  | nil => rfl
  | cons a l ih => simp [ih]

/-- The surrogate loss of the program. -/
noncomputable def relaxLoss (d : RelaxVar E m K) (am : (Fin K → ℝ) → Fin K) (eps : ℝ) (θ₀ : E)
    (f : E → (Fin m → Fin K → ℝ) → ℝ) (n : Nat) (u v : Nat → Nat → Fin K → ℝ) (θ : E) : ℝ :=
  ∑ k ∈ Finset.range n, 1 / (n : ℝ) * d.term am eps θ₀ f (u k) (v k) θ

theorem relaxProgram_run {hook : UnwrapHook (AD E θ₀)} (hh : PlainHook hook) {inv : Nat → AD E θ₀}
    (hinv : ∀ k, inv k = AD.const (1 / (k : ℝ))) (eps : ℝ) (am : (Fin K → ℝ) → Fin K) (d : RelaxVar E m K)
    (f : E → (Fin m → Fin K → ℝ) → ℝ) (name : String) {n : Nat} (hn : 1 ≤ n) (u v : Nat → Nat → Fin K → ℝ) :
    ∃ L, relaxProgram hook inv eps am d f name n u (noiseAt n v) = .ok L ∧ L.plates = [] ∧ L.ten.shape = [] ∧
      ∀ θ, L.ten.get [] θ = relaxLoss d am eps θ₀ f n u v θ := by
  set P : Plate (AD E θ₀) := mcPlate inv name n [] with hP
  have hPn : P.n = n := rfl
  have hPname : P.name = name := rfl
  have hpool : PoolOK [P] := mc_pool _ _ _
  have hw : TorchWeights [P] := mc_weights _ _ _
  obtain ⟨t, t1, t2, t3, t4, t5⟩ := relaxSample_run (θ₀ := θ₀) (inv := inv) d eps name hn u
    ⟨[m, K], fun idx θ => if h : idx.getD 1 0 < K then d.prob θ (idx.headD 0) ⟨idx.getD 1 0, h⟩ else 0⟩
  rw [← hP] at t1 t3
  have hclosed : ParentClosed [P] := single_closed rfl
  -- the hard sample
  set hard := discretizeSt am t with hhard
  have hh1 := mapRows_wf (K := K) (fun _ row i => AD.const (discretizeRow am (fun i => (row i).val) i)) t2
  have hhw : hard.WF := hh1.1
  have hhp : hard.plates = [P] := hh1.2.1.trans t3
  have hhe : hard.eventShape = [m, K] := hh1.2.2.1.trans t4
  obtain ⟨hts, -, -⟩ := single_view t2 t3
  have hts' : t.ten.shape = (shape1 n ++ [m]) ++ [K] := by rw [hts, t4, hPn]; simp
  have hhs : hard.ten.shape = (shape1 n ++ [m]) ++ [K] := hh1.2.2.2.trans hts'
  -- the conditional sample
  set zt := d.cond am eps (noiseAt n v) hard with hzt
  have hz1 := mapRows_wf (K := K) (fun pos row i => (fun θ => conditionalRow am eps (d.temp θ) (fun i => (row i).val)
    (d.prob θ (pos.getLastD 0)) (noiseAt n v pos) i : AD E θ₀)) hhw
  have hzw : zt.WF := hz1.1
  have hzp : zt.plates = [P] := hz1.2.1.trans hhp
  have hze : zt.eventShape = [m, K] := hz1.2.2.1.trans hhe
  have hin : ∀ {k}, k < n → ∀ (r : Fin m) (i : Fin K), Ten.InB ((at1 n k ++ [r.val]) ++ [i.val]) ((shape1 n ++ [m]) ++ [K]) := by
    intro k hk r i
    rw [List.append_assoc, List.append_assoc]
    exact at1_inB hk (inB2 r.isLt i.isLt)
  have hardv : ∀ {k}, k < n → ∀ (r : Fin m) (i : Fin K), hard.ten.get (at1 n k ++ [r.val, i.val]) =
      AD.const (d.hardAt am eps θ₀ (u k) r i) := by
    intro k hk r i
    have e : at1 n k ++ [r.val, i.val] = (at1 n k ++ [r.val]) ++ [i.val] := by simp
    rw [e, hhard, discretizeSt, mapRows_get _ _ (by rw [hts']; exact hin hk r i)]
    congr 1
    rw [RelaxVar.hardAt]
    congr 1
    funext i'
    simp only [List.append_assoc, List.cons_append, List.nil_append]
    exact congrFun (t5 k hk r i') θ₀
  have ztv : ∀ {k}, k < n → ∀ (r : Fin m) (i : Fin K) (θ : E), zt.ten.get (at1 n k ++ [r.val, i.val]) θ =
      d.ztAt am eps (d.hardAt am eps θ₀ (u k)) (v k) θ r i := by
    intro k hk r i θ
    have e : at1 n k ++ [r.val, i.val] = (at1 n k ++ [r.val]) ++ [i.val] := by simp
    have hg := mapRows_get (fun pos row i => (fun θ => conditionalRow am eps (d.temp θ) (fun i => (row i).val)
      (d.prob θ (pos.getLastD 0)) (noiseAt n v pos) i : AD E θ₀)) (t := hard) (pos := at1 n k ++ [r.val]) i
      (by rw [hhs]; exact hin hk r i)
    rw [e]
    refine (congrFun hg θ).trans ?_
    rw [RelaxVar.ztAt]
    have hl : (at1 n k ++ [r.val]).getLastD 0 = r.val := by simp
    rw [hl, noiseAt_at n v hk]
    congr 1
    funext i'
    simp only [List.append_assoc, List.cons_append, List.nil_append]
    exact congrFun (hardv hk r i') θ₀
  have hr : RelaxOK [P] t hard zt (fun x => .ok (discretizeSt am x)) (fun x => .ok (d.cond am eps (noiseAt n v) x))
      (fun x => .ok (.st (perSample d.net x) false))
      (fun ι θ => d.net θ (fun r i => t.ten.get (at1 P.n (ι P.name) ++ [r.val, i.val]) θ))
      (fun ι θ => d.net θ (fun r i => zt.ten.get (at1 P.n (ι P.name) ++ [r.val, i.val]) θ)) := by
    refine ⟨?_, ?_, ?_, ?_, ?_⟩
    · intro x hx
      refine ⟨_, rfl, ?_⟩
      rw [hhard, discretizeSt, discretizeSt, mapRows_same _ hx t3 t2 hts']
      exact same_refl hhw
    · intro x hx
      refine ⟨_, rfl, ?_⟩
      have hg := mapRows_same (fun pos row i => (fun θ => conditionalRow am eps (d.temp θ) (fun i => (row i).val)
        (d.prob θ (pos.getLastD 0)) (noiseAt n v pos) i : AD E θ₀)) hx hhp hhw hhs
      have hg' : d.cond am eps (noiseAt n v) x = zt := hg
      rw [hg']
      exact same_refl hzw
    · intro p; rw [hhp, t3]
    · intro x hx
      refine ⟨_, rfl, ?_⟩
      rw [t3]
      exact perSample_is d.net hx t3 rfl t2 t4
    · intro x hx
      refine ⟨_, rfl, ?_⟩
      rw [t3]
      exact perSample_is d.net hx hzp rfl hzw hze
  have hl := logProb_ok d am eps hhw hhp hhe
  -- the cost
  have hc := perSample_is f (same_refl hhw) hhp rfl hhw hhe
  set c := perSample f hard with hcdef
  have hcp : c.plates = [P] := hhp
  have hcok : CostOK [P] c := ⟨hc.scalar, by rw [hcp]; exact hclosed⟩
  have hcontr := relax_contributes hh hpool hw hcok (by
      intro p hp; left; intro q hq
      have : p ∈ c.plates := (List.mem_filter.1 hp).1
      rw [hcp] at this
      rw [List.mem_singleton.1 this] at hq; cases hq)
    (t := t) ⟨t2, by rw [t3]; exact fun p hp => hp, by rw [t3]; exact hclosed⟩ hr hl (Or.inl (by simp)) (own := P)
    (by rw [t3]; simp) d.eta
  obtain ⟨L, L1, L2, L3, L4⟩ := surrogateLoss_spec hh hpool hw (costs := [(c, [_])]) (by simp) (es := [(c, [_])])
    (.cons ⟨rfl, hcok, .cons hcontr .nil⟩ .nil)
  refine ⟨L, ?_, L2, L3, ?_⟩
  · rw [relaxProgram, t1]
    exact L1
  · intro θ
    rw [L4]
    have hnm : ∀ (l : List String), named [P] (t.plates.map Plate.name ++ l) = [P] := by
      intro l; simp [named, t3]
    simp only [lossTotal, List.map_cons, List.map_nil, List.sum_cons, List.sum_nil, add_zero, costTotal, cvTotal,
      List.flatMap_cons, List.flatMap_nil, boxTotal, List.nil_append, List.append_nil]
    rw [hnm, hnm, weightedTotal_single, weightedTotal_single]
    rw [AD.add_apply, list_sum_apply, list_sum_apply, ← List.sum_map_add, hPn, sum_range_list, relaxLoss]
    refine Finset.sum_congr rfl (fun k hk => ?_)
    have hkn : k < n := Finset.mem_range.1 hk
    have hup : (Function.update (fun _ => 0) P.name k : String → Nat) P.name = k := by simp
    have hwt : Plate.weightAt id P (Function.update (fun _ => 0) P.name k) θ = 1 / (n : ℝ) := by
      show inv n θ = _
      rw [hinv]; rfl
    have hz : (fun θ => d.net θ (fun r i => t.ten.get (at1 n k ++ [r.val, i.val]) θ) : AD E θ₀) =
        fun θ => d.net θ (d.zAt eps (u k) θ) := by
      funext θ
      congr 1
      funext r i
      rw [t5 k hkn]
    have hzz : (fun θ => d.net θ (fun r i => zt.ten.get (at1 n k ++ [r.val, i.val]) θ) : AD E θ₀) =
        fun θ => d.net θ (d.ztAt am eps (d.hardAt am eps θ₀ (u k)) (v k) θ) := by
      funext θ
      congr 1
      funext r i
      rw [ztv hkn]
    have hlp : sumEvent [m] (fun ι e => (fun θ => Real.log (clampProbs eps (d.prob θ (e.headD 0)
        (am (fun i => (hard.ten.get (at1 n (ι P.name) ++ [e.headD 0, i.val])).val)))) : AD E θ₀))
        (Function.update (fun _ => 0) P.name k) = d.lpAt am eps (d.hardAt am eps θ₀ (u k)) := by
      funext θ
      have hall : allIdx [m] = (List.range m).map (fun r => [r]) := by
        have : ∀ (l : List Nat), l.flatMap (fun i => [[i]]) = l.map (fun i => [i]) := by
          intro l; induction l <;> simp_all
        simp [allIdx, this]
      rw [sumEvent, hall, List.map_map]
      have h3 := (list_sum_apply (θ₀ := θ₀) (List.range m) (fun r => (fun θ => Real.log (clampProbs eps (d.prob θ r
        (am (fun i => (hard.ten.get (at1 n ((Function.update (fun _ => 0) P.name k : String → Nat) P.name) ++
          [r, i.val])).val)))) : AD E θ₀)) θ)
      refine Eq.trans h3 ?_
      rw [sum_range_list, RelaxVar.lpAt, ← Fin.sum_univ_eq_sum_range (fun r => Real.log (clampProbs eps (d.prob θ r
        (am (fun i => (hard.ten.get (at1 n ((Function.update (fun _ => 0) P.name k : String → Nat) P.name) ++
          [r, i.val])).val))))) m]
      refine Finset.sum_congr rfl (fun r _ => ?_)
      simp only [hup]
      congr 4
      funext i
      exact congrFun (hardv hkn r i) θ₀
    have hcv : c.sample (Function.update (fun _ => 0) P.name k) [] θ = f θ (d.hardAt am eps θ₀ (u k)) := by
      have := hc.val (Function.update (fun _ => 0) P.name k)
      rw [Operand.at, Operand.sample] at this
      rw [this]
      simp only [hup, hPn]
      congr 1
      funext r i
      rw [hardv hkn]
      rfl
    have hfin : ∀ eta lp z zt : AD E θ₀, eta = d.eta → lp = d.lpAt am eps (d.hardAt am eps θ₀ (u k)) →
        z = (fun θ => d.net θ (d.zAt eps (u k) θ)) →
        zt = (fun θ => d.net θ (d.ztAt am eps (d.hardAt am eps θ₀ (u k)) (v k) θ)) →
        1 / (n : ℝ) * (boxElt lp θ * relaxCv eta lp z zt θ) +
          1 / (n : ℝ) * (boxElt lp θ * f θ (d.hardAt am eps θ₀ (u k))) =
        1 / (n : ℝ) * d.term am eps θ₀ f (u k) (v k) θ := by
      rintro eta lp z zt rfl rfl rfl rfl
      rw [← mul_add, ← mul_add]
      rfl
    simp only [hup, zero_add, AD.mul_apply, hcv, hwt]
    exact hfin _ _ _ _ rfl hlp hz hzz

end

end Storch
