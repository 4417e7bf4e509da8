import Verif.Model.Importance
import Verif.Lemmas.ImportanceLemmas
import Verif.Lemmas.EnumerateLemmas

/-! Importance sampling of one variable. -/

namespace Storch
variable {α : Type _} [ValEq α]

theorem opSt_unop {hook : UnwrapHook α} (hh : PlainHook hook) (f : List α → α) {t : STen α} (h : Proper t) :
    ∃ r, opSt hook f [t] = .ok r ∧ Proper r ∧ r.plates = t.plates ∧ r.eventShape = t.eventShape ∧
      ∀ ι e, Ten.InB e t.eventShape → r.sample ι e = f [t.sample ι e] := by
  obtain ⟨r, r1, r2⟩ := unop_call hh f h
  refine ⟨r, ?_, r2⟩
  rw [opSt, List.map_cons, List.map_nil, opCall, r1]

theorem opSt_binop {hook : UnwrapHook α} (hh : PlainHook hook) (f : List α → α) {t w : STen α}
    (h : Proper t) (hw : Proper w) (hin : ∀ q ∈ w.plates, q.isIn t.plates = true) (hev : w.eventShape = t.eventShape) :
    ∃ r, opSt hook f [t, w] = .ok r ∧ Proper r ∧ r.plates = t.plates ∧ r.eventShape = t.eventShape ∧
      ∀ ι e, Ten.InB e t.eventShape → r.sample ι e = f [t.sample ι e, w.sample ι e] := by
  obtain ⟨r, r1, r2, r3, r4, r5⟩ := binop_call hh f h hw hin 0 (by simpa using hev)
  refine ⟨r, ?_, r2, r3, by rw [r4, hev], by rw [← hev]; exact r5⟩
  rw [opSt, List.map_cons, List.map_cons, List.map_nil, opCall, r1]

/-- The weights of a scalar sample. -/
theorem importanceWeight_spec [CommRing α] [Div α] [Autograd α] {hook : UnwrapHook α} (hh : PlainHook hook)
    {logP logQ : STen α → Except Err (STen α)} {n : Nat} {t lp lq : STen α}
    (hlp : logP t = .ok lp) (hlq : logQ t = .ok lq) (h1 : Proper lp) (h2 : Proper lq)
    (hpl : lq.plates = lp.plates) (he : lq.eventShape = lp.eventShape) :
    ∃ w, importanceWeight hook logP logQ n t = .ok w ∧ Proper w ∧ w.plates = lp.plates ∧ w.eventShape = lp.eventShape ∧
      ∀ ι e, Ten.InB e lp.eventShape → w.sample ι e =
        Autograd.detach (Autograd.exp (lp.sample ι e) / (n * Autograd.exp (lq.sample ι e))) := by
  obtain ⟨p, p1, p2, p3, p4, p5⟩ := opSt_unop hh expElts h1
  obtain ⟨q, q1, q2, q3, q4, q5⟩ := opSt_unop hh expElts h2
  obtain ⟨nq, n1, n2, n3, n4, n5⟩ := opSt_unop hh (fun xs => n * xs.headD 0) q2
  have hnq : nq.plates = p.plates := by rw [n3, q3, hpl, p3]
  have hne : nq.eventShape = p.eventShape := by rw [n4, q4, he, p4]
  obtain ⟨d, d1, d2, d3, d4, d5⟩ := opSt_binop hh divElts p2 n2
    (fun x hx => Plate.isIn_iff.2 ⟨x, hnq ▸ hx, Plate.pyEq_refl x⟩) hne
  obtain ⟨w, w1, w2, w3, w4, w5⟩ := opSt_unop hh detachElts d2
  refine ⟨w, ?_, w2, by rw [w3, d3, p3], by rw [w4, d4, p4], ?_⟩
  · rw [importanceWeight, hlp]
    simp only [p1, hlq, q1, n1, d1, w1]
  · intro ι e hb
    rw [w5 ι e (by rw [d4, p4]; exact hb), d5 ι e (by rw [p4]; exact hb), n5 ι e (by rw [q4, he]; exact hb),
      p5 ι e hb, q5 ι e (by rw [he]; exact hb)]
    rfl


section
variable {E : Type _} {θ₀ : E}

/-- What sampling one variable gives. -/
structure SampledOne (hook : UnwrapHook (AD E θ₀)) (name : String) (n : Nat) (p : E → ℝ → ℝ) (q : ℝ → ℝ)
    (draw : List Nat → ℝ) (x : STen (AD E θ₀)) (plate : Plate (AD E θ₀)) : Prop where
  proper : Proper x
  over : x.plates = [plate]
  scalar : x.eventShape = []
  val : ∀ ι θ, x.sample ι [] θ = draw [ι name]
  called : plate.name = name
  size : plate.n = n
  parents : plate.parents = []
  ok : WeightOK plate
  weight : ∀ ι θ, plate.weightAt id ι θ = Real.exp (Real.log (p θ₀ (draw [ι name]))) /
    (n * Real.exp (Real.log (q (draw [ι name]))))

theorem importance_one {hook : UnwrapHook (AD E θ₀)} (hh : PlainHook hook) (inv : Nat → AD E θ₀) (name : String) {n : Nat}
    (hn : 2 ≤ n) (p : E → ℝ → ℝ) (q : ℝ → ℝ) (draw : List Nat → ℝ) :
    ∃ x plate, importance hook inv name n [] [] []
        (fun k => ⟨[k], fun idx => AD.const (draw (if k = 1 then idx.tail else idx))⟩)
        (logOf hook p) (logOf hook (fun _ => q)) = .ok (x, plate) ∧ SampledOne hook name n p q draw x plate := by
  set T : Ten (AD E θ₀) := ⟨[n], fun idx => AD.const (draw (if n = 1 then idx.tail else idx))⟩ with hT
  set P0 := mcPlate inv name n [] with hP0
  have hn1 : n ≠ 1 := by omega
  have hmk : STen.mk' T [P0] = .ok ⟨T, [P0], 1⟩ := by
    have h1 : P0.n = n := rfl
    have h2 : ([P0].filter (fun p => p.n ≠ 1)) = [P0] := by simp [h1, hn1]
    rw [STen.mk', (checkPlates_ok_iff _ _ _ _ 1).2]
    refine ⟨by simp, by simp, ?_, ?_⟩
    · rw [h2, hT, List.drop_zero]
      exact ⟨[], by simp [h1]⟩
    · rw [h2]; simp
  have hmc : monteCarlo inv name n [] []
      (fun k => ⟨[k], fun idx => AD.const (draw (if k = 1 then idx.tail else idx))⟩) = .ok (⟨T, [P0], 1⟩, P0) := by
    rw [monteCarlo]
    simp only [methodPlates, List.any_nil, Bool.false_eq_true, if_false]
    rw [if_neg (by omega), if_neg hn1]
    simp only [← hT, ← hP0, hmk]
  have hone : ∀ P : Plate (AD E θ₀), P.n = n → P.kind = .plain → Proper (⟨T, [P], 1⟩ : STen (AD E θ₀)) ∧
      (⟨T, [P], 1⟩ : STen (AD E θ₀)).eventShape = [] ∧
      ∀ ι θ, (⟨T, [P], 1⟩ : STen (AD E θ₀)).sample ι [] θ = draw [ι P.name] := by
    intro P h1 h2
    have hm : (⟨T, [P], 1⟩ : STen (AD E θ₀)).multiDimPlates = [P] := by
      rw [STen.multiDimPlates, List.filter_cons]
      simp [h1]; omega
    have he : (⟨T, [P], 1⟩ : STen (AD E θ₀)).eventShape = [] := by rw [STen.eventShape]; simp [hT]
    refine ⟨⟨⟨by simp, by simp [h1]; omega, by rw [hm, he, hT]; simp [h1], by rw [hm]; rfl⟩, by simp [h2]⟩, he, ?_⟩
    intro ι θ
    rw [STen.sample, hm, he, hT]
    simp [Ten.bidx, hn1]
  obtain ⟨c1, c2, c3⟩ := hone P0 rfl rfl
  obtain ⟨lp, l1, l2, l3, l4, l5⟩ := opSt_unop hh (fun xs θ => Real.log (p θ (xs.headD 0 θ))) c1
  obtain ⟨lq, k1, k2, k3, k4, k5⟩ := opSt_unop hh (fun xs θ => Real.log (q (xs.headD 0 θ))) c1
  obtain ⟨w, w1, w2, w3, w4, w5⟩ := importanceWeight_spec hh (logP := logOf hook p) (logQ := logOf hook (fun _ => q))
    (n := n) l1 k1 l2 k2 (by rw [k3, l3]) (by rw [k4, l4])
  set plate := Plate.mk name n (.storch w.ten (w.plates.map Plate.name)) .plain [] with hplate
  obtain ⟨d1, d2, d3⟩ := hone plate rfl rfl
  have hwp : w.plates = [P0] := by rw [w3, l3]
  have hwe : w.eventShape = [] := by rw [w4, l4, c2]
  have hwm : w.multiDimPlates = [P0] := by
    rw [STen.multiDimPlates, hwp, List.filter_cons]
    have : P0.n = n := rfl
    simp [this]; omega
  have hwn : (plate.weightPlates (w.plates.map Plate.name)) = [plate] := by
    rw [hwp, Plate.weightPlates]
    simp [hplate, hP0, mcPlate, Plate.name, Plate.parents]
  have hmp : [plate].filter (fun q => decide (1 < q.n)) = [plate] := by
    refine multi_filter ?_
    intro q hq
    rw [List.mem_singleton.1 hq]
    exact hn
  refine ⟨⟨T, [plate], 1⟩, plate, ?_, d1, rfl, d2, d3, rfl, rfl, rfl, ?_, ?_⟩
  · rw [importance, hmc]
    simp only [addPropPlates]
    rw [show P0.n = n from rfl, w1]
    simp only [List.map_cons, List.map_nil]
    rw [if_pos (show P0.name = name from rfl)]
    rfl
  · refine .storch w.ten (w.plates.map Plate.name) rfl (show 1 < n by omega) w2.wf.names ?_ ?_ ?_
    · rw [hwp]; simp [hplate, hP0, mcPlate, Plate.name]
    · rw [hwp]
      intro s hs
      simp only [List.map_cons, List.map_nil, List.mem_singleton] at hs
      rw [hs]
      exact List.mem_cons_self ..
    · rw [hwn, w2.wf.shape, hwm, hwe, hmp, List.append_nil]
      rfl
  · intro ι θ
    have : plate.weightAt id ι = w.sample ι [] := by
      rw [STen.sample, hwe, hwm, Plate.weightAt]
      show w.ten.get (((plate.weightPlates (w.plates.map Plate.name)).filter (fun q => decide (1 < q.n))).map
        (fun q => ι q.name)) = _
      rw [hwn, hmp]
      simp [Ten.bidx, hplate, hP0, mcPlate, Plate.name]
    rw [this, w5 ι [] (by rw [l4, c2]; exact .nil), l5 ι [] (by rw [c2]; exact .nil), k5 ι [] (by rw [c2]; exact .nil)]
    simp only [AD.detach_apply, AD.div_apply, AD.mul_apply, List.headD_cons, c3]
    rfl

/-- The declaration of the variable. -/
def oneDecl (name : String) (n : Nat) (support : Finset ℝ) (p : E → ℝ → ℝ) : Decl E ℝ :=
  ⟨name, [(name, n)], [], support, fun θ _ v => p θ v⟩

theorem oneDecl_program {name : String} {n : Nat} {support : Finset ℝ} {p : E → ℝ → ℝ} {θ : E}
    (h : ∑ v ∈ support, p θ v = 1) : Program [oneDecl name n support p] θ := by
  refine ⟨by simp, ?_, ?_, ?_, ?_, ?_⟩
  · intro d hd
    rw [List.mem_singleton.1 hd]
    simp [oneDecl]
  · intro l1 d l2 he s hs
    have hd : d ∈ [oneDecl name n support p] := by rw [he]; simp
    rw [List.mem_singleton.1 hd] at hs
    cases hs
  · intro d hd d' _ hs
    rw [List.mem_singleton.1 hd] at hs
    cases hs
  · intro d hd θ' ρ ρ' v _
    rw [List.mem_singleton.1 hd]
    rfl
  · intro d hd ρ
    rw [List.mem_singleton.1 hd]
    exact h

theorem one_trajectory {name : String} {n : Nat} {support : Finset ℝ} {p : E → ℝ → ℝ} (ω : Draws ℝ) (ι : String → Nat) :
    trajectory [oneDecl name n support p] ω ι name = ω name [ι name] := by
  simp [trajectory, oneDecl]

end

end Storch
