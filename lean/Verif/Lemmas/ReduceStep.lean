import Verif.Lemmas.ReduceLemmas

/-! `Plate.reduce` computes the weighted sum over one plate. -/

namespace Storch
variable {α : Type _} [ValEq α]

omit [ValEq α] in
theorem find_name {l : List (Plate α)} {s : String} (h : s ∈ l.map Plate.name) :
    ∃ q ∈ l, q.name = s ∧ l.find? (fun q => q.name == s) = some q := by
  cases hf : l.find? (fun q => q.name == s) with
  | none =>
    obtain ⟨q, hq, he⟩ := List.mem_map.1 h
    exact absurd (List.find?_eq_none.1 hf q hq) (by simp [he])
  | some q => exact ⟨q, List.mem_of_find?_eq_some hf, by simpa using List.find?_some hf, rfl⟩

omit [ValEq α] in
theorem weightPlates_names (p : Plate α) (names : List String)
    (hsub : ∀ s ∈ names, s ∈ (p :: p.parents).map Plate.name) :
    (p.weightPlates names).map Plate.name = names := by
  unfold Plate.weightPlates
  induction names with
  | nil => rfl
  | cons s names ih =>
    obtain ⟨q, _, he, hf⟩ := find_name (hsub s (by simp))
    rw [List.filterMap_cons_some (f := fun s => (p :: p.parents).find? (fun q => q.name == s)) hf,
      List.map_cons, he, ih (fun x hx => hsub x (List.mem_cons_of_mem _ hx))]

omit [ValEq α] in
theorem mem_weightPlates {p : Plate α} {names : List String} {q : Plate α}
    (h : q ∈ p.weightPlates names) : q = p ∨ q ∈ p.parents := by
  unfold Plate.weightPlates at h
  obtain ⟨s, _, hf⟩ := List.mem_filterMap.1 h
  simpa using List.mem_of_find?_eq_some hf

omit [ValEq α] in
theorem self_mem_weightPlates {p : Plate α} {names : List String} (h : p.name ∈ names) :
    p ∈ p.weightPlates names := by
  unfold Plate.weightPlates
  exact List.mem_filterMap.2 ⟨p.name, h, by simp⟩

/-- The storch weight of a plate as a tensor. -/
def Plate.weightSt (dt : α → α) (p : Plate α) (w : Ten α) (names : List String) : STen α :=
  ⟨w.map dt, p.weightPlates names, ((p.weightPlates names).filter (fun q => decide (1 < q.n))).length⟩

theorem plain_of_isIn {q : Plate α} {ps : List (Plate α)} (hp : ∀ x ∈ ps, x.kind = .plain)
    (h : q.isIn ps = true) : q.kind = .plain := by
  obtain ⟨x, hx, he⟩ := Plate.isIn_iff.1 h
  rw [← (Plate.pyEq_iff.1 he).2.2.1]; exact hp x hx

theorem pos_of_isIn {q : Plate α} {ps : List (Plate α)} (hp : ∀ x ∈ ps, 1 ≤ x.n)
    (h : q.isIn ps = true) : 1 ≤ q.n := by
  obtain ⟨x, hx, he⟩ := Plate.isIn_iff.1 h
  rw [← Plate.pyEq_n he]; exact hp x hx

/-- The storch weight is a proper tensor without event dimensions. -/
theorem weightSt_proper (dt : α → α) {p : Plate α} {w : Ten α} {names : List String} {t : STen α}
    (h : Proper t) (hp : p ∈ t.plates) (hpar : ∀ q ∈ p.parents, q.isIn t.plates = true)
    (hnd : names.Nodup) (hsub : ∀ s ∈ names, s ∈ (p :: p.parents).map Plate.name)
    (hs : w.shape = ((p.weightPlates names).filter (fun q => decide (1 < q.n))).map Plate.n) :
    Proper (p.weightSt dt w names) ∧ (p.weightSt dt w names).eventShape = [] ∧
      ∀ q ∈ (p.weightSt dt w names).plates, q.isIn t.plates = true := by
  have hin : ∀ q ∈ p.weightPlates names, q.isIn t.plates = true := by
    intro q hq
    rcases mem_weightPlates hq with rfl | hq
    · exact Plate.isIn_of_mem hp
    · exact hpar q hq
  have hev : (p.weightSt dt w names).eventShape = [] := by
    simp [STen.eventShape, Plate.weightSt, Ten.map, hs]
  refine ⟨⟨⟨?_, ?_, ?_, rfl⟩, ?_⟩, hev, hin⟩
  · change ((p.weightPlates names).map Plate.name).Nodup
    rw [weightPlates_names p names hsub]; exact hnd
  · intro q hq; exact pos_of_isIn h.wf.pos (hin q hq)
  · rw [hev, List.append_nil]; exact hs
  · intro q hq; exact plain_of_isIn h.plain (hin q hq)

/-- `weight[..., None, …, None]`. -/
theorem noneRightOp_st {hook : UnwrapHook α} (hh : PlainHook hook) {w : STen α} (h : Proper w)
    (hev : w.eventShape = []) (k : Nat) :
    ∃ r, noneRightOp hook k (.st w false) = .ok (.st r false) ∧ Proper r ∧ r.plates = w.plates ∧
      r.eventShape = List.replicate k 1 ∧ ∀ ι e, r.sample ι e = w.sample ι [] := by
  have hx : ∀ (n : Nat) (c : Coll α) (m : Nat), collectList (List.replicate n Val.none) c m = (c, m) := by
    intro n
    induction n with
    | zero => intro c m; rfl
    | succ n ih =>
      intro c m
      rw [List.replicate_succ, collectList]
      simp only [Val.collect, Nat.max_zero]
      exact ih c m
  have hx' : ∀ (n : Nat) cfg mdp ed, unwrapList hook cfg mdp ed (List.replicate n Val.none) =
      .ok (List.replicate n Val.none) := by
    intro n cfg mdp ed
    induction n with
    | zero => rfl
    | succ n ih => rw [List.replicate_succ, unwrapList, Val.unwrap, ih]
  have hcall := handleDet_single hh h false false [] [.tup (.other 0 :: List.replicate k .none)]
    [.tup (.other 0 :: List.replicate k .none)]
    (fun c m => by simp [collectList, Val.collect, hx])
    (fun cfg mdp ed => by simp [unwrapList, Val.unwrap, hx'])
    (noneRightFn k) (.torch (w.ten.noneRight k)) rfl
  have hsh := h.wf.shape
  rw [hev, List.append_nil] at hsh
  obtain ⟨r, hr1, hr2, hr3, hr4, hr5⟩ := checkPlates_ok_of h.wf.names h.wf.pos (w.ten.noneRight k)
    (List.replicate k 1) (by rw [Ten.noneRight, hsh]; rfl)
  have hfl : w.plates.filter (fun q => !decide (q.name ∈ ([] : List String))) = w.plates := by simp
  rw [hfl] at hcall
  refine ⟨r, ?_, ⟨hr4, by rw [hr3]; exact h.plain⟩, hr3, hr5, ?_⟩
  · rw [noneRightOp]
    have : handleDet hook false false { lBroadcast := false } (noneRightFn k)
      ⟨[.st w false, .tup (.other 0 :: List.replicate k .none)], []⟩ = _ := hcall
    rw [this, Val.wrapOut]
    simp only [Bool.false_eq_true, if_false, hr1, asSt]
  · intro ι e
    have hmd : r.multiDimPlates = w.multiDimPlates := by rw [STen.multiDimPlates, hr3]; rfl
    rw [STen.sample, hr2, hmd, STen.sample, hev]
    simp only [Ten.noneRight]
    congr 1
    have hl : w.ten.ndim = (w.multiDimPlates.map (fun p => ι p.name)).length := by
      rw [Ten.ndim, hsh]; simp
    rw [hl, List.take_left]
    simp [Ten.bidx]

theorem reduce_step [CommSemiring α] {hook : UnwrapHook α} (hh : PlainHook hook) (dt : α → α)
    {t : STen α} (h : Proper t) {p : Plate α} (hp : p ∈ t.plates) (hok : WeightOK p)
    (hpar : ∀ w names, p.weight = .storch w names → ∀ q ∈ p.parents, q.isIn t.plates = true) :
    ∃ r, p.reduce hook dt t = .ok r ∧ Proper r ∧ r.plates = dropPlate p.name t.plates ∧
      (∃ k, r.eventShape = t.eventShape ++ List.replicate k 1) ∧
      ((∀ w, p.weight = .torch w → r.eventShape = t.eventShape)) ∧
      ∀ ι e, Ten.InB e r.eventShape → r.sample ι e = ∑ k ∈ Finset.range p.n,
        p.weightAt dt (Function.update ι p.name k) * t.sample (Function.update ι p.name k) e := by
  have hpos := h.wf.pos p hp
  by_cases hn1 : p.n = 1
  · -- a plate with a single sample
    cases hok with
    | vector w hw hs hn => omega
    | storch w names hw hn => omega
    | scalar w hw hs =>
      have hnm : p ∉ t.multiDimPlates := by
        intro hm; have := (List.mem_filter.1 hm).2; simp [hn1] at this
      have hnm' : p.name ∉ t.multiDimPlates.map Plate.name := by
        intro hm
        obtain ⟨q, hq, he⟩ := List.mem_map.1 hm
        have := pyEq_of_same_list h.wf.names (List.mem_filter.1 hq).1 hp he
        exact hnm (this ▸ hq)
      have hmd : (dropPlate p.name t.plates).filter (fun q => decide (1 < q.n)) = t.multiDimPlates := by
        rw [dropPlate, List.filter_comm]
        apply List.filter_eq_self.2
        intro q hq
        simp only [List.mem_singleton, Bool.not_eq_true', decide_eq_false_iff_not]
        intro e; exact hnm' (e ▸ List.mem_map_of_mem hq)
      have hwm : (w.map dt).shape = [] := hs
      have hbs : Ten.bshapes [t.ten.shape, (w.map dt).shape] = some t.ten.shape := by
        apply bshapes_fit (by simp [hwm])
        rw [hwm]
        simp only [Ten.padL, List.length_nil, Nat.sub_zero, List.append_nil]
        generalize t.ten.shape = s
        induction s with
        | nil => exact .nil
        | cons d s ih => exact .cons (Or.inl rfl) ih
      have hcall := handleDet_single hh h false true [p.name] [] []
        (fun c m => by simp [collectList]) (fun cfg mdp ed => rfl)
        (timesWeight hook (.torch (w.map dt)))
        (.torch ⟨t.ten.shape, fun idx => ([t.ten, w.map dt].map (fun t => t.get (Ten.bidx t.shape
          (idx.drop (idx.length - t.ndim))))).prod⟩)
        (by simp only [timesWeight, Ten.elementwise, List.map_cons, List.map_nil, hbs])
      obtain ⟨r, hr1, hr2, hr3, hr4, hr5⟩ := checkPlates_ok_of (R := dropPlate p.name t.plates)
        (h.wf.names.sublist (List.filter_sublist.map _))
        (fun q hq => h.wf.pos q (List.mem_filter.1 hq).1)
        ⟨t.ten.shape, fun idx => ([t.ten, w.map dt].map (fun t => t.get (Ten.bidx t.shape
          (idx.drop (idx.length - t.ndim))))).prod⟩ t.eventShape
        (by rw [hmd]; exact h.wf.shape)
      refine ⟨r, ?_, ⟨hr4, ?_⟩, hr3, ⟨0, by simp [hr5]⟩, fun _ _ => hr5, ?_⟩
      · rw [Plate.reduce]
        have hwop : p.weightOp dt = .torch (w.map dt) := by rw [Plate.weightOp, hw]
        simp only [hwop, if_pos hn1]
        have : handleDet hook false false { reducePlates := [p.name] }
          (timesWeight hook (.torch (w.map dt))) ⟨[.st t false], []⟩ = _ := hcall
        rw [this, Val.wrapOut]
        have hr1' := hr1
        rw [dropPlate] at hr1'
        simp only [Bool.false_eq_true, if_false, hr1', asSt]
      · intro q hq; rw [hr3] at hq; exact h.plain q (List.mem_filter.1 hq).1
      · intro ι e he
        rw [hr5] at he
        have hmd' : r.multiDimPlates = t.multiDimPlates := by rw [STen.multiDimPlates, hr3, hmd]
        rw [hn1, Finset.sum_range_one, STen.sample, hr2, hr5, hmd', bidx_of_inB he]
        simp only [List.map_cons, List.map_nil, List.prod_cons, List.prod_nil, mul_one]
        have hlen : (t.multiDimPlates.map (fun p => ι p.name) ++ e).length = t.ten.ndim := by
          rw [Ten.ndim, h.wf.shape]
          simp [InB.length_eq he]
        have hnd : (w.map dt).ndim = 0 := by simp [Ten.ndim, hwm]
        rw [hlen, Nat.sub_self, List.drop_zero, hnd, mul_comm]
        congr 1
        · rw [Plate.weightAt, hw]
          simp [Ten.map, hs, Ten.bidx]
        · rw [STen.sample, map_update_of_notMem hnm', h.wf.shape, bidx_append (by simp)]
          congr 2
          have hmul : ∀ p ∈ t.multiDimPlates, 1 < p.n := fun p hp => by
            simpa using (List.mem_filter.1 hp).2
          have := bidx_pdims t.multiDimPlates (fun _ => true) ι hmul
          simpa [pdims] using this
  · have hn : 1 < p.n := by omega
    have hpm : p ∈ t.multiDimPlates := List.mem_filter.2 ⟨hp, by simpa using hn⟩
    obtain ⟨L1, L2, hL, hL1, hL2, hf⟩ := split_plate h.wf hpm
    have hidx : t.plateDimIndex p.name = .ok L1.length := by
      rw [STen.plateDimIndex, hL, indexBy_name hL1]
    have hsh : t.ten.shape = L1.map Plate.n ++ p.n :: (L2.map Plate.n ++ t.eventShape) := by
      rw [h.wf.shape, hL]; simp
    have hnd : t.ten.ndim = L1.length + 1 + (L2.length + t.eventShape.length) := by
      rw [Ten.ndim, hsh]; simp; omega
    cases hok with
    | scalar w hw hs =>
      have hwop : p.weightOp dt = .torch (w.map dt) := by rw [Plate.weightOp, hw]
      have hwm : (w.map dt).shape = [] := hs
      obtain ⟨s, s1, s2, s3, s4, s5⟩ := storchSum_spec hh h hpm
      obtain ⟨r, r1, r2, r3, r4, r5⟩ := mul_torch hh s2 (w.map dt) (by simp [hwm]) (by
        rw [hwm]
        simp only [Ten.padL, List.length_nil, Nat.sub_zero, List.append_nil]
        generalize s.ten.shape = s
        induction s with
        | nil => exact .nil
        | cons d s ih => exact .cons (Or.inl rfl) ih)
      refine ⟨r, ?_, r2, r3.trans s3, ⟨0, by simp [r4, s4]⟩, fun _ _ => r4.trans s4, ?_⟩
      · rw [Plate.reduce]
        simp only [hwop, if_neg hn1]
        rw [if_pos (by simp [Operand.ndim, Ten.ndim, hwm]), s1]
        exact r1
      · intro ι e he
        rw [r4] at he
        rw [r5 ι e he, s5, Finset.sum_mul]
        apply Finset.sum_congr rfl
        intro k _
        rw [mul_comm]
        congr 1
        rw [Plate.weightAt, hw]
        simp [Ten.map, hs, Ten.bidx]
    | vector w hw hs _ =>
      have hwop : p.weightOp dt = .torch (w.map dt) := by rw [Plate.weightOp, hw]
      set k := t.ten.ndim - L1.length - 1 with hk
      have hk' : k = L2.length + t.eventShape.length := by omega
      have hwm : ((w.map dt).noneRight k).shape = p.n :: List.replicate k 1 := by
        simp [Ten.noneRight, Ten.map, hs]
      obtain ⟨m, m1, m2, m3, m4, m5⟩ := mul_torch hh h ((w.map dt).noneRight k)
        (by rw [hwm]; change _ ≤ t.ten.ndim; rw [hnd]; simp; omega) (by
          have hll : t.ten.shape.length = t.ten.ndim := rfl
          rw [hwm, Ten.padL, hll, hnd, hsh]
          have e1 : L1.length + 1 + (L2.length + t.eventShape.length) -
            (p.n :: List.replicate k 1).length = L1.length := by simp; omega
          rw [e1]
          have one : ∀ s : List Nat, List.Forall₂ (fun d' d => d' = 1 ∨ d' = d)
              (List.replicate s.length 1) s := by
            intro s
            induction s with
            | nil => exact .nil
            | cons d s ih => exact .cons (Or.inl rfl) ih
          have h1 := one (L1.map Plate.n)
          have h2 := one (L2.map Plate.n ++ t.eventShape)
          simp only [List.length_map, List.length_append] at h1 h2
          rw [← hk'] at h2
          exact List.rel_append h1 (.cons (Or.inr rfl) h2))
      have hpm' : p ∈ m.multiDimPlates := by
        rw [STen.multiDimPlates, m3]; exact hpm
      obtain ⟨r, r1, r2, r3, r4, r5⟩ := storchSum_spec hh m2 hpm'
      refine ⟨r, ?_, r2, by rw [r3, m3], ⟨0, by simp [r4, m4]⟩, fun _ _ => r4.trans m4, ?_⟩
      · rw [Plate.reduce]
        simp only [hwop, if_neg hn1]
        rw [if_neg (by simp [Operand.ndim, Ten.ndim, Ten.map, hs]),
          if_pos (by simp [Operand.ndim, Ten.ndim, Ten.map, hs]), hidx]
        simp only [noneRightOp, ← hk, m1]
        exact r1
      · intro ι e he
        rw [r4, m4] at he
        rw [r5]
        apply Finset.sum_congr rfl
        intro j _
        rw [m5 _ e he, mul_comm]
        congr 1
        rw [Plate.weightAt, hw]
        simp only [hs, List.cons_ne_nil, if_false]
        simp only [Ten.noneRight, Ten.map, Ten.ndim, hs, List.length_cons, List.length_nil]
        congr 1
        have hlen2 : (t.multiDimPlates.map (fun q => Function.update ι p.name j q.name) ++ e).length -
            ([p.n] ++ List.replicate k 1).length = L1.length := by
          rw [hL]
          have := InB.length_eq he
          simp; omega
        rw [hlen2, hL]
        simp only [List.map_append, List.map_cons, List.append_assoc, List.cons_append]
        rw [List.drop_left' (by simp)]
        have : p.n ≠ 1 := hn1
        simp [Ten.bidx, this]
    | storch w names hw _ hnd' hpn hsub hs =>
      have hwop : p.weightOp dt = .st (p.weightSt dt w names) false := by
        rw [Plate.weightOp, hw]; rfl
      obtain ⟨hW, hWev, hWin⟩ := weightSt_proper dt (w := w) h hp (hpar w names hw) hnd' hsub hs
      have hWs : ∀ ι e, (p.weightSt dt w names).sample ι e = p.weightAt dt ι := by
        intro ι e
        rw [STen.sample, hWev, Plate.weightAt, hw]
        simp [Ten.bidx, Plate.weightSt, Ten.map, STen.multiDimPlates]
      have hmem : p ∈ (p.weightPlates names).filter (fun q => decide (1 < q.n)) :=
        List.mem_filter.2 ⟨self_mem_weightPlates hpn, by simpa using hn⟩
      have hlenpos : 0 < (Operand.st (p.weightSt dt w names) false).ndim := by
        simp only [Operand.ndim, Ten.ndim, Plate.weightSt, Ten.map, hs, List.length_map]
        exact List.length_pos_of_mem hmem
      by_cases hd1 : (Operand.st (p.weightSt dt w names) false).ndim = 1
      · set k := t.ten.ndim - L1.length - 1 with hk
        have hk' : k = L2.length + t.eventShape.length := by omega
        obtain ⟨v, v1, v2, v3, v4, v5⟩ := noneRightOp_st hh hW hWev k
        obtain ⟨m, m1, m2, m3, m4, m5⟩ := mul_storch hh h v2 (by rw [v3]; exact hWin) k v4
        have hpm' : p ∈ m.multiDimPlates := by
          rw [STen.multiDimPlates, m3]; exact hpm
        obtain ⟨r, r1, r2, r3, r4, r5⟩ := storchSum_spec hh m2 hpm'
        refine ⟨r, ?_, r2, by rw [r3, m3], ⟨_, by rw [r4, m4]⟩, ?_, ?_⟩
        · rw [Plate.reduce]
          simp only [hwop, if_neg hn1]
          rw [if_neg (by omega), if_pos hd1, hidx]
          simp only [← hk, v1, m1]
          exact r1
        · intro w' hw'; rw [hw] at hw'; cases hw'
        · intro ι e he
          rw [r4] at he
          rw [r5]
          apply Finset.sum_congr rfl
          intro j _
          rw [m5 _ e he, mul_comm, v5, hWs]
      · obtain ⟨m, m1, m2, m3, m4, m5⟩ := mul_storch hh h hW hWin 0 hWev
        have hpm' : p ∈ m.multiDimPlates := by
          rw [STen.multiDimPlates, m3]; exact hpm
        obtain ⟨r, r1, r2, r3, r4, r5⟩ := storchSum_spec hh m2 hpm'
        refine ⟨r, ?_, r2, by rw [r3, m3], ⟨_, by rw [r4, m4]⟩, ?_, ?_⟩
        · rw [Plate.reduce]
          simp only [hwop, if_neg hn1]
          rw [if_neg (by omega), if_neg hd1, if_pos (by rw [List.all_eq_true]; exact hpar w names hw), m1]
          exact r1
        · intro w' hw'; rw [hw] at hw'; cases hw'
        · intro ι e he
          rw [r4] at he
          rw [r5]
          apply Finset.sum_congr rfl
          intro j _
          rw [m5 _ e he, mul_comm, hWs]

end Storch
