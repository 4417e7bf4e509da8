import Verif.Lemmas.ImportanceRun

/-!
# Proposals that have plates of their own (importance_sampling.py:13-24, 54-67)
-/

namespace Storch
open Ten
variable {α : Type _} [ValEq α]

theorem bzip_head {s t r : List Nat} (h : bzip (1 :: s) (1 :: t) = some r) : r.head? = some 1 := by
  simp only [bzip] at h
  split at h
  · rename_i d ds h1 h2
    simp [bdim] at h1
    obtain ⟨rfl⟩ := Option.some.inj h
    simp [← h1]
  · exact absurd h (by simp)

theorem outer_shapes {n k : Nat} {ev r : List Nat} (h : bshapes [n :: k :: ev, 1 :: k :: (ev ++ [1])] = some r) :
    r.head? = some 1 := by
  have e : bshapes [n :: k :: ev, 1 :: k :: (ev ++ [1])] = (bzip (1 :: List.replicate (ev.length + 2) 1) (1 :: n :: k :: ev)).bind
      (fun a => bzip a (1 :: k :: (ev ++ [1]))) := by
    have hm : ((List.map List.length [n :: k :: ev, 1 :: k :: (ev ++ [1])]).foldr max 0) = ev.length + 3 := by
      simp
    unfold bshapes
    simp only [hm]
    have h1 : padL (ev.length + 3) (n :: k :: ev) = 1 :: n :: k :: ev := by
      simp [padL, show ev.length + 3 - (ev.length + 1 + 1) = 1 by omega]
    have h2 : padL (ev.length + 3) (1 :: k :: (ev ++ [1])) = 1 :: k :: (ev ++ [1]) := by
      simp [padL]
    simp only [List.foldlM_cons, List.foldlM_nil, h1, h2, List.replicate_succ]
    cases bzip (1 :: 1 :: 1 :: List.replicate (ev.length) 1) (1 :: n :: k :: ev) <;> simp
  rw [e, Option.bind_eq_some_iff] at h
  obtain ⟨a, ha, hr⟩ := h
  have h1 := bzip_head ha
  cases a with
  | nil => simp at h1
  | cons d ds =>
    simp at h1; subst h1
    exact bzip_head hr

/-- How the wrapper passes on a tensor with one plate dimension too few and a tensor of one of its plates: the latter gets a
trailing dimension. -/
theorem prep_two {hook : UnwrapHook α} (hh : PlainHook hook) {p q : Plate α} (hp : p.kind = .plain) (hq : q.kind = .plain)
    (hpq : p.name ≠ q.name) (hpn : 1 < p.n) (hqn : 1 < q.n) (f g : List Nat → α) (b : Bool) (ev : List Nat) :
    ∃ x y P, prepareArgs hook {} (opArgs [.st ⟨⟨p.n :: q.n :: ev, f⟩, [p, q], 1⟩ false, .st ⟨⟨q.n :: ev, g⟩, [q], 1⟩ b]) =
        .ok ⟨⟨[.torch x, .torch y], []⟩, P, [p, q]⟩ ∧ P ≠ [] ∧ x.shape = p.n :: q.n :: ev ∧
      y.shape = 1 :: q.n :: (ev ++ [1]) := by
  have e1 : p.pyEq q = false := by
    rw [Bool.eq_false_iff]; exact fun h => hpq (Plate.pyEq_name h)
  have e2 : q.pyEq p = false := by
    rw [Bool.eq_false_iff]; exact fun h => hpq (Plate.pyEq_name h).symm
  have e3 := Plate.pyEq_refl p
  have e4 := Plate.pyEq_refl q
  have k1 := hookLoop_plain hh [p, q] ⟨⟨p.n :: q.n :: ev, f⟩, [p, q], 1⟩ (by simp [hp, hq])
  have k2 := hookLoop_plain hh [p, q] ⟨⟨q.n :: ev, g⟩, [q], 1⟩ (by simp [hp, hq])
  have i1 : p.isIn [p, q] = true := by simp [Plate.isIn, memBy, e3]
  have i2 : q.isIn [p, q] = true := by simp [Plate.isIn, memBy, e4]
  have i3 : p.isIn [q] = false := by simp [Plate.isIn, memBy, e2]
  have i4 : q.isIn [q] = true := by simp [Plate.isIn, memBy, e4]
  have i5 : q.isIn [p] = false := by simp [Plate.isIn, memBy, e1]
  have c1 : addPlates [] [p, q] = [p, q] := by
    simp [addPlates, i5, show p.isIn [] = false from rfl]
  have c2 : addPlates [p, q] [q] = [p, q] := by simp [addPlates, i2]
  have o1 : p.onCollecting [p, q] = .ok true := by simp [Plate.onCollecting, e3, hpq.symm]
  have o2 : q.onCollecting [p, q] = .ok true := by simp [Plate.onCollecting, e4, hpq]
  have fp : filterPlates [p, q] [p, q] = .ok [p, q] := by simp [filterPlates, o1, o2]
  have md : [p, q].filter (fun r => decide (1 < r.n)) = [p, q] := by simp [hpn, hqn]
  have md1 : [q].filter (fun r => decide (1 < r.n)) = [q] := by simp [hqn]
  refine ⟨?x, ?y, ?P, ?h, ?_, ?_, ?_⟩
  case h =>
    simp only [prepareArgs, opArgs, List.map, Operand.val, collectArgs, collectList, Val.collect, c1, c2, fp, md, applyDim, applyDims,
      unwrapList, Val.unwrap, unwrapSt, k1, k2, alignTen, STen.multiDimPlates, STen.eventDims, STen.eventShape, md1]
    simp [swapLoop, i1, i2, i3, i4, e3, e4, unsqLoop, Ten.unsqueeze]
    rfl
  all_goals simp [Ten.noneRight]

/-- An element-wise function of a sample to which the plate of the proposal was added late and of the parameter of the
proposal fails. -/
theorem outer_fails {hook : UnwrapHook α} (hh : PlainHook hook) {p q : Plate α} (hp : p.kind = .plain) (hq : q.kind = .plain)
    (hpq : p.name ≠ q.name) (hpn : 1 < p.n) (hqn : 1 < q.n) (u : List α → α) (f g : List Nat → α) (b : Bool) (ev : List Nat) :
    ∃ e, opCall hook u [.st ⟨⟨p.n :: q.n :: ev, f⟩, [p, q], 1⟩ false, .st ⟨⟨q.n :: ev, g⟩, [q], 1⟩ b] = .error e := by
  obtain ⟨x, y, P, h, hP, hx, hy⟩ := prep_two hh hp hq hpq hpn hqn f g b ev
  have key : ∃ e, handleDet hook false false {} (elementwiseFn u)
      (opArgs [.st ⟨⟨p.n :: q.n :: ev, f⟩, [p, q], 1⟩ false, .st ⟨⟨q.n :: ev, g⟩, [q], 1⟩ b]) = .error e := by
    unfold handleDet
    rw [h]
    have hP' : P.isEmpty = false := by cases P <;> simp_all
    simp only [hP', elementwiseFn, Val.asTorch, List.mapM_cons, List.mapM_nil]
    rcases hb : bshapes [p.n :: q.n :: ev, 1 :: q.n :: (ev ++ [1])] with _ | r
    · exact ⟨.torch, by simp [Ten.elementwise, hx, hy, hb]⟩
    · have hr := outer_shapes hb
      cases r with
      | nil => simp at hr
      | cons d ds =>
        simp at hr; subst hr
        refine ⟨.value, ?_⟩
        simp [Ten.elementwise, hx, hy, hb, Val.wrapOut, STen.mk', STen.checkPlates, show p.n ≠ 1 by omega, show 1 ≠ p.n by omega]
  obtain ⟨e, he⟩ := key
  exact ⟨e, by simp [opCall, he]⟩

theorem insertPlates_sub (P : List (Plate α)) (hP : P ≠ []) (ps : List (Plate α)) :
    P.Sublist (insertPlates P ps) ∧ ∀ q ∈ ps, q.isIn (insertPlates P ps) = true := by
  induction ps generalizing P with
  | nil => simp [insertPlates]
  | cons p ps ih =>
    have mono : ∀ {A B : List (Plate α)} {r : Plate α}, A.Sublist B → r.isIn A = true → r.isIn B = true := by
      intro A B r hs h
      rw [Plate.isIn_iff] at h ⊢
      obtain ⟨s, hs', h'⟩ := h
      exact ⟨s, hs.subset hs', h'⟩
    by_cases h : p.isIn P = true
    · simp only [insertPlates, h, if_true]
      obtain ⟨h1, h2⟩ := ih P hP
      refine ⟨h1, ?_⟩
      intro q hq
      rcases List.mem_cons.1 hq with rfl | hq
      · exact mono h1 h
      · exact h2 q hq
    · simp only [insertPlates, h]
      have hlen : 1 ≤ P.length := List.length_pos_iff.2 hP
      obtain ⟨h1, h2⟩ := ih (P.insertIdx 1 p) (by intro h0; have := congrArg List.length h0; rw [List.length_insertIdx_of_le_length hlen] at this; simp at this)
      have hs : P.Sublist (P.insertIdx 1 p) := by
        cases P with
        | nil => exact absurd rfl hP
        | cons a as => simp
      refine ⟨hs.trans h1, ?_⟩
      intro q hq
      rcases List.mem_cons.1 hq with rfl | hq
      · refine mono h1 ?_
        rw [Plate.isIn_iff]
        exact ⟨q, by rw [List.mem_insertIdx hlen]; exact Or.inl rfl, Plate.pyEq_refl q⟩
      · exact h2 q hq

theorem addPropPlates_sub (P : List (Plate α)) (hP : P ≠ []) (ops : List (Operand α)) :
    P.Sublist (addPropPlates P ops) ∧ ∀ t b, .st t b ∈ ops → ∀ q ∈ t.plates, q.isIn (addPropPlates P ops) = true := by
  induction ops generalizing P with
  | nil => simp [addPropPlates]
  | cons o os ih =>
    have mono : ∀ {A B : List (Plate α)} {r : Plate α}, A.Sublist B → r.isIn A = true → r.isIn B = true := by
      intro A B r hs h
      rw [Plate.isIn_iff] at h ⊢
      obtain ⟨s, hs', h'⟩ := h
      exact ⟨s, hs.subset hs', h'⟩
    cases o with
    | torch t =>
      simp only [addPropPlates]
      obtain ⟨h1, h2⟩ := ih P hP
      exact ⟨h1, fun t b hm => h2 t b (by simpa using hm)⟩
    | st t b =>
      simp only [addPropPlates]
      obtain ⟨i1, i2⟩ := insertPlates_sub P hP t.plates
      obtain ⟨h1, h2⟩ := ih (insertPlates P t.plates) (by intro h0; rw [h0] at i1; exact hP (List.sublist_nil.1 i1))
      refine ⟨i1.trans h1, ?_⟩
      intro t' b' hm q hq
      rcases List.mem_cons.1 hm with h | h
      · cases h
        exact mono h1 (i2 q hq)
      · exact h2 t' b' h q hq

end Storch
