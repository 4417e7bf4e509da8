import Verif.Model.Ancestral
import Verif.Lemmas.BroadcastLemmas

/-!
# What `on_unwrap_tensor` computes

For tensors whose only plate is the ancestral plate, with at least one event dimension.
-/

namespace Storch

variable {α : Type _} [ValEq α]

/-- The plates of a decoder: step `i` has `n i` samples, at least two. -/
structure Steps (C : Chain α) (name : String) (n : Nat → Nat) : Prop where
  nameEq : ∀ i, (C.plate name i).name = name
  kindEq : ∀ i, (C.plate name i).kind = .anc i
  sizeEq : ∀ i, (C.plate name i).n = n i
  multi : ∀ i, 1 < n i

/-- A decoder's plates of one name, as `SequenceDecoding.sample` makes them: step `i` has `n i` samples, and
`s i r` is the sample of step `i - 1` that sample `r` extends.  The selected samples are a vector to whose plates the new plate
was added after construction, so that its dimension still counts as an event dimension (seq.py:230-233). -/
structure GoodChain (C : Chain α) (asLong : α → Nat) (name : String) (n : Nat → Nat) (s : Nat → Nat → Nat) : Prop
    extends Steps C name n where
  grows : ∀ i, n i ≤ n (i + 1)
  selected : ∀ i, ∃ T : Ten α, C.sel name (i + 1) = some ⟨T, [C.plate name (i + 1)], 0⟩ ∧ T.shape = [n (i + 1)] ∧
    ∀ r < n (i + 1), asLong (T.get [r]) = s (i + 1) r
  inRange : ∀ i, ∀ r < n (i + 1), s (i + 1) r < n i

theorem pyEq_refl (p : Plate α) : p.pyEq p = true := by
  have hb : p.baseEq p = true := by
    unfold Plate.baseEq
    simp only [bne_self_eq_false, Bool.false_eq_true, if_false]
    cases p.weight with
    | torch t => rfl
    | storch t ps =>
      simp [Ten.eqAll, ValEq.refl]
  unfold Plate.pyEq
  cases hk : p.kind with
  | plain => simp [Plate.eqMethod, hk, hb]
  | anc i => simp [Plate.eqMethod, hk, hb]

theorem bidx_inB : ∀ {shape idx : List Nat}, Ten.InB idx shape → Ten.bidx shape idx = idx
  | [], [], _ => rfl
  | d :: s, i :: idx, h => by
    cases h with
    | cons h1 h2 =>
      have := bidx_inB h2
      simp only [Ten.bidx] at this ⊢
      simp only [List.zipWith_cons_cons, this]
      split
      · congr 1; omega
      · rfl

omit [ValEq α] in
theorem expand_same (t : Ten α) : ∃ T, t.expand t.shape = .ok T ∧ T.Eqv t := by
  refine ⟨⟨t.shape, fun idx => t.get (Ten.bidx t.shape idx)⟩, ?_, rfl, ?_⟩
  · unfold Ten.expand
    rw [if_pos]
    refine ⟨rfl, ?_⟩
    generalize t.shape = l
    induction l with
    | nil => rfl
    | cons a l ih => simp [Ten.dimExpands]
  · intro idx h
    show t.get _ = _
    rw [bidx_inB h]

theorem swapLoopBy_pyEq (ps : List (Plate α)) (t : Ten α) (links : List (Plate α)) (amt : Nat) :
    swapLoopBy Plate.pyEq ps t links amt = swapLoop ps t links amt := by
  induction ps generalizing t links amt with
  | nil => rfl
  | cons p ps ih => simp only [swapLoopBy, swapLoop, ih]; rfl

theorem unsqLoopBy_pyEq (aP ps : List (Plate α)) (i : Nat) (t : Ten α) (dims : List Nat) :
    unsqLoopBy Plate.pyEq aP ps i t dims = unsqLoop aP ps i t dims := by
  induction ps generalizing i t dims with
  | nil => rfl
  | cons p ps ih => simp only [unsqLoopBy, unsqLoop, ih]; rfl

/-- With the usual equality of plates, this is the unwrapping of every wrapped function (C05, C06). -/
theorem unwrapBy_pyEq (hook : UnwrapHook α) (mdp : List (Plate α)) (ed : Nat) (a : STen α) :
    unwrapBy Plate.pyEq hook mdp ed a = unwrapSt hook { expandPlates := true } mdp ed a := by
  simp only [unwrapBy, unwrapSt, alignTen, swapLoopBy_pyEq, unsqLoopBy_pyEq, Bool.not_true, Bool.false_eq_true, if_false,
    Bool.true_and, Bool.or_false, if_true, decide_eq_true_eq]
  cases hookLoop hook mdp a with
  | error e => rfl
  | ok a' =>
    simp only
    cases swapLoop mdp (if a'.eventDims < ed then a'.ten.noneRight (ed - a'.eventDims) else a'.ten) a'.multiDimPlates 0 with
    | error e => rfl
    | ok r =>
      simp only
      cases unsqLoop a'.plates mdp 0 r.1 [] with
      | error e => rfl
      | ok q =>
        simp only
        cases q.1.expand (q.2 ++ q.1.shape.drop q.2.length) <;> rfl

omit [ValEq α] in
/-- Unwrapping a tensor with a single plate dimension that the collected plate recognises. -/
theorem unwrapBy_single (eq : Plate α → Plate α → Bool) (hook : UnwrapHook α) (p : Plate α) (ed : Nat)
    (a a' : STen α) (q : Plate α) (d : Nat) (s : List Nat)
    (hh : hook p a = .ok a') (hq : a'.plates = [q]) (hn : 1 < q.n) (he : eq p q = true) (he' : eq q p = true)
    (hs : a'.ten.shape = d :: s) :
    ∃ T, unwrapBy eq hook [p] ed a = .ok T ∧
      T.shape = d :: s ++ List.replicate (ed - a'.eventDims) 1 ∧
      ∀ idx, Ten.InB idx T.shape → T.get idx = a'.ten.get (idx.take (s.length + 1)) := by
  set t0 := if a'.eventDims < ed then a'.ten.noneRight (ed - a'.eventDims) else a'.ten with ht0
  have hshape : t0.shape = d :: s ++ List.replicate (ed - a'.eventDims) 1 := by
    rw [ht0]
    split
    · rw [Ten.noneRight, hs]
    · next h => rw [show ed - a'.eventDims = 0 by omega, hs]; simp
  have hget : ∀ idx, Ten.InB idx t0.shape → t0.get idx = a'.ten.get (idx.take (s.length + 1)) := by
    intro idx hi
    have hl := hi.length_eq
    rw [ht0]
    split
    · simp [Ten.noneRight, Ten.ndim, hs]
    · next h =>
      rw [hshape, show ed - a'.eventDims = 0 by omega] at hl
      rw [List.take_of_length_le]
      simp at hl; omega
  have hmd : a'.multiDimPlates = [q] := by simp [STen.multiDimPlates, hq, hn]
  obtain ⟨T, hT, hTe⟩ := expand_same t0
  refine ⟨T, ?_, hTe.1.trans hshape, ?_⟩
  · unfold unwrapBy
    simp only [hookLoop, hh, ← ht0, hmd]
    simp only [swapLoopBy, memBy, List.any_cons, List.any_nil, he', Bool.or_false, if_true,
      List.getElem?_cons_zero, he, unsqLoopBy, hq, hshape, List.cons_append]
    simp only [List.nil_append, List.length_singleton, List.drop_succ_cons, List.drop_zero, List.singleton_append]
    rw [show (d :: (s ++ List.replicate (ed - a'.eventDims) 1)) = t0.shape from hshape.symm]
    exact hT
  · intro idx hi
    rw [hTe.2 idx hi]
    exact hget idx (hTe.1 ▸ hi)

section chain
variable {C : Chain α} {asLong : α → Nat} {name : String} {n : Nat → Nat} {s : Nat → Nat → Nat}

omit [ValEq α] in
theorem Steps.isSelf_iff (h : Steps C name n) (i j : Nat) :
    isSelf (C.plate name i) (C.plate name j) = decide (j = i) := by
  simp only [isSelf, h.nameEq, h.kindEq, beq_self_eq_true, Bool.true_and]
  by_cases hij : j = i
  · simp [hij]
  · simp [hij]

theorem Steps.pyEq_ne (h : Steps C name n) {i j : Nat} (hij : i ≠ j) :
    (C.plate name i).pyEq (C.plate name j) = false := by
  unfold Plate.pyEq Plate.eqMethod
  simp [h.kindEq, hij]

theorem Steps.eqOverride_true (h : Steps C name n) (i j : Nat) :
    eqOverride (C.plate name i) (C.plate name i) (C.plate name j) = true ∧
    eqOverride (C.plate name i) (C.plate name j) (C.plate name i) = true := by
  unfold eqOverride
  simp only [h.kindEq, h.nameEq, h.isSelf_iff]
  simp

/-- Plates collected from one tensor of step `i` and one of step `j`. -/
theorem Steps.collected (h : Steps C name n) (i j : Nat) :
    addPlates (addPlates [] [C.plate name i]) [C.plate name j] =
      if i = j then [C.plate name i] else [C.plate name i, C.plate name j] := by
  simp only [addPlates, Plate.isIn, memBy, List.any_nil, Bool.false_eq_true, if_false, List.nil_append,
    List.any_cons, Bool.or_false]
  by_cases hij : i = j
  · subst hij; simp [pyEq_refl]
  · simp [h.pyEq_ne hij, hij]

theorem Steps.collecting (h : Steps C name n) (i j : Nat) :
    (C.plate name i).onCollecting [C.plate name i] = .ok true ∧
    (C.plate name i).onCollecting [C.plate name i, C.plate name j] = .ok (decide (j ≤ i)) ∧
    (C.plate name i).onCollecting [C.plate name j, C.plate name i] = .ok (decide (j ≤ i)) := by
  by_cases hij : j = i
  · subst hij
    simp [Plate.onCollecting, pyEq_refl]
  · have := h.pyEq_ne hij
    simp only [Plate.onCollecting, pyEq_refl, this, h.nameEq, beq_self_eq_true, Bool.not_true, Bool.and_false,
      Bool.false_eq_true, if_false, Bool.not_false, Bool.and_self, if_true, Plate.onDuplicate, h.kindEq]
    by_cases hlt : j < i
    · simp [hlt, hlt.le]
    · have : ¬ j ≤ i := by omega
      simp [hlt, this]

/-- The plates that remain for a call inside `on_unwrap_tensor` of step `i` on tensors of steps `a ≤ b`. -/
theorem Steps.filtered (h : Steps C name n) (i : Nat) {a b : Nat} (hi : b ≤ i) (x y : Nat)
    (hxy : x = a ∧ y = b ∨ x = b ∧ y = a) (hab : a ≤ b) :
    let all := addPlates (addPlates [] [C.plate name x]) [C.plate name y]
    filterRec (C.plate name i) all all = .ok [C.plate name b] ∧
    all.any (isSelf (C.plate name i)) = decide (b = i) := by
  intro all
  have hall : all = if x = y then [C.plate name x] else [C.plate name x, C.plate name y] := h.collected x y
  by_cases heq : a = b
  · subst heq
    have hx : x = a := by tauto
    have hy : y = a := by tauto
    rw [hx, hy, if_pos rfl] at hall
    rw [hall]
    simp only [filterRec, onCollectingRec, List.any_cons, List.any_nil, h.isSelf_iff, (h.collecting a a).1]
    by_cases hb : a = i <;> simp [hb]
  · have hlt : a < b := lt_of_le_of_ne hab heq
    have hai : ¬ a = i := by omega
    have hne : ¬ b ≤ a := by omega
    rcases hxy with ⟨rfl, rfl⟩ | ⟨rfl, rfl⟩
    · rw [if_neg heq] at hall
      rw [hall]
      simp only [filterRec, onCollectingRec, List.any_cons, List.any_nil, h.isSelf_iff, h.kindEq,
        (h.collecting x y).2.1, (h.collecting y x).2.2]
      by_cases hb : y = i <;> simp [hb, hai, hne, hab]
    · rw [if_neg (Ne.symm heq)] at hall
      rw [hall]
      simp only [filterRec, onCollectingRec, List.any_cons, List.any_nil, h.isSelf_iff, h.kindEq,
        (h.collecting x y).2.1, (h.collecting y x).2.2]
      by_cases hb : x = i <;> simp [hb, hai, hne, hab]

/-- A wrapped call inside `on_unwrap_tensor` of step `i` on tensors of steps `x` and `y`, of which `b ≤ i` is the
later one. -/
theorem Steps.recCall_spec (h : Steps C name n) (i : Nat) {a b x y : Nat} (hi : b ≤ i)
    (hxy : x = a ∧ y = b ∨ x = b ∧ y = a) (hab : a ≤ b) (hook : UnwrapHook α)
    (fn : Nat → Ten α → Ten α → Except Err (Ten α)) (A B A' B' : STen α)
    (hA : A.plates = [C.plate name x]) (hB : B.plates = [C.plate name y])
    (hhA : hook (C.plate name b) A = .ok A') (hhB : hook (C.plate name b) B = .ok B')
    (x' y' : Nat) (hA' : A'.plates = [C.plate name x']) (hB' : B'.plates = [C.plate name y'])
    (hlow : b < i → x' = b ∧ y' = b)
    (dA dB : Nat) (sA sB : List Nat) (hsA : A'.ten.shape = dA :: sA) (hsB : B'.ten.shape = dB :: sB) :
    ∃ TA TB,
      recCall (C.plate name i) hook name fn A B =
        (match fn 0 TA TB with
          | .error e => .error e
          | .ok r => STen.mk' r [C.plate name b]) ∧
      (TA.shape = dA :: sA ++ List.replicate (max A.eventDims B.eventDims - A'.eventDims) 1 ∧
        ∀ idx, Ten.InB idx TA.shape → TA.get idx = A'.ten.get (idx.take (sA.length + 1))) ∧
      (TB.shape = dB :: sB ++ List.replicate (max A.eventDims B.eventDims - B'.eventDims) 1 ∧
        ∀ idx, Ten.InB idx TB.shape → TB.get idx = B'.ten.get (idx.take (sB.length + 1))) := by
  obtain ⟨hf, hany⟩ := h.filtered i hi x y hxy hab
  set eq : Plate α → Plate α → Bool :=
    if decide (b = i) then eqOverride (C.plate name i) else Plate.pyEq with heq
  have he : ∀ z, (b < i → z = b) → eq (C.plate name b) (C.plate name z) = true ∧
      eq (C.plate name z) (C.plate name b) = true := by
    intro z hz
    rw [heq]
    by_cases hb : b = i
    · subst hb
      simpa using h.eqOverride_true b z
    · have : z = b := hz (by omega)
      subst this
      simp [hb, pyEq_refl]
  have hn : ∀ z, 1 < (C.plate name z).n := fun z => by rw [h.sizeEq]; exact h.multi z
  obtain ⟨TA, hTA, hTA2, hTA3⟩ := unwrapBy_single eq hook (C.plate name b) (max A.eventDims B.eventDims) A A'
    (C.plate name x') dA sA hhA hA' (hn _) (he x' (fun hb => (hlow hb).1)).1 (he x' (fun hb => (hlow hb).1)).2 hsA
  obtain ⟨TB, hTB, hTB2, hTB3⟩ := unwrapBy_single eq hook (C.plate name b) (max A.eventDims B.eventDims) B B'
    (C.plate name y') dB sB hhB hB' (hn _) (he y' (fun hb => (hlow hb).2)).1 (he y' (fun hb => (hlow hb).2)).2 hsB
  refine ⟨TA, TB, ?_, ⟨hTA2, hTA3⟩, ⟨hTB2, hTB3⟩⟩
  unfold recCall
  simp only [hA, hB, hf, hany, ← heq]
  have hmd : [C.plate name b].filter (fun p => decide (1 < p.n)) = [C.plate name b] := by simp [hn]
  simp only [hmd, List.map_cons, List.map_nil, h.nameEq, indexBy, beq_self_eq_true, if_true, hTA, hTB]
  cases fn 0 TA TB <;> rfl

/-- A tensor of step `j`: its only plate is that of the step, its event shape is `ev`, and `f` gives its
elements. -/
def At (C : Chain α) (name : String) (n : Nat → Nat) (ev : List Nat) (j : Nat) (f : Nat → List Nat → α)
    (t : STen α) : Prop :=
  t.plates = [C.plate name j] ∧ t.plateDims = 1 ∧ t.ten.shape = n j :: ev ∧
    ∀ r e, r < n j → Ten.InB e ev → t.ten.get (r :: e) = f r e

omit [ValEq α] in
theorem At.eventDims {ev : List Nat} {j : Nat} {f : Nat → List Nat → α} {t : STen α} (h : At C name n ev j f t) :
    t.eventDims = ev.length := by
  simp [STen.eventDims, STen.eventShape, h.2.1, h.2.2.1]

omit [ValEq α] in
theorem mk_single (h : Steps C name n) (T : Ten α) (m : Nat) (ev : List Nat)
    (hT : T.shape = n m :: ev) : STen.mk' T [C.plate name m] = .ok ⟨T, [C.plate name m], 1⟩ := by
  have := h.multi m
  have h1 : n m ≠ 1 := by omega
  simp [STen.mk', STen.checkPlates, h.sizeEq, h1, hT]

omit [ValEq α] in
theorem expandWithIgnore_vec (A B : Ten α) (d d' : Nat) (ev : List Nat) (hev : ev ≠ [])
    (hA : A.shape = d :: List.replicate (ev.length - 1) 1) (hB : B.shape = d' :: ev) :
    ∃ T, expandWithIgnore 0 A B = .ok T ∧ T.shape = d :: ev ∧
      ∀ r e, r < d → Ten.InB e ev → T.get (r :: e) = A.get (r :: List.replicate (ev.length - 1) 0) := by
  have hlen : 1 ≤ ev.length := List.length_pos_iff.mpr hev
  have hnr : (A.noneRight (B.ndim - A.ndim)).shape = d :: List.replicate ev.length 1 := by
    simp only [Ten.noneRight, Ten.ndim, hA, hB, List.length_cons, List.length_replicate, List.cons_append]
    rw [← List.replicate_add]
    congr 2
    omega
  refine ⟨⟨d :: ev, fun idx => (A.noneRight (B.ndim - A.ndim)).get (Ten.bidx (d :: List.replicate ev.length 1) idx)⟩,
    ?_, rfl, ?_⟩
  · unfold expandWithIgnore
    simp only [hnr, hB, List.getElem?_cons_zero, List.take_zero, List.nil_append, List.drop_succ_cons, List.drop_zero,
      List.singleton_append]
    unfold Ten.expand
    rw [hnr, if_pos]
    refine ⟨by simp, ?_⟩
    clear hA hB hnr hev hlen
    simp only [List.zipWith_cons_cons, Ten.dimExpands, beq_self_eq_true, Bool.true_or, List.all_cons, id, Bool.true_and]
    induction ev with
    | nil => rfl
    | cons a l ih =>
      rw [List.length_cons, List.replicate_succ, List.zipWith_cons_cons, List.all_cons, ih]
      simp [Ten.dimExpands]
  · intro r e hr he
    have hb : Ten.bidx (d :: List.replicate ev.length 1) (r :: e) = r :: List.replicate ev.length 0 := by
      have : Ten.bidx (List.replicate ev.length 1) e = List.replicate ev.length 0 := by
        clear hA hB hnr hev hlen
        induction he with
        | nil => rfl
        | cons _ _ ih =>
          simp only [Ten.bidx, List.length_cons, List.replicate_succ, List.zipWith_cons_cons, if_true] at ih ⊢
          rw [ih]
      simp only [Ten.bidx, List.zipWith_cons_cons] at this ⊢
      rw [this]
      split
      · congr 1; omega
      · rfl
    show A.get _ = _
    rw [hb, Ten.ndim, hA]
    congr 1
    simp only [List.length_cons, List.length_replicate, List.take_succ_cons, List.take_replicate]
    congr 2
    omega

/-- One step of the gathering loop: `A'` and `t'` are what the plate of step `m` unwraps the tensor to. -/
theorem GoodChain.unwrapStep_spec (h : GoodChain C asLong name n s) (i j : Nat) (hi : j + 1 ≤ i)
    (hook : UnwrapHook α) (ev : List Nat) (hev : ev ≠ []) (t t' : STen α) (f g : Nat → List Nat → α) (z : Nat)
    (hsame : ∀ u : STen α, u.plates = [C.plate name (j + 1)] → hook (C.plate name (j + 1)) u = .ok u)
    (ht : At C name n ev j f t) (hht : hook (C.plate name (j + 1)) t = .ok t') (ht' : At C name n ev z g t')
    (hz : z = j ∨ z = j + 1) (hlow : j + 1 < i → z = j + 1) :
    ∃ u, unwrapStep C asLong hook (C.plate name i) t (j + 1) = .ok u ∧
      At C name n ev (j + 1) (fun r e => g (s (j + 1) r) e) u := by
  obtain ⟨S, hS, hSs, hSg⟩ := h.selected j
  have hlen : 1 ≤ ev.length := List.length_pos_iff.mpr hev
  have hnz : n j ≤ n z := by rcases hz with rfl | rfl; exacts [le_rfl, h.grows j]
  set sel : STen α := ⟨S, [C.plate name (j + 1)], 0⟩ with hsel
  have hsed : sel.eventDims = 1 := by simp [STen.eventDims, STen.eventShape, hsel, hSs]
  have hmax : max sel.eventDims t.eventDims = ev.length := by rw [hsed, ht.eventDims]; omega
  -- the selected samples expanded to the event shape
  obtain ⟨TA, TB, hr, ⟨hA1, hA2⟩, hB1, _⟩ := h.recCall_spec i (a := j) (b := j + 1) (x := j + 1) (y := j) hi
    (Or.inr ⟨rfl, rfl⟩) (by omega) hook (fun dim a b => expandWithIgnore dim a b) sel t sel t' rfl ht.1
    (hsame sel rfl) hht (j + 1) z rfl ht'.1 (fun hb => ⟨rfl, hlow hb⟩) (n (j + 1)) (n z) [] ev hSs ht'.2.2.1
  rw [hmax, hsed] at hA1
  rw [hmax, ht'.eventDims, Nat.sub_self, List.replicate_zero, List.append_nil] at hB1
  obtain ⟨E, hE, hEs, hEg⟩ := expandWithIgnore_vec TA TB _ _ ev hev hA1 hB1
  simp only [hE, mk_single h.toSteps E (j + 1) ev hEs] at hr
  have hEat : At C name n ev (j + 1) (fun r _ => S.get [r]) ⟨E, [C.plate name (j + 1)], 1⟩ := by
    refine ⟨rfl, rfl, hEs, fun r e hr he => ?_⟩
    show E.get _ = _
    rw [hEg r e hr he, hA2]
    · rfl
    · rw [hA1]
      refine List.Forall₂.cons hr ?_
      show List.Forall₂ _ _ (List.replicate (ev.length - 1) 1)
      generalize ev.length - 1 = k
      induction k with
      | zero => exact List.Forall₂.nil
      | succ k ih => exact List.Forall₂.cons Nat.zero_lt_one ih
  -- the gathered tensor
  obtain ⟨GA, GB, hr2, ⟨hGA1, hGA2⟩, hGB1, hGB2⟩ := h.recCall_spec i (a := j) (b := j + 1) (x := j) (y := j + 1) hi
    (Or.inl ⟨rfl, rfl⟩) (by omega) hook (fun dim a b => a.gather asLong dim b) t
    ⟨E, [C.plate name (j + 1)], 1⟩ t' ⟨E, [C.plate name (j + 1)], 1⟩ ht.1 rfl hht
    (hsame _ rfl) z (j + 1) ht'.1 rfl (fun hb => ⟨hlow hb, rfl⟩) (n z) (n (j + 1)) ev ev ht'.2.2.1 hEs
  rw [ht.eventDims, hEat.eventDims, max_self, ht'.eventDims, Nat.sub_self, List.replicate_zero,
    List.append_nil] at hGA1
  rw [ht.eventDims, hEat.eventDims, max_self, Nat.sub_self, List.replicate_zero, List.append_nil] at hGB1
  have htake : ∀ (r : Nat) (e : List Nat), Ten.InB e ev → (r :: e).take (ev.length + 1) = r :: e := by
    intro r e he
    rw [List.take_of_length_le]
    simp [he.length_eq]
  have hidx : ∀ r e, r < n (j + 1) → Ten.InB e ev → asLong (GB.get (r :: e)) = s (j + 1) r := by
    intro r e hr he
    rw [hGB2 (r :: e) (by rw [hGB1]; exact List.Forall₂.cons hr he), htake r e he, hEat.2.2.2 r e hr he]
    exact hSg r hr
  have hgather : GA.gather asLong 0 GB =
      .ok ⟨GB.shape, fun idx => GA.get (idx.set 0 (asLong (GB.get idx)))⟩ := by
    unfold Ten.gather
    rw [hGA1]
    simp only [List.getElem?_cons_zero]
    rw [if_pos]
    refine ⟨by rw [hGB1]; simp, ?_, ?_⟩
    · rw [hGB1]
      simp only [List.eraseIdx_cons_zero]
      generalize ev = l
      induction l with
      | nil => rfl
      | cons a l ih => rw [List.zip_cons_cons, List.all_cons, ih]; simp
    · rw [hGB1, List.all_eq_true]
      intro idx hm
      have hin : Ten.InB idx (n (j + 1) :: ev) := mem_allIdx.mp hm
      cases hin with
      | cons h1 h2 =>
        rw [hidx _ _ h1 h2]
        exact decide_eq_true (lt_of_lt_of_le (h.inRange j _ h1) hnz)
  rw [hgather] at hr2
  dsimp only at hr2
  rw [mk_single h.toSteps ⟨GB.shape, fun idx => GA.get (idx.set 0 (asLong (GB.get idx)))⟩ (j + 1) ev hGB1] at hr2
  refine ⟨⟨⟨GB.shape, fun idx => GA.get (idx.set 0 (asLong (GB.get idx)))⟩, [C.plate name (j + 1)], 1⟩, ?_, ?_⟩
  · unfold unwrapStep
    simp only [h.nameEq, hS]
    rw [hr]
    exact hr2
  · refine ⟨rfl, rfl, hGB1, fun r e hr he => ?_⟩
    show GA.get (List.set (r :: e) 0 _) = _
    rw [hidx r e hr he, List.set_cons_zero]
    have hlt : s (j + 1) r < n z := lt_of_lt_of_le (h.inRange j r hr) hnz
    rw [hGA2 _ (by rw [hGA1]; exact List.Forall₂.cons hlt he), htake _ e he]
    exact ht'.2.2.2 _ e hlt he

/-- The sample of step `j` that sample `r` of step `j + d` descends from. -/
def ancestor (s : Nat → Nat → Nat) (j : Nat) : Nat → Nat → Nat
  | 0, r => r
  | d + 1, r => ancestor s j d (s (j + d + 1) r)

/-- The index that the code reads: the parent indices of every step but the last are applied twice. -/
def readIndex (s : Nat → Nat → Nat) (j : Nat) : Nat → Nat → Nat
  | 0, r => r
  | d + 1, r => ancestor (fun m r => s m (s m r)) j d (s (j + d + 1) r)

theorem ancestor_succ (s : Nat → Nat → Nat) (j : Nat) : ∀ d r,
    ancestor s j (d + 1) r = s (j + 1) (ancestor s (j + 1) d r)
  | 0, r => rfl
  | d + 1, r => by
    rw [ancestor, ancestor_succ s j d, ancestor]
    congr 3
    omega

theorem readIndex_succ (s : Nat → Nat → Nat) (j d r : Nat) :
    readIndex s j (d + 2) r = s (j + 1) (s (j + 1) (readIndex s (j + 1) (d + 1) r)) := by
  rw [readIndex, ancestor_succ, readIndex]
  rw [show j + (d + 1) + 1 = j + 1 + d + 1 by omega]

omit [ValEq α] in
theorem ancestor_lt (h : GoodChain C asLong name n s) (j : Nat) : ∀ d r, r < n (j + d) → ancestor s j d r < n j
  | 0, _, hr => hr
  | d + 1, r, hr => ancestor_lt h j d _ (h.inRange (j + d) r hr)

omit [ValEq α] in
theorem At.congr {ev : List Nat} {j : Nat} {f g : Nat → List Nat → α} {t : STen α} (h : At C name n ev j f t)
    (hfg : ∀ r e, r < n j → Ten.InB e ev → f r e = g r e) : At C name n ev j g t :=
  ⟨h.1, h.2.1, h.2.2.1, fun r e hr he => (h.2.2.2 r e hr he).trans (hfg r e hr he)⟩

/-- What the hook of step `i` does to a tensor of an earlier step `j`. -/
theorem GoodChain.onUnwrap_spec (h : GoodChain C asLong name n s) (ev : List Nat) (hev : ev ≠ []) :
    ∀ (fuel d j : Nat), j + d < fuel → ∀ (t : STen α) (f : Nat → List Nat → α), At C name n ev j f t →
      ∃ u, onUnwrap C asLong fuel (C.plate name (j + d)) t = .ok u ∧
        At C name n ev (j + d) (fun r e => f (readIndex s j d r) e) u := by
  intro fuel
  induction fuel with
  | zero => intro d j hf; omega
  | succ fuel ih =>
    intro d j hf t f ht
    set hook : UnwrapHook α := fun q a => if isSelf (C.plate name (j + d)) q then .ok a
      else onUnwrap C asLong fuel q a with hhook
    -- the loop, from any intermediate step on
    have hloop : ∀ (c b : Nat), b + c = j + d → ∀ (u : STen α) (g : Nat → List Nat → α), At C name n ev b g u →
        ∃ v, unwrapLoop C asLong hook (C.plate name (j + d)) (List.range' (b + 1) c) u = .ok v ∧
          At C name n ev (b + c) (fun r e => g (readIndex s b c r) e) v := by
      intro c
      induction c with
      | zero => intro b _ u g hu; exact ⟨u, rfl, hu⟩
      | succ c ihc =>
        intro b hb u g hu
        have hsame : ∀ v : STen α, v.plates = [C.plate name (b + 1)] →
            hook (C.plate name (b + 1)) v = .ok v := by
          intro v hv
          simp only [hhook, h.isSelf_iff]
          by_cases hlast : b + 1 = j + d
          · simp [hlast]
          · simp only [hlast, decide_false, Bool.false_eq_true, if_false]
            obtain ⟨fuel', rfl⟩ : ∃ k, fuel = k + 1 := ⟨fuel - 1, by omega⟩
            simp [onUnwrap, h.kindEq, hv, h.nameEq]
        -- what the plate of the next step makes of the tensor by itself
        obtain ⟨u', z, g', hu', hat, hz, hlow, hg'⟩ : ∃ (u' : STen α) (z : Nat) (g' : Nat → List Nat → α),
            hook (C.plate name (b + 1)) u = .ok u' ∧ At C name n ev z g' u' ∧ (z = b ∨ z = b + 1) ∧
            (b + 1 < j + d → z = b + 1) ∧
            (g' = if b + 1 = j + d then g else fun r e => g (s (b + 1) r) e) := by
          by_cases hlast : b + 1 = j + d
          · refine ⟨u, b, g, ?_, hu, Or.inl rfl, fun hlt => absurd hlast (by omega), by rw [if_pos hlast]⟩
            simp [hhook, h.isSelf_iff, hlast]
          · obtain ⟨u', h1, h2⟩ := ih 1 b (by omega) u g hu
            refine ⟨u', b + 1, fun r e => g (readIndex s b 1 r) e, ?_, h2, Or.inr rfl, fun _ => rfl, ?_⟩
            · simp only [hhook, h.isSelf_iff, hlast, decide_false, Bool.false_eq_true, if_false]
              exact h1
            · rw [if_neg hlast]; rfl
        obtain ⟨v, hv, hvat⟩ := h.unwrapStep_spec (j + d) b (by omega) hook ev hev u u' g g' z hsame hu hu' hat hz hlow
        obtain ⟨w, hw, hwat⟩ := ihc (b + 1) (by omega) v _ hvat
        refine ⟨w, ?_, ?_⟩
        · rw [List.range'_succ, unwrapLoop, hv]
          exact hw
        · rw [show b + (c + 1) = b + 1 + c by omega]
          refine hwat.congr (fun r e hr he => ?_)
          rw [hg']
          cases c with
          | zero => rw [if_pos (by omega)]; rfl
          | succ c => rw [if_neg (by omega), readIndex_succ]
    rw [onUnwrap]
    simp only [h.kindEq]
    simp only [ht.1, List.findIdx?_cons, h.nameEq, beq_self_eq_true, if_true, List.getElem?_cons_zero, h.kindEq]
    cases d with
    | zero =>
      simp only [Nat.add_zero, if_true]
      exact ⟨t, rfl, ht⟩
    | succ d =>
      obtain ⟨S, hS, _⟩ := h.selected (j + d)
      rw [show j + d + 1 = j + (d + 1) by omega] at hS
      rw [if_neg (by omega), if_neg (by omega), hS]
      simp only [pyEq_refl, if_true]
      rw [show j + (d + 1) - j = d + 1 by omega]
      exact hloop (d + 1) j rfl t f ht

end chain

end Storch
