import Verif.Model.Gather
import Verif.Props.CallProps
import Verif.Props.BroadcastProps
import Verif.Lemmas.DimsLemmas
import Mathlib.Algebra.Field.Rat

/-!
# C92: `storch.gather` picks samples
-/

namespace Storch
variable {α : Type _} [ValEq α]

/-! ### Specification -/

/-- The sizes of the event dimensions of `b`, with ones for those that only `a` has. -/
def besideEvents (a b : STen α) : List Nat :=
  b.eventShape ++ List.replicate (a.eventShape.length - b.eventShape.length) 1

/-- What `gather` is applied to: proper tensors with ordinary, agreeing plates. -/
structure GatherArgs (a b : STen α) : Prop where
  wfA : a.WF
  wfB : b.WF
  plain : ∀ p ∈ a.plates ++ b.plates, p.kind = .plain
  agree : ∀ p ∈ a.plates ++ b.plates, ∀ q ∈ a.plates ++ b.plates, p.name = q.name → p.pyEq q = true

/-- A joint sample: a number for the name of every plate. -/
def Joint (a b : STen α) (ι : String → Nat) : Prop := ∀ p ∈ a.plates ++ b.plates, ι p.name < p.n

/-! ### Lemmas -/

theorem GatherArgs.good {a b : STen α} (h : GatherArgs a b) : GoodOps [.st a false, .st b false] := by
  have hm : ∀ t ∈ stens [Operand.st a false, .st b false], ∀ p ∈ t.plates, p ∈ a.plates ++ b.plates := by
    intro t ht p hp
    simp only [stens, List.mem_cons, List.not_mem_nil, or_false] at ht
    rcases ht with rfl | rfl
    · exact List.mem_append_left _ hp
    · exact List.mem_append_right _ hp
  refine ⟨?_, fun t ht p hp => h.plain p (hm t ht p hp),
    fun t ht t' ht' p hp q hq => h.agree p (hm t ht p hp) q (hm t' ht' q hq)⟩
  intro t ht
  simp only [stens, List.mem_cons, List.not_mem_nil, or_false] at ht
  rcases ht with rfl | rfl
  · exact h.wfA
  · exact h.wfB

theorem maxEv_two (a b : STen α) : maxEv [.st a false, .st b false] = max a.eventShape.length b.eventShape.length := by
  simp [maxEv, stens, STen.eventDims]

theorem pad_beside (a b : STen α) : b.eventShape ++ List.replicate (maxEv [.st a false, .st b false] - b.eventDims) 1 =
    besideEvents a b := by
  rw [maxEv_two, besideEvents, STen.eventDims]
  congr 2
  omega

theorem pad_beside' (a b : STen α) : a.eventShape ++ List.replicate (maxEv [.st a false, .st b false] - a.eventDims) 1 =
    besideEvents b a := by
  rw [maxEv_two, besideEvents, STen.eventDims]
  congr 2
  omega

theorem length_beside (a b : STen α) : (besideEvents a b).length = max a.eventShape.length b.eventShape.length := by
  rw [besideEvents, List.length_append, List.length_replicate]; omega

/-- The plates of the call. -/
theorem gather_collect (a b : STen α) :
    (collectArgs ⟨[.st a false], [("index", .st b false)]⟩).1 =
      (collectArgs (opArgs [Operand.st a false, .st b false])).1 ∧
    (collectArgs ⟨[.st a false], [("index", .st b false)]⟩).2 = maxEv [.st a false, .st b false] := by
  constructor
  · rfl
  · rw [maxEv_two]
    simp [collectArgs, collectList, Val.collect, STen.eventDims]

/-- What the call comes down to when the plate is found. -/
theorem gather_run {hook : UnwrapHook α} (hh : PlainHook hook) (toInt : α → Int) {a b : STen α} (h : GatherArgs a b)
    {dim : String} (hd : dim ≠ "") {k : Nat}
    (hk : indexBy (fun a b => a == b) dim ((callMdp [.st a false, .st b false]).map Plate.name) = some k) :
    ∃ ta tb, ExpandedOp (callMdp [.st a false, .st b false]) (maxEv [.st a false, .st b false]) (.st a false) ta ∧
      ExpandedOp (callMdp [.st a false, .st b false]) (maxEv [.st a false, .st b false]) (.st b false) tb ∧
      gatherCall hook toInt a dim b =
        match ta.gatherBy toInt k tb with
        | .error e => .error e
        | .ok r => (Val.torch r).wrapOut (callPlates [.st a false, .st b false]) false := by
  have hg := h.good
  obtain ⟨ts, h1, h2⟩ := unwrap_ops_expand hh (M := callMdp [.st a false, .st b false])
    (E := maxEv [.st a false, .st b false]) [.st a false, .st b false]
    (fun t ht => ⟨hg.wf t ht, hg.covers ht, eventDims_le_maxEv ht⟩) hg.plain_mdp
  cases h2 with
  | cons ha h2 =>
    cases h2 with
    | cons hb h2 =>
      cases h2
      rename_i ta tb
      refine ⟨ta, tb, ha, hb, ?_⟩
      have hf := hg.filter
      simp only [List.map, Operand.val, unwrapList, Val.unwrap] at h1
      split at h1
      · cases h1
      rename_i ra hra
      split at hra
      · cases hra
      rename_i ra' hra'
      cases hra
      split at h1
      · cases h1
      rename_i rb hrb
      split at hrb
      · cases hrb
      rename_i rd hrd
      cases hrb
      split at hrd
      · cases hrd
      rename_i rc' hrc'
      cases hrd
      simp only [Except.ok.injEq, List.cons.injEq, Val.torch.injEq, and_true] at h1
      obtain ⟨rfl, rfl⟩ := h1
      have ua : unwrapSt hook { dim := some dim, expandPlates := true } (callMdp [.st a false, .st b false])
          (maxEv [.st a false, .st b false]) a = .ok ra' := hra'
      have ub : unwrapSt hook { dim := some dim, expandPlates := true } (callMdp [.st a false, .st b false])
          (maxEv [.st a false, .st b false]) b = .ok rc' := hrc'
      have hc : (collectArgs ⟨[.st a false], [("index", .st b false)]⟩).1.plates =
          callPlates [.st a false, .st b false] := rfl
      have hdim : ∀ kw : List (String × Val α), applyDim (callMdp [.st a false, .st b false]) (some dim) kw =
          .ok (dset kw "dim" (.other k)) := by
        intro kw
        unfold applyDim
        split
        · rename_i h; cases h
        · rename_i h; injection h with h; exact absurd h hd
        · rename_i d _ h
          injection h with h
          subst h
          rw [hk]
      have hp : prepareArgs hook { dim := some dim, expandPlates := true } ⟨[.st a false], [("index", .st b false)]⟩ =
          .ok ⟨⟨[.torch ra'], [("index", .torch rc'), ("dim", .other k)]⟩, [a, b],
            callPlates [.st a false, .st b false]⟩ := by
        have hm : (callPlates [.st a false, .st b false]).filter (fun p => decide (1 < p.n)) =
          callMdp [.st a false, .st b false] := rfl
        rw [prepareArgs]
        simp only [hc, hf, (gather_collect a b).2, hm, hdim, applyDims, dset, List.map, unwrapList, Val.unwrap, ua, ub,
          if_true, if_neg (show ¬ "index" = "dim" by decide), List.zip, List.zipWith]
        rfl
      have hfr : (callPlates [.st a false, .st b false]).filter (fun q => !decide (q.name ∈ ([] : List String))) =
        callPlates [.st a false, .st b false] := List.filter_eq_self.2 (by simp)
      rw [gatherCall, handleDet]
      simp only [Bool.false_eq_true, if_false, hp, List.isEmpty_cons, gatherFn, hfr]
      cases ra'.gatherBy toInt k rc' <;> rfl

/-- The plates of the call are among those of the arguments. -/
theorem mem_mdp {a b : STen α} {p : Plate α} (hp : p ∈ callMdp [.st a false, .st b false]) :
    p ∈ a.plates ++ b.plates ∧ 1 < p.n := by
  obtain ⟨h1, h2⟩ := List.mem_filter.1 hp
  refine ⟨?_, by simpa using h2⟩
  obtain ⟨t, ht, hpt⟩ := mem_callPlates h1
  simp only [stens, List.mem_cons, List.not_mem_nil, or_false] at ht
  rcases ht with rfl | rfl
  · exact List.mem_append_left _ hpt
  · exact List.mem_append_right _ hpt

/-- Every plate with more than one sample is a dimension of the call. -/
theorem GatherArgs.find {a b : STen α} (h : GatherArgs a b) {p : Plate α} (hp : p ∈ a.plates ++ b.plates)
    (hn : 1 < p.n) : ∃ L1 q L2, callMdp [.st a false, .st b false] = L1 ++ q :: L2 ∧ q.name = p.name ∧ q.n = p.n ∧
      q.name ∉ L1.map Plate.name ∧ q.name ∉ L2.map Plate.name := by
  have hg := h.good
  have hm : p.name ∈ (callMdp [.st a false, .st b false]).map Plate.name := by
    rcases List.mem_append.1 hp with hp | hp
    · exact (hg.covers (by simp [stens] : a ∈ stens [.st a false, .st b false])).all p
        (List.mem_filter.2 ⟨hp, by simpa using hn⟩)
    · exact (hg.covers (by simp [stens] : b ∈ stens [.st a false, .st b false])).all p
        (List.mem_filter.2 ⟨hp, by simpa using hn⟩)
  obtain ⟨q, hq, hqn⟩ := List.mem_map.1 hm
  obtain ⟨L1, L2, hL⟩ := List.append_of_mem hq
  have hnd := (hg.covers (by simp [stens] : a ∈ stens [.st a false, .st b false])).names
  rw [hL, List.map_append, List.map_cons] at hnd
  have hnd' := List.nodup_middle.1 hnd
  rw [List.nodup_cons, List.mem_append, not_or] at hnd'
  exact ⟨L1, q, L2, hL, hqn, Plate.pyEq_n (h.agree q (mem_mdp hq).1 p hp hqn), hnd'.1.1, hnd'.1.2⟩

/-- The numbers that an index gives to the plates `M`. -/
def pick (M : List (Plate α)) (idx : List Nat) (x : String) : Nat := idx.getD ((M.map Plate.name).idxOf x) 0

omit [ValEq α] in
theorem pick_map {M : List (Plate α)} (hn : (M.map Plate.name).Nodup) {idx : List Nat} (hl : idx.length = M.length) :
    M.map (fun p => pick M idx p.name) = idx := by
  apply List.ext_getElem (by simp [hl])
  intro i h1 h2
  rw [List.getElem_map, pick]
  have hi : i < (M.map Plate.name).length := by simpa using h1
  have : M[i].name = (M.map Plate.name)[i] := by simp
  rw [this, hn.idxOf_getElem i hi, List.getD_eq_getElem?_getD, List.getElem?_eq_getElem h2]; rfl

/-- Every index of the plates comes from a joint sample. -/
theorem GatherArgs.joint {a b : STen α} (h : GatherArgs a b) {idx : List Nat}
    (hi : Ten.InB idx ((callMdp [.st a false, .st b false]).map Plate.n)) :
    Joint a b (pick (callMdp [.st a false, .st b false]) idx) ∧
      (callMdp [.st a false, .st b false]).map (fun p => pick (callMdp [.st a false, .st b false]) idx p.name) = idx := by
  have hnd := (h.good.covers (by simp [stens] : a ∈ stens [.st a false, .st b false])).names
  have hl : idx.length = (callMdp [.st a false, .st b false]).length := by
    have := List.Forall₂.length_eq hi; simpa using this
  have hm := pick_map hnd hl
  refine ⟨?_, hm⟩
  intro p hp
  by_cases hin : p.name ∈ (callMdp [.st a false, .st b false]).map Plate.name
  · obtain ⟨q, hq, hqn⟩ := List.mem_map.1 hin
    have hqe := Plate.pyEq_n (h.agree q (mem_mdp hq).1 p hp hqn)
    rw [← hm] at hi
    have := List.forall₂_map_left_iff.1 (List.forall₂_map_right_iff.1 hi)
    rw [List.forall₂_same] at this
    have := this q hq
    rwa [hqn, hqe] at this
  · rw [pick, List.idxOf_eq_length hin, List.length_map, ← hl, List.getD_eq_getElem?_getD,
      List.getElem?_eq_none (Nat.le_refl _)]
    rcases List.mem_append.1 hp with hp | hp
    · exact h.wfA.pos p hp
    · exact h.wfB.pos p hp

/-- A joint sample is an index of the plates. -/
theorem Joint.inB {a b : STen α} {ι : String → Nat} (h : Joint a b ι) :
    Ten.InB ((callMdp [.st a false, .st b false]).map (fun p => ι p.name))
      ((callMdp [.st a false, .st b false]).map Plate.n) := by
  rw [Ten.InB, List.forall₂_map_left_iff, List.forall₂_map_right_iff, List.forall₂_same]
  exact fun p hp => h p (mem_mdp hp).1

omit [ValEq α] in
theorem set_update {L1 L2 : List (Plate α)} {p : Plate α} (h1 : p.name ∉ L1.map Plate.name)
    (h2 : p.name ∉ L2.map Plate.name) (ι : String → Nat) (v : Nat) (e : List Nat) :
    ((L1 ++ p :: L2).map (fun q => ι q.name) ++ e).set L1.length v =
      (L1 ++ p :: L2).map (fun q => Function.update ι p.name v q.name) ++ e := by
  have hc : ∀ L : List (Plate α), p.name ∉ L.map Plate.name →
      L.map (fun q => ι q.name) = L.map (fun q => Function.update ι p.name v q.name) := by
    intro L hL
    apply List.map_congr_left
    intro q hq
    rw [Function.update_of_ne]
    rintro he
    exact hL (he ▸ List.mem_map_of_mem hq)
  simp only [List.map_append, List.map_cons, List.append_assoc, List.cons_append]
  rw [List.set_append_right _ _ (by simp), ← hc L1 h1, ← hc L2 h2]
  simp

theorem forall2_getD {s t : List Nat} (h : List.Forall₂ (fun x y => x ≤ y) s t) (d : Nat) : s.getD d 0 ≤ t.getD d 0 := by
  induction h generalizing d with
  | nil => simp
  | cons hxy _ ih => cases d with
    | zero => simpa using hxy
    | succ d => simpa using ih d

theorem forall2_of_getD {s t : List Nat} (hl : s.length = t.length) (h : ∀ d < s.length, s.getD d 0 ≤ t.getD d 0) :
    List.Forall₂ (fun x y => x ≤ y) s t := by
  induction s generalizing t with
  | nil => cases t with
    | nil => exact .nil
    | cons => simp at hl
  | cons x s ih => cases t with
    | nil => simp at hl
    | cons y t =>
      refine .cons (by simpa using h 0 (by simp)) (ih (by simpa using hl) (fun d hd => ?_))
      simpa using h (d + 1) (by simpa using hd)

theorem forall2_refl (s : List Nat) : List.Forall₂ (fun x y => x ≤ y) s s := by
  induction s with
  | nil => exact .nil
  | cons x s ih => exact .cons (Nat.le_refl _) ih

theorem forall2_append {s t u v : List Nat} (h : List.Forall₂ (fun x y => x ≤ y) s t)
    (h' : List.Forall₂ (fun x y => x ≤ y) u v) : List.Forall₂ (fun x y => x ≤ y) (s ++ u) (t ++ v) := by
  induction h with
  | nil => exact h'
  | cons hxy _ ih => exact .cons hxy ih

theorem inB_mono {e s t : List Nat} (h : Ten.InB e s) (hl : List.Forall₂ (fun x y => x ≤ y) s t) : Ten.InB e t := by
  induction hl generalizing e with
  | nil => exact h
  | cons hxy _ ih => cases h with
    | cons hd htl => exact .cons (Nat.lt_of_lt_of_le hd hxy) (ih htl)

/-! ### Theorems -/

/-- `storch.gather(a, dim, b)`: when `dim` names a plate with several samples, the event dimensions of `b` are at most
those of `a` and all values of `b` are numbers of samples, the result has the plates of both tensors and the event
shape of `b`, and for each joint sample it is the value of `a` in the sample that `b` gives for the plate `dim`. -/
theorem C92_gather_partial {hook : UnwrapHook α} (hh : PlainHook hook) (toInt : α → Int) {a b : STen α}
    (h : GatherArgs a b) {p : Plate α} (hp : p ∈ a.plates ++ b.plates) (hn : 1 < p.n) (hne : p.name ≠ "")
    (hev : List.Forall₂ (fun x y => x ≤ y) (besideEvents a b) (besideEvents b a))
    (hr : ∀ ι e, Joint a b ι → Ten.InB e (besideEvents a b) →
      0 ≤ toInt (b.sample ι e) ∧ toInt (b.sample ι e) < p.n) :
    ∃ r, gatherCall hook toInt a p.name b = .ok (.st r false) ∧ r.WF ∧
      FirstOcc r.plates (a.plates ++ b.plates) ∧ r.eventShape = besideEvents a b ∧
      ∀ ι e, Joint a b ι → Ten.InB e (besideEvents a b) →
        r.sample ι e = a.sample (Function.update ι p.name (toInt (b.sample ι e)).toNat) e := by
  obtain ⟨L1, q, L2, hL, hqn, hqs, hq1, hq2⟩ := h.find hp hn
  have hk : indexBy (fun a b => a == b) p.name ((callMdp [.st a false, .st b false]).map Plate.name) =
      some L1.length := by rw [hL, ← hqn]; exact indexBy_name hq1
  obtain ⟨ta, tb, ⟨hsa, hga⟩, ⟨hsb, hgb⟩, hrun⟩ := gather_run hh toInt h hne hk
  rw [pad_beside'] at hsa
  rw [pad_beside] at hsb
  set M := callMdp [.st a false, .st b false] with hM
  have hlen : ta.shape.length = tb.shape.length := by
    rw [hsa, hsb, List.length_append, List.length_append, length_beside, length_beside, Nat.max_comm]
  have hMl : L1.length < M.length := by rw [hL]; simp
  have hle : List.Forall₂ (fun x y => x ≤ y) tb.shape ta.shape := by
    rw [hsa, hsb]; exact forall2_append (forall2_refl _) hev
  have hdk : ta.shape.getD L1.length 0 = p.n := by
    rw [hsa, hL, ← hqs]; simp
  have hget : ta.gatherBy toInt L1.length tb =
      .ok ⟨tb.shape, fun idx => ta.get (idx.set L1.length (toInt (tb.get idx)).toNat)⟩ := by
    rw [Ten.gatherBy, if_neg, if_neg, if_pos]
    · rw [List.all_eq_true]
      intro idx hidx
      rw [mem_allIdx] at hidx
      have hl : idx.length = tb.shape.length := List.Forall₂.length_eq hidx
      have hi := hidx
      rw [hsb] at hi
      have h1 := List.forall₂_take M.length hi
      have h2 := List.forall₂_drop M.length hi
      rw [List.take_left' (by simp)] at h1
      rw [List.drop_left' (by simp)] at h2
      obtain ⟨hj, hm⟩ := h.joint h1
      have hv := hr _ _ hj h2
      have := hgb (pick M (idx.take M.length)) (idx.drop M.length) (by rw [hm, List.take_append_drop]; exact hidx)
      rw [hm, List.take_append_drop] at this
      rw [this, hdk]
      exact decide_eq_true hv
    · rw [not_not, List.all_eq_true]
      intro d _
      rw [Bool.or_eq_true_iff]
      exact Or.inr (decide_eq_true (forall2_getD hle d))
    · rw [not_or, not_not, not_le]
      refine ⟨hlen, ?_⟩
      show L1.length < ta.shape.length
      rw [hsa, List.length_append, List.length_map]
      omega
  rw [hget] at hrun
  have hnd := h.good.names
  have hpos : ∀ p ∈ callPlates [.st a false, .st b false], 1 ≤ p.n := by
    intro p hp
    obtain ⟨t, ht, hpt⟩ := mem_callPlates hp
    exact (h.good.wf t ht).pos p hpt
  obtain ⟨r, hr1, hr2, hr3, hr4, hr5⟩ := checkPlates_ok_of hnd hpos
    (⟨tb.shape, fun idx => ta.get (idx.set L1.length (toInt (tb.get idx)).toNat)⟩ : Ten α) (besideEvents a b) hsb
  refine ⟨r, ?_, hr4, ?_, hr5, ?_⟩
  · rw [hrun]
    simp [Val.wrapOut, hr1]
  · rw [hr3]
    have := GoodOps.firstOcc (ops := [Operand.st a false, .st b false])
    simpa [stens] using this
  · intro ι e hι he
    have hmd : r.multiDimPlates = M := by rw [STen.multiDimPlates, hr3]; rfl
    have hib : Ten.InB (M.map (fun p => ι p.name) ++ e) tb.shape := by
      rw [hsb]; exact Ten.inB_append hι.inB he
    have hv := hr ι e hι he
    rw [STen.sample, hr5, bidx_of_inB he, hr2, hmd]
    show ta.get ((M.map (fun p => ι p.name) ++ e).set L1.length
      (toInt (tb.get (M.map (fun p => ι p.name) ++ e))).toNat) = _
    rw [hgb ι e hib, hL, set_update hq1 hq2, ← hL, hqn]
    apply hga
    rw [hsa]
    refine Ten.inB_append (Joint.inB (a := a) (b := b) ?_) (inB_mono he hev)
    intro x hx
    by_cases hxe : x.name = p.name
    · rw [hxe, Function.update_self, Plate.pyEq_n (h.agree x hx p hp hxe)]
      omega
    · rw [Function.update_of_ne hxe]; exact hι x hx

/-- A value that is not the number of a sample, or an event dimension of `b` larger than that of `a`: it raises. -/
theorem C92_range {hook : UnwrapHook α} (hh : PlainHook hook) (toInt : α → Int) {a b : STen α}
    (h : GatherArgs a b) {p : Plate α} (hp : p ∈ a.plates ++ b.plates) (hn : 1 < p.n) (hne : p.name ≠ "")
    (hbad : ¬ List.Forall₂ (fun x y => x ≤ y) (besideEvents a b) (besideEvents b a) ∨
      ∃ ι e, Joint a b ι ∧ Ten.InB e (besideEvents a b) ∧
        (toInt (b.sample ι e) < 0 ∨ (p.n : Int) ≤ toInt (b.sample ι e))) :
    gatherCall hook toInt a p.name b = .error .torch := by
  obtain ⟨L1, q, L2, hL, hqn, hqs, hq1, hq2⟩ := h.find hp hn
  have hk : indexBy (fun a b => a == b) p.name ((callMdp [.st a false, .st b false]).map Plate.name) =
      some L1.length := by rw [hL, ← hqn]; exact indexBy_name hq1
  obtain ⟨ta, tb, ⟨hsa, hga⟩, ⟨hsb, hgb⟩, hrun⟩ := gather_run hh toInt h hne hk
  rw [pad_beside'] at hsa
  rw [pad_beside] at hsb
  set M := callMdp [.st a false, .st b false] with hM
  have hlen : ta.shape.length = tb.shape.length := by
    rw [hsa, hsb, List.length_append, List.length_append, length_beside, length_beside, Nat.max_comm]
  have hMl : L1.length < M.length := by rw [hL]; simp
  have hdk : ta.shape.getD L1.length 0 = p.n := by
    rw [hsa, hL, ← hqs]; simp
  have hget : ta.gatherBy toInt L1.length tb = .error .torch := by
    rw [Ten.gatherBy]
    split
    · rfl
    split
    · rfl
    rename_i hall
    rw [not_not, List.all_eq_true] at hall
    rcases hbad with hbad | ⟨ι, e, hι, he, hv⟩
    · refine absurd ?_ hbad
      apply forall2_of_getD (by rw [length_beside, length_beside, Nat.max_comm])
      intro d hd
      have := hall (M.length + d) (by
        rw [List.mem_range]
        show M.length + d < ta.shape.length
        rw [hlen, hsb, List.length_append, List.length_map]
        omega)
      rw [Bool.or_eq_true_iff, beq_iff_eq, decide_eq_true_iff, hsa, hsb] at this
      rcases this with this | this
      · omega
      · rwa [List.getD_eq_getElem?_getD, List.getD_eq_getElem?_getD, List.getElem?_append_right (by simp),
          List.getElem?_append_right (by simp), List.length_map, Nat.add_sub_cancel_left,
          ← List.getD_eq_getElem?_getD, ← List.getD_eq_getElem?_getD] at this
    · have hib : Ten.InB (M.map (fun p => ι p.name) ++ e) tb.shape := by
        rw [hsb]; exact Ten.inB_append hι.inB he
      rw [if_neg]
      rw [List.all_eq_true]
      intro hb
      have := of_decide_eq_true (hb _ (mem_allIdx.2 hib))
      rw [hgb ι e hib, hdk] at this
      omega
  rw [hrun, hget]

/-- The plate of a single sample has no dimension, and the call raises `UnboundLocalError` although `dim` is the name of
a plate and the only value allowed, 0, is given; so it is for a name that no plate has. -/
theorem C92_single_refuted {hook : UnwrapHook α} (toInt : α → Int) {a b : STen α}
    (h : GatherArgs a b) {dim : String} (hne : dim ≠ "") (hn : ∀ p ∈ a.plates ++ b.plates, p.name = dim → p.n = 1) :
    gatherCall hook toInt a dim b = .error .unbound := by
  have hno : dim ∉ (callMdp [.st a false, .st b false]).map Plate.name := by
    intro hm
    obtain ⟨q, hq, hqn⟩ := List.mem_map.1 hm
    obtain ⟨h1, h2⟩ := mem_mdp hq
    have := hn q h1 hqn
    omega
  have hk : indexBy (fun a b => a == b) dim ((callMdp [.st a false, .st b false]).map Plate.name) = .none := by
    generalize (callMdp [.st a false, .st b false]).map Plate.name = l at hno
    induction l with
    | nil => rfl
    | cons x l ih =>
      simp only [List.mem_cons, not_or] at hno
      simp only [indexBy, ih hno.2]
      rw [if_neg]
      · rfl
      · simpa using fun hx : x = dim => hno.1 hx.symm
  have hdim : ∀ kw : List (String × Val α), applyDim (callMdp [.st a false, .st b false]) (some dim) kw =
      .error .unbound := by
    intro kw
    unfold applyDim
    split
    · rename_i h; cases h
    · rename_i h; injection h with h; exact absurd h hne
    · rename_i d _ h
      injection h with h
      subst h
      rw [hk]
  have hc : (collectArgs ⟨[.st a false], [("index", .st b false)]⟩).1.plates =
      callPlates [.st a false, .st b false] := rfl
  have hm : (callPlates [.st a false, .st b false]).filter (fun p => decide (1 < p.n)) =
    callMdp [.st a false, .st b false] := rfl
  rw [gatherCall, handleDet, if_neg (by simp), prepareArgs]
  simp only [hc, h.good.filter, hm, hdim]

/-! ### A case: two samples of vectors, chosen by three samples of vectors of numbers -/

namespace GatherCase

def plate (s : String) (n : Nat) : Plate Int := .mk s n (.torch (.scalar 1)) .plain []

/-- Two samples of three numbers: 10, 11, 12 and 20, 21, 22. -/
def x : STen Int := ⟨⟨[2, 3], fun l => 10 * ((l.headD 0 : Int) + 1) + l.getD 1 0⟩, [plate "x" 2], 1⟩
/-- Three samples of two numbers: 0, 1 and 1, 0 and 0, 1. -/
def y : STen Int := ⟨⟨[3, 2], fun l => ((l.headD 0 + l.getD 1 0 : Nat) : Int) % 2⟩, [plate "y" 3], 1⟩
/-- A single sample of two numbers. -/
def z : STen Int := ⟨⟨[2], fun l => (l.headD 0 : Int)⟩, [plate "z" 1], 0⟩

def hook : UnwrapHook Int := fun _ a => .ok a

theorem args : GatherArgs x y := by
  refine ⟨⟨by decide, by decide, rfl, rfl⟩, ⟨by decide, by decide, rfl, rfl⟩, by decide, ?_⟩
  intro p hp q hq
  simp only [x, y, List.cons_append, List.nil_append, List.mem_cons, List.not_mem_nil, or_false] at hp hq
  rcases hp with rfl | rfl <;> rcases hq with rfl | rfl <;> decide

theorem single : GatherArgs z z := by
  refine ⟨⟨by decide, by decide, rfl, rfl⟩, ⟨by decide, by decide, rfl, rfl⟩, by decide, ?_⟩
  intro p hp q hq
  simp only [z, List.cons_append, List.nil_append, List.mem_cons, List.not_mem_nil, or_false, or_self] at hp hq
  subst hp hq; decide

theorem range (ι : String → Nat) (e : List Nat) : 0 ≤ y.sample ι e ∧ y.sample ι e < 2 := by
  unfold STen.sample
  show 0 ≤ _ % (2 : Int) ∧ _ % (2 : Int) < 2
  omega

/-- The hypotheses of `C92_gather_partial` are met, and the sample 1 of `y` gives 20, 11. -/
example : ∃ r, gatherCall hook id x "x" y = .ok (.st r false) ∧ r.eventShape = [2] ∧
    ∀ ι : String → Nat, ι "x" < 2 → ι "y" = 1 → r.sample ι [0] = 20 ∧ r.sample ι [1] = 11 := by
  obtain ⟨r, h1, _, _, h4, h5⟩ := C92_gather_partial (hook := hook) (fun _ _ _ => rfl) id args
    (p := plate "x" 2) (by simp [x]) (by decide) (by decide) (.cons (by decide) .nil)
    (fun ι e _ _ => range ι e)
  refine ⟨r, h1, h4, fun ι hx hy => ?_⟩
  have hj : Joint x y ι := by
    intro p hp
    simp only [x, y, List.cons_append, List.nil_append, List.mem_cons, List.not_mem_nil, or_false] at hp
    rcases hp with rfl | rfl
    · exact hx
    · show ι "y" < 3; omega
  have hy0 : y.sample ι [0] = 1 := by
    show (((ι "y") + 0 : Nat) : Int) % 2 = 1; rw [hy]; rfl
  have hy1 : y.sample ι [1] = 0 := by
    show (((ι "y") + 1 : Nat) : Int) % 2 = 0; rw [hy]; rfl
  constructor
  · rw [h5 ι [0] hj (.cons (by decide) .nil), hy0]; rfl
  · rw [h5 ι [1] hj (.cons (by decide) .nil), hy1]; rfl

/-- `C92_range`: 2 is not the number of a sample. -/
example : gatherCall hook (fun v => v + 1) x "x" y = .error .torch :=
  C92_range (fun _ _ _ => rfl) _ args (p := plate "x" 2) (by simp [x]) (by decide) (by decide)
    (Or.inr ⟨fun _ => 1, [0], by
      intro p hp
      simp only [x, y, List.cons_append, List.nil_append, List.mem_cons, List.not_mem_nil, or_false] at hp
      rcases hp with rfl | rfl <;> decide, .cons (by decide) .nil, Or.inr (by decide)⟩)

/-- `C92_range`: the vectors of the numbers are larger. -/
example : gatherCall hook id y "y" x = .error .torch :=
  C92_range (fun _ _ _ => rfl) _ ⟨args.wfB, args.wfA, by decide, by
    intro p hp q hq
    exact args.agree p (by simpa [or_comm] using hp) q (by simpa [or_comm] using hq)⟩
    (p := plate "y" 3) (by simp [y]) (by decide) (by decide) (Or.inl (by
      intro h
      cases h with
      | cons h _ => exact absurd h (by decide)))

/-- `C92_single_refuted`: one sample. -/
example : gatherCall hook (fun _ => 0) z "z" z = .error .unbound :=
  C92_single_refuted _ single (by decide) (by
    intro p hp _
    simp only [z, List.cons_append, List.nil_append, List.mem_cons, List.not_mem_nil, or_false, or_self] at hp
    subst hp; rfl)

end GatherCase

end Storch
