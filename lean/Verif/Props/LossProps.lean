import Verif.Model.Losses
import Verif.Props.DimsProps
import Verif.Lemmas.RebarLemmas
import Verif.Props.CallProps

/-!
# C69: `b_binary_cross_entropy`
-/

namespace Storch
variable {α : Type _} [ValEq α]

/-- The arguments: proper storch tensors with agreeing plates; the target has no further plates with several samples,
and its event shape broadcasts (on the right) to that of the input. -/
structure LossArgs (input target : STen α) : Prop where
  good : GoodOps [.st target false, .st input false]
  plates : ∀ p ∈ target.plates, 1 < p.n → ∃ q ∈ input.plates, q.name = p.name
  le : target.eventDims ≤ input.eventDims
  events : Fits (target.eventShape ++ List.replicate (input.eventDims - target.eventDims) 1) input.eventShape

/-! ### Lemmas -/

theorem handleDet_ops_congr {hook : UnwrapHook α} (hh : PlainHook hook) {ops : List (Operand α)} (hg : GoodOps ops)
    (hst : stens ops ≠ []) {fn fn' : Fn α}
    (h : ∀ ts, List.Forall₂ (AlignedOp (callMdp ops) (maxEv ops)) ops ts →
      fn ⟨ts.map Val.torch, []⟩ = fn' ⟨ts.map Val.torch, []⟩) :
    handleDet hook false false {} fn (opArgs ops) = handleDet hook false false {} fn' (opArgs ops) := by
  obtain ⟨ts, h1, h2⟩ := prepare_ops hh hg
  rw [handleDet, handleDet]
  have : (stens ops).isEmpty = false := by
    rw [List.isEmpty_eq_false_iff]; exact hst
  simp only [h1, this, Bool.false_eq_true, if_false, h ts h2]

/-- An operand that has all plates. -/
theorem pdims_all {M : List (Plate α)} {a : STen α} (h : ∀ p ∈ M, p.isIn a.plates = true) :
    pdims M (fun p => p.isIn a.plates) = M.map Plate.n := by
  rw [pdims]
  apply List.map_congr_left
  intro p hp
  rw [if_pos (h p hp)]

theorem fits_expands {s t : List Nat} (h : List.Forall₂ (fun d' d => d' = 1 ∨ d' = d) s t) :
    (List.zipWith Ten.dimExpands s t).all id = true := by
  induction h with
  | nil => rfl
  | cons hd _ ih =>
    simp only [List.zipWith_cons_cons, List.all_cons, ih, Bool.and_true, id]
    rcases hd with rfl | rfl <;> simp [Ten.dimExpands]

theorem fits_same {s t : List Nat} (hl : s.length = t.length) (h : Fits s t) :
    List.Forall₂ (fun d' d => d' = 1 ∨ d' = d) s t := by
  have := h.2
  rwa [Ten.padL, hl, Nat.sub_self, List.replicate_zero, List.nil_append] at this

variable {input target : STen α}

theorem LossArgs.wf_input (h : LossArgs input target) : input.WF := h.good.wf input (by simp [stens])
theorem LossArgs.wf_target (h : LossArgs input target) : target.WF := h.good.wf target (by simp [stens])

theorem LossArgs.maxEv (h : LossArgs input target) : maxEv [.st target false, .st input false] = input.eventDims := by
  have := h.le
  simp [Storch.maxEv, stens, this]

theorem LossArgs.agree_in (h : LossArgs input target) {p : Plate α} (hp : p ∈ target.plates) (hn : 1 < p.n) :
    ∃ q ∈ input.plates, q.name = p.name ∧ q.pyEq p = true := by
  obtain ⟨q, hq, hqn⟩ := h.plates p hp hn
  exact ⟨q, hq, hqn, h.good.agree input (by simp [stens]) target (by simp [stens]) q hq p hp hqn⟩

/-- The input has every plate with several samples. -/
theorem LossArgs.input_all (h : LossArgs input target) :
    ∀ p ∈ callMdp [.st target false, .st input false], p.isIn input.plates = true := by
  intro p hp
  obtain ⟨hp1, hp2⟩ := List.mem_filter.1 hp
  obtain ⟨t, ht, hpt⟩ := mem_callPlates hp1
  simp only [stens, List.mem_cons, List.not_mem_nil, or_false] at ht
  rcases ht with rfl | rfl
  · obtain ⟨q, hq, _, he⟩ := h.agree_in hpt (by simpa using hp2)
    exact Plate.isIn_iff.2 ⟨q, hq, he⟩
  · exact Plate.isIn_of_mem hpt

omit [ValEq α] in
theorem pdims_fits (M : List (Plate α)) (f : Plate α → Bool) :
    List.Forall₂ (fun d' d => d' = 1 ∨ d' = d) (pdims M f) (M.map Plate.n) := by
  induction M with
  | nil => exact .nil
  | cons p M ih =>
    refine .cons ?_ ih
    by_cases hf : f p = true <;> simp [hf]

/-- `target.expand_as(input)`. -/
theorem expandAs_spec [Zero α] {hook : UnwrapHook α} (hh : PlainHook hook) (h : LossArgs input target) :
    ∃ r : STen α, handleDet hook false false {} expandAsFn (opArgs [.st target false, .st input false]) = .ok (.st r false) ∧
      r.WF ∧ r.plates = callPlates [.st target false, .st input false] ∧ r.eventShape = input.eventShape ∧
      ∀ (ι : String → Nat) (e : List Nat), Ten.InB e input.eventShape → r.sample ι e = target.sample ι e := by
  have hE := h.maxEv
  have hev : Ten.bshapes ([Operand.st target false, .st input false].map
      (Operand.evShape (Storch.maxEv [.st target false, .st input false]))) = some input.eventShape := by
    rw [hE]
    simp only [List.map_cons, List.map_nil, Operand.evShape, Nat.sub_self, List.replicate_zero, List.append_nil]
    exact bshapes_fit_left h.events
  obtain ⟨r, r1, r2, r3, r4, r5⟩ := elementwise_call hook hh (fun l => l.headD 0) [.st target false, .st input false] h.good
    (by simp [stens]) (by simp) _ hev
  refine ⟨r, ?_, r2, r3, r4, ?_⟩
  · rw [← r1]
    apply handleDet_ops_congr hh h.good (by simp [stens])
    intro ts hts
    rw [hE] at hts
    cases hts with
    | cons ht hts =>
      rename_i t' ts
      cases hts with
      | cons hi hts =>
        rename_i i' ts
        cases hts
        obtain ⟨ht1, _⟩ := ht
        obtain ⟨hi1, _⟩ := hi
        rw [pdims_all h.input_all, Nat.sub_self, List.replicate_zero, List.append_nil] at hi1
        have hl2 : (target.eventShape ++ List.replicate (input.eventDims - target.eventDims) 1).length =
            input.eventShape.length := by
          have := h.le
          rw [List.length_append, List.length_replicate]
          simp only [STen.eventDims] at this ⊢
          omega
        have hf : List.Forall₂ (fun d' d => d' = 1 ∨ d' = d) t'.shape i'.shape := by
          rw [ht1, hi1]
          exact List.rel_append (pdims_fits _ _) (fits_same hl2 h.events)
        have hl := hf.length_eq
        have hb : Ten.bshapes [t'.shape, i'.shape] = some i'.shape := by
          apply bshapes_fit_left
          refine ⟨hl.le, ?_⟩
          rwa [Ten.padL, hl, Nat.sub_self, List.replicate_zero, List.nil_append]
        have e1 : t'.expandTo i'.shape = .ok ⟨i'.shape, fun idx => t'.get (Ten.bidx t'.shape (idx.drop (idx.length - t'.ndim)))⟩ := by
          rw [Ten.expandTo, if_pos]
          refine ⟨hl.le, ?_⟩
          rw [← hl, Nat.sub_self, List.drop_zero]
          exact fits_expands hf
        simp only [expandAsFn, List.map_cons, List.map_nil, e1, elementwiseFn]
        rw [show List.mapM Val.asTorch [Val.torch t', Val.torch i'] = some [t', i'] from rfl]
        simp only [Ten.elementwise, List.map_cons, List.map_nil, hb, List.headD_cons]
  · intro ι e he
    rw [r5 ι e he]
    rfl

/-- `F.binary_cross_entropy` on the input and the expanded target. -/
theorem sameSize_spec {hook : UnwrapHook α} (hh : PlainHook hook) (f : List α → α) (h : LossArgs input target) {t : STen α}
    (hw : t.WF) (hp : t.plates = callPlates [.st target false, .st input false]) (he : t.eventShape = input.eventShape) :
    ∃ r : STen α, handleDet hook false false {} (sameSizeFn f) (opArgs [.st input false, .st t false]) = .ok (.st r false) ∧
      Proper r ∧ r.plates = callPlates [.st input false, .st t false] ∧ r.eventShape = input.eventShape ∧
      ∀ (ι : String → Nat) (e : List Nat), Ten.InB e input.eventShape → r.sample ι e = f [input.sample ι e, t.sample ι e] := by
  have hsub : ∀ p ∈ t.plates, p ∈ target.plates ∨ p ∈ input.plates := by
    intro p hpt
    rw [hp] at hpt
    obtain ⟨x, hx, hpx⟩ := mem_callPlates hpt
    simp only [stens, List.mem_cons, List.not_mem_nil, or_false] at hx
    rcases hx with rfl | rfl
    exacts [Or.inl hpx, Or.inr hpx]
  have hplain : ∀ p, p ∈ target.plates ∨ p ∈ input.plates → p.kind = .plain := by
    rintro p (hp | hp)
    · exact h.good.plain target (by simp [stens]) p hp
    · exact h.good.plain input (by simp [stens]) p hp
  have hagree : ∀ p q, p ∈ target.plates ∨ p ∈ input.plates → q ∈ target.plates ∨ q ∈ input.plates → p.name = q.name →
      p.pyEq q = true := by
    rintro p q (hp | hp) (hq | hq)
    · exact h.good.agree target (by simp [stens]) target (by simp [stens]) p hp q hq
    · exact h.good.agree target (by simp [stens]) input (by simp [stens]) p hp q hq
    · exact h.good.agree input (by simp [stens]) target (by simp [stens]) p hp q hq
    · exact h.good.agree input (by simp [stens]) input (by simp [stens]) p hp q hq
  have hmem : ∀ x ∈ stens [.st input false, .st t false], x.WF ∧ ∀ p ∈ x.plates, p ∈ target.plates ∨ p ∈ input.plates := by
    intro x hx
    simp only [stens, List.mem_cons, List.not_mem_nil, or_false] at hx
    rcases hx with rfl | rfl
    · exact ⟨h.wf_input, fun p hp => Or.inr hp⟩
    · exact ⟨hw, hsub⟩
  have hg : GoodOps [.st input false, .st t false] :=
    ⟨fun x hx => (hmem x hx).1, fun x hx p hp => hplain p ((hmem x hx).2 p hp), fun x hx y hy p hp q hq =>
      hagree p q ((hmem x hx).2 p hp) ((hmem y hy).2 q hq)⟩
  have hd : t.eventDims = input.eventDims := by rw [STen.eventDims, STen.eventDims, he]
  have hE : Storch.maxEv [.st input false, .st t false] = input.eventDims := by
    simp [Storch.maxEv, stens, hd]
  have hev : Ten.bshapes ([Operand.st input false, .st t false].map
      (Operand.evShape (Storch.maxEv [.st input false, .st t false]))) = some input.eventShape := by
    rw [hE]
    simp only [List.map_cons, List.map_nil, Operand.evShape, hd, he, Nat.sub_self, List.replicate_zero, List.append_nil]
    exact bshapes_fit_left (fits_self _)
  obtain ⟨r, r1, r2, r3, r4, r5⟩ := elementwise_call hook hh f [.st input false, .st t false] hg
    (by simp [stens]) (by simp) _ hev
  have hin : ∀ p ∈ callMdp [.st input false, .st t false], p.isIn input.plates = true ∧ p.isIn t.plates = true := by
    intro p hp'
    obtain ⟨hp1, hp2⟩ := List.mem_filter.1 hp'
    have hp3 : p ∈ target.plates ∨ p ∈ input.plates := by
      obtain ⟨x, hx, hpx⟩ := mem_callPlates hp1
      exact (hmem x hx).2 p hpx
    obtain ⟨q, hq, hqn, hqe⟩ : ∃ q ∈ input.plates, q.name = p.name ∧ q.pyEq p = true := by
      rcases hp3 with hp3 | hp3
      · exact h.agree_in hp3 (by simpa using hp2)
      · exact ⟨p, hp3, rfl, Plate.pyEq_refl p⟩
    refine ⟨Plate.isIn_iff.2 ⟨q, hq, hqe⟩, ?_⟩
    obtain ⟨q', hq', hqe'⟩ := (GoodOps.firstOcc (ops := [.st target false, .st input false])).complete q (by simp [stens, hq])
    rw [← hp] at hq'
    exact Plate.isIn_iff.2 ⟨q', hq', Plate.pyEq_trans hqe' hqe⟩
  refine ⟨r, ?_, ⟨r2, ?_⟩, r3, r4, r5⟩
  · rw [← r1]
    apply handleDet_ops_congr hh hg (by simp [stens])
    intro ts hts
    rw [hE] at hts
    cases hts with
    | cons hi hts =>
      rename_i i' ts
      cases hts with
      | cons ht hts =>
        rename_i t' ts
        cases hts
        have e1 : t'.shape = i'.shape := by
          rw [ht.1, hi.1, pdims_all (fun p hp => (hin p hp).1), pdims_all (fun p hp => (hin p hp).2), hd, he]
        simp only [sameSizeFn, List.map_cons, List.map_nil]
        rw [if_pos e1]
  · intro p hp'
    rw [r3] at hp'
    obtain ⟨x, hx, hpx⟩ := mem_callPlates hp'
    exact hg.plain x hx p hpx

/-- The plates of the result are those of the arguments. -/
theorem sameSize_names {t u : STen α} (hp : t.plates = callPlates [.st target false, .st input false])
    (hu : u.plates = callPlates [.st input false, .st t false]) (n : String) :
    n ∈ u.plates.map Plate.name ↔ n ∈ input.plates.map Plate.name ∨ n ∈ target.plates.map Plate.name := by
  have hnames : ∀ (x y : STen α) (n : String), n ∈ (callPlates [.st x false, .st y false]).map Plate.name ↔
      n ∈ x.plates.map Plate.name ∨ n ∈ y.plates.map Plate.name := by
    intro x y n
    constructor
    · intro h
      obtain ⟨p, hp, rfl⟩ := List.mem_map.1 h
      obtain ⟨a, ha, hpa⟩ := mem_callPlates hp
      simp only [stens, List.mem_cons, List.not_mem_nil, or_false] at ha
      rcases ha with rfl | rfl
      · exact Or.inl (List.mem_map_of_mem hpa)
      · exact Or.inr (List.mem_map_of_mem hpa)
    · intro h
      have : ∃ p ∈ x.plates ++ y.plates, p.name = n := by
        rcases h with h | h
        · obtain ⟨p, hp, rfl⟩ := List.mem_map.1 h
          exact ⟨p, by simp [hp], rfl⟩
        · obtain ⟨p, hp, rfl⟩ := List.mem_map.1 h
          exact ⟨p, by simp [hp], rfl⟩
      obtain ⟨p, hp, rfl⟩ := this
      obtain ⟨q, hq, he⟩ := (GoodOps.firstOcc (ops := [.st x false, .st y false])).complete p (by simpa [stens] using hp)
      rw [← (Plate.pyEq_iff.1 he).1]
      exact List.mem_map_of_mem hq
  rw [hu, hnames, hp, hnames]
  tauto

omit [ValEq α] in
theorem mergePlates_same : ∀ (L news : List (Plate α)), (∀ p ∈ L, p.kind = .plain) →
    (∀ p ∈ L, p.name ∈ news.map Plate.name) → mergePlates L news = .ok news
  | [], _, _, _ => rfl
  | p :: L, news, hk, hn => by
    have h1 : mergePlate p news = .ok news := by
      rw [mergePlate, if_pos]
      · rw [hk p (by simp)]
      · obtain ⟨q, hq, he⟩ := List.mem_map.1 (hn p (by simp))
        rw [List.any_eq_true]
        exact ⟨q, hq, by simp [he]⟩
    rw [mergePlates, h1]
    exact mergePlates_same L news (fun q hq => hk q (by simp [hq])) (fun q hq => hn q (by simp [hq]))

theorem LossArgs.swap (h : LossArgs input target) : GoodOps [.st input false, .st target false] := by
  have hm : ∀ x ∈ stens [.st input false, .st target false], x ∈ stens [.st target false, .st input false] := by
    intro x hx
    simp only [stens, List.mem_cons, List.not_mem_nil, or_false] at hx ⊢
    exact hx.symm
  exact ⟨fun x hx => h.good.wf x (hm x hx), fun x hx => h.good.plain x (hm x hx),
    fun x hx y hy => h.good.agree x (hm x hx) y (hm y hy)⟩

/-- The outer wrapper passes the arguments on. -/
theorem outer_call {hook : UnwrapHook α} (h : LossArgs input target) (fn : Fn α) :
    handleDet hook false false { unwrap := false } fn (opArgs [.st input false, .st target false]) =
      match fn ⟨[.st input false, .st target false], []⟩ with
      | .error e => .error e
      | .ok out => out.wrapOut (callPlates [.st input false, .st target false]) false := by
  have hf := h.swap.filter
  rw [callPlates] at hf
  have h1 : (collectArgs (opArgs [Operand.st input false, .st target false])).1.parents = [input, target] := by
    have := (collectArgs_spec (opArgs [Operand.st input false, .st target false])).1.1
    rw [this, tensors_opArgs]
    rfl
  have hp : prepareArgs hook { unwrap := false } (opArgs [.st input false, .st target false]) =
      .ok ⟨⟨[.st input false, .st target false], []⟩, [input, target], callPlates [.st input false, .st target false]⟩ := by
    rw [prepareArgs]
    simp only [hf, applyDim, applyDims, Bool.false_eq_true, if_false, h1]
    rfl
  rw [handleDet]
  simp only [hp, Bool.false_eq_true, if_false, List.isEmpty_cons]
  cases fn ⟨[.st input false, .st target false], []⟩ with
  | error e => rfl
  | ok out =>
    simp

omit [ValEq α] in
theorem mk'_self {r : STen α} (h : r.WF) : STen.mk' r.ten r.plates = .ok r := by
  obtain ⟨r', h1, h2, h3, h4, _⟩ := checkPlates_ok_of h.names h.pos r.ten r.eventShape h.shape
  rw [h1]
  have hd : r'.plateDims = r.plateDims := by
    rw [h4.dims, h.dims, STen.multiDimPlates, STen.multiDimPlates, h3]
  cases r; cases r'
  simp only at h2 h3 hd
  subst h2 h3 hd
  rfl

omit [ValEq α] in
theorem wrapOut_st {L : List (Plate α)} {r : STen α} (hr : Proper r) (hk : ∀ p ∈ L, p.kind = .plain)
    (hn : ∀ p ∈ L, p.name ∈ r.plates.map Plate.name) : (Val.st r false).wrapOut L false = .ok (.st r false) := by
  rw [Val.wrapOut]
  simp only [Bool.false_eq_true, if_false]
  rw [mergePlates_same _ _ (fun p hp => hk p (List.mem_reverse.1 hp)) (fun p hp => hn p (List.mem_reverse.1 hp))]
  simp only [mk'_self hr.wf]

/-- All event dimensions. -/
def allEvents (u : STen α) : List DimArg := (List.range' u.plateDims u.eventDims).map (fun i => DimArg.pos (i : Nat))

omit [ValEq α] in
theorem plateNames_allEvents (u : STen α) : plateNames (allEvents u) = [] := by
  rw [allEvents]
  induction List.range' u.plateDims u.eventDims with
  | nil => rfl
  | cons i l ih => exact ih

omit [ValEq α] in
theorem eventDimsOf_allEvents (u : STen α) : eventDimsOf u (allEvents u) = List.range u.eventDims := by
  have h : ∀ l : List Nat, eventDimsOf u (l.map (fun i => DimArg.pos (i : Nat))) = l.map (fun i => i - u.plateDims) := by
    intro l
    induction l with
    | nil => rfl
    | cons i l ih =>
      rw [List.map_cons, eventDimsOf, ih, List.map_cons, eventDim, if_pos (by omega)]
      congr 1
      omega
  rw [allEvents, h, List.range'_eq_map_range, List.map_map]
  have : (fun i => i - u.plateDims) ∘ (fun x => u.plateDims + x) = id := by
    funext x; simp
  rw [this, List.map_id]

omit [ValEq α] in
theorem plateNames_append (a b : List DimArg) : plateNames (a ++ b) = plateNames a ++ plateNames b := by
  induction a with
  | nil => rfl
  | cons d a ih => cases d <;> simp [plateNames, ih]

omit [ValEq α] in
theorem eventDimsOf_append (u : STen α) (a b : List DimArg) :
    eventDimsOf u (a ++ b) = eventDimsOf u a ++ eventDimsOf u b := by
  induction a with
  | nil => rfl
  | cons d a ih => cases d <;> simp [eventDimsOf, ih]

omit [ValEq α] in
theorem plateNames_plates (l : List String) : plateNames (l.map DimArg.plate) = l := by
  induction l with
  | nil => rfl
  | cons d a ih => simp [plateNames, ih]

omit [ValEq α] in
theorem eventDimsOf_plates (u : STen α) (l : List String) : eventDimsOf u (l.map DimArg.plate) = [] := by
  induction l with
  | nil => rfl
  | cons d a ih => simp [eventDimsOf, ih]

omit [ValEq α] in
theorem goodDims_loss {u : STen α} {dims : List String} (hn : dims.Nodup) (hp : ∀ n ∈ dims, ∃ p ∈ u.plates, p.name = n ∧ 1 < p.n) :
    GoodDims u (allEvents u ++ dims.map DimArg.plate) := by
  refine ⟨?_, ?_, ?_, ?_⟩
  · intro n hm
    rcases List.mem_append.1 hm with hm | hm
    · simp [allEvents] at hm
    · obtain ⟨m, hm', he⟩ := List.mem_map.1 hm
      cases he
      exact hp _ hm'
  · intro i hm
    rcases List.mem_append.1 hm with hm | hm
    · obtain ⟨m, hm', he⟩ := List.mem_map.1 hm
      cases he
      rw [List.mem_range'_1] at hm'
      exact Or.inl ⟨by omega, by omega⟩
    · simp at hm
  · rw [plateNames_append, plateNames_allEvents, plateNames_plates, List.nil_append]
    exact hn
  · rw [eventDimsOf_append, eventDimsOf_allEvents, eventDimsOf_plates, List.append_nil]
    exact List.nodup_range

theorem dropDims_range {n : Nat} {e : List Nat} (h : e.length ≤ n) : dropDims (List.range n) e = [] := by
  rw [dropDims, List.map_eq_nil_iff, List.filter_eq_nil_iff]
  intro x hx
  have := List.snd_lt_of_mem_zipIdx hx
  simp
  omega

omit [ValEq α] in
/-- All entries of a sample. -/
theorem entriesOf_events (u : STen α) (ι : String → Nat) :
    entriesOf u [] (List.range u.eventDims) ι [] = (allIdx u.eventShape).map (u.sample ι) := by
  rw [entriesOf]
  simp only [List.map_nil, allIdx, List.flatMap_cons, List.flatMap_nil, List.append_nil, assign]
  congr 1
  rw [List.filter_eq_self]
  intro e he
  rw [dropDims_range (by rw [(mem_allIdx.1 he).length_eq]; rfl)]
  rfl

section
variable [Semiring α]

/-- The loss before the reduction. -/
theorem crossEntropy_unreduced {hook : UnwrapHook α} (hh : PlainHook hook) (f : List α → α) (h : LossArgs input target) :
    ∃ t u : STen α, handleDet hook false false {} expandAsFn (opArgs [.st target false, .st input false]) = .ok (.st t false) ∧
      handleDet hook false false {} (sameSizeFn f) (opArgs [.st input false, .st t false]) = .ok (.st u false) ∧
      Proper u ∧ (∀ n, n ∈ u.plates.map Plate.name ↔ n ∈ input.plates.map Plate.name ∨ n ∈ target.plates.map Plate.name) ∧
      (∀ p ∈ u.plates, p ∈ input.plates ∨ p ∈ target.plates) ∧
      u.eventShape = input.eventShape ∧
      ∀ (ι : String → Nat) (e : List Nat), Ten.InB e input.eventShape → u.sample ι e = f [input.sample ι e, target.sample ι e] := by
  obtain ⟨t, t1, t2, t3, t4, t5⟩ := expandAs_spec hh h
  obtain ⟨u, u1, u2, u3, u4, u5⟩ := sameSize_spec hh f h t2 t3 t4
  refine ⟨t, u, t1, u1, u2, sameSize_names t3 u3, ?_, u4, ?_⟩
  · intro p hp
    rw [u3] at hp
    obtain ⟨a, ha, hpa⟩ := mem_callPlates hp
    simp only [stens, List.mem_cons, List.not_mem_nil, or_false] at ha
    rcases ha with rfl | rfl
    · exact Or.inl hpa
    · rw [t3] at hpa
      obtain ⟨b, hb, hpb⟩ := mem_callPlates hpa
      simp only [stens, List.mem_cons, List.not_mem_nil, or_false] at hb
      rcases hb with rfl | rfl
      exacts [Or.inr hpb, Or.inl hpb]
  · intro ι e he
    rw [u5 ι e he, t5 ι e he]

/-- The cross entropies of one sample: `f` of the corresponding entries of the input and the target. -/
def lossEntries (f : List α → α) (input target : STen α) (ι : String → Nat) : List α :=
  (allIdx input.eventShape).map (fun e => f [input.sample ι e, target.sample ι e])

/-- A result without event dimensions that has the plates of the arguments and the value `v` for each sample. -/
def LossIs (input target : STen α) (v : (String → Nat) → α) (r : STen α) : Prop :=
  Proper r ∧ r.eventShape = [] ∧
    (∀ n, n ∈ r.plates.map Plate.name ↔ n ∈ input.plates.map Plate.name ∨ n ∈ target.plates.map Plate.name) ∧
    ∀ ι, r.sample ι [] = v ι

theorem crossEntropy_reduced {hook : UnwrapHook α} (hh : PlainHook hook) (f : List α → α) (g : List α → α)
    (h : LossArgs input target) (he : input.eventDims ≠ 0) :
    ∃ t u r : STen α, handleDet hook false false {} expandAsFn (opArgs [.st target false, .st input false]) = .ok (.st t false) ∧
      handleDet hook false false {} (sameSizeFn f) (opArgs [.st input false, .st t false]) = .ok (.st u false) ∧
      reduceWith hook g u (allEvents u) = .ok r ∧ LossIs input target (fun ι => g (lossEntries f input target ι)) r ∧
      (Val.st r false).wrapOut (callPlates [.st input false, .st target false]) false = .ok (.st r false) := by
  obtain ⟨t, u, t1, u1, u2, u3, u4, u5, u6⟩ := crossEntropy_unreduced hh f h
  have hd := goodDims_loss (u := u) (dims := []) List.nodup_nil (by simp)
  rw [List.map_nil, List.append_nil] at hd
  have hue : u.eventDims = input.eventDims := by rw [STen.eventDims, STen.eventDims, u5]
  obtain ⟨r, r1, r2, r3, r4, r5⟩ := reduceWith_reduced hh g u2 hd (by
    rw [allEvents, Ne, List.map_eq_nil_iff, List.range'_eq_nil_iff, hue]
    exact he)
  rw [plateNames_allEvents] at r3
  rw [eventDimsOf_allEvents, dropDims_range (by rw [STen.eventDims])] at r4
  have hr3 : r.plates = u.plates := by rw [r3]; simp
  have hnp : namedPlates u (allEvents u) = [] := by
    rw [namedPlates, plateNames_allEvents]; simp
  refine ⟨t, u, r, t1, u1, r1, ⟨r2, r4, by rw [hr3]; exact u3, ?_⟩, ?_⟩
  · intro ι
    rw [r5 ι [] (by rw [r4]; simp [allIdx]), hnp, eventDimsOf_allEvents, entriesOf_events, u5]
    simp only [lossEntries]
    congr 1
    apply List.map_congr_left
    intro e he
    exact u6 ι e (mem_allIdx.1 he)
  · refine wrapOut_st r2 ?_ ?_
    · intro p hp
      obtain ⟨x, hx, hpx⟩ := mem_callPlates hp
      exact h.swap.plain x hx p hpx
    · intro p hp
      rw [hr3, u3]
      obtain ⟨x, hx, hpx⟩ := mem_callPlates hp
      simp only [stens, List.mem_cons, List.not_mem_nil, or_false] at hx
      rcases hx with rfl | rfl
      · exact Or.inl (List.mem_map_of_mem hpx)
      · exact Or.inr (List.mem_map_of_mem hpx)

/-- C69, `reduction="mean"` without `dims`: for each sample the average of the cross entropies of its entries.  Missing:
`dims` (`C69_dims_refuted`) and inputs without event dimensions (`C69_scalar_refuted`). -/
theorem C69_mean_partial {hook : UnwrapHook α} (hh : PlainHook hook) (f : List α → α) (inv : Nat → α)
    (h : LossArgs input target) (he : input.eventDims ≠ 0) :
    ∃ r, bCrossEntropy hook f inv [] .mean input target = .ok (.st r false) ∧
      LossIs input target (fun ι => inv (lossEntries f input target ι).length * (lossEntries f input target ι).sum) r := by
  obtain ⟨t, u, r, t1, u1, r1, r2, r3⟩ := crossEntropy_reduced hh f (fun xs => inv xs.length * xs.sum) h he
  refine ⟨r, ?_, r2⟩
  rw [bCrossEntropy, outer_call h]
  rw [allEvents] at r1
  simp only [crossEntropyBody, t1, u1, asSt, List.map_nil, List.append_nil, meanDims, r1, r3]

/-- C69, `reduction="sum"` without `dims`: for each sample the sum of the cross entropies of its entries. -/
theorem C69_sum_partial {hook : UnwrapHook α} (hh : PlainHook hook) (f : List α → α) (inv : Nat → α)
    (h : LossArgs input target) (he : input.eventDims ≠ 0) :
    ∃ r, bCrossEntropy hook f inv [] .sum input target = .ok (.st r false) ∧
      LossIs input target (fun ι => (lossEntries f input target ι).sum) r := by
  obtain ⟨t, u, r, t1, u1, r1, r2, r3⟩ := crossEntropy_reduced hh f List.sum h he
  refine ⟨r, ?_, r2⟩
  rw [bCrossEntropy, outer_call h]
  rw [allEvents] at r1
  simp only [crossEntropyBody, t1, u1, asSt, List.map_nil, List.append_nil, sumDims, r1, r3]

/-- C69, `reduction="none"`: the cross entropy of every entry of every sample. -/
theorem C69_none_partial {hook : UnwrapHook α} (hh : PlainHook hook) (f : List α → α) (inv : Nat → α) (dims : List String)
    (h : LossArgs input target) :
    ∃ r, bCrossEntropy hook f inv dims .none input target = .ok (.st r false) ∧ Proper r ∧ r.eventShape = input.eventShape ∧
      (∀ n, n ∈ r.plates.map Plate.name ↔ n ∈ input.plates.map Plate.name ∨ n ∈ target.plates.map Plate.name) ∧
      ∀ ι e, Ten.InB e input.eventShape → r.sample ι e = f [input.sample ι e, target.sample ι e] := by
  obtain ⟨t, u, t1, u1, u2, u3, u4, u5, u6⟩ := crossEntropy_unreduced hh f h
  refine ⟨u, ?_, u2, u5, u3, u6⟩
  rw [bCrossEntropy, outer_call h]
  simp only [crossEntropyBody, t1, u1, asSt]
  refine wrapOut_st u2 ?_ ?_
  · intro p hp
    obtain ⟨x, hx, hpx⟩ := mem_callPlates hp
    exact h.swap.plain x hx p hpx
  · intro p hp
    rw [u3]
    obtain ⟨x, hx, hpx⟩ := mem_callPlates hp
    simp only [stens, List.mem_cons, List.not_mem_nil, or_false] at hx
    rcases hx with rfl | rfl
    · exact Or.inl (List.mem_map_of_mem hpx)
    · exact Or.inr (List.mem_map_of_mem hpx)

omit [ValEq α] [Semiring α] in
/-- Plates that a returned tensor does not have are put in front. -/
theorem mergePlates_front : ∀ (L news : List (Plate α)), (∀ p ∈ L, p.kind = .plain) →
    ∃ front, mergePlates L news = .ok (front ++ news) ∧ (∀ p ∈ front, p ∈ L) ∧
      ∀ p ∈ L, p.name ∉ news.map Plate.name → ∃ q ∈ front, q.name = p.name
  | [], news, _ => ⟨[], rfl, by simp, by simp⟩
  | p :: L, news, hk => by
    by_cases hn : p.name ∈ news.map Plate.name
    · have h1 : mergePlate p news = .ok news := by
        rw [mergePlate, if_pos]
        · rw [hk p (by simp)]
        · obtain ⟨q, hq, he⟩ := List.mem_map.1 hn
          rw [List.any_eq_true]
          exact ⟨q, hq, by simp [he]⟩
      obtain ⟨front, f1, f2, f3⟩ := mergePlates_front L news (fun q hq => hk q (by simp [hq]))
      refine ⟨front, ?_, fun q hq => List.mem_cons_of_mem _ (f2 q hq), ?_⟩
      · rw [mergePlates, h1]; exact f1
      · intro q hq hqn
        rcases List.mem_cons.1 hq with rfl | hq
        · exact absurd hn hqn
        · exact f3 q hq hqn
    · have h1 : mergePlate p news = .ok (p :: news) := by
        rw [mergePlate, if_neg]
        intro hany
        obtain ⟨q, hq, he⟩ := List.any_eq_true.1 hany
        exact hn (List.mem_map.2 ⟨q, hq, by simpa using he⟩)
      obtain ⟨front, f1, f2, f3⟩ := mergePlates_front L (p :: news) (fun q hq => hk q (by simp [hq]))
      refine ⟨front ++ [p], ?_, ?_, ?_⟩
      · rw [mergePlates, h1]; simpa using f1
      · intro q hq
        rcases List.mem_append.1 hq with hq | hq
        · exact List.mem_cons_of_mem _ (f2 q hq)
        · simp at hq; simp [hq]
      · intro q hq hqn
        by_cases hqp : q.name = p.name
        · exact ⟨p, by simp, hqp.symm⟩
        · rcases List.mem_cons.1 hq with rfl | hq
          · exact absurd rfl hqp
          · obtain ⟨x, hx, hxn⟩ := f3 q hq (by simp only [List.map_cons, List.mem_cons, not_or]; exact ⟨hqp, hqn⟩)
            exact ⟨x, by simp [hx], hxn⟩

/-- C69 is false with `dims`: averaging or summing over a plate as well (`dims` names plates with several samples) always
raises, because the wrapper puts the reduced plate back. -/
theorem C69_dims_refuted {hook : UnwrapHook α} (hh : PlainHook hook) (f : List α → α) (inv : Nat → α)
    (h : LossArgs input target) {dims : List String} (hn : dims.Nodup) (hne : dims ≠ [])
    (hp : ∀ n ∈ dims, ∃ p ∈ input.plates, p.name = n ∧ 1 < p.n) :
    (∃ e, bCrossEntropy hook f inv dims .mean input target = .error e) ∧
    ∃ e, bCrossEntropy hook f inv dims .sum input target = .error e := by
  obtain ⟨t, u, t1, u1, u2, u3, u4, u5, u6⟩ := crossEntropy_unreduced hh f h
  have hpn : ∀ p q, p ∈ input.plates ∨ p ∈ target.plates → q ∈ input.plates ∨ q ∈ target.plates → p.name = q.name →
      p.n = q.n := by
    have key : ∀ x ∈ stens [.st target false, .st input false], ∀ y ∈ stens [.st target false, .st input false],
        ∀ p ∈ x.plates, ∀ q ∈ y.plates, p.name = q.name → p.n = q.n :=
      fun x hx y hy p hp q hq he => (Plate.pyEq_iff.1 (h.good.agree x hx y hy p hp q hq he)).2.1
    rintro p q (hp | hp) (hq | hq)
    · exact key input (by simp [stens]) input (by simp [stens]) p hp q hq
    · exact key input (by simp [stens]) target (by simp [stens]) p hp q hq
    · exact key target (by simp [stens]) input (by simp [stens]) p hp q hq
    · exact key target (by simp [stens]) target (by simp [stens]) p hp q hq
  have hd : GoodDims u (allEvents u ++ dims.map DimArg.plate) := by
    refine goodDims_loss hn ?_
    intro n hnn
    obtain ⟨p, hp1, hp2, hp3⟩ := hp n hnn
    obtain ⟨q, hq, hqn⟩ := List.mem_map.1 ((u3 n).2 (Or.inl (hp2 ▸ List.mem_map_of_mem hp1)))
    refine ⟨q, hq, hqn, ?_⟩
    rw [hpn q p (u4 q hq) (Or.inl hp1) (hqn.trans hp2.symm)]
    exact hp3
  have key : ∀ g : List α → α, ∃ r e, reduceWith hook g u (allEvents u ++ dims.map DimArg.plate) = .ok r ∧
      (Val.st r false).wrapOut (callPlates [.st input false, .st target false]) false = .error e := by
    intro g
    obtain ⟨r, r1, r2, r3, r4, r5⟩ := reduceWith_reduced hh g u2 hd (by simp [hne])
    rw [plateNames_append, plateNames_allEvents, plateNames_plates, List.nil_append] at r3
    rw [eventDimsOf_append, eventDimsOf_allEvents, eventDimsOf_plates, List.append_nil,
      dropDims_range (by rw [STen.eventDims])] at r4
    obtain ⟨n, ns, rfl⟩ := List.exists_cons_of_ne_nil hne
    obtain ⟨p, hp1, hp2, hp3⟩ := hp n (by simp)
    obtain ⟨c, hc, hce⟩ := (GoodOps.firstOcc (ops := [.st input false, .st target false])).complete p (by simp [stens, hp1])
    have hcn : c.name = n := (Plate.pyEq_iff.1 hce).1.trans hp2
    obtain ⟨front, f1, f2, f3⟩ := mergePlates_front (callPlates [.st input false, .st target false]).reverse r.plates (by
      intro q hq
      obtain ⟨x, hx, hpx⟩ := mem_callPlates (List.mem_reverse.1 hq)
      exact h.swap.plain x hx q hpx)
    obtain ⟨q, hq, hqn⟩ := f3 c (List.mem_reverse.2 hc) (by
      rw [r3, hcn]
      intro hm
      obtain ⟨y, hy, hyn⟩ := List.mem_map.1 hm
      have := (List.mem_filter.1 hy).2
      rw [hyn] at this
      simp at this)
    have hqn1 : q.n ≠ 1 := by
      have hq' : q ∈ input.plates ∨ q ∈ target.plates := by
        obtain ⟨x, hx, hpx⟩ := mem_callPlates (List.mem_reverse.1 (f2 q hq))
        simp only [stens, List.mem_cons, List.not_mem_nil, or_false] at hx
        rcases hx with rfl | rfl
        exacts [Or.inl hpx, Or.inr hpx]
      rw [hpn q p hq' (Or.inl hp1) (by rw [hqn, hcn, hp2])]
      omega
    have hmulti : r.plates.filter (fun p => decide (p.n ≠ 1)) = r.multiDimPlates := by
      rw [STen.multiDimPlates]
      apply List.filter_congr
      intro x hx
      have := r2.wf.pos x hx
      simp only [decide_eq_decide]
      omega
    cases hmk : STen.mk' r.ten (front ++ r.plates) with
    | error e =>
      refine ⟨r, e, r1, ?_⟩
      rw [Val.wrapOut]
      simp only [Bool.false_eq_true, if_false, f1, hmk]
    | ok s =>
      exfalso
      rw [STen.mk'] at hmk
      cases hck : STen.checkPlates r.ten.shape (front ++ r.plates) [] 0 with
      | error e => rw [hck] at hmk; cases hmk
      | ok d =>
        have hpre := ((checkPlates_ok_iff _ _ _ _ _).1 hck).2.2.1.length_le
        rw [List.filter_append, hmulti, List.drop_zero, r2.wf.shape, r4, List.append_nil] at hpre
        simp only [List.map_append, List.length_append, List.length_map] at hpre
        have : 0 < (front.filter (fun p => decide (p.n ≠ 1))).length :=
          List.length_pos_of_mem (List.mem_filter.2 ⟨hq, by simpa using hqn1⟩)
        omega
  constructor
  · obtain ⟨r, e, r1, r2⟩ := key (fun xs => inv xs.length * xs.sum)
    refine ⟨e, ?_⟩
    rw [bCrossEntropy, outer_call h]
    rw [allEvents] at r1
    simp only [crossEntropyBody, t1, u1, asSt, meanDims, r1, r2]
  · obtain ⟨r, e, r1, r2⟩ := key List.sum
    refine ⟨e, ?_⟩
    rw [bCrossEntropy, outer_call h]
    rw [allEvents] at r1
    simp only [crossEntropyBody, t1, u1, asSt, sumDims, r1, r2]

/-- C69 is false for inputs without event dimensions: the loss of several scalar samples raises, because the empty tuple
of dimensions stands for all of them. -/
theorem C69_scalar_refuted {hook : UnwrapHook α} (hh : PlainHook hook) (f : List α → α) (inv : Nat → α)
    (h : LossArgs input target) (he : input.eventDims = 0) (hm : ∃ p ∈ input.plates, 1 < p.n) :
    (∃ e, bCrossEntropy hook f inv [] .mean input target = .error e) ∧
    ∃ e, bCrossEntropy hook f inv [] .sum input target = .error e := by
  obtain ⟨t, u, t1, u1, u2, u3, u4, u5, u6⟩ := crossEntropy_unreduced hh f h
  have hue : u.eventDims = 0 := by rw [← he, STen.eventDims, STen.eventDims, u5]
  have hum : ∃ p ∈ u.plates, 1 < p.n := by
    obtain ⟨p, hp, hn⟩ := hm
    obtain ⟨q, hq, hqn⟩ := List.mem_map.1 ((u3 p.name).2 (Or.inl (List.mem_map_of_mem hp)))
    refine ⟨q, hq, ?_⟩
    have : q.n = p.n := by
      rcases u4 q hq with hq' | hq'
      · exact (Plate.pyEq_iff.1 (h.good.agree input (by simp [stens]) input (by simp [stens]) q hq' p hp hqn)).2.1
      · exact (Plate.pyEq_iff.1 (h.good.agree target (by simp [stens]) input (by simp [stens]) q hq' p hp hqn)).2.1
    omega
  constructor
  · obtain ⟨e, r1⟩ := C70_empty_refuted hh (fun xs => inv xs.length * xs.sum) u2 hum
    refine ⟨e, ?_⟩
    rw [bCrossEntropy, outer_call h]
    simp only [crossEntropyBody, t1, u1, asSt, meanDims, hue, List.range'_zero, List.map_nil, List.append_nil, r1]
  · obtain ⟨e, r1⟩ := C70_empty_refuted hh List.sum u2 hum
    refine ⟨e, ?_⟩
    rw [bCrossEntropy, outer_call h]
    simp only [crossEntropyBody, t1, u1, asSt, sumDims, hue, List.range'_zero, List.map_nil, List.append_nil, r1]

end

/-! ### A case that meets the hypotheses -/

namespace LossCase

def z : Plate ℚ := .mk "z" 2 (.torch (.scalar (1 / 2))) .plain []
def b : Plate ℚ := .mk "b" 3 (.torch (.scalar (1 / 3))) .plain []

/-- Reconstructions: for each of 2 samples of each of 3 data, 2 pixels. -/
def recons : STen ℚ := ⟨⟨[2, 3, 2], fun idx => match idx with
  | [i, j, k] => 100 * i + 10 * j + k
  | _ => 0⟩, [z, b], 2⟩

/-- The data. -/
def data : STen ℚ := ⟨⟨[3, 2], fun idx => match idx with
  | [j, k] => 7 * j + k
  | _ => 0⟩, [b], 1⟩

theorem args : LossArgs recons data := by
  refine ⟨⟨?_, ?_, ?_⟩, ?_, by decide, ⟨by decide, by decide⟩⟩
  · intro t ht
    simp only [stens, List.mem_cons, List.not_mem_nil, or_false] at ht
    rcases ht with rfl | rfl
    · exact ⟨by decide, by decide, by decide, by decide⟩
    · exact ⟨by decide, by decide, by decide, by decide⟩
  · intro t ht p hp
    simp only [stens, List.mem_cons, List.not_mem_nil, or_false] at ht
    rcases ht with rfl | rfl
    · simp only [data, List.mem_cons, List.not_mem_nil, or_false] at hp; subst hp; rfl
    · simp only [recons, List.mem_cons, List.not_mem_nil, or_false] at hp; rcases hp with rfl | rfl <;> rfl
  · have hsub : ∀ t ∈ stens [Operand.st data false, .st recons false], ∀ p ∈ t.plates, p = z ∨ p = b := by
      intro t ht p hp
      simp only [stens, List.mem_cons, List.not_mem_nil, or_false] at ht
      rcases ht with rfl | rfl
      · simp only [data, List.mem_cons, List.not_mem_nil, or_false] at hp; exact Or.inr hp
      · simpa only [recons, List.mem_cons, List.not_mem_nil, or_false] using hp
    intro t ht t' ht' p hp q hq he
    rcases hsub t ht p hp with rfl | rfl <;> rcases hsub t' ht' q hq with rfl | rfl
    · exact Plate.pyEq_refl _
    · simp [z, b, Plate.name] at he
    · simp [z, b, Plate.name] at he
    · exact Plate.pyEq_refl _
  · intro p hp _
    simp only [data, List.mem_cons, List.not_mem_nil, or_false] at hp
    subst hp
    exact ⟨b, by simp [recons], rfl⟩

/-- Entry by entry `input - 2 * target`, averaged over the pixels: sample 1 of datum 2. -/
example : ∃ r, bCrossEntropy (fun _ a => .ok a) (fun l => l.headD 0 - 2 * l.getLastD 0) (fun n => 1 / (n : ℚ)) [] .mean
    recons data = .ok (.st r false) ∧ r.sample (fun n => if n = "z" then 1 else 2) [] = 183 / 2 := by
  obtain ⟨r, r1, -, -, -, r2⟩ := C69_mean_partial (hook := fun _ a => .ok a) (fun _ _ _ => rfl)
    (fun l => l.headD 0 - 2 * l.getLastD 0) (fun n => 1 / (n : ℚ)) args (by decide)
  refine ⟨r, r1, ?_⟩
  rw [r2]
  decide +kernel

/-- The same for `C69_sum_partial` and `C69_none_partial`. -/
example : (∃ r, bCrossEntropy (fun _ a => .ok a) (fun l => l.headD 0 - 2 * l.getLastD 0) (fun n => 1 / (n : ℚ)) [] .sum
      recons data = .ok (.st r false) ∧ r.sample (fun n => if n = "z" then 1 else 2) [] = 183) ∧
    ∃ r, bCrossEntropy (fun _ a => .ok a) (fun l => l.headD 0 - 2 * l.getLastD 0) (fun n => 1 / (n : ℚ)) [] .none
      recons data = .ok (.st r false) ∧ r.sample (fun n => if n = "z" then 1 else 2) [1] =
        recons.sample (fun n => if n = "z" then 1 else 2) [1] - 2 * data.sample (fun n => if n = "z" then 1 else 2) [1] := by
  obtain ⟨r, r1, -, -, -, r2⟩ := C69_sum_partial (hook := fun _ a => .ok a) (fun _ _ _ => rfl)
    (fun l => l.headD 0 - 2 * l.getLastD 0) (fun n => 1 / (n : ℚ)) args (by decide)
  obtain ⟨s, s1, -, -, -, s2⟩ := C69_none_partial (hook := fun _ a => .ok a) (fun _ _ _ => rfl)
    (fun l => l.headD 0 - 2 * l.getLastD 0) (fun n => 1 / (n : ℚ)) [] args
  refine ⟨⟨r, r1, ?_⟩, s, s1, ?_⟩
  · rw [r2]
    decide +kernel
  · rw [s2 _ _ (.cons (by decide) .nil)]
    rfl

example : ∃ e, bCrossEntropy (fun _ a => .ok a) (fun l => l.headD 0 - 2 * l.getLastD 0) (fun n => 1 / (n : ℚ)) ["b"] .mean
    recons data = .error e :=
  (C69_dims_refuted (fun _ _ _ => rfl) _ _ args (by simp) (by simp) (by
    intro n hn
    simp only [List.mem_cons, List.not_mem_nil, or_false] at hn
    exact ⟨b, by simp [recons], hn ▸ rfl, by decide⟩)).1

/-- Three scalar predictions and their targets. -/
def scores : STen ℚ := ⟨⟨[3], fun idx => idx.headD 0⟩, [b], 1⟩

theorem scalarArgs : LossArgs scores scores := by
  have hs : ∀ t ∈ stens [Operand.st scores false, .st scores false], t = scores := by
    intro t ht
    simpa only [stens, List.mem_cons, List.not_mem_nil, or_false, or_self] using ht
  have hb : ∀ p ∈ scores.plates, p = b := by
    intro p hp
    simpa only [scores, List.mem_cons, List.not_mem_nil, or_false] using hp
  refine ⟨⟨?_, ?_, ?_⟩, fun p hp _ => ⟨p, hp, rfl⟩, le_rfl, ⟨by decide, by decide⟩⟩
  · intro t ht
    rw [hs t ht]
    exact ⟨by decide, by decide, by decide, by decide⟩
  · intro t ht p hp
    rw [hs t ht] at hp
    rw [hb p hp]; rfl
  · intro t ht t' ht' p hp q hq _
    rw [hs t ht] at hp
    rw [hs t' ht'] at hq
    rw [hb p hp, hb q hq]
    exact Plate.pyEq_refl _

example : ∃ e, bCrossEntropy (fun _ a => .ok a) (fun l => l.headD 0 - 2 * l.getLastD 0) (fun n => 1 / (n : ℚ)) [] .mean
    scores scores = .error e :=
  (C69_scalar_refuted (fun _ _ _ => rfl) _ _ scalarArgs (by decide) ⟨b, by simp [scores], by decide⟩).1

end LossCase

end Storch
