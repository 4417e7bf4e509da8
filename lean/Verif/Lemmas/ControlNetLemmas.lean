import Verif.Model.ControlNet
import Verif.Lemmas.ReduceLemmas
import Verif.Lemmas.RavelLemmas

/-! Calls of torch functions that keep the plates of their only storch argument. -/

namespace Storch
variable {α : Type _} [ValEq α]

/-- A wrapped function of one storch tensor that keeps the plate dimensions. -/
theorem call_keeps {hook : UnwrapHook α} (hh : PlainHook hook) {t : STen α} (h : Proper t) (xs xs' : List (Val α))
    (hx : ∀ (c : Coll α) (m : Nat), collectList xs c m = (c, m))
    (hx' : ∀ cfg mdp ed, unwrapList hook cfg mdp ed xs = .ok xs') {fn : Fn α} {r : Ten α}
    (hfn : fn ⟨.torch t.ten :: xs', []⟩ = .ok (.torch r)) {ev : List Nat}
    (hr : r.shape = t.multiDimPlates.map Plate.n ++ ev) :
    ∃ s, asSt (handleDet hook false false {} fn ⟨.st t false :: xs, []⟩) = .ok s ∧ Proper s ∧ s.plates = t.plates ∧
      s.ten = r ∧ s.eventShape = ev ∧ s.plateDims = t.plateDims := by
  have := handleDet_single hh h false true [] xs xs' hx hx' fn (.torch r) hfn
  rw [show ({ lBroadcast := true, reducePlates := [] } : WCfg) = {} from rfl] at this
  rw [this]
  have hf : t.plates.filter (fun q => !decide (q.name ∈ ([] : List String))) = t.plates := by simp
  rw [hf]
  obtain ⟨s, m1, m2, m3, m4, m5⟩ := checkPlates_ok_of (R := t.plates) h.wf.names h.wf.pos r ev hr
  refine ⟨s, by simp [Val.wrapOut, m1, asSt], ⟨m4, m3 ▸ h.plain⟩, m3, m2, m5, ?_⟩
  rw [m4.dims, h.wf.dims, STen.multiDimPlates, STen.multiDimPlates, m3]

/-- A wrapped function that raises. -/
theorem call_raises (hook : UnwrapHook α) (cfg : WCfg) {fn : Fn α} (hfn : ∀ a, ∃ e, fn a = .error e) (a : Args α) :
    ∃ e, handleDet hook false false cfg fn a = .error e := by
  rw [handleDet, if_neg (by decide)]
  cases prepareArgs hook cfg a with
  | error e => exact ⟨e, rfl⟩
  | ok p =>
    dsimp only
    split
    · cases applyDim (p.plates.filter (fun q => decide (1 < q.n))) cfg.dim a.kw with
      | error e => exact ⟨e, rfl⟩
      | ok kw => exact hfn _
    · obtain ⟨e, he⟩ := hfn p.args
      exact ⟨e, by rw [he]⟩

/-- A wrapped function of one storch tensor that raises on the torch tensor. -/
theorem call_error {hook : UnwrapHook α} (hh : PlainHook hook) {t : STen α} (h : Proper t) (xs xs' : List (Val α))
    (hx : ∀ (c : Coll α) (m : Nat), collectList xs c m = (c, m))
    (hx' : ∀ cfg mdp ed, unwrapList hook cfg mdp ed xs = .ok xs') {fn : Fn α} {e : Err}
    (hfn : fn ⟨.torch t.ten :: xs', []⟩ = .error e) :
    handleDet hook false false {} fn ⟨.st t false :: xs, []⟩ = .error e := by
  rw [handleDet, show ({} : WCfg) = { lBroadcast := true, reducePlates := [] } from rfl,
    prepare_single hh h false true [] xs xs' hx hx']
  simp [hfn]

/-! The pieces of the network. -/

theorem collect_torch (l : List (Ten α)) (c : Coll α) (m : Nat) : collectList (l.map Val.torch) c m = (c, m) := by
  induction l with
  | nil => rfl
  | cons t l ih => simpa [collectList, Val.collect] using ih

theorem unwrap_torch (hook : UnwrapHook α) (l : List (Ten α)) (cfg : WCfg) (mdp : List (Plate α)) (ed : Nat) :
    unwrapList hook cfg mdp ed (l.map Val.torch) = .ok (l.map Val.torch) := by
  induction l with
  | nil => rfl
  | cons t l ih => simp [unwrapList, Val.unwrap, ih]

theorem collect_other (l : List Nat) (c : Coll α) (m : Nat) :
    collectList (l.map (Val.other (α := α))) c m = (c, m) := by
  induction l with
  | nil => rfl
  | cons t l ih => simpa [collectList, Val.collect] using ih

theorem unwrap_other (hook : UnwrapHook α) (l : List Nat) (cfg : WCfg) (mdp : List (Plate α)) (ed : Nat) :
    unwrapList hook cfg mdp ed (l.map (Val.other (α := α))) = .ok (l.map Val.other) := by
  induction l with
  | nil => rfl
  | cons t l ih => simp [unwrapList, Val.unwrap, ih]

section
variable [AddCommMonoid α] [Mul α]

theorem linear_call {hook : UnwrapHook α} (hh : PlainHook hook) {t : STen α} (h : Proper t) {s : List Nat} {d k : Nat}
    (hs : t.eventShape = s ++ [d]) (w b : List Nat → α) :
    ∃ r, asSt (handleDet hook false false {} linearFn ⟨[.st t false, .torch ⟨[k, d], w⟩, .torch ⟨[k], b⟩], []⟩) = .ok r ∧
      Proper r ∧ r.plates = t.plates ∧ r.eventShape = s ++ [k] ∧ r.plateDims = t.plateDims ∧
      ∀ i j, r.ten.get (i ++ [j]) = (∑ l ∈ Finset.range d, t.ten.get (i ++ [l]) * w [j, l]) + b [j] := by
  have hsh : t.ten.shape = (t.multiDimPlates.map Plate.n ++ s) ++ [d] := by rw [h.wf.shape, hs, List.append_assoc]
  obtain ⟨r, r1, r2, r3, r4, r5, r6⟩ := call_keeps hh h [.torch ⟨[k, d], w⟩, .torch ⟨[k], b⟩]
    [.torch ⟨[k, d], w⟩, .torch ⟨[k], b⟩] (collect_torch [_, _]) (unwrap_torch hook [_, _]) (fn := linearFn)
    (by simp only [linearFn, Ten.linear, hsh]; simp only [List.getLast?_append, List.getLast?_singleton, Option.or]; rfl)
    (ev := s ++ [k]) (by simp)
  exact ⟨r, r1, r2, r3, r5, r6, fun i j => by rw [r4]; simp⟩

omit [AddCommMonoid α] [Mul α] in
theorem relu_call {hook : UnwrapHook α} (hh : PlainHook hook) {t : STen α} (h : Proper t) (relu : α → α) :
    ∃ r, asSt (handleDet hook false false {} (reluFn relu) ⟨[.st t false], []⟩) = .ok r ∧
      Proper r ∧ r.plates = t.plates ∧ r.eventShape = t.eventShape ∧ r.plateDims = t.plateDims ∧
      ∀ i, r.ten.get i = relu (t.ten.get i) := by
  obtain ⟨r, r1, r2, r3, r4, r5, r6⟩ := call_keeps hh h [] [] (fun _ _ => rfl) (fun _ _ _ => rfl) (fn := reluFn relu)
    rfl (ev := t.eventShape) h.wf.shape
  exact ⟨r, r1, r2, r3, r5, r6, fun i => by rw [r4]; rfl⟩

omit [AddCommMonoid α] [Mul α] in
theorem squeeze_call {hook : UnwrapHook α} (hh : PlainHook hook) {t : STen α} (h : Proper t) {s : List Nat}
    (hs : t.eventShape = s ++ [1]) :
    ∃ r, asSt (handleDet hook false false {} squeezeLastFn ⟨[.st t false, .other 1], []⟩) = .ok r ∧
      Proper r ∧ r.plates = t.plates ∧ r.eventShape = s ∧ r.plateDims = t.plateDims ∧
      ∀ i, r.ten.get i = t.ten.get (i ++ [0]) := by
  have hsh : t.ten.shape = (t.multiDimPlates.map Plate.n ++ s) ++ [1] := by rw [h.wf.shape, hs, List.append_assoc]
  obtain ⟨r, r1, r2, r3, r4, r5, r6⟩ := call_keeps hh h [.other 1] [.other 1] (collect_other [_]) (unwrap_other hook [_])
    (fn := squeezeLastFn) (r := ⟨t.ten.shape.dropLast, fun idx => t.ten.get (idx ++ [0])⟩)
    (by simp only [squeezeLastFn, Ten.squeezeLast, hsh]; simp)
    (ev := s) (by simp [hsh])
  exact ⟨r, r1, r2, r3, r5, r6, fun i => by rw [r4]⟩

omit [AddCommMonoid α] [Mul α] in
theorem numel_pos_of {l : List Nat} (h : ∀ n ∈ l, 1 ≤ n) : 0 < Ten.numel l := by
  induction l with
  | nil => decide
  | cons d l ih =>
    rw [Ten.numel_cons]
    exact Nat.mul_pos (h d (by simp)) (ih fun n hn => h n (List.mem_cons_of_mem _ hn))

omit [AddCommMonoid α] [Mul α] in
theorem reshape_call {hook : UnwrapHook α} (hh : PlainHook hook) {t : STen α} (h : Proper t) :
    ∃ r, asSt (handleDet hook false false {} (reshapeLastFn (t.ten.shape.take t.plateDims))
        ⟨[.st t false, .tup (((t.ten.shape.take t.plateDims) ++ [1]).map .other)], []⟩) = .ok r ∧
      Proper r ∧ r.plates = t.plates ∧ r.eventShape = [Ten.numel t.eventShape] ∧ r.plateDims = t.plateDims ∧
      ∀ i, Ten.InB i (t.multiDimPlates.map Plate.n) → ∀ e, Ten.InB e t.eventShape →
        r.ten.get (i ++ [Ten.ravel t.eventShape e]) = t.ten.get (i ++ e) := by
  have htake : t.ten.shape.take t.plateDims = t.multiDimPlates.map Plate.n := by
    rw [h.wf.shape, h.wf.dims]
    simp
  have hpos : 0 < Ten.numel (t.multiDimPlates.map Plate.n) := by
    apply numel_pos_of
    intro n hn
    obtain ⟨p, hp, rfl⟩ := List.mem_map.1 hn
    exact h.wf.pos p (List.mem_filter.1 hp).1
  rw [htake]
  have hdiv : Ten.numel t.ten.shape / Ten.numel (t.multiDimPlates.map Plate.n) = Ten.numel t.eventShape := by
    rw [h.wf.shape, Ten.numel_append, Nat.mul_div_cancel_left _ hpos]
  have hx : ∀ (c : Coll α) (m : Nat), collectList [Val.tup ((t.multiDimPlates.map Plate.n ++ [1]).map .other)] c m = (c, m) := by
    intro c m
    simp only [collectList, Val.collect, collect_other]
    simp
  have hx' : ∀ cfg mdp ed, unwrapList hook cfg mdp ed [Val.tup ((t.multiDimPlates.map Plate.n ++ [1]).map .other)] =
      .ok [.tup ((t.multiDimPlates.map Plate.n ++ [1]).map .other)] := by
    intro cfg mdp ed
    simp only [unwrapList, Val.unwrap, unwrap_other]
  obtain ⟨r, r1, r2, r3, r4, r5, r6⟩ := call_keeps hh h _ _ hx hx'
    (fn := reshapeLastFn (t.multiDimPlates.map Plate.n))
    (r := ⟨t.multiDimPlates.map Plate.n ++ [Ten.numel t.eventShape], fun idx =>
      t.ten.get (Ten.unravel t.ten.shape (Ten.ravel (t.multiDimPlates.map Plate.n ++ [Ten.numel t.eventShape]) idx))⟩)
    (by
      simp only [reshapeLastFn, Ten.reshapeLast]
      rw [if_pos (by simp), if_neg (by omega), hdiv, Ten.reshape, if_pos (by
        rw [h.wf.shape, Ten.numel_append, Ten.numel_append]; simp [Ten.numel])])
    (ev := [Ten.numel t.eventShape]) rfl
  refine ⟨r, r1, r2, r3, r5, r6, fun i hi e he => ?_⟩
  rw [r4]
  show t.ten.get _ = _
  congr 1
  rw [Ten.ravel_append hi.length_eq.symm, h.wf.shape]
  simpa [Ten.ravel, Ten.numel] using Ten.unravel_flat hi he

end

section
variable [CommRing α] [Autograd α]

theorem parentLoop_raises (hook : UnwrapHook α) {p : Sampled α} (hp : p.pathwise = false)
    (he : ∀ np rc, ∃ e, p.estimator np rc = .error e) (c : STen α) {ps : List (Sampled α)} (hm : p ∈ ps)
    (st r : Operand α × Operand α) : parentLoop hook c ps st ≠ .ok r := by
  induction ps generalizing st with
  | nil => simp at hm
  | cons q ps ih =>
    intro h
    rw [parentLoop] at h
    rcases List.mem_cons.1 hm with rfl | hm
    · rw [if_neg (by rw [hp]; decide)] at h
      split at h
      · cases h
      · split at h
        · cases h
        · obtain ⟨e, h'⟩ := he _ _
          rw [h'] at h
          cases h
    · split at h
      · exact ih hm _ h
      · split at h
        · cases h
        · split at h
          · cases h
          · split at h
            · cases h
            · split at h
              · cases h
              · exact ih hm _ h

/-- The surrogate loss raises when the estimator of one of the variables that a cost depends on does. -/
theorem surrogate_raises (hook : UnwrapHook α) {p : Sampled α} (hp : p.pathwise = false)
    (he : ∀ np rc, ∃ e, p.estimator np rc = .error e) {costs : List (STen α × List (Sampled α))}
    (hk : ∃ k ∈ costs, p ∈ k.2) (r : STen α) : surrogateLoss hook costs ≠ .ok r := by
  obtain ⟨k, hk, hm⟩ := hk
  have key : ∀ costs : List (STen α × List (Sampled α)), k ∈ costs → ∀ ls, surrogateCosts hook costs ≠ .ok ls := by
    intro costs
    induction costs with
    | nil => simp
    | cons a cs ih =>
      intro hk ls h
      rw [surrogateCosts] at h
      rcases List.mem_cons.1 hk with rfl | hk
      · cases hl : parentLoop hook k.1 k.2 (.torch (.scalar 0), .torch (.scalar 0)) with
        | error e => simp [surrogateCost, hl] at h
        | ok x => exact parentLoop_raises hook hp he k.1 hm _ x hl
      · split at h
        · simp at h
        · split at h
          · simp at h
          · rename_i hcs
            exact ih hk _ hcs
  intro hr
  unfold surrogateLoss at hr
  split at hr
  · simp at hr
  · split at hr
    · simp at hr
    · rename_i hcs
      exact key _ hk _ hcs

end

end Storch
