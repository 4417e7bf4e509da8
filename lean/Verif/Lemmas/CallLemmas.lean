import Verif.Lemmas.BroadcastLemmas
import Verif.Props.CollectProps

/-! From arguments to aligned tensors: what `_prepare_args` hands to the wrapped function when the
arguments are storch and torch tensors. -/

namespace Storch
variable {α : Type _}

theorem mem_stens {ops : List (Operand α)} {t : STen α} :
    t ∈ stens ops ↔ ∃ s, Operand.st t s ∈ ops := by
  induction ops with
  | nil => simp [stens]
  | cons o ops ih =>
    cases o with
    | st u s => simp [stens, ih, exists_or]
    | torch u => simp [stens, ih]

theorem tensorsL_ops (ops : List (Operand α)) : tensorsL (ops.map Operand.val) = stens ops := by
  induction ops with
  | nil => rfl
  | cons o ops ih => cases o <;> simp [tensorsL, Operand.val, Val.tensors, stens, ih]

theorem tensors_opArgs (ops : List (Operand α)) : (opArgs ops).tensors = stens ops := by
  simp [Args.tensors, opArgs, tensorsL_ops, tensorsL]

variable [ValEq α]

/-- The hook is that of ordinary plates: `Plate.on_unwrap_tensor` returns its argument. -/
def PlainHook (hook : UnwrapHook α) : Prop := ∀ p a, p.kind = .plain → hook p a = .ok a

omit [ValEq α] in
theorem hookLoop_plain {hook : UnwrapHook α} (hh : PlainHook hook) (ps : List (Plate α)) (a : STen α)
    (hp : ∀ p ∈ ps, p.kind = .plain) : hookLoop hook ps a = .ok a := by
  induction ps with
  | nil => rfl
  | cons p ps ih =>
    rw [hookLoop, hh p a (hp p (by simp))]
    exact ih (fun x hx => hp x (List.mem_cons_of_mem _ hx))

/-- The plates a wrapped call collects, restricted to those with more than one sample. -/
def callPlates (ops : List (Operand α)) : List (Plate α) := (collectArgs (opArgs ops)).1.plates

def callMdp (ops : List (Operand α)) : List (Plate α) :=
  (callPlates ops).filter (fun p => decide (1 < p.n))

/-- Largest number of event dimensions among the storch operands. -/
def maxEv (ops : List (Operand α)) : Nat := ((stens ops).map STen.eventDims).foldr max 0

/-- The hypotheses under which storch tensors are combined: proper tensors with ordinary, agreeing
plates. -/
structure GoodOps (ops : List (Operand α)) : Prop where
  wf : ∀ t ∈ stens ops, t.WF
  plain : ∀ t ∈ stens ops, ∀ p ∈ t.plates, p.kind = .plain
  agree : ∀ t ∈ stens ops, ∀ t' ∈ stens ops, ∀ p ∈ t.plates, ∀ q ∈ t'.plates,
    p.name = q.name → p.pyEq q = true

theorem GoodOps.plainArgs {ops : List (Operand α)} (h : GoodOps ops) : PlainArgs (opArgs ops) := by
  intro t ht; rw [tensors_opArgs] at ht; exact h.plain t ht

theorem GoodOps.noConflict {ops : List (Operand α)} (h : GoodOps ops) : NoConflict (opArgs ops) := by
  intro t ht t' ht'; rw [tensors_opArgs] at ht ht'; exact h.agree t ht t' ht'

theorem GoodOps.firstOcc {ops : List (Operand α)} :
    FirstOcc (callPlates ops) ((stens ops).flatMap STen.plates) := by
  have := (collectArgs_spec (opArgs ops)).1.plates
  rwa [tensors_opArgs] at this

theorem GoodOps.names {ops : List (Operand α)} (h : GoodOps ops) :
    ((callPlates ops).map Plate.name).Nodup := by
  rcases collect_plain _ h.plainArgs with ⟨_, _, h⟩ | ⟨h', _⟩
  · exact h
  · exact absurd h.noConflict h'

theorem GoodOps.filter {ops : List (Operand α)} (h : GoodOps ops) :
    filterPlates (callPlates ops) (callPlates ops) = .ok (callPlates ops) :=
  C04_no_false_conflict _ h.plainArgs h.noConflict

theorem mem_callPlates {ops : List (Operand α)} {p : Plate α} (hp : p ∈ callPlates ops) :
    ∃ t ∈ stens ops, p ∈ t.plates := by
  have := (GoodOps.firstOcc (ops := ops)).sub.subset hp
  simpa using this

theorem GoodOps.covers {ops : List (Operand α)} (h : GoodOps ops) {t : STen α} (ht : t ∈ stens ops) :
    Covers (callMdp ops) t := by
  refine ⟨h.names.sublist (List.filter_sublist.map _), ?_, ?_, ?_⟩
  · intro p hp; simpa using (List.mem_filter.1 hp).2
  · intro p hp q hq he
    obtain ⟨t', ht', hpt⟩ := mem_callPlates (List.mem_filter.1 hp).1
    exact h.agree t' ht' t ht p hpt q hq he
  · intro q hq
    obtain ⟨hq1, hq2⟩ := List.mem_filter.1 hq
    obtain ⟨p, hp, he⟩ := (GoodOps.firstOcc (ops := ops)).complete q
      (List.mem_flatMap.2 ⟨t, ht, hq1⟩)
    refine List.mem_map.2 ⟨p, ?_, Plate.pyEq_name he⟩
    rw [callMdp, List.mem_filter]
    exact ⟨hp, by simpa [Plate.pyEq_n he] using hq2⟩

theorem GoodOps.plain_mdp {ops : List (Operand α)} (h : GoodOps ops) :
    ∀ p ∈ callMdp ops, p.kind = .plain := by
  intro p hp
  obtain ⟨t, ht, hpt⟩ := mem_callPlates (List.mem_filter.1 hp).1
  exact h.plain t ht p hpt

/-- What the wrapped function sees for one operand: `t` is the aligned tensor. -/
def AlignedOp (M : List (Plate α)) (E : Nat) : Operand α → Ten α → Prop
  | .torch s, t => t = s
  | .st a _, t =>
    t.shape = pdims M (fun p => p.isIn a.plates) ++
      (a.eventShape ++ List.replicate (E - a.eventDims) 1) ∧
    ∀ (ι : String → Nat) (e : List Nat), e.length = E →
      t.get (M.map (fun p => ι p.name) ++ e) =
        a.ten.get (a.multiDimPlates.map (fun p => ι p.name) ++ e.take a.eventDims)

theorem padEv_true {E : Nat} {ev : List Nat} (h : ev.length ≤ E) :
    padEv true E ev = ev ++ List.replicate (E - ev.length) 1 := by
  rw [padEv]
  by_cases h' : ev.length < E
  · simp [h']
  · have : E - ev.length = 0 := by omega
    simp [h', this]

theorem unwrap_ops {hook : UnwrapHook α} (hh : PlainHook hook)
    {M : List (Plate α)} {E : Nat} (cfg : WCfg) (hcfg : cfg = {}) (sub : List (Operand α))
    (hsub : ∀ t ∈ stens sub, t.WF ∧ Covers M t ∧ t.eventDims ≤ E)
    (hM : ∀ p ∈ M, p.kind = .plain) :
    ∃ ts : List (Ten α), unwrapList hook cfg M E (sub.map Operand.val) = .ok (ts.map Val.torch) ∧
      List.Forall₂ (AlignedOp M E) sub ts := by
  subst hcfg
  induction sub with
  | nil => exact ⟨[], rfl, .nil⟩
  | cons o sub ih =>
    obtain ⟨ts, h1, h2⟩ := ih (fun t ht => hsub t (by
      cases o <;> simp [stens, ht]))
    cases o with
    | torch s =>
      refine ⟨s :: ts, ?_, .cons rfl h2⟩
      simp [unwrapList, Operand.val, Val.unwrap, h1]
    | st a s =>
      obtain ⟨hw, hc, he⟩ := hsub a (by simp [stens])
      obtain ⟨t, g1, g2, g3⟩ := align_core true M E a hw hc
      have hpad := padEv_true (E := E) (ev := a.eventShape) he
      refine ⟨t :: ts, ?_, .cons ⟨?_, ?_⟩ h2⟩
      · have := g1 false false
        simp only [Bool.false_eq_true, if_false] at this
        simp [unwrapList, Operand.val, Val.unwrap, h1, unwrapSt, hookLoop_plain hh M a hM, this]
      · rw [g2, hpad]; rfl
      · intro ι e hel
        apply g3
        rw [hpad]
        simp only [STen.eventDims] at he
        simp
        omega

end Storch
