import Verif.Lemmas.ProposalLemmas
import Verif.Props.ImportanceProps

/-!
# Importance sampling with a proposal that has plates of its own (C40)
-/

namespace Storch

variable {α : Type _} [ValEq α]

/-- A plate that only the proposal has is not counted among the plate dimensions of the sample: the plate is added after the
constructor has counted them (importance_sampling.py:54-60), and the constructor would not have given this tensor.  For all
distributions, proposals and samples. -/
theorem C40_plate_dims_refuted [Ring α] [Div α] [Autograd α] {hook : UnwrapHook α} {inv : Nat → α} {name : String} {n : Nat}
    {ctx : List (Plate α)} {params propParams : List (Operand α)} {sample : Nat → Ten α}
    {logP logQ : STen α → Except Err (STen α)} {x : STen α} {plate : Plate α}
    (h : importance hook inv name n ctx params propParams sample logP logQ = .ok (x, plate)) {t : STen α} {b : Bool}
    (ht : .st t b ∈ propParams) {q : Plate α} (hq : q ∈ t.plates) (hn : q.n ≠ 1) (hname : q.name ≠ name)
    (hnew : ∀ p ∈ methodPlates ctx params, p.name ≠ q.name) :
    x.plateDims < (x.plates.filter (fun p => p.n ≠ 1)).length ∧ STen.mk' x.ten x.plates ≠ .ok x := by
  have key : x.plateDims < (x.plates.filter (fun p => p.n ≠ 1)).length := by
    unfold importance at h
    cases hm : monteCarlo inv name n ctx params sample with
    | error e => simp [hm] at h
    | ok r =>
      obtain ⟨s, p⟩ := r
      simp only [hm] at h
      cases hw : importanceWeight hook logP logQ p.n ⟨s.ten, addPropPlates s.plates propParams, s.plateDims⟩ with
      | error e => simp [hw] at h
      | ok w =>
        simp only [hw, Except.ok.injEq, Prod.mk.injEq] at h
        obtain ⟨rfl, rfl⟩ := h
        -- the sample before the plates of the proposal are added
        have hs : s.plates = p :: methodPlates ctx params ∧ p.name = name ∧ (∀ r ∈ methodPlates ctx params, r.name ≠ name) ∧
            s.plateDims = (s.plates.filter (fun r => r.n ≠ 1)).length := by
          unfold monteCarlo at hm
          simp only at hm
          split at hm
          · simp at hm
          · rename_i hany
            split at hm
            · simp at hm
            · rename_i k ks hk
              split at hm
              · simp at hm
              · split at hm
                · simp at hm
                · rename_i s' hs'
                  simp only [Except.ok.injEq, Prod.mk.injEq] at hm
                  obtain ⟨rfl, rfl⟩ := hm
                  unfold STen.mk' at hs'
                  split at hs'
                  · simp at hs'
                  · rename_i d hd
                    simp only [Except.ok.injEq] at hs'
                    subst hs'
                    refine ⟨rfl, rfl, ?_, ?_⟩
                    · intro r hr e
                      exact hany (List.any_eq_true.2 ⟨r, hr, by simp [e]⟩)
                    · simpa using ((checkPlates_ok_iff ..).1 hd).2.2.2
        obtain ⟨hs1, hs2, hs3, hs4⟩ := hs
        set f : Plate α → Plate α := fun r => if r.name = name then
          Plate.mk p.name p.n (.storch w.ten (w.plates.map Plate.name)) p.kind p.parents else r with hf
        obtain ⟨a1, a2⟩ := addPropPlates_sub s.plates (by rw [hs1]; simp) propParams
        obtain ⟨q', hq', he⟩ := Plate.isIn_iff.1 (a2 t b ht q hq)
        have hqn : q'.name = q.name := Plate.pyEq_name he
        have hqk : q'.n = q.n := Plate.pyEq_n he
        have hcount : ((s.plates.map f).filter (fun r => r.n ≠ 1)).length = s.plateDims := by
          rw [hs4, List.filter_map, List.length_map]
          congr 1
          refine List.filter_congr ?_
          intro r hr
          rw [hs1] at hr
          simp only [Function.comp, hf]
          rcases List.mem_cons.1 hr with rfl | hr
          · have hfr : (f r).n = r.n := by
              simp only [hf, hs2, if_true]
              rfl
            simp only [hf] at hfr
            rw [hfr]
          · simp [hs3 r hr]
        have hsub : ((s.plates.map f).filter (fun r => r.n ≠ 1)).Sublist
            (((addPropPlates s.plates propParams).map f).filter (fun r => r.n ≠ 1)) := (a1.map f).filter _
        have hin : q' ∈ ((addPropPlates s.plates propParams).map f).filter (fun r => r.n ≠ 1) := by
          rw [List.mem_filter]
          refine ⟨List.mem_map.2 ⟨q', hq', ?_⟩, by simp [hqk, hn]⟩
          simp [hf, hqn, hname]
        have hout : q' ∉ (s.plates.map f).filter (fun r => r.n ≠ 1) := by
          rw [List.mem_filter]
          rintro ⟨h1, -⟩
          obtain ⟨r, hr, e⟩ := List.mem_map.1 h1
          rw [hs1] at hr
          rcases List.mem_cons.1 hr with rfl | hr
          · have := congrArg Plate.name e
            simp only [hf, hs2, if_true] at this
            exact hname (this.trans hqn).symm
          · have hfr : f r = r := by simp [hf, hs3 r hr]
            rw [hfr] at e
            exact hnew r hr (by rw [e, hqn])
        show s.plateDims < (((addPropPlates s.plates propParams).map f).filter (fun r => r.n ≠ 1)).length
        rw [← hcount]
        refine lt_of_le_of_ne hsub.length_le ?_
        intro hl
        rw [hsub.eq_of_length hl] at hout
        exact hout hin
  refine ⟨key, ?_⟩
  intro hx
  unfold STen.mk' at hx
  split at hx
  · exact absurd hx (by simp)
  · rename_i d hd
    have h2 := ((checkPlates_ok_iff ..).1 hd).2.2.2
    have h3 : d = x.plateDims := congrArg STen.plateDims (Except.ok.inj hx)
    omega

/-- C40 is false for proposals that have a plate which the distribution does not have: with two samples or more, the
sampling raises whatever the values are.  The parameter of the proposal has the plate `q` and the sample gets it, but with
one plate dimension less than it has plates, so that every element-wise function of the two fails; `hQ` says that `log_prob` of
the proposal starts with such a function, as it does for a normal distribution with its mean as the parameter. -/
theorem C40_proposal_refuted [Ring α] [Div α] [Autograd α] {hook : UnwrapHook α} (hh : PlainHook hook) (inv : Nat → α)
    {name : String} {n : Nat} (hn : 2 ≤ n) {q : Plate α} (hq : q.kind = .plain) (hqn : 2 ≤ q.n) (hname : q.name ≠ name)
    (ev : List Nat) (draw g : List Nat → α) (b : Bool) (u : List α → α) (logP logQ : STen α → Except Err (STen α))
    (hQ : ∀ x e, opCall hook u [.st x false, .st ⟨⟨q.n :: ev, g⟩, [q], 1⟩ b] = .error e → logQ x = .error e) :
    ∃ e, importance hook inv name n [] [] [.st ⟨⟨q.n :: ev, g⟩, [q], 1⟩ b] (fun k => ⟨k :: q.n :: ev, draw⟩) logP logQ =
      .error e := by
  have hmc : monteCarlo inv name n [] [] (fun k => ⟨k :: q.n :: ev, draw⟩) =
      .ok (⟨⟨n :: q.n :: ev, draw⟩, [mcPlate inv name n []], 1⟩, mcPlate inv name n []) := by
    have h1 : (mcPlate inv name n []).n = n := rfl
    simp [monteCarlo, methodPlates, STen.mk', STen.checkPlates, h1, show n ≠ 0 by omega, show n ≠ 1 by omega]
  have hadd : addPropPlates [mcPlate inv name n []] [.st ⟨⟨q.n :: ev, g⟩, [q], 1⟩ b] = [mcPlate inv name n [], q] := by
    have : q.isIn [mcPlate inv name n []] = false := by
      rw [Bool.eq_false_iff]
      intro h
      obtain ⟨r, hr, he⟩ := Plate.isIn_iff.1 h
      rw [List.mem_singleton.1 hr] at he
      exact hname (Plate.pyEq_name he).symm
    simp [addPropPlates, insertPlates, this]
  obtain ⟨e, he⟩ := outer_fails hh (p := mcPlate inv name n []) (q := q) rfl hq (Ne.symm hname) (by show 1 < n; omega) (by omega)
    u draw g b ev
  have hq' := hQ _ e he
  simp only [importance, hmc, hadd]
  have hw : ∃ e, importanceWeight hook logP logQ (mcPlate inv name n []).n
      ⟨⟨n :: q.n :: ev, draw⟩, [mcPlate inv name n [], q], 1⟩ = .error e := by
    unfold importanceWeight
    cases logP ⟨⟨n :: q.n :: ev, draw⟩, [mcPlate inv name n [], q], 1⟩ with
    | error e => exact ⟨e, rfl⟩
    | ok lp =>
      cases hl : opSt hook expElts [lp] with
      | error e => exact ⟨e, by simp [hl]⟩
      | ok p =>
        have hx : logQ ⟨⟨n :: q.n :: ev, draw⟩, [mcPlate inv name n [], q], 1⟩ = .error e := hq'
        exact ⟨e, by simp [hl, hx]⟩
  obtain ⟨e', he'⟩ := hw
  exact ⟨e', by simp [he']⟩

namespace ImportanceCase

/-- The plate of an earlier variable. -/
def plateM : Plate ℚ := .mk "m" 3 (.torch ⟨[], fun _ => 1 / 3⟩) .plain []

/-- The mean of the proposal, a storch tensor over that plate. -/
def mean : STen ℚ := ⟨⟨[3], fun idx => idx.headD 0⟩, [plateM], 1⟩

/-- `log_prob` of a proposal with this mean, up to a constant. -/
def logQ (x : STen ℚ) : Except Err (STen ℚ) :=
  match opCall hook (fun xs => -(xs.headD 0 - xs.getD 1 0) ^ 2) [.st x false, .st mean false] with
  | .error e => .error e
  | .ok (.st r _) => .ok r
  | .ok (.torch _) => .error .attribute

/-- A case for `C40_proposal_refuted`: two samples and a proposal over a plate of size 3. -/
example : ∃ e, importance hook inv "x" 2 [] [] [.st mean false] (fun k => ⟨k :: 3 :: [], fun _ => 1⟩) logProb logQ =
    .error e :=
  C40_proposal_refuted (hook := hook) (fun _ _ _ => rfl) inv le_rfl (q := plateM) rfl (by decide) (by decide) [] _ _ false _ logProb logQ
    (fun x e h => by
      have h' : opCall hook (fun xs => -(xs.headD 0 - xs.getD 1 0) ^ 2) [.st x false, .st mean false] = .error e := h
      unfold logQ
      rw [h'])

/-- With one sample nothing is raised: the weights are computed for all pairs of an entry of the sample and an entry of the
mean, which gives 3 by 3 weights for 3 samples. -/
example : (importance hook inv "x" 1 [] [] [.st mean false] (fun k => ⟨k :: 3 :: [], fun _ => 1⟩) logProb logQ).map
    (fun r => (r.1.ten.shape, r.1.plates.map Plate.name, r.1.plateDims, match r.2.weight with
      | .storch w _ => w.shape
      | _ => [])) = .ok ([3], ["x", "m"], 0, [3, 3]) := by decide +kernel

/-- A case for `C40_plate_dims_refuted`: a proposal whose `log_prob` does not use the parameter element-wise. -/
example : ∃ x p, importance hook inv "x" 2 [] [] [.st mean false] (fun k => ⟨k :: 3 :: [], fun _ => 1⟩) logProb logProb =
      .ok (x, p) ∧ x.plates.map Plate.name = ["x", "m"] ∧ x.plateDims = 1 ∧ STen.mk' x.ten x.plates ≠ .ok x := by
  have h : ∃ r, importance hook inv "x" 2 [] [] [.st mean false] (fun k => ⟨k :: 3 :: [], fun _ => 1⟩) logProb logProb =
      .ok r ∧ r.1.plates.map Plate.name = ["x", "m"] ∧ r.1.plateDims = 1 := by
    cases hr : importance hook inv "x" 2 [] [] [.st mean false] (fun k => ⟨k :: 3 :: [], fun _ => 1⟩) logProb logProb with
    | error e =>
      have : (importance hook inv "x" 2 [] [] [.st mean false] (fun k => ⟨k :: 3 :: [], fun _ => 1⟩) logProb logProb).isOk =
        true := by decide +kernel
      rw [hr] at this
      exact absurd this (by simp [Except.isOk, Except.toBool])
    | ok r =>
      have : (importance hook inv "x" 2 [] [] [.st mean false] (fun k => ⟨k :: 3 :: [], fun _ => 1⟩) logProb logProb).map
        (fun r => (r.1.plates.map Plate.name, r.1.plateDims)) = .ok (["x", "m"], 1) := by decide +kernel
      rw [hr] at this
      simp only [Except.map, Except.ok.injEq, Prod.mk.injEq] at this
      exact ⟨r, rfl, this.1, this.2⟩
  obtain ⟨⟨x, p⟩, h1, h2, h3⟩ := h
  exact ⟨x, p, h1, h2, h3, (C40_plate_dims_refuted h1 (t := mean) (b := false) (by simp) (q := plateM) (by simp [mean])
    (by decide) (by decide) (by simp [methodPlates])).2⟩

end ImportanceCase

end Storch
