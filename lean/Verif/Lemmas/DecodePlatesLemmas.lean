import Verif.Model.DecodePlates
import Verif.Lemmas.RaoBlackwellLemmas
import Verif.Lemmas.RavelLemmas
import Verif.Lemmas.PlateLemmas
import Verif.Lemmas.DecodeLemmas

/-! Decoding over plates: what the tensors hold at one index of the plates. -/

namespace Storch.Decode
open Ten (InB)

variable {α β : Type _}

/-! ### Indices -/

section
variable {ix ps : List Nat} (h : InB ix ps)
include h

theorem ixTake (e : List Nat) : (ix ++ e).take ps.length = ix := by
  rw [← h.length_eq, List.take_left]

theorem ixTake1 (r : Nat) (e : List Nat) : (ix ++ r :: e).take (ps.length + 1) = ix ++ [r] := by
  rw [show ix ++ r :: e = (ix ++ [r]) ++ e by simp, ← h.length_eq, List.take_left' (by simp)]

theorem ixDrop1 (r : Nat) (e : List Nat) : (ix ++ r :: e).drop (ps.length + 1) = e := by
  rw [show ix ++ r :: e = (ix ++ [r]) ++ e by simp, ← h.length_eq, List.drop_left' (by simp)]

theorem ixGet (r : Nat) (e : List Nat) : (ix ++ r :: e).getD ps.length 0 = r := by
  rw [← h.length_eq]; simp [List.getD]

theorem ixSet (r v : Nat) (e : List Nat) : (ix ++ r :: e).set ps.length v = ix ++ v :: e := by
  rw [← h.length_eq]; simp

theorem ixErase (r : Nat) (e : List Nat) : (ix ++ r :: e).eraseIdx ps.length = ix ++ e := by
  rw [← h.length_eq]; simp [List.eraseIdx_append_of_length_le]

end

theorem shTake (ps e : List Nat) : (ps ++ e).take ps.length = ps := by simp

theorem shGet? (ps : List Nat) (r : Nat) (e : List Nat) : (ps ++ r :: e)[ps.length]? = some r := by simp

theorem shGet (ps : List Nat) (r : Nat) (e : List Nat) : (ps ++ r :: e).getD ps.length 0 = r := by simp [List.getD]

theorem shDrop1 (ps : List Nat) (r : Nat) (e : List Nat) : (ps ++ r :: e).drop (ps.length + 1) = e := by
  rw [show ps ++ r :: e = (ps ++ [r]) ++ e by simp, List.drop_left' (by simp)]

theorem ravel_unravel : ∀ {s : List Nat} {k : Nat}, k < Ten.numel s → Ten.ravel s (Ten.unravel s k) = k ∧ InB (Ten.unravel s k) s := by
  intro s
  induction s with
  | nil =>
    intro k h
    have : k = 0 := by simpa [Ten.numel] using h
    subst this
    exact ⟨rfl, .nil⟩
  | cons d s ih =>
    intro k h
    rw [Ten.numel_cons] at h
    have hpos : 0 < Ten.numel s := by
      rcases Nat.eq_zero_or_pos (Ten.numel s) with h0 | h0
      · rw [h0, Nat.mul_zero] at h; omega
      · exact h0
    obtain ⟨h1, h2⟩ := ih (Nat.mod_lt k hpos)
    refine ⟨?_, .cons ?_ h2⟩
    · rw [Ten.unravel, Ten.ravel, h1, Nat.mul_comm]
      exact Nat.div_add_mod k _
    · rw [Nat.div_lt_iff_lt_mul hpos]; exact h

theorem unravel_inj {s : List Nat} {k l : Nat} (hk : k < Ten.numel s) (hl : l < Ten.numel s)
    (h : Ten.unravel s k = Ten.unravel s l) : k = l := by
  rw [← (ravel_unravel hk).1, h, (ravel_unravel hl).1]

/-! ### Rows -/

/-- The row of a tensor with plates and one more dimension. -/
theorem lastRow_eq {t : Ten β} {ps : List Nat} {n : Nat} (h : t.shape = ps ++ [n]) (ix : List Nat) :
    lastRow t ix = (List.range n).map (fun q => t.get (ix ++ [q])) := by
  simp [lastRow, h]

/-- The rows of a tensor of tokens at one index of the plates. -/
def rowsL (P : Nat) (events : List Nat) (t : Ten Nat) (ix : List Nat) : List (List Nat) :=
  (List.range (t.shape.getD P 0)).map fun r => (List.range (Ten.numel events)).map fun c => t.get (ix ++ r :: Ten.unravel events c)

/-- The variables of the loop at one index of the plates. -/
def rowBeam (P : Nat) (events : List Nat) (ix : List Nat) (b : BeamT α) : Beam α :=
  ⟨rowsL P events b.sampled ix, b.joint.map (lastRow · ix), b.parentIdx.map (lastRow · ix), b.amt⟩

/-- The mask at one index of the plates. -/
def rowMask (P : Nat) (ix : List Nat) (m : Ten Bool) : Mask :=
  if m.ndim = P + 1 then .rows (lastRow m ix) else .cells

theorem flatten_rows (a D : Nat) (g : Nat → Nat → β) :
    ((List.range a).map (fun r => (List.range D).map (g r))).flatten = (List.range (a * D)).map (fun q => g (q / D) (q % D)) := by
  rcases Nat.eq_zero_or_pos D with hD | hD
  · subst hD; simp
  induction a with
  | zero => simp
  | succ a ih =>
    rw [List.range_succ, List.map_append, List.flatten_append, ih, Nat.succ_mul, List.range_add, List.map_append, List.map_map]
    congr 1
    simp only [List.map_cons, List.map_nil, List.flatten_cons, List.flatten_nil, List.append_nil]
    apply List.map_congr_left
    intro t ht
    rw [List.mem_range] at ht
    simp only [Function.comp]
    rw [Nat.mul_comm a D, Nat.mul_add_div hD, Nat.div_eq_of_lt ht, Nat.mul_add_mod, Nat.mod_eq_of_lt ht, Nat.add_zero]

/-- `gather` at one index of the plates. -/
theorem gatherT_row {ps : List Nat} {t : Ten β} {n : Nat} {e : List Nat} (ht : t.shape = ps ++ n :: e) {index : Ten Nat} {m : Nat}
    {e' : List Nat} (hi : index.shape = ps ++ m :: e') {out : Ten β} (h : gatherT t ps.length index = .ok out) :
    out.shape = ps ++ m :: e' ∧
      ∀ ix, InB ix ps → ∀ q < m, ∀ c, InB c e' → index.get (ix ++ q :: c) < n ∧
        out.get (ix ++ q :: c) = t.get (ix ++ index.get (ix ++ q :: c) :: c) := by
  rw [gatherT, ht, shGet?] at h
  simp only at h
  split at h
  · rename_i hc
    simp only [Except.ok.injEq] at h
    subst h
    refine ⟨hi, ?_⟩
    intro ix hix q hq c hcc
    refine ⟨?_, ?_⟩
    · have := hc.2.2
      rw [List.all_eq_true] at this
      have := this (ix ++ q :: c) (mem_allIdx.2 (by rw [hi]; exact Ten.inB_append hix (.cons hq hcc)))
      simpa using this
    · show t.get _ = _
      rw [ixSet hix]
  · cases h

/-- Merging the last two dimensions. -/
theorem reshape_row {ps : List Nat} {a D : Nat} {t : Ten β} (ht : t.shape = ps ++ [a, D]) {out : Ten β}
    (h : t.reshape (ps ++ [a * D]) = .ok out) :
    out.shape = ps ++ [a * D] ∧ ∀ ix, InB ix ps → ∀ q < a * D, out.get (ix ++ [q]) = t.get (ix ++ [q / D, q % D]) := by
  rw [Ten.reshape] at h
  split at h
  · simp only [Except.ok.injEq] at h
    subst h
    refine ⟨rfl, ?_⟩
    intro ix hix q hq
    have hD : 0 < D := by
      rcases Nat.eq_zero_or_pos D with h0 | h0
      · rw [h0, Nat.mul_zero] at hq; omega
      · exact h0
    show t.get _ = _
    congr 1
    rw [ht, Ten.ravel_append hix.length_eq.symm]
    have h1 : Ten.ravel [a * D] [q] = Ten.ravel [a, D] [q / D, q % D] := by
      simp only [Ten.ravel, Ten.numel, List.foldr_cons, List.foldr_nil, Nat.mul_one, Nat.add_zero]
      rw [Nat.mul_comm, Nat.div_add_mod]
    have h2 : Ten.numel [a * D] = Ten.numel [a, D] := by simp [Ten.numel]
    rw [h1, h2]
    exact Ten.unravel_flat hix (.cons ((Nat.div_lt_iff_lt_mul hD).2 hq) (.cons (Nat.mod_lt q hD) .nil))
  · cases h

theorem mergeLast_row {ps : List Nat} {a D : Nat} {t : Ten β} (ht : t.shape = ps ++ [a, D]) {out : Ten β}
    (h : mergeLast t = .ok out) :
    out.shape = ps ++ [a * D] ∧ ∀ ix, InB ix ps → ∀ q < a * D, out.get (ix ++ [q]) = t.get (ix ++ [q / D, q % D]) := by
  rw [mergeLast, ht] at h
  have h1 : (ps ++ [a, D]).dropLast.dropLast = ps := by
    rw [show ps ++ [a, D] = (ps ++ [a]) ++ [D] by simp, List.dropLast_concat, List.dropLast_concat]
  rw [h1] at h
  split at h
  · cases h
  · rename_i h0
    rw [Ten.numel_append, Nat.mul_div_cancel_left _ (by omega)] at h
    have h2 : Ten.numel [a, D] = a * D := by simp [Ten.numel]
    rw [h2] at h
    exact reshape_row ht h

/-- The chosen indices at one index of the plates. -/
theorem topkT_row {tk : List Nat → Nat → List (WithBot α) → List α → List Nat} (hp : ∀ ix, Picks (tk ix)) {ps : List Nat}
    {n m : Nat} {G : Ten (WithBot α)} {J : Ten α} (hG : G.shape = ps ++ [n]) (hJ : J.shape = ps ++ [n]) (hm : m ≤ n) :
    (topkT tk m G J).shape = ps ++ [m] ∧ ∀ ix,
      lastRow (topkT tk m G J) ix = tk ix m (lastRow G ix) (lastRow J ix) ∧
      (tk ix m (lastRow G ix) (lastRow J ix)).length = m ∧ ∀ i ∈ tk ix m (lastRow G ix) (lastRow J ix), i < n := by
  have hs : (topkT tk m G J).shape = ps ++ [m] := by simp [topkT, hG]
  refine ⟨hs, fun ix => ?_⟩
  have hlG : (lastRow G ix).length = n := by simp [lastRow_eq hG]
  have hlJ : (lastRow J ix).length = n := by simp [lastRow_eq hJ]
  have hl := (hp ix).len m (lastRow G ix) (lastRow J ix) (by omega) (by omega)
  refine ⟨?_, hl, ?_⟩
  · rw [lastRow_eq hs]
    apply List.ext_getElem
    · simp [hl]
    · intro q h1 h2
      simp only [List.getElem_map, List.getElem_range, topkT, List.dropLast_concat, List.getLast?_concat, Option.getD_some]
      rw [List.getD_eq_getElem?_getD, List.getElem?_eq_getElem h2, Option.getD_some]
  · intro i hi
    have := (hp ix).inRange m (lastRow G ix) (lastRow J ix) (by omega) (by omega) i hi
    omega

/-- The elements chosen, at one index of the plates. -/
theorem gather_lastRow {ps : List Nat} {t : Ten β} {n m : Nat} (ht : t.shape = ps ++ [n]) {index : Ten Nat}
    (hi : index.shape = ps ++ [m]) {out : Ten β} (h : gatherT t ps.length index = .ok out) :
    out.shape = ps ++ [m] ∧ ∀ ix, InB ix ps → gatherL (lastRow t ix) (lastRow index ix) = .ok (lastRow out ix) := by
  obtain ⟨h1, h2⟩ := gatherT_row ht hi h
  refine ⟨h1, fun ix hix => ?_⟩
  rw [lastRow_eq ht, lastRow_eq hi, lastRow_eq h1, gatherL_map]
  · rw [List.map_map]
    congr 1
    apply List.map_congr_left
    intro q hq
    rw [List.mem_range] at hq
    exact ((h2 ix hix q hq [] .nil).2).symm
  · intro i hi
    rw [List.mem_map] at hi
    obtain ⟨q, hq, rfl⟩ := hi
    rw [List.mem_range] at hq
    exact (h2 ix hix q hq [] .nil).1

/-! ### One event cell -/

/-- The distribution at one index of the plates, from the log-probabilities in the order plates, samples of the decoder, domain,
events. -/
def rowDist (D : Nat) (events : List Nat) (cond : Bool) (lp : Ten α) (ix : List Nat) : Dist α :=
  ⟨D, events, cond, fun p ev t => lp.get (ix ++ ((if cond then [p] else []) ++ t :: Ten.unravel events ev))⟩

/-- A matrix of the plates, at one index of them. -/
def matL (t : Ten β) (a D : Nat) (ix : List Nat) : List (List β) :=
  (List.range a).map fun r => (List.range D).map fun c => t.get (ix ++ [r, c])

theorem matL_flatten {t t' : Ten β} {a D : Nat} {ps ix : List Nat} (h' : t'.shape = ps ++ [a * D])
    (h : ∀ q < a * D, t'.get (ix ++ [q]) = t.get (ix ++ [q / D, q % D])) : (matL t a D ix).flatten = lastRow t' ix := by
  rw [matL, flatten_rows, lastRow_eq h']
  apply List.map_congr_left
  intro q hq
  rw [h q (List.mem_range.1 hq)]

/-- The shapes of the variables of the loop. -/
structure Fits (ps events : List Nat) (b : BeamT α) : Prop where
  sampled : ∃ k', b.sampled.shape = ps ++ k' :: events
  joint : ∀ j, b.joint = some j → j.shape = ps ++ [b.amt]
  parent : ∀ pi, b.parentIdx = some pi → ∃ q, pi.shape = ps ++ [q]

theorem eventAt_shape {lp : Ten α} {ps events : List Nat} {kc : List Nat} {D ev : Nat} (h : lp.shape = ps ++ (kc ++ D :: events))
    (hev : ev < Ten.numel events) : (eventAt lp (Ten.unravel events ev)).shape = ps ++ (kc ++ [D]) := by
  have hl := (ravel_unravel hev).2.length_eq
  simp only [eventAt, Ten.ndim, h, hl]
  rw [show ps ++ (kc ++ D :: events) = (ps ++ (kc ++ [D])) ++ events by simp]
  rw [List.length_append (bs := events), Nat.add_sub_cancel, List.take_left]

theorem allJoint_row [Add α] {ps events : List Nat} {b : BeamT α} (hb : Fits ps events b) {j : Ten α} (hj : b.joint = some j)
    {cond : Bool} {lp : Ten α} {kc : List Nat} (hkc : kc.length = if cond then 1 else 0) {D ev : Nat}
    (hlp : lp.shape = ps ++ (kc ++ D :: events)) (hev : ev < Ten.numel events) {all : Ten α}
    (h : allJointT ps.length cond (eventAt lp (Ten.unravel events ev)) b = .ok all) :
    all.shape = ps ++ [b.amt, D] ∧ ∀ ix, InB ix ps →
      allJoint (rowDist D events cond lp ix) ev (rowBeam ps.length events ix b) = .ok (matL all b.amt D ix) := by
  have hys := eventAt_shape hlp hev
  have hjs := hb.joint j hj
  rw [allJointT, hj] at h
  simp only at h
  cases cond with
  | true =>
    obtain ⟨kc', rfl⟩ : ∃ kc', kc = [kc'] := by
      match kc, hkc with
      | [x], _ => exact ⟨x, rfl⟩
    simp only [if_true] at h
    cases hpi : b.parentIdx with
    | none => rw [hpi] at h; cases h
    | some pi =>
      obtain ⟨q, hq⟩ := hb.parent pi hpi
      rw [hpi] at h
      simp only at h
      split at h
      · cases h
      · rename_i y hy
        have hn : (narrowLast pi b.amt).shape = ps ++ [min b.amt q] := by simp [narrowLast, hq]
        have hi : (rightExpand (narrowLast pi b.amt) (eventAt lp (Ten.unravel events ev)).shape).shape
            = ps ++ min b.amt q :: [D] := by
          simp only [rightExpand, Ten.ndim, hn, hys]
          rw [List.length_append, List.length_singleton, show ps ++ ([kc'] ++ [D]) = (ps ++ [kc']) ++ [D] by simp,
            List.drop_left' (by simp)]
          simp
        obtain ⟨hs, hg⟩ := gatherT_row (by rw [hys]; rfl) hi hy
        split at h
        · rename_i hsh
          simp only [Except.ok.injEq] at h
          subst h
          have hm : b.amt = min b.amt q := by
            rw [hjs, hs, show ps ++ min b.amt q :: [D] = (ps ++ [min b.amt q]) ++ [D] by simp, List.dropLast_concat] at hsh
            simpa using hsh
          refine ⟨by rw [hm]; exact hs, ?_⟩
          intro ix hix
          rw [allJoint]
          simp only [rowBeam, hj, hpi, Option.map_some, rowDist, if_true]
          rw [lastRow_eq hjs, lastRow_eq hq, ← List.map_take, List.take_range, ← hm]
          rw [if_pos (by simp), List.zipWith_map, List.zipWith_self]
          congr 1
          apply List.map_congr_left
          intro r hr
          rw [List.mem_range] at hr
          apply List.map_congr_left
          intro t ht
          rw [List.mem_range] at ht
          show _ = j.get (ix ++ [r, t]).dropLast + y.get (ix ++ [r, t])
          rw [(hg ix hix r (by omega) [t] (.cons ht .nil)).2]
          rw [show ix ++ [r, t] = (ix ++ [r]) ++ [t] by simp, List.dropLast_concat]
          have h3 : (rightExpand (narrowLast pi b.amt) (eventAt lp (Ten.unravel events ev)).shape).get (ix ++ [r] ++ [t])
              = pi.get (ix ++ [r]) := by
            show pi.get ((ix ++ [r] ++ [t]).take (narrowLast pi b.amt).shape.length) = _
            rw [hn, List.take_left' (by simp [hix.length_eq])]
          rw [h3]
          simp [eventAt]
        · cases h
  | false =>
    obtain rfl : kc = [] := by simpa using hkc
    simp only [Bool.false_eq_true, if_false] at h
    split at h
    · simp only [Except.ok.injEq] at h
      subst h
      rw [List.nil_append] at hys
      refine ⟨by simp [hjs, hys], ?_⟩
      intro ix hix
      rw [allJoint]
      simp only [rowBeam, hj, Option.map_some, rowDist, Bool.false_eq_true, if_false]
      rw [lastRow_eq hjs, List.map_map]
      congr 1
      apply List.map_congr_left
      intro r hr
      apply List.map_congr_left
      intro t ht
      show _ = j.get (ix ++ [r, t]).dropLast + lp.get ((ix ++ [r, t]).eraseIdx ps.length ++ _)
      rw [ixErase hix, show ix ++ [r, t] = (ix ++ [r]) ++ [t] by simp, List.dropLast_concat]
      simp
    · cases h

theorem applyFinished_row {eos : Option Nat} {fin : Option (Ten Bool)} {perturbed : Option (Ten (WithBot α))} {ps : List Nat}
    {a D : Nat} {G0 G : Ten (WithBot α)} (hG : G0.shape = ps ++ [a, D]) (h : applyFinishedT eos fin perturbed G0 = .ok G) :
    G.shape = ps ++ [a, D] ∧ ∀ ix, InB ix ps →
      applyFinished eos (fin.map (rowMask ps.length ix)) (perturbed.map (lastRow · ix)) D (matL G0 a D ix) = .ok (matL G a D ix) := by
  cases fin with
  | none =>
    simp only [applyFinishedT, Except.ok.injEq] at h
    subst h
    exact ⟨hG, fun ix _ => rfl⟩
  | some m =>
    cases eos with
    | none => simp [applyFinishedT] at h
    | some e =>
      cases perturbed with
      | none => simp [applyFinishedT] at h
      | some p =>
        simp only [applyFinishedT] at h
        split at h
        · cases h
        rename_i h1
        split at h
        · cases h
        rename_i h2
        split at h
        · cases h
        rename_i h3
        simp only [Except.ok.injEq] at h
        subst h
        have hm : m.shape = ps ++ [a] := by
          rw [hG, show ps ++ [a, D] = (ps ++ [a]) ++ [D] by simp, List.dropLast_concat] at h3
          exact not_not.1 h3
        have hp : p.shape = ps ++ [a] := by rw [← hm]; exact (not_not.1 h1).symm
        have he : ¬ D ≤ e := by simpa [hG] using h2
        refine ⟨hG, fun ix hix => ?_⟩
        have hr : rowMask ps.length ix m = .rows ((List.range a).map (fun r => m.get (ix ++ [r]))) := by
          rw [rowMask, if_pos (by simp [Ten.ndim, hm]), lastRow_eq hm]
        simp only [Option.map_some, hr, applyFinished, lastRow_eq hp]
        rw [if_neg (by simp), if_neg he, if_neg (by simp [matL])]
        simp only [matL]
        rw [List.zip_map', List.zipWith_map, List.zipWith_self]
        congr 1
        apply List.map_congr_left
        intro r _
        have h4 : ∀ t, (ix ++ [r, t]).dropLast = ix ++ [r] := by
          intro t; rw [show ix ++ [r, t] = (ix ++ [r]) ++ [t] by simp, List.dropLast_concat]
        simp only [h4]
        split
        · apply List.map_congr_left
          intro t _
          simp
        · rfl

theorem setCells_row {ev : Nat} : ∀ {m n : Nat} (_ : m ≤ n) (v : Nat → Nat) (row : Nat → List Nat),
    setCells ev ((List.range m).map v) ((List.range n).map row)
      = .ok ((List.range n).map (fun r => if r < m then (row r).set ev (v r) else row r)) := by
  intro m
  induction m with
  | zero => intro n _ v row; simp [setCells]
  | succ m ih =>
    intro n h v row
    obtain ⟨n, rfl⟩ : ∃ n', n = n' + 1 := ⟨n - 1, by omega⟩
    rw [List.range_succ_eq_map, List.range_succ_eq_map]
    simp only [List.map_cons, List.map_map, setCells]
    have := ih (n := n) (by omega) (v ∘ Nat.succ) (row ∘ Nat.succ)
    rw [this]
    simp [Function.comp_def]

theorem set_map_range (n ev : Nat) (f : Nat → Nat) (v : Nat) :
    ((List.range n).map f).set ev v = (List.range n).map (fun c => if c = ev then v else f c) := by
  apply List.ext_getElem
  · simp
  · intro q h1 h2
    simp only [List.getElem_set, List.getElem_map, List.getElem_range]
    by_cases h : ev = q
    · subst h; simp
    · rw [if_neg h, if_neg (fun e => h e.symm)]

/-- Writing the tokens of one event cell. -/
theorem setItem_row {ps events : List Nat} {n m ev : Nat} {s vals out : Ten Nat} (hs : s.shape = ps ++ n :: events)
    (hv : vals.shape = ps ++ [m]) (hev : ev < Ten.numel events)
    (h : setItemT ps.length s m (Ten.unravel events ev) vals = .ok out) :
    out.shape = ps ++ n :: events ∧ ∀ ix, InB ix ps →
      setCells ev (lastRow vals ix) (rowsL ps.length events s ix) = .ok (rowsL ps.length events out ix) := by
  rw [setItemT] at h
  split at h
  · rename_i hc
    simp only [Except.ok.injEq] at h
    subst h
    refine ⟨hs, fun ix hix => ?_⟩
    have hmn : m ≤ n := by simpa [hs] using hc.1
    rw [lastRow_eq hv]
    simp only [rowsL, hs, shGet]
    rw [setCells_row hmn]
    congr 1
    apply List.map_congr_left
    intro r _
    rw [set_map_range]
    simp only [ixGet hix, ixDrop1 hix, ixTake1 hix]
    by_cases hr : r < m
    · rw [if_pos hr]
      apply List.map_congr_left
      intro c hcc
      rw [List.mem_range] at hcc
      by_cases hce : c = ev
      · subst hce; simp [hr]
      · rw [if_neg hce, if_neg (fun hh => hce (unravel_inj hcc hev hh.2))]
    · rw [if_neg hr]
      apply List.map_congr_left
      intro c _
      rw [if_neg (fun hh => hr hh.1)]
  · cases h

/-- Reordering the samples. -/
theorem gather_rows {ps events : List Nat} {n m : Nat} {s chosen out : Ten Nat} (hs : s.shape = ps ++ n :: events)
    (hc : chosen.shape = ps ++ [m]) (hev : 0 < Ten.numel events)
    (h : gatherT s ps.length (rightExpand chosen s.shape) = .ok out) :
    out.shape = ps ++ m :: events ∧ ∀ ix, InB ix ps →
      gatherL (rowsL ps.length events s ix) (lastRow chosen ix) = .ok (rowsL ps.length events out ix) := by
  have hi : (rightExpand chosen s.shape).shape = ps ++ m :: events := by
    simp only [rightExpand, Ten.ndim, hc, hs, List.length_append, List.length_singleton, shDrop1]
    simp
  obtain ⟨h1, h2⟩ := gatherT_row hs hi h
  refine ⟨h1, fun ix hix => ?_⟩
  have hget : ∀ q c, (rightExpand chosen s.shape).get (ix ++ q :: c) = chosen.get (ix ++ [q]) := by
    intro q c
    show chosen.get ((ix ++ q :: c).take chosen.shape.length) = _
    rw [hc, List.length_append, List.length_singleton, ixTake1 hix]
  simp only [rowsL, hs, h1, shGet]
  rw [lastRow_eq hc, gatherL_map]
  · rw [List.map_map]
    congr 1
    apply List.map_congr_left
    intro q hq
    rw [List.mem_range] at hq
    apply List.map_congr_left
    intro c hcc
    rw [List.mem_range] at hcc
    have := (h2 ix hix q hq _ (ravel_unravel hcc).2).2
    rw [hget] at this
    exact this.symm
  · intro i hi
    rw [List.mem_map] at hi
    obtain ⟨q, hq, rfl⟩ := hi
    rw [List.mem_range] at hq
    have := (h2 ix hix q hq _ (ravel_unravel hev).2).1
    rwa [hget] at this

theorem lastRow_map {γ : Type _} (f : β → γ) (t : Ten β) (ix : List Nat) : lastRow (t.map f) ix = (lastRow t ix).map f := by
  simp [lastRow, Ten.map]

/-- The variables after a step and before it, row by row. -/
theorem step_row [Add α] {ps events : List Nat} {k : Nat} {eos : Option Nat}
    {tk : List Nat → Nat → List (WithBot α) → List α → List Nat} (hp : ∀ ix, Picks (tk ix)) {fin : Option (Ten Bool)} {cond : Bool}
    {lp : Ten α} {kc : List Nat} (hkc : kc.length = if cond then 1 else 0) {D ev : Nat}
    (hlp : lp.shape = ps ++ (kc ++ D :: events)) (hev : ev < Ten.numel events) {noise : List Nat → Nat → Nat → WithBot α}
    {b : BeamT α} (hb : Fits ps events b) (hc : cond = true → b.joint.isSome = true) {perturbed : Option (Ten (WithBot α))}
    (hpt : ∀ p, perturbed = some p → ∃ n, p.shape = ps ++ [n]) {b' : BeamT α} {p' : Ten (WithBot α)}
    (h : decodeStepT ps.length k eos tk fin cond (Ten.unravel events ev) (eventAt lp (Ten.unravel events ev)) noise b perturbed
      = .ok (b', p')) :
    (Fits ps events b' ∧ b'.joint.isSome = true ∧ p'.shape = ps ++ [b'.amt]) ∧
      ∀ ix, InB ix ps →
        decodeStep k eos (tk ix) (fin.map (rowMask ps.length ix)) (rowDist D events cond lp ix) ev (noise ix)
          (rowBeam ps.length events ix b) (perturbed.map (lastRow · ix)) = .ok (rowBeam ps.length events ix b', lastRow p' ix) := by
  have hys := eventAt_shape hlp hev
  obtain ⟨k', hsam⟩ := hb.sampled
  have hev0 : 0 < Ten.numel events := by omega
  rw [decodeStepT] at h
  split at h
  · cases h
  rename_i all hall
  rw [chooseT] at h
  split at h
  · cases h
  rename_i G hG
  cases hj : b.joint with
  | none =>
    have hcf : cond = false := by
      cases cond with
      | false => rfl
      | true => simp [hj] at hc
    subst hcf
    obtain rfl : kc = [] := by simpa using hkc
    rw [List.nil_append] at hys
    rw [allJointT, hj] at hall
    simp only [Except.ok.injEq] at hall
    subst hall
    have hfin : fin = none := by
      cases fin with
      | none => rfl
      | some m =>
        exfalso
        cases eos with
        | none => simp [applyFinishedT] at hG
        | some e =>
          cases perturbed with
          | none => simp [applyFinishedT] at hG
          | some p =>
            obtain ⟨n, hn⟩ := hpt p rfl
            simp only [applyFinishedT] at hG
            split at hG
            · cases hG
            rename_i h1
            split at hG
            · cases hG
            split at hG
            · cases hG
            rename_i h3
            rw [not_not] at h1 h3
            rw [h1, hn, show (noiseT ps.length b.joint.isNone noise (eventAt lp (Ten.unravel events ev)).shape).shape
              = (eventAt lp (Ten.unravel events ev)).shape from rfl, hys, List.dropLast_concat] at h3
            have := congrArg List.length h3
            simp at this
    subst hfin
    simp only [applyFinishedT, Except.ok.injEq] at hG
    subst hG
    rw [hj] at h
    simp only [Option.isNone_none] at h
    generalize hGe : noiseT ps.length true noise (eventAt lp (Ten.unravel events ev)).shape = G at h
    have hGs : G.shape = ps ++ [D] := by rw [← hGe]; exact hys
    have hlast : G.shape.getLast?.getD 0 = D := by simp [hGs]
    rw [hlast] at h
    obtain ⟨has, har⟩ := topkT_row hp hGs hys (Nat.min_le_right k D)
    generalize harg : topkT tk (min k D) G (eventAt lp (Ten.unravel events ev)) = arg at h has har
    split at h
    · rename_i pp jj hgp hgj
      obtain ⟨hps, hpr⟩ := gather_lastRow hGs has hgp
      obtain ⟨hjs, hjr⟩ := gather_lastRow hys has hgj
      have hal : arg.shape.getLast?.getD 0 = min k D := by simp [has]
      rw [hal] at h
      split at h
      · cases h
      · rename_i s hset
        obtain ⟨hss, hsr⟩ := setItem_row hsam has hev hset
        simp only [Except.ok.injEq, Prod.mk.injEq] at h
        obtain ⟨rfl, rfl⟩ := h
        refine ⟨⟨⟨⟨k', hss⟩, ?_, hb.parent⟩, rfl, hps⟩, ?_⟩
        · intro j h; cases h; exact hjs
        · intro ix hix
          obtain ⟨h1, h2, h3⟩ := har ix
          have hG1 : lastRow G ix = (List.range D).map (noise ix 0) := by
            rw [lastRow_eq hGs, ← hGe]
            apply List.map_congr_left
            intro t _
            simp [noiseT, ixTake hix]
          have hy1 : lastRow (eventAt lp (Ten.unravel events ev)) ix
              = (List.range D).map ((rowDist D events false lp ix).logProb 0 ev) := by
            rw [lastRow_eq hys]
            apply List.map_congr_left
            intro t _
            simp [eventAt, rowDist]
          have hal2 : allJoint (rowDist D events false lp ix) ev (rowBeam ps.length events ix b)
              = .ok [lastRow (eventAt lp (Ten.unravel events ev)) ix] := by
            rw [hy1, allJoint]
            simp [rowBeam, hj, rowDist]
          rw [decodeStep, hal2]
          simp only [Option.map_none, applyFinished, List.length_singleton, List.range_one, List.map_cons, List.map_nil,
            List.flatten_cons, List.flatten_nil, List.append_nil]
          rw [show (rowDist D events false lp ix).dom = D from rfl, ← hG1,
            show (lastRow G ix).length = D by rw [hG1]; simp, ← h1, hpr ix hix, hjr ix hix]
          simp only [rowBeam, hj, Option.map_none, Option.map_some]
          rw [hsr ix hix]
          simp only [h1, h2]
    · cases h
    · cases h
  | some j =>
    obtain ⟨has0, har0⟩ := allJoint_row hb hj hkc hlp hev hall
    have hn0 : (noiseT ps.length b.joint.isNone noise all.shape).shape = ps ++ [b.amt, D] := has0
    obtain ⟨hGs, hGr⟩ := applyFinished_row hn0 hG
    rw [hj] at h
    simp only at h
    split at h
    · cases h
    rename_i G' hG'
    split at h
    · cases h
    rename_i all' hall'
    obtain ⟨hGs', hGr'⟩ := mergeLast_row hGs hG'
    rw [hGs'] at hall'
    obtain ⟨has', har'⟩ := reshape_row has0 hall'
    have hlast : G'.shape.getLast?.getD 0 = b.amt * D := by simp [hGs']
    rw [hlast] at h
    obtain ⟨has, har⟩ := topkT_row hp hGs' has' (Nat.min_le_right k (b.amt * D))
    generalize harg : topkT tk (min k (b.amt * D)) G' all' = arg at h has har
    have hdom : (eventAt lp (Ten.unravel events ev)).shape.getLast?.getD 0 = D := by
      rw [hys, ← List.append_assoc]; simp
    rw [hdom] at h
    split at h
    · rename_i pp jj hgp hgj
      obtain ⟨hps, hpr⟩ := gather_lastRow hGs' has hgp
      obtain ⟨hjs, hjr⟩ := gather_lastRow has' has hgj
      have hal : arg.shape.getLast?.getD 0 = min k (b.amt * D) := by simp [has]
      rw [hal] at h
      have hch : (arg.map (· / D)).shape = ps ++ [min k (b.amt * D)] := has
      have hmo : (arg.map (· % D)).shape = ps ++ [min k (b.amt * D)] := has
      split at h
      · cases h
      rename_i rows hrows
      obtain ⟨hrs, hrr⟩ := gather_rows hsam hch hev0 hrows
      split at h
      · cases h
      rename_i s hset
      obtain ⟨hss, hsr⟩ := setItem_row hrs hmo hev hset
      have key : ∀ ix, InB ix ps → decodeStep k eos (tk ix) (fin.map (rowMask ps.length ix)) (rowDist D events cond lp ix) ev
          (noise ix) (rowBeam ps.length events ix b) (perturbed.map (lastRow · ix))
          = match b.parentIdx.map (lastRow · ix) with
            | none => .ok (⟨rowsL ps.length events s ix, some (lastRow jj ix), none, min k (b.amt * D)⟩, lastRow pp ix)
            | some pi => match gatherL pi (lastRow (arg.map (· / D)) ix) with
              | .error e => .error e
              | .ok pi' => .ok (⟨rowsL ps.length events s ix, some (lastRow jj ix), some pi', min k (b.amt * D)⟩, lastRow pp ix) := by
        intro ix hix
        obtain ⟨h1, h2, h3⟩ := har ix
        have hG1 : (matL G b.amt D ix).flatten = lastRow G' ix := matL_flatten hGs' (hGr' ix hix)
        have hA1 : (matL all b.amt D ix).flatten = lastRow all' ix := matL_flatten has' (har' ix hix)
        have hn : (List.range (matL all b.amt D ix).length).map (fun r => (List.range (rowDist D events cond lp ix).dom).map (noise ix r))
            = matL (noiseT ps.length b.joint.isNone noise all.shape) b.amt D ix := by
          simp only [matL, List.length_map, List.length_range, rowDist]
          apply List.map_congr_left
          intro r _
          apply List.map_congr_left
          intro t _
          simp only [noiseT, ixTake hix, ixGet hix, hj]
          simp
        rw [decodeStep, har0 ix hix]
        simp only
        rw [hn, show (rowDist D events cond lp ix).dom = D from rfl, hGr ix hix]
        simp only
        rw [hG1, hA1, show (lastRow G' ix).length = b.amt * D by rw [lastRow_eq hGs']; simp, ← h1, hpr ix hix, hjr ix hix]
        simp only [rowBeam, hj, Option.map_some]
        rw [← lastRow_map, ← lastRow_map, hrr ix hix]
        simp only
        rw [hsr ix hix]
        cases b.parentIdx with
        | none => simp only [Option.map_none, h1, h2]
        | some pi =>
          simp only [Option.map_some, h1, h2]
          cases gatherL (lastRow pi ix) (lastRow (arg.map (· / D)) ix) <;> rfl
      split at h
      · rename_i hpi
        simp only [Except.ok.injEq, Prod.mk.injEq] at h
        obtain ⟨rfl, rfl⟩ := h
        refine ⟨⟨⟨⟨_, hss⟩, ?_, ?_⟩, rfl, hps⟩, ?_⟩
        · intro j h; cases h; exact hjs
        · intro j h; cases h
        · intro ix hix
          rw [key ix hix, hpi]
          rfl
      · rename_i pi hpi
        split at h
        · cases h
        rename_i pi' hpi'
        simp only [Except.ok.injEq, Prod.mk.injEq] at h
        obtain ⟨rfl, rfl⟩ := h
        obtain ⟨q, hq⟩ := hb.parent pi hpi
        obtain ⟨hpis, hpir⟩ := gather_lastRow hq hch hpi'
        refine ⟨⟨⟨⟨_, hss⟩, ?_, ?_⟩, rfl, hps⟩, ?_⟩
        · intro j h; cases h; exact hjs
        · intro j h; cases h; exact ⟨_, hpis⟩
        · intro ix hix
          rw [key ix hix, hpi]
          simp only [Option.map_some, hpir ix hix]
          rfl
    · cases h
    · cases h

/-! ### The loop -/

theorem loop_row [Add α] {ps events : List Nat} {k : Nat} {eos : Option Nat}
    {tk : List Nat → Nat → List (WithBot α) → List α → List Nat} (hp : ∀ ix, Picks (tk ix)) {fin : Option (Ten Bool)} {cond : Bool}
    {lp : Ten α} {kc : List Nat} (hkc : kc.length = if cond then 1 else 0) {D : Nat}
    (hlp : lp.shape = ps ++ (kc ++ D :: events)) {noise : List Nat → Nat → Nat → Nat → WithBot α} :
    ∀ {evs : List Nat} (_ : ∀ ev ∈ evs, ev < Ten.numel events) {b : BeamT α} (_ : Fits ps events b)
      (_ : cond = true → b.joint.isSome = true) {perturbed : Option (Ten (WithBot α))}
      (_ : ∀ p, perturbed = some p → ∃ n, p.shape = ps ++ [n]) {b' : BeamT α} {p' : Option (Ten (WithBot α))}
      (_ : decodeLoopT ps.length k eos tk fin cond lp events noise evs b perturbed = .ok (b', p')),
    (Fits ps events b' ∧ ∀ p, p' = some p → ∃ n, p.shape = ps ++ [n]) ∧
      ∀ ix, InB ix ps →
        decodeLoop k eos (tk ix) (fin.map (rowMask ps.length ix)) (rowDist D events cond lp ix) (noise ix) evs
          (rowBeam ps.length events ix b) (perturbed.map (lastRow · ix))
          = (p'.map (lastRow · ix), .ok (rowBeam ps.length events ix b')) := by
  intro evs
  induction evs with
  | nil =>
    intro _ b hb _ perturbed hpt b' p' h
    simp only [decodeLoopT, Except.ok.injEq, Prod.mk.injEq] at h
    obtain ⟨rfl, rfl⟩ := h
    exact ⟨⟨hb, hpt⟩, fun ix _ => rfl⟩
  | cons ev evs ih =>
    intro hevs b hb hc perturbed hpt b' p' h
    rw [decodeLoopT] at h
    split at h
    · cases h
    · rename_i b1 p1 h1
      obtain ⟨⟨hf, hj, hs⟩, hr⟩ := step_row hp hkc hlp (hevs ev List.mem_cons_self) hb hc hpt h1
      obtain ⟨h2, h3⟩ := ih (fun e he => hevs e (List.mem_cons_of_mem _ he)) hf (fun _ => hj)
        (fun p hp => by cases hp; exact ⟨_, hs⟩) h
      refine ⟨h2, fun ix hix => ?_⟩
      rw [decodeLoop, hr ix hix]
      exact h3 ix hix

/-! ### Cutting the tensor of tokens -/

theorem unravel_concat {s : List Nat} {L c : Nat} (h : c < Ten.numel s * L) :
    Ten.unravel (s ++ [L]) c = Ten.unravel s (c / L) ++ [c % L] := by
  have hL : 0 < L := by
    rcases Nat.eq_zero_or_pos L with h0 | h0
    · rw [h0, Nat.mul_zero] at h; omega
    · exact h0
  have h1 : c / L < Ten.numel s := (Nat.div_lt_iff_lt_mul hL).2 h
  have h2 : InB [c % L] [L] := .cons (Nat.mod_lt c hL) .nil
  have := Ten.unravel_flat (ravel_unravel h1).2 h2
  rw [(ravel_unravel h1).1] at this
  rw [← this]
  congr 1
  simp only [Ten.numel, Ten.ravel, List.foldr_cons, List.foldr_nil, Nat.mul_one, Nat.add_zero]
  rw [Nat.mul_comm, Nat.div_add_mod]

theorem zipIdx_filter (n : Nat) (f : Nat → Nat) (P : Nat → Bool) :
    ((((List.range n).map f).zipIdx).filter (fun e => P e.2)).map Prod.fst = ((List.range n).filter P).map f := by
  have h : ((List.range n).map f).zipIdx = (List.range n).map (fun c => (f c, c)) := by
    apply List.ext_getElem
    · simp
    · intro q h1 h2; simp
  rw [h, List.filter_map, List.map_map]
  rfl

theorem filter_mod (a L m : Nat) :
    (List.range (a * L)).filter (fun c => decide (c % L < m)) =
      (List.range (a * min m L)).map (fun c => c / min m L * L + c % min m L) := by
  rcases Nat.eq_zero_or_pos L with hL | hL
  · subst hL; simp
  have h1 := flatten_rows a L (fun r t => r * L + t)
  have h2 : (List.range (a * L)).map (fun q => q / L * L + q % L) = List.range (a * L) := by
    conv_rhs => rw [← List.map_id (List.range (a * L))]
    apply List.map_congr_left
    intro q _
    rw [Nat.mul_comm, Nat.div_add_mod]; rfl
  rw [← h2, ← h1, List.filter_flatten, ← flatten_rows a (min m L) (fun r t => r * L + t)]
  congr 1
  rw [List.map_map]
  apply List.map_congr_left
  intro r _
  simp only [Function.comp]
  rw [List.filter_map]
  congr 1
  induction L with
  | zero => omega
  | succ L _ =>
    have : ((fun c => decide (c % (L + 1) < m)) ∘ fun t => r * (L + 1) + t) = fun t => decide (t % (L + 1) < m) := by
      funext t
      simp only [Function.comp]
      rw [Nat.mul_comm r, Nat.mul_add_mod]
    rw [this]
    have h3 : (List.range (L + 1)).filter (fun t => decide (t % (L + 1) < m)) = (List.range (L + 1)).filter (fun t => decide (t < m)) := by
      apply List.filter_congr
      intro t ht
      rw [List.mem_range] at ht
      rw [Nat.mod_eq_of_lt ht]
    rw [h3]
    clear h3 this h2 h1 hL
    induction (L + 1) with
    | zero => simp
    | succ n ihn =>
      rw [List.range_succ, List.filter_append, ihn]
      by_cases hn : n < m
      · rw [Nat.min_eq_right (by omega), Nat.min_eq_right (by omega), List.range_succ]
        simp [hn]
      · rw [Nat.min_eq_left (by omega), Nat.min_eq_left (by omega)]
        simp [hn]

/-- The rows of a tensor of tokens, whatever its event dimensions. -/
def tokenRows (P : Nat) (t : Ten Nat) (ix : List Nat) : List (List Nat) := rowsL P (t.shape.drop (P + 1)) t ix

theorem cut_row {ps events : List Nat} {k' : Nat} {s : Ten Nat} (hs : s.shape = ps ++ k' :: events) (amt : Nat) (ix : List Nat) :
    tokenRows ps.length (narrowLast s amt) ix = cutLast events amt (rowsL ps.length events s ix) := by
  rcases List.eq_nil_or_concat events with he | ⟨es, L, he⟩
  · subst he
    have h1 : (narrowLast s amt).shape = ps ++ [min amt k'] := by simp [narrowLast, hs]
    simp only [tokenRows, rowsL, h1, shDrop1, shGet, cutLast, List.getLast?_nil, hs]
    rw [← List.map_take, List.take_range]
    rfl
  · rw [List.concat_eq_append] at he
    subst he
    have h1 : (narrowLast s amt).shape = ps ++ k' :: (es ++ [min amt L]) := by
      simp only [narrowLast, hs]
      rw [show ps ++ k' :: (es ++ [L]) = (ps ++ k' :: es) ++ [L] by simp, List.dropLast_concat, List.getLast?_concat]
      simp
    simp only [tokenRows, rowsL, h1, shDrop1, shGet, cutLast, List.getLast?_concat, hs, List.map_map]
    apply List.map_congr_left
    intro r _
    simp only [Function.comp]
    rw [zipIdx_filter _ _ (fun c => decide (c % L < amt)), Ten.numel_append, Ten.numel_append]
    have h2 : ∀ n, Ten.numel [n] = n := by intro n; simp [Ten.numel]
    rw [h2, h2, filter_mod, List.map_map]
    apply List.map_congr_left
    intro c hc
    rw [List.mem_range] at hc
    simp only [Function.comp]
    have hm : 0 < min amt L := by
      rcases Nat.eq_zero_or_pos (min amt L) with h0 | h0
      · rw [h0, Nat.mul_zero] at hc; omega
      · exact h0
    have hq : c / min amt L < Ten.numel es := (Nat.div_lt_iff_lt_mul hm).2 hc
    have ht : c % min amt L < L := lt_of_lt_of_le (Nat.mod_lt c hm) (Nat.min_le_right _ _)
    have hlt : c / min amt L * L + c % min amt L < Ten.numel es * L := by
      calc c / min amt L * L + c % min amt L < c / min amt L * L + L := by omega
        _ = (c / min amt L + 1) * L := by rw [Nat.succ_mul]
        _ ≤ Ten.numel es * L := Nat.mul_le_mul_right _ hq
    rw [unravel_concat hc, unravel_concat hlt]
    have h3 : (c / min amt L * L + c % min amt L) / L = c / min amt L := by
      rw [Nat.mul_comm, Nat.mul_add_div (by omega), Nat.div_eq_of_lt ht, Nat.add_zero]
    have h4 : (c / min amt L * L + c % min amt L) % L = c % min amt L := by
      rw [Nat.mul_comm, Nat.mul_add_mod, Nat.mod_eq_of_lt ht]
    rw [h3, h4]
    rfl

/-! ### The order of the dimensions -/

theorem permuteT_get {t out : Ten β} {dims : List Nat} (h : permuteT t dims = .ok out) {y : List Nat} (hy : y.length = t.ndim) :
    out.get (dims.map (fun d => y.getD d 0)) = t.get y := by
  rw [permuteT] at h
  split at h
  · rename_i hp
    simp only [Except.ok.injEq] at h
    subst h
    show t.get _ = _
    congr 1
    apply List.ext_getElem
    · simp [hy]
    · intro q h1 h2
      simp only [List.getElem_map, List.getElem_range]
      have hm : q ∈ dims := hp.symm.subset (List.mem_range.2 (by omega))
      have hl := List.idxOf_lt_length_of_mem hm
      rw [List.getD_eq_getElem?_getD, List.getElem?_map, List.getElem?_eq_getElem hl, Option.map_some, Option.getD_some,
        List.getElem_idxOf, List.getD_eq_getElem?_getD, List.getElem?_eq_getElem h2, Option.getD_some]
  · cases h

theorem permuteT_shape {t out : Ten β} {dims : List Nat} (h : permuteT t dims = .ok out) :
    out.shape = dims.map (fun d => t.shape.getD d 0) := by
  rw [permuteT] at h
  split at h
  · simp only [Except.ok.injEq] at h
    subst h; rfl
  · cases h

theorem map_range'_getD (a b c : List Nat) :
    (List.range' a.length b.length).map (fun d => (a ++ (b ++ c)).getD d 0) = b := by
  apply List.ext_getElem
  · simp
  · intro q h1 h2
    simp only [List.getElem_map, List.getElem_range', Nat.one_mul]
    rw [List.getD_eq_getElem?_getD, List.getElem?_append_right (by omega), List.getElem?_append_left (by omega)]
    simp [h2]

/-- Moving the domain behind the plates. -/
theorem moveDom (A : Nat) (t : Nat) (x e : List Nat) (hx : x.length = A) (n : Nat) (hn : n = (t :: (x ++ e)).length) :
    (List.range' 1 A ++ [0] ++ List.range' (A + 1) (n - (A + 1))).map (fun d => (t :: (x ++ e)).getD d 0) = x ++ t :: e := by
  subst hn hx
  have h1 := map_range'_getD [t] x e
  have h2 := map_range'_getD (t :: x) e []
  have h3 : (t :: (x ++ e)).length - (x.length + 1) = e.length := by simp
  rw [h3, List.map_append, List.map_append]
  have h4 : (List.range' 1 x.length).map (fun d => (t :: (x ++ e)).getD d 0) = x := h1
  have h5 : (List.range' (x.length + 1) e.length).map (fun d => (t :: (x ++ e)).getD d 0) = e := by
    simpa using h2
  rw [h4, h5]
  simp

/-- Moving the plate of the decoder behind the others. -/
theorem movePlate (i A p : Nat) (x1 x2 e : List Nat) (h1 : x1.length = i) (h2 : i + 1 + x2.length = A) (n : Nat)
    (hn : n = (x1 ++ p :: (x2 ++ e)).length) :
    (List.range i ++ List.range' (i + 1) (A - (i + 1)) ++ [i] ++ List.range' A (n - A)).map
      (fun d => (x1 ++ p :: (x2 ++ e)).getD d 0) = x1 ++ x2 ++ p :: e := by
  subst hn h1 h2
  have e1 := map_range'_getD [] x1 (p :: (x2 ++ e))
  have e2 := map_range'_getD (x1 ++ [p]) x2 e
  have e3 := map_range'_getD (x1 ++ p :: x2) e []
  have l1 : x1.length + 1 + x2.length - (x1.length + 1) = x2.length := by omega
  have l2 : (x1 ++ p :: (x2 ++ e)).length - (x1.length + 1 + x2.length) = e.length := by simp; omega
  rw [l1, l2, List.map_append, List.map_append, List.map_append]
  have f1 : (List.range x1.length).map (fun d => (x1 ++ p :: (x2 ++ e)).getD d 0) = x1 := by
    rw [List.range_eq_range']; simpa using e1
  have f2 : (List.range' (x1.length + 1) x2.length).map (fun d => (x1 ++ p :: (x2 ++ e)).getD d 0) = x2 := by
    simpa using e2
  have f3 : (List.range' (x1.length + 1 + x2.length) e.length).map (fun d => (x1 ++ p :: (x2 ++ e)).getD d 0) = e := by
    have : (x1 ++ p :: x2).length = x1.length + 1 + x2.length := by simp; omega
    rw [← this]; simpa using e3
  rw [f1, f2, f3]
  simp

end Storch.Decode
