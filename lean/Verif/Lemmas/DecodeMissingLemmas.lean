import Verif.Model.DecodeMissing
import Verif.Lemmas.DecodePlatesLemmas

/-! Decoding a variable that lacks plates is decoding the variable with these plates added. -/

namespace Storch.Decode

open Ten (InB)

variable {α β V : Type _}

/-- Two tensors with the same elements. -/
def SameT (t t' : Ten β) : Prop := t.shape = t'.shape ∧ ∀ idx, idx.length = t.shape.length → t.get idx = t'.get idx

theorem unravel_len : ∀ (s : List Nat) (k : Nat), (Ten.unravel s k).length = s.length
  | [], _ => rfl
  | _ :: s, k => by simp [Ten.unravel, unravel_len s]

theorem reshape_same {t t' : Ten β} (h : SameT t t') (s : List Nat) : t.reshape s = t'.reshape s := by
  rw [Ten.reshape, Ten.reshape, h.1]
  congr 2
  congr 1
  funext idx
  rw [h.2 _ (by rw [unravel_len, h.1])]

theorem gather_same {t t' : Ten β} (h : SameT t t') (dim : Nat) (index : Ten Nat) :
    (∃ e, gatherT t dim index = .error e ∧ gatherT t' dim index = .error e) ∨
    ∃ o o', gatherT t dim index = .ok o ∧ gatherT t' dim index = .ok o' ∧ SameT o o' := by
  rw [gatherT, gatherT, h.1]
  cases hd : t'.shape[dim]? with
  | none => exact .inl ⟨_, rfl, rfl⟩
  | some d =>
    simp only
    by_cases hc : index.shape.length = t'.shape.length ∧
        ((index.shape.eraseIdx dim).zip (t'.shape.eraseIdx dim)).all (fun e => decide (e.1 ≤ e.2)) ∧
        (allIdx index.shape).all (fun idx => decide (index.get idx < d))
    · rw [if_pos hc, if_pos hc]
      refine .inr ⟨_, _, rfl, rfl, rfl, fun idx hidx => h.2 _ ?_⟩
      rw [List.length_set, h.1, ← hc.1]
      exact hidx
    · rw [if_neg hc, if_neg hc]
      exact .inl ⟨_, rfl, rfl⟩

theorem choose_same {P k : Nat} {eos : Option Nat} {tk : List Nat → Nat → List (WithBot α) → List α → List Nat}
    {fin : Option (Ten Bool)} {ind : List Nat} {dom : Nat} {noise : List Nat → Nat → Nat → WithBot α} {b : BeamT α}
    {perturbed : Option (Ten (WithBot α))} {j all all' : Ten α} (hj : b.joint = some j) (h : SameT all all') :
    chooseT P k eos tk fin ind dom noise b perturbed all = chooseT P k eos tk fin ind dom noise b perturbed all' := by
  simp only [chooseT, hj, h.1, reshape_same h]

/-- An index of a list of dimensions in three parts. -/
theorem split3 {ps rest e idx : List Nat} (h : idx.length = (ps ++ rest ++ e).length) :
    ∃ ix jx c, idx = ix ++ jx ++ c ∧ ix.length = ps.length ∧ jx.length = rest.length ∧ c.length = e.length := by
  simp only [List.length_append] at h
  refine ⟨idx.take ps.length, (idx.drop ps.length).take rest.length, (idx.drop ps.length).drop rest.length, ?_, ?_, ?_, ?_⟩
  · rw [List.append_assoc, List.take_append_drop, List.take_append_drop]
  all_goals simp only [List.length_take, List.length_drop]; omega

theorem take3 {ix jx : List Nat} (c : List Nat) {P : Nat} (h : ix.length = P) : (ix ++ jx ++ c).take P = ix := by
  rw [List.append_assoc, List.take_left' h]

theorem drop3 {ix jx : List Nat} (c : List Nat) {P Q : Nat} (h : ix.length = P) (h' : jx.length = Q) :
    (ix ++ jx ++ c).drop (P + Q) = c := List.drop_left' (by simp [h, h'])

/-- What the log-probabilities with the plates added have to do with those without. -/
def Adds (ps rest : List Nat) (e : List Nat) (t t' : Ten β) : Prop :=
  t.shape = ps ++ e ∧ t'.shape = ps ++ rest ++ e ∧
    ∀ ix jx c : List Nat, ix.length = ps.length → jx.length = rest.length → c.length = e.length →
      t'.get (ix ++ jx ++ c) = t.get (ix ++ c)

theorem step_missing [Add α] {ps rest events : List Nat} {k : Nat} {eos : Option Nat}
    {tk : List Nat → Nat → List (WithBot α) → List α → List Nat} {fin : Option (Ten Bool)} {lp lp' : Ten α} {D ev : Nat}
    (h : Adds ps rest (D :: events) lp lp') (hev : ev < Ten.numel events) {noise : List Nat → Nat → Nat → WithBot α} {b : BeamT α}
    {j : Ten α} (hj : b.joint = some j) (hjs : j.shape = ps ++ rest ++ [b.amt]) {perturbed : Option (Ten (WithBot α))} :
    decodeStepM ps.length rest.length k eos tk fin false (Ten.unravel events ev) (eventAt lp (Ten.unravel events ev)) noise b perturbed
      = decodeStepT (ps ++ rest).length k eos tk fin false (Ten.unravel events ev) (eventAt lp' (Ten.unravel events ev)) noise b
        perturbed := by
  obtain ⟨h1, h2, h3⟩ := h
  have hs1 : (eventAt lp (Ten.unravel events ev)).shape = ps ++ [D] := eventAt_shape (kc := []) h1 hev
  have hs2 : (eventAt lp' (Ten.unravel events ev)).shape = ps ++ rest ++ [D] := eventAt_shape (ps := ps ++ rest) (kc := []) h2 hev
  have hul : (Ten.unravel events ev).length = events.length := unravel_len _ _
  rw [decodeStepM, decodeStepT, hj]
  simp only
  rw [allJointM, allJointT, hj]
  simp only [Bool.false_eq_true, if_false]
  rw [if_pos (by rw [hjs, hs1, List.dropLast_concat]; simp [Nat.add_assoc]), if_pos (by rw [hjs, hs2, List.dropLast_concat, List.dropLast_concat])]
  simp only
  rw [show (eventAt lp (Ten.unravel events ev)).shape.getLast?.getD 0 = (eventAt lp' (Ten.unravel events ev)).shape.getLast?.getD 0 by
    rw [hs1, hs2]; simp, ← List.length_append]
  refine choose_same hj ⟨?_, ?_⟩
  · simp [hs1, hs2]
  · intro idx hidx
    have hidx' : idx.length = (ps ++ rest ++ [b.amt, D]).length := by
      rw [hidx]; simp [hjs, hs1]
    obtain ⟨ix, jx, c, rfl, hi, hjx, hc⟩ := split3 hidx'
    obtain ⟨r, t, rfl⟩ : ∃ r t, c = [r, t] := by
      match c, hc with
      | [r, t], _ => exact ⟨r, t, rfl⟩
    show j.get _ + lp.get _ = j.get _ + lp'.get _
    congr 1
    rw [take3 _ hi]
    have e1 : (ix ++ jx ++ [r, t]).drop ((ps ++ rest).length + 1) = [t] := by
      rw [show ix ++ jx ++ [r, t] = (ix ++ jx ++ [r]) ++ [t] by simp]
      exact List.drop_left' (by simp [hi, hjx, Nat.add_assoc])
    have e2 : (ix ++ jx ++ [r, t]).eraseIdx (ps ++ rest).length = ix ++ jx ++ [t] := by
      rw [List.eraseIdx_append_of_length_le (by simp [hi, hjx])]
      simp [hi, hjx]
    rw [e1, e2]
    have := h3 ix jx (t :: Ten.unravel events ev) hi hjx (by simp [hul])
    simp only [List.append_assoc, List.cons_append, List.nil_append] at this ⊢
    exact this.symm

theorem loop_missing [Add α] {ps rest events : List Nat} {k : Nat} {eos : Option Nat}
    {tk : List Nat → Nat → List (WithBot α) → List α → List Nat} (hp : ∀ ix, Picks (tk ix)) {fin : Option (Ten Bool)} {lp lp' : Ten α}
    {D : Nat} (h : Adds ps rest (D :: events) lp lp') {noise : List Nat → Nat → Nat → Nat → WithBot α} :
    ∀ {evs : List Nat} (_ : ∀ ev ∈ evs, ev < Ten.numel events) {b : BeamT α} (_ : Fits (ps ++ rest) events b)
      (_ : b.joint.isSome = true) {perturbed : Option (Ten (WithBot α))}
      (_ : ∀ p, perturbed = some p → ∃ n, p.shape = ps ++ rest ++ [n]),
    decodeLoopM ps.length rest.length k eos tk fin false lp events noise evs b perturbed
      = decodeLoopT (ps ++ rest).length k eos tk fin false lp' events noise evs b perturbed := by
  intro evs
  induction evs with
  | nil => intro _ b _ _ p _; rfl
  | cons ev evs ih =>
    intro hevs b hb hjo p hpt
    obtain ⟨j, hj⟩ := Option.isSome_iff_exists.1 hjo
    rw [decodeLoopM, decodeLoopT, step_missing h (hevs ev List.mem_cons_self) hj (hb.joint j hj)]
    cases hs : decodeStepT (ps ++ rest).length k eos tk fin false (Ten.unravel events ev) (eventAt lp' (Ten.unravel events ev))
        (fun ix => noise ix ev) b p with
    | error e => rfl
    | ok r =>
      obtain ⟨b', p'⟩ := r
      obtain ⟨⟨hf, hj', hs'⟩, _⟩ := step_row (ps := ps ++ rest) (kc := []) hp (by simp) h.2.1 (hevs ev List.mem_cons_self) hb
        (by simp) hpt hs
      exact ih (fun e he => hevs e (List.mem_cons_of_mem _ he)) hf hj' (fun q hq => by cases hq; exact ⟨_, hs'⟩)

/-- Moving the domain behind the plates, with and without the plates added. -/
theorem permute_adds {ps rest e : List Nat} {D : Nat} {t t' : Ten β} (hs : t.shape = D :: (ps ++ e))
    (hs' : t'.shape = D :: (ps ++ rest ++ e))
    (hg : ∀ x (ix jx c : List Nat), ix.length = ps.length → jx.length = rest.length → c.length = e.length →
      t'.get (x :: (ix ++ jx ++ c)) = t.get (x :: (ix ++ c))) :
    ∃ o o', permuteT t (List.range' 1 ps.length ++ [0] ++ List.range' (ps.length + 1) (t.ndim - (ps.length + 1))) = .ok o ∧
      permuteT t' (List.range' 1 (ps ++ rest).length ++ [0] ++
        List.range' ((ps ++ rest).length + 1) (t'.ndim - ((ps ++ rest).length + 1))) = .ok o' ∧
      Adds ps rest (D :: e) o o' := by
  have perm : ∀ A B n : Nat, n = 1 + (A + B) → (List.range' 1 A ++ [0] ++ List.range' (A + 1) (n - (A + 1))).Perm (List.range n) := by
    intro A B n hn
    subst hn
    rw [show 1 + (A + B) - (A + 1) = B by omega]
    have : List.range (1 + (A + B)) = [0] ++ List.range' 1 A ++ List.range' (A + 1) B := by
      rw [List.range_eq_range', ← List.range'_append_1, ← List.range'_append_1, Nat.add_comm A 1]
      simp [Nat.add_comm]
    rw [this]
    exact List.perm_append_comm.append_right _
  have hn : t.ndim = 1 + (ps.length + e.length) := by rw [Ten.ndim, hs]; simp; omega
  have hn' : t'.ndim = 1 + ((ps ++ rest).length + e.length) := by rw [Ten.ndim, hs']; simp; omega
  obtain ⟨o, ho⟩ : ∃ o, permuteT t (List.range' 1 ps.length ++ [0] ++ List.range' (ps.length + 1) (t.ndim - (ps.length + 1))) = .ok o := by
    rw [permuteT, if_pos (perm _ _ _ hn)]; exact ⟨_, rfl⟩
  obtain ⟨o', ho'⟩ : ∃ o', permuteT t' (List.range' 1 (ps ++ rest).length ++ [0] ++
      List.range' ((ps ++ rest).length + 1) (t'.ndim - ((ps ++ rest).length + 1))) = .ok o' := by
    rw [permuteT, if_pos (perm _ _ _ hn')]; exact ⟨_, rfl⟩
  refine ⟨o, o', ho, ho', ?_, ?_, ?_⟩
  · rw [permuteT_shape ho, hs]
    exact moveDom _ D ps e rfl _ (by rw [Ten.ndim, hs])
  · rw [permuteT_shape ho', hs']
    exact moveDom _ D (ps ++ rest) e rfl _ (by rw [Ten.ndim, hs'])
  · intro ix jx c hi hj hc
    obtain ⟨x, c, rfl⟩ : ∃ x c', c = x :: c' := by
      cases c with
      | nil => simp at hc
      | cons x c => exact ⟨x, c, rfl⟩
    simp only [List.length_cons, Nat.add_right_cancel_iff] at hc
    have l1 : (x :: (ix ++ c)).length = t.ndim := by rw [hn]; simp [hi, hc]; omega
    have l2 : (x :: (ix ++ jx ++ c)).length = t'.ndim := by rw [hn']; simp [hi, hj, hc]; omega
    have g1 := permuteT_get ho l1
    have g2 := permuteT_get ho' l2
    rw [moveDom _ x ix c hi _ l1.symm] at g1
    rw [moveDom _ x (ix ++ jx) c (by simp [hi, hj]) _ l2.symm] at g2
    rw [g1, g2, hg x ix jx c hi hj hc]

/-- The support with the plates added. -/
theorem expandMissing_same {ps rest e : List Nat} {o o' : Ten β} (h : Adds ps rest e o o') :
    SameT (expandMissing ps.length rest o) o' := by
  obtain ⟨h1, h2, h3⟩ := h
  have hs : (expandMissing ps.length rest o).shape = ps ++ rest ++ e := by simp [expandMissing, h1]
  refine ⟨by rw [hs, h2], fun idx hidx => ?_⟩
  rw [hs] at hidx
  obtain ⟨ix, jx, c, rfl, hi, hj, hc⟩ := split3 hidx
  show o.get ((ix ++ jx ++ c).take ps.length ++ (ix ++ jx ++ c).drop (ps.length + rest.length)) = _
  rw [take3 _ hi, drop3 _ hi hj, h3 ix jx c hi hj hc]

end Storch.Decode
