import Verif.Lemmas.DecodePlatesLemmas

/-! Decoding over plates does not raise. -/

namespace Storch.Decode
open Ten (InB)

variable {α β : Type _}

theorem zip_le {a b : List Nat} (h : List.Forall₂ (· ≤ ·) a b) : (a.zip b).all (fun e => decide (e.1 ≤ e.2)) = true := by
  induction h with
  | nil => rfl
  | cons h _ ih => simp [h, ih]

theorem le_refl' (a : List Nat) : List.Forall₂ (· ≤ ·) a a := by
  induction a with
  | nil => exact .nil
  | cons x a ih => exact .cons le_rfl ih

theorem le_append' {a b c d : List Nat} (h : List.Forall₂ (· ≤ ·) a b) (h' : List.Forall₂ (· ≤ ·) c d) :
    List.Forall₂ (· ≤ ·) (a ++ c) (b ++ d) := by
  induction h with
  | nil => exact h'
  | cons h _ ih => exact .cons h ih

theorem split_inB {idx ps es : List Nat} (h : InB idx (ps ++ es)) : ∃ ix c, idx = ix ++ c ∧ InB ix ps ∧ InB c es := by
  induction ps generalizing idx with
  | nil => exact ⟨[], idx, rfl, .nil, h⟩
  | cons p ps ih =>
    cases h with
    | cons h1 h2 =>
      obtain ⟨ix, c, rfl, h3, h4⟩ := ih h2
      exact ⟨_ :: ix, c, rfl, .cons h1 h3, h4⟩

theorem gatherT_ok {ps : List Nat} {t : Ten β} {n : Nat} {e : List Nat} (ht : t.shape = ps ++ n :: e) {index : Ten Nat} {m : Nat}
    {e' : List Nat} (hi : index.shape = ps ++ m :: e') (he : List.Forall₂ (· ≤ ·) e' e)
    (hr : ∀ ix, InB ix ps → ∀ q < m, ∀ c, InB c e' → index.get (ix ++ q :: c) < n) : ∃ out, gatherT t ps.length index = .ok out := by
  refine ⟨⟨index.shape, fun idx => t.get (idx.set ps.length (index.get idx))⟩, ?_⟩
  rw [gatherT, ht, shGet?]
  simp only
  rw [if_pos]
  refine ⟨by simp [hi, he.length_eq], ?_, ?_⟩
  · rw [hi]
    have h1 : ∀ (x : Nat) (l : List Nat), (ps ++ x :: l).eraseIdx ps.length = ps ++ l := by
      intro x l; simp [List.eraseIdx_append_of_length_le]
    rw [h1, h1]
    exact zip_le (le_append' (le_refl' ps) he)
  · rw [List.all_eq_true]
    intro idx hidx
    rw [hi] at hidx
    obtain ⟨ix, c, rfl, h1, h2⟩ := split_inB (mem_allIdx.1 hidx)
    cases h2 with
    | cons h3 h4 => simpa using hr ix h1 _ h3 _ h4

theorem topkT_lt {tk : List Nat → Nat → List (WithBot α) → List α → List Nat} (hp : ∀ ix, Picks (tk ix)) {ps : List Nat}
    {n m : Nat} {G : Ten (WithBot α)} {J : Ten α} (hG : G.shape = ps ++ [n]) (hJ : J.shape = ps ++ [n]) (hm : m ≤ n)
    (ix : List Nat) {q : Nat} (hq : q < m) : (topkT tk m G J).get (ix ++ [q]) < n := by
  obtain ⟨hs, hr⟩ := topkT_row hp hG hJ hm
  obtain ⟨h1, _, h3⟩ := hr ix
  apply h3
  rw [← h1, lastRow_eq hs, List.mem_map]
  exact ⟨q, List.mem_range.2 hq, rfl⟩

theorem mergeLast_ok {ps : List Nat} {a D : Nat} {t : Ten β} (ht : t.shape = ps ++ [a, D]) (h0 : Ten.numel ps ≠ 0) :
    ∃ out, mergeLast t = .ok out := by
  rw [mergeLast, ht]
  have h1 : (ps ++ [a, D]).dropLast.dropLast = ps := by
    rw [show ps ++ [a, D] = (ps ++ [a]) ++ [D] by simp, List.dropLast_concat, List.dropLast_concat]
  rw [h1, if_neg h0, Ten.reshape, if_pos]
  · exact ⟨_, rfl⟩
  · rw [ht, Ten.numel_append, Nat.mul_div_cancel_left _ (by omega), Ten.numel_append]
    simp [Ten.numel]

theorem setItemT_ok {ps events : List Nat} {n m : Nat} {ind : List Nat} {s vals : Ten Nat} (hs : s.shape = ps ++ n :: events)
    (hv : vals.shape = ps ++ [m]) (hmn : m ≤ n) :
    setItemT ps.length s m ind vals = .ok ⟨s.shape, fun idx =>
      if idx.getD ps.length 0 < m ∧ idx.drop (ps.length + 1) = ind then vals.get (idx.take (ps.length + 1)) else s.get idx⟩ := by
  rw [setItemT, if_pos]
  simp [hs, hv, hmn]

/-- What holds of the variables of the loop: `k'` rows of tokens below `D`, parent indices below `kc`. -/
structure GoodT (ps events : List Nat) (k D : Nat) (kc : Option Nat) (b : BeamT α) : Prop where
  sampled : ∃ k', b.sampled.shape = ps ++ k' :: events ∧ (b.joint = none → k' = k) ∧ (b.joint ≠ none → b.amt ≤ k')
  tokens : ∀ idx, InB idx b.sampled.shape → b.sampled.get idx < D
  joint : ∀ j, b.joint = some j → j.shape = ps ++ [b.amt]
  parent : ∀ pi, b.parentIdx = some pi → ∃ q, pi.shape = ps ++ [q] ∧ b.amt ≤ q ∧
    ∀ n, kc = some n → ∀ ix, InB ix ps → ∀ r < q, pi.get (ix ++ [r]) < n
  first : b.joint = none → b.parentIdx = none
  cond : kc ≠ none → b.joint ≠ none ∧ b.parentIdx ≠ none

theorem GoodT.fits {ps events : List Nat} {k D : Nat} {kc : Option Nat} {b : BeamT α} (h : GoodT ps events k D kc b) :
    Fits ps events b :=
  ⟨by obtain ⟨k', h1, _⟩ := h.sampled; exact ⟨k', h1⟩, h.joint, fun pi hpi => by
    obtain ⟨q, hq, _⟩ := h.parent pi hpi; exact ⟨q, hq⟩⟩

theorem allJointT_ok [Add α] {ps events : List Nat} {k D : Nat} {kc : Option Nat} {b : BeamT α} (hb : GoodT ps events k D kc b)
    {lp : Ten α} (hlp : lp.shape = ps ++ (kc.toList ++ D :: events)) {ev : Nat} (hev : ev < Ten.numel events) :
    ∃ all, allJointT ps.length kc.isSome (eventAt lp (Ten.unravel events ev)) b = .ok all := by
  have hys := eventAt_shape hlp hev
  rw [allJointT]
  cases hj : b.joint with
  | none => exact ⟨_, rfl⟩
  | some j =>
    have hjs := hb.joint j hj
    simp only
    cases kc with
    | none =>
      simp only [Option.toList, List.nil_append] at hys
      simp only [Option.isSome_none, Bool.false_eq_true, if_false]
      rw [if_pos (by rw [hjs, hys]; simp)]
      exact ⟨_, rfl⟩
    | some n =>
      simp only [Option.toList] at hys
      simp only [Option.isSome_some, if_true]
      cases hpi : b.parentIdx with
      | none => exact absurd hpi (hb.cond (by simp)).2
      | some pi =>
        obtain ⟨q, hq, haq, hlt⟩ := hb.parent pi hpi
        have hn : (narrowLast pi b.amt).shape = ps ++ [b.amt] := by simp [narrowLast, hq, Nat.min_eq_left haq]
        have hi : (rightExpand (narrowLast pi b.amt) (eventAt lp (Ten.unravel events ev)).shape).shape = ps ++ b.amt :: [D] := by
          simp only [rightExpand, Ten.ndim, hn, hys]
          rw [List.length_append, List.length_singleton, show ps ++ ([n] ++ [D]) = (ps ++ [n]) ++ [D] by simp,
            List.drop_left' (by simp)]
          simp
        have hys' : (eventAt lp (Ten.unravel events ev)).shape = ps ++ n :: [D] := hys
        obtain ⟨y, hy⟩ := gatherT_ok hys' hi (le_refl' [D]) (by
          intro ix hix r hr c _
          show pi.get ((ix ++ r :: c).take (narrowLast pi b.amt).shape.length) < n
          rw [hn, List.length_append, List.length_singleton, ixTake1 hix]
          exact hlt n rfl ix hix r (by omega))
        obtain ⟨hs, _⟩ := gatherT_row hys' hi hy
        simp only [hy]
        rw [if_pos]
        · exact ⟨_, rfl⟩
        · rw [hjs, hs, show ps ++ b.amt :: [D] = (ps ++ [b.amt]) ++ [D] by simp, List.dropLast_concat]

theorem step_ok [Add α] {ps events : List Nat} {k D : Nat} {kc : Option Nat} {eos : Option Nat} (hps : Ten.numel ps ≠ 0)
    {tk : List Nat → Nat → List (WithBot α) → List α → List Nat} (hp : ∀ ix, Picks (tk ix))
    {lp : Ten α} (hlp : lp.shape = ps ++ (kc.toList ++ D :: events)) {ev : Nat} (hev : ev < Ten.numel events) (hD : 0 < D)
    {noise : List Nat → Nat → Nat → WithBot α} {b : BeamT α} (hb : GoodT ps events k D kc b)
    {perturbed : Option (Ten (WithBot α))} :
    ∃ b' p', decodeStepT ps.length k eos tk none kc.isSome (Ten.unravel events ev) (eventAt lp (Ten.unravel events ev)) noise b
      perturbed = .ok (b', p') ∧ GoodT ps events k D kc b' ∧ b'.joint ≠ none := by
  have hys := eventAt_shape hlp hev
  obtain ⟨k', hsam, hk1, hk2⟩ := hb.sampled
  obtain ⟨all, hall⟩ := allJointT_ok hb hlp hev
  rw [decodeStepT, hall]
  simp only [chooseT, applyFinishedT]
  cases hj : b.joint with
  | none =>
    have hcf : kc = none := by
      by_contra hne
      exact (hb.cond hne).1 hj
    subst hcf
    have hys' : (eventAt lp (Ten.unravel events ev)).shape = ps ++ [D] := hys
    rw [allJointT, hj] at hall
    simp only [Except.ok.injEq] at hall
    subst hall
    simp only [Option.isNone_none]
    generalize hGe : noiseT ps.length true noise (eventAt lp (Ten.unravel events ev)).shape = G
    have hGs : G.shape = ps ++ [D] := by rw [← hGe]; exact hys'
    have hlast : G.shape.getLast?.getD 0 = D := by simp [hGs]
    rw [hlast]
    have hal : (topkT tk (min k D) G (eventAt lp (Ten.unravel events ev))).shape = ps ++ [min k D] :=
      (topkT_row hp hGs hys' (Nat.min_le_right k D)).1
    have hlt : ∀ ix, InB ix ps → ∀ q < min k D, ∀ c, InB c [] →
        (topkT tk (min k D) G (eventAt lp (Ten.unravel events ev))).get (ix ++ q :: c) < D := by
      intro ix _ q hq c hc
      cases hc
      exact topkT_lt hp hGs hys' (Nat.min_le_right k D) ix hq
    generalize topkT tk (min k D) G (eventAt lp (Ten.unravel events ev)) = arg at hal hlt
    obtain ⟨pp, hpp⟩ := gatherT_ok hGs hal .nil hlt
    obtain ⟨jj, hjj⟩ := gatherT_ok hys' hal .nil hlt
    have hall2 : arg.shape.getLast?.getD 0 = min k D := by simp [hal]
    have hkk := hk1 hj
    rw [hpp, hjj, hall2]
    simp only
    rw [setItemT_ok hsam hal (by omega)]
    refine ⟨_, _, rfl, ⟨⟨k', hsam, by simp, fun _ => by show min k D ≤ k'; omega⟩, ?_, ?_, ?_, by simp, by simp⟩, by simp⟩
    · intro idx hidx
      show (if _ then _ else _) < D
      split
      · rename_i hc
        obtain ⟨ix, c, rfl, h1, h2⟩ := split_inB (show InB idx (ps ++ k' :: events) by rw [← hsam]; exact hidx)
        cases h2 with
        | cons h3 h4 =>
          rw [ixTake1 h1]
          rw [ixGet h1] at hc
          exact hlt ix h1 _ hc.1 [] .nil
      · exact hb.tokens idx hidx
    · intro j h; cases h; exact (gather_lastRow hys' hal hjj).1
    · intro pi hpi
      rw [show b.parentIdx = none from hb.first hj] at hpi
      cases hpi
  | some j =>
    have hkc : kc.toList.length = if kc.isSome = true then 1 else 0 := by cases kc <;> rfl
    obtain ⟨has0, _⟩ := allJoint_row hb.fits hj hkc hlp hev hall
    simp only [Option.isNone_some]
    have hn0 : (noiseT ps.length false noise all.shape).shape = ps ++ [b.amt, D] := has0
    generalize noiseT ps.length false noise all.shape = G at hn0
    obtain ⟨G', hG'⟩ := mergeLast_ok hn0 hps
    obtain ⟨hGs', _⟩ := mergeLast_row hn0 hG'
    obtain ⟨all', hall'⟩ : ∃ out, all.reshape (ps ++ [b.amt * D]) = .ok out := by
      rw [Ten.reshape, if_pos]
      · exact ⟨_, rfl⟩
      · rw [has0, Ten.numel_append, Ten.numel_append]; simp [Ten.numel]
    obtain ⟨has', _⟩ := reshape_row has0 hall'
    rw [hG']
    simp only
    rw [hGs', hall']
    simp only
    have hlast : (ps ++ [b.amt * D]).getLast?.getD 0 = b.amt * D := by simp
    rw [hlast]
    have hal : (topkT tk (min k (b.amt * D)) G' all').shape = ps ++ [min k (b.amt * D)] :=
      (topkT_row hp hGs' has' (Nat.min_le_right k _)).1
    have hlt : ∀ ix, InB ix ps → ∀ q < min k (b.amt * D), ∀ c, InB c [] →
        (topkT tk (min k (b.amt * D)) G' all').get (ix ++ q :: c) < b.amt * D := by
      intro ix _ q hq c hc
      cases hc
      exact topkT_lt hp hGs' has' (Nat.min_le_right k _) ix hq
    generalize topkT tk (min k (b.amt * D)) G' all' = arg at hal hlt
    obtain ⟨pp, hpp⟩ := gatherT_ok hGs' hal .nil hlt
    obtain ⟨jj, hjj⟩ := gatherT_ok has' hal .nil hlt
    have hall2 : arg.shape.getLast?.getD 0 = min k (b.amt * D) := by simp [hal]
    have hdom : (eventAt lp (Ten.unravel events ev)).shape.getLast?.getD 0 = D := by
      rw [hys, ← List.append_assoc]; simp
    rw [hpp, hjj, hall2, hdom]
    simp only
    have hamt := hk2 (by rw [hj]; simp)
    have hch : (arg.map (· / D)).shape = ps ++ [min k (b.amt * D)] := hal
    have hmo : (arg.map (· % D)).shape = ps ++ [min k (b.amt * D)] := hal
    have hchlt : ∀ ix, InB ix ps → ∀ q < min k (b.amt * D), (arg.map (· / D)).get (ix ++ [q]) < b.amt := by
      intro ix hix q hq
      exact (Nat.div_lt_iff_lt_mul hD).2 (hlt ix hix q hq [] .nil)
    have hi : (rightExpand (arg.map (· / D)) b.sampled.shape).shape = ps ++ min k (b.amt * D) :: events := by
      simp only [rightExpand, Ten.ndim, hch, hsam, List.length_append, List.length_singleton, shDrop1]
      simp
    have hig : ∀ ix, InB ix ps → ∀ q c, (rightExpand (arg.map (· / D)) b.sampled.shape).get (ix ++ q :: c)
        = (arg.map (· / D)).get (ix ++ [q]) := by
      intro ix hix q c
      show (arg.map (· / D)).get ((ix ++ q :: c).take (arg.map (· / D)).shape.length) = _
      rw [hch, List.length_append, List.length_singleton, ixTake1 hix]
    obtain ⟨rows, hrows⟩ := gatherT_ok hsam hi (le_refl' events) (by
      intro ix hix q hq c _
      rw [hig ix hix]
      exact lt_of_lt_of_le (hchlt ix hix q hq) hamt)
    obtain ⟨hrs, hrg⟩ := gatherT_row hsam hi hrows
    rw [hrows]
    simp only
    rw [setItemT_ok hrs hmo le_rfl]
    simp only
    have hjs := (gather_lastRow has' hal hjj).1
    have htok : ∀ idx, InB idx rows.shape → (if idx.getD ps.length 0 < min k (b.amt * D) ∧
        idx.drop (ps.length + 1) = Ten.unravel events ev then (arg.map (· % D)).get (idx.take (ps.length + 1)) else rows.get idx) < D := by
      intro idx hidx
      split
      · exact Nat.mod_lt _ hD
      · obtain ⟨ix, c, rfl, h1, h2⟩ := split_inB (show InB idx (ps ++ min k (b.amt * D) :: events) by rw [← hrs]; exact hidx)
        cases h2 with
        | cons h3 h4 =>
          rw [(hrg ix h1 _ h3 _ h4).2]
          apply hb.tokens
          rw [hsam]
          exact Ten.inB_append h1 (.cons (hrg ix h1 _ h3 _ h4).1 h4)
    cases hpi : b.parentIdx with
    | none =>
      refine ⟨_, _, rfl, ⟨⟨_, hrs, by simp, fun _ => le_rfl⟩, htok, ?_, ?_, by simp, ?_⟩, by simp⟩
      · intro j h; cases h; exact hjs
      · intro pi h; cases h
      · intro hne; exact absurd hpi (hb.cond hne).2
    | some pi =>
      obtain ⟨q, hq, haq, hplt⟩ := hb.parent pi hpi
      obtain ⟨pi', hpi'⟩ := gatherT_ok hq hch .nil (by
        intro ix hix r hr c hc
        cases hc
        exact lt_of_lt_of_le (hchlt ix hix r hr) haq)
      obtain ⟨hps', hpg⟩ := gatherT_row hq hch hpi'
      simp only [hpi']
      refine ⟨_, _, rfl, ⟨⟨_, hrs, by simp, fun _ => le_rfl⟩, htok, ?_, ?_, by simp, ?_⟩, by simp⟩
      · intro j h; cases h; exact hjs
      · intro pi2 h
        cases h
        refine ⟨_, hps', le_rfl, ?_⟩
        intro n hn ix hix r hr
        rw [(hpg ix hix r hr [] .nil).2]
        exact hplt n hn ix hix _ (hpg ix hix r hr [] .nil).1
      · intro _; simp

theorem loop_ok [Add α] {ps events : List Nat} {k D : Nat} {kc : Option Nat} {eos : Option Nat} (hps : Ten.numel ps ≠ 0)
    {tk : List Nat → Nat → List (WithBot α) → List α → List Nat} (hp : ∀ ix, Picks (tk ix))
    {lp : Ten α} (hlp : lp.shape = ps ++ (kc.toList ++ D :: events)) (hD : 0 < D)
    {noise : List Nat → Nat → Nat → Nat → WithBot α} : ∀ {evs : List Nat} (_ : ∀ ev ∈ evs, ev < Ten.numel events) {b : BeamT α}
    (_ : GoodT ps events k D kc b) {perturbed : Option (Ten (WithBot α))},
    ∃ b' p', decodeLoopT ps.length k eos tk none kc.isSome lp events noise evs b perturbed = .ok (b', p') ∧
      GoodT ps events k D kc b' := by
  intro evs
  induction evs with
  | nil => intro _ b hb p; exact ⟨b, p, rfl, hb⟩
  | cons ev evs ih =>
    intro hevs b hb p
    obtain ⟨b1, p1, h1, hb1, _⟩ := step_ok (eos := eos) hps hp hlp (hevs ev List.mem_cons_self) hD (noise := fun ix => noise ix ev)
      hb (perturbed := p)
    obtain ⟨b', p', h2, h3⟩ := ih (fun e he => hevs e (List.mem_cons_of_mem _ he)) hb1 (perturbed := some p1)
    refine ⟨b', p', ?_, h3⟩
    rw [decodeLoopT, h1]
    exact h2

end Storch.Decode
