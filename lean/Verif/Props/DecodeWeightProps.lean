import Verif.Props.EosProps
import Mathlib.Tactic.FieldSimp
import Mathlib.Tactic.Linarith

/-!
# Weights of decoded sequences (C41)
-/

namespace Storch.Decode

variable {α : Type _} [Field α]

/-- Specification: the product of the ratios of probabilities along a sequence. -/
def ratio (ex : α → α) (eps : α) : List (Var α × Var α) → List Nat → List Nat → α
  | [], _, _ => 1
  | (v, q) :: vs, h, ts => ex (v.given h 0 (ts.getD 0 0)) / (ex (q.given h 0 (ts.getD 0 0)) + eps) *
      ratio ex eps vs (h ++ ts.take 1) (ts.drop 1)

theorem ratio_snoc (ex : α → α) (eps : α) (v q : Var α) (t : Nat) : ∀ (vs : List (Var α × Var α)) (h ts : List Nat),
    ts.length = vs.length → ratio ex eps (vs ++ [(v, q)]) h (ts ++ [t]) =
      ratio ex eps vs h ts * (ex (v.given (h ++ ts) 0 t) / (ex (q.given (h ++ ts) 0 t) + eps)) := by
  intro vs
  induction vs with
  | nil =>
    intro h ts hts
    have : ts = [] := by simpa using hts
    subst this
    simp [ratio]
  | cons w vs ih =>
    intro h ts hts
    obtain ⟨w1, w2⟩ := w
    cases ts with
    | nil => simp at hts
    | cons a ts =>
      have := ih (h ++ [a]) ts (by simpa using hts)
      simp only [List.cons_append, ratio, List.take_succ_cons, List.take_zero, List.drop_succ_cons, List.drop_zero,
        List.getD_cons_zero, this, List.append_assoc, List.nil_append]
      rw [mul_assoc]

/-- What holds after the variables `vs` were decoded with importance sampling. -/
structure ISGood (ex : α → α) (k : Nat) (eps : α) (vs : List (Var α × Var α)) (s : St α) : Prop where
  idx : s.varIdx = vs.length
  props : s.proposals.length = vs.length
  fin : s.finished = none
  lens : ∀ t ∈ s.seq, t.length = k
  seqs : s.seq.length = vs.length
  len : ∀ r < k, (s.sequence r).length = vs.length
  plate : vs = [] ∧ s.plates = [] ∨ vs ≠ [] ∧ ∃ p ps w, s.plates = p :: ps ∧ p.n = k ∧ p.varIdx < s.varIdx ∧
    p.weight = some w ∧ w.length = k ∧
    ∀ r < k, w[r]? = some ((1 / (k : α)) * ratio ex eps vs [] (s.sequence r))

omit [Field α] in
theorem dist_logProb (v : Var α) (s : St α) (k r : Nat) (hw : s.seq ≠ [] → s.width = k) (hr : r < k) :
    (v.dist s).logProb ((v.dist s).row r) = v.given (s.sequence r) := by
  simp only [Var.dist, Dist.row, Var.given]
  by_cases hd : v.dep = true
  · rw [if_pos hd, if_pos hd]
    by_cases hs : s.seq = []
    · simp [St.sequence, hs]
    · have hw := hw hs
      by_cases h1 : 1 < s.width
      · simp [h1, hd, hs]
      · have : r = 0 := by omega
        subst this
        simp
  · rw [if_neg hd, if_neg hd]

theorem ISGood.rows {ex : α → α} {k : Nat} {eps : α} {vs : List (Var α × Var α)} {s : St α} (h : ISGood ex k eps vs s)
    (st : St α) (hst : st.plates = s.plates) (c : Bool) : st.rowsMC k c = k := by
  unfold St.rowsMC
  split
  · rename_i p ps hp
    rw [hst] at hp
    rcases h.plate with ⟨_, h2⟩ | ⟨_, p', ps', w, h2, h3, _⟩
    · rw [h2] at hp; simp at hp
    · rw [h2] at hp; simp only [List.cons.injEq] at hp; rw [← hp.1, h3]
  · rfl

/-- The state after one more variable, whose distribution does not depend on the sequence. -/
theorem methodSampleIS_eq (ex : α → α) {k : Nat} (hk : (k : α) ≠ 0) {eps : α} {vs : List (Var α × Var α)}
    {v q : Var α} {draw : Nat → Nat} {s : St α} (h : ISGood ex k eps vs s) (hc : (v.dist s).cond = false) :
    ∃ w : Nat → α, (∀ r < k, w r = ratio ex eps vs [] (s.sequence r)) ∧
      ∃ J : List α, methodSampleIS ex k none eps (v.dist s) (q.dist s) draw s = .ok
        (St.mk (some J) none (s.varIdx + 1)
          (APlate.mk k s.varIdx J [] (some (((List.range k).map draw).zipIdx.map (fun e =>
            w e.2 * ex ((v.dist s).logProb ((v.dist s).row e.2) 0 e.1) /
              (k * (ex ((q.dist s).logProb ((q.dist s).row e.2) 0 e.1) + eps))))) :: s.plates)
          none (s.seq ++ [((List.range k).map draw).map (fun t => [t])]) s.perturbed (s.proposals ++ [q.dist s])) := by
  have hpw : ∃ w, parentWeight k s.plates = .ok w ∧ ∀ r < k, w r = ratio ex eps vs [] (s.sequence r) := by
    rcases h.plate with ⟨h1, h2⟩ | ⟨h1, p', ps', w, h2, h3, _, h4, h5, h6⟩
    · rw [h1, h2]
      exact ⟨_, rfl, fun r _ => rfl⟩
    · rw [h2]
      refine ⟨fun r => w.getD r 0 * k, by simp only [parentWeight, h4], ?_⟩
      intro r hr
      simp only [List.getD, h6 r hr, Option.getD_some]
      field_simp
  obtain ⟨w, hw1, hw2⟩ := hpw
  have hpar : ∀ st : St α, st.plates = s.plates → st.varIdx = s.varIdx → st.parentOk k = true := by
    intro st h1 h2
    unfold St.parentOk
    rw [h1, h2]
    rcases h.plate with ⟨h3, h4⟩ | ⟨_, p', ps', w, h3, h4, h5, _⟩
    · rw [h4]; simp [h.idx, h3]
    · rw [h3]; simp [h4, h5]
  have hlen : (((List.range k).map draw).map (fun t => [t])).length = k := by simp
  have hprop : (s.proposals ++ [q.dist s])[s.varIdx]? = some (q.dist s) := by
    rw [List.getElem?_append_right (by rw [h.idx, h.props]), h.idx, h.props]
    simp
  refine ⟨w, hw2, ((List.range k).map draw).zipIdx.map (fun e => (v.dist s).logProb ((v.dist s).row e.2) 0 e.1), ?_⟩
  unfold methodSampleIS
  rw [if_neg (by simp [hc])]
  simp only [sampleIS, sampleMC, h.fin, Mask.truth, forceEos, finishedOf]
  rw [h.rows (St.mk s.joint s.parentIdx s.varIdx s.plates none s.seq s.perturbed (s.proposals ++ [q.dist s])) rfl, hlen]
  unfold createPlate
  rw [hpar (St.mk none none s.varIdx s.plates none s.seq s.perturbed (s.proposals ++ [q.dist s])) rfl rfl]
  simp only [Bool.not_true, Bool.false_eq_true, if_false, sizeBad, weightIS, weightISCell, hprop, hw1, Option.getD_none]

theorem methodSampleIS_good (ex : α → α) {k : Nat} (hk : (k : α) ≠ 0) {eps : α} {vs : List (Var α × Var α)}
    {v q : Var α} {draw : Nat → Nat} {s s' : St α} (h : ISGood ex k eps vs s)
    (hs : methodSampleIS ex k none eps (v.dist s) (q.dist s) draw s = .ok s') :
    ISGood ex k eps (vs ++ [(v, q)]) s' := by
  have hw : s.seq ≠ [] → s.width = k := by
    intro hne
    rw [St.width, List.getLast?_eq_some_getLast hne]
    exact h.lens _ (List.getLast_mem hne)
  have hc : (v.dist s).cond = false := by
    cases hc : (v.dist s).cond with
    | false => rfl
    | true => simp [methodSampleIS, hc] at hs
  obtain ⟨w, hw2, J, he⟩ := methodSampleIS_eq ex hk (q := q) (draw := draw) h hc
  rw [he, Except.ok.injEq] at hs
  have hseq : s'.seq = s.seq ++ [((List.range k).map draw).map (fun t => [t])] := by rw [← hs]
  have hsr : ∀ r < k, s'.sequence r = s.sequence r ++ [draw r] := by
    intro r hr
    simp [St.sequence, hseq, List.getD, hr]
  refine ⟨?_, ?_, ?_, ?_, ?_, ?_, Or.inr ⟨by simp, ?_⟩⟩
  · rw [← hs]; simp [h.idx]
  · rw [← hs]; simp [h.props]
  · rw [← hs]
  · intro t ht
    rw [hseq] at ht
    rcases List.mem_append.1 ht with ht | ht
    · exact h.lens t ht
    · rw [List.mem_singleton.1 ht]; simp
  · rw [hseq]; simp [h.seqs]
  · intro r hr; rw [hsr r hr]; simp [h.len r hr]
  · refine ⟨_, _, _, by rw [← hs], rfl, by rw [← hs]; exact Nat.lt_succ_self _, rfl, by simp, ?_⟩
    intro r hr
    have hget : ((List.range k).map draw).zipIdx[r]? = some (draw r, r) := by simp [hr]
    rw [List.getElem?_map, hget, Option.map_some]
    simp only [Option.some.injEq]
    rw [hsr r hr, ratio_snoc ex eps v q (draw r) vs [] _ (h.len r hr), List.nil_append, hw2 r hr,
      dist_logProb v s k r hw hr, dist_logProb q s k r hw hr]
    simp only [div_eq_mul_inv, mul_inv]
    ring

theorem runIS_good (ex : α → α) {k : Nat} (hk : (k : α) ≠ 0) {eps : α} : ∀ (ws : List (Var α × Var α × (Nat → Nat)))
    (vs : List (Var α × Var α)) (s s' : St α), ISGood ex k eps vs s → runIS ex k eps ws s = .ok s' →
    ISGood ex k eps (vs ++ ws.map (fun w => (w.1, w.2.1))) s' := by
  intro ws
  induction ws with
  | nil => intro vs s s' h hs; simp only [runIS, Except.ok.injEq] at hs; subst hs; simpa using h
  | cons w ws ih =>
    intro vs s s' h hs
    obtain ⟨v, q, draw⟩ := w
    simp only [runIS] at hs
    split at hs
    · simp at hs
    · rename_i s1 h1
      have := ih _ s1 s' (methodSampleIS_good ex hk h h1) hs
      simpa using this

/-- C41: the weight of each of the `k` sequences after any number of variables is `1/k` times the product of the ratios
`p / (q + eps)` along the sequence; the proposals may depend on the sequence.  Missing from the full claim: variables with
event dimensions (`C41_events_refuted`), and distributions that depend on the sequence raise (`C41_dependent_refuted`). -/
theorem C41_partial (ex : α → α) (k : Nat) (hk : (k : α) ≠ 0) (eps : α) (ws : List (Var α × Var α × (Nat → Nat)))
    (hne : ws ≠ []) (_hev : ∀ w ∈ ws, w.1.events = [] ∧ w.2.1.events = []) (s : St α)
    (hs : runIS ex k eps ws blank = .ok s) :
    ∃ p ps, s.plates = p :: ps ∧ p.weight =
      some ((List.range k).map (fun r => 1 / (k : α) * ratio ex eps (ws.map (fun w => (w.1, w.2.1))) [] (s.sequence r))) := by
  have h0 : ISGood ex k eps [] (blank : St α) := by
    refine ⟨rfl, rfl, rfl, ?_, rfl, ?_, Or.inl ⟨rfl, rfl⟩⟩
    · intro t ht; simp [blank] at ht
    · intro r _; rfl
  have hg := runIS_good ex hk ws [] blank s h0 hs
  rw [List.nil_append] at hg
  rcases hg.plate with ⟨h1, _⟩ | ⟨_, p, ps, w, h1, h2, _, h3, h4, h5⟩
  · exact absurd h1 (by simpa using hne)
  · refine ⟨p, ps, h1, ?_⟩
    rw [h3]
    congr 1
    apply List.ext_getElem?
    intro r
    by_cases hr : r < k
    · rw [h5 r hr]; simp [hr]
    · rw [List.getElem?_eq_none (by omega), List.getElem?_eq_none (by simp; omega)]

/-- C41: decoding does not raise for distributions that do not depend on the sequence. -/
theorem C41_total_partial (ex : α → α) (k : Nat) (hk : (k : α) ≠ 0) (eps : α) (ws : List (Var α × Var α × (Nat → Nat)))
    (_hev : ∀ w ∈ ws, w.1.events = [] ∧ w.2.1.events = []) (hd : ∀ w ∈ ws, w.1.dep = false) : ∃ s, runIS ex k eps ws blank = .ok s := by
  have key : ∀ (ws : List (Var α × Var α × (Nat → Nat))) (vs : List (Var α × Var α)) (s : St α),
      ISGood ex k eps vs s → (∀ w ∈ ws, w.1.dep = false) → ∃ s', runIS ex k eps ws s = .ok s' := by
    intro ws
    induction ws with
    | nil => intro vs s _ _; exact ⟨s, rfl⟩
    | cons w ws ih =>
      intro vs s h hd
      obtain ⟨v, q, draw⟩ := w
      have hvd : v.dep = false := hd _ List.mem_cons_self
      have hone : ∃ s1, methodSampleIS ex k none eps (v.dist s) (q.dist s) draw s = .ok s1 := by
        obtain ⟨w, _, J, he⟩ := methodSampleIS_eq ex hk (q := q) (draw := draw) h
          (show (v.dist s).cond = false by simp [Var.dist, hvd])
        exact ⟨_, he⟩
      obtain ⟨s1, h1⟩ := hone
      obtain ⟨s', h2⟩ := ih _ s1 (methodSampleIS_good ex hk h h1) (fun w hw => hd w (List.mem_cons_of_mem _ hw))
      exact ⟨s', by simp only [runIS, h1, h2]⟩
  refine key ws [] blank ?_ hd
  refine ⟨rfl, rfl, rfl, ?_, rfl, ?_, Or.inl ⟨rfl, rfl⟩⟩
  · intro t ht; simp [blank] at ht
  · intro r _; rfl

/-- C41 fails where the distribution depends on the sequence, as in every autoregressive model: from the second variable
on `Method.sample` refuses it, whatever was decoded before and whatever is proposed. -/
theorem C41_dependent_refuted (ex : α → α) (k : Nat) (h2 : 2 ≤ k) (hk : (k : α) ≠ 0) (eps : α)
    (ws : List (Var α × Var α × (Nat → Nat))) (hne : ws ≠ []) (s : St α) (hs : runIS ex k eps ws blank = .ok s)
    (v q : Var α) (hv : v.dep = true) (draw : Nat → Nat) :
    runIS ex k eps [(v, q, draw)] s = .error .value := by
  have h0 : ISGood ex k eps [] (blank : St α) := by
    refine ⟨rfl, rfl, rfl, ?_, rfl, ?_, Or.inl ⟨rfl, rfl⟩⟩
    · intro t ht; simp [blank] at ht
    · intro r _; rfl
  have hg := runIS_good ex hk ws [] blank s h0 hs
  have hsne : s.seq ≠ [] := by
    intro h
    have := hg.seqs
    rw [h] at this
    simp at this
    exact hne (List.length_eq_zero_iff.1 (by omega))
  have hw : s.width = k := by
    rw [St.width, List.getLast?_eq_some_getLast hsne]
    exact hg.lens _ (List.getLast_mem hsne)
  have hc : (v.dist s).cond = true := by
    simp [Var.dist, hv, hw, hsne]; omega
  simp [runIS, methodSampleIS, hc]

namespace ISCase

/-- Probabilities `1/4, 3/4`; log-probabilities are written as probabilities, with `ex` the identity. -/
def p : Var ℚ := { dom := 2, events := [], dep := false, logProb := fun _ _ t => if t = 0 then 1/4 else 3/4 }

/-- A uniform proposal. -/
def u : Var ℚ := { dom := 2, events := [], dep := false, logProb := fun _ _ _ => 1/2 }

/-- A proposal that depends on the sequence. -/
def w : Var ℚ :=
  { dom := 2, events := [], dep := true
    logProb := fun h _ t => if t = h.getD 0 0 then 1/3 else 2/3 }

def steps : List (Var ℚ × Var ℚ × (Nat → Nat)) := [(p, u, fun r => r), (p, w, fun _ => 1)]

/-- A case for `C41_partial` and `C41_total_partial`.  Two sequences, `0 1` and `1 1`: weights `1/2 · (1/4)/(1/2) · (3/4)/(2/3)` and `1/2 · (3/4)/(1/2) · (3/4)/(1/3)`. -/
example : (runIS id 2 0 steps blank).map (fun s => s.plates.head?.map (fun p => p.weight)) =
    .ok (some (some [9/32, 27/16])) := by decide +kernel

example : ∀ w ∈ steps, w.1.dep = false ∧ w.1.events = [] ∧ w.2.1.events = [] := by decide +kernel

/-- C41 fails with event dimensions: for two cells of the first variable of any number of sequences, with any small
`epsilon`, the weight of each cell differs from `1/n` times the ratio of the probabilities of the sample. -/
theorem C41_events_refuted : ∃ v q : Var ℚ, v.events = [2] ∧ q.events = [2] ∧ ∀ n : Nat, 1 ≤ n → ∀ eps : ℚ, 0 ≤ eps → eps < 1 / 2 →
    ∃ pw, parentWeight n [] = .ok pw ∧ ∀ r < n, ∀ c < 2,
      weightISCell id eps (pw r) n (v.dist blank) (q.dist blank) r c 0 ≠
        1 / n * ((v.given [] 0 0 * v.given [] 1 0) / (q.given [] 0 0 * q.given [] 1 0)) := by
  refine ⟨{ p with events := [2] }, { u with events := [2] }, rfl, rfl, fun n hn eps h0 h1 => ⟨_, rfl, fun r _ c _ => ?_⟩⟩
  have hn' : (0 : ℚ) < n := by exact_mod_cast hn
  have h2 : 1 / 2 + eps ≠ 0 := by linarith
  show 1 * (1 / 4 : ℚ) / (n * (1 / 2 + eps)) ≠ 1 / n * ((1 / 4 * (1 / 4)) / (1 / 2 * (1 / 2)))
  intro h
  field_simp at h
  linarith

end ISCase

end Storch.Decode
