import Verif.Model.FinishedPlates
import Verif.Lemmas.PlateLemmas
import Verif.Lemmas.ReduceLemmas
import Verif.Lemmas.DecodePlatesLemmas

/-!
# C85: what a finished sequence carries on, for all orders of the plates
-/

namespace Storch.Decode

variable {α β : Type _}

/-! ### Specification -/

/-- The element at the index `σ p` of every plate `p`, and `rest` of the other dimensions. -/
def NTen.at (x : NTen β) (σ : String → Nat) (rest : List Nat) : β := x.ten.get (x.names.map σ ++ rest)

/-- The tensor has dimensions of the sizes `n p` for its plates `p`, and `rest` of other dimensions. -/
def NTen.Sized (x : NTen β) (n : String → Nat) (rest : List Nat) : Prop := x.ten.shape = x.names.map n ++ rest

/-- At every index of the plates, every finished sequence can only be continued by the end-of-sequence token, for which
it has the perturbed log-probability it had before; the others are left alone. -/
def CarriesOn (n : String → Nat) (k d eos : Nat) (fin : NTen Bool) (perturbed G out : NTen (WithBot α)) : Prop :=
  ∀ σ : String → Nat, (∀ p, σ p < n p) → ∀ r < k, ∀ t < d,
    out.at σ [r, t] =
      if fin.at σ [r] = true then (if t = eos then perturbed.at σ [r] else ⊥) else G.at σ [r, t]

/-! ### Lemmas -/

theorem filter_rank {γ : Type _} [DecidableEq γ] (l : List γ) (m : γ → Bool) (x : γ) (hx : x ∈ l) (hm : m x = true) :
    (l.filter m)[(l.takeWhile (fun j => decide (j ≠ x))).countP m]? = some x := by
  induction l with
  | nil => cases hx
  | cons y l ih =>
    by_cases hy : y = x
    · subst hy
      simp [hm]
    · have hx' : x ∈ l := by
        rcases List.mem_cons.1 hx with h | h
        · exact absurd h.symm hy
        · exact h
      rw [List.takeWhile_cons_of_pos (by simpa using hy)]
      cases hmy : m y with
      | true =>
        rw [List.filter_cons_of_pos hmy, List.countP_cons_of_pos hmy, List.getElem?_cons_succ]
        exact ih hx'
      | false =>
        rw [List.filter_cons_of_neg (by simp [hmy]), List.countP_cons_of_neg (by simp [hmy])]
        exact ih hx'

theorem inB_named {n σ : String → Nat} (names : List String) (h : ∀ p, σ p < n p) {rest s : List Nat}
    (hr : Ten.InB rest s) : Ten.InB (names.map σ ++ rest) (names.map n ++ s) := by
  induction names with
  | nil => exact hr
  | cons p ps ih => exact List.Forall₂.cons (h p) ih

theorem reorder_same (x : NTen β) (hn : x.names.Nodup) (hl : x.names.length ≤ x.ten.ndim) :
    ∃ m, x.reorder x.names = .ok m ∧ m.shape = x.ten.shape ∧ ∀ idx, Ten.InB idx x.ten.shape → m.get idx = x.ten.get idx := by
  have hd : x.names.map x.names.idxOf ++ (List.range (x.ten.ndim - x.names.length)).map (· + x.names.length) =
      List.range x.ten.ndim := by
    have h1 : x.names.map x.names.idxOf = List.range x.names.length := by
      apply List.ext_getElem (by simp)
      intro i h1 h2
      simp only [List.getElem_map, List.getElem_range]
      exact hn.idxOf_getElem i (by simpa using h1)
    rw [h1]
    apply List.ext_getElem (by simp; omega)
    intro i h2 h3
    rw [List.getElem_range]
    by_cases hi : i < x.names.length
    · rw [List.getElem_append_left (by simpa using hi), List.getElem_range]
    · rw [List.getElem_append_right (by simpa using hi), List.getElem_map, List.getElem_range]
      simp only [List.length_range]
      omega
  rw [NTen.reorder, hd, permuteT, if_pos (List.Perm.refl _)]
  refine ⟨_, rfl, ?_, ?_⟩
  · apply List.ext_getElem (by simp [Ten.ndim])
    intro i h1 h2
    simp [List.getD_eq_getElem?_getD, h2]
  · intro idx hidx
    simp only
    congr 1
    have hlen : idx.length = x.ten.ndim := hidx.length_eq
    apply List.ext_getElem (by simp [hlen])
    intro i h1 h2
    have hi : i < x.ten.ndim := by simpa using h1
    have : (List.range x.ten.ndim).idxOf i = i := by
      have := List.nodup_range (n := x.ten.ndim) |>.idxOf_getElem i (by simpa using hi)
      simpa using this
    simp [this, List.getD_eq_getElem?_getD, h2]

theorem maskAssign_ok (t : Ten β) (m : Ten Bool) (rows : List (Nat → β)) (hs : m.shape = t.shape.dropLast)
    (hr : rows.length = (allIdx m.shape).countP m.get) :
    ∃ g, maskAssign t m rows = .ok g ∧ g.shape = t.shape ∧ (∀ idx, m.get idx.dropLast = false → g.get idx = t.get idx) ∧
      ∀ idx f, m.get idx.dropLast = true → rows[maskRank m idx.dropLast]? = some f →
        g.get idx = f (idx.getLast?.getD 0) := by
  rw [maskAssign, if_neg (by simpa using hs), if_neg (by simpa using hr)]
  refine ⟨_, rfl, rfl, fun idx h => ?_, fun idx f h hf => ?_⟩
  · simp [h]
  · simp [h, hf]

/-! ### C85 -/

/-- Where the mask of finished sequences and the perturbed log-probabilities have their plates in the same order, whatever
their number and sizes, the finished sequences carry on their own perturbed log-probability.
Missing from C85: masks in another order (`C85_refuted`). -/
theorem C85_same_order_partial (n : String → Nat) (k d eos : Nat) (names : List String) (fin : NTen Bool)
    (perturbed G : NTen (WithBot α)) (hn : names.Nodup) (he : eos < d)
    (hf : fin.names = names) (hp : perturbed.names = names) (hg : G.names = names)
    (hfs : fin.Sized n [k]) (hps : perturbed.Sized n [k]) (hgs : G.Sized n [k, d]) :
    ∃ out, markFinished eos fin perturbed G = .ok out ∧ out.names = names ∧ out.Sized n [k, d] ∧
      CarriesOn n k d eos fin perturbed G out := by
  rw [NTen.Sized, hf] at hfs
  rw [NTen.Sized, hp] at hps
  rw [NTen.Sized, hg] at hgs
  obtain ⟨m, hm, hms, hmg⟩ := reorder_same fin (by rw [hf]; exact hn) (by
    rw [Ten.ndim, hfs, hf]; simp)
  rw [hf] at hm
  have hdl : G.ten.shape.dropLast = m.shape := by
    rw [hgs, hms, hfs]
    have : names.map n ++ [k, d] = (names.map n ++ [k]) ++ [d] := by simp
    rw [this, List.dropLast_concat]
  have hlast : G.ten.shape.getLast?.getD 0 = d := by
    rw [hgs]
    have : names.map n ++ [k, d] = (names.map n ++ [k]) ++ [d] := by simp
    rw [this, List.getLast?_concat]
    rfl
  have hfilt : (allIdx fin.ten.shape).filter fin.ten.get = (allIdx m.shape).filter m.get := by
    rw [hms]
    exact List.filter_congr (fun ix hix => (hmg ix (mem_allIdx.1 hix)).symm)
  have hcount : ((allIdx fin.ten.shape).filter fin.ten.get).length = (allIdx m.shape).countP m.get := by
    rw [hfilt, List.countP_eq_length_filter]
  obtain ⟨g, hga, hgsh, hgn, hgt⟩ := maskAssign_ok G.ten m
    ((((allIdx fin.ten.shape).filter fin.ten.get).map perturbed.ten.get).map fun v t => if t = eos then v else ⊥)
    hdl.symm (by simp only [List.length_map, hcount])
  refine ⟨⟨names, g⟩, ?_, rfl, ?_, ?_⟩
  · rw [markFinished, maskSelect, if_pos (by rw [hfs, hps])]
    simp only
    rw [if_neg (by rw [hlast]; omega), hg, hm]
    simp only [hga]
  · rw [NTen.Sized, hgsh]; exact hgs
  · intro σ hσ r hr t ht
    have hin : Ten.InB (names.map σ ++ [r]) fin.ten.shape := by
      rw [hfs]; exact inB_named names hσ (List.Forall₂.cons hr .nil)
    have hdrop : (names.map σ ++ [r, t]).dropLast = names.map σ ++ [r] := by
      have : names.map σ ++ [r, t] = (names.map σ ++ [r]) ++ [t] := by simp
      rw [this, List.dropLast_concat]
    have hl : (names.map σ ++ [r, t]).getLast?.getD 0 = t := by
      have : names.map σ ++ [r, t] = (names.map σ ++ [r]) ++ [t] := by simp
      rw [this, List.getLast?_concat]
      rfl
    simp only [NTen.at, hf, hp, hg]
    have hmg' := hmg _ hin
    cases hfin : fin.ten.get (names.map σ ++ [r]) with
    | false => rw [if_neg (by simp), hgn _ (by rw [hdrop, hmg', hfin])]
    | true =>
      rw [if_pos rfl]
      have hmm : m.get (names.map σ ++ [r]) = true := by rw [hmg', hfin]
      have := filter_rank (allIdx m.shape) m.get (names.map σ ++ [r]) (mem_allIdx.2 (by rw [hms]; exact hin)) hmm
      rw [hgt _ (fun t => if t = eos then perturbed.ten.get (names.map σ ++ [r]) else ⊥) (by rw [hdrop, hmm]) (by
        rw [hfilt, hdrop, maskRank, List.getElem?_map, List.getElem?_map, this]
        rfl), hl]

/-- The orders are the same, as `C85_same_order_partial` asks, where the distribution has its plates in the order of the
variables before and has the first of them: then the sample, and with it the mask of finished sequences, has the plates of
the joint log-probabilities of the variables before, and adding the log-probabilities of the distribution does not change
these.  `distr` are the plates of the distribution besides the decoder's plate `k`, which may stand anywhere (`pre`, `post`).
Missing from C85: other orders (`C85_refuted`). -/
theorem C85_orders_partial [ValEq α] (k : Plate α) (pre post rest : List (Plate α))
    (hn : ((pre ++ post ++ rest).map Plate.name).Nodup) (hk : k.name ∉ (pre ++ post ++ rest).map Plate.name)
    (h1 : ∀ p ∈ pre ++ post ++ rest, 1 < p.n) :
    decodePlates k.name (pre ++ [k] ++ post) (pre ++ post ++ rest) = pre ++ post ++ rest ∧
    addPlates (addPlates [] (pre ++ post ++ rest)) (pre ++ post) = pre ++ post ++ rest := by
  have hne : ∀ p ∈ pre ++ post ++ rest, (p.name == k.name) = false := by
    intro p hp
    rw [beq_eq_false_iff_ne]
    intro e
    exact hk (e ▸ List.mem_map_of_mem hp)
  constructor
  · have hd : (pre ++ [k] ++ post).filter (fun p => decide (1 < p.n) && !(p.name == k.name)) = pre ++ post := by
      have keep : ∀ l : List (Plate α), (∀ p ∈ l, p ∈ pre ++ post ++ rest) →
          l.filter (fun p => decide (1 < p.n) && !(p.name == k.name)) = l := by
        intro l hl
        rw [List.filter_eq_self]
        intro p hp
        simp [h1 p (hl p hp), hne p (hl p hp)]
      rw [List.filter_append, List.filter_append, keep pre (by intro p hp; simp [hp]), keep post (by intro p hp; simp [hp])]
      simp
    have hp : (pre ++ post ++ rest).filter (fun p => decide (1 < p.n)) = pre ++ post ++ rest := by
      rw [List.filter_eq_self]
      intro p hp
      simpa using h1 p hp
    rw [decodePlates, hd, hp]
    rw [List.map_append, List.nodup_append] at hn
    have hin : (pre ++ post).filter (fun p => !(p.isIn (pre ++ post))) = [] := by
      rw [List.filter_eq_nil_iff]
      intro p hp
      have : p.isIn (pre ++ post) = true := (Plate.isIn_iff).2 ⟨p, hp, Plate.pyEq_refl _⟩
      simp [this]
    have hout : rest.filter (fun p => !(p.isIn (pre ++ post))) = rest := by
      rw [List.filter_eq_self]
      intro p hp
      rw [Bool.not_eq_true', ← Bool.not_eq_true, Plate.isIn_iff]
      rintro ⟨q, hq, he⟩
      exact hn.2.2 _ (List.mem_map_of_mem hq) _ (List.mem_map_of_mem hp) (Plate.pyEq_name he)
    rw [List.filter_append, hin, hout, List.nil_append]
  · rw [addPlates_self _ hn [] (by simp), List.nil_append]
    exact addPlates_sub _ _ (fun p hp => (Plate.isIn_iff).2 ⟨p, by simp only [List.mem_append] at hp ⊢; exact .inl hp, Plate.pyEq_refl _⟩)

namespace FinishedPlatesCase

/-- Two plates. -/
def pa : Plate Int := ⟨"a", 2, .torch ⟨[], fun _ => 0⟩, .plain, []⟩
def pb : Plate Int := ⟨"b", 2, .torch ⟨[], fun _ => 0⟩, .plain, []⟩

/-- One sequence is finished: the first one at index 0 of `a` and 1 of `b`.  The mask has `b` first. -/
def fin : NTen Bool := ⟨["b", "a"], ⟨[2, 2, 2], fun i => decide (i = [1, 0, 0])⟩⟩

/-- The same mask with `a` first. -/
def fin' : NTen Bool := ⟨["a", "b"], ⟨[2, 2, 2], fun i => decide (i = [0, 1, 0])⟩⟩

/-- All perturbed log-probabilities are different. -/
def perturbed : NTen (WithBot Int) :=
  ⟨["a", "b"], ⟨[2, 2, 2], fun i => ((-(4 * i.getD 0 0 + 2 * i.getD 1 0 + i.getD 2 0 : Nat) : Int) : WithBot Int)⟩⟩

/-- The perturbed log-probabilities of the continuations. -/
def G : NTen (WithBot Int) := ⟨["a", "b"], ⟨[2, 2, 2, 2], fun _ => ((-20 : Int) : WithBot Int)⟩⟩

/-- `C85_same_order_partial` applies with the mask that has `a` first, and the finished sequence keeps -2. -/
example : ∃ out, markFinished 1 fin' perturbed G = .ok out ∧ out.names = ["a", "b"] ∧
    out.Sized (fun _ => 2) [2, 2] ∧ CarriesOn (fun _ => 2) 2 2 1 fin' perturbed G out :=
  C85_same_order_partial (fun _ => 2) 2 2 1 ["a", "b"] fin' perturbed G (by decide) (by decide) rfl rfl rfl rfl rfl rfl

example : ((markFinished 1 fin' perturbed G).toOption.map fun o => o.ten.get [0, 1, 0, 1]) =
    some ((-2 : Int) : WithBot Int) := by decide +kernel

/-- `C85_orders_partial` applies to a distribution with the plates `a`, `k` after variables with the plates `a`, `b`. -/
example : decodePlates "k" [pa, ⟨"k", 2, .torch ⟨[], fun _ => 0⟩, .plain, []⟩] [pa, pb] = [pa, pb] :=
  (C85_orders_partial ⟨"k", 2, .torch ⟨[], fun _ => 0⟩, .plain, []⟩ [pa] [] [pb] (by decide) (by decide) (by decide)).1

end FinishedPlatesCase

open FinishedPlatesCase in
/-- C85 fails.  Where the distribution of a variable has the plates `b`, `a` and the variables before have `a`, `b`, the sample
and with it the mask have the plates in the order of the distribution, the joint and the perturbed log-probabilities in
the order of the variables before.  The finished sequence at index 0 of `a` and 1 of `b`, whose perturbed log-probability is
-2, is then continued with -4, the one of the sequence at index 1 of `a` and 0 of `b`, which is not finished.  With different
sizes of the plates IndexError is raised. -/
theorem C85_refuted :
    (decodePlates "k" [pb, pa] [pa, pb]).map Plate.name = fin.names ∧
    (addPlates (addPlates [] [pa, pb]) [pb, pa]).map Plate.name = perturbed.names ∧ G.names = perturbed.names ∧
    fin.Sized (fun _ => 2) [2] ∧ perturbed.Sized (fun _ => 2) [2] ∧ G.Sized (fun _ => 2) [2, 2] ∧
    (∃ out, markFinished 1 fin perturbed G = .ok out ∧ ¬ CarriesOn (fun _ => 2) 2 2 1 fin perturbed G out) ∧
    (markFinished 1 (⟨["b", "a"], ⟨[3, 2, 2], fun _ => true⟩⟩)
      (⟨["a", "b"], ⟨[2, 3, 2], fun _ => ((0 : Int) : WithBot Int)⟩⟩)
      (⟨["a", "b"], ⟨[2, 3, 2, 2], fun _ => ((0 : Int) : WithBot Int)⟩⟩)).toOption.isNone = true := by
  refine ⟨by decide +kernel, by decide +kernel, rfl, rfl, rfl, rfl, ?_, by decide +kernel⟩
  have h : ((markFinished 1 fin perturbed G).toOption.map fun o => (o.names, o.ten.get [0, 1, 0, 1])) =
      some (["a", "b"], ((-4 : Int) : WithBot Int)) := by decide +kernel
  cases ho : markFinished 1 fin perturbed G with
  | error e => rw [ho] at h; cases h
  | ok out =>
    rw [ho] at h
    simp only [Except.toOption, Option.map_some, Option.some.injEq, Prod.mk.injEq] at h
    refine ⟨out, rfl, fun hc => ?_⟩
    have := hc (fun p => if p = "b" then 1 else 0) (by intro p; dsimp; split <;> omega) 0 (by omega) 1 (by omega)
    simp only [NTen.at, h.1] at this
    have e : (["a", "b"].map fun p => if p = "b" then 1 else 0) ++ [0, 1] = [0, 1, 0, 1] := by decide
    rw [e, h.2] at this
    revert this
    decide +kernel

end Storch.Decode
