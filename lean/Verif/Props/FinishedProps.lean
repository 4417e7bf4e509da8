import Verif.Props.EosProps
import Verif.Model.Finished

/-!
# What a decoder reports about ended sequences (C79)
-/

namespace Storch.Decode

variable {α : Type _}

/-- Specification: the number of sequences that contain a token. -/
def numWith (e : Nat) (seqs : List (List Nat)) : Nat := (seqs.filter (fun x => x.contains e)).length

theorem Ended.mem_iff {e : Nat} {l : List Nat} (h : Ended e l) : e ∈ l ↔ l.getLast? = some e := by
  refine ⟨?_, fun hl => List.mem_of_getLast? hl⟩
  intro hm
  obtain ⟨i, hi, hie⟩ := List.getElem_of_mem hm
  rw [List.getLast?_eq_getElem?]
  by_cases hl : i = l.length - 1
  · rw [← hl, List.getElem?_eq_getElem hi, hie]
  · exact h i (l.length - 1) (by omega) (by rw [List.getElem?_eq_getElem hi, hie]) (by omega)

theorem count_map_range {n : Nat} {f : Nat → Bool} :
    ((List.range n).map f).count true = ((List.range n).filter f).length := by
  rw [List.count, List.countP_map, List.countP_eq_length_filter]
  congr 1
  apply List.filter_congr
  intro x _
  simp

/-- What the reports are, given the mask. -/
theorem reports_of_mask {k e : Nat} {s : St α} {m : List Bool} (hm : s.finished = some (.rows m)) (hl : m.length = s.width)
    {f : Nat → Bool} (hf : ∀ r < s.width, m[r]? = some (f r)) :
    amtFinished (some (e + 1)) [] s = .ok (.counts [((List.range s.width).filter f).length]) ∧
    allFinished k (some (e + 1)) [] s = .ok (((List.range s.width).filter f).length == k) := by
  have hmm : m = (List.range s.width).map f := by
    apply List.ext_getElem? 
    intro r
    by_cases hr : r < s.width
    · rw [hf r hr]; simp [hr]
    · rw [List.getElem?_eq_none (by omega), List.getElem?_eq_none (by simp; omega)]
  have h1 : amtFinished (some (e + 1)) [] s = .ok (.counts [((List.range s.width).filter f).length]) := by
    simp only [amtFinished, hm, hmm, count_map_range]
  refine ⟨h1, ?_⟩
  simp [allFinished, h1]

/-- C79: if the first variable has at least `k` outcomes, `get_amt_finished` is the number of sequences that contain the
end-of-sequence token, and `all_finished` says whether all do, after any number of variables without independent dimensions.
Missing: first variables with fewer outcomes (`C79_refuted`), independent dimensions (`C79_events_refuted`), and
`all_finished` before the first variable (`C79_start_refuted`). -/
theorem C79_partial [AddCommMonoid α] [LinearOrder α] {k e : Nat} {topk : Nat → List (WithBot α) → List α → List Nat}
    (hp : Picks topk) (hb : Best topk) (hk : 2 ≤ k) (v₀ : Var α) (noise₀ : Nat → Nat → Nat → WithBot α)
    (vs : List (Var α × (Nat → Nat → Nat → WithBot α))) (hD : k ≤ v₀.dom)
    (hv : ∀ v ∈ (v₀, noise₀) :: vs, 2 ≤ v.1.dom ∧ v.1.events = [] ∧ e + 1 < v.1.dom ∧ ∀ c r t, ∃ x : α, v.2 c r t = x)
    (s : St α) (hs : runSwor k (some (e + 1)) topk ((v₀, noise₀) :: vs) blank = .ok s) :
    s.sequences.length = k ∧
    amtFinished (some (e + 1)) [] s = .ok (.counts [numWith (e + 1) s.sequences]) ∧
    allFinished k (some (e + 1)) [] s = .ok (decide (∀ x ∈ s.sequences, e + 1 ∈ x)) := by
  have key : Full k (e + 1) s := runSwor_full hp hb hk v₀ noise₀ vs hD hv s hs
  obtain ⟨m, hm, hml, hmv⟩ := key.mask
  have hw := key.full
  obtain ⟨h1, h2⟩ := reports_of_mask (k := k) (e := e) hm (by omega) (f := fun r => (s.sequence r).contains (e + 1)) (by
    intro r hr
    rw [hmv r (by omega)]
    congr 1
    rw [Bool.eq_iff_iff]
    simp [(key.ended r (by omega)).mem_iff])
  have hlen : s.sequences.length = k := by simp [St.sequences, hw]
  have hnum : ((List.range s.width).filter (fun r => (s.sequence r).contains (e + 1))).length = numWith (e + 1) s.sequences := by
    rw [numWith, St.sequences, List.filter_map, List.length_map]
    rfl
  refine ⟨hlen, by rw [h1, hnum], ?_⟩
  rw [h2, hnum]
  congr 1
  rw [Bool.eq_iff_iff]
  simp only [beq_iff_eq, decide_eq_true_eq, numWith]
  rw [← hlen, List.length_filter_eq_length_iff]
  simp

/-- Whatever the sizes of the domains: `get_amt_finished` is the number of sequences that end with the end-of-sequence token,
and `all_finished` holds if there are `k` such sequences. -/
theorem C79_last_partial [AddCommMonoid α] {k e : Nat} {topk : Nat → List (WithBot α) → List α → List Nat}
    (hp : Picks topk) (hk : 2 ≤ k) (vs : List (Var α × (Nat → Nat → Nat → WithBot α))) (v : Var α)
    (noise : Nat → Nat → Nat → WithBot α) (hev : v.events = []) (hv : ∀ w ∈ vs ++ [(v, noise)], 2 ≤ w.1.dom)
    (s : St α) (hs : runSwor k (some (e + 1)) topk (vs ++ [(v, noise)]) blank = .ok s) :
    amtFinished (some (e + 1)) [] s =
      .ok (.counts [(s.sequences.filter (fun x => decide (x.getLast? = some (e + 1)))).length]) ∧
    allFinished k (some (e + 1)) [] s =
      .ok (decide (s.sequences.length = k ∧ ∀ x ∈ s.sequences, x.getLast? = some (e + 1))) := by
  have hcells : v.cells = 1 := by show Ten.numel v.events = 1; rw [hev]; rfl
  have hvD : 2 ≤ v.dom := hv (v, noise) (by simp)
  obtain ⟨s1, h1, h2⟩ := (runSwor_append vs [(v, noise)] blank s).1 hs
  obtain ⟨smp, h2⟩ := runSwor_one.1 h2
  have hsl : s.seq.getLast? = some smp := by
    simp only [sampleSwor] at h2
    split at h2
    · simp at h2
    · split at h2
      · simp at h2
      · split at h2
        · simp at h2
        · simp only [Prod.mk.injEq, Except.ok.injEq] at h2
          rw [← h2.1, ← h2.2]
          simp
  have hw : s.width = smp.length := by simp [St.width, hsl]
  -- the newest tokens and the mask
  have key : s.width ≤ k ∧ (∃ old, s.finished = finishedOf (some (e + 1)) v.events smp old) ∧
      ∀ r < s.width, ∃ x t, smp[r]? = some [t] ∧ s.sequence r = x ++ [t] := by
    by_cases hvs : vs = []
    · subst hvs
      simp only [runSwor, Except.ok.injEq] at h1
      subst h1
      obtain ⟨hg, -, hrow, b, -, -, hfin⟩ := sampleSwor_first hp hk hvD h2
      refine ⟨hg.most, ⟨_, hfin⟩, ?_⟩
      intro r hr
      obtain ⟨row, e1, e2, -, e4⟩ := hrow r hr
      rw [hcells] at e2
      obtain ⟨y, hy⟩ := List.length_eq_one_iff.1 e2
      exact ⟨[], y, by rw [e1, hy], by rw [e4, hy]; rfl⟩
    · have hg := runSwor_good hp hk vs hvs (fun w hw => hv w (by simp [hw])) h1
      obtain ⟨hg', -, ⟨pi, hpi, hpil, hpiv⟩, b, -, -, -, -, hfin⟩ := sampleSwor_good hp hk hvD hg h2
      refine ⟨hg'.most, ⟨_, hfin⟩, ?_⟩
      intro r hr
      obtain ⟨-, row, e1, e2, -, e4⟩ := hpiv r (by omega)
      rw [hcells] at e2
      obtain ⟨y, hy⟩ := List.length_eq_one_iff.1 e2
      exact ⟨_, y, by rw [e1, hy], by rw [e4, hy]⟩
  obtain ⟨hwk, ⟨old, hfin⟩, hrow⟩ := key
  rw [hev] at hfin
  obtain ⟨r1, r2⟩ := reports_of_mask (k := k) (e := e) (m := smp.map (fun row => row == [e + 1])) hfin (by simp [hw])
    (f := fun r => decide ((s.sequence r).getLast? = some (e + 1))) (by
      intro r hr
      obtain ⟨x, t, t1, t2⟩ := hrow r hr
      rw [List.getElem?_map, t1, t2]
      simp only [Option.map_some, List.getLast?_append, List.getLast?_singleton, Option.some_or, Option.some.injEq]
      rw [Bool.eq_iff_iff]
      simp)
  have hlen : s.sequences.length = s.width := by simp [St.sequences]
  have hnum : ((List.range s.width).filter (fun r => decide ((s.sequence r).getLast? = some (e + 1)))).length =
      (s.sequences.filter (fun x => decide (x.getLast? = some (e + 1)))).length := by
    rw [St.sequences, List.filter_map, List.length_map]
    rfl
  refine ⟨by rw [r1, hnum], ?_⟩
  rw [r2, hnum]
  congr 1
  rw [Bool.eq_iff_iff]
  simp only [beq_iff_eq, decide_eq_true_eq]
  have hle := List.length_filter_le (fun x : List Nat => decide (x.getLast? = some (e + 1))) s.sequences
  constructor
  · intro h
    have hk' : s.sequences.length = k := by omega
    rw [← hk', List.length_filter_eq_length_iff] at h
    exact ⟨hk', by simpa using h⟩
  · rintro ⟨hk', h⟩
    rw [← hk', List.length_filter_eq_length_iff]
    simpa using h

/-- C79 is false before the first variable: `all_finished` raises for every decoder. -/
theorem C79_start_refuted (c : Cls α) (k : Nat) (eos : Option Nat) (events : List Nat) (x : Decoder α) (hx : construct c = .ok x) :
    ∃ err, allFinished k eos events x.st = .error err := by
  have hf : x.st.finished = none := by
    cases c with
    | mc k eos => simp only [construct, Except.ok.injEq] at hx; subst hx; rfl
    | importance k eos eps => simp only [construct, Except.ok.injEq] at hx; subst hx; rfl
    | swor k eos b =>
      simp only [construct] at hx
      split at hx
      · simp at hx
      · simp only [Except.ok.injEq] at hx; subst hx; rfl
  match eos with
  | none => exact ⟨_, rfl⟩
  | some 0 => exact ⟨_, rfl⟩
  | some (e + 1) => exact ⟨.attribute, by simp [allFinished, amtFinished, hf]⟩

namespace FinishedCase
open DecodeCase EosCase

/-- Noise that favours the second token. -/
def favour : Nat → Nat → Nat → WithBot ℚ := fun c r t => ((t * (3 + r) + c : Nat) : ℚ)

/-- What is reported about a run. -/
def reports (k e : Nat) (events : List Nat) (r : Except Err (St ℚ)) :
    Except Err (List (List Nat) × Except Err Amount × Except Err Bool) :=
  r.map fun s => (s.sequences, amtFinished (some e) events s, allFinished k (some e) events s)

/-- A case for `C79_partial` and `C79_last_partial`: two variables with four outcomes, `k = 3`.  With the token 3 all sequences
have ended, with the token 2 only one. -/
example : reports 3 3 [] (runSwor 3 (some 3) sortTop [(four, noise), (four, noise)] blank) =
      .ok ([[1, 3], [2, 3], [3, 3]], .ok (.counts [3]), .ok true) ∧
    reports 3 2 [] (runSwor 3 (some 2) sortTop [(four, noise), (four, noise), (four, noise)] blank) =
      .ok ([[3, 3, 3], [1, 3, 3], [1, 2, 2]], .ok (.counts [1]), .ok false) := by decide +kernel

/-- The hypotheses of `C79_partial` for this case. -/
example (s : St ℚ) (hs : runSwor 3 (some 3) sortTop [(four, noise), (four, noise)] blank = .ok s) :
    amtFinished (some 3) [] s = .ok (.counts [numWith 3 s.sequences]) :=
  (C79_partial (e := 2) sortTop_picks sortTop_best (by omega) four noise [(four, noise)] (by decide)
    (by intro v hv; simp only [List.mem_cons, List.not_mem_nil, or_false, or_self] at hv; subst hv
        exact ⟨by decide, rfl, by decide, fun c r t => ⟨_, rfl⟩⟩) s hs).2.1

/-- The hypotheses of `C79_last_partial`: two coins and four samples. -/
example (s : St ℚ) (hs : runSwor 4 (some 1) sortTop ([(coin, noise)] ++ [(coin, noise)]) blank = .ok s) :
    amtFinished (some 1) [] s =
      .ok (.counts [(s.sequences.filter (fun x => decide (x.getLast? = some 1))).length]) :=
  (C79_last_partial (e := 0) sortTop_picks (by omega) [(coin, noise)] coin noise rfl
    (by intro v hv; simp only [List.cons_append, List.nil_append, List.mem_cons, List.not_mem_nil, or_false, or_self] at hv
        subst hv; decide) s hs).1

/-- A case for `C79_start_refuted`: no decoder can be asked before the first variable. -/
example : ∃ err, allFinished 3 (some 1) [] (Decoder.reset ⟨.mc 3 (some 1), true, (blank : St ℚ)⟩).st = .error err :=
  C79_start_refuted (.mc 3 (some 1)) 3 (some 1) [] _ rfl

/-- C79 is false when the first variable has fewer than `k` outcomes: with two coins, `k = 4` and the token 1, three sequences
contain the token but two are reported. -/
theorem C79_refuted : reports 4 1 [] (runSwor 4 (some 1) sortTop [(coin, noise), (coin, noise)] blank) =
      .ok ([[0, 1], [1, 1], [0, 0], [1, 0]], .ok (.counts [2]), .ok false) ∧
    numWith 1 [[0, 1], [1, 1], [0, 0], [1, 0]] = 3 := by decide +kernel

/-- C79 is false for variables with independent dimensions: the tokens are counted for each sequence.  All three sequences
contain the token 1, and `all_finished` is false. -/
theorem C79_events_refuted : reports 3 1 [2] (runSwor 3 (some 1) sortTop [(pair, favour)] blank) =
      .ok ([[0, 1], [1, 1], [1, 0]], .ok (.counts [1, 2, 1]), .ok false) ∧
    numWith 1 [[0, 1], [1, 1], [1, 0]] = 3 := by decide +kernel

/-- C79 is false if the token is 0: a decoder for it is made and runs, here so that three sequences contain it, but neither report can be
asked for. -/
theorem C79_zero_refuted : reports 4 0 [] (runSwor 4 (some 0) sortTop [(coin, noise), (coin, noise)] blank) =
      .ok ([[0, 1], [1, 1], [0, 0], [1, 0]], .error .runtime, .error .runtime) ∧
    numWith 0 [[0, 1], [1, 1], [0, 0], [1, 0]] = 3 := by decide +kernel

end FinishedCase

end Storch.Decode
