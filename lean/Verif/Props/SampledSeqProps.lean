import Verif.Props.FinishedProps
import Verif.Lemmas.RavelLemmas

/-!
# The decoded sequences as one tensor (C80)
-/

namespace Storch.Decode

variable {α : Type _}

/-- The tokens of the variables, one entry per cell. -/
def Shaped (vs : List (Var α)) (s : St α) : Prop := List.Forall₂ (fun v t => ∀ row ∈ t, row.length = v.cells) vs s.seq

theorem reindexSeq_rows {n : Nat} {pi : Option (List Nat)} : ∀ {seq out : List (List (List Nat))},
    reindexSeq n pi seq = .ok out → List.Forall₂ (fun t t' => ∀ row ∈ t', row ∈ t) seq out := by
  intro seq
  induction seq with
  | nil => intro out h; simp only [reindexSeq, Except.ok.injEq] at h; subst h; exact .nil
  | cons t ts ih =>
    intro out h
    cases pi with
    | none =>
      simp only [reindexSeq, Except.ok.injEq] at h
      subst h
      exact List.forall₂_same.2 fun _ _ _ hr => hr
    | some pi =>
      simp only [reindexSeq] at h
      split at h
      · simp at h
      cases hg : gatherL t pi with
      | error e => rw [hg] at h; simp at h
      | ok t' =>
        rw [hg] at h
        simp only [] at h
        cases hr : reindexSeq n (some pi) ts with
        | error e => rw [hr] at h; simp at h
        | ok ts' =>
          rw [hr] at h
          simp only [Except.ok.injEq] at h
          subst h
          obtain ⟨g1, g2⟩ := gatherL_spec hg
          refine .cons ?_ (ih hr)
          intro row hrow
          obtain ⟨q, hq, hqr⟩ := List.getElem_of_mem hrow
          have := g2 q (by omega)
          rw [List.getElem?_eq_getElem hq, hqr] at this
          exact List.mem_of_getElem? this

theorem sampleSwor_seq [Add α] {k : Nat} {eos : Option Nat} {topk : Nat → List (WithBot α) → List α → List Nat} {d : Dist α}
    {noise : Nat → Nat → Nat → WithBot α} {s s' : St α} {smp : List (List Nat)}
    (hs : sampleSwor k eos topk d noise s = (s', .ok smp)) :
    ∃ pi seq, reindexSeq smp.length pi s.seq = .ok seq ∧ s'.seq = seq ++ [smp] := by
  simp only [sampleSwor] at hs
  split at hs
  · simp at hs
  · split at hs
    · simp at hs
    · split at hs
      · simp at hs
      · rename_i seq hseq
        simp only [Prod.mk.injEq, Except.ok.injEq] at hs
        obtain ⟨h1, rfl⟩ := hs
        exact ⟨_, seq, hseq, by rw [← h1]⟩

/-- After any number of variables there are at least two sequences, with one token per cell. -/
theorem runSwor_shaped [AddCommMonoid α] {k : Nat} {eos : Option Nat} {topk : Nat → List (WithBot α) → List α → List Nat}
    (hp : Picks topk) (hk : 2 ≤ k) : ∀ (vs : List (Var α × (Nat → Nat → Nat → WithBot α))), vs ≠ [] → (∀ v ∈ vs, 2 ≤ v.1.dom) →
    ∀ {s : St α}, runSwor k eos topk vs blank = .ok s → 2 ≤ s.width ∧ Shaped (vs.map Prod.fst) s := by
  intro vs
  induction vs using List.reverseRecOn with
  | nil => intro h; exact absurd rfl h
  | append_singleton vs v ih =>
    intro _ hD s hs
    obtain ⟨v, noise⟩ := v
    obtain ⟨s1, h1, h2⟩ := (runSwor_append vs [(v, noise)] blank s).1 hs
    obtain ⟨smp, h2⟩ := runSwor_one.1 h2
    have hv : 2 ≤ v.dom := hD (v, noise) (by simp)
    obtain ⟨pi, seq, hre, hseq⟩ := sampleSwor_seq h2
    have hw : s.width = smp.length := width_snoc s seq smp hseq
    by_cases hvs : vs = []
    · subst hvs
      simp only [runSwor, Except.ok.injEq] at h1
      subst h1
      obtain ⟨hg, hwd, hrow, b, hloop, -, -⟩ := sampleSwor_first hp hk hv h2
      refine ⟨?_, ?_⟩
      · have hc : v.cells ≠ 0 := by
          intro hc
          obtain ⟨ps, hps, -⟩ := hg.perturbed
          rw [hc] at hloop
          simp only [List.range'_zero, decodeLoop, Prod.mk.injEq] at hloop
          rw [hps] at hloop
          exact absurd hloop.1 (by simp)
        have : v.dom ≤ v.dom ^ v.cells := Nat.le_self_pow hc _
        omega
      · have hs0 : seq = [] := by
          have : reindexSeq smp.length pi ([] : List (List (List Nat))) = .ok seq := hre
          simp only [reindexSeq, Except.ok.injEq] at this
          exact this.symm
        rw [hs0] at hseq
        rw [Shaped, hseq]
        refine .cons ?_ .nil
        intro row hr
        obtain ⟨q, hq, hqr⟩ := List.getElem_of_mem hr
        obtain ⟨row', e1, e2, -⟩ := hrow q (by omega)
        rw [List.getElem?_eq_getElem hq, hqr] at e1
        rw [Option.some.inj e1]; exact e2
    · have hD' : ∀ w ∈ vs, 2 ≤ w.1.dom := fun w hw => hD w (by simp [hw])
      obtain ⟨i1, i2⟩ := ih hvs hD' h1
      have hg := runSwor_good hp hk vs hvs hD' h1
      obtain ⟨hg', hwd, ⟨qi, hqi, hqil, hqv⟩, -⟩ := sampleSwor_good hp hk hv hg h2
      refine ⟨?_, ?_⟩
      · rw [hwd]
        have : 1 ≤ v.dom ^ v.cells := Nat.one_le_pow _ _ (by omega)
        have : s1.width ≤ s1.width * v.dom ^ v.cells := Nat.le_mul_of_pos_right _ (by omega)
        omega
      · rw [Shaped, hseq, List.map_append]
        refine List.rel_append ?_ (.cons ?_ .nil)
        · have hr := reindexSeq_rows hre
          clear hseq hre h1 hs hg
          rw [Shaped] at i2
          generalize s1.seq = l at i2 hr
          generalize vs.map Prod.fst = ws at i2
          induction hr generalizing ws with
          | nil => cases i2; exact .nil
          | cons h t ih' =>
            cases i2 with
            | cons a b => exact .cons (fun row hrow => a row (h row hrow)) (ih' _ b)
        · intro row hr
          obtain ⟨q, hq, hqr⟩ := List.getElem_of_mem hr
          obtain ⟨-, row', e1, e2, -⟩ := hqv q (by omega)
          rw [List.getElem?_eq_getElem hq, hqr] at e1
          rw [Option.some.inj e1]; exact e2

/-- Specification: a tensor of the given sizes whose rows are the lists `f r`, written in row-major order. -/
def RowsOf (n M : Nat) (rest : List Nat) (f : Nat → List Nat) (T : Ten Nat) : Prop :=
  T.shape = n :: M :: rest ∧ ∀ r < n, (f r).length = M * Ten.numel rest ∧
    ∀ idx, Ten.InB idx (M :: rest) → (f r)[Ten.ravel (M :: rest) idx]? = some (T.get (r :: idx))

theorem seqTen_rows {n m : Nat} {rest : List Nat} {rows : List (List Nat)} (hn : 2 ≤ n) (hl : rows.length = n)
    (hr : ∀ row ∈ rows, row.length = Ten.numel (m :: rest)) :
    RowsOf n m rest (fun r => rows.getD r []) (seqTen (m :: rest) rows) := by
  rw [seqTen, if_neg (by omega), hl]
  refine ⟨rfl, ?_⟩
  intro r hrn
  have hmem : rows.getD r [] ∈ rows := by
    rw [List.getD, List.getElem?_eq_getElem (by omega), Option.getD_some]; exact List.getElem_mem _
  have hlen : (rows.getD r []).length = Ten.numel (m :: rest) := hr _ hmem
  refine ⟨hlen, ?_⟩
  intro idx hidx
  have hlt := Ten.ravel_lt hidx
  simp only [List.getD_cons_zero, List.tail_cons]
  generalize rows.getD r [] = row at hlen ⊢
  rw [List.getD, List.getElem?_eq_getElem (by omega), Option.getD_some]

theorem cat2_rows {n M m : Nat} {rest : List Nat} {f g : Nat → List Nat} {a b : Ten Nat} (ha : RowsOf n M rest f a)
    (hb : RowsOf n m rest g b) : RowsOf n (M + m) rest (fun r => f r ++ g r) (cat2 1 a b) := by
  obtain ⟨a1, a2⟩ := ha
  obtain ⟨b1, b2⟩ := hb
  refine ⟨by simp [cat2, a1, b1], ?_⟩
  intro r hr
  obtain ⟨a3, a4⟩ := a2 r hr
  obtain ⟨b3, b4⟩ := b2 r hr
  refine ⟨by rw [List.length_append, a3, b3, Nat.add_mul], ?_⟩
  intro idx hidx
  cases hidx with
  | @cons j _ jdx _ hj hjdx =>
    have hx := Ten.ravel_lt hjdx
    simp only [Ten.ravel]
    simp only [cat2, a1, b1, List.getD_cons_succ, List.getD_cons_zero, List.set_cons_succ, List.set_cons_zero]
    by_cases hjM : j < M
    · rw [if_pos hjM]
      have := a4 (j :: jdx) (.cons hjM hjdx)
      simp only [Ten.ravel] at this
      rw [List.getElem?_append_left, this]
      rw [a3]
      have h1 : (j + 1) * Ten.numel rest ≤ M * Ten.numel rest := Nat.mul_le_mul_right _ hjM
      rw [Nat.add_mul] at h1
      omega
    · rw [if_neg hjM]
      have := b4 ((j - M) :: jdx) (.cons (by omega) hjdx)
      simp only [Ten.ravel] at this
      have h1 : M * Ten.numel rest ≤ j * Ten.numel rest := Nat.mul_le_mul_right _ (by omega)
      rw [List.getElem?_append_right (by rw [a3]; omega), a3, ← this, Nat.sub_mul]
      congr 1
      omega

theorem foldl_rows {n : Nat} {rest : List Nat} (hn : 2 ≤ n) : ∀ (ms : List Nat) (seq : List (List (List Nat)))
    (_ : List.Forall₂ (fun m t => t.length = n ∧ ∀ row ∈ t, row.length = Ten.numel (m :: rest)) ms seq) {M : Nat}
    {f : Nat → List Nat} {a : Ten Nat}, RowsOf n M rest f a →
    RowsOf n (M + ms.sum) rest (fun r => f r ++ seq.flatMap (fun t => t.getD r []))
      ((List.zipWith seqTen (ms.map (· :: rest)) seq).foldl (cat2 1) a) := by
  intro ms seq h
  induction h with
  | nil => intro M f a ha; simpa using ha
  | @cons m t ms ts hmt h ih =>
    intro M f a ha
    have := ih (cat2_rows ha (seqTen_rows hn hmt.1 hmt.2))
    simp only [List.map_cons, List.zipWith_cons_cons, List.foldl_cons, List.sum_cons, List.flatMap_cons]
    simpa [Nat.add_assoc] using this

theorem shapes_fit {n : Nat} {rest : List Nat} (hn : 2 ≤ n) {m₀ : Nat} {t₀ : Ten Nat} (h₀ : t₀.shape = n :: m₀ :: rest) :
    ∀ (ms : List Nat) (seq : List (List (List Nat))) (_ : List.Forall₂ (fun m t => t.length = n ∧ ∀ row ∈ t, row.length = Ten.numel (m :: rest)) ms seq),
      (List.zipWith seqTen (ms.map (· :: rest)) seq).all (fun u => catFits 1 t₀.shape u.shape) = true := by
  intro ms seq h
  induction h with
  | nil => rfl
  | @cons m t ms ts hmt h ih =>
    simp only [List.map_cons, List.zipWith_cons_cons, List.all_cons, ih, Bool.and_true]
    rw [(seqTen_rows hn hmt.1 hmt.2).1, h₀]
    simp [catFits]

/-- C80: for variables with independent dimensions that agree but for the first, `get_sampled_seq` is a tensor whose row for
a sample is the sequence of the sample: its tokens in the order of the variables, and for each variable in row-major order.
Missing: variables without independent dimensions, for which it raises (`C80_refuted`). -/
theorem C80_partial [AddCommMonoid α] {k : Nat} {eos : Option Nat} {topk : Nat → List (WithBot α) → List α → List Nat}
    (hp : Picks topk) (hk : 2 ≤ k) (vs : List (Var α × (Nat → Nat → Nat → WithBot α))) (hvs : vs ≠ [])
    (hD : ∀ v ∈ vs, 2 ≤ v.1.dom) (rest ms : List Nat) (hev : vs.map (fun v => v.1.events) = ms.map (· :: rest))
    (s : St α) (hs : runSwor k eos topk vs blank = .ok s) :
    ∃ T, sampledSeq (vs.map (fun v => v.1.events)) s = .ok T ∧ RowsOf s.width ms.sum rest s.sequence T := by
  obtain ⟨hw, hsh⟩ := runSwor_shaped hp hk vs hvs hD hs
  have hg := runSwor_good hp hk vs hvs hD hs
  have hf : List.Forall₂ (fun m t => t.length = s.width ∧ ∀ row ∈ t, row.length = Ten.numel (m :: rest)) ms s.seq := by
    have hlens := hg.lens
    rw [Shaped] at hsh
    generalize s.seq = l at hsh hlens
    clear hg hs hvs hD
    induction ms generalizing vs l with
    | nil =>
      have : vs = [] := by simpa using hev
      subst this
      cases hsh; exact .nil
    | cons m ms ih =>
      cases vs with
      | nil => simp at hev
      | cons v vs =>
        simp only [List.map_cons, List.cons.injEq] at hev
        rw [List.map_cons] at hsh
        cases hsh with
        | @cons _ t _ ts h1 h2 =>
          refine .cons ⟨hlens t List.mem_cons_self, ?_⟩ (ih vs hev.2 ts h2 fun t' ht' => hlens t' (List.mem_cons_of_mem _ ht'))
          intro row hrow
          rw [h1 row hrow, ← hev.1]
          rfl
  rw [hev]
  cases hsq : s.seq with
  | nil => exact absurd hsq hg.nonempty
  | cons t ts =>
    rw [hsq] at hf
    cases hf with
    | @cons m _ ms' _ h1 h2 =>
      have hrow := seqTen_rows hw h1.1 h1.2
      have hfold := foldl_rows hw ms' ts h2 hrow
      refine ⟨(List.zipWith seqTen (ms'.map (· :: rest)) ts).foldl (cat2 1) (seqTen (m :: rest) t), ?_, ?_⟩
      · simp only [sampledSeq, hsq]
        rw [if_neg (by omega)]
        simp only [List.map_cons, List.zipWith_cons_cons, catL]
        rw [if_neg (by simp [Ten.ndim, hrow.1]), if_neg (by simp [Ten.ndim, hrow.1]),
          if_pos (shapes_fit hw hrow.1 ms' ts h2)]
      · have e : s.sequence = fun r => t.getD r [] ++ ts.flatMap (fun t => t.getD r []) := by
          funext r; simp [St.sequence, hsq]
        rw [e, List.sum_cons]
        exact hfold

/-- C80 is false for every program whose first variable has no independent dimensions: `get_sampled_seq` raises, because the
dimension along which it joins the tensors does not exist. -/
theorem C80_refuted [AddCommMonoid α] {k : Nat} {eos : Option Nat} {topk : Nat → List (WithBot α) → List α → List Nat}
    (hp : Picks topk) (hk : 2 ≤ k) (v₀ : Var α × (Nat → Nat → Nat → WithBot α)) (vs : List (Var α × (Nat → Nat → Nat → WithBot α)))
    (hD : ∀ v ∈ v₀ :: vs, 2 ≤ v.1.dom) (hev : v₀.1.events = [])
    (s : St α) (hs : runSwor k eos topk (v₀ :: vs) blank = .ok s) :
    ∃ err, sampledSeq ((v₀ :: vs).map (fun v => v.1.events)) s = .error err := by
  obtain ⟨hw, -⟩ := runSwor_shaped hp hk (v₀ :: vs) (by simp) hD hs
  have hg := runSwor_good hp hk (v₀ :: vs) (by simp) hD hs
  cases hsq : s.seq with
  | nil => exact absurd hsq hg.nonempty
  | cons t ts =>
    have hl := hg.lens t (by rw [hsq]; exact List.mem_cons_self)
    refine ⟨.index, ?_⟩
    simp only [sampledSeq, hsq]
    rw [if_neg (by omega)]
    simp only [List.map_cons, List.zipWith_cons_cons, catL, hev, seqTen]
    rw [if_neg (show ¬ t.length = 1 by omega)]
    rfl

namespace SampledSeqCase
open DecodeCase EosCase

/-- A case for `C80_partial`: two pairs of coins, three samples. -/
example (s : St ℚ) (hs : runSwor 3 none sortTop [(pair, noise), (pair, noise)] blank = .ok s) :
    ∃ T, sampledSeq [[2], [2]] s = .ok T ∧ RowsOf s.width 4 [] s.sequence T :=
  C80_partial sortTop_picks (by omega) [(pair, noise), (pair, noise)] (by simp)
    (by intro v hv; simp only [List.mem_cons, List.not_mem_nil, or_false, or_self] at hv; subst hv; decide) [] [2, 2] rfl s hs

/-- The tensor in this case. -/
example : (runSwor 3 none sortTop [(pair, noise), (pair, noise)] blank).bind (fun s : St ℚ =>
      (sampledSeq [[2], [2]] s).map fun T =>
        (s.sequences, T.shape, (List.range 3).map fun r => (List.range 4).map fun i => T.get [r, i])) =
    .ok ([[0, 1, 1, 1], [1, 1, 1, 1], [0, 0, 1, 1]], [3, 4], [[0, 1, 1, 1], [1, 1, 1, 1], [0, 0, 1, 1]]) := by
  decide +kernel

/-- A case for `C80_refuted`: three tokens. -/
example (s : St ℚ) (hs : runSwor 3 (some 2) sortTop [(four, noise), (four, noise), (four, noise)] blank = .ok s) :
    ∃ err, sampledSeq [[], [], []] s = .error err :=
  C80_refuted sortTop_picks (by omega) (four, noise) [(four, noise), (four, noise)]
    (by intro v hv; simp only [List.mem_cons, List.not_mem_nil, or_false, or_self] at hv; subst hv; decide) rfl s hs

end SampledSeqCase

end Storch.Decode
