import Verif.Lemmas.RebarLemmas
import Verif.Lemmas.OnesLossLemmas

/-! What `RELAX` with rebar contributes to the surrogate loss. -/

namespace Storch
variable {α : Type _} [ValEq α]

/-- What `RELAX` with rebar contributes. -/
theorem rebar_contributes [CommRing α] [Autograd α] {hook : UnwrapHook α} (hh : PlainHook hook)
    {pool : List (Plate α)} (hp : PoolOK pool) {c t : STen α} (hw : TorchWeights (missingPlates c t))
    (hc : CostOK pool c) (hg : ParentsAllOrNone c.multiDimPlates) (ht : ParentOK pool t)
    (htc : ∀ p ∈ t.multiDimPlates, p ∈ c.plates) (hone : ∀ p ∈ c.plates, p.n = 1 → p ∈ t.plates)
    {own : Plate α} (ho : own ∈ t.plates) {n : Nat} (hn : own.n = 3 * n) (hn1 : 1 ≤ n)
    {cPhi : Ten α → Except Err (Ten α)} {φ : (List Nat → α) → α}
    (hφ : ∀ L1 L2, (L1 ++ own :: L2).Perm t.multiDimPlates →
      PerSample cPhi (L1.map Plate.n ++ n :: L2.map Plate.n) t.eventShape φ)
    {logProb : STen α → Except Err (STen α)} {es : List Nat} {G : (String → Nat) → List Nat → α}
    (hl : LogProbOK t logProb es G) (hes : es ≠ []) (eta : α) :
    ContributesOnes hook pool c (rebarSampled hook (.torch (.scalar eta)) cPhi logProb own.name t)
      ⟨t.plates.map Plate.name, sumEvent es G, some (t.plates.map Plate.name, fun ι =>
        relaxCv eta (sumEvent es G ι) (rebarPart φ own n n t (seenCost c t) ι)
          (rebarPart φ own n (2 * n) t (seenCost c t) ι))⟩ := by
  obtain ⟨rc, np, r1, n1, n2, r2, r3, r4⟩ := before_estimator_torch hh hp hw hc hg ht
  have hcl : ParentClosed np.plates := by
    intro p hm q hq
    obtain ⟨x, hx, he⟩ := ht.closed p ((n2.plates p).1 hm) q hq
    exact ⟨x, (n2.plates x).2 hx, he⟩
  have hnp : ParentOK pool np := ⟨n2.wf, fun p hm => ht.sub p ((n2.plates p).1 hm), hcl⟩
  have hmiss : ∀ p ∈ c.plates, 1 < p.n → p ∉ missingPlates c t → p ∈ t.plates := by
    intro p hm h1 hnm
    by_contra hne
    apply hnm
    refine List.mem_filter.2 ⟨List.mem_filter.2 ⟨hm, by simpa using h1⟩, ?_⟩
    have : ¬ p.isInMethod t.multiDimPlates = true := by
      rw [isInMethod_pool (ps := t.multiDimPlates) hp (fun q hq => ht.sub q (List.mem_filter.1 hq).1) (hc.scalar.sub p hm)]
      exact fun h => hne (List.mem_filter.1 h).1
    simpa using this
  have hperm : np.multiDimPlates.Perm t.multiDimPlates :=
    ((List.perm_ext_iff_of_nodup n2.wf.names.of_map ht.wf.names.of_map).2 n2.plates).filter _
  have hom : own ∈ np.multiDimPlates := List.mem_filter.2 ⟨(n2.plates own).2 ho, by simp; omega⟩
  obtain ⟨L1, L2, hL⟩ := List.append_of_mem hom
  have hφ' : PerSample cPhi (L1.map Plate.n ++ n :: L2.map Plate.n) np.eventShape φ := by
    rw [n2.event]
    exact hφ L1 L2 (hL ▸ hperm)
  have hl' : LogProbOK np logProb es G := by
    intro x hx
    obtain ⟨lp, l1, l2, l3, l4⟩ := hl x ⟨hx.wf, fun p => (hx.plates p).trans (n2.plates p), hx.event.trans n2.event,
      fun ι e => (hx.values ι e).trans (n2.values ι e)⟩
    exact ⟨lp, l1, l2, fun p => (l3 p).trans (n2.plates p).symm, l4⟩
  obtain ⟨lp, cv, e1, e2, e3⟩ := rebar_estimator hh hp hnp r2
    (by
      intro p hm
      rw [n2.plates p]
      obtain ⟨h1, h2⟩ := (r3 p).1 hm
      have := hc.scalar.1.pos p h1
      by_cases h3 : p.n = 1
      · exact hone p h1 h3
      · exact hmiss p h1 (by omega) h2)
    (by
      intro p hm
      have hpt : p ∈ t.multiDimPlates := hperm.mem_iff.1 hm
      refine (r3 p).2 ⟨htc p hpt, ?_⟩
      intro hmm
      have := (List.mem_filter.1 hmm).2
      rw [(isInMethod_pool (ps := t.multiDimPlates) hp (fun q hq => ht.sub q (List.mem_filter.1 hq).1)
        (ht.sub p (List.mem_filter.1 hpt).1)).2 hpt] at this
      cases this)
    hL hn hφ' hl' hes eta
  have hnames : ∀ s, s ∈ np.plates.map Plate.name ↔ s ∈ t.plates.map Plate.name := by
    intro s
    simp only [List.mem_map, n2.plates]
  have hval : ∀ a ι, rebarPart φ own n a np (fun ι => rc.sample ι []) ι = rebarPart φ own n a t (seenCost c t) ι := by
    intro a ι
    simp only [rebarPart, r4, n2.values]
  refine Or.inr ⟨rc, np, some (.st lp false), some (.st cv false), r1, n1, e1, rfl, ?_, ⟨_, e3.rename hnames ?_⟩, _, _, rfl⟩
  · exact ⟨e2.scalar, e2.closed, fun p hm => (e2.names p hm).trans (hnames _), e2.val⟩
  · intro ι
    rw [hval, hval]

end Storch
