import Verif.Lemmas.WorldLemmas
import Mathlib.Data.Finset.Card
import Mathlib.Order.Interval.Finset.Nat

/-!
# `_clean` (tensor.py:432-444)
-/

namespace Storch
variable {α : Type _}

namespace World

/-- The tensors that `_clean` goes on to from tensor `i`. -/
def nbrs (w : World α) (i : Nat) : List Nat := (w.kids i ++ w.parents i).map Prod.fst

/-- `_cleaned` -/
abbrev Cleaned (w : World α) (i : Nat) : Prop := (w.node i).cleaned = true

/-- Reached from one of the starts through tensors that were not cleaned before. -/
inductive ReachU (w : World α) (S : List Nat) : Nat → Prop
  | start {s} : s ∈ S → ¬ Cleaned w s → ReachU w S s
  | step {i n} : ReachU w S i → n ∈ nbrs w i → ¬ Cleaned w n → ReachU w S n

/-- What `_clean` needs of the graph: links among existing tensors, and lists put in place by an earlier
`_clean` belong to cleaned tensors. -/
structure CleanPre (w : World α) : Prop where
  range : ∀ i < w.size, ∀ n ∈ nbrs w i, n < w.size
  addr : ∀ i < w.size, ∀ j, (w.node i).kidsAt = 2 * j + 1 → Cleaned w j

/-- The effect of cleaning the tensors in `S`. -/
structure Cl (w : World α) (S : List Nat) (w' : World α) : Prop where
  prims : Prims false w w'
  vars : SameVars w w'
  size : w'.size = w.size
  plateList : w'.plateList = w.plateList
  old : ∀ i, Cleaned w i → w'.node i = w.node i
  new : ∀ i, ¬ Cleaned w i → w'.node i = w.node i ∨
    (w'.node i = { w.node i with cleaned := true, parents := [], kidsAt := 2 * i + 1 } ∧
      w'.kidList (2 * i + 1) = [] ∧ ReachU w S i ∧ ∀ n ∈ nbrs w i, Cleaned w' n)
  lists : ∀ a, w'.kidList a = w.kidList a ∨ ∃ i, a = 2 * i + 1 ∧ ¬ Cleaned w i ∧ Cleaned w' i
  starts : ∀ s ∈ S, Cleaned w' s

theorem Cl.mono {w w' : World α} {S : List Nat} (h : Cl w S w') {i : Nat} (hc : Cleaned w i) : Cleaned w' i := by
  rw [Cleaned, h.old i hc]; exact hc

theorem Cl.node_eq {w w' : World α} {S : List Nat} (h : Cl w S w') {i : Nat} (hc : ¬ Cleaned w' i) :
    w'.node i = w.node i := by
  by_cases hw : Cleaned w i
  · exact h.old i hw
  · rcases h.new i hw with h1 | ⟨h1, _⟩
    · exact h1
    · exact absurd (by rw [Cleaned, h1]) hc

theorem Cl.nbrs_eq {w w' : World α} {S : List Nat} (h : Cl w S w') (hp : CleanPre w) {i : Nat}
    (hi : i < w.size) (hc : w'.node i = w.node i) : nbrs w' i = nbrs w i := by
  have : w'.kids i = w.kids i := by
    rw [World.kids, World.kids, hc]
    rcases h.lists (w.node i).kidsAt with h1 | ⟨j, h1, h2, _⟩
    · exact h1
    · exact absurd (hp.addr i hi j h1) h2
  rw [nbrs, nbrs, this, World.parents, World.parents, hc]

theorem Cl.pre {w w' : World α} {S : List Nat} (h : Cl w S w') (hp : CleanPre w) : CleanPre w' := by
  constructor
  · intro i hi n hn
    rw [h.size] at hi ⊢
    by_cases hw : w'.node i = w.node i
    · rw [h.nbrs_eq hp hi hw] at hn; exact hp.range i hi n hn
    · by_cases hc : Cleaned w i
      · exact absurd (h.old i hc) hw
      · rcases h.new i hc with h1 | ⟨h1, h2, _⟩
        · exact absurd h1 hw
        · rw [nbrs, World.kids, World.parents, h1] at hn
          simp [h2] at hn
  · intro i hi j hj
    rw [h.size] at hi
    by_cases hw : w'.node i = w.node i
    · rw [hw] at hj; exact h.mono (hp.addr i hi j hj)
    · by_cases hc : Cleaned w i
      · exact absurd (h.old i hc) hw
      · rcases h.new i hc with h1 | ⟨h1, h2, _⟩
        · exact absurd h1 hw
        · rw [h1] at hj
          simp only at hj
          have : j = i := by omega
          subst this
          rw [Cleaned, h1]

theorem ReachU.lt {w : World α} (hp : CleanPre w) {S : List Nat} (hS : ∀ s ∈ S, s < w.size) {i : Nat}
    (h : ReachU w S i) : i < w.size := by
  induction h with
  | start hs _ => exact hS _ hs
  | step _ hn _ ih => exact hp.range _ ih _ hn

theorem Cl.refl (w : World α) {S : List Nat} (hS : ∀ s ∈ S, Cleaned w s) : Cl w S w :=
  ⟨.refl, SameVars.rfl', rfl, rfl, fun _ _ => rfl, fun _ _ => Or.inl rfl, fun _ => Or.inl rfl, hS⟩

theorem ReachU.mono {w : World α} {S T : List Nat} (h : ∀ s ∈ S, s ∈ T) {i : Nat} (hr : ReachU w S i) :
    ReachU w T i := by
  induction hr with
  | start hs hc => exact .start (h _ hs) hc
  | step _ hn hc ih => exact ih.step hn hc

theorem Cl.reach_back {w w1 : World α} {S T : List Nat} (h : Cl w S w1) (hp : CleanPre w)
    (hT : ∀ s ∈ T, s < w.size) {i : Nat} (hr : ReachU w1 T i) : ReachU w T i ∧ i < w.size := by
  induction hr with
  | start hs hc => exact ⟨.start hs (fun h' => hc (h.mono h')), hT _ hs⟩
  | step hr hn hc ih =>
    rename_i i n
    have hni : ¬ Cleaned w1 i := by cases hr <;> assumption
    rw [h.nbrs_eq hp ih.2 (h.node_eq hni)] at hn
    exact ⟨ih.1.step hn (fun h' => hc (h.mono h')), hp.range _ ih.2 _ hn⟩

theorem Cl.trans {w w1 w2 : World α} {S T : List Nat} (hp : CleanPre w) (hT : ∀ s ∈ T, s < w.size)
    (_hS : ∀ s ∈ S, s < w.size) (h1 : Cl w S w1) (h2 : Cl w1 T w2) : Cl w (S ++ T) w2 := by
  refine ⟨h1.prims.trans h2.prims, h1.vars.trans h2.vars, by rw [h2.size, h1.size],
    by rw [h2.plateList, h1.plateList], ?_, ?_, ?_, ?_⟩
  · intro i hc; rw [h2.old i (h1.mono hc), h1.old i hc]
  · intro i hc
    by_cases hc1 : Cleaned w1 i
    · rcases h1.new i hc with g | ⟨g1, g2, g3, g4⟩
      · exact absurd (by rw [Cleaned, ← g]; exact hc1) hc
      · right
        refine ⟨by rw [h2.old i hc1, g1], ?_, g3.mono (by simp +contextual), fun n hn => h2.mono (g4 n hn)⟩
        rcases h2.lists (2 * i + 1) with h | ⟨j, hj, hj1, _⟩
        · rw [h, g2]
        · have : j = i := by omega
          subst this
          exact absurd hc1 hj1
    · have hn1 := h1.node_eq hc1
      rcases h2.new i hc1 with g | ⟨g1, g2, g3, g4⟩
      · left; rw [g, hn1]
      · right
        have hb := h1.reach_back hp hT g3
        refine ⟨by rw [g1, hn1], g2, hb.1.mono (by simp +contextual), ?_⟩
        rw [← h1.nbrs_eq hp hb.2 hn1]
        exact g4
  · intro a
    rcases h2.lists a with g | ⟨i, g1, g2, g3⟩
    · rcases h1.lists a with g' | ⟨i, g1, g2, g3⟩
      · left; rw [g, g']
      · right; exact ⟨i, g1, g2, h2.mono g3⟩
    · right; exact ⟨i, g1, fun h => g2 (h1.mono h), g3⟩
  · intro s hs
    rcases List.mem_append.1 hs with h | h
    · exact h2.mono (h1.starts s h)
    · exact h2.starts s h

/-- The tensors not yet cleaned. -/
def uncleaned (w : World α) : Finset Nat := (Finset.range w.size).filter (fun i => (w.node i).cleaned = false)

theorem Cl.uncleaned_le {w w' : World α} {S : List Nat} (h : Cl w S w') :
    (uncleaned w').card ≤ (uncleaned w).card := by
  apply Finset.card_le_card
  intro i hi
  simp only [uncleaned, Finset.mem_filter, Finset.mem_range] at hi ⊢
  refine ⟨h.size ▸ hi.1, ?_⟩
  by_contra hc
  have := h.mono (i := i) (by simpa using hc)
  rw [Cleaned] at this
  rw [this] at hi
  simp at hi

theorem mark_node (w : World α) (x i : Nat) : (w.mark x).node i =
    if i = x then { w.node x with cleaned := true } else w.node i := rfl

theorem mark_nbrs (w : World α) (x i : Nat) : nbrs (w.mark x) i = nbrs w i := by
  have : ((w.mark x).node i).kidsAt = (w.node i).kidsAt ∧ ((w.mark x).node i).parents = (w.node i).parents := by
    rw [mark_node]
    split
    · rename_i h; subst h; exact ⟨rfl, rfl⟩
    · exact ⟨rfl, rfl⟩
  rw [nbrs, nbrs, World.kids, World.kids, World.parents, World.parents, this.1, this.2]
  rfl

theorem mark_cleaned (w : World α) (x i : Nat) : Cleaned (w.mark x) i ↔ i = x ∨ Cleaned w i := by
  rw [Cleaned, mark_node]
  split
  · rename_i h; subst h; simp
  · rename_i h; simp [h]

theorem mark_pre {w : World α} (hp : CleanPre w) (x : Nat) : CleanPre (w.mark x) := by
  constructor
  · intro i hi n hn; rw [mark_nbrs] at hn; exact hp.range i hi n hn
  · intro i hi j hj
    rw [mark_cleaned]
    right
    apply hp.addr i hi j
    rw [mark_node] at hj
    split at hj
    · rename_i h; subst h; exact hj
    · exact hj

theorem clean_spec (fuel : Nat) : ∀ (w : World α) (x : Nat), CleanPre w → x < w.size →
    (uncleaned w).card < fuel → ∃ w', clean fuel w x = .ok w' ∧ Cl w [x] w' := by
  induction fuel with
  | zero => intro w x _ _ h; omega
  | succ fuel ih =>
    intro w x hp hx hf
    rw [clean]
    by_cases hcx : Cleaned w x
    · rw [if_pos hcx]
      exact ⟨w, rfl, Cl.refl w (by simpa using hcx)⟩
    · rw [if_neg hcx]
      have hloop : ∀ (es : List (Nat × Bool)) (v : World α), CleanPre v → (∀ e ∈ es, e.1 < v.size) →
          (uncleaned v).card < fuel →
          ∃ v', cleanEach (clean fuel) es v = .ok v' ∧ Cl v (es.map Prod.fst) v' := by
        intro es
        induction es with
        | nil => intro v _ _ _; exact ⟨v, rfl, Cl.refl v (by simp)⟩
        | cons e es ihes =>
          intro v hv hr hfu
          obtain ⟨v1, g1, g2⟩ := ih v e.1 hv (hr e (by simp)) hfu
          obtain ⟨v2, g3, g4⟩ := ihes v1 (g2.pre hv)
            (fun e' he' => by rw [g2.size]; exact hr e' (by simp [he'])) (lt_of_le_of_lt g2.uncleaned_le hfu)
          refine ⟨v2, by rw [cleanEach, g1]; exact g3, ?_⟩
          exact g2.trans hv (by
            intro s hs
            obtain ⟨e', he', rfl⟩ := List.mem_map.1 hs
            exact hr e' (by simp [he'])) (by simpa using hr e (by simp)) g4
      have hmu : (uncleaned (w.mark x)).card < fuel := by
        have : (uncleaned (w.mark x)).card < (uncleaned w).card := by
          apply Finset.card_lt_card
          rw [Finset.ssubset_iff_of_subset]
          · refine ⟨x, ?_, ?_⟩
            · simp only [uncleaned, Finset.mem_filter, Finset.mem_range]
              exact ⟨hx, by simpa using hcx⟩
            · simp only [uncleaned, Finset.mem_filter, Finset.mem_range, not_and]
              intro _
              have := (mark_cleaned w x x).2 (Or.inl rfl)
              rw [Cleaned] at this
              simp [this]
          · intro i hi
            simp only [uncleaned, Finset.mem_filter, Finset.mem_range] at hi ⊢
            refine ⟨hi.1, ?_⟩
            by_contra hc
            have := (mark_cleaned w x i).2 (Or.inr (by simpa using hc))
            rw [Cleaned] at this
            rw [this] at hi
            simp at hi
        omega
      have hpm := mark_pre hp x
      have hkr : ∀ e ∈ w.kids x, e.1 < w.size := fun e he =>
        hp.range x hx e.1 (List.mem_map.2 ⟨e, List.mem_append_left _ he, rfl⟩)
      have hpr : ∀ e ∈ w.parents x, e.1 < w.size := fun e he =>
        hp.range x hx e.1 (List.mem_map.2 ⟨e, List.mem_append_right _ he, rfl⟩)
      obtain ⟨w1, g1, g2⟩ := hloop (w.kids x) (w.mark x) hpm hkr hmu
      have hx1 : w1.node x = { w.node x with cleaned := true } := by
        rw [g2.old x ((mark_cleaned w x x).2 (Or.inl rfl)), mark_node, if_pos rfl]
      have hpar : w1.parents x = w.parents x := by rw [World.parents, hx1]; rfl
      obtain ⟨w2, g3, g4⟩ := hloop (w1.parents x) w1 (g2.pre hpm)
        (by rw [hpar, g2.size]; exact hpr) (lt_of_le_of_lt g2.uncleaned_le hmu)
      have hcl := g2.trans hpm (by
          rw [hpar]; intro s hs
          obtain ⟨e, he, rfl⟩ := List.mem_map.1 hs
          exact hpr e he) (by
          intro s hs
          obtain ⟨e, he, rfl⟩ := List.mem_map.1 hs
          exact hkr e he) g4
      rw [hpar, ← List.map_append] at hcl
      change Cl (w.mark x) (nbrs w x) w2 at hcl
      have hx2 : w2.node x = { w.node x with cleaned := true } := by
        rw [hcl.old x ((mark_cleaned w x x).2 (Or.inl rfl)), mark_node, if_pos rfl]
      refine ⟨w2.cut x, by simp only [g1, g3], ?_⟩
      -- the cut
      have hcutn : ∀ i, (w2.cut x).node i = if i = x then { w2.node x with parents := [], kidsAt := 2 * x + 1 } else w2.node i :=
        fun i => rfl
      have hcutl : ∀ a, (w2.cut x).kidList a = if a = 2 * x + 1 then [] else w2.kidList a := fun a => rfl
      have hcutc : ∀ i, Cleaned (w2.cut x) i ↔ Cleaned w2 i := by
        intro i
        rw [Cleaned, hcutn]
        split
        · rename_i h; subst h; rfl
        · rfl
      have hreach : ∀ i, ReachU (w.mark x) (nbrs w x) i → ReachU w [x] i := by
        intro i hr
        induction hr with
        | start hs hc =>
          exact .step (.start (by simp) hcx) hs (fun h => hc ((mark_cleaned w x _).2 (Or.inr h)))
        | step _ hn hc ih =>
          rw [mark_nbrs] at hn
          exact ih.step hn (fun h => hc ((mark_cleaned w x _).2 (Or.inr h)))
      refine ⟨?_, ?_, hcl.size, hcl.plateList, ?_, ?_, ?_, ?_⟩
      · refine Relation.ReflTransGen.tail (Relation.ReflTransGen.head (.mark x hx) hcl.prims) (.cut x ?_ ?_)
        · rw [hcl.size]; exact hx
        · rw [hx2]
      · exact SameVars.trans (b := w.mark x) ⟨rfl, rfl, rfl, rfl, rfl, rfl, rfl, rfl, rfl, rfl⟩
          (hcl.vars.trans ⟨rfl, rfl, rfl, rfl, rfl, rfl, rfl, rfl, rfl, rfl⟩)
      · intro i hc
        have hix : i ≠ x := fun h => hcx (h ▸ hc)
        rw [hcutn, if_neg hix, hcl.old i ((mark_cleaned w x i).2 (Or.inr hc)), mark_node, if_neg hix]
      · intro i hc
        by_cases hix : i = x
        · subst hix
          right
          refine ⟨by rw [hcutn, if_pos rfl, hx2], by rw [hcutl, if_pos rfl], .start (by simp) hcx, ?_⟩
          intro n hn
          rw [hcutc]
          exact hcl.starts n hn
        · rcases hcl.new i (by rw [mark_cleaned]; tauto) with h | ⟨h1, h2, h3, h4⟩
          · left; rw [hcutn, if_neg hix, h, mark_node, if_neg hix]
          · right
            refine ⟨by rw [hcutn, if_neg hix, h1, mark_node, if_neg hix], ?_, hreach i h3, ?_⟩
            · rw [hcutl]; split
              · rfl
              · exact h2
            · intro n hn
              rw [hcutc]
              exact h4 n (by rw [mark_nbrs]; exact hn)
      · intro a
        by_cases ha : a = 2 * x + 1
        · right
          exact ⟨x, ha, hcx, by rw [hcutc, Cleaned, hx2]⟩
        · rcases hcl.lists a with h | ⟨i, h1, h2, h3⟩
          · left; rw [hcutl, if_neg ha, h]; rfl
          · right
            exact ⟨i, h1, fun h => h2 ((mark_cleaned w x i).2 (Or.inr h)), by rw [hcutc]; exact h3⟩
      · intro s hs
        rw [List.mem_singleton] at hs
        subst hs
        rw [hcutc, Cleaned, hx2]

theorem uncleaned_lt (w : World α) : (uncleaned w).card < w.size + 1 := by
  have := Finset.card_filter_le (Finset.range w.size) (fun i => (w.node i).cleaned = false)
  rw [Finset.card_range] at this
  rw [uncleaned]; omega

theorem cleanNode_spec {w : World α} (hp : CleanPre w) {x : Nat} (hx : x < w.size) :
    ∃ w', cleanNode w x = .ok w' ∧ Cl w [x] w' :=
  clean_spec _ w x hp hx (uncleaned_lt w)

theorem cleanAll_spec (cs : List Nat) : ∀ {w : World α}, CleanPre w → (∀ c ∈ cs, c < w.size) →
    ∃ w', cleanAll cs w = .ok w' ∧ Cl w cs w' := by
  induction cs with
  | nil => intro w _ _; exact ⟨w, rfl, Cl.refl w (by simp)⟩
  | cons c cs ih =>
    intro w hp hr
    obtain ⟨w1, g1, g2⟩ := cleanNode_spec hp (hr c (by simp))
    obtain ⟨w2, g3, g4⟩ := ih (g2.pre hp) (fun c' hc' => by rw [g2.size]; exact hr c' (by simp [hc']))
    refine ⟨w2, by rw [cleanAll, g1]; exact g3, ?_⟩
    exact g2.trans hp (fun s hs => hr s (by simp [hs])) (by simpa using hr c (by simp)) g4

theorem LinksOK.pre {w : World α} (h : LinksOK w) : CleanPre w := by
  constructor
  · intro i hi n hn
    obtain ⟨e, he, rfl⟩ := List.mem_map.1 hn
    rcases List.mem_append.1 he with he | he
    · exact (h.kids _ e he).1
    · have h1 := h.parents i hi e he
      have := h.addr i hi
      omega
  · exact h.cleanAddr

end World

end Storch
