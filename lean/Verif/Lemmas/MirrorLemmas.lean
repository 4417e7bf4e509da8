import Verif.Lemmas.ExecLemmas

/-!
# Parent and child links mirror each other
-/

namespace Storch
variable {α : Type _} {ins : Bool}

namespace World

/-- The tensor is not a copy and no copy of it exists. -/
def Single (w : World α) (p : Nat) : Prop :=
  (w.node p).origin = p ∧ ∀ i < w.size, (w.node i).origin = p → i = p

/-- The mirror invariant. -/
structure MirrorOK (w : World α) : Prop where
  addr : ∀ i < w.size, (w.node i).kidsAt / 2 = (w.node i).origin ∨
    ((w.node i).cleaned = true ∧ (w.node i).kidsAt = 2 * i + 1)
  mirror : ∀ p < w.size, ∀ c < w.size, (w.node p).cleaned = false → (w.node c).cleaned = false →
    Single w p → (w.parents c).count (p, false) = (w.kidList (2 * p)).count (c, false)

theorem MirrorOK.kidsAt {w : World α} (h : MirrorOK w) (hl : LinksOK w) {p : Nat} (hp : p < w.size)
    (hc : (w.node p).cleaned = false) (hs : Single w p) : (w.node p).kidsAt = 2 * p := by
  rcases h.addr p hp with h1 | ⟨h1, _⟩
  · rw [hs.1] at h1
    by_contra hne
    have := hl.cleanAddr p hp p (by omega)
    rw [hc] at this; cases this
  · rw [hc] at h1; cases h1

theorem MirrorOK.eq_of_kidsAt {w : World α} (h : MirrorOK w) {p q : Nat} (hq : q < w.size)
    (hs : Single w p) (he : (w.node q).kidsAt = 2 * p) : q = p := by
  rcases h.addr q hq with h1 | ⟨_, h1⟩
  · exact hs.2 q hq (by omega)
  · omega

theorem count_eq_zero_of {l : List (Nat × Bool)} {n : Nat} (h : ∀ e ∈ l, e.1 ≠ n) (b : Bool) :
    l.count (n, b) = 0 := by
  rw [List.count_eq_zero]
  intro hm
  exact h _ hm rfl

theorem addLinkedKids_eq (w : World α) (id : Nat) (ps : List (Nat × Bool)) : ∀ kl a,
    addLinkedKids w id ps kl a =
      kl a ++ (ps.filter (fun p => (w.node p.1).kidsAt == a)).map (fun p => (id, p.2)) := by
  induction ps with
  | nil => intro kl a; simp [addLinkedKids]
  | cons p ps ih =>
    intro kl a
    rw [addLinkedKids, ih]
    by_cases h : a = (w.node p.1).kidsAt
    · rw [if_pos h, List.filter_cons_of_pos (by simp [h]), List.append_assoc]
      rfl
    · rw [if_neg h, List.filter_cons_of_neg (by simpa using fun h' => h h'.symm)]

theorem count_new {id : Nat} {ps : List (Nat × Bool)} {a p : Nat} (w : World α)
    (h : ∀ q ∈ ps, (w.node q.1).kidsAt = a ↔ q.1 = p) :
    ((ps.filter (fun p => (w.node p.1).kidsAt == a)).map (fun p => (id, p.2))).count (id, false) =
      ps.count (p, false) := by
  induction ps with
  | nil => rfl
  | cons q ps ih =>
    have ih := ih (fun q hq => h q (by simp [hq]))
    have hq := h q (by simp)
    obtain ⟨q1, q2⟩ := q
    by_cases hc : (w.node q1).kidsAt = a
    · rw [List.filter_cons_of_pos (by simpa using hc), List.map_cons, List.count_cons, ih, List.count_cons]
      have := hq.1 hc
      simp only at this
      subst this
      simp
    · rw [List.filter_cons_of_neg (by simpa using hc), ih, List.count_cons]
      have : q1 ≠ p := fun h' => hc (hq.2 h')
      simp [this]

theorem Single.of_new {w w' : World α} {p : Nat} (hsz : w'.size = w.size + 1) (hp : p < w.size)
    (hn : ∀ i, i ≠ w.size → w'.node i = w.node i) (hs : Single w' p) : Single w p := by
  refine ⟨by rw [← hn p (by omega)]; exact hs.1, fun i hi ho => hs.2 i (by omega) ?_⟩
  rw [hn i (by omega)]; exact ho

theorem MirrorOK.prim {w w' : World α} (hl : LinksOK w) (h : MirrorOK w) (hp : Prim ins w w') : MirrorOK w' := by
  cases hp with
  | same hs =>
    obtain ⟨s1, s2, s3, s4⟩ := hs
    constructor
    · rw [s1, s2]; exact h.addr
    · unfold Single World.parents
      rw [s1, s2, s4]; exact h.mirror
  | @new _ kind name t parents src rg m id hp hs hn =>
    obtain ⟨h1, h2, h3, h4, h5, h6, _, _, _, _, h11, _, _, _, _, h16⟩ := newNode_spec hn
    subst h1
    constructor
    · intro i hi
      by_cases hiw : i = w.size
      · left; rw [hiw, h5, h16]; omega
      · rw [h3 i hiw]; exact h.addr i (by omega)
    · intro p hp' c hc hcp hcc hsp
      have hkids : ∀ a, ∀ e ∈ w.kidList a, e.1 ≠ w.size := fun a e he => by have := (hl.kids a e he).1; omega
      by_cases hpw : p = w.size
      · subst hpw
        rw [h11, if_pos rfl]
        rw [count_eq_zero_of]
        · rfl
        · intro e he
          by_cases hcw : c = w.size
          · subst hcw
            rw [World.parents, h4] at he
            obtain ⟨q, hq, rfl⟩ := List.mem_map.1 he
            have := hp q hq; simp only; omega
          · rw [World.parents, h3 c hcw] at he
            have h7 := (hl.parents c (by omega) e he).1
            have h8 := hl.addr c (by omega)
            omega
      · have hps : p < w.size := by omega
        have hsp' := hsp.of_new h2 hps h3
        rw [h3 p hpw] at hcp
        rw [h11, if_neg (by omega), addKids_eq, List.count_append]
        by_cases hcw : c = w.size
        · subst hcw
          rw [count_eq_zero_of (hkids _), World.parents, h4, List.count_replicate_self, Nat.zero_add]
          rw [List.count, List.countP_map]
          apply List.countP_congr
          intro q hq
          simp only [Function.comp, beq_iff_eq, Prod.mk.injEq, and_true]
          constructor
          · rintro rfl; exact h.kidsAt hl hps hcp hsp'
          · intro he; exact h.eq_of_kidsAt (hp q hq) hsp' he
        · rw [h3 c hcw] at hcc
          rw [World.parents, h3 c hcw, List.count_replicate, if_neg (by simpa using Ne.symm hcw), Nat.add_zero]
          exact h.mirror p hps c (by omega) hcp hcc hsp'
  | insertPlate a p _ _ =>
    exact ⟨h.addr, h.mirror⟩
  | mark x hx =>
    have hno : ∀ i, ((w.mark x).node i).origin = (w.node i).origin := by
      intro i; simp only [World.mark]; split
      · rename_i hi; rw [hi]
      · rfl
    have hnk : ∀ i, ((w.mark x).node i).kidsAt = (w.node i).kidsAt := by
      intro i; simp only [World.mark]; split
      · rename_i hi; rw [hi]
      · rfl
    have hnp : ∀ i, (w.mark x).parents i = w.parents i := by
      intro i; simp only [World.mark, World.parents]; split
      · rename_i hi; rw [hi]
      · rfl
    have hnc : ∀ i, ((w.mark x).node i).cleaned = false → (w.node i).cleaned = false := by
      intro i; simp only [World.mark]; split
      · intro h; cases h
      · exact id
    constructor
    · intro i hi
      rw [hno, hnk]
      rcases h.addr i hi with h1 | ⟨h1, h2⟩
      · exact Or.inl h1
      · refine Or.inr ⟨?_, h2⟩
        by_contra hc
        have := hnc i (by simpa using hc)
        rw [h1] at this; cases this
    · intro p hp c hc hcp hcc hs
      rw [hnp]
      refine h.mirror p hp c hc (hnc p hcp) (hnc c hcc) ⟨by rw [← hno]; exact hs.1, fun i hi ho => hs.2 i hi ?_⟩
      rw [hno]; exact ho
  | cut x hx hcx =>
    have hno : ∀ i, ((w.cut x).node i).origin = (w.node i).origin := by
      intro i; simp only [World.cut]; split
      · rename_i hi; rw [hi]
      · rfl
    have hnc : ∀ i, ((w.cut x).node i).cleaned = (w.node i).cleaned := by
      intro i; simp only [World.cut]; split
      · rename_i hi; rw [hi]
      · rfl
    constructor
    · intro i hi
      by_cases hix : i = x
      · subst hix
        right
        exact ⟨by rw [hnc]; exact hcx, by simp [World.cut]⟩
      · have : (w.cut x).node i = w.node i := by simp [World.cut, hix]
        rw [this]; exact h.addr i hi
    · intro p hp c hc hcp hcc hs
      rw [hnc] at hcp hcc
      have hcx' : c ≠ x := by rintro rfl; rw [hcx] at hcc; cases hcc
      have h1 : (w.cut x).parents c = w.parents c := by simp [World.cut, World.parents, hcx']
      have h2 : (w.cut x).kidList (2 * p) = w.kidList (2 * p) := by
        simp only [World.cut]; rw [if_neg (by omega)]
      rw [h1, h2]
      refine h.mirror p hp c hc hcp hcc ⟨by rw [← hno]; exact hs.1, fun i hi ho => hs.2 i hi ?_⟩
      rw [hno]; exact ho
  | @mimic _ x t ps hm =>
    obtain ⟨hx, w1, hn, h2, h3, h4, h5, h6, h7⟩ := mimic_spec hm
    have hon : (w'.node w.size).origin = w.rank x := by rw [h4]; rfl
    constructor
    · intro i hi
      by_cases hiw : i = w.size
      · left; rw [hiw, h4]
      · rw [h3 i hiw]; exact h.addr i (by omega)
    · intro p hp' c hc hcp hcc hsp
      have hpw : p ≠ w.size := by
        rintro rfl
        have := hsp.1
        rw [hon] at this
        have := hl.addr x hx
        omega
      have hps : p < w.size := by omega
      have hsp' := hsp.of_new h2 hps h3
      have hkids : ∀ a, ∀ e ∈ w.kidList a, e.1 ≠ w.size := fun a e he => by have := (hl.kids a e he).1; omega
      rw [h3 p hpw] at hcp
      rw [h6, addLinkedKids_eq, if_neg (by omega), List.count_append]
      by_cases hcw : c = w.size
      · subst hcw
        rw [count_eq_zero_of (hkids _), Nat.zero_add, count_new w (p := p), World.parents, h4]
        intro q hq
        have hqx := hl.parents x hx q hq
        have := hl.addr x hx
        constructor
        · intro he; exact h.eq_of_kidsAt (by omega) hsp' he
        · rintro rfl; exact h.kidsAt hl hps hcp hsp'
      · rw [h3 c hcw] at hcc
        rw [World.parents, h3 c hcw]
        rw [count_eq_zero_of (l := List.map _ _) (n := c), Nat.add_zero]
        · exact h.mirror p hps c (by omega) hcp hcc hsp'
        · intro e he
          obtain ⟨q, _, rfl⟩ := List.mem_map.1 he
          exact Ne.symm hcw

theorem MirrorOK.prims {w w' : World α} (hl : LinksOK w) (h : MirrorOK w) (hp : Prims ins w w') : MirrorOK w' := by
  induction hp with
  | refl => exact h
  | tail h1 h2 ih => exact ih.prim (hl.prims h1) h2

theorem MirrorOK.init [Inhabited α] : MirrorOK (World.init : World α) :=
  ⟨fun i hi => absurd hi (Nat.not_lt_zero i), fun i hi => absurd hi (Nat.not_lt_zero i)⟩

end World
end Storch
