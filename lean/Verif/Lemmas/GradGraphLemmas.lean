import Verif.Model.GradGraph
import Mathlib.Logic.Relation

/-! Lemmas on the search through torch's backward graph. -/

namespace Storch
variable {N T : Type _} [DecidableEq N] [DecidableEq T]

/-- `b` is among the next functions of `a`. -/
def GradGraph.Edge (G : GradGraph N T) (a b : N) : Prop := some b ∈ G.next a

omit [DecidableEq T] in
theorem walk_sound [Fintype N] (G : GradGraph N T) (V : Finset N) (q : List (Option N)) {x : N} (hx : x ∈ walkQueue G V q) :
    x ∉ V ∧ ∃ n, some n ∈ q ∧ Relation.ReflTransGen G.Edge n x := by
  induction V, q using walkQueue.induct G with
  | case1 V => rw [walkQueue] at hx; cases hx
  | case2 V q ih =>
    rw [walkQueue] at hx
    obtain ⟨h1, n, h2, h3⟩ := ih hx
    exact ⟨h1, n, List.mem_cons_of_mem _ h2, h3⟩
  | case3 V n q hn ih =>
    rw [walkQueue, if_pos hn] at hx
    obtain ⟨h1, n, h2, h3⟩ := ih hx
    exact ⟨h1, n, List.mem_cons_of_mem _ h2, h3⟩
  | case4 V n q hn ih =>
    rw [walkQueue, if_neg hn, List.mem_cons] at hx
    rcases hx with rfl | hx
    · exact ⟨hn, x, List.mem_cons_self, .refl⟩
    · obtain ⟨h1, m, h2, h3⟩ := ih hx
      refine ⟨fun h => h1 (Finset.mem_insert_of_mem h), ?_⟩
      rcases List.mem_append.1 h2 with h2 | h2
      · exact ⟨m, List.mem_cons_of_mem _ h2, h3⟩
      · exact ⟨n, List.mem_cons_self, .head h2 h3⟩

omit [DecidableEq T] in
theorem walk_nodup [Fintype N] (G : GradGraph N T) (V : Finset N) (q : List (Option N)) : (walkQueue G V q).Nodup := by
  induction V, q using walkQueue.induct G with
  | case1 V => rw [walkQueue]; exact List.nodup_nil
  | case2 V q ih => rw [walkQueue]; exact ih
  | case3 V n q hn ih => rw [walkQueue, if_pos hn]; exact ih
  | case4 V n q hn ih =>
    rw [walkQueue, if_neg hn, List.nodup_cons]
    exact ⟨fun h => (walk_sound G _ _ h).1 (Finset.mem_insert_self _ _), ih⟩

omit [DecidableEq T] in
theorem walk_complete [Fintype N] (G : GradGraph N T) (V : Finset N) (q : List (Option N))
    (hV : ∀ v ∈ V, ∀ b, G.Edge v b → b ∈ V ∨ some b ∈ q) :
    (∀ n, some n ∈ q → n ∈ V ∨ n ∈ walkQueue G V q) ∧
      ∀ v, v ∈ V ∨ v ∈ walkQueue G V q → ∀ b, G.Edge v b → b ∈ V ∨ b ∈ walkQueue G V q := by
  induction V, q using walkQueue.induct G with
  | case1 V =>
    rw [walkQueue]
    refine ⟨by simp, ?_⟩
    intro v hv b hb
    simp only [List.not_mem_nil, or_false] at hv ⊢
    simpa using hV v hv b hb
  | case2 V q ih =>
    rw [walkQueue]
    obtain ⟨i1, i2⟩ := ih (fun v hv b hb => by simpa using hV v hv b hb)
    exact ⟨fun n hn => i1 n (by simpa using hn), i2⟩
  | case3 V n q hn ih =>
    rw [walkQueue, if_pos hn]
    obtain ⟨i1, i2⟩ := ih (fun v hv b hb => by
      rcases hV v hv b hb with h | h
      · exact .inl h
      · rcases List.mem_cons.1 h with h | h
        · injection h with h; subst h; exact .inl hn
        · exact .inr h)
    refine ⟨?_, i2⟩
    intro m hm
    rcases List.mem_cons.1 hm with h | h
    · injection h with h; subst h; exact .inl hn
    · exact i1 m h
  | case4 V n q hn ih =>
    rw [walkQueue, if_neg hn]
    obtain ⟨i1, i2⟩ := ih (fun v hv b hb => by
      rcases Finset.mem_insert.1 hv with rfl | hv
      · exact .inr (List.mem_append_right _ hb)
      · rcases hV v hv b hb with h | h
        · exact .inl (Finset.mem_insert_of_mem h)
        · rcases List.mem_cons.1 h with h | h
          · injection h with h; subst h; exact .inl (Finset.mem_insert_self _ _)
          · exact .inr (List.mem_append_left _ h))
    have e : ∀ x, (x ∈ V ∨ x ∈ n :: walkQueue G (insert n V) (q ++ G.next n)) ↔
        (x ∈ insert n V ∨ x ∈ walkQueue G (insert n V) (q ++ G.next n)) := by
      intro x
      rw [Finset.mem_insert, List.mem_cons]
      tauto
    refine ⟨?_, ?_⟩
    · intro m hm
      rw [e]
      rcases List.mem_cons.1 hm with h | h
      · injection h with h; subst h; exact .inl (Finset.mem_insert_self _ _)
      · exact i1 m (List.mem_append_left _ h)
    · intro v hv b hb
      rw [e] at hv ⊢
      exact i2 v hv b hb

omit [DecidableEq T] in
/-- The walk visits exactly the nodes that can be reached. -/
theorem mem_walk [Fintype N] (G : GradGraph N T) (n x : N) :
    x ∈ walkQueue G ∅ [some n] ↔ Relation.ReflTransGen G.Edge n x := by
  constructor
  · intro h
    obtain ⟨-, m, h1, h2⟩ := walk_sound G _ _ h
    simp only [List.mem_cons, Option.some.injEq, List.not_mem_nil, or_false] at h1
    exact h1 ▸ h2
  · intro h
    obtain ⟨i1, i2⟩ := walk_complete G ∅ [some n] (by simp)
    have : x ∈ (∅ : Finset N) ∨ x ∈ walkQueue G ∅ [some n] := by
      induction h with
      | refl => exact i1 n (by simp)
      | tail _ hb ih => exact i2 _ ih _ hb
    simpa using this

/-! ### The search -/

theorem findInput_some {G : GradGraph N T} {p : N} {todo todo' : List (Nat × T)} {i : Nat}
    (h : findInput G p todo = some (i, todo')) :
    ∃ x a b, todo = a ++ (i, x) :: b ∧ todo' = a ++ b ∧ gradMatch G p x = true ∧ ∀ y ∈ a, gradMatch G p y.2 = false := by
  induction todo generalizing todo' i with
  | nil => cases h
  | cons e r ih =>
    obtain ⟨k, x⟩ := e
    rw [findInput] at h
    split at h
    · rename_i hm
      injection h with h
      injection h with h1 h2
      subst h1 h2
      exact ⟨x, [], r, rfl, rfl, hm, by simp⟩
    · rename_i hm
      split at h
      · cases h
      · rename_i j r' hf
        injection h with h
        injection h with h1 h2
        subst h1 h2
        obtain ⟨y, a, b, h1, h2, h3, h4⟩ := ih hf
        refine ⟨y, (k, x) :: a, b, by rw [h1]; rfl, by rw [h2]; rfl, h3, ?_⟩
        intro z hz
        rcases List.mem_cons.1 hz with rfl | hz
        · simpa using hm
        · exact h4 z hz

theorem findInput_none {G : GradGraph N T} {p : N} {todo : List (Nat × T)} (h : findInput G p todo = none) :
    ∀ y ∈ todo, gradMatch G p y.2 = false := by
  induction todo with
  | nil => simp
  | cons e r ih =>
    obtain ⟨k, x⟩ := e
    rw [findInput] at h
    split at h
    · cases h
    · rename_i hm
      split at h
      · rename_i hf
        intro y hy
        rcases List.mem_cons.1 hy with rfl | hy
        · simpa using hm
        · exact ih hf y hy
      · cases h

theorem search_length (G : GradGraph N T) (ps : List N) (todo : List (Nat × T)) (has : List Bool) :
    (searchPaths G ps todo has).length = has.length := by
  induction ps generalizing todo has with
  | nil => rfl
  | cons p ps ih =>
    rw [searchPaths]
    split
    · dsimp only
      split
      · simp
      · rw [ih]; simp
    · exact ih _ _

theorem search_sound (G : GradGraph N T) (ps : List N) (todo : List (Nat × T)) (has : List Bool) (k : Nat)
    (h : (searchPaths G ps todo has)[k]? = some true) :
    has[k]? = some true ∨ ∃ p ∈ ps, ∃ x, (k, x) ∈ todo ∧ gradMatch G p x = true := by
  induction ps generalizing todo has with
  | nil => exact .inl h
  | cons p ps ih =>
    rw [searchPaths] at h
    have key : ∀ i todo', findInput G p todo = some (i + 1, todo') → (has.set (i + 1) true)[k]? = some true →
        has[k]? = some true ∨ ∃ p' ∈ p :: ps, ∃ x, (k, x) ∈ todo ∧ gradMatch G p' x = true := by
      intro i todo' hf hk
      obtain ⟨x, a, b, h1, h2, h3, -⟩ := findInput_some hf
      by_cases e : i + 1 = k
      · subst e
        exact .inr ⟨p, List.mem_cons_self, x, by rw [h1]; simp, h3⟩
      · rw [List.getElem?_set_ne e] at hk
        exact .inl hk
    have hstep : ∀ todo' : List (Nat × T), (∀ y ∈ todo', y ∈ todo) → (∃ p' ∈ ps, ∃ x, (k, x) ∈ todo' ∧ gradMatch G p' x = true) →
        ∃ p' ∈ p :: ps, ∃ x, (k, x) ∈ todo ∧ gradMatch G p' x = true := by
      rintro todo' hs ⟨p', h1, x, h2, h3⟩
      exact ⟨p', List.mem_cons_of_mem _ h1, x, hs _ h2, h3⟩
    split at h
    · rename_i i todo' hf
      dsimp only at h
      split at h
      · exact key i todo' hf h
      · rcases ih _ _ h with h' | h'
        · exact key i todo' hf h'
        · obtain ⟨x, a, b, h1, h2, -, -⟩ := findInput_some hf
          refine .inr (hstep todo' ?_ h')
          intro y hy
          rw [h2] at hy
          rw [h1]
          simp only [List.mem_append, List.mem_cons] at hy ⊢
          tauto
    · rcases ih _ _ h with h' | h'
      · exact .inl h'
      · exact .inr (hstep todo (fun _ hy => hy) h')

/-- The first flag is never set. -/
theorem search_zero (G : GradGraph N T) (ps : List N) (todo : List (Nat × T)) (has : List Bool) :
    (searchPaths G ps todo has)[0]? = has[0]? := by
  induction ps generalizing todo has with
  | nil => rfl
  | cons p ps ih =>
    rw [searchPaths]
    split
    · dsimp only
      split
      · simp
      · rw [ih]; simp
    · exact ih _ _

/-- Flags stay set. -/
theorem search_mono (G : GradGraph N T) (ps : List N) (todo : List (Nat × T)) (has : List Bool) (k : Nat)
    (h : has[k]? = some true) : (searchPaths G ps todo has)[k]? = some true := by
  have hset : ∀ i, (has.set i true)[k]? = some true := by
    intro i
    rw [List.getElem?_set]
    split
    · rename_i e; subst e
      split
      · rfl
      · rename_i hl
        rw [List.getElem?_eq_none (by omega)] at h
        cases h
    · exact h
  induction ps generalizing todo has with
  | nil => exact h
  | cons p ps ih =>
    rw [searchPaths]
    split
    · rename_i i todo' hf
      dsimp only
      split
      · exact hset _
      · apply ih _ _ (hset _)
        intro j
        rw [List.getElem?_set]
        split
        · rename_i e; subst e
          split
          · rfl
          · rename_i hl
            have := hset (i + 1)
            rw [List.getElem?_eq_none (by omega)] at this
            cases this
        · exact hset _
    · exact ih _ _ h hset

/-- If no node matches two entries, every entry other than number 0 that some node matches is found. -/
theorem search_complete (G : GradGraph N T) (ps : List N) (todo : List (Nat × T)) (has : List Bool)
    (hone : ∀ p, ∀ y ∈ todo, ∀ z ∈ todo, gradMatch G p y.2 = true → gradMatch G p z.2 = true → y = z)
    {k : Nat} {x : T} (hk : (k + 1, x) ∈ todo) (hl : k + 1 < has.length) {p : N} (hp : p ∈ ps) (hm : gradMatch G p x = true) :
    (searchPaths G ps todo has)[k + 1]? = some true := by
  induction ps generalizing todo has with
  | nil => cases hp
  | cons p' ps ih =>
    rw [searchPaths]
    split
    · rename_i i todo' hf
      obtain ⟨y, a, b, h1, h2, h3, h4⟩ := findInput_some hf
      dsimp only
      have hset : k = i → (has.set (i + 1) true)[k + 1]? = some true := by
        rintro rfl; rw [List.getElem?_set]; simp [hl]
      have hall : (has.set (i + 1) true).all id = true → (has.set (i + 1) true)[k + 1]? = some true := by
        intro hall
        have hlen : k + 1 < (has.set (i + 1) true).length := by simpa using hl
        rw [List.getElem?_eq_getElem hlen]
        have := List.all_eq_true.1 hall _ (List.getElem_mem hlen)
        simpa using this
      split
      · rename_i ha; exact hall ha
      · by_cases e : k = i
        · exact search_mono G _ _ _ _ (hset e)
        · have hmem : (k + 1, x) ∈ todo' := by
            rw [h1] at hk
            rw [h2]
            simp only [List.mem_append, List.mem_cons, Prod.mk.injEq] at hk ⊢
            rcases hk with h | ⟨h, -⟩ | h
            · exact .inl h
            · omega
            · exact .inr h
          have hsub : ∀ y ∈ todo', y ∈ todo := by
            intro y hy
            rw [h2] at hy
            rw [h1]
            simp only [List.mem_append, List.mem_cons] at hy ⊢
            tauto
          rcases List.mem_cons.1 hp with rfl | hp
          · exfalso
            have := hone p (k + 1, x) hk (i + 1, y) (by rw [h1]; simp) hm h3
            injection this with this _
            omega
          · exact ih todo' _ (fun q y hy z hz => hone q y (hsub y hy) z (hsub z hz)) hmem (by simpa using hl) hp
    · rename_i hno
      rcases List.mem_cons.1 hp with rfl | hp
      · exfalso
        cases hf : findInput G p todo with
        | none =>
          have := findInput_none hf _ hk
          simp [hm] at this
        | some r =>
          obtain ⟨i, todo'⟩ := r
          obtain ⟨y, a, b, h1, h2, h3, h4⟩ := findInput_some hf
          have := hone p (k + 1, x) hk (i, y) (by rw [h1]; simp) hm h3
          injection this with this _
          exact hno k todo' (by rw [hf, ← this])
      · exact ih todo has hone hk hl hp

end Storch
