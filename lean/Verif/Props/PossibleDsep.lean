import Verif.Props.FCIRun

/-!
# C55: Possible-D-SEP
-/
namespace CL
open GG Relation
variable {n : Nat}

/-- `v` is in Possible-D-SEP of `x`: some path (no repeated node) from `x` to `v` has at each interior node a collider or a
triangle. `get_endpoint(a, b)` is the mark at `b`. -/
def GG.InPossibleDsep (G : GG n) (x v : Fin n) : Prop := ∃ l : List (Fin n), l.Nodup ∧ 2 ≤ l.length ∧ l.head? = some x ∧
  l.getLast? = some v ∧ (∀ a b, [a, b] <:+: l → G.isAdj a b = true) ∧
  ∀ a b c, [a, b, c] <:+: l → (G.getEndpoint a b = some .arrow ∧ G.getEndpoint c b = some .arrow) ∨ G.isAdj a c = true

namespace Fci

/-- What the search can reach from `x`: neighbours, and colliders' other ends. -/
def PdGood (G : GG n) (x y v : Fin n) : Prop := v ≠ x ∧ v ≠ y ∧ (G.isAdj x v = true ∨
  ∃ b, b ≠ y ∧ G.isDefCollider x b v = true)

structure PdInv (G : GG n) (x y : Fin n) (nb : List (Fin n)) (st : PdSt n) : Prop where
  queue : ∀ t ∈ st.Q, t.1 = x ∧ PdGood G x y t.2
  dsep : ∀ v ∈ st.dsep, PdGood G x y v
  nbs : ∀ v ∈ nb, v ∈ st.dsep

theorem pdStep_inv {G : GG n} (h : G.Pag) {x y b : Fin n} {nb : List (Fin n)} (hb : PdGood G x y b) {st : PdSt n} (hi : PdInv G x y nb st) {c : Fin n}
    (_hc : c ∈ G.adjacentNodes b) : PdInv G x y nb (pdStep G x y x b st c) := by
  unfold pdStep
  split
  · exact hi
  · rename_i hne
    simp only [not_or] at hne
    dsimp only
    split
    · rename_i hcol
      split
      · exact ⟨hi.queue, hi.dsep, hi.nbs⟩
      · refine ⟨fun t ht => ?_, hi.dsep, hi.nbs⟩
        simp only [List.mem_append, List.mem_singleton] at ht
        rcases ht with ht | rfl
        · exact hi.queue t ht
        · refine ⟨rfl, hne.1, hne.2.2, ?_⟩
          simp only [Bool.or_eq_true] at hcol
          rcases hcol with hcol | hcol
          · exact Or.inr ⟨b, hb.2.1, hcol⟩
          · exact Or.inl hcol
    · exact ⟨hi.queue, hi.dsep, hi.nbs⟩

theorem pdLoop_inv {G : GG n} (h : G.Pag) {x y : Fin n} {nb : List (Fin n)} {maxPath : Int} : ∀ (f : Nat) (st : PdSt n), PdInv G x y nb st →
    PdInv G x y nb (pdLoop G x y maxPath f st)
  | 0, st, hi => hi
  | f + 1, st, hi => by
    unfold pdLoop
    cases hQ : st.Q with
    | nil => exact hi
    | cons t Q =>
      dsimp only
      obtain ⟨v1, v2, v3, v4⟩ := tick_spec st t Q
      have hi1 : PdInv G x y nb (st.tick t Q) := by
        refine ⟨?_, by rw [v4]; exact hi.dsep, by rw [v4]; exact hi.nbs⟩
        rw [v2]; intro u hu; exact hi.queue u (by rw [hQ]; exact List.mem_cons_of_mem _ hu)
      split
      · exact hi1
      · obtain ⟨ht1, ht2⟩ := hi.queue t (by rw [hQ]; exact List.mem_cons_self ..)
        apply pdLoop_inv h f
        refine foldl_inv (PdInv G x y nb) _ _ (fun u hu c hc => ?_) _ ?_
        · rw [ht1]; exact pdStep_inv h ht2 hu hc
        · obtain ⟨w1, w2, w3, w4⟩ := member_spec (st.tick t Q) G x t.2
          refine ⟨by rw [w2]; exact hi1.queue, ?_, ?_⟩
          · rw [w4]; split
            · intro v hv
              rcases List.mem_cons.1 hv with rfl | hv
              · exact ht2
              · exact hi1.dsep v hv
            · exact hi1.dsep
          · rw [w4]; split
            · intro v hv; exact List.mem_cons_of_mem _ (hi1.nbs v hv)
            · exact hi1.nbs

theorem pdInit_inv {G : GG n} (h : G.Pag) {x y : Fin n} (bs : List (Fin n)) : ∀ (nb : List (Fin n)) (st : PdSt n), PdInv G x y nb st →
    (∀ b ∈ bs, b ∈ G.adjacentNodes x) → PdInv G x y (nb ++ bs.filter (· ≠ y)) (bs.foldl (pdInit x y) st) := by
  induction bs with
  | nil => intro nb st hi _; simpa using hi
  | cons b bs ih =>
    intro nb st hi hb
    rw [List.foldl_cons]
    have hbs := fun c hc => hb c (List.mem_cons_of_mem _ hc)
    by_cases hby : b = y
    · rw [show pdInit x y st b = st by simp [pdInit, hby]]
      have := ih nb st hi hbs
      simpa [List.filter_cons, hby] using this
    · have e : pdInit x y st b = ⟨st.Q ++ [(x, b)], (x, b) :: st.V, addPrev st.prev x b, some (st.e.getD (x, b)), st.dist, b :: st.dsep⟩ := by
        simp [pdInit, hby]
      have hg : PdGood G x y b := by
        have := (mem_adjacentNodes h).1 (hb b (List.mem_cons_self ..))
        exact ⟨ne_of_adj h this, hby, Or.inl ((isAdj_iff h).2 (adj_symm h this))⟩
      have := ih (nb ++ [b]) (pdInit x y st b) (by
        rw [e]
        refine ⟨fun t ht => ?_, fun v hv => ?_, fun v hv => ?_⟩
        · simp only [List.mem_append, List.mem_singleton] at ht
          rcases ht with ht | rfl
          · exact hi.queue t ht
          · exact ⟨rfl, hg⟩
        · rcases List.mem_cons.1 hv with rfl | hv
          · exact hg
          · exact hi.dsep v hv
        · simp only [List.mem_append, List.mem_singleton] at hv
          rcases hv with hv | rfl
          · exact List.mem_cons_of_mem _ (hi.nbs v hv)
          · exact List.mem_cons_self ..) hbs
      simpa [List.filter_cons, hby] using this

theorem possibleDsep_spec {env : FciEnv n} (hk : env.Ok) {G : GG n} (h : G.Pag) (x y : Fin n) (maxPath : Int) :
    (∀ v ∈ possibleDsep env G x y maxPath, PdGood G x y v) ∧
    (∀ v, G.isAdj x v = true → v ≠ y → v ∈ possibleDsep env G x y maxPath) ∧ (possibleDsep env G x y maxPath).Nodup := by
  have hi := pdLoop_inv (maxPath := maxPath) h (n * n + 1) _ (pdInit_inv h (x := x) (y := y) (env.setOrder (G.adjacentNodes x)) []
    ⟨[], [], fun _ => none, none, 0, []⟩ ⟨by simp, by simp, by simp⟩ (fun b hb => (hk.setOrder _).mem_iff.1 hb))
  unfold possibleDsep
  dsimp only
  refine ⟨fun v hv => ?_, fun v hv hvy => ?_, ?_⟩
  · rw [(hk.sorted _).mem_iff, List.mem_filter] at hv
    exact hi.dsep v (of_decide_eq_true hv.2).1
  · rw [(hk.sorted _).mem_iff, List.mem_filter]
    have hadj := (isAdj_iff h).1 hv
    have : v ∈ ([] : List (Fin n)) ++ (env.setOrder (G.adjacentNodes x)).filter (· ≠ y) := by
      simp only [List.nil_append, List.mem_filter, (hk.setOrder _).mem_iff]
      exact ⟨(mem_adjacentNodes h).2 (adj_symm h hadj), by simpa using hvy⟩
    have := hi.nbs v this
    refine ⟨List.mem_finRange v, ?_⟩
    simp only [decide_eq_true_eq]
    exact ⟨this, (ne_of_adj h hadj).symm, hvy⟩
  · exact (hk.sorted _).nodup_iff.2 ((List.nodup_finRange n).filter _)

end Fci

open Fci

/-- **C55, partial.** On every mixed graph, for every pair and path bound, the list contains no repetition, every neighbour of `x`
other than `y`, and only members of Possible-D-SEP of `x` (without `x` and `y`) - in fact only neighbours and nodes two steps away across
one collider. Missing: the members reached by longer paths, and some two steps away. -/
theorem C55_neighbours_and_sound_partial {env : FciEnv n} (hk : env.Ok) {G : GG n} (h : G.Pag) (x y : Fin n) (maxPath : Int) :
    (possibleDsep env G x y maxPath).Nodup ∧ (∀ v, G.isAdj x v = true → v ≠ y → v ∈ possibleDsep env G x y maxPath) ∧
    ∀ v ∈ possibleDsep env G x y maxPath, v ≠ x ∧ v ≠ y ∧ G.InPossibleDsep x v ∧ (G.isAdj x v = true ∨
      ∃ b, G.getEndpoint x b = some .arrow ∧ G.getEndpoint v b = some .arrow) := by
  obtain ⟨h1, h2, h3⟩ := possibleDsep_spec hk h x y maxPath
  refine ⟨h3, h2, fun v hv => ?_⟩
  obtain ⟨g1, g2, g3⟩ := h1 v hv
  refine ⟨g1, g2, ?_, ?_⟩
  · rcases g3 with g3 | ⟨b, -, g3⟩
    · refine ⟨[x, v], by simp [g1.symm], by simp, rfl, rfl, ?_, ?_⟩
      · intro a b hab
        have := hab.eq_of_length (by simp)
        simp at this
        rw [this.1, this.2]; exact g3
      · intro a b c habc
        have := habc.length_le
        simp at this
    · obtain ⟨c1, c2⟩ := (collider_iff h).1 g3
      have nb1 := not_null_of_eq c1 (by simp)
      have nb2 := not_null_of_eq c2 (by simp)
      have ne1 := ne_of_adj h nb1
      have ne2 := ne_of_adj h nb2
      refine ⟨[x, b, v], ?_, by simp, rfl, rfl, ?_, ?_⟩
      · simp [ne1.symm, g1.symm, ne2]
      · intro p q hpq
        rcases List.infix_cons_iff.1 hpq with hh | hh
        · obtain ⟨t, ht⟩ := hh
          simp at ht
          rw [ht.1, ht.2.1]; exact (isAdj_iff h).2 (adj_symm h nb1)
        · have := hh.eq_of_length (by simp)
          simp at this
          rw [this.1, this.2]; exact (isAdj_iff h).2 nb2
      · intro p q r hpq
        have := hpq.eq_of_length (by simp)
        simp at this
        rw [this.1, this.2.1, this.2.2]
        exact Or.inl ⟨(getEndpoint_iff h).2 ⟨by simp, c1⟩, (getEndpoint_iff h).2 ⟨by simp, c2⟩⟩
  · rcases g3 with g3 | ⟨b, -, g3⟩
    · exact Or.inl g3
    · obtain ⟨c1, c2⟩ := (collider_iff h).1 g3
      exact Or.inr ⟨b, (getEndpoint_iff h).2 ⟨by simp, c1⟩, (getEndpoint_iff h).2 ⟨by simp, c2⟩⟩

/-- `0 ↔ 1 ↔ 2 ↔ 3 ↔ 4`. -/
def bidirChain : GG 5 := run [.addEdge 0 1 .arrow .arrow, .addEdge 1 2 .arrow .arrow, .addEdge 2 3 .arrow .arrow, .addEdge 3 4 .arrow .arrow]

theorem bidirChain_pag : bidirChain.Pag := ⟨by decide, by decide, by decide⟩

/-- **C55 violated.** The new queue entries are `(node_a, node_c)` with `node_a = x` instead of `(node_b, node_c)`, so the search
never looks past the other end of a collider; and a node two steps away is kept only if the collider between is a possible ancestor
of one of its neighbours on the path. In `0 ↔ 1 ↔ 2 ↔ 3 ↔ 4` the nodes 2 and 3 are in Possible-D-SEP of 0 but the list for `(0, 4)`
is `[1]`. -/
theorem C55_misses_members_violated :
    possibleDsep (exEnv (fun _ _ _ => false) Know.none) bidirChain 0 4 (-1) = [1] ∧
    bidirChain.InPossibleDsep 0 2 ∧ bidirChain.InPossibleDsep 0 3 := by
  refine ⟨by decide +kernel, ⟨[0, 1, 2], by decide, by decide, rfl, rfl, ?_, ?_⟩, ⟨[0, 1, 2, 3], by decide, by decide, rfl, rfl, ?_, ?_⟩⟩
  all_goals decide

end CL
