import Verif.Proofs.FciPrep
import Verif.Proofs.DSep

/-!
# C27, C28, C30, C66, C67: FCI orientation rules
-/
namespace CL
open GG Relation
variable {n : Nat}
namespace Fci

/-! ## The breadth-first search for a semi-directed path -/

/-- One step along an edge with no arrowhead at the node we leave. -/
def Semi (G : GG n) (u v : Fin n) : Prop := G.g u v = .tail ∨ G.g u v = .circle

theorem mem_semiSteps {G : GG n} (h : G.Pag) {u v : Fin n} : v ∈ semiSteps G u ↔ Semi G u v := by
  unfold semiSteps Semi
  rw [List.mem_filterMap]
  constructor
  · rintro ⟨w, hw, hv⟩
    have hnn := adj_symm h ((mem_adjacentNodes h).1 hw)
    have hne := ne_of_adj h hnn
    rw [getEdge_eq hnn, Option.bind_some] at hv
    unfold traverseSemi mkEdge at hv
    have q := h.marks u w
    have q2 := h.marks w u
    grind
  · intro hs
    have hnn : G.g u v ≠ .null := by rcases hs with e | e <;> simp [e]
    have hne := ne_of_adj h hnn
    refine ⟨v, (mem_adjacentNodes h).2 (adj_symm h hnn), ?_⟩
    rw [getEdge_eq hnn, Option.bind_some]
    unfold traverseSemi mkEdge
    grind

theorem enqueue_fold (cs : List (Fin n)) : ∀ (s : List (Fin n) × List (Fin n)), s.2.Nodup → (∀ q ∈ s.1, q ∈ s.2) →
    let t := cs.foldl enqueue s
    t.2.Nodup ∧ (∀ q ∈ t.1, q ∈ t.2) ∧ (∀ v, v ∈ t.2 ↔ v ∈ s.2 ∨ v ∈ cs) ∧ (∀ v, v ∈ t.1 ↔ v ∈ s.1 ∨ (v ∈ cs ∧ v ∉ s.2)) ∧
      t.1.length + s.2.length = s.1.length + t.2.length := by
  induction cs with
  | nil => intro s h1 h2; exact ⟨h1, h2, by simp, by simp, rfl⟩
  | cons c cs ih =>
    intro s h1 h2 t
    by_cases hc : c ∈ s.2
    · have e : enqueue s c = s := by simp [enqueue, hc]
      have := ih s h1 h2
      simp only [t, List.foldl_cons, e]
      obtain ⟨a1, a2, a3, a4, a5⟩ := this
      refine ⟨a1, a2, fun v => ?_, fun v => ?_, a5⟩
      · rw [a3]; grind
      · rw [a4]; grind
    · have e : enqueue s c = (s.1 ++ [c], c :: s.2) := by simp [enqueue, hc]
      obtain ⟨a1, a2, a3, a4, a5⟩ := ih (s.1 ++ [c], c :: s.2) (List.nodup_cons.2 ⟨hc, h1⟩) (by grind)
      simp only [t, List.foldl_cons, e]
      refine ⟨a1, a2, fun v => ?_, fun v => ?_, ?_⟩
      · rw [a3]; grind
      · rw [a4]; grind
      · simp at a5 ⊢; omega

theorem semiLoop_spec {G : GG n} (h : G.Pag) (src dst : Fin n) : ∀ (f : Nat) (s : List (Fin n) × List (Fin n)), s.2.Nodup →
    (∀ q ∈ s.1, q ∈ s.2) → s.1.length + n < f + s.2.length → (∀ v ∈ s.2, TransGen (Semi G) src v) →
    (∀ v, Semi G src v → v ∈ s.2) → (∀ v ∈ s.2, v ∉ s.1 → v ≠ dst ∧ ∀ w, Semi G v w → w ∈ s.2) →
    (semiLoop G dst f s = true ↔ TransGen (Semi G) src dst) := by
  intro f
  induction f with
  | zero =>
    intro s h1 h2 h3
    have := h1.length_le_card
    simp at this; omega
  | succ f ih =>
    rintro ⟨Q, V⟩ h1 h2 h3 h4 h5 h6
    cases Q with
    | nil =>
      simp only [semiLoop, Bool.false_eq_true, false_iff]
      intro hr
      have : ∀ v, TransGen (Semi G) src v → v ∈ V := by
        intro v hv
        induction hv with
        | single hs => exact h5 _ hs
        | tail _ hs ihv => exact (h6 _ ihv (by simp)).2 _ hs
      exact (h6 dst (this dst hr) (by simp)).1 rfl
    | cons t Q =>
      simp only [semiLoop]
      split
      · rename_i e
        subst e
        simpa using h4 t (h2 t (by simp))
      · rename_i hne
        obtain ⟨a1, a2, a3, a4, a5⟩ := enqueue_fold (semiSteps G t) (Q, V) h1 (fun q hq => h2 q (List.mem_cons_of_mem _ hq))
        refine ih _ a1 a2 ?_ ?_ ?_ ?_
        · simp at a5 h3; omega
        · intro v hv
          rcases (a3 v).1 hv with hv | hv
          · exact h4 v hv
          · exact (h4 t (h2 t (by simp))).tail ((mem_semiSteps h).1 hv)
        · intro v hv; exact (a3 v).2 (Or.inl (h5 v hv))
        · intro v hv hnq
          have hvQ : v ∉ Q := fun hq => hnq ((a4 v).2 (Or.inl hq))
          have hvV : v ∈ V := by
            rcases (a3 v).1 hv with hv | hv
            · exact hv
            · by_contra hc; exact hnq ((a4 v).2 (Or.inr ⟨hv, hc⟩))
          by_cases hvt : v = t
          · subst hvt
            exact ⟨hne, fun w hw => (a3 w).2 (Or.inr ((mem_semiSteps h).2 hw))⟩
          · obtain ⟨b1, b2⟩ := h6 v hvV (by simp [hvt, hvQ])
            exact ⟨b1, fun w hw => (a3 w).2 (Or.inl (b2 w hw))⟩

theorem existsSemi_iff {G : GG n} (h : G.Pag) (a b : Fin n) : existsSemi G a b = true ↔ TransGen (Semi G) a b := by
  unfold existsSemi
  obtain ⟨a1, a2, a3, a4, a5⟩ := enqueue_fold (semiSteps G a) ([], []) (by simp) (by simp)
  refine semiLoop_spec h a b _ _ a1 a2 (by simp at a5; omega) ?_ ?_ ?_
  · intro v hv
    rcases (a3 v).1 hv with hv | hv
    · simp at hv
    · exact .single ((mem_semiSteps h).1 hv)
  · intro v hv; exact (a3 v).2 (Or.inr ((mem_semiSteps h).2 hv))
  · intro v hv hq
    exfalso
    apply hq
    rcases (a3 v).1 hv with hv | hv
    · simp at hv
    · exact (a4 v).2 (Or.inr ⟨hv, by simp⟩)

end Fci

/-- A semi-directed walk: consecutive nodes are adjacent and the mark at the first of them (`get_endpoint(v, u)` is the mark at
`u`) is not an arrowhead. -/
def GG.SemiWalk (G : GG n) (a b : Fin n) (l : List (Fin n)) : Prop :=
  2 ≤ l.length ∧ l.head? = some a ∧ l.getLast? = some b ∧
    ∀ u v, [u, v] <:+: l → G.isAdj u v = true ∧ G.getEndpoint v u ≠ some .arrow

namespace Fci

theorem semi_iff {G : GG n} (h : G.Pag) {u v : Fin n} : Semi G u v ↔ G.isAdj u v = true ∧ G.getEndpoint v u ≠ some .arrow := by
  rw [isAdj_iff h]
  have e : G.getEndpoint v u = some .arrow ↔ G.g u v = .arrow := by
    have := ep_iff h (a := v) (b := u) (m := .arrow)
    simpa [ep] using this
  simp only [ne_eq, e]
  have := h.marks u v
  unfold Semi
  grind

theorem walk_of_trans {G : GG n} (h : G.Pag) {a b : Fin n} (ht : TransGen (Semi G) a b) : ∃ l, G.SemiWalk a b l := by
  induction ht using TransGen.head_induction_on with
  | single hs =>
    rename_i a
    refine ⟨[a, b], by simp, rfl, rfl, fun u v huv => ?_⟩
    have : u = a ∧ v = b := by
      have := huv.eq_of_length (by simp)
      simp at this; exact this
    rw [this.1, this.2]; exact (semi_iff h).1 hs
  | @head c d hs _ ih =>
    obtain ⟨l, h1, h2, h3, h4⟩ := ih
    match l, h1, h2, h3, h4 with
    | x :: y :: l, h1, h2, h3, h4 =>
      simp only [List.head?_cons, Option.some.injEq] at h2
      subst h2
      refine ⟨c :: x :: y :: l, by simp, rfl, by simpa using h3, fun u v huv => ?_⟩
      rcases List.infix_cons_iff.1 huv with hp | hi
      · obtain ⟨t, ht⟩ := hp
        simp at ht
        rw [ht.1, ht.2.1]; exact (semi_iff h).1 hs
      · exact h4 u v hi

theorem trans_of_walk {G : GG n} (h : G.Pag) {b : Fin n} : ∀ (l : List (Fin n)) (a : Fin n), G.SemiWalk a b l → TransGen (Semi G) a b
  | [], _, h1 => by simp [GG.SemiWalk] at h1
  | [_], _, h1 => by simp [GG.SemiWalk] at h1
  | [x, y], a, ⟨_, h2, h3, h4⟩ => by
    simp at h2 h3; subst h2 h3
    exact .single ((semi_iff h).2 (h4 x y (List.infix_refl _)))
  | x :: y :: z :: l, a, ⟨_, h2, h3, h4⟩ => by
    simp only [List.head?_cons, Option.some.injEq] at h2; subst h2
    refine .head ((semi_iff h).2 (h4 x y ⟨[], z :: l, by simp⟩)) (trans_of_walk h (y :: z :: l) y ⟨by simp, rfl, by simpa using h3, ?_⟩)
    intro u v huv
    exact h4 u v (huv.trans (List.suffix_cons x _).isInfix)

theorem SemiWalk.nodup {G : GG n} {a b : Fin n} (hab : a ≠ b) {l : List (Fin n)} (hl : G.SemiWalk a b l) :
    ∃ l', G.SemiWalk a b l' ∧ l'.Nodup := by
  generalize hn : l.length = m
  induction m using Nat.strong_induction_on generalizing l with
  | _ m ih =>
    by_cases hnd : l.Nodup
    · exact ⟨l, hl, hnd⟩
    · obtain ⟨p, v, q, r, rfl⟩ := Spec.exists_dup_split hnd
      obtain ⟨h1, h2, h3, h4⟩ := hl
      have hh : (p ++ v :: r).head? = some a := by
        rcases p with _ | ⟨x, p⟩
        · simpa using h2
        · simpa using h2
      have hg : (p ++ v :: r).getLast? = some b := by
        rw [← h3]
        simp only [List.getLast?_append, List.getLast?_cons]
        simp
      refine ih (p ++ v :: r).length (by rw [← hn]; simp; omega) ⟨?_, hh, hg, ?_⟩ rfl
      · rcases p with _ | ⟨x, p⟩ <;> rcases r with _ | ⟨y, r⟩ <;> simp at hh hg ⊢
        · exact hab (hh.symm.trans hg)
        · omega
      · intro u w huw
        obtain ⟨s, t, e⟩ := huw
        rw [List.append_assoc, List.cons_append, List.cons_append, List.nil_append] at e
        rcases List.append_eq_append_iff.1 e with ⟨c, e1, e2⟩ | ⟨c, e1, e2⟩
        · rcases c with _ | ⟨x, c⟩
          · simp at e2
            obtain ⟨rfl, e2⟩ := e2
            exact h4 u w ⟨p ++ u :: q, t, by simp [e2]⟩
          · rcases c with _ | ⟨y, c⟩
            · simp at e2
              obtain ⟨rfl, rfl, rfl⟩ := e2
              exact h4 u w ⟨s, q ++ w :: t, by simp [e1]⟩
            · simp at e2
              obtain ⟨rfl, rfl, rfl⟩ := e2
              exact h4 u w ⟨s, c ++ v :: (q ++ v :: r), by simp [e1]⟩
        · rcases c with _ | ⟨x, c⟩
          · simp at e2
            obtain ⟨rfl, rfl⟩ := e2
            exact h4 v w ⟨p ++ v :: q, t, by simp⟩
          · simp at e2
            obtain ⟨rfl, rfl⟩ := e2
            exact h4 u w ⟨p ++ v :: q ++ (v :: c), t, by simp⟩

end Fci

/-! ## C30 -/

/-- **C30.** On every mixed graph `existsSemiDirectedPath(a, b, G)` returns and answers whether there is a non-empty
semi-directed walk from `a` to `b`. -/
theorem C30_semi_directed_exact {G : GG n} (h : G.Pag) (a b : Fin n) :
    Fci.existsSemi G a b = true ↔ ∃ l, G.SemiWalk a b l := by
  rw [Fci.existsSemi_iff h]
  exact ⟨Fci.walk_of_trans h, fun ⟨l, hl⟩ => Fci.trans_of_walk h l a hl⟩

/-- **C30.** Between different nodes: exactly whether there is a semi-directed *path* (no repeated node). -/
theorem C30_semi_directed_path_exact {G : GG n} (h : G.Pag) {a b : Fin n} (hab : a ≠ b) :
    Fci.existsSemi G a b = true ↔ ∃ l, G.SemiWalk a b l ∧ l.Nodup := by
  rw [C30_semi_directed_exact h]
  exact ⟨fun ⟨l, hl⟩ => Fci.SemiWalk.nodup hab hl, fun ⟨l, hl, _⟩ => ⟨l, hl⟩⟩

end CL
