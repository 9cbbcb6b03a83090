import Verif.Proofs.Inducing
import Verif.Props.Rule0

/-!
# The FCI rules put true marks (support for C69)
-/
namespace CL
open GG Spec
variable {n : Nat} {V : Type}
namespace Fci
variable {E : V → V → Prop} {o : Fin n → V} {Sel : Set V}

/-- The truth behind the marks: `Ca E o Sel b a` is what a tail at `b` on the edge `b – a` says. -/
abbrev Ca (E : V → V → Prop) (o : Fin n → V) (Sel : Set V) (b a : Fin n) : Prop := Causes E Sel (o b) (o a)

/-- The graph is right about the causal graph: marks are true, adjacent pairs are inseparable, and every unshielded triple whose middle
is no ancestor of an end is marked as a collider. -/
structure Right (E : V → V → Prop) (o : Fin n → V) (Sel : Set V) (G : GG n) : Prop where
  pag : G.Pag
  arrow : ∀ a b, G.g b a = .arrow → ¬ Ca E o Sel b a
  tail : ∀ a b, G.g b a = .tail → Ca E o Sel b a
  ins : ∀ a b, G.g a b ≠ .null → ¬ Separable E o Sel a b
  col : ∀ a b c, a ≠ c → G.g a b ≠ .null → G.g c b ≠ .null → G.g a c = .null → ¬ Ca E o Sel b a → ¬ Ca E o Sel b c →
    G.g b a = .arrow ∧ G.g b c = .arrow

theorem Right.step {G H : GG n} (h : Right E o Sel G) (hk : Keep G H)
    (hm : ∀ a b, H.g b a = G.g b a ∨ (H.g b a = .arrow ∧ ¬ Ca E o Sel b a) ∨ (H.g b a = .tail ∧ Ca E o Sel b a)) : Right E o Sel H := by
  refine ⟨hk.pag h.pag, fun a b e => ?_, fun a b e => ?_, fun a b e => h.ins a b (fun hc => e ((hk.null a b).2 hc)), ?_⟩
  · rcases hm a b with q | q | q
    · exact h.arrow a b (q ▸ e)
    · exact q.2
    · rw [q.1] at e; simp at e
  · rcases hm a b with q | q | q
    · exact h.tail a b (q ▸ e)
    · rw [q.1] at e; simp at e
    · exact q.2
  · intro a b c hac hab hcb hn h1 h2
    obtain ⟨e1, e2⟩ := h.col a b c hac (fun hc => hab ((hk.null a b).2 hc)) (fun hc => hcb ((hk.null c b).2 hc)) ((hk.null a c).1 hn) h1 h2
    constructor
    · rcases hm a b with q | q | q
      · rw [q, e1]
      · exact q.1
      · exact absurd q.2 h1
    · rcases hm c b with q | q | q
      · rw [q, e2]
      · exact q.1
      · exact absurd q.2 h2

/-- Same for a rule that sets the marks of one pair. -/
theorem Right.set2 {G H : GG n} (h : Right E o Sel G) (hk : Keep G H) {a b : Fin n} {m1 m2 : Mark} (e : H.g = set2 G.g a b m1 m2)
    (h1 : m1 = G.g a b ∨ (m1 = .arrow ∧ ¬ Ca E o Sel a b) ∨ (m1 = .tail ∧ Ca E o Sel a b))
    (h2 : m2 = G.g b a ∨ (m2 = .arrow ∧ ¬ Ca E o Sel b a) ∨ (m2 = .tail ∧ Ca E o Sel b a)) : Right E o Sel H := by
  refine h.step hk fun x y => ?_
  rw [e]
  unfold Fci.set2
  by_cases hq : y = a ∧ x = b
  · obtain ⟨rfl, rfl⟩ := hq
    simp only [and_self, if_true]; exact h1
  · by_cases hr : y = b ∧ x = a
    · obtain ⟨rfl, rfl⟩ := hr
      simp only [hq, if_false, and_self, if_true]; exact h2
    · simp [hq, hr]

section
variable (hac : Acyclic E) (ho : Function.Injective o) (hs : ∀ i, o i ∉ Sel)
include hac ho

/-- of an unshielded triple with a circle at the middle, the middle is an ancestor of an end -/
theorem Right.middle {G : GG n} (h : Right E o Sel G) {a b c : Fin n} (hac : a ≠ c) (hab : G.g a b ≠ .null) (hcb : G.g c b ≠ .null)
    (hn : G.g a c = .null) (hm : G.g b a ≠ .arrow ∨ G.g b c ≠ .arrow) : Ca E o Sel b a ∨ Ca E o Sel b c := by
  by_contra hcon
  rw [not_or] at hcon
  have := h.col a b c hac hab hcb hn hcon.1 hcon.2
  tauto

theorem sel_of_mutual {a b : Fin n} (hab : a ≠ b) (h1 : Ca E o Sel a b) (h2 : Ca E o Sel b a) (c : Fin n) : Ca E o Sel a c :=
  .of_sel (Causes.mutual hac (fun e => hab (ho e)) h1 h2)

theorem r1_right {k : Know n} {st : GG n × Bool} (h : Right E o Sel st.1) {a b c : Fin n} (hne : a ≠ c) (hab : st.1.g a b ≠ .null) :
    Right E o Sel (r1 k st a b c).1 := by
  have hk := (r1_step (k := k) h.pag a b c).ref.keep
  revert hk
  unfold r1
  split
  · exact fun _ => h
  · rename_i hna
    split
    · rename_i hc
      simp only [Bool.and_eq_true, ep_iff h.pag] at hc
      split
      · exact fun _ => h
      · rename_i hal
        intro hk
        simp only [Bool.not_eq_true', Bool.not_eq_false] at hal
        have hcb : st.1.g c b ≠ .null := by rcases allowed_marks h.pag hal with e | e <;> simp [e]
        have hn : st.1.g a c = .null := by
          by_contra hx
          exact hna ((isAdj_iff h.pag).2 hx)
        have hba : ¬ Ca E o Sel b a := h.arrow a b hc.1.2
        have hbc : Ca E o Sel b c := (h.middle hac ho hne hab hcb hn (Or.inr (by simp [hc.2.2]))).resolve_left hba
        have hcb' : ¬ Ca E o Sel c b := fun hcb' => hba (sel_of_mutual hac ho (ne_of_adj h.pag hcb).symm hbc hcb' a)
        exact h.set2 hk (reor_g h.pag hcb (m1 := .arrow) (m2 := .tail) (by simp) (by simp) (by simp)) (Or.inr (Or.inl ⟨rfl, hcb'⟩))
          (Or.inr (Or.inr ⟨rfl, hbc⟩))
    · exact fun _ => h

omit hac ho in
theorem r2_right {k : Know n} {st : GG n × Bool} (h : Right E o Sel st.1) (a b c : Fin n) : Right E o Sel (r2 k st a b c).1 := by
  have hk := (r2_step (k := k) h.pag a b c).ref.keep
  revert hk
  unfold r2
  split
  · rename_i hc
    simp only [Bool.and_eq_true, ep_iff h.pag] at hc
    split
    · rename_i hd
      simp only [Bool.and_eq_true, Bool.or_eq_true, ep_iff h.pag] at hd
      split
      · exact fun _ => h
      · intro hk
        refine h.set2 hk (reorKeep_arrow h.pag (a := a) (b := c) (Or.inr hc.2.2)).2.2 (Or.inl rfl) (Or.inr (Or.inl ⟨rfl, fun hca => ?_⟩))
        rcases hd.2 with e | e
        · exact h.arrow b c hd.1.2.2 (hca.trans (h.tail b a e.2))
        · exact h.arrow a b hd.1.1.2 ((h.tail c b e.2).trans hca)
    · exact fun _ => h
  · exact fun _ => h

omit hac ho in
/-- adjacency seen earlier still holds -/
theorem Keep.ne_null {G H : GG n} (h : Keep G H) {a b : Fin n} (hab : G.g a b ≠ .null) : H.g a b ≠ .null :=
  fun hc => hab ((h.null a b).1 hc)

theorem r1r2_right {k : Know n} {st : GG n × Bool} (h : Right E o Sel st.1) : Right E o Sel (r1r2 k st).1 := by
  unfold r1r2
  refine foldl_inv (fun st : GG n × Bool => Right E o Sel st.1) _ _ (fun u hu b _ => ?_) _ h
  refine (foldl_inv (fun v : GG n × Bool => Right E o Sel v.1 ∧ Keep u.1 v.1) _ _ (fun v hv p hp => ?_) _ ⟨hu, Keep.rfl⟩).1
  have hp' := mem_pairsOf_sorted (adjacentNodes_sorted u.1 b) (a := p.1) (c := p.2) |>.1 hp
  have a1 := hv.2.ne_null ((mem_adjacentNodes hu.pag).1 hp'.1)
  have a2 := hv.2.ne_null ((mem_adjacentNodes hu.pag).1 hp'.2.1)
  have hne : p.1 ≠ p.2 := ne_of_lt hp'.2.2
  refine ⟨?_, hv.2.trans (r1r2Step_step hv.1.pag p).ref.keep⟩
  unfold r1r2Step
  have s1 := r1_right (k := k) hac ho hv.1 hne a1 (b := b)
  have k1 := (r1_step (k := k) hv.1.pag p.1 b p.2).ref.keep
  have s2 := r1_right (k := k) hac ho s1 hne.symm (k1.ne_null a2) (b := b)
  exact r2_right (r2_right s2 p.1 b p.2) p.2 b p.1

theorem r3_right {k : Know n} {ss : SSet n} {st : GG n × Bool} (h : Right E o Sel st.1) : Right E o Sel (r3 k ss st).1 := by
  unfold r3
  refine foldl_inv (fun st : GG n × Bool => Right E o Sel st.1) _ _ (fun u hu b _ => ?_) _ h
  unfold r3Node
  dsimp only
  refine foldl_inv (fun v : GG n × Bool => Right E o Sel v.1) _ _ (fun v hv d _ => ?_) _ hu
  refine foldl_inv (fun v : GG n × Bool => Right E o Sel v.1) _ _ (fun v hv p hp => ?_) _ hv
  have hp1 := (mem_nodesInto hu.pag (by simp)).1 (mem_pairsOf hp).1
  have hp2 := (mem_nodesInto hu.pag (by simp)).1 (mem_pairsOf hp).2
  have hsrt : (u.1.nodesInto b .arrow).Pairwise (· < ·) := by
    unfold nodesInto
    exact (List.pairwise_lt_finRange n).filter _
  have hne : p.1 ≠ p.2 := ne_of_lt ((mem_pairsOf_sorted hsrt (a := p.1) (c := p.2)).1 hp).2.2
  unfold r3Step
  repeat' split
  all_goals first | exact hv | skip
  rename_i g1 g2 g3 g4 g5 g6
  simp only [Bool.or_eq_true, Bool.not_eq_true', not_or, Bool.not_eq_false, ep_iff hv.pag, isAdj_iff hv.pag] at g1 g2 g4 g5 g6
  obtain ⟨r, -, e⟩ := reorKeep_arrow hv.pag (allowed_marks hv.pag g6)
  refine hv.set2 r.keep e (Or.inl rfl) (Or.inr (Or.inl ⟨rfl, fun hbd => ?_⟩))
  rcases hv.middle hac ho hne g2.1 g2.2 (by simpa using g1) (Or.inl (by simp [g4.2])) with hd | hd
  · exact hu.arrow _ _ hp1 (hbd.trans hd)
  · exact hu.arrow _ _ hp2 (hbd.trans hd)

omit hac ho in
theorem Right.tail2 {G H : GG n} (h : Right E o Sel G) {b c : Fin n} (hH : Keep G H) (hHr : Right E o Sel H)
    (hbc : G.g b c = .circle) (hH' : H.g b c = .tail ∨ H.g b c = .circle) (ht : Ca E o Sel b c) : Right E o Sel (reorKeep2 H b c .tail) := by
  obtain ⟨r, -, e⟩ := reorKeep2_tail hHr.pag hH'
  exact hHr.set2 r.keep e (Or.inr (Or.inr ⟨rfl, ht⟩)) (Or.inl rfl)

theorem r6_right {st : GG n × Bool} (h : Right E o Sel st.1) : Right E o Sel (r6 st).1 := by
  unfold r6
  refine foldl_inv (fun st : GG n × Bool => Right E o Sel st.1) _ _ (fun u hu b _ => ?_) _ h
  unfold r6Node
  split
  · rename_i hany
    obtain ⟨a, ha, ha2⟩ := List.any_eq_true.1 hany
    rw [mem_nodesInto hu.pag (by simp)] at ha
    rw [ep_iff hu.pag] at ha2
    have hba := hu.tail a b ha
    have hab := hu.tail b a ha2.2
    have hne : b ≠ a := ne_of_adj hu.pag (by simp [ha])
    refine (foldl_inv (fun v : GG n × Bool => Right E o Sel v.1 ∧ TStep u v) _ _ (fun v hv c hc => ?_) _ ⟨hu, TStep.rfl⟩).1
    rw [mem_nodesInto hu.pag (by simp)] at hc
    exact ⟨hu.tail2 hv.2.ref.keep hv.1 hc (hv.2.circ hc) (sel_of_mutual hac ho hne hba hab c), hv.2.keep2 hu.pag hc⟩
  · exact hu

theorem r7_right {st : GG n × Bool} (h : Right E o Sel st.1) : Right E o Sel (r7 st).1 := by
  unfold r7
  refine foldl_inv (fun st : GG n × Bool => Right E o Sel st.1) _ _ (fun u hu b _ => ?_) _ h
  unfold r7Node
  dsimp only
  refine (foldl_inv (fun v : GG n × Bool => Right E o Sel v.1 ∧ TStep u v) _ _ (fun v hv c hc => ?_) _ ⟨hu, TStep.rfl⟩).1
  rw [mem_nodesInto hu.pag (by simp)] at hc
  refine foldl_inv (fun v : GG n × Bool => Right E o Sel v.1 ∧ TStep u v) _ _ (fun w hw a ha => ?_) _ hv
  simp only [List.mem_filter, mem_nodesInto hu.pag (show Mark.circle = .tail ∨ Mark.circle = .arrow ∨ Mark.circle = .circle by simp), ep_iff hu.pag] at ha
  unfold r7Step
  split
  · exact hw
  · rename_i hac'
    split
    · exact hw
    · rename_i hna
      refine ⟨hu.tail2 hw.2.ref.keep hw.1 hc (hw.2.circ hc) ?_, hw.2.keep2 hu.pag hc⟩
      have hab : u.1.g a b ≠ .null := by simp [ha.2.2]
      have hcb : u.1.g c b ≠ .null := adj_symm hu.pag (by simp [hc])
      have hn : u.1.g a c = .null := by
        have : w.1.g a c = .null := by
          by_contra hx; exact hna ((isAdj_iff hw.1.pag).2 hx)
        exact (hw.2.ref.keep.null a c).1 this
      rcases hu.middle hac ho hac' hab hcb hn (Or.inl (by simp [ha.1])) with e | e
      · exact sel_of_mutual hac ho (ne_of_adj hu.pag hab).symm e (hu.tail b a ha.2.2) c
      · exact e

omit hac ho in
theorem r8_right {st : GG n × Bool} (h : Right E o Sel st.1) : Right E o Sel (r8 st).1 := by
  unfold r8
  refine foldl_inv (fun st : GG n × Bool => Right E o Sel st.1) _ _ (fun u hu b _ => ?_) _ h
  refine foldl_inv (fun v : GG n × Bool => Right E o Sel v.1) _ _ (fun v hv p _ => ?_) _ hu
  have hk := (r8Step_step (b := b) hv.pag p).ref.keep
  revert hk
  unfold r8Step
  dsimp only
  split
  · rename_i hc
    simp only [Bool.or_eq_true, Bool.and_eq_true, ep_iff hv.pag] at hc
    intro hk
    have c1 : v.1.g p.1 b = .tail := by tauto
    have c2 : v.1.g b p.2 = .tail := by tauto
    have c3 : v.1.g p.1 p.2 = .circle := by tauto
    have c4 : v.1.g p.2 p.1 = .arrow := by tauto
    refine hv.set2 hk (reor_g hv.pag (by simp [c3]) (by simp) (by simp) (by simp)) (Or.inr (Or.inr ⟨rfl, (hv.tail _ _ c1).trans (hv.tail _ _ c2)⟩))
      (Or.inl c4.symm)
  · exact fun _ => hv

end
end Fci
end CL
