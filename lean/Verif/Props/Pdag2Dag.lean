import Verif.Model.Pdag2Dag
import Verif.Props.Cpdag

/-!
# C23, C24: `pdag2dag` returns a consistent extension, and returns exactly when there is one
-/
namespace CL
open GG Spec Relation
variable {n : Nat}

/-! ## Specification -/

/-- An undirected edge. -/
def GG.Und (G : GG n) (a b : Fin n) : Prop := G.g a b = .tail ∧ G.g b a = .tail

/-- Adjacent in a partially directed graph. -/
def GG.Adjacent (G : GG n) (a b : Fin n) : Prop := G.Arrow a b ∨ G.Arrow b a ∨ G.Und a b

/-- A partially directed graph: directed and undirected edges only, no self-loops. -/
structure GG.IsPdag (G : GG n) : Prop where
  marks : ∀ a b, G.g a b ≠ .null → G.Adjacent a b
  noLoop : ∀ a, G.g a a = .null

/-- `D` is a consistent extension of the partially directed graph `G`: an acyclic orientation of the skeleton of `G` that
keeps the directed edges of `G` and has no v-structure that `G` does not have. -/
structure ConsistentExt (G : GG n) (D : Fin n → Fin n → Prop) : Prop where
  acyclic : Acyclic D
  skel : ∀ a b, Adj D a b ↔ G.Adjacent a b
  keeps : ∀ a b, G.Arrow a b → D a b
  colliders : ∀ a b c, UnshieldedCollider D a b c → G.Arrow a b ∧ G.Arrow c b

/-! ## Marks -/

theorem GG.IsPdag.symm {G : GG n} (h : G.IsPdag) (a b : Fin n) : G.g a b = .null ↔ G.g b a = .null := by
  constructor <;> intro h0 <;> by_contra h1 <;> have := h.marks _ _ h1 <;>
    unfold GG.Adjacent GG.Arrow GG.Und at this <;> simp [h0] at this

theorem GG.IsPdag.cases {G : GG n} (h : G.IsPdag) (a b : Fin n) :
    (G.g a b = .null ∧ G.g b a = .null) ∨ (G.g a b = .tail ∧ G.g b a = .arrow) ∨ (G.g a b = .arrow ∧ G.g b a = .tail) ∨
      (G.g a b = .tail ∧ G.g b a = .tail) := by
  by_cases h0 : G.g a b = .null
  · exact Or.inl ⟨h0, (h.symm a b).1 h0⟩
  · rcases h.marks a b h0 with h1 | h1 | h1
    · exact Or.inr (Or.inl h1)
    · exact Or.inr (Or.inr (Or.inl ⟨h1.2, h1.1⟩))
    · exact Or.inr (Or.inr (Or.inr h1))

theorem GG.IsPdag.wf {G : GG n} (h : G.IsPdag) : G.WF := by
  refine ⟨h.symm, fun a b => ?_⟩
  rcases h.cases a b with h1 | h1 | h1 | h1 <;> simp [h1.1]

theorem GG.IsPdag.simple {G : GG n} (h : G.IsPdag) : G.Simple := by
  intro a b
  rcases h.cases a b with h1 | h1 | h1 | h1 <;> simp [h1.1]

theorem GG.IsPdag.adj_iff {G : GG n} (h : G.IsPdag) (a b : Fin n) : G.Adjacent a b ↔ G.g a b ≠ .null := by
  refine ⟨?_, h.marks a b⟩
  rintro (h1 | h1 | h1)
  · simp [h1.1]
  · simp [h1.2]
  · simp [h1.1]

/-! ## Dropping the undirected edges -/

theorem removeUnd_g {H : GG n} {x y : Fin n} (h : H.Und x y) (hxy : x ≠ y) (a b : Fin n) :
    (H.removeEdge (mkEdge x y .tail .tail)).g a b =
      if (a = x ∧ b = y) ∨ (a = y ∧ b = x) then .null else H.g a b := by
  obtain ⟨h1, h2⟩ := h
  simp [removeEdge, mkEdge, pointingLeft, h1, h2, isParentOf, upd_apply]
  grind

instance (G : GG n) (a b : Fin n) : Decidable (G.Und a b) := by unfold GG.Und; infer_instance

theorem keepDirected_step {G : GG n} (h : G.IsPdag) (H : GG n) (x y : Fin n) (hxy : G.g x y ≠ .null) :
    (if !(((mkEdge x y (G.g x y) (G.g y x)).end1 == .arrow && (mkEdge x y (G.g x y) (G.g y x)).end2 == .tail) ||
          ((mkEdge x y (G.g x y) (G.g y x)).end1 == .tail && (mkEdge x y (G.g x y) (G.g y x)).end2 == .arrow))
        then H.removeEdge (mkEdge x y (G.g x y) (G.g y x)) else H) =
      if G.Und x y then H.removeEdge (mkEdge x y .tail .tail) else H := by
  unfold GG.Und
  rcases h.cases x y with c | c | c | c
  · exact absurd c.1 hxy
  all_goals simp [c.1, c.2, mkEdge, pointingLeft]

theorem keepDirected_g {G : GG n} (h : G.IsPdag) (a b : Fin n) :
    G.keepDirected.g a b = if G.Und a b then .null else G.g a b := by
  unfold keepDirected
  rw [graphEdges_eq h.wf h.simple, List.foldl_map]
  rw [List.foldl_ext _ (fun (H : GG n) (p : Fin n × Fin n) => if G.Und p.1 p.2 then H.removeEdge (mkEdge p.1 p.2 .tail .tail) else H)
    G (by
      intro H p hp
      exact keepDirected_step h H p.1 p.2 (by simpa using (List.mem_filter.1 hp).2))]
  -- after processing a list of pairs `i < j`, exactly their undirected edges are gone
  have key : ∀ (l : List (Fin n × Fin n)), l.Nodup → (∀ p ∈ l, p.1 < p.2) → ∀ a b,
      (l.foldl (fun (H : GG n) (p : Fin n × Fin n) => if G.Und p.1 p.2 then H.removeEdge (mkEdge p.1 p.2 .tail .tail) else H) G).g a b =
      if G.Und a b ∧ ((a, b) ∈ l ∨ (b, a) ∈ l) then .null else G.g a b := by
    intro l
    induction l using List.reverseRecOn with
    | nil => intro _ _ a b; simp
    | append_singleton l p ih =>
      intro hn hl a b
      rw [List.nodup_append] at hn
      have hnl := hn.1
      have hpl : p ∉ l := fun hp => hn.2.2 p hp p (by simp) rfl
      have hl' : ∀ p ∈ l, p.1 < p.2 := fun q hq => hl q (by simp [hq])
      have hp1 := hl p (by simp)
      have I := ih hnl hl'
      rw [List.foldl_append, List.foldl_cons, List.foldl_nil]
      have hrev : (p.2, p.1) ∉ l := fun hq => absurd (hl' _ hq) (by simpa using le_of_lt hp1)
      obtain ⟨x, y⟩ := p
      dsimp only at *
      have hxy : x ≠ y := ne_of_lt hp1
      have husym : ∀ a b, G.Und a b ↔ G.Und b a := fun a b => and_comm
      have hs := husym x y
      by_cases hu : G.Und x y
      · rw [if_pos hu, removeUnd_g ⟨by rw [I]; simp only [hpl, hrev, or_self, and_false, if_false]; exact hu.1,
          by rw [I]; simp only [hpl, hrev, or_self, and_false, if_false]; exact hu.2⟩ hxy, I]
        simp only [List.mem_append, List.mem_singleton, Prod.mk.injEq]
        grind
      · rw [if_neg hu, I]
        simp only [List.mem_append, List.mem_singleton, Prod.mk.injEq]
        grind
  rw [key _ ((nodup_upperPairs).filter _) (by
    intro p hp
    rw [List.mem_filter] at hp
    exact (mem_upperPairs p.1 p.2).1 hp.1)]
  by_cases hu : G.Und a b
  · have hne : a ≠ b := by
      rintro rfl
      have := h.noLoop a
      rw [hu.1] at this; cases this
    have : (a, b) ∈ (upperPairs n).filter (fun p => G.g p.1 p.2 != .null) ∨
        (b, a) ∈ (upperPairs n).filter (fun p => G.g p.1 p.2 != .null) := by
      simp only [List.mem_filter, mem_upperPairs, hu.1, hu.2]
      rcases lt_or_gt_of_ne hne with h1 | h1
      · left; exact ⟨h1, rfl⟩
      · right; exact ⟨h1, rfl⟩
    rw [if_pos ⟨hu, this⟩, if_pos hu]
  · simp [hu]

/-! ## Directing edges into a removed node -/

theorem directInto_g (i : Fin n) : ∀ (l : List (Fin n)) (H : GG n), i ∉ l →
    (∀ y, H.g y i = .null ↔ H.g i y = .null) → (∀ y, ¬ (H.g i y = .arrow ∧ H.g y i = .arrow)) → ∀ a b,
    (H.directInto i l).g a b = if b = i ∧ a ∈ l ∧ H.g a i = .null then .tail
      else if a = i ∧ b ∈ l ∧ H.g b i = .null then .arrow else H.g a b := by
  intro l
  induction l with
  | nil => intro H _ _ _ a b; simp [directInto]
  | cons k l ih =>
    intro H hi hs hn a b
    have hki : k ≠ i := by rintro rfl; simp at hi
    have hil : i ∉ l := fun h => hi (by simp [h])
    have hstep : H.directInto i (k :: l) = ((H.addEdge (mkEdge k i .tail .arrow)).2).directInto i l := rfl
    have hg : ∀ a b, ((H.addEdge (mkEdge k i .tail .arrow)).2).g a b =
        if b = i ∧ a = k ∧ H.g k i = .null then .tail else if a = i ∧ b = k ∧ H.g k i = .null then .arrow else H.g a b := by
      intro a b
      have h1 := hs k
      have h2 := hn k
      by_cases h0 : H.g k i = .null
      · simp [addEdge, mkEdge, pointingLeft, h0, h1.1 h0, upd_apply]
        grind
      · have h3 : H.g i k ≠ .null := fun h => h0 (h1.2 h)
        have hb : (H.g i k == .arrow && H.g k i == .arrow) = false := by
          rw [Bool.eq_false_iff]; intro hc; simp only [Bool.and_eq_true, beq_iff_eq] at hc; exact h2 hc
        simp [addEdge, mkEdge, pointingLeft, h0, h3, hb]
    rw [hstep, ih _ hil (by
        intro y
        rw [hg, hg]
        have := hs y
        grind) (by
        intro y
        rw [hg, hg]
        have := hn y
        grind)]
    rw [hg, hg, hg]
    simp only [List.mem_cons]
    clear ih hstep hg hs hn hi
    by_cases hb : b = i
    · subst hb
      by_cases ha : a = k
      · subst ha; by_cases h0 : H.g a b = .null <;> simp [h0, hki]
      · simp [ha, hki, hki.symm, hil]
    · by_cases ha : a = i
      · subst ha
        by_cases hbk : b = k
        · subst hbk; by_cases h0 : H.g b a = .null <;> simp [h0, hb]
        · simp [hbk, hb]
      · simp [ha, hb]

/-! ## The invariant of the loop -/

theorem mem_undirNbrs {G : GG n} (i k : Fin n) : k ∈ G.undirNbrs i ↔ G.Und k i := by
  simp [undirNbrs, GG.Und]

theorem sinkOk_iff {G : GG n} (h : G.IsPdag) (removed : Fin n → Bool) (i : Fin n) : G.sinkOk removed i = true ↔
    (∀ k, G.Arrow i k → removed k = true) ∧
    ∀ y z, G.Und y i → removed y = false → G.Adjacent z i → removed z = false → y ≠ z → G.Adjacent y z := by
  have hA : ∀ a b, G.g a b = .arrow ↔ G.Arrow b a := by
    intro a b
    unfold GG.Arrow
    rcases h.cases a b with c | c | c | c <;> simp [c.1, c.2]
  have hax : ∀ z, z ∈ G.liveAdj removed i ↔ G.Adjacent z i ∧ removed z = false := by
    intro z
    have hu : G.Und z i ↔ z ∈ G.undirNbrs i := (mem_undirNbrs i z).symm
    simp only [liveAdj, liveNbrs, List.mem_append, List.mem_filter, List.mem_finRange, true_and, ← hu, Bool.and_eq_true,
      Bool.or_eq_true, beq_iff_eq, hA, Bool.not_eq_true', GG.Adjacent]
    tauto
  have hnx : ∀ y, y ∈ G.liveNbrs removed i ↔ G.Und y i ∧ removed y = false := by
    intro y; simp only [liveNbrs, List.mem_filter, mem_undirNbrs, Bool.not_eq_true']
  unfold sinkOk
  rw [Bool.and_eq_true]
  refine and_congr ?_ ?_
  · simp only [beq_iff_eq, List.length_eq_zero_iff, List.filter_eq_nil_iff, List.mem_finRange, true_imp_iff,
      Bool.and_eq_true, hA, Bool.not_eq_true', not_and, Bool.not_eq_false]
  · dsimp only
    have hall : G.check2 (G.liveNbrs removed i) (G.liveAdj removed i) = true ↔
        ∀ y z, G.Und y i → removed y = false → G.Adjacent z i → removed z = false → y ≠ z → G.Adjacent y z := by
      simp only [check2, List.all_eq_true, List.mem_filter, hnx, hax, bne_iff_ne, h.adj_iff, and_imp]
      constructor
      · intro h1 y z a b c d e; exact h1 y a b z c d (Ne.symm e)
      · intro h1 y a b z c d e; exact h1 y z a b c d (Ne.symm e)
    split
    · exact hall
    · rename_i hlen
      refine ⟨fun _ y z hu hr => ?_, fun _ => rfl⟩
      have : y ∈ G.liveNbrs removed i := (hnx y).2 ⟨hu, hr⟩
      have := List.length_pos_of_mem this
      omega

/-- Invariant: `ord` lists the removed nodes in the order of their removal. -/
structure PdInv (G : GG n) (st : GG n × (Fin n → Bool)) (ord : List (Fin n)) : Prop where
  nodup : ord.Nodup
  rem : ∀ i, st.2 i = true ↔ i ∈ ord
  marks : ∀ a b, st.1.g a b = if G.Und a b then
      (if ord.idxOf b < ord.idxOf a then .tail else if ord.idxOf a < ord.idxOf b then .arrow else .null) else G.g a b
  out : ∀ i k, i ∈ ord → G.Arrow i k → ord.idxOf k < ord.idxOf i
  shield : ∀ i y z, i ∈ ord → G.Und y i → ord.idxOf i < ord.idxOf y → G.Adjacent z i → ord.idxOf i < ord.idxOf z →
    y ≠ z → G.Adjacent y z

theorem pdInv_init {G : GG n} (h : G.IsPdag) : PdInv G (G.keepDirected, fun _ => false) [] := by
  refine ⟨List.nodup_nil, by simp, fun a b => ?_, by simp, by simp⟩
  rw [keepDirected_g h]
  simp

theorem idx_snoc {ord : List (Fin n)} {i : Fin n} (hi : i ∉ ord) (a : Fin n) :
    (ord ++ [i]).idxOf a = if a ∈ ord then ord.idxOf a else if a = i then ord.length else ord.length + 1 := by
  rw [List.idxOf_append]
  by_cases ha : a ∈ ord
  · simp [ha]
  · by_cases hai : a = i
    · subst hai; simp [ha]
    · have : i ≠ a := fun h => hai h.symm
      simp [ha, hai, List.idxOf_cons, this, Nat.add_comm]

theorem pdStep_inv {G : GG n} (h : G.IsPdag) {st : GG n × (Fin n → Bool)} {ord : List (Fin n)} (hI : PdInv G st ord) {i : Fin n}
    (hr : st.2 i = false) (hs : G.sinkOk st.2 i = true) :
    PdInv G (st.1.directInto i (G.undirNbrs i), fun k => if k = i then true else st.2 k) (ord ++ [i]) := by
  obtain ⟨h1, h2⟩ := (sinkOk_iff h st.2 i).1 hs
  have hi : i ∉ ord := fun hc => by rw [(hI.rem i).2 hc] at hr; cases hr
  have hir : ¬ G.Und i i := fun hu => by have := h.noLoop i; rw [hu.1] at this; cases this
  have hlt : ∀ a, a ∈ ord → ord.idxOf a < ord.length := fun a ha => List.idxOf_lt_length_iff.2 ha
  have hge : ∀ a, a ∉ ord → ord.idxOf a = ord.length := fun a ha => List.idxOf_eq_length_iff.2 ha
  have husym : ∀ a b, G.Und a b ↔ G.Und b a := fun a b => and_comm
  have hremf : ∀ k, st.2 k = false ↔ k ∉ ord := by
    intro k; rw [← hI.rem]; simp
  refine ⟨?_, ?_, ?_, ?_, ?_⟩
  · rw [List.nodup_append]
    refine ⟨hI.nodup, by simp, ?_⟩
    rintro a ha b hb rfl
    rw [List.mem_singleton] at hb
    exact hi (hb ▸ ha)
  · intro k
    simp only [List.mem_append, List.mem_singleton]
    by_cases hk : k = i
    · simp [hk]
    · simp [hk, hI.rem k]
  · intro a b
    have hm := hI.marks
    have hnull : ∀ y, G.Und y i → (st.1.g y i = .null ↔ y ∉ ord) := by
      intro y hy
      rw [hm, if_pos hy, hge i hi]
      by_cases hyo : y ∈ ord
      · have := hlt y hyo; simp [hyo]; grind
      · rw [hge y hyo]; simp [hyo]
    rw [directInto_g i (G.undirNbrs i) st.1 (by rw [mem_undirNbrs]; exact hir) (by
        intro y
        rw [hm, hm]
        have := husym y i
        have := h.symm y i
        grind) (by
        intro y
        rw [hm, hm]
        have := husym y i
        have := h.cases y i
        grind)]
    simp only [mem_undirNbrs, idx_snoc hi]
    have hab := husym a b
    have ea := hnull a
    have eb := hnull b
    rw [hm a b]
    by_cases hbi : b = i
    · subst hbi
      by_cases hu : G.Und a b
      · have hai : a ≠ b := by rintro rfl; exact hir hu
        have := ea hu
        by_cases hao : a ∈ ord
        · have := hlt a hao
          have := hge b hi
          grind
        · have := hge a hao
          have := hge b hi
          grind
      · have : ¬ G.Und b a := fun hc => hu (hab.2 hc)
        grind
    · by_cases hai : a = i
      · subst hai
        by_cases hu : G.Und a b
        · have := eb (hab.1 hu)
          by_cases hbo : b ∈ ord
          · have := hlt b hbo
            have := hge a hi
            grind
          · have := hge a hi
            have := hge b hbo
            grind
        · have : ¬ G.Und b a := fun hc => hu (hab.2 hc)
          grind
      · by_cases hao : a ∈ ord <;> by_cases hbo : b ∈ ord <;> simp only [hao, hbo, hai, hbi, if_true, if_false, false_and]
        · have := hlt a hao; have := hge b hbo
          grind
        · have := hlt b hbo; have := hge a hao
          grind
        · have := hge a hao; have := hge b hbo
          grind
  · intro j k hj hjk
    rw [List.mem_append, List.mem_singleton] at hj
    rw [idx_snoc hi, idx_snoc hi]
    rcases hj with hj | rfl
    · have := hI.out j k hj hjk
      have hk : k ∈ ord := List.idxOf_lt_length_iff.1 (lt_trans this (hlt j hj))
      simp only [hj, hk, if_true]; exact this
    · have hk := (hI.rem k).1 (h1 k hjk)
      have := hlt k hk
      simp only [hk, hi, if_true, if_false]; exact this
  · intro j y z hj hu hy ha hz hyz
    rw [List.mem_append, List.mem_singleton] at hj
    rw [idx_snoc hi, idx_snoc hi] at hy hz
    rcases hj with hj | rfl
    · have hlj := hlt j hj
      refine hI.shield j y z hj hu ?_ ha ?_ hyz
      · by_cases hyo : y ∈ ord
        · simpa [hj, hyo] using hy
        · rw [hge y hyo]; exact hlj
      · by_cases hzo : z ∈ ord
        · simpa [hj, hzo] using hz
        · rw [hge z hzo]; exact hlj
    · refine h2 y z hu ((hremf y).2 ?_) ha ((hremf z).2 ?_) hyz
      · intro hyo; have := hlt y hyo; simp [hi, hyo] at hy; omega
      · intro hzo; have := hlt z hzo; simp [hi, hzo] at hz; omega

theorem pdStep_inv' {G : GG n} (h : G.IsPdag) {st : GG n × (Fin n → Bool)} (hI : ∃ ord, PdInv G st ord) (i : Fin n) :
    ∃ ord, PdInv G (G.pdStep st i) ord := by
  unfold pdStep
  split
  · exact hI
  · split
    · obtain ⟨ord, hI⟩ := hI
      exact ⟨_, pdStep_inv h hI (by simp_all) (by assumption)⟩
    · exact hI

theorem pdSweep_inv {G : GG n} (h : G.IsPdag) : ∀ (l : List (Fin n)) {st : GG n × (Fin n → Bool)}, (∃ ord, PdInv G st ord) →
    ∃ ord, PdInv G (l.foldl G.pdStep st) ord := by
  intro l
  induction l with
  | nil => intro st h; exact h
  | cons i l ih => intro st hI; exact ih (pdStep_inv' h hI i)

theorem pdLoop_inv {G : GG n} (h : G.IsPdag) {R : GG n} : ∀ (f : Nat) {st : GG n × (Fin n → Bool)}, (∃ ord, PdInv G st ord) →
    G.pdLoop f st = some R → ∃ st ord, PdInv G st ord ∧ st.1 = R ∧ ∀ i, st.2 i = true := by
  intro f
  induction f with
  | zero =>
    intro st ⟨ord, hI⟩ hr
    simp only [pdLoop] at hr
    split at hr
    · rename_i hall
      exact ⟨st, ord, hI, by simpa using hr, fun i => List.all_eq_true.1 hall i (List.mem_finRange i)⟩
    · cases hr
  | succ f ih =>
    intro st ⟨ord, hI⟩ hr
    simp only [pdLoop] at hr
    split at hr
    · rename_i hall
      exact ⟨st, ord, hI, by simpa using hr, fun i => List.all_eq_true.1 hall i (List.mem_finRange i)⟩
    · exact ih (pdSweep_inv h _ ⟨ord, hI⟩) hr

/-- **C23.** For every partially directed graph: whenever `pdag2dag` returns, its result consists of directed edges only, is
acyclic, has the same adjacencies as the input, keeps every directed edge of the input and has no v-structure the input
did not have. -/
theorem C23_consistent_extension {G R : GG n} (h : G.IsPdag) {fuel : Nat} (hr : G.pdag2dag fuel = some R) :
    R.IsDag ∧ ConsistentExt G R.Arrow := by
  obtain ⟨st, ord, hI, rfl, hall⟩ := pdLoop_inv h fuel ⟨[], pdInv_init h⟩ hr
  have hmem : ∀ i, i ∈ ord := fun i => (hI.rem i).1 (hall i)
  have hinj : ∀ a b, ord.idxOf a = ord.idxOf b → a = b := fun a b he => (List.idxOf_inj (hmem a)).1 he
  have hund : ∀ a b, G.Und a b → a ≠ b := by
    rintro a b hu rfl; have := h.noLoop a; rw [hu.1] at this; cases this
  have husym : ∀ a b, G.Und a b ↔ G.Und b a := fun a b => and_comm
  have harr : ∀ a b, st.1.Arrow a b ↔ G.Arrow a b ∨ (G.Und a b ∧ ord.idxOf b < ord.idxOf a) := by
    intro a b
    have h1 := husym a b
    have h2 := h.cases a b
    rw [show st.1.Arrow a b ↔ st.1.g a b = .tail ∧ st.1.g b a = .arrow from Iff.rfl, hI.marks, hI.marks]
    by_cases hu : G.Und a b
    · have hu' := h1.1 hu
      have hna : ¬ G.Arrow a b := fun hc => by have e := hu'.1; rw [hc.2] at e; cases e
      rw [if_pos hu, if_pos hu']
      simp only [hna, hu, true_and, false_or]
      grind
    · have hu' : ¬ G.Und b a := fun hc => hu (h1.2 hc)
      rw [if_neg hu, if_neg hu']
      simp only [hu, false_and, or_false]
      exact Iff.rfl
  have hdec : ∀ a b, st.1.Arrow a b → ord.idxOf b < ord.idxOf a := by
    intro a b hab
    rcases (harr a b).1 hab with h1 | h1
    · exact hI.out a b (hmem a) h1
    · exact h1.2
  have hac : Acyclic st.1.Arrow := by
    intro x hx
    have : ∀ a b, TransGen st.1.Arrow a b → ord.idxOf b < ord.idxOf a := by
      intro a b hab
      induction hab with
      | single h => exact hdec _ _ h
      | tail _ h ih => exact lt_trans (hdec _ _ h) ih
    exact lt_irrefl _ (this x x hx)
  have hskel : ∀ a b, Adj st.1.Arrow a b ↔ G.Adjacent a b := by
    intro a b
    unfold Adj GG.Adjacent
    rw [harr, harr, husym b a]
    constructor
    · rintro ((h1 | h1) | (h1 | h1))
      · exact Or.inl h1
      · exact Or.inr (Or.inr h1.1)
      · exact Or.inr (Or.inl h1)
      · exact Or.inr (Or.inr h1.1)
    · rintro (h1 | h1 | h1)
      · exact Or.inl (Or.inl h1)
      · exact Or.inr (Or.inl h1)
      · have : ord.idxOf a ≠ ord.idxOf b := fun he => hund a b h1 (hinj a b he)
        rcases lt_or_gt_of_ne this with h2 | h2
        · exact Or.inr (Or.inr ⟨h1, h2⟩)
        · exact Or.inl (Or.inr ⟨h1, h2⟩)
  refine ⟨⟨fun a b hab => ?_, hac⟩, hac, hskel, fun a b hab => (harr a b).2 (Or.inl hab), fun a b c hv => ?_⟩
  · rw [hI.marks] at hab
    have : G.Adjacent a b := by
      by_cases hu : G.Und a b
      · exact Or.inr (Or.inr hu)
      · rw [if_neg hu] at hab; exact h.marks a b hab
    exact (hskel a b).2 this
  · obtain ⟨hne, hnadj, hab, hcb⟩ := hv
    have hna : ¬ G.Adjacent a c := fun hc => hnadj ((hskel a c).2 hc)
    have hnc : ¬ G.Adjacent c a := fun hc => hna (by
      rcases hc with h1 | h1 | h1
      · exact Or.inr (Or.inl h1)
      · exact Or.inl h1
      · exact Or.inr (Or.inr ((husym c a).1 h1)))
    have Aab : G.Adjacent a b := (hskel a b).1 (Or.inl hab)
    have Acb : G.Adjacent c b := (hskel c b).1 (Or.inl hcb)
    constructor
    · rcases (harr a b).1 hab with h1 | h1
      · exact h1
      · exact absurd (hI.shield b a c (hmem b) h1.1 h1.2 Acb (hdec c b hcb) hne) hna
    · rcases (harr c b).1 hcb with h1 | h1
      · exact h1
      · exact absurd (hI.shield b c a (hmem b) h1.1 h1.2 Aab (hdec a b hab) (Ne.symm hne)) hnc

/-! ## Termination -/

theorem pdStep_mono {G : GG n} (st : GG n × (Fin n → Bool)) (i k : Fin n) (hk : st.2 k = true) : (G.pdStep st i).2 k = true := by
  unfold pdStep
  split
  · exact hk
  · split
    · dsimp only; split
      · rfl
      · exact hk
    · exact hk

theorem pdSweep_mono {G : GG n} : ∀ (l : List (Fin n)) (st : GG n × (Fin n → Bool)) (k : Fin n), st.2 k = true →
    (l.foldl G.pdStep st).2 k = true := by
  intro l
  induction l with
  | nil => intro st k hk; exact hk
  | cons i l ih => intro st k hk; exact ih _ k (pdStep_mono st i k hk)

theorem pdSweep_progress {G : GG n} : ∀ (l : List (Fin n)) (st : GG n × (Fin n → Bool)) (i : Fin n), i ∈ l → st.2 i = false →
    G.sinkOk st.2 i = true → ∃ j, st.2 j = false ∧ (l.foldl G.pdStep st).2 j = true := by
  intro l
  induction l with
  | nil => intro st i hi; cases hi
  | cons x l ih =>
    intro st i hi hf hs
    by_cases hx : st.2 x = false ∧ G.sinkOk st.2 x = true
    · refine ⟨x, hx.1, pdSweep_mono l _ x ?_⟩
      simp [pdStep, hx.1, hx.2]
    · have hstep : G.pdStep st x = st := by
        unfold pdStep
        split
        · rfl
        · split
          · exfalso; apply hx; simp_all
          · rfl
      have hxi : x ≠ i := by rintro rfl; exact hx ⟨hf, hs⟩
      have hil : i ∈ l := by
        rcases List.mem_cons.1 hi with h | h
        · exact absurd h.symm hxi
        · exact h
      rw [List.foldl_cons, hstep]
      exact ih st i hil hf hs

theorem exists_sink {G : GG n} (h : G.IsPdag) {D : Fin n → Fin n → Prop} (hD : ConsistentExt G D) (removed : Fin n → Bool)
    {i : Fin n} (hi : removed i = false) : ∃ m, removed m = false ∧ G.sinkOk removed m = true := by
  have hwf : WellFounded (flip (TransGen D)) := by
    have : IsTrans (Fin n) (flip (TransGen D)) := ⟨fun a b c h1 h2 => TransGen.trans h2 h1⟩
    have : Std.Irrefl (flip (TransGen D)) := ⟨fun a => hD.acyclic a⟩
    exact Finite.wellFounded_of_trans_of_irrefl _
  obtain ⟨m, hm, hmin⟩ := hwf.has_min {x | removed x = false} ⟨i, hi⟩
  have hsink : ∀ k, removed k = false → ¬ D m k := fun k hk hd => hmin k hk (TransGen.single hd)
  have hin : ∀ k, removed k = false → G.Adjacent k m → D k m := by
    intro k hk ha
    rcases (hD.skel k m).2 ha with h1 | h1
    · exact h1
    · exact absurd h1 (hsink k hk)
  refine ⟨m, hm, (sinkOk_iff h removed m).2 ⟨fun k hk => ?_, fun y z hu hy ha hz hyz => ?_⟩⟩
  · by_contra hc
    exact hsink k (by simpa using hc) (hD.keeps m k hk)
  · by_contra hna
    have hv : UnshieldedCollider D y m z := ⟨hyz, fun hc => hna ((hD.skel y z).1 hc), hin y hy (Or.inr (Or.inr hu)), hin z hz ha⟩
    have := (hD.colliders y m z hv).1.2
    rw [hu.2] at this; cases this

theorem pdLoop_returns {G : GG n} (h : G.IsPdag) {D : Fin n → Fin n → Prop} (hD : ConsistentExt G D) : ∀ (f : Nat)
    (st : GG n × (Fin n → Bool)), (List.finRange n).countP (fun k => !st.2 k) ≤ f → ∃ R, ∀ f', f ≤ f' → G.pdLoop f' st = some R := by
  intro f
  induction f with
  | zero =>
    intro st hc
    have hall : (List.finRange n).all st.2 = true := by
      rw [List.all_eq_true]
      intro x hx
      have := List.countP_eq_zero.1 (Nat.le_zero.1 hc) x hx
      simpa using this
    refine ⟨st.1, fun f' _ => ?_⟩
    cases f' <;> simp [pdLoop, hall]
  | succ f ih =>
    intro st hc
    by_cases hall : (List.finRange n).all st.2 = true
    · refine ⟨st.1, fun f' _ => ?_⟩
      cases f' <;> simp [pdLoop, hall]
    · obtain ⟨i, hi⟩ : ∃ i, st.2 i = false := by
        by_contra hc
        apply hall
        rw [List.all_eq_true]
        intro x _
        by_contra hx
        exact hc ⟨x, by simpa using hx⟩
      obtain ⟨m, hm, hs⟩ := exists_sink h hD st.2 hi
      obtain ⟨j, hj1, hj2⟩ := pdSweep_progress (List.finRange n) st m (List.mem_finRange m) hm hs
      have hlt : (List.finRange n).countP (fun k => !((List.finRange n).foldl G.pdStep st).2 k) <
          (List.finRange n).countP (fun k => !st.2 k) := by
        refine countP_lt _ _ _ ?_ j (List.mem_finRange j) (by simp [hj1]) (by simp [hj2])
        intro k hk
        by_contra hc
        rw [pdSweep_mono _ st k (by simpa using hc)] at hk
        simp at hk
      obtain ⟨R, hR⟩ := ih ((List.finRange n).foldl G.pdStep st) (by omega)
      refine ⟨R, fun f' hf => ?_⟩
      obtain ⟨g, rfl⟩ : ∃ g, f' = g + 1 := ⟨f' - 1, by omega⟩
      simp only [pdLoop, hall]
      exact hR g (by omega)

/-- **C24.** For every partially directed graph, `pdag2dag` terminates (after at most `n` sweeps over the nodes) exactly when
the graph has a consistent extension; if it has none, the search runs for ever. -/
theorem C24_terminates_iff_extendable {G : GG n} (h : G.IsPdag) :
    ((∃ D, ConsistentExt G D) → ∃ R, ∀ fuel, n ≤ fuel → G.pdag2dag fuel = some R) ∧
    ((¬ ∃ D, ConsistentExt G D) → ∀ fuel, G.pdag2dag fuel = none) := by
  constructor
  · rintro ⟨D, hD⟩
    refine pdLoop_returns h hD n _ ?_
    refine le_trans List.countP_le_length ?_
    simp
  · intro hno fuel
    by_contra hc
    obtain ⟨R, hR⟩ := Option.ne_none_iff_exists'.1 hc
    exact hno ⟨_, (C23_consistent_extension h hR).2⟩

/-- **C23/C24 for essential graphs.** Converting a DAG to its CPDAG and back always terminates and returns a DAG with the
same skeleton and v-structures. -/
theorem C23_roundtrip {G : GG n} (h : G.IsDag) : ∃ P R, G.dag2cpdag (n * n + n + 1) = .ok P ∧ P.pdag2dag n = some R ∧ R.IsDag ∧
    MarkovEquiv G.Arrow R.Arrow := by
  obtain ⟨P, hP, sP⟩ := C25_essential_graph h
  have hrun := hP (n * n + n + 1) (by omega)
  have hadj : ∀ a b, P.Adjacent a b ↔ Adj G.Arrow a b := by
    intro a b
    constructor
    · intro hh
      by_contra hc
      have e1 := (sP a b).1.2 hc
      rcases hh with h1 | h1 | h1
      · rw [h1.1] at e1; cases e1
      · rw [h1.2] at e1; cases e1
      · rw [h1.1] at e1; cases e1
    · intro ha
      by_cases c1 : Compelled G.Arrow a b
      · exact Or.inl ((sP a b).2.1.2 c1)
      · by_cases c2 : Compelled G.Arrow b a
        · exact Or.inr (Or.inl ((sP b a).2.1.2 c2))
        · exact Or.inr (Or.inr ((sP a b).2.2.2 ⟨ha, c1, c2⟩))
  have hpd : P.IsPdag := by
    refine ⟨fun a b hab => ?_, fun a => (sP a a).1.2 ?_⟩
    · rw [hadj]
      by_contra hc
      exact hab ((sP a b).1.2 hc)
    · rintro (hc | hc) <;> exact h.acyclic.irrefl _ hc
  have hext : ConsistentExt P G.Arrow := ⟨h.acyclic, fun a b => (hadj a b).symm, fun a b hab => ((sP a b).2.1.1 hab).1,
    fun a b c hv => C25_colliders_directed h hv (by omega) hrun⟩
  obtain ⟨R, hR⟩ := (C24_terminates_iff_extendable hpd).1 ⟨_, hext⟩
  obtain ⟨hdag, hR2⟩ := C23_consistent_extension hpd (hR n (le_refl n))
  have hskel : ∀ a b, Adj G.Arrow a b ↔ Adj R.Arrow a b := fun a b => by rw [hR2.skel, hadj]
  refine ⟨P, R, hrun, hR n (le_refl n), hdag, hskel, fun a b c => ⟨fun hv => ?_, fun hv => ?_⟩⟩
  · have := hext.colliders a b c hv
    exact ⟨hv.1, fun hc => hv.2.1 ((hskel a c).2 hc), hR2.keeps _ _ this.1, hR2.keeps _ _ this.2⟩
  · have := hR2.colliders a b c hv
    exact ⟨hv.1, fun hc => hv.2.1 ((hskel a c).1 hc), hext.keeps _ _ this.1, hext.keeps _ _ this.2⟩

/-! ## Concrete cases -/

/-- `0 → 1 – 2 – 3`, extendable only by `0 → 1 → 2 → 3`. -/
def exPdag : GG 4 := run [.addEdge 0 1 .tail .arrow, .addEdge 1 2 .tail .tail, .addEdge 2 3 .tail .tail]

example : exPdag.IsPdag := ⟨by unfold GG.Adjacent; decide, by decide⟩

set_option maxRecDepth 20000 in
example : ∃ R, exPdag.pdag2dag 4 = some R ∧ R.Arrow 0 1 ∧ R.Arrow 1 2 ∧ R.Arrow 2 3 := ⟨_, rfl, by decide⟩

/-- The undirected 4-cycle is a partially directed graph without consistent extension: the search does not end. -/
def squarePdag : GG 4 := run [.addEdge 0 1 .tail .tail, .addEdge 1 2 .tail .tail, .addEdge 2 3 .tail .tail, .addEdge 3 0 .tail .tail]

example : squarePdag.IsPdag := ⟨by unfold GG.Adjacent; decide, by decide⟩

set_option maxRecDepth 20000 in
example : squarePdag.pdag2dag 6 = none := by decide

end CL
