import Verif.Props.GraphEdge

/-!
# C04: `is_ancestor_of`
-/
namespace CL
open GG Relation
variable {n : Nat}

theorem adjustStep_self (i : Fin n) (dp : Fin n → Fin n → Bool) (k : Fin n) : adjustStep i i dp k = dp := by
  funext a b
  unfold adjustStep
  have : (if dp i k = true then upd dp i k true else dp) = dp := by
    funext a b; split <;> grind [upd]
  rw [this]
  split <;> grind [upd]

theorem foldl_adjustStep_self (i : Fin n) (l : List (Fin n)) (dp : Fin n → Fin n → Bool) :
    l.foldl (adjustStep i i) dp = dp := by
  induction l with
  | nil => rfl
  | cons a l ih => rw [List.foldl_cons, adjustStep_self, ih]

theorem adjust_self_dp (G : GG n) (i : Fin n) : (G.adjustDpath i i).dp = upd G.dp i i true := by
  simp [adjustDpath, foldl_adjustStep_self]

theorem fold_adjust_self (l : List (Fin n)) (G : GG n) (a b : Fin n) :
    (l.foldl (fun H i => H.adjustDpath i i) G).dp a b = (G.dp a b || (decide (a = b) && decide (a ∈ l))) := by
  induction l generalizing G with
  | nil => simp
  | cons x l ih =>
    rw [List.foldl_cons, ih, adjust_self_dp, upd_apply]
    by_cases h1 : a = b <;> by_cases h2 : a = x <;> by_cases h3 : a ∈ l <;> simp_all <;> grind

/-- reachability along `is_parent_of` -/
def ParPath (G : GG n) : Fin n → Fin n → Prop := ReflTransGen (fun x y => G.isParentOf x y = true)

/-- the ancestor matrix is reflexive and only claims real parent chains -/
def Sound (G : GG n) : Prop := (∀ a, G.dp a a = true) ∧ ∀ a b, G.dp b a = true → ParPath G a b

theorem isParentOf_congr {G H : GG n} (h : G.g = H.g) (x y : Fin n) : G.isParentOf x y = H.isParentOf x y := by
  simp [isParentOf, h]

theorem Sound.adjust {G : GG n} (hs : Sound G) (i j : Fin n) (hp' : i ≠ j → G.isParentOf i j = true) :
    Sound (G.adjustDpath i j) := by
  by_cases hij : i = j
  · subst hij
    refine ⟨fun a => ?_, fun a b h => ?_⟩
    · rw [adjustDpath_dp _ hs.1]; exact Or.inl (hs.1 a)
    · rw [adjustDpath_dp _ hs.1] at h
      have e : ParPath (G.adjustDpath i i) = ParPath G := by unfold ParPath; simp [isParentOf]
      rw [e]
      apply hs.2
      grind
  have hp := hp' hij
  constructor
  · intro a; rw [adjustDpath_dp _ hs.1]; exact Or.inl (hs.1 a)
  · intro a b h
    rw [adjustDpath_dp _ hs.1] at h
    have e : ParPath (G.adjustDpath i j) = ParPath G := by unfold ParPath; simp [isParentOf]
    rw [e]
    rcases h with h | ⟨rfl, h⟩ | ⟨h, rfl⟩
    · exact hs.2 _ _ h
    · exact (hs.2 _ _ h).tail hp
    · exact ReflTransGen.head hp (hs.2 _ _ h)

theorem Sound.recon (G : GG n) (es : List (Edge n)) : Sound (G.reconstituteDpath es) := by
  unfold reconstituteDpath
  have base : Sound ((List.finRange n).foldl (fun H i => H.adjustDpath i i)
      ({ G with dp := fun _ _ => false } : GG n)) := by
    constructor
    · intro a; rw [fold_adjust_self]; simp [List.mem_finRange]
    · intro a b h; rw [fold_adjust_self] at h; simp at h; rw [h]; exact ReflTransGen.refl
  dsimp only
  generalize ((List.finRange n).foldl (fun H i => H.adjustDpath i i)
      ({ g := G.g, dp := fun _ _ => false } : GG n)) = G1 at base ⊢
  generalize es.reverse = l
  induction l generalizing G1 with
  | nil => exact base
  | cons e l ih =>
    rw [List.foldl_cons]
    apply ih
    split
    · exact base.adjust _ _ (fun _ => ‹_›)
    · split
      · exact base.adjust _ _ (fun _ => ‹_›)
      · exact base

theorem Sound.mono {G H : GG n} (hs : Sound G) (hdp : H.dp = G.dp)
    (hp : ∀ x y, G.isParentOf x y = true → H.isParentOf x y = true) : Sound H := by
  refine ⟨by rw [hdp]; exact hs.1, fun a b h => ?_⟩
  rw [hdp] at h
  exact ReflTransGen.mono hp _ _ (hs.2 a b h)

theorem Sound.addEdge {G : GG n} (hs : Sound G) (e : Edge n) : Sound (G.addEdge e).2 := by
  unfold GG.addEdge
  dsimp only
  repeat' split
  all_goals try exact hs
  all_goals first
    | (refine hs.mono rfl ?_; intro x y hxy; simp [isParentOf, upd_apply] at *; done)
    | (refine hs.mono rfl ?_; intro x y hxy; (simp [isParentOf, upd_apply] at * <;> grind))
    | (refine Sound.adjust (G := (GG.setG (GG.setG G _ _ _) _ _ _)) (hs.mono rfl ?_) _ _ ?_
       · intro x y hxy; (simp [isParentOf, upd_apply] at * <;> grind)
       · (simp [isParentOf, upd_apply] at * <;> grind))

theorem Sound.removeEdge {G : GG n} (hs : Sound G) (e : Edge n) : Sound (G.removeEdge e) := by
  unfold GG.removeEdge
  dsimp only
  split
  · exact Sound.recon _ _
  · rename_i hf
    simp only [Bool.or_eq_true, not_or, Bool.not_eq_true] at hf
    refine hs.mono ?_ ?_
    · repeat' split
      all_goals rfl
    · intro x y hxy
      have h1 : ¬ (x = e.node1 ∧ y = e.node2) := by rintro ⟨rfl, rfl⟩; simp_all
      have h2 : ¬ (x = e.node2 ∧ y = e.node1) := by rintro ⟨rfl, rfl⟩; simp_all
      repeat' split
      all_goals simp [isParentOf, upd_apply] at *
      all_goals grind

theorem sound_history (hist : List (Op n))
    (hop : ∀ o ∈ hist, (∃ a b m1 m2, o = .addEdge a b m1 m2) ∨ (∃ a b m1 m2, o = .removeEdge a b m1 m2)) :
    Sound (run hist) := by
  unfold run
  have h0 : Sound (GG.empty n) := Sound.recon _ _
  generalize GG.empty n = G at h0
  induction hist generalizing G with
  | nil => exact h0
  | cons o os ih =>
    rw [List.foldl_cons]
    refine ih (fun o' h' => hop o' (List.mem_cons_of_mem _ h')) _ ?_
    rcases hop o (List.mem_cons_self ..) with ⟨a, b, m1, m2, rfl⟩ | ⟨a, b, m1, m2, rfl⟩
    · exact h0.addEdge _
    · exact h0.removeEdge _

theorem addEdge_simple {G : GG n} (h : G.Simple) (e : Edge n) (he : ¬ (e.end1 = .arrow ∧ e.end2 = .arrow))
    (hb : ∀ a b, ¬ (G.g a b = .arrow ∧ G.g b a = .arrow)) : (G.addEdge e).2.Simple := by
  intro a b
  have h1 := h a b
  have h2 := hb e.node1 e.node2
  unfold addEdge
  dsimp only
  repeat' split
  all_goals simp [upd_apply] at *
  all_goals grind

theorem addEdge_nobi {G : GG n} (e : Edge n) (he : ¬ (e.end1 = .arrow ∧ e.end2 = .arrow))
    (hb : ∀ a b, ¬ (G.g a b = .arrow ∧ G.g b a = .arrow)) :
    ∀ a b, ¬ ((G.addEdge e).2.g a b = .arrow ∧ (G.addEdge e).2.g b a = .arrow) := by
  intro a b
  have h2 := hb e.node1 e.node2
  have h3 := hb a b
  unfold addEdge
  dsimp only
  repeat' split
  all_goals simp [upd_apply] at *
  all_goals grind

theorem removeEdge_simple {G : GG n} (h : G.Simple) (e : Edge n) : (G.removeEdge e).Simple := by
  intro a b
  have h1 := h a b
  have h2 := h e.node1 e.node2
  unfold removeEdge
  dsimp only
  repeat' split
  all_goals simp [upd_apply] at *
  all_goals grind

theorem removeEdge_nobi {G : GG n} (h : G.Simple) (e : Edge n)
    (hb : ∀ a b, ¬ (G.g a b = .arrow ∧ G.g b a = .arrow)) :
    ∀ a b, ¬ ((G.removeEdge e).g a b = .arrow ∧ (G.removeEdge e).g b a = .arrow) := by
  intro a b
  have h1 := hb a b
  have h2 := h e.node1 e.node2
  unfold removeEdge
  dsimp only
  repeat' split
  all_goals simp [upd_apply] at *
  all_goals grind

/-- Calls that add or remove one edge between two distinct nodes, never a bidirected one. -/
def Op.plain : Op n → Prop
  | .addEdge a b m1 m2 => a ≠ b ∧ ¬ (m1 = .arrow ∧ m2 = .arrow)
  | .removeEdge _ _ _ _ => True
  | _ => False

theorem simple_history (hist : List (Op n)) (hop : ∀ o ∈ hist, o.plain) : (run hist).Simple := by
  unfold run
  have h0 : (GG.empty n).Simple ∧ ∀ a b, ¬ ((GG.empty n).g a b = .arrow ∧ (GG.empty n).g b a = .arrow) := by
    constructor <;> (intro a b; simp)
  generalize GG.empty n = G at h0
  suffices h : (hist.foldl Op.apply G).Simple ∧ ∀ a b, ¬ ((hist.foldl Op.apply G).g a b = .arrow ∧
      (hist.foldl Op.apply G).g b a = .arrow) from h.1
  induction hist generalizing G with
  | nil => exact h0
  | cons o os ih =>
    rw [List.foldl_cons]
    refine ih (fun o' h' => hop o' (List.mem_cons_of_mem _ h')) _ ?_
    have hp := hop o (List.mem_cons_self ..)
    cases o with
    | addEdge a b m1 m2 =>
      have he : ¬ ((mkEdge a b m1 m2).end1 = .arrow ∧ (mkEdge a b m1 m2).end2 = .arrow) := by
        have := hp.2; unfold mkEdge; split <;> grind
      exact ⟨addEdge_simple h0.1 _ he h0.2, addEdge_nobi _ he h0.2⟩
    | removeEdge a b m1 m2 => exact ⟨removeEdge_simple h0.1 _, removeEdge_nobi h0.1 _ h0.2⟩
    | addDirectedEdge => exact hp.elim
    | removeConnectingEdge => exact hp.elim

/-- **C04 (soundness half, partial).** After any history of `add_edge`/`remove_edge` calls without bidirected edges,
every reported ancestor relation is witnessed by a directed path in the current graph. -/
theorem C04_ancestor_sound_partial (hist : List (Op n)) (hop : ∀ o ∈ hist, o.plain) (a b : Fin n)
    (h : (run hist).isAncestorOf a b = true) : (run hist).DirPath a b := by
  have hs := simple_history hist hop
  have hsnd := sound_history hist (by
    intro o ho
    have := hop o ho
    cases o <;> simp_all [Op.plain])
  have hp := hsnd.2 a b h
  refine ReflTransGen.mono ?_ _ _ hp
  intro x y hxy
  have := hs x y
  have := hs y x
  simp [isParentOf] at hxy
  unfold GG.Arrow
  grind

/-- **C04 (soundness, with bidirected edges).** In every history of `add_edge`/`remove_edge` calls, each reported
ancestor relation is witnessed by a chain of `is_parent_of` facts of the current graph. -/
theorem C04_ancestor_sound_general_partial (hist : List (Op n))
    (hop : ∀ o ∈ hist, (∃ a b m1 m2, o = .addEdge a b m1 m2) ∨ (∃ a b m1 m2, o = .removeEdge a b m1 m2))
    (a b : Fin n) (h : (run hist).isAncestorOf a b = true) :
    ReflTransGen (fun x y => (run hist).isParentOf x y = true) a b :=
  (sound_history hist hop).2 a b h

example : let h : List (Op 3) := [.addEdge 0 1 .tail .arrow, .addEdge 1 2 .tail .arrow, .addEdge 0 2 .tail .tail]
    (∀ o ∈ h, o.plain) ∧ (run h).isAncestorOf 0 2 = true := by
  refine ⟨?_, by decide⟩
  intro o ho
  simp at ho
  rcases ho with rfl | rfl | rfl <;> simp [Op.plain]

/-- **C04 violated (completeness).** Adding `0→1`, `2→3` and then `1→2` gives a directed path `0→1→2→3`, but
`is_ancestor_of(0, 3)` is `False`. -/
theorem C04_ancestor_incomplete_violated :
    let G := run (n := 4) [.addEdge 0 1 .tail .arrow, .addEdge 2 3 .tail .arrow, .addEdge 1 2 .tail .arrow]
    G.DirPath 0 3 ∧ G.isAncestorOf 0 3 = false := by
  refine ⟨?_, by decide⟩
  exact ((ReflTransGen.single (by decide : GG.Arrow _ 0 1)).tail (by decide : GG.Arrow _ 1 2)).tail
    (by decide : GG.Arrow _ 2 3)

/-- **C04 violated (staleness).** `remove_connecting_edge` does not refresh the ancestor table: after adding `0→1` and
removing it, `is_ancestor_of(0, 1)` is still `True` although the graph has no edge at all. -/
theorem C04_ancestor_stale_violated :
    let G := run (n := 2) [.addEdge 0 1 .tail .arrow, .removeConnectingEdge 0 1]
    G.isAncestorOf 0 1 = true ∧ ∀ a b, G.isAdj a b = false := by decide

/-! ### Completeness for sink-ward insertion orders -/

/-- The graph obtained by adding directed edges in the given order. -/
def runDirected (es : List (Fin n × Fin n)) : GG n := run (es.map fun e => Op.addEdge e.1 e.2 .tail .arrow)

/-- invariant of graphs built from directed edges only -/
structure DirOnly (G : GG n) (es : List (Fin n × Fin n)) : Prop where
  pair : ∀ a b, (G.g a b = .null ∧ G.g b a = .null) ∨ G.Arrow a b ∨ G.Arrow b a
  mem : ∀ a b, G.Arrow a b → (a, b) ∈ es

theorem dirOnly_step {G : GG n} {es : List (Fin n × Fin n)} (h : DirOnly G es) (a b : Fin n) (hab : a ≠ b) :
    DirOnly (G.addEdge (mkEdge a b .tail .arrow)).2 (es ++ [(a, b)]) ∧
    ((G.addEdge (mkEdge a b .tail .arrow)).2 = G ∨
     ((G.addEdge (mkEdge a b .tail .arrow)).2.dp = (G.adjustDpath a b).dp ∧
      ∀ x y, (G.addEdge (mkEdge a b .tail .arrow)).2.Arrow x y ↔ G.Arrow x y ∨ (x = a ∧ y = b))) := by
  have hp := h.pair a b
  have hba : ¬ b = a := fun h => hab h.symm
  by_cases hn : G.g a b = .null ∧ G.g b a = .null
  · have e : (G.addEdge (mkEdge a b .tail .arrow)).2 = ((G.setG b a .arrow).setG a b .tail).adjustDpath a b := by
      simp [mkEdge, pointingLeft, addEdge, hn.1, hn.2]
    have harr : ∀ x y, (G.addEdge (mkEdge a b .tail .arrow)).2.Arrow x y ↔ G.Arrow x y ∨ (x = a ∧ y = b) := by
      intro x y
      rw [e]
      have := h.pair x y
      simp only [GG.Arrow, adjustDpath_g, setG_g, upd_apply] at *
      obtain ⟨h1, h2⟩ := hn
      by_cases hx : x = a ∧ y = b
      · obtain ⟨rfl, rfl⟩ := hx; simp [hba]
      · by_cases hy : x = b ∧ y = a
        · obtain ⟨rfl, rfl⟩ := hy; simp [hab, h1, h2]
        · simp [hx]; grind
    refine ⟨⟨?_, ?_⟩, Or.inr ⟨by rw [e]; rfl, harr⟩⟩
    · intro x y
      rw [harr, harr]
      rw [e]
      have := h.pair x y
      simp only [adjustDpath_g, setG_g, upd_apply]
      grind
    · intro x y hxy
      rw [harr] at hxy
      rcases hxy with hxy | ⟨rfl, rfl⟩
      · simp [h.mem _ _ hxy]
      · simp
  · have e : (G.addEdge (mkEdge a b .tail .arrow)).2 = G := by
      unfold GG.Arrow at hp
      have : (G.g a b = .tail ∧ G.g b a = .arrow) ∨ (G.g b a = .tail ∧ G.g a b = .arrow) := by grind
      rcases this with ⟨h1, h2⟩ | ⟨h1, h2⟩ <;> simp [mkEdge, pointingLeft, addEdge, h1, h2]
    rw [e]
    exact ⟨⟨h.pair, fun x y hxy => by simp [h.mem _ _ hxy]⟩, Or.inl rfl⟩

/-- **C04 (completeness, partial).** If directed edges are added so that no edge is ever added into a node that already
has an outgoing edge (e.g. in an order sorted by the causal position of the head), `is_ancestor_of` is exact. -/
theorem C04_ancestor_exact_sinkward_partial (es : List (Fin n × Fin n)) (hne : ∀ e ∈ es, e.1 ≠ e.2)
    (hord : es.Pairwise fun earlier later => earlier.1 ≠ later.2) (x y : Fin n) :
    (runDirected es).isAncestorOf x y = true ↔ (runDirected es).DirPath x y := by
  constructor
  · intro h
    refine C04_ancestor_sound_partial _ ?_ x y h
    intro o ho
    obtain ⟨e, he, rfl⟩ := List.mem_map.1 ho
    simp [Op.plain]; exact hne e he
  · suffices h : DirOnly (runDirected es) es ∧ Sound (runDirected es) ∧
      ∀ x y, (runDirected es).DirPath x y → (runDirected es).dp y x = true from h.2.2 x y
    clear x y
    induction es using List.reverseRecOn with
    | nil =>
      refine ⟨⟨?_, ?_⟩, Sound.recon _ _, ?_⟩
      · intro a b; left; simp [runDirected, run]
      · intro a b h; simp [runDirected, run, GG.Arrow] at h
      · intro x y h
        have hr := (Sound.recon (⟨fun _ _ => .null, fun _ _ => false⟩ : GG n) []).1
        rcases ReflTransGen.cases_head h with rfl | ⟨c, hc, _⟩
        · exact hr _
        · simp [runDirected, run, GG.Arrow] at hc
    | append_singleton es e ih =>
      obtain ⟨a, b⟩ := e
      rw [List.pairwise_append] at hord
      obtain ⟨hd, hs, hc⟩ := ih (fun e he => hne e (by simp [he])) hord.1
      have hab : a ≠ b := hne (a, b) (by simp)
      have hrun : runDirected (es ++ [(a, b)]) = ((runDirected es).addEdge (mkEdge a b .tail .arrow)).2 := by
        simp [runDirected, run, Op.apply]
      rw [hrun]
      have hstep := dirOnly_step hd a b hab
      refine ⟨hstep.1, hs.addEdge _, ?_⟩
      rcases hstep.2 with heq | ⟨hdp, harr⟩
      · rw [heq]; exact hc
      · intro x y hxy
        rw [hdp, adjustDpath_dp _ hs.1]
        have hsplit : (runDirected es).DirPath x y ∨ (y = b ∧ (runDirected es).DirPath x a) := by
          induction hxy with
          | refl => exact Or.inl ReflTransGen.refl
          | @tail z y hxz hzy ihz =>
            rw [harr] at hzy
            rcases hzy with hzy | ⟨rfl, rfl⟩
            · rcases ihz with h | ⟨rfl, h⟩
              · exact Or.inl (h.tail hzy)
              · have := hord.2.2 (z, y) (hd.mem _ _ hzy) (a, z) (by simp)
                simp at this
            · rcases ihz with h | ⟨rfl, h⟩
              · exact Or.inr ⟨rfl, h⟩
              · exact absurd rfl hab
        rcases hsplit with h | ⟨rfl, h⟩
        · exact Or.inl (hc _ _ h)
        · exact Or.inr (Or.inl ⟨rfl, hc _ _ h⟩)

set_option maxRecDepth 8000 in
example : let es : List (Fin 4 × Fin 4) := [(0, 1), (1, 2), (0, 2), (2, 3)]
    (∀ e ∈ es, e.1 ≠ e.2) ∧ es.Pairwise (fun e l => e.1 ≠ l.2) ∧
    (runDirected es).isAncestorOf 0 3 = true ∧ (runDirected es).isAncestorOf 3 0 = false := by decide

end CL
