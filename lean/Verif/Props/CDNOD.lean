import Verif.Model.CDNOD
import Verif.Props.PC

/-!
# C52: CD-NOD and the surrogate variable
-/
namespace CL
open GG Relation Spec
variable {n : Nat} {P : Type} [LinearOrder P]

theorem addDirectedEdge_g (G : GG n) {x y : Fin n} (hxy : x ≠ y) : (G.addDirectedEdge x y).g = oriented G.g x y := by
  funext a b
  simp only [addDirectedEdge, adjustDpath_g, setG_g, upd_apply, oriented]

theorem Sound.addDirectedEdge_und {H : GG n} {x y : Fin n} (hs : Sound H) (h : H.isParentOf y x = false) :
    Sound (H.addDirectedEdge x y) := by
  unfold GG.addDirectedEdge
  apply Sound.adjust
  · refine hs.mono rfl ?_
    intro a b hab
    simp only [isParentOf, setG_g, upd_apply, Bool.or_eq_true, Bool.and_eq_true, beq_iff_eq, Bool.or_eq_false_iff,
      Bool.and_eq_false_iff] at hab h ⊢
    grind
  · intro hne
    simp [isParentOf, upd_apply]
    intro h; exact absurd h.symm hne

theorem SkInv.sound' {ind : CI n} {k : Know n} {s : GG n × Sep n} (h : SkInv ind k s) : Sound s.1 := by
  refine ⟨fun a => ?_, fun a b hab => ?_⟩
  · simp [isAncestorOf, h.dp]
  · simp only [isAncestorOf, h.dp, decide_eq_true_eq] at hab
    rw [hab]; exact ReflTransGen.refl

/-- What holds of the graph from the first orientation step on: adjacencies are those of the skeleton `G` and every edge
at `c` leaves `c`. -/
structure OutInv (c : Fin n) (G H : GG n) : Prop where
  pd : PD H
  sound : Sound H
  adj : ∀ a b, H.g a b = .null ↔ G.g a b = .null
  out : ∀ i, H.g c i ≠ .null → H.g c i = .tail ∧ H.g i c = .arrow

theorem orientIndex_spec {G : GG n} (c : Fin n) (hu : Und G) (hs : Sound G) :
    PD (orientIndex G c) ∧ Sound (orientIndex G c) ∧
    (∀ a b, (orientIndex G c).g a b = if G.g a b = .null then .null else if b = c then .arrow else .tail) := by
  have hadj : ∀ i, i ∈ G.adjacentNodes c ↔ G.g c i ≠ .null := by
    intro i
    simp only [adjacentNodes, List.mem_filter, List.mem_finRange, true_and, Bool.and_eq_true, bne_iff_ne]
    rw [hu.symm i c]; simp
  have key : ∀ (l : List (Fin n)) (H : GG n), (∀ i ∈ l, G.g c i ≠ .null) → PD H → Sound H →
      (∀ a b, H.g a b = .arrow → b = c) → 
      PD (l.foldl (fun H i => H.addDirectedEdge c i) H) ∧ Sound (l.foldl (fun H i => H.addDirectedEdge c i) H) ∧
      ∀ a b, (l.foldl (fun H i => H.addDirectedEdge c i) H).g a b =
        if a = c ∧ b ∈ l then .tail else if b = c ∧ a ∈ l then .arrow else H.g a b := by
    intro l
    induction l with
    | nil => intro H _ h1 h2 _; exact ⟨h1, h2, by simp⟩
    | cons i l ih =>
      intro H hl h1 h2 h3
      have hic : c ≠ i := by rintro rfl; exact hl c (by simp) (hu.diag c)
      have hg := addDirectedEdge_g H hic
      have hp : H.isParentOf i c = false := by
        have hc : H.g c i ≠ .arrow := fun h => hic (h3 c i h).symm
        have := h1.mark i c
        simp only [isParentOf, Bool.or_eq_false_iff, Bool.and_eq_false_iff, beq_eq_false_iff_ne]
        refine ⟨Or.inl hc, ?_⟩
        rcases this with h | h | h <;> rw [h] <;> simp
      obtain ⟨e1, e2, e3⟩ := ih (H.addDirectedEdge c i) (fun j hj => hl j (by simp [hj])) (h1.of_oriented hic hg)
        (h2.addDirectedEdge_und hp) (by intro a b; rw [hg]; unfold oriented; have := h3 a b; grind)
      refine ⟨e1, e2, fun a b => ?_⟩
      rw [List.foldl_cons, e3, hg]
      unfold oriented
      simp only [List.mem_cons]
      grind
  have harr : ∀ a b, G.g a b ≠ .arrow := by
    intro a b h; have := hu.mark a b; rw [h] at this; simp at this
  obtain ⟨e1, e2, e3⟩ := key (G.adjacentNodes c) G (fun i hi => (hadj i).1 hi) hu.pd hs
    (fun a b h => absurd h (harr a b))
  refine ⟨e1, e2, fun a b => ?_⟩
  show ((G.adjacentNodes c).foldl _ G).g a b = _
  rw [e3]
  simp only [hadj]
  have h1 := hu.mark a b
  have h2 := hu.symm a b
  have h3 := hu.symm a c
  have h4 := hu.diag c
  grind

theorem OutInv.refines {c : Fin n} {G H K : GG n} (h : OutInv c G H) (hr : Refines H K) (h1 : PD K) (h2 : Sound K) :
    OutInv c G K := by
  refine ⟨h1, h2, fun a b => (hr.adj a b).trans (h.adj a b), fun i hi => ?_⟩
  obtain ⟨e1, e2⟩ := h.out i (fun hh => hi ((hr.adj c i).2 hh))
  rw [hr.keep c i (by rw [e1, e2]; simp), hr.keep i c (by rw [e1, e2]; simp)]
  exact ⟨e1, e2⟩

theorem OutInv.collider2 {c : Fin n} {G H : GG n} (h : OutInv c G H) {x y z : Fin n} (h1 : G.g x y ≠ .null)
    (h2 : G.g y z ≠ .null) (hb : H.isFullyDirected y x = false) : OutInv c G ((H.setDirected x y).setDirected z y) := by
  have n1 : H.g x y ≠ .null := fun hh => h1 ((h.adj _ _).1 hh)
  have n2 : H.g y z ≠ .null := fun hh => h2 ((h.adj _ _).1 hh)
  have n1' : H.g y x ≠ .null := fun hh => n1 (h.pd.symm _ _ hh)
  have n2' : H.g z y ≠ .null := fun hh => n2 (h.pd.symm _ _ hh)
  have hxy : x ≠ y := by rintro rfl; exact n1 (h.pd.diag x)
  have hzy : z ≠ y := by rintro rfl; exact n2 (h.pd.diag z)
  have hyc : y ≠ c := by
    rintro rfl
    have := h.out x n1'
    simp [isFullyDirected, this] at hb
  have g1 := setDirected_g h.pd hxy
  have p1 := h.pd.of_oriented hxy g1
  have g2 := setDirected_g p1 hzy
  refine ⟨p1.of_oriented hzy g2, (h.sound.setDirected x y).setDirected z y, fun a b => ?_, fun i => ?_⟩
  · rw [← h.adj a b, g2, g1]; unfold oriented; grind
  · rw [g2, g1]; unfold oriented; have := h.out i; grind

theorem OutInv.lateLoop {c : Fin n} {G H : GG n} (h : OutInv c G H) (k : Know n) (l : List (Fin n × Fin n × Fin n))
    (hl : ∀ t ∈ l, G.g t.1 t.2.1 ≠ .null ∧ G.g t.2.1 t.2.2 ≠ .null) : OutInv c G (lateLoop k l H) := by
  unfold CL.lateLoop
  apply fold_inv (OutInv c G) _ _ _ _ h
  intro K hK t ht
  split
  · exact hK
  · unfold GG.collider2
    split
    · rename_i hb
      simp only [Bool.and_eq_true, Bool.not_eq_true'] at hb
      exact hK.collider2 (hl t ht).1 (hl t ht).2 hb.1
    · exact hK

theorem OutInv.ut {c : Fin n} {G H : GG n} (h : OutInv c G H) {t : Fin n × Fin n × Fin n} (ht : t ∈ orderedUT H) :
    G.g t.1 t.2.1 ≠ .null ∧ G.g t.2.1 t.2.2 ≠ .null := by
  obtain ⟨x, y, z⟩ := t
  obtain ⟨-, h1, h2, -⟩ := (mem_orderedUT h.pd x y z).1 ht
  exact ⟨fun hh => h1 ((h.adj _ _).2 hh), fun hh => h2 ((h.adj _ _).2 hh)⟩

theorem OutInv.colliderBy {c : Fin n} {G H : GG n} (h : OutInv c G H) {prio : Nat} (hp : 2 ≤ prio)
    {t : Fin n × Fin n × Fin n} (ht : G.g t.1 t.2.1 ≠ .null ∧ G.g t.2.1 t.2.2 ≠ .null) :
    OutInv c G (colliderBy prio H t) := by
  unfold CL.colliderBy
  rw [if_neg (by omega), if_neg (by omega)]
  unfold GG.collider2
  split
  · rename_i hb
    simp only [Bool.and_eq_true, Bool.not_eq_true'] at hb
    exact h.collider2 ht.1 ht.2 hb.1
  · exact h

theorem OutInv.ucSepset {c : Fin n} {G H : GG n} (h : OutInv c G H) (T : TestFn n P) {prio : Nat} (hp : 2 ≤ prio)
    (k : Know n) (sep : Sep n) : OutInv c G (ucSepset T prio k H sep) := by
  simp only [CL.ucSepset]
  split
  · exact fold_inv (OutInv c G) _ _ (fun K hK t ht => hK.colliderBy hp (h.ut (List.mem_of_mem_filter ht))) _ h
  · split
    · exact h.lateLoop k _ fun t ht => h.ut (List.mem_of_mem_filter ((mem_sortAsc_fst _ _ t).1 ht))
    · exact h.lateLoop k _ fun t ht => h.ut (List.mem_of_mem_filter ((mem_sortDesc_fst _ _ t).1 ht))

theorem OutInv.maxp {c : Fin n} {G H : GG n} (h : OutInv c G H) (T : TestFn n P) {prio : Nat} (hp : 2 ≤ prio)
    (k : Know n) : OutInv c G (maxp T prio k H) := by
  simp only [CL.maxp]
  split
  · apply fold_inv (OutInv c G) _ _ _ _ h
    intro K hK t ht
    split
    · exact hK
    · split
      · exact hK.colliderBy hp (h.ut ht)
      · exact hK
  · split
    · exact h.lateLoop k _ fun t ht => h.ut (List.mem_of_mem_filter ((mem_sortAsc_fst _ _ t).1 ht))
    · exact h.lateLoop k _ fun t ht => h.ut (List.mem_of_mem_filter ((mem_sortDesc_fst _ _ t).1 ht))

theorem OutInv.definiteMaxp {c : Fin n} {G H : GG n} (h : OutInv c G H) (T : TestFn n P) (zero : P) (prio : Nat)
    (k : Know n) : OutInv c G (definiteMaxp T zero prio k H).G := by
  simp only [CL.definiteMaxp]
  apply fold_inv (fun st : DefSt n => OutInv c G st.G) _ _ _ _ h
  intro st hst t ht
  have ht' : t ∈ orderedUT H := by
    split at ht
    · exact List.mem_of_mem_filter ((mem_sortAsc_fst _ _ t).1 ht)
    · split at ht
      · exact List.mem_of_mem_filter ((mem_sortDesc_fst _ _ t).1 ht)
      · rw [List.map_map] at ht
        obtain ⟨u, hu, rfl⟩ := List.mem_map.1 ht
        exact List.mem_of_mem_filter hu
  split
  · exact hst
  · split
    · rename_i hb
      simp only [Bool.and_eq_true, Bool.not_eq_true'] at hb
      exact hst.collider2 (h.ut ht').1 (h.ut ht').2 hb.1
    · exact hst

theorem OutInv.meek {c : Fin n} {G H : GG n} (h : OutInv c G H) (k : Know n) : ∃ K, meek k H = some K ∧ OutInv c G K := by
  obtain ⟨K, e1, e2, e3, e4, -⟩ := meekLoop_spec k H.unshieldedTriples H.triangles H.kites (n * n + 1) H h.pd h.sound
    (Nat.lt_succ_of_le (undCount_le H))
  exact ⟨K, e1, h.refines e4 e2 e3⟩

theorem OutInv.orientByBk {c : Fin n} {G H : GG n} (h : OutInv c G H) (k : Know n) : OutInv c G (orientByBk k H) := by
  obtain ⟨h1, h2, -⟩ := orientByBk_spec (k := k) h.pd h.sound
  have hc := orientByBk_cases (k := k) h.pd h.sound
  refine h.refines ⟨fun a b => (hc a b).1, fun a b => (hc a b).2.1, fun a b g1 g2 => ?_⟩ h1 h2
  rcases (hc a b).2.2 g1 g2 with ⟨e1, e2, -⟩ | ⟨e, -⟩ | ⟨e, -⟩
  · exact Or.inl ⟨e1, e2⟩
  · exact Or.inr (Or.inl e)
  · exact Or.inr (Or.inr e)

/-- For every CI test, every background knowledge and both skeleton modes: with the collider rule 2, or with a conflict
rule other than "overwrite" (0) and "orient bi-directed" (1) — the default included — CD-NOD returns a graph with the
adjacencies of the skeleton phase in which every edge at the surrogate variable (the last node) points away from it. -/
theorem C52_index_is_a_source_partial (T : TestFn (n + 1) P) (zero : P) (stable : Bool) (ucRule : Nat) (hr : ucRule ≤ 2)
    (prio : Option Nat) (hprio : ucRule = 2 ∨ (prio ≠ some 0 ∧ prio ≠ some 1)) (k : Know (n + 1)) :
    ∃ s H, skeletonDiscovery stable T.ind Know.none = some s ∧ cdnodAlg T zero stable ucRule prio k = some H ∧
      (∀ a b, H.g a b ≠ .null ↔ s.1.g a b ≠ .null) ∧
      ∀ i, H.g (Fin.last n) i ≠ .null ∨ H.g i (Fin.last n) ≠ .null → H.Arrow (Fin.last n) i := by
  obtain ⟨s, hs, hi, -⟩ := skeleton_spec stable T.ind (Know.none : Know (n + 1))
  obtain ⟨p1, p2, p3⟩ := orientIndex_spec (Fin.last n) hi.und hi.sound'
  have h0 : OutInv (Fin.last n) s.1 (orientIndex s.1 (Fin.last n)) := by
    refine ⟨p1, p2, fun a b => ?_, fun i => ?_⟩
    · rw [p3]; grind
    · rw [p3, p3]; have := hi.und.symm (Fin.last n) i; have := hi.und.diag (Fin.last n); grind
  have h1 := h0.orientByBk k
  have fin : ∀ K, OutInv (Fin.last n) s.1 K → ∃ H, meek k K = some H ∧
      (∀ a b, H.g a b ≠ .null ↔ s.1.g a b ≠ .null) ∧
      ∀ i, H.g (Fin.last n) i ≠ .null ∨ H.g i (Fin.last n) ≠ .null → H.Arrow (Fin.last n) i := by
    intro K hK
    obtain ⟨H, e1, e2⟩ := hK.meek k
    refine ⟨H, e1, fun a b => not_congr (e2.adj a b), fun i hi => ?_⟩
    have : H.g (Fin.last n) i ≠ .null := by
      rcases hi with h | h
      · exact h
      · exact fun hh => h (e2.pd.symm _ _ hh)
    exact e2.out i this
  have hpr : ucRule ≠ 2 → 2 ≤ prio.getD 3 := by
    intro h2
    obtain ⟨q1, q2⟩ := hprio.resolve_left h2
    cases prio with
    | none => simp
    | some p =>
      simp only [ne_eq, Option.some.injEq] at q1 q2
      simp only [Option.getD_some]; omega
  refine ⟨s, ?_⟩
  unfold cdnodAlg
  rw [hs]
  simp only [Option.bind_some]
  by_cases r0 : ucRule = 0
  · rw [if_pos r0]
    obtain ⟨H, e⟩ := fin _ (h1.ucSepset T (hpr (by omega)) k s.2)
    exact ⟨H, trivial, e⟩
  · rw [if_neg r0]
    by_cases r1 : ucRule = 1
    · rw [if_pos r1]
      obtain ⟨H, e⟩ := fin _ (h1.maxp T (hpr (by omega)) k)
      exact ⟨H, trivial, e⟩
    · rw [if_neg r1, if_pos (by omega)]
      have h2 := h1.definiteMaxp T zero (prio.getD 4) k
      obtain ⟨K, e1, e2, e3, e4, -⟩ := defMeekLoop_spec k (definiteMaxp T zero (prio.getD 4) k
        (CL.orientByBk k (orientIndex s.1 (Fin.last n)))).uc (definiteMaxp T zero (prio.getD 4) k
        (CL.orientByBk k (orientIndex s.1 (Fin.last n)))).nonUC _ _ ((n + 1) * (n + 1) + 1) _ h2.pd h2.sound
        (Nat.lt_succ_of_le (undCount_le _))
      obtain ⟨H, e⟩ := fin _ (h2.refines e4 e2 e3)
      refine ⟨H, trivial, ?_, e.2⟩
      unfold definiteMeek
      rw [e1]
      exact e.1

/-- With a d-separation oracle of a DAG `D` in which the surrogate has no cause, and knowledge true of `D`, CD-NOD
returns a graph that is correct for `D`, whatever the collider rule, conflict rule and skeleton mode; in particular every
edge at the surrogate points away from it. -/
theorem C52_cdnod_correct (D : Fin (n + 1) → Fin (n + 1) → Prop) (hac : Acyclic D) (hroot : ∀ a, ¬ D a (Fin.last n))
    (T : TestFn (n + 1) P) (zero : P) (ho : DSepOracle D T.ind) (stable : Bool) (ucRule : Nat) (hr : ucRule ≤ 2)
    (prio : Option Nat) (k : Know (n + 1))
    (hk : (∀ a b, k.forb a b = true → ¬ D a b) ∧ ∀ a b, k.req a b = true → D a b) :
    ∃ H, cdnodAlg T zero stable ucRule prio k = some H ∧ PCCorrect D H ∧
      ∀ i, H.g (Fin.last n) i ≠ .null → H.Arrow (Fin.last n) i := by
  have hkt : k.TrueOf D := ⟨hk.1, hk.2⟩
  have hnone : (Know.none : Know (n + 1)).TrueOf D := ⟨by simp [Know.none], by simp [Know.none]⟩
  obtain ⟨s, h1, h2, h3, h4, h5⟩ := skeleton_oracle hac ho stable Know.none hnone (Or.inr (by simp [Know.none]))
  obtain ⟨s', h1', hi, -⟩ := skeleton_spec stable T.ind (Know.none : Know (n + 1))
  obtain rfl : s = s' := by rw [h1] at h1'; exact Option.some.inj h1'
  obtain ⟨p1, p2, p3⟩ := orientIndex_spec (Fin.last n) hi.und hi.sound'
  have hI : PInv D (orientIndex s.1 (Fin.last n)) := by
    refine ⟨p1, fun a b => ?_, fun a b => ?_⟩
    · rw [← h2.adj a b, p3]; grind
    · rw [p3]
      intro h
      have hn : s.1.g b a ≠ .null := by intro hh; simp [hh] at h
      have ha : a = Fin.last n := by by_contra hh; simp [hn, hh] at h
      rcases (h2.adj b a).1 hn with hd | hd
      · exact absurd (ha ▸ hd) (hroot b)
      · exact hd
  obtain ⟨h6, h7⟩ := PInv.orientByBk hkt hI p2
  have h0 : OutInv (Fin.last n) s.1 (orientIndex s.1 (Fin.last n)) := by
    refine ⟨p1, p2, fun a b => ?_, fun i => ?_⟩
    · rw [p3]; grind
    · rw [p3, p3]; have := hi.und.symm (Fin.last n) i; have := hi.und.diag (Fin.last n); grind
  have hO := h0.orientByBk k
  have key : ∀ K : GG (n + 1), MInv D K → (∀ a b, (CL.orientByBk k (orientIndex s.1 (Fin.last n))).g b a = .arrow → K.g b a = .arrow) →
      ∃ H, meek k K = some H ∧ PCCorrect D H ∧ ∀ i, H.g (Fin.last n) i ≠ .null → H.Arrow (Fin.last n) i := by
    intro K hK hle
    obtain ⟨H, e1, e2, e3, e4⟩ := meek_oracle hac hkt hK
    refine ⟨H, e1, e2.correct hac e4, fun i hi' => ?_⟩
    have hc : s.1.g (Fin.last n) i ≠ .null := (h2.adj _ _).2 ((e2.inv.adj _ _).1 hi')
    have ha := hle (Fin.last n) i (hO.out i (fun hh => hc ((hO.adj _ _).1 hh))).2
    have hb : H.g i (Fin.last n) = .arrow := by
      rw [e3.keep i (Fin.last n) (by rw [ha]; simp)]; exact ha
    exact ⟨e2.inv.tail hac hb, hb⟩
  unfold cdnodAlg
  rw [h1]
  simp only [Option.bind_some]
  by_cases r0 : ucRule = 0
  · rw [if_pos r0]
    have hd := ucSepset_done hac hkt T (prio.getD 3) h6 h7 s.2 (by
      intro x y z a1 a2 a3 a4
      rw [h5 x y z a1 a2 a3 a4]
      simp [Know.none])
    exact key _ hd.minv fun a b h => (hd.arrow a b).2 (Or.inl h)
  · rw [if_neg r0]
    by_cases r1 : ucRule = 1
    · rw [if_pos r1]
      have hd := maxp_done hac hkt ho (prio.getD 3) h6 h7
      exact key _ hd.minv fun a b h => (hd.arrow a b).2 (Or.inl h)
    · rw [if_neg r1, if_pos (by omega)]
      have hd := definiteMaxp_done hac hkt ho zero (prio.getD 4) h6 h7
      obtain ⟨H, e1, e2, e3⟩ := definiteMeek_oracle (k := k) hac hd
      have hle : ∀ a b, (CL.orientByBk k (orientIndex s.1 (Fin.last n))).g b a = .arrow → H.g b a = .arrow := by
        intro a b h
        have hb := (hd.done.arrow a b).2 (Or.inl h)
        rw [e3.keep b a (by rw [hb]; simp)]; exact hb
      have hk' := key H e2 hle
      rw [e1]
      exact hk'

/-! ## What fails -/

theorem exists_of_any {α : Type} {p : α → Bool} {o : Option α} (h : o.any p = true) : ∃ a, o = some a ∧ p a = true := by
  cases o with
  | none => simp at h
  | some a => exact ⟨a, rfl, by simpa using h⟩

/-- A test on two variables and the surrogate (node 2): 0 and 1 are independent given nothing, everything else is
dependent. P-value 1 for independence, level 0. -/
def vT : TestFn 3 Nat :=
  ⟨fun x y S => if ((x = 0 ∧ y = 1) ∨ (x = 1 ∧ y = 0)) ∧ S = [] then 1 else 0, 0⟩

/-- Conflict rule 0 ("overwrite"): edges at the surrogate are turned around and point into it. -/
theorem C52_overwrite_violated :
    ∃ H, cdnodAlg vT 0 true 0 (some 0) Know.none = some H ∧ H.Arrow 0 (Fin.last 2) ∧ H.Arrow 1 (Fin.last 2) := by
  have h : (cdnodAlg vT 0 true 0 (some 0) Know.none).any (fun H => H.g 0 2 == .tail && H.g 2 0 == .arrow &&
      (H.g 1 2 == .tail && H.g 2 1 == .arrow)) = true := by decide
  obtain ⟨H, h1, h2⟩ := exists_of_any h
  simp only [Bool.and_eq_true, beq_iff_eq] at h2
  exact ⟨H, h1, h2.1, h2.2⟩

/-- Conflict rule 1 ("orient bi-directed"): edges at the surrogate become bi-directed. -/
theorem C52_bidirected_violated :
    ∃ H, cdnodAlg vT 0 true 0 (some 1) Know.none = some H ∧ H.g 0 (Fin.last 2) = .arrow ∧ H.g (Fin.last 2) 0 = .arrow := by
  have h : (cdnodAlg vT 0 true 0 (some 1) Know.none).any (fun H => H.g 0 2 == .arrow && H.g 2 0 == .arrow) = true := by
    decide
  obtain ⟨H, h1, h2⟩ := exists_of_any h
  simp only [Bool.and_eq_true, beq_iff_eq] at h2
  exact ⟨H, h1, h2.1, h2.2⟩

/-- The missing-value variant writes the opposite direction: from the (corrected) skeleton with the single edge between
variable 0 and the surrogate it returns `0 → surrogate`. -/
theorem C52_mvcdnod_violated :
    ∃ H, mvOrient (n := 1) ⟨fun _ _ _ => 0, 0⟩ 0 0 none (GG.complete 2, fun _ _ => Option.none) = some H ∧
      H.Arrow 0 (Fin.last 1) := by
  have h : (mvOrient (n := 1) (P := Nat) ⟨fun _ _ _ => 0, 0⟩ 0 0 none (GG.complete 2, fun _ _ => Option.none)).any
      (fun H => H.g 0 1 == .tail && H.g 1 0 == .arrow) = true := by decide
  obtain ⟨H, h1, h2⟩ := exists_of_any h
  simp only [Bool.and_eq_true, beq_iff_eq] at h2
  exact ⟨H, h1, h2⟩

/-! ## Concrete cases -/

/-- the default conflict rule on the same test returns `0 ← surrogate → 1` -/
example : ∃ H, cdnodAlg vT 0 true 0 (some 2) Know.none = some H ∧ H.Arrow (Fin.last 2) 0 ∧ H.Arrow (Fin.last 2) 1 := by
  obtain ⟨s, H, h1, h2, h3, h4⟩ := C52_index_is_a_source_partial vT 0 true 0 (by omega) (some 2) (by simp) Know.none
  have hs : (skeletonDiscovery true vT.ind Know.none).any (fun s => s.1.g 2 0 != .null && s.1.g 2 1 != .null) = true := by
    decide
  rw [h1] at hs
  simp only [Option.any_some, Bool.and_eq_true, bne_iff_ne] at hs
  exact ⟨H, h2, h4 0 (Or.inl ((h3 _ _).2 hs.1)), h4 1 (Or.inl ((h3 _ _).2 hs.2))⟩

/-- the DAG `surrogate → 0`, with the test that never reports independence -/
example : ∃ H, cdnodAlg (n := 1) (P := Nat) ⟨fun _ _ _ => 0, 0⟩ 0 true 0 (some 0) Know.none = some H ∧
    H.Arrow (Fin.last 1) 0 := by
  have hac : Acyclic (fun a b : Fin 2 => a = 1 ∧ b = 0) := by
    intro x h
    have : ∀ a b, TransGen (fun a b : Fin 2 => a = 1 ∧ b = 0) a b → a = 1 ∧ b = 0 := by
      intro a b hab
      induction hab with
      | single h => exact h
      | tail _ h ih => exact ⟨ih.1, h.2⟩
    have := this x x h
    omega
  have ho : DSepOracle (fun a b : Fin 2 => a = 1 ∧ b = 0) (TestFn.ind (n := 2) (P := Nat) ⟨fun _ _ _ => 0, 0⟩) := by
    intro x y S h1 h2 h3 h4
    simp only [TestFn.ind, lt_self_iff_false, decide_false, Bool.false_eq_true, false_iff]
    intro hd
    have : Adj (fun a b : Fin 2 => a = 1 ∧ b = 0) x y := by unfold Adj; omega
    exact hd (dConn_of_adj h1 this)
  obtain ⟨H, h1, h2, h3⟩ := C52_cdnod_correct _ hac (by intro a; simp) _ 0 ho true 0 (by omega) (some 0) Know.none
    ⟨by simp [Know.none], by simp [Know.none]⟩
  exact ⟨H, h1, h3 0 ((h2.skeleton _ _).2 (Or.inl ⟨rfl, rfl⟩))⟩

end CL
