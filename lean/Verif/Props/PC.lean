import Verif.Proofs.PCOracle2

/-!
# C19, C20, C21: collider orientation, Meek rules, and PC with a d-separation oracle
-/
namespace CL
open GG Relation Spec
variable {n : Nat} {P : Type} [LinearOrder P]

/-- The ancestor answers of the graph are truthful (every graph built by the API from an edgeless one is such,
`C04_reported_ancestor_has_path`-style results). -/
def AncTruthful (G : GG n) : Prop :=
  (∀ a, G.isAncestorOf a a = true) ∧ ∀ a b, G.isAncestorOf a b = true → G.DirPath a b

theorem AncTruthful.sound {G : GG n} (h : AncTruthful G) : Sound G := by
  refine ⟨h.1, fun a b hab => ReflTransGen.mono ?_ _ _ (h.2 a b hab)⟩
  intro x y hxy
  simp [isParentOf, hxy.1, hxy.2]

theorem Sound.ancTruthful {G : GG n} (h : Sound G) (hp : PD G) : AncTruthful G := by
  refine ⟨h.1, fun a b hab => ReflTransGen.mono ?_ _ _ (h.2 a b hab)⟩
  intro x y hxy
  simp only [isParentOf, Bool.or_eq_true, Bool.and_eq_true, beq_iff_eq] at hxy
  rcases hxy with hxy | hxy
  · exact ⟨hxy.2, hxy.1⟩
  · have := hp.mark x y; rw [hxy] at this; simp at this

/-! ## C19 -/

/-- `x – y – z` is an unshielded triple of `G` that the recorded separating sets declare a collider and that the knowledge
does not veto. -/
def Accepted (k : Know n) (G : GG n) (sep : Sep n) (x y z : Fin n) : Prop :=
  G.g x y ≠ .null ∧ G.g z y ≠ .null ∧ x ≠ z ∧ G.g x z = .null ∧ (∀ L, sep x z = some L → ∀ S ∈ L, y ∉ S) ∧
  k.forb x y = false ∧ k.forb z y = false ∧ k.req y x = false ∧ k.req y z = false

/-- What processing accepted triples (`acc a b`: some accepted triple has the end `a` and the middle `b`) may do. -/
structure UCGen (acc : Fin n → Fin n → Prop) (G H : GG n) : Prop where
  pd : PD H
  sound : Sound H
  adj : ∀ a b, H.g a b = .null ↔ G.g a b = .null
  arrow : ∀ a b, H.g b a = .arrow → G.g b a = .arrow ∨ acc a b
  keep : ∀ a b, ¬ acc a b → ¬ acc b a → H.g a b = G.g a b

theorem UCGen.oriented {acc : Fin n → Fin n → Prop} {G H K : GG n} (h : UCGen acc G H) {x y : Fin n} (hxy : acc x y)
    (hadj : G.g x y ≠ .null) (hs : Sound K) (hg : K.g = oriented H.g x y) : UCGen acc G K := by
  have hne : x ≠ y := by rintro rfl; exact hadj ((h.adj x x).1 (h.pd.diag x))
  have h1 : H.g x y ≠ .null := fun hh => hadj ((h.adj _ _).1 hh)
  have h2 : H.g y x ≠ .null := fun hh => h1 (h.pd.symm _ _ hh)
  refine ⟨h.pd.of_oriented hne hg, hs, fun a b => ?_, fun a b hab => ?_, fun a b h3 h4 => ?_⟩
  · rw [← h.adj a b, hg]; unfold CL.oriented; grind
  · rw [hg] at hab; unfold CL.oriented at hab; have := h.arrow a b; grind
  · rw [← h.keep a b h3 h4, hg]; unfold CL.oriented; grind

theorem UCGen.bioriented {acc : Fin n → Fin n → Prop} {G H K : GG n} (h : UCGen acc G H) {x y : Fin n} (hxy : acc x y)
    (hadj : G.g x y ≠ .null) (hs : Sound K) (hg : K.g = bioriented H.g x y) (hold : H.g x y = .arrow) : UCGen acc G K := by
  have hne : x ≠ y := by rintro rfl; exact hadj ((h.adj x x).1 (h.pd.diag x))
  have h1 : H.g x y ≠ .null := fun hh => hadj ((h.adj _ _).1 hh)
  have h2 : H.g y x ≠ .null := fun hh => h1 (h.pd.symm _ _ hh)
  refine ⟨h.pd.of_bioriented hne hg, hs, fun a b => ?_, fun a b hab => ?_, fun a b h3 h4 => ?_⟩
  · rw [← h.adj a b, hg]; unfold CL.bioriented; grind
  · rw [hg] at hab; unfold CL.bioriented at hab; have := h.arrow a b; grind
  · rw [← h.keep a b h3 h4, hg]; unfold CL.bioriented; grind

theorem UCGen.colliderBy {acc : Fin n → Fin n → Prop} {G H : GG n} (h : UCGen acc G H) (prio : Nat) {x y z : Fin n}
    (h1 : acc x y) (h2 : acc z y) (a1 : G.g x y ≠ .null) (a2 : G.g z y ≠ .null) :
    UCGen acc G (colliderBy prio H (x, y, z)) := by
  have n1 : ∀ {K : GG n}, UCGen acc G K → K.g x y ≠ .null := fun hK hh => a1 ((hK.adj _ _).1 hh)
  have n2 : ∀ {K : GG n}, UCGen acc G K → K.g z y ≠ .null := fun hK hh => a2 ((hK.adj _ _).1 hh)
  have hxy : x ≠ y := by rintro rfl; exact n1 h (h.pd.diag x)
  have hzy : z ≠ y := by rintro rfl; exact n2 h (h.pd.diag z)
  unfold CL.colliderBy
  dsimp only
  split
  · unfold collider0
    dsimp only
    have hO : UCGen acc G (H.overwriteDirected x y) :=
      h.oriented h1 a1 (h.sound.overwriteDirected x y) (overwriteDirected_g h.pd hxy)
    refine hO.oriented h2 a2 (((hO.sound.removeIfEdge _ _).removeIfEdge _ _).addEdge _) ?_
    rw [addDirected_cleared hzy (G := H.overwriteDirected x y)]
    rw [removeIfEdge_pd_g (hO.pd.of_cleared (removeIfEdge_pd_g hO.pd y z)), removeIfEdge_pd_g hO.pd, cleared_cleared,
      cleared_symm]
  · split
    · unfold collider1
      have key : ∀ (K : GG n) (u : Fin n), UCGen acc G K → acc u y → G.g u y ≠ .null → UCGen acc G (K.orientBi u y) := by
        intro K u hK hu hadj
        have hg := orientBi_g hK.pd (x := u) (y := y) (fun hh => hadj ((hK.adj _ _).1 hh))
        have hs := hK.sound.orientBi u y
        split at hg
        · exact hK.oriented hu hadj hs hg
        · split at hg
          · rename_i hh; exact hK.bioriented hu hadj hs hg hh.1
          · refine ⟨?_, hs, ?_, ?_, ?_⟩
            · constructor
              · intro a b; rw [hg]; exact hK.pd.mark a b
              · intro a b; rw [hg]; exact hK.pd.symm a b
              · intro a; rw [hg]; exact hK.pd.diag a
            · intro a b; rw [hg]; exact hK.adj a b
            · intro a b; rw [hg]; exact hK.arrow a b
            · intro a b; rw [hg]; exact hK.keep a b
      exact key _ z (key _ x h h1 a1) h2 a2
    · unfold collider2
      split
      · have hO : UCGen acc G (H.setDirected x y) := h.oriented h1 a1 (h.sound.setDirected x y) (setDirected_g h.pd hxy)
        exact hO.oriented h2 a2 (hO.sound.setDirected z y) (setDirected_g hO.pd hzy)
      · exact h

/-- Collider orientation, with no assumption on the test, the separating sets, the priority rule or the knowledge: no
adjacency is created or lost; marks change only on edges that are a leg of an accepted unshielded triple; a new arrowhead
appears only at the middle of one. -/
theorem C19_only_accepted_triples (T : TestFn n P) (prio : Nat) (k : Know n) (G : GG n) (sep : Sep n) (hp : PD G)
    (hs : AncTruthful G) :
    let H := ucSepset T prio k G sep
    let acc := fun a b => ∃ z, Accepted k G sep a b z ∨ Accepted k G sep z b a
    (∀ a b, H.g a b = .null ↔ G.g a b = .null) ∧
    (∀ a b, H.g b a = .arrow → G.g b a = .arrow ∨ acc a b) ∧
    (∀ a b, ¬ acc a b → ¬ acc b a → H.g a b = G.g a b) := by
  intro H acc
  suffices h : UCGen acc G H from ⟨h.adj, h.arrow, h.keep⟩
  have h0 : UCGen acc G G := ⟨hp, hs.sound, fun _ _ => Iff.rfl, fun _ _ h => Or.inl h, fun _ _ _ _ => rfl⟩
  have hcand : ∀ t ∈ (orderedUT G).filter (fun t => !k.blocksUC t.1 t.2.1 t.2.2 && sepAvoids sep t),
      Accepted k G sep t.1 t.2.1 t.2.2 := by
    rintro ⟨x, y, z⟩ ht
    simp only [List.mem_filter, Bool.and_eq_true, Bool.not_eq_true', Know.blocksUC, Bool.or_eq_false_iff] at ht
    obtain ⟨h1, ⟨⟨⟨h2, h3⟩, h4⟩, h5⟩, h6⟩ := ht
    obtain ⟨hlt, g1, g2, g3⟩ := (mem_orderedUT hp x y z).1 h1
    refine ⟨g1, fun hh => g2 (hp.symm _ _ hh), ne_of_lt hlt, g3, ?_, h2, h3, h4, h5⟩
    intro L hL S hS
    unfold sepAvoids at h6
    simp only [hL, Option.getD_some, List.all_eq_true, decide_eq_true_eq] at h6
    exact h6 S hS
  have hstep : ∀ prio (K : GG n), UCGen acc G K → ∀ t : Fin n × Fin n × Fin n, Accepted k G sep t.1 t.2.1 t.2.2 →
      UCGen acc G (colliderBy prio K t) := by
    intro prio K hK t ht
    exact hK.colliderBy prio ⟨_, Or.inl ht⟩ ⟨_, Or.inr ht⟩ ht.1 ht.2.1
  have hlate : ∀ l : List (Fin n × Fin n × Fin n), (∀ t ∈ l, Accepted k G sep t.1 t.2.1 t.2.2) → UCGen acc G (lateLoop k l G) := by
    intro l hl
    unfold lateLoop
    apply fold_inv (UCGen acc G) _ _ _ _ h0
    intro K hK t ht
    split
    · exact hK
    · exact hstep 2 K hK t (hl t ht)
  simp only [H, ucSepset]
  split
  · exact fold_inv (UCGen acc G) _ _ (fun K hK t ht => hstep prio K hK t (hcand t ht)) _ h0
  · split
    · exact hlate _ fun t ht => hcand t ((mem_sortAsc_fst _ _ t).1 ht)
    · exact hlate _ fun t ht => hcand t ((mem_sortDesc_fst _ _ t).1 ht)

/-- With the skeleton of a DAG `D` and separating sets that really separate, every priority rule orients exactly the
v-structures of `D`: there is an arrowhead at `b` from `a` afterwards iff there was one before or `a → b ← z` is a
v-structure of `D`; adjacencies are those of `D`; nothing else is changed. -/
theorem C19_faithful_exact (D : Fin n → Fin n → Prop) (hac : Acyclic D) (T : TestFn n P) (prio : Nat) (k : Know n)
    (hk : (∀ a b, k.forb a b = true → ¬ D a b) ∧ ∀ a b, k.req a b = true → D a b)
    (G : GG n) (hp : PD G) (hs : AncTruthful G) (hadj : ∀ a b, G.g a b ≠ .null ↔ Adj D a b)
    (harr : ∀ a b, G.g b a = .arrow → D a b) (sep : Sep n)
    (hsep : ∀ x z, x ≠ z → ¬ Adj D x z → ∃ L, sep x z = some L ∧ L ≠ [] ∧ ∀ S ∈ L, DSep D {v | v ∈ S} x z) :
    ∀ a b, ((ucSepset T prio k G sep).g a b ≠ .null ↔ Adj D a b) ∧
      ((ucSepset T prio k G sep).g b a = .arrow ↔ G.g b a = .arrow ∨ ∃ z, UnshieldedCollider D a b z) := by
  have h := ucSepset_done hac ⟨hk.1, hk.2⟩ T prio (⟨hp, hadj, harr⟩ : PInv D G) hs.sound sep (by
    intro x y z hne hxy hzy hna
    obtain ⟨L, hL, hne', hsS⟩ := hsep x z hne hna
    have h1 := hac.ne_of_adj hxy
    have h2 := (hac.ne_of_adj hzy).symm
    unfold sepAvoids
    simp only [hL, Option.getD_some, List.all_eq_true, decide_eq_true_eq]
    constructor
    · intro hall
      obtain ⟨S, hS⟩ := List.exists_mem_of_ne_nil L hne'
      by_contra hc
      exact hall S hS (noncollider_mem (Z := {v | v ∈ S}) h1 h2 hne hxy hzy.symm hc (hsS S hS))
    · intro hc S hS
      exact collider_not_mem (Z := {v | v ∈ S}) h1 h2 hne hc (hsS S hS))
  exact fun a b => ⟨h.inv.adj a b, h.arrow a b⟩

/-! ## C20 -/

/-- One of Meek's rules R1–R3 asks for `a → c` on the undirected edge `a – c` of the matrix `g` (`g i j` is the mark at
`i` on the edge between `i` and `j`). -/
def Demands (g : MMat n) (a c : Fin n) : Prop :=
  let dir := fun i j : Fin n => g i j = .tail ∧ g j i = .arrow
  let und := fun i j : Fin n => g i j = .tail ∧ g j i = .tail
  und a c ∧
  ((∃ i, i ≠ c ∧ g i c = .null ∧ dir i a) ∨
   (∃ j, dir a j ∧ dir j c) ∨
   (∃ j l, j ≠ l ∧ g j l = .null ∧ und a j ∧ und a l ∧ dir j c ∧ dir l c))

/-- `h` is obtained from `g` by applying Meek rules that the knowledge allows, one edge at a time. -/
inductive MeekSteps (k : Know n) (g : MMat n) : MMat n → Prop
  | refl : MeekSteps k g g
  | step {h h' : MMat n} {a c : Fin n} : MeekSteps k g h → Demands h a c → k.forb a c = false → k.req c a = false →
      h' a c = .tail → h' c a = .arrow → (∀ x y, ¬ (x = a ∧ y = c) → ¬ (x = c ∧ y = a) → h' x y = h x y) →
      MeekSteps k g h'

/-- invariant of the Meek loop used for derivability -/
structure MeekSt (k : Know n) (G : GG n) (H : GG n) : Prop where
  pd : PD H
  sound : Sound H
  adj : ∀ a b, H.g a b = .null ↔ G.g a b = .null
  steps : MeekSteps k G.g H.g

theorem MeekSt.try {k : Know n} {G : GG n} {st : GG n × Bool} (h : MeekSt k G st.1) {a c : Fin n}
    (hd : Demands st.1.g a c) : MeekSt k G (tryOrient k st a c).1 := by
  have hu : st.1.isUndirected a c = true := by simp [isUndirected, hd.1]
  rcases tryOrient_spec (k := k) h.pd h.sound hu with ⟨h1, -⟩ | ⟨-, h2, h3, h4, h5, h6, h7, -⟩
  · rw [h1]; exact h
  · refine ⟨h3, h4, fun x y => (h5.adj x y).trans (h.adj x y), MeekSteps.step h.steps hd h6 h7 ?_ ?_ ?_⟩
    · rw [h2]; simp [oriented]
    · rw [h2]; unfold oriented
      have hne : a ≠ c := by rintro rfl; have := h.pd.diag a; rw [hd.1.1] at this; simp at this
      simp [hne]
    · intro x y hx hy; rw [h2]; simp [oriented, hx, hy]

theorem fd_iff (G : GG n) (a b : Fin n) : G.isFullyDirected a b = true ↔ G.g a b = .tail ∧ G.g b a = .arrow := by
  simp [isFullyDirected]

theorem ud_iff (G : GG n) (a b : Fin n) : G.isUndirected a b = true ↔ G.g a b = .tail ∧ G.g b a = .tail := by
  simp [isUndirected]

theorem meekPass_st {k : Know n} {G H : GG n} (hG : PD G) (h : MeekSt k G H) :
    MeekSt k G (meekPass k G.unshieldedTriples G.triangles G.kites H).1 := by
  unfold meekPass
  apply fold_inv (fun st : GG n × Bool => MeekSt k G st.1)
  · rintro st hst ⟨i, j, l, m⟩ ht
    obtain ⟨hlt, hn, -⟩ := (mem_kites hG i j l m).1 ht
    unfold meek3
    dsimp only
    split
    · rename_i hc
      simp only [Bool.and_eq_true, fd_iff, ud_iff] at hc
      exact hst.try ⟨hc.2, Or.inr (Or.inr ⟨j, l, ne_of_lt hlt, (hst.adj j l).2 hn, hc.1.1.1.1, hc.1.1.1.2, hc.1.1.2, hc.1.2⟩)⟩
    · exact hst
  apply fold_inv (fun st : GG n × Bool => MeekSt k G st.1)
  · rintro st hst ⟨i, j, l⟩ ht
    unfold meek2
    dsimp only
    split
    · rename_i hc
      simp only [Bool.and_eq_true, fd_iff, ud_iff] at hc
      exact hst.try ⟨hc.2, Or.inr (Or.inl ⟨j, hc.1.1, hc.1.2⟩)⟩
    · exact hst
  apply fold_inv (fun st : GG n × Bool => MeekSt k G st.1) _ _ _ _ h
  rintro st hst ⟨i, j, l⟩ ht
  obtain ⟨-, -, hne, hn⟩ := (mem_unshieldedTriples hG i j l).1 ht
  unfold meek1
  dsimp only
  split
  · rename_i hc
    simp only [Bool.and_eq_true, fd_iff, ud_iff] at hc
    exact hst.try ⟨hc.2, Or.inl ⟨i, hne, (hst.adj i l).2 hn, hc.1⟩⟩
  · exact hst

theorem meekLoop_st {k : Know n} {G : GG n} (hG : PD G) (f : Nat) (H K : GG n) (h : MeekSt k G H)
    (hr : meekLoop k G.unshieldedTriples G.triangles G.kites f H = some K) : MeekSt k G K := by
  induction f generalizing H with
  | zero => simp [meekLoop] at hr
  | succ f ih =>
    have hpass := meekPass_st hG h
    rw [meekLoop] at hr
    split at hr
    · exact ih _ hpass hr
    · simp at hr; rw [← hr]; exact hpass

/-- The Meek phase, on every partially directed graph and every knowledge: it returns a graph `H` (so it terminates); no
adjacency is created or lost; every mark on an edge that was not undirected is unchanged; an undirected edge stays
undirected or becomes directed; all new orientations come from a sequence of legal rule applications; and on return
every orientation still demanded by R1–R3 is vetoed by the knowledge or would close a directed cycle. -/
theorem C20_meek (k : Know n) (G : GG n) (hp : PD G) (hs : AncTruthful G) :
    ∃ H, meek k G = some H ∧
      (∀ a b, H.g a b = .null ↔ G.g a b = .null) ∧
      (∀ a b, ¬ (G.g a b = .tail ∧ G.g b a = .tail) → H.g a b = G.g a b) ∧
      (∀ a b, G.g a b = .tail → G.g b a = .tail → (H.g a b = .tail ∧ H.g b a = .tail) ∨ H.Arrow a b ∨ H.Arrow b a) ∧
      MeekSteps k G.g H.g ∧
      (∀ a c, Demands H.g a c → k.forb a c = true ∨ k.req c a = true ∨ H.DirPath c a) := by
  obtain ⟨H, h1, h2, h3, h4, h5, h6, h7⟩ := meekLoop_spec k G.unshieldedTriples G.triangles G.kites (n * n + 1) G hp
    hs.sound (Nat.lt_succ_of_le (undCount_le G))
  refine ⟨H, h1, h4.adj, h4.keep, h4.dir, (meekLoop_st hp _ _ _ ⟨hp, hs.sound, fun _ _ => Iff.rfl, .refl⟩ h1).steps, ?_⟩
  have hA := h3.ancTruthful h2
  have hno : ∀ a c, H.g a c = .tail ∧ H.g c a = .tail → tryOrient k (H, false) a c = (H, false) →
      k.forb a c = true ∨ k.req c a = true ∨ H.DirPath c a := by
    intro a c hu he
    rcases tryOrient_spec (k := k) (st := (H, false)) h2 h3 ((ud_iff H a c).2 hu) with ⟨-, hh⟩ | ⟨hh, -⟩
    · exact hh.imp_right (Or.imp_right (hA.2 c a))
    · rw [he] at hh; simp at hh
  have nn : ∀ {a b : Fin n}, H.g a b ≠ .null → G.g a b ≠ .null := fun h hh => h ((h4.adj _ _).2 hh)
  have nt : ∀ {a b : Fin n}, H.g a b = .tail → G.g a b ≠ .null := fun h => nn (by rw [h]; simp)
  rintro a c ⟨hu, ⟨i, hic, hn, hd⟩ | ⟨j, hd1, hd2⟩ | ⟨j, l, hjl, hn, hu1, hu2, hd1, hd2⟩⟩
  · have ht := h5 (i, a, c) ((mem_unshieldedTriples hp i a c).2 ⟨nt hd.1, nt hu.1, hic, (h4.adj _ _).1 hn⟩)
    unfold meek1 at ht
    rw [if_pos (by simp only [Bool.and_eq_true]; exact ⟨(fd_iff H i a).2 hd, (ud_iff H a c).2 hu⟩)] at ht
    exact hno a c hu ht
  · have ht := h6 (a, j, c) ((mem_triangles hp a j c).2 ⟨nt hd1.1, nt hd2.1, nt hu.1⟩)
    unfold meek2 at ht
    rw [if_pos (by simp only [Bool.and_eq_true]
                   exact ⟨⟨(fd_iff H a j).2 hd1, (fd_iff H j c).2 hd2⟩, (ud_iff H a c).2 hu⟩)] at ht
    exact hno a c hu ht
  · have key : ∀ j l : Fin n, j < l → H.g j l = .null → (H.g a j = .tail ∧ H.g j a = .tail) →
        (H.g a l = .tail ∧ H.g l a = .tail) → (H.g j c = .tail ∧ H.g c j = .arrow) →
        (H.g l c = .tail ∧ H.g c l = .arrow) → k.forb a c = true ∨ k.req c a = true ∨ H.DirPath c a := by
      intro j l hlt hn hu1 hu2 hd1 hd2
      have ht := h7 (a, j, l, c) ((mem_kites hp a j l c).2
        ⟨hlt, (h4.adj _ _).1 hn, nt hu1.1, nt hu2.1, nt hu.1, nt hd1.1, nt hd2.1⟩)
      unfold meek3 at ht
      rw [if_pos (by
        simp only [Bool.and_eq_true]
        exact ⟨⟨⟨⟨(ud_iff H a j).2 hu1, (ud_iff H a l).2 hu2⟩, (fd_iff H j c).2 hd1⟩, (fd_iff H l c).2 hd2⟩,
          (ud_iff H a c).2 hu⟩)] at ht
      exact hno a c hu ht
    rcases lt_or_gt_of_ne hjl with hlt | hgt
    · exact key j l hlt hn hu1 hu2 hd1 hd2
    · exact key l j hgt (h2.symm _ _ hn) hu2 hu1 hd2 hd1

/-- `definite_meek` likewise terminates, keeps the skeleton, and only directs undirected edges, whatever lists of definite
colliders and non-colliders it is given; rule 2 is closed and rule 1 is closed on the listed non-colliders, up to
knowledge and directed cycles. -/
theorem C20_definite_meek (k : Know n) (st : DefSt n) (hp : PD st.G) (hs : AncTruthful st.G) :
    ∃ H, definiteMeek k st = some H ∧
      (∀ a b, H.g a b = .null ↔ st.G.g a b = .null) ∧
      (∀ a b, ¬ (st.G.g a b = .tail ∧ st.G.g b a = .tail) → H.g a b = st.G.g a b) ∧
      (∀ a b, st.G.g a b = .tail → st.G.g b a = .tail →
        (H.g a b = .tail ∧ H.g b a = .tail) ∨ H.Arrow a b ∨ H.Arrow b a) ∧
      (∀ a j c, H.Arrow a j → H.Arrow j c → H.g a c = .tail → H.g c a = .tail →
        k.forb a c = true ∨ k.req c a = true ∨ H.DirPath c a) ∧
      (∀ i a c, ((i, a, c) ∈ st.nonUC ∨ (c, a, i) ∈ st.nonUC) → H.Arrow i a → H.g a c = .tail → H.g c a = .tail →
        k.forb a c = true ∨ k.req c a = true ∨ H.DirPath c a) := by
  obtain ⟨H, h1, h2, h3, h4, h5, h6, -⟩ := defMeekLoop_spec k st.uc st.nonUC st.G.triangles st.G.kites (n * n + 1) st.G hp
    hs.sound (Nat.lt_succ_of_le (undCount_le _))
  have hA := h3.ancTruthful h2
  have hno : ∀ a c, H.g a c = .tail ∧ H.g c a = .tail → tryOrient k (H, false) a c = (H, false) →
      k.forb a c = true ∨ k.req c a = true ∨ H.DirPath c a := by
    intro a c hu he
    rcases tryOrient_spec (k := k) (st := (H, false)) h2 h3 ((ud_iff H a c).2 hu) with ⟨-, hh⟩ | ⟨hh, -⟩
    · exact hh.imp_right (Or.imp_right (hA.2 c a))
    · rw [he] at hh; simp at hh
  have nt : ∀ {a b : Fin n}, H.g a b = .tail → st.G.g a b ≠ .null := fun h hh => by
    rw [(h4.adj _ _).2 hh] at h; simp at h
  refine ⟨H, h1, h4.adj, h4.keep, h4.dir, ?_, ?_⟩
  · intro a j c hd1 hd2 hu1 hu2
    have ht := h6 (a, j, c) ((mem_triangles hp a j c).2 ⟨nt hd1.1, nt hd2.1, nt hu1⟩)
    unfold meek2 at ht
    rw [if_pos (by simp only [Bool.and_eq_true]
                   exact ⟨⟨(fd_iff H a j).2 hd1, (fd_iff H j c).2 hd2⟩, (ud_iff H a c).2 ⟨hu1, hu2⟩⟩)] at ht
    exact hno a c ⟨hu1, hu2⟩ ht
  · intro i a c hm hd hu1 hu2
    by_cases hk : k.forb a c = true ∨ k.req c a = true
    · exact hk.imp_right Or.inl
    have hkb : (!(k.forb a c || k.req c a)) = true := by push Not at hk; simp [hk]
    rcases hm with hm | hm
    · have ht := h5 _ hm
      unfold defMeek1 at ht
      rw [if_pos (by simp only [Bool.and_eq_true]; exact ⟨⟨(fd_iff H i a).2 hd, (ud_iff H a c).2 ⟨hu1, hu2⟩⟩, hkb⟩)] at ht
      exact hno a c ⟨hu1, hu2⟩ ht
    · have ht := h5 _ hm
      unfold defMeek1 at ht
      dsimp only at ht
      rw [if_neg (by simp [isFullyDirected, hu1, hu2]),
        if_pos (by simp only [Bool.and_eq_true]; exact ⟨⟨(fd_iff H i a).2 hd, (ud_iff H a c).2 ⟨hu1, hu2⟩⟩, hkb⟩)] at ht
      exact hno a c ⟨hu1, hu2⟩ ht

/-! ## C21 -/

/-- What PC should return for the DAG `D`: the skeleton of `D`; only directed edges of `D` and undirected edges; all
v-structures of `D`; closed under Meek's rules. -/
structure PCCorrect (D : Fin n → Fin n → Prop) (H : GG n) : Prop where
  skeleton : ∀ a b, H.g a b ≠ .null ↔ Adj D a b
  kinds : ∀ a b, Adj D a b → H.Arrow a b ∨ H.Arrow b a ∨ (H.g a b = .tail ∧ H.g b a = .tail)
  directed : ∀ a b, H.Arrow a b → D a b
  vstruct : ∀ a b z, UnshieldedCollider D a b z → H.Arrow a b ∧ H.Arrow z b
  closed : ∀ a c, ¬ Demands H.g a c

theorem MInv.correct {D : Fin n → Fin n → Prop} (hac : Acyclic D) {H : GG n} (h : MInv D H) (hc : MeekClosed H) :
    PCCorrect D H := by
  refine ⟨h.inv.adj, ?_, fun a b hab => h.inv.arrow a b hab.2, ?_, ?_⟩
  · have key : ∀ a b, D a b → H.Arrow a b ∨ (H.g a b = .tail ∧ H.g b a = .tail) := by
      intro a b hab
      obtain ⟨h1, h2⟩ := h.inv.tail_of hac hab
      exact h2.elim (fun h2 => Or.inr ⟨h1, h2⟩) fun h2 => Or.inl ⟨h1, h2⟩
    rintro a b (hab | hab)
    · rcases key a b hab with h | h
      · exact Or.inl h
      · exact Or.inr (Or.inr h)
    · rcases key b a hab with h | h
      · exact Or.inr (Or.inl h)
      · exact Or.inr (Or.inr ⟨h.2, h.1⟩)
  · intro a b z hz
    have e1 := h.uc a b z hz
    have e2 := h.uc z b a (UnshieldedCollider.symm hz)
    exact ⟨⟨h.inv.tail hac e1, e1⟩, h.inv.tail hac e2, e2⟩
  · rintro a c ⟨hu, ⟨i, hic, hn, hd⟩ | ⟨j, hd1, hd2⟩ | ⟨j, l, hjl, hn, hu1, hu2, hd1, hd2⟩⟩
    · exact hc.r1 i a c hic hn hd hu
    · exact hc.r2 a j c hd1 hd2 hu
    · exact hc.r3 a j l c hjl hn hu1.1 hu1.2 hu2.1 hu2.2 hd1 hd2 hu

/-- PC with a d-separation oracle of the DAG `D` and knowledge that is true of `D`, for the collider rules 0 (sepset),
1 (MaxP) and 2 (Definite-MaxP), every priority rule and both skeleton modes, returns a graph that is correct for `D`.
Rule 0 assumes that no pair is forbidden in both directions (see `C21_double_ban_violated`); so does the eager
mode (see `C16_eager_violated`). -/
theorem C21_pc_correct (D : Fin n → Fin n → Prop) (hac : Acyclic D) (T : TestFn n P) (zero : P)
    (ho : DSepOracle D T.ind) (stable : Bool) (ucRule : Nat) (hr : ucRule ≤ 2) (prio : Option Nat) (k : Know n)
    (hk : (∀ a b, k.forb a b = true → ¬ D a b) ∧ ∀ a b, k.req a b = true → D a b)
    (hban : (stable = true ∧ ucRule ≠ 0) ∨ ∀ a b, ¬ (k.forb a b = true ∧ k.forb b a = true)) :
    ∃ H, pcAlg T zero stable ucRule prio k = some H ∧ PCCorrect D H := by
  have hkt : k.TrueOf D := ⟨hk.1, hk.2⟩
  obtain ⟨s, h1, h2, h3, -, h5⟩ := skeleton_oracle hac ho stable k hkt (hban.imp_left And.left)
  obtain ⟨h6, h7⟩ := PInv.orientByBk hkt h2 h3
  have key : ∀ K : GG n, MInv D K → ∃ H, meek k K = some H ∧ PCCorrect D H := by
    intro K hK
    obtain ⟨H, e1, e2, -, e4⟩ := meek_oracle hac hkt hK
    exact ⟨H, e1, e2.correct hac e4⟩
  unfold pcAlg
  rw [h1]
  simp only [Option.bind_some]
  by_cases r0 : ucRule = 0
  · rw [if_pos r0]
    apply key
    apply UCDone.minv
    refine ucSepset_done hac hkt T _ h6 h7 s.2 ?_
    intro x y z a1 a2 a3 a4
    rw [h5 x y z a1 a2 a3 a4]
    have := hban.resolve_left (fun h => h.2 r0) x z
    tauto
  · rw [if_neg r0]
    by_cases r1 : ucRule = 1
    · rw [if_pos r1]
      exact key _ (maxp_done hac hkt ho _ h6 h7).minv
    · rw [if_neg r1, if_pos (by omega)]
      obtain ⟨H, e1, e2, -⟩ := definiteMeek_oracle (k := k) hac (definiteMaxp_done hac hkt ho zero (prio.getD 4) h6 h7)
      rw [e1]
      exact key H e2

/-- Consequently a directed edge in the output has that direction in every DAG with the same d-separations. -/
theorem C21_directed_edges_invariant (D D' : Fin n → Fin n → Prop) (hac : Acyclic D) (hac' : Acyclic D')
    (hsame : ∀ (Z : Set (Fin n)) x y, DSep D Z x y ↔ DSep D' Z x y) (T : TestFn n P) (zero : P)
    (ho : DSepOracle D T.ind) (stable : Bool) (ucRule : Nat) (hr : ucRule ≤ 2) (prio : Option Nat) :
    ∃ H, pcAlg T zero stable ucRule prio Know.none = some H ∧ ∀ a b, H.Arrow a b → D a b ∧ D' a b := by
  have hk : ∀ E : Fin n → Fin n → Prop, (∀ a b, (Know.none : Know n).forb a b = true → ¬ E a b) ∧
      ∀ a b, (Know.none : Know n).req a b = true → E a b := by
    intro E; simp [Know.none]
  have hb : ∀ a b, ¬ ((Know.none : Know n).forb a b = true ∧ (Know.none : Know n).forb b a = true) := by simp [Know.none]
  have ho' : DSepOracle D' T.ind := fun x y S h1 h2 h3 h4 => (ho x y S h1 h2 h3 h4).trans (hsame _ x y)
  obtain ⟨H, e, hc⟩ := C21_pc_correct D hac T zero ho stable ucRule hr prio Know.none (hk D) (Or.inr hb)
  obtain ⟨H', e', hc'⟩ := C21_pc_correct D' hac' T zero ho' stable ucRule hr prio Know.none (hk D') (Or.inr hb)
  obtain rfl : H = H' := by rw [e] at e'; exact Option.some.inj e'
  exact ⟨H, e, fun a b h => ⟨hc.directed a b h, hc'.directed a b h⟩⟩

/-! ## Concrete cases -/

/-- the chain 0 → 1 → 2 -/
def chainD (a b : Fin 3) : Prop := a.val + 1 = b.val

theorem chainD_acyclic : Acyclic chainD := by
  intro x h
  have : ∀ a b, TransGen chainD a b → a.val < b.val := by
    intro a b hab
    induction hab with
    | single h => unfold chainD at h; omega
    | tail _ h ih => unfold chainD at h; omega
  exact absurd (this x x h) (lt_irrefl _)

/-- p-value 1 for independence, 0 for dependence, level 0 -/
def chainT : TestFn 3 Nat := ⟨fun x y S => if chainCI x y S then 1 else 0, 0⟩

theorem chainT_oracle : DSepOracle chainD chainT.ind := by
  have hind : ∀ x y S, chainT.ind x y S = chainCI x y S := by
    intro x y S
    simp only [TestFn.ind, chainT]
    by_cases h : chainCI x y S = true <;> simp [h]
  have hadj : ∀ x y : Fin 3, x ≠ y → ¬ (x = 0 ∧ y = 2) → ¬ (x = 2 ∧ y = 0) → Adj chainD x y := by
    unfold Adj chainD; decide
  have hset : ∀ S : List (Fin 3), (0 : Fin 3) ∉ S → (2 : Fin 3) ∉ S → (1 : Fin 3) ∈ S → {z | z ∈ S} = {p | chainD p 2} := by
    intro S h0 h2 h1
    ext z
    have : z = 0 ∨ z = 1 ∨ z = 2 := by revert z; decide
    rcases this with rfl | rfl | rfl
    · simp [chainD, h0]
    · simp [chainD, h1]
    · simp [chainD, h2]
  have key : ∀ S : List (Fin 3), (0 : Fin 3) ∉ S → (2 : Fin 3) ∉ S → ((1 : Fin 3) ∈ S ↔ DSep chainD {z | z ∈ S} 0 2) := by
    intro S h0 h2
    constructor
    · intro h1
      rw [hset S h0 h2 h1]
      refine dSep_symm.1 (local_markov chainD_acyclic (by decide) (by unfold Adj chainD; decide) ?_)
      intro h
      rcases TransGen.head'_iff.1 h with ⟨c, hc, -⟩
      unfold chainD at hc
      have := c.isLt
      simp at hc
      omega
    · intro h
      exact noncollider_mem (Z := {z | z ∈ S}) (x := 0) (z := 1) (y := 2) (by decide) (by decide) (by decide)
        (Or.inl (by unfold chainD; decide)) (Or.inl (by unfold chainD; decide)) (by unfold Collider chainD; decide) h
  intro x y S hne _ hx hy
  rw [hind]
  by_cases h1 : x = 0 ∧ y = 2
  · obtain ⟨rfl, rfl⟩ := h1
    rw [← key S hx hy]; simp [chainCI]
  · by_cases h2 : x = 2 ∧ y = 0
    · obtain ⟨rfl, rfl⟩ := h2
      rw [dSep_symm, ← key S hy hx]; simp [chainCI]
    · constructor
      · intro h
        exfalso
        unfold chainCI at h
        grind
      · intro h
        exact absurd (dConn_of_adj hne (hadj x y hne h1 h2)) h

/-- The hypotheses of `C21_pc_correct` are met by the chain, with every setting. -/
example (stable : Bool) (ucRule : Nat) (hr : ucRule ≤ 2) (prio : Option Nat) :
    ∃ H, pcAlg chainT 0 stable ucRule prio Know.none = some H ∧ PCCorrect chainD H :=
  C21_pc_correct chainD chainD_acyclic chainT 0 chainT_oracle stable ucRule hr prio Know.none
    (by simp [Know.none]) (Or.inr (by simp [Know.none]))

set_option maxRecDepth 20000 in
/-- Knowledge that is true of the DAG can make PC (sepset rule, stable mode) wrong: telling it that the non-adjacent pair
0, 2 of the chain 0 → 1 → 2 has no edge in either direction records the empty separating set for the pair, and PC returns
the v-structure 0 → 1 ← 2, which the DAG does not have. -/
theorem C21_double_ban_violated :
    ∃ (k : Know 3) (H : GG 3), (∀ a b, k.forb a b = true → ¬ chainD a b) ∧ (∀ a b, k.req a b = true → chainD a b) ∧
      DSepOracle chainD chainT.ind ∧ pcAlg chainT 0 true 0 (some 2) k = some H ∧ H.Arrow 2 1 ∧ ¬ chainD 2 1 := by
  obtain ⟨k, hk⟩ : ∃ k : Know 3, k = ⟨fun a b => (a == 0 && b == 2) || (a == 2 && b == 0), fun _ _ => false⟩ := ⟨_, rfl⟩
  have h : (pcAlg chainT 0 true 0 (some 2) k).any (fun H => decide (H.g 2 1 = .tail ∧ H.g 1 2 = .arrow)) = true := by
    subst hk; decide
  cases hH : pcAlg chainT 0 true 0 (some 2) k with
  | none => rw [hH] at h; simp at h
  | some H =>
    rw [hH] at h
    refine ⟨k, H, ?_, ?_, chainT_oracle, hH, by simpa [Arrow] using h, by unfold chainD; decide⟩
    · subst hk; unfold chainD; decide
    · subst hk; simp

/-- The graph 0 → 1 – 2 built through the API: it meets the hypotheses of `C20_meek`, R1 demands 1 → 2, and `meek` directs
it. -/
def r1Graph : GG 3 :=
  ((((GG.empty 3).addEdge (mkEdge 0 1 .tail .arrow)).2).addEdge (mkEdge 1 2 .tail .tail)).2

set_option maxRecDepth 20000 in
example : PD r1Graph ∧ AncTruthful r1Graph ∧ Demands r1Graph.g 1 2 ∧
    (meek Know.none r1Graph).any (fun H => decide (H.g 1 2 = .tail ∧ H.g 2 1 = .arrow)) = true := by
  have hp : PD r1Graph := ⟨by decide, by decide, by decide⟩
  refine ⟨hp, ?_, ⟨by decide, Or.inl ⟨0, by decide⟩⟩, by decide⟩
  refine ⟨by decide, fun a b h => ?_⟩
  have hc : a = b ∨ (a = 0 ∧ b = 1) := by revert h a b; decide
  rcases hc with rfl | ⟨rfl, rfl⟩
  · exact ReflTransGen.refl
  · exact ReflTransGen.single (show r1Graph.g 0 1 = .tail ∧ r1Graph.g 1 0 = .arrow by decide)

/-- The v-structure 0 → 1 ← 2: the hypotheses of `C19_faithful_exact` are met by the undirected skeleton with the empty
separating set for 0, 2, and an arrowhead is demanded. -/
example : ∃ (D : Fin 3 → Fin 3 → Prop) (sep : Sep 3), Acyclic D ∧ UnshieldedCollider D 0 1 2 ∧
    (∀ x z, x ≠ z → ¬ Adj D x z → ∃ L, sep x z = some L ∧ L ≠ [] ∧ ∀ S ∈ L, DSep D {v | v ∈ S} x z) := by
  let D : Fin 3 → Fin 3 → Prop := fun a b => b = 1 ∧ a ≠ 1
  have hac : Acyclic D := by
    intro x h
    obtain ⟨c, hc, hr⟩ := TransGen.head'_iff.1 h
    rcases ReflTransGen.cases_head hr with rfl | ⟨d, hd, -⟩
    · exact hc.2 hc.1
    · exact hd.2 hc.1
  have hnd : ∀ x z : Fin 3, ¬ Adj D x z → x ≠ z → ¬ TransGen D x z := by
    intro x z hna hne h
    obtain ⟨c, hc, hr⟩ := TransGen.head'_iff.1 h
    rcases ReflTransGen.cases_head hr with rfl | ⟨d, hd, -⟩
    · exact hna (Or.inl hc)
    · exact hd.2 hc.1
  have hpar : ∀ x z : Fin 3, x ≠ z → ¬ Adj D x z → {p | D p x} = ({v | v ∈ ([] : List (Fin 3))} : Set (Fin 3)) := by
    intro x z hne hna
    have hx : x ≠ 1 := by
      rintro rfl; exact hna (Or.inr ⟨rfl, hne.symm⟩)
    ext p
    simp [D, hx]
  refine ⟨D, fun x z => some [[]], hac, ⟨by decide, by simp [Adj, D], by simp [D], by simp [D]⟩, ?_⟩
  intro x z hne hna
  refine ⟨_, rfl, by simp, ?_⟩
  intro S hS
  simp at hS
  subst hS
  rw [← hpar x z hne hna]
  exact local_markov hac hne hna (hnd x z hna hne)

end CL
