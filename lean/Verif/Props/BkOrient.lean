import Verif.Proofs.PCOracle

/-!
# C18: `orient_by_background_knowledge`
-/
namespace CL
open GG Relation Spec
variable {n : Nat}

theorem addDirectedEdge_cleared {G H : GG n} {x y : Fin n} (h : H.g = cleared G.g x y) :
    (H.addDirectedEdge x y).g = oriented G.g x y := by
  funext a b
  simp only [addDirectedEdge, adjustDpath_g, setG_g, h, upd_apply, oriented, cleared]
  grind

theorem Sound.addDirectedEdge_cleared {H : GG n} {x y : Fin n} (hs : Sound H) (h1 : H.g x y = .null) (h2 : H.g y x = .null) :
    Sound (H.addDirectedEdge x y) := by
  unfold GG.addDirectedEdge
  apply Sound.adjust
  · refine hs.mono rfl ?_
    intro a b hab
    simp only [isParentOf, setG_g, upd_apply, Bool.or_eq_true, Bool.and_eq_true, beq_iff_eq] at hab ⊢
    grind
  · intro hne
    simp [isParentOf, upd_apply]
    intro h; exact absurd h.symm hne

/-- Which direction the knowledge selects for the undirected edge `i – j` (tests in the order of the code). -/
def bkDir (k : Know n) (i j : Fin n) : Option (Fin n × Fin n) :=
  if k.forb j i then some (i, j) else if k.forb i j then some (j, i)
  else if k.req j i then some (j, i) else if k.req i j then some (i, j) else none

/-- The matrix after the knowledge has been applied to the pair `i, j`. -/
def bkNew (k : Know n) (g : MMat n) (i j : Fin n) : MMat n :=
  if g i j = .tail ∧ g j i = .tail then ((bkDir k i j).elim g fun p => oriented g p.1 p.2) else g

theorem bkStep_g {k : Know n} {G : GG n} (hp : PD G) (hs : Sound G) {i j : Fin n} (hij : i ≠ j) (h : G.g i j ≠ .null) :
    (bkStep k G (mkEdge i j (G.g i j) (G.g j i))).g = bkNew k G.g i j ∧
    Sound (bkStep k G (mkEdge i j (G.g i j) (G.g j i))) := by
  unfold bkNew
  by_cases hu : G.g i j = .tail ∧ G.g j i = .tail
  · rw [if_pos hu]
    have he : mkEdge i j (G.g i j) (G.g j i) = ⟨i, j, .tail, .tail, .tail, .tail⟩ := by
      rw [hu.1, hu.2]; rfl
    have hrem := removeEdge_pd_g hp h
    rw [he] at hrem
    rw [he]
    have hsr := hs.removeEdge ⟨i, j, .tail, .tail, .tail, .tail⟩
    have c1 : (G.removeEdge ⟨i, j, .tail, .tail, .tail, .tail⟩).g i j = .null := by rw [hrem]; simp [cleared]
    have c2 : (G.removeEdge ⟨i, j, .tail, .tail, .tail, .tail⟩).g j i = .null := by rw [hrem]; simp [cleared]
    have a1 := addDirectedEdge_cleared hrem
    have a2 := addDirectedEdge_cleared (hrem.trans (cleared_symm _ _ _))
    have s1 := hsr.addDirectedEdge_cleared c1 c2
    have s2 := hsr.addDirectedEdge_cleared c2 c1
    unfold bkStep bkDir
    dsimp only
    rw [if_pos (by simp [isUndirectedFromTo, hu.1, hu.2])]
    by_cases b1 : k.forb j i = true
    · rw [if_pos b1, if_pos b1]; exact ⟨a1, s1⟩
    rw [if_neg b1, if_neg b1]
    by_cases b2 : k.forb i j = true
    · rw [if_pos b2, if_pos b2]; exact ⟨a2, s2⟩
    rw [if_neg b2, if_neg b2]
    by_cases b3 : k.req j i = true
    · rw [if_pos b3, if_pos b3]; exact ⟨a2, s2⟩
    rw [if_neg b3, if_neg b3]
    by_cases b4 : k.req i j = true
    · rw [if_pos b4, if_pos b4]; exact ⟨a1, s1⟩
    rw [if_neg b4, if_neg b4]; exact ⟨rfl, hs⟩
  · rw [if_neg hu]
    unfold bkStep
    rw [if_neg]
    · exact ⟨rfl, hs⟩
    · simp only [isUndirectedFromTo, mkEdge]
      split <;> grind

theorem bkNew_other (k : Know n) (g : MMat n) (i j a b : Fin n) (h1 : ¬ (a = i ∧ b = j)) (h2 : ¬ (a = j ∧ b = i)) :
    bkNew k g i j a b = g a b := by
  unfold bkNew bkDir
  by_cases hu : g i j = .tail ∧ g j i = .tail
  · rw [if_pos hu]
    have e1 : oriented g i j a b = g a b := by unfold oriented; grind
    have e2 : oriented g j i a b = g a b := by unfold oriented; grind
    repeat' split
    all_goals first | exact e1 | exact e2 | rfl
  · rw [if_neg hu]

theorem bkNew_null (k : Know n) (g : MMat n) (i j : Fin n) (a b : Fin n) :
    bkNew k g i j a b = .null ↔ g a b = .null := by
  by_cases h1 : a = i ∧ b = j
  · obtain ⟨rfl, rfl⟩ := h1
    unfold bkNew bkDir oriented
    repeat' split
    all_goals simp_all [Option.elim]
    all_goals grind
  by_cases h2 : a = j ∧ b = i
  · obtain ⟨rfl, rfl⟩ := h2
    unfold bkNew bkDir oriented
    repeat' split
    all_goals simp_all [Option.elim]
    all_goals grind
  rw [bkNew_other k g i j a b h1 h2]

theorem bkNew_pd {k : Know n} {G H : GG n} (hp : PD G) {i j : Fin n} (hij : i ≠ j) (h : H.g = bkNew k G.g i j) : PD H := by
  unfold bkNew at h
  split at h
  · cases hd : bkDir k i j with
    | none => rw [hd] at h; exact ⟨by rw [h]; exact hp.mark, by rw [h]; exact hp.symm, by rw [h]; exact hp.diag⟩
    | some p =>
      rw [hd] at h
      have hne : p.1 ≠ p.2 := by
        unfold bkDir at hd
        repeat' split at hd
        all_goals simp at hd
        all_goals (rw [← hd]; first | exact hij | exact hij.symm)
      exact hp.of_oriented hne h
  · exact ⟨by rw [h]; exact hp.mark, by rw [h]; exact hp.symm, by rw [h]; exact hp.diag⟩

/-- Effect of the loop over a list of distinct pairs. -/
theorem bkFold {k : Know n} (G : GG n) (l : List (Fin n × Fin n)) (hnd : l.Nodup) (hlt : ∀ p ∈ l, p.1 < p.2)
    (hnn : ∀ p ∈ l, G.g p.1 p.2 ≠ .null) (H : GG n) (hp : PD H) (hs : Sound H)
    (hag : ∀ p ∈ l, H.g p.1 p.2 = G.g p.1 p.2 ∧ H.g p.2 p.1 = G.g p.2 p.1) :
    let K := (l.map fun p => mkEdge p.1 p.2 (G.g p.1 p.2) (G.g p.2 p.1)).foldl (bkStep k) H
    PD K ∧ Sound K ∧
    (∀ p ∈ l, K.g p.1 p.2 = bkNew k G.g p.1 p.2 p.1 p.2 ∧ K.g p.2 p.1 = bkNew k G.g p.1 p.2 p.2 p.1) ∧
    ∀ a b, (a, b) ∉ l → (b, a) ∉ l → K.g a b = H.g a b := by
  induction l generalizing H with
  | nil => simp [hp, hs]
  | cons p l ih =>
    obtain ⟨i, j⟩ := p
    have hij : i < j := hlt (i, j) (by simp)
    have hne := ne_of_lt hij
    obtain ⟨e1, e2⟩ := hag (i, j) (by simp)
    dsimp only at e1 e2
    have hn : H.g i j ≠ .null := by rw [e1]; exact hnn (i, j) (by simp)
    obtain ⟨hg, hs'⟩ := bkStep_g (k := k) hp hs hne hn
    rw [e1, e2] at hg hs'
    have hp' := bkNew_pd hp hne hg
    rw [List.nodup_cons] at hnd
    have hoth : ∀ q ∈ l, ¬ (q.1 = i ∧ q.2 = j) ∧ ¬ (q.1 = j ∧ q.2 = i) := by
      intro q hq
      constructor
      · rintro ⟨h1, h2⟩; apply hnd.1; rw [← h1, ← h2]; exact hq
      · rintro ⟨h1, h2⟩
        have := hlt q (by simp [hq])
        rw [h1, h2] at this
        exact absurd this (not_lt_of_gt hij)
    have hag' : ∀ q ∈ l, (bkStep k H (mkEdge i j (G.g i j) (G.g j i))).g q.1 q.2 = G.g q.1 q.2 ∧
        (bkStep k H (mkEdge i j (G.g i j) (G.g j i))).g q.2 q.1 = G.g q.2 q.1 := by
      intro q hq
      obtain ⟨o1, o2⟩ := hoth q hq
      rw [hg, bkNew_other _ _ _ _ _ _ o1 o2, bkNew_other _ _ _ _ _ _ (fun h => o2 ⟨h.2, h.1⟩) (fun h => o1 ⟨h.2, h.1⟩)]
      exact hag q (by simp [hq])
    obtain ⟨r1, r2, r3, r4⟩ := ih hnd.2 (fun q hq => hlt q (by simp [hq])) (fun q hq => hnn q (by simp [hq])) _ hp' hs' hag'
    simp only [List.map_cons, List.foldl_cons]
    refine ⟨r1, r2, ?_, ?_⟩
    · intro q hq
      rcases List.mem_cons.1 hq with rfl | hq
      · have n1 : (i, j) ∉ l := hnd.1
        have n2 : (j, i) ∉ l := fun h => (hoth (j, i) h).2 ⟨rfl, rfl⟩
        have hcong : ∀ a b, (a = i ∧ b = j) ∨ (a = j ∧ b = i) → bkNew k H.g i j a b = bkNew k G.g i j a b := by
          intro a b hab
          have hgab : H.g a b = G.g a b := by
            rcases hab with ⟨rfl, rfl⟩ | ⟨rfl, rfl⟩
            · exact e1
            · exact e2
          unfold bkNew bkDir oriented
          rw [e1, e2]
          repeat' split
          all_goals simp [Option.elim, hgab]
        dsimp only
        refine ⟨?_, ?_⟩
        · rw [r4 i j n1 n2, hg]; exact hcong i j (Or.inl ⟨rfl, rfl⟩)
        · rw [r4 j i n2 n1, hg]; exact hcong j i (Or.inr ⟨rfl, rfl⟩)
      · exact r3 q hq
    · intro a b h1 h2
      simp only [List.mem_cons, not_or] at h1 h2
      rw [r4 a b h1.2 h2.2, hg]
      refine bkNew_other _ _ _ _ _ _ ?_ ?_
      · rintro ⟨rfl, rfl⟩; exact h1.1 rfl
      · rintro ⟨rfl, rfl⟩; exact h2.1 rfl

theorem PD.wf {G : GG n} (hp : PD G) : G.WF :=
  ⟨fun a b => ⟨hp.symm a b, hp.symm b a⟩, fun a b h => by have := hp.mark a b; rw [h] at this; simp at this⟩

theorem PD.simple {G : GG n} (hp : PD G) : G.Simple :=
  fun a b => ⟨fun h => by have := hp.mark a b; rw [h] at this; simp at this,
    fun h => by have := hp.mark a b; rw [h] at this; simp at this⟩

theorem orientByBk_spec {k : Know n} {G : GG n} (hp : PD G) (hs : Sound G) :
    PD (orientByBk k G) ∧ Sound (orientByBk k G) ∧
    ∀ i j, i < j → (orientByBk k G).g i j = bkNew k G.g i j i j ∧ (orientByBk k G).g j i = bkNew k G.g i j j i := by
  unfold orientByBk
  rw [graphEdges_eq hp.wf hp.simple]
  obtain ⟨h1, h2, h3, h4⟩ := bkFold (k := k) G ((upperPairs n).filter fun p => G.g p.1 p.2 != .null) (nodup_upperPairs.filter _)
    (fun p hp => (mem_upperPairs p.1 p.2).1 (List.mem_of_mem_filter hp)) (fun p hp => by simpa using (List.mem_filter.1 hp).2)
    G hp hs (fun p _ => ⟨rfl, rfl⟩)
  refine ⟨h1, h2, fun i j hij => ?_⟩
  by_cases hn : G.g i j = .null
  · have hn' := hp.symm i j hn
    have m1 : (i, j) ∉ (upperPairs n).filter fun p => G.g p.1 p.2 != .null := by simp [hn]
    have m2 : (j, i) ∉ (upperPairs n).filter fun p => G.g p.1 p.2 != .null := by simp [hn']
    rw [h4 i j m1 m2, h4 j i m2 m1]
    refine ⟨?_, ?_⟩
    · rw [hn]; exact ((bkNew_null k G.g i j i j).2 hn).symm
    · rw [hn']; exact ((bkNew_null k G.g i j j i).2 hn').symm
  · have m : (i, j) ∈ (upperPairs n).filter fun p => G.g p.1 p.2 != .null := by
      rw [List.mem_filter]; exact ⟨(mem_upperPairs i j).2 hij, by simpa using hn⟩
    exact h3 (i, j) m

/-- What the knowledge says about `a → b` for an edge that is undirected in `G`. -/
theorem orientByBk_cases {k : Know n} {G : GG n} (hp : PD G) (hs : Sound G) (a b : Fin n) :
    ((orientByBk k G).g a b = .null ↔ G.g a b = .null) ∧
    (¬ (G.g a b = .tail ∧ G.g b a = .tail) → (orientByBk k G).g a b = G.g a b) ∧
    (G.g a b = .tail → G.g b a = .tail →
      ((orientByBk k G).g a b = .tail ∧ (orientByBk k G).g b a = .tail ∧ k.forb a b = false ∧ k.forb b a = false ∧
        k.req a b = false ∧ k.req b a = false) ∨
      ((orientByBk k G).Arrow a b ∧ (k.forb b a = true ∨ (k.forb a b = false ∧ k.req a b = true))) ∨
      ((orientByBk k G).Arrow b a ∧ (k.forb a b = true ∨ (k.forb b a = false ∧ k.req b a = true)))) := by
  obtain ⟨h1, h2, h3⟩ := orientByBk_spec (k := k) hp hs
  by_cases hab : a = b
  · subst hab
    have := hp.diag a
    have := h1.diag a
    simp_all
  have key : ∀ i j, i < j → ∀ a b, ((a = i ∧ b = j) ∨ (a = j ∧ b = i)) → _ := fun i j hij a b hh => by
    obtain ⟨e1, e2⟩ := h3 i j hij
    have eab : (orientByBk k G).g a b = bkNew k G.g i j a b := by
      rcases hh with ⟨rfl, rfl⟩ | ⟨rfl, rfl⟩
      · exact e1
      · exact e2
    have eba : (orientByBk k G).g b a = bkNew k G.g i j b a := by
      rcases hh with ⟨rfl, rfl⟩ | ⟨rfl, rfl⟩
      · exact e2
      · exact e1
    exact And.intro eab eba
  obtain ⟨i, j, hij, hh⟩ : ∃ i j : Fin n, i < j ∧ ((a = i ∧ b = j) ∨ (a = j ∧ b = i)) := by
    rcases lt_or_gt_of_ne hab with h | h
    · exact ⟨a, b, h, Or.inl ⟨rfl, rfl⟩⟩
    · exact ⟨b, a, h, Or.inr ⟨rfl, rfl⟩⟩
  obtain ⟨eab, eba⟩ := key i j hij a b hh
  refine ⟨?_, ?_, ?_⟩
  · rw [eab]; exact bkNew_null _ _ _ _ _ _
  · intro hn
    rw [eab]
    unfold bkNew
    rw [if_neg]
    rcases hh with ⟨rfl, rfl⟩ | ⟨rfl, rfl⟩
    · exact hn
    · exact fun h => hn ⟨h.2, h.1⟩
  · intro ha hb
    unfold Arrow
    rw [eab, eba]
    have hne := ne_of_lt hij
    unfold bkNew bkDir
    rcases hh with ⟨rfl, rfl⟩ | ⟨rfl, rfl⟩
    · rw [if_pos ⟨ha, hb⟩]
      repeat' split
      all_goals simp only [Option.elim, oriented]
      all_goals grind
    · rw [if_pos ⟨hb, ha⟩]
      repeat' split
      all_goals simp only [Option.elim, oriented]
      all_goals grind

/-- `orient_by_background_knowledge` on any partially directed graph `G` whose ancestor matrix is sound (every graph the
skeleton phase returns is one): adjacencies are unchanged; edges that are not undirected are unchanged; no undirected edge
about which the knowledge says anything is left; an undirected edge becomes `a → b` only if `b → a` is forbidden or
`a → b` is required, and is turned into a forbidden direction only if both directions are forbidden. -/
theorem C18_orient_obeys_knowledge (k : Know n) (G : GG n) (hp : PD G)
    (hs : (∀ a, G.isAncestorOf a a = true) ∧ ∀ a b, G.isAncestorOf a b = true → G.DirPath a b) (a b : Fin n) :
    ((orientByBk k G).g a b = .null ↔ G.g a b = .null) ∧
    (¬ (G.g a b = .tail ∧ G.g b a = .tail) → (orientByBk k G).g a b = G.g a b) ∧
    ((orientByBk k G).g a b = .tail → (orientByBk k G).g b a = .tail → k.forb a b = false ∧ k.req a b = false) ∧
    (G.g a b = .tail → G.g b a = .tail → (orientByBk k G).Arrow a b →
      (k.forb b a = true ∨ k.req a b = true) ∧ (k.forb a b = true → k.forb b a = true)) := by
  have hs' : Sound G := by
    refine ⟨hs.1, fun a b h => ?_⟩
    refine ReflTransGen.mono ?_ _ _ (hs.2 a b h)
    intro x y hxy
    simp [isParentOf, hxy.1, hxy.2]
  obtain ⟨h1, h2, h3⟩ := orientByBk_cases (k := k) hp hs' a b
  obtain ⟨-, h2', -⟩ := orientByBk_cases (k := k) hp hs' b a
  refine ⟨h1, h2, ?_, ?_⟩
  · intro ha hb
    by_cases hu : G.g a b = .tail ∧ G.g b a = .tail
    · rcases h3 hu.1 hu.2 with h | ⟨h, -⟩ | ⟨h, -⟩
      · exact ⟨h.2.2.1, h.2.2.2.2.1⟩
      · rw [h.2] at hb; simp at hb
      · rw [h.2] at ha; simp at ha
    · rw [h2 hu] at ha
      rw [h2' (fun h => hu ⟨h.2, h.1⟩)] at hb
      exact absurd ⟨ha, hb⟩ hu
  · intro ha hb har
    rcases h3 ha hb with h | ⟨-, h⟩ | ⟨h, -⟩
    · rw [har.2] at h; simp at h
    · rcases h with h | ⟨h, h'⟩
      · exact ⟨Or.inl h, fun _ => h⟩
      · exact ⟨Or.inr h', fun hf => by rw [h] at hf; simp at hf⟩
    · have := har.1; rw [h.2] at this; simp at this

/-- A case that meets the hypotheses: the undirected edge 0 – 1 with `1 → 0` forbidden becomes `0 → 1`. -/
example : ∃ (k : Know 2), PD (GG.complete 2) ∧
    ((∀ a, (GG.complete 2).isAncestorOf a a = true) ∧
      ∀ a b, (GG.complete 2).isAncestorOf a b = true → (GG.complete 2).DirPath a b) ∧
    (orientByBk k (GG.complete 2)).Arrow 0 1 := by
  refine ⟨⟨fun a b => a == 1 && b == 0, fun _ _ => false⟩, complete_spec.1.pd, ⟨?_, ?_⟩, by decide⟩
  · intro a; unfold isAncestorOf; rw [complete_spec.2.2]; simp
  · intro a b h; unfold isAncestorOf at h; rw [complete_spec.2.2] at h; simp at h; rw [h]; exact ReflTransGen.refl

/-- knowledge that is true of `D` keeps the agreement with `D` -/
theorem PInv.orientByBk {D : Fin n → Fin n → Prop} {k : Know n} (hk : k.TrueOf D) {G : GG n} (h : PInv D G) (hs : Sound G) :
    PInv D (CL.orientByBk k G) ∧ Sound (CL.orientByBk k G) := by
  obtain ⟨h1, h2, -⟩ := orientByBk_spec (k := k) h.pd hs
  refine ⟨⟨h1, ?_, ?_⟩, h2⟩
  · intro a b
    rw [← h.adj a b]
    exact not_congr (orientByBk_cases (k := k) h.pd hs a b).1
  · intro a b hab
    obtain ⟨-, c2, c3⟩ := orientByBk_cases (k := k) h.pd hs b a
    by_cases hu : G.g b a = .tail ∧ G.g a b = .tail
    · have hadj : Adj D a b := (h.adj a b).1 (by rw [hu.2]; simp)
      rcases c3 hu.1 hu.2 with h | ⟨h, -⟩ | ⟨-, h⟩
      · rw [hab] at h; simp at h
      · rw [h.1] at hab; simp at hab
      · rcases h with h | h
        · exact hadj.resolve_right (hk.forb _ _ h)
        · exact hk.req _ _ h.2
    · rw [c2 hu] at hab; exact h.arrow a b hab

end CL
