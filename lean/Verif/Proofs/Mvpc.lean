import Verif.Model.Mvpc
import Verif.Props.PCComplete

/-!
# Lemmas for MVPC
-/
namespace CL
namespace Mvpc
open GG Relation Spec
variable {n : Nat} {P : Type} [LinearOrder P]

/-- `H` is `G` with some edges deleted, each of them declared independent by `ind` -/
structure Cut (ind : CI n) (G H : GG n) : Prop where
  pd : PD H
  sub : ∀ a b, H.g a b = .null ∨ H.g a b = G.g a b
  just : ∀ a b, G.g a b ≠ .null → H.g a b = .null → ∃ S, Ind2 ind a b S

theorem Cut.refl {ind : CI n} {G : GG n} (h : PD G) : Cut ind G G := ⟨h, fun _ _ => Or.inr rfl, fun _ _ h1 h2 => absurd h2 h1⟩

theorem Cut.edge {ind : CI n} {G H : GG n} (h : Cut ind G H) (a b : Fin n) (hab : H.g a b ≠ .null) : G.g a b ≠ .null := by
  rcases h.sub a b with e | e
  · exact absurd e hab
  · rw [← e]; exact hab

theorem Cut.trans {ind : CI n} {G H K : GG n} (h1 : Cut ind G H) (h2 : Cut ind H K) : Cut ind G K := by
  refine ⟨h2.pd, fun a b => ?_, fun a b hG hK => ?_⟩
  · rcases h2.sub a b with e | e
    · exact Or.inl e
    · rw [e]; exact h1.sub a b
  · by_cases hH : H.g a b = .null
    · exact h1.just a b hG hH
    · exact h2.just a b hH hK

theorem Cut.removeIf {ind : CI n} {G H : GG n} (h : Cut ind G H) {x y : Fin n} {S : List (Fin n)} (hS : Ind2 ind x y S) :
    Cut ind G (H.removeIfEdge x y) := by
  have hg := removeIfEdge_pd_g h.pd x y
  refine ⟨h.pd.of_cleared hg, fun a b => ?_, fun a b hG hn => ?_⟩
  · rw [hg]; unfold cleared
    split
    · exact Or.inl rfl
    · exact h.sub a b
  · rw [hg] at hn; unfold cleared at hn
    split at hn
    · rename_i hc
      rcases hc with ⟨rfl, rfl⟩ | ⟨rfl, rfl⟩
      · exact ⟨S, hS⟩
      · exact ⟨S, hS.symm⟩
    · exact h.just a b hG hn

/-- removing a list of pairs -/
theorem removeList_spec {ind : CI n} {G : GG n} (ps : List (Fin n × Fin n)) (hps : ∀ p ∈ ps, ∃ S, Ind2 ind p.1 p.2 S) :
    ∀ H : GG n, Cut ind G H → Sound H →
      Cut ind G (ps.foldl (fun G p => G.removeIfEdge p.1 p.2) H) ∧ Sound (ps.foldl (fun G p => G.removeIfEdge p.1 p.2) H) ∧
      ∀ a b, (ps.foldl (fun G p => G.removeIfEdge p.1 p.2) H).g a b =
        if (a, b) ∈ ps ∨ (b, a) ∈ ps then .null else H.g a b := by
  induction ps with
  | nil => intro H h hs; exact ⟨h, hs, by simp⟩
  | cons p ps ih =>
    intro H h hs
    obtain ⟨S, hS⟩ := hps p (by simp)
    obtain ⟨h1, h2, h3⟩ := ih (fun q hq => hps q (by simp [hq])) (H.removeIfEdge p.1 p.2) (h.removeIf hS) (hs.removeIfEdge _ _)
    refine ⟨h1, h2, fun a b => ?_⟩
    rw [List.foldl_cons, h3, removeIfEdge_pd_g h.pd]
    unfold cleared
    obtain ⟨p1, p2⟩ := p
    simp only [List.mem_cons, Prod.mk.injEq]
    by_cases c1 : (a, b) ∈ ps ∨ (b, a) ∈ ps
    · rw [if_pos c1, if_pos (by tauto)]
    · rw [if_neg c1]
      by_cases c2 : (a = p1 ∧ b = p2) ∨ (a = p2 ∧ b = p1)
      · rw [if_pos c2, if_pos (by tauto)]
      · rw [if_neg c2, if_neg (by tauto)]

/-- the test's combination, spelled out -/
theorem find_ind2 {ind : CI n} {G : GG n} (hp : PD G) {x y : Fin n} {d : Nat} {S : List (Fin n)}
    (h : (combos ((G.neighbors x).filter (· ≠ y)) d).find? (ind x y) = some S) : Ind2 ind x y S := by
  refine ind2_of_combo (nx := G.neighbors x) (d := d) ?_ (nodup_neighbors _ _) (List.mem_of_find?_eq_some h) (List.find?_some h)
  rw [mem_neighbors]; simp [hp.diag]

/-- invariant inside one depth: `G` is the graph of the whole run's start, `G0` the graph at the start of the depth -/
structure DInv (ind : CI n) (G : GG n) (st : SkSt n) : Prop where
  cut : Cut ind G st.G
  snd : Sound st.G
  rem : ∀ p ∈ st.rem, ∃ S, Ind2 ind p.1 p.2 S
  remSymm : ∀ a b, (a, b) ∈ st.rem → (b, a) ∈ st.rem

theorem corrPair_inv {stable : Bool} {ind : CI n} {d : Nat} {G : GG n} {st : SkSt n} (h : DInv ind G st) (p : Fin n × Fin n) :
    DInv ind G (corrPair stable ind d st p) ∧
    (∀ a b, (corrPair stable ind d st p).G.g a b ≠ .null → st.G.g a b ≠ .null) ∧ (∀ q ∈ st.rem, q ∈ (corrPair stable ind d st p).rem) ∧
    (stable = true → (corrPair stable ind d st p).G = st.G) := by
  unfold corrPair
  split
  · exact ⟨h, fun _ _ h => h, fun _ h => h, fun _ => rfl⟩
  · rename_i hne
    split
    · exact ⟨h, fun _ _ h => h, fun _ h => h, fun _ => rfl⟩
    · rename_i S hS
      have hI := find_ind2 h.cut.pd hS
      split
      · refine ⟨⟨h.cut, h.snd, ?_, ?_⟩, fun _ _ h => h, fun q hq => by simp [hq], fun _ => rfl⟩
        · intro q hq
          rcases List.mem_append.1 hq with hq | hq
          · exact h.rem q hq
          · simp at hq
            rcases hq with rfl | rfl
            · exact ⟨S, hI⟩
            · exact ⟨S, hI.symm⟩
        · intro a b hab
          have := h.remSymm a b
          simp only [List.mem_append, List.mem_cons, Prod.mk.injEq, List.not_mem_nil, or_false] at hab ⊢
          tauto
      · rename_i hst
        have h1 := (h.cut.removeIf hI).removeIf hI.symm
        refine ⟨⟨h1, (h.snd.removeIfEdge _ _).removeIfEdge _ _, h.rem, h.remSymm⟩, ?_, fun q hq => hq, fun e => absurd e hst⟩
        intro a b hab
        have hp1 := h.cut.pd.of_cleared (removeIfEdge_pd_g h.cut.pd p.1 p.2)
        rw [removeIfEdge_pd_g hp1, removeIfEdge_pd_g h.cut.pd] at hab
        unfold cleared at hab
        grind

/-- a surviving pair has passed its tests of size `d` -/
def Passed (ind : CI n) (d : Nat) (G : GG n) (x y : Fin n) : Prop :=
  G.g x y ≠ .null → ∀ S, S.Sublist ((G.neighbors x).filter (· ≠ y)) → S.length = d → ind x y S = false

theorem Passed.mono {ind : CI n} {d : Nat} {G H : GG n} {x y : Fin n} (h : Passed ind d G x y)
    (hs : ∀ a b, H.g a b ≠ .null → G.g a b ≠ .null) : Passed ind d H x y := by
  intro hxy S hS hl
  exact h (hs x y hxy) S (hS.trans ((neighbors_sublist hs x).filter _)) hl

theorem corrPair_passed {stable : Bool} {ind : CI n} {d : Nat} {G : GG n} {st : SkSt n} (h : DInv ind G st) (p : Fin n × Fin n) :
    (stable = true ∧ p ∈ (corrPair stable ind d st p).rem) ∨ Passed ind d (corrPair stable ind d st p).G p.1 p.2 := by
  unfold corrPair
  split
  · rename_i hn
    exact Or.inr fun hc => absurd hn hc
  · split
    · rename_i hnone
      right
      intro _ S hS hl
      rw [List.find?_eq_none] at hnone
      have := hnone S ((combos_mem _ _ _).2 ⟨hS, hl⟩)
      simpa using this
    · split
      · rename_i hst
        left
        exact ⟨hst, by simp⟩
      · right
        intro hc
        exfalso
        apply hc
        have hp1 := h.cut.pd.of_cleared (removeIfEdge_pd_g h.cut.pd p.1 p.2)
        show ((st.G.removeIfEdge p.1 p.2).removeIfEdge p.2 p.1).g p.1 p.2 = .null
        rw [removeIfEdge_pd_g hp1]
        unfold cleared
        simp

theorem corrFold_inv {stable : Bool} {ind : CI n} {d : Nat} {G : GG n} (ps : List (Fin n × Fin n)) : ∀ st : SkSt n, DInv ind G st →
    DInv ind G (ps.foldl (corrPair stable ind d) st) ∧
    (∀ a b, (ps.foldl (corrPair stable ind d) st).G.g a b ≠ .null → st.G.g a b ≠ .null) ∧
    (∀ q ∈ st.rem, q ∈ (ps.foldl (corrPair stable ind d) st).rem) ∧
    ∀ p ∈ ps, (stable = true ∧ p ∈ (ps.foldl (corrPair stable ind d) st).rem) ∨
      Passed ind d (ps.foldl (corrPair stable ind d) st).G p.1 p.2 := by
  induction ps with
  | nil => intro st h; exact ⟨h, fun _ _ h => h, fun _ h => h, by simp⟩
  | cons p ps ih =>
    intro st h
    obtain ⟨a1, a2, a3, -⟩ := corrPair_inv (stable := stable) (d := d) h p
    obtain ⟨i1, i2, i3, i4⟩ := ih _ a1
    refine ⟨i1, fun a b hab => a2 a b (i2 a b hab), fun q hq => i3 q (a3 q hq), ?_⟩
    intro q hq
    rcases List.mem_cons.1 hq with rfl | hq
    · rcases corrPair_passed (stable := stable) (d := d) h q with ⟨e1, e2⟩ | e
      · exact Or.inl ⟨e1, i3 _ e2⟩
      · exact Or.inr (e.mono i2)
    · exact i4 q hq

theorem corrDepth_spec {stable : Bool} {ind : CI n} {d : Nat} {G : GG n} (ps : List (Fin n × Fin n)) (s : GG n × Sep n)
    (hc : Cut ind G s.1) (hs : Sound s.1) :
    Cut ind G (corrDepth stable ind ps d s).1 ∧ Sound (corrDepth stable ind ps d s).1 ∧
    (∀ a b, (corrDepth stable ind ps d s).1.g a b ≠ .null → s.1.g a b ≠ .null) ∧
    ∀ p ∈ ps, Passed ind d (corrDepth stable ind ps d s).1 p.1 p.2 := by
  obtain ⟨h1, h2, h3, h4⟩ := corrFold_inv (stable := stable) (d := d) ps ⟨s.1, s.2, []⟩ ⟨hc, hs, by simp, by simp⟩
  unfold corrDepth
  dsimp only
  generalize ps.foldl (corrPair stable ind d) ⟨s.1, s.2, []⟩ = st at h1 h2 h3 h4
  obtain ⟨r1, r2, r3⟩ := removeList_spec st.rem h1.rem st.G h1.cut h1.snd
  have hsub : ∀ a b, (st.rem.foldl (fun G p => G.removeIfEdge p.1 p.2) st.G).g a b ≠ .null → st.G.g a b ≠ .null := by
    intro a b hab
    rw [r3] at hab
    split at hab
    · exact absurd rfl hab
    · exact hab
  refine ⟨r1, r2, fun a b hab => h2 a b (hsub a b hab), fun p hp => ?_⟩
  rcases h4 p hp with ⟨-, hr⟩ | hpass
  · intro hc
    rw [r3, if_pos (Or.inl hr)] at hc
    exact absurd rfl hc
  · exact hpass.mono hsub

theorem corrLoop_spec {stable : Bool} {ind : CI n} {G : GG n} (ps : List (Fin n × Fin n)) (f d : Nat) (s : GG n × Sep n)
    (hf : n < f + d) (hf0 : 0 < f) (hc : Cut ind G s.1) (hs : Sound s.1) (hp : ∀ e < d, ∀ p ∈ ps, Passed ind e s.1 p.1 p.2) :
    ∃ r, corrLoop stable ind ps f d s = some r ∧ Cut ind G r.1 ∧ Sound r.1 ∧ ∀ e, ∀ p ∈ ps, Passed ind e r.1 p.1 p.2 := by
  induction f generalizing d s with
  | zero => omega
  | succ f ih =>
    rw [corrLoop]
    by_cases hd : d < s.1.maxDegree
    · rw [if_pos hd]
      have hn := maxDegree_le_n s.1
      obtain ⟨a1, a2, a3, a4⟩ := corrDepth_spec (stable := stable) (d := d) ps s hc hs
      apply ih (d + 1) _ (by omega) (by omega) a1 a2
      intro e he p hp'
      rcases Nat.lt_succ_iff_lt_or_eq.1 he with he | rfl
      · exact (hp e he p hp').mono a3
      · exact a4 p hp'
    · rw [if_neg hd]
      refine ⟨s, rfl, hc, hs, fun e p hp' => ?_⟩
      by_cases he : e < d
      · exact hp e he p hp'
      · intro hxy S hS hl
        have h1 := length_of_sub hxy hS
        have h2 := length_neighbors_le s.1 p.1
        omega

/-- a remaining edge cannot be separated by any subset of the remaining neighbours -/
theorem passed_all {ind : CI n} (hset : SetBased ind) {G : GG n} (hp : PD G) {x y : Fin n} (h : ∀ e, Passed ind e G x y)
    (hxy : G.g x y ≠ .null) (S : List (Fin n)) (hnd : S.Nodup) (hS : ∀ z ∈ S, G.g x z ≠ .null ∧ z ≠ y) : ind x y S = false := by
  let T := ((G.neighbors x).filter (· ≠ y)).filter (· ∈ S)
  have hT : ∀ z, z ∈ T ↔ z ∈ S := by
    intro z
    simp only [T, List.mem_filter, mem_neighbors, decide_eq_true_eq]
    constructor
    · exact fun h => h.2
    · exact fun h => ⟨⟨(hS z h).1, (hS z h).2⟩, h⟩
  have hne : x ≠ y := by rintro rfl; exact hxy (hp.diag x)
  rw [hset x y S T hne hnd (((nodup_neighbors _ _).filter _).filter _)
    (fun hz => (hS x hz).1 (hp.diag x)) (fun hz => (hS y hz).2 rfl) (fun z => (hT z).symm)]
  exact h T.length hxy T List.filter_sublist rfl

end Mvpc
end CL

namespace CL
namespace Mvpc
open GG Relation Spec
variable {n : Nat} {P : Type} [LinearOrder P]

/-! ### separating sets, stable mode -/

theorem SepSound.mono {i1 i2 : CI n} (h : ∀ x y S, Ind2 i1 x y S → Ind2 i2 x y S) {sep : Sep n} (hs : SepSound i1 sep) : SepSound i2 sep := by
  intro x y L hL S hS z hz
  obtain ⟨S', h1, h2⟩ := hs x y L hL S hS z hz
  exact ⟨S', h1, h _ _ _ h2⟩

theorem SepGood.mono {i1 i2 : CI n} (h : ∀ x y S, Ind2 i1 x y S → Ind2 i2 x y S) {k : Know n} {sep : Sep n} {x y : Fin n}
    (hs : SepGood i1 k sep x y) : SepGood i2 k sep x y := by
  obtain ⟨L, h1, h2⟩ := hs
  refine ⟨L, h1, h2.imp_left ?_⟩
  rintro ⟨S, hS, S', h3, h4⟩
  exact ⟨S, hS, S', h3, h _ _ _ h4⟩

structure SInv (ind : CI n) (k : Know n) (st : SkSt n) : Prop where
  pd : PD st.G
  symm : SepSymm st.sep
  sound : SepSound ind st.sep
  good : ∀ a b, a ≠ b → (st.G.g a b = .null ∨ (a, b) ∈ st.rem) → SepGood ind k st.sep a b
  remSymm : ∀ a b, (a, b) ∈ st.rem → (b, a) ∈ st.rem

theorem corrPair_sep {i1 i2 : CI n} (hm : ∀ x y S, Ind2 i1 x y S → Ind2 i2 x y S) {k : Know n} {d : Nat} {st : SkSt n} (h : SInv i2 k st)
    (p : Fin n × Fin n) : SInv i2 k (corrPair true i1 d st p) := by
  unfold corrPair
  split
  · exact h
  · rename_i hne
    split
    · exact h
    · rename_i S hS
      have hI := hm _ _ _ (find_ind2 h.pd hS)
      have hxy : p.1 ≠ p.2 := fun e => hne (e ▸ h.pd.diag p.1)
      rw [if_pos rfl]
      obtain ⟨g1, g2⟩ := appendBoth_good_new (k := k) hxy h.symm S (Or.inl ⟨S, List.Subset.refl _, hI⟩)
      refine ⟨h.pd, appendBoth_symm hxy h.symm S, appendBoth_sound hxy h.symm h.sound S fun z hz => ⟨S, hz, hI⟩, ?_, ?_⟩
      · intro a b hab hor
        by_cases hc : st.G.g a b = .null ∨ (a, b) ∈ st.rem
        · exact appendBoth_good_old hxy h.symm S (h.good a b hab hc)
        · have : (a = p.1 ∧ b = p.2) ∨ (a = p.2 ∧ b = p.1) := by
            simp only [List.mem_append, List.mem_cons, Prod.mk.injEq, List.not_mem_nil, or_false] at hor
            tauto
          rcases this with ⟨rfl, rfl⟩ | ⟨rfl, rfl⟩
          · exact g1
          · exact g2
      · intro a b hab
        have := h.remSymm a b
        simp only [List.mem_append, List.mem_cons, Prod.mk.injEq, List.not_mem_nil, or_false] at hab ⊢
        tauto

theorem corrDepth_sep {i1 i2 : CI n} (hm : ∀ x y S, Ind2 i1 x y S → Ind2 i2 x y S) {k : Know n} {d : Nat} (ps : List (Fin n × Fin n))
    {G : GG n} (s : GG n × Sep n) (hc : Cut i1 G s.1) (hs : Sound s.1) (h : SInv i2 k ⟨s.1, s.2, []⟩) :
    SInv i2 k ⟨(corrDepth true i1 ps d s).1, (corrDepth true i1 ps d s).2, []⟩ := by
  have h1 : SInv i2 k (ps.foldl (corrPair true i1 d) ⟨s.1, s.2, []⟩) := by
    have : ∀ (ps : List (Fin n × Fin n)) (st : SkSt n), SInv i2 k st → SInv i2 k (ps.foldl (corrPair true i1 d) st) := by
      intro ps
      induction ps with
      | nil => intro st h; exact h
      | cons p ps ih => intro st h; exact ih _ (corrPair_sep hm h p)
    exact this ps _ h
  obtain ⟨c1, -, -, -⟩ := corrFold_inv (stable := true) (d := d) ps ⟨s.1, s.2, []⟩ ⟨hc, hs, by simp, by simp⟩
  unfold corrDepth
  dsimp only
  generalize ps.foldl (corrPair true i1 d) ⟨s.1, s.2, []⟩ = st at h1 c1
  obtain ⟨r1, r2, r3⟩ := removeList_spec st.rem c1.rem st.G c1.cut c1.snd
  refine ⟨r1.pd, h1.symm, h1.sound, ?_, by simp⟩
  intro a b hab hor
  have hn : (st.rem.foldl (fun G p => G.removeIfEdge p.1 p.2) st.G).g a b = .null := by simpa using hor
  rw [r3] at hn
  apply h1.good a b hab
  split at hn
  · rename_i hc'
    exact Or.inr (hc'.elim id (h1.remSymm _ _))
  · exact Or.inl hn

theorem corrLoop_sep {i1 i2 : CI n} (hm : ∀ x y S, Ind2 i1 x y S → Ind2 i2 x y S) {k : Know n} (ps : List (Fin n × Fin n)) {G : GG n}
    (f d : Nat) (s r : GG n × Sep n) (hc : Cut i1 G s.1) (hs : Sound s.1) (h : SInv i2 k ⟨s.1, s.2, []⟩)
    (he : corrLoop true i1 ps f d s = some r) : SInv i2 k ⟨r.1, r.2, []⟩ := by
  induction f generalizing d s with
  | zero => simp [corrLoop] at he
  | succ f ih =>
    rw [corrLoop] at he
    split at he
    · obtain ⟨a1, a2, -, -⟩ := corrDepth_spec (stable := true) (d := d) ps s hc hs
      exact ih (d + 1) _ a1 a2 (corrDepth_sep hm ps s hc hs h) he
    · cases he; exact h

/-- d-separation as a CI decision (equal variables: whatever) -/
noncomputable def dsepCI (D : Fin n → Fin n → Prop) : CI n := fun x y S => by
  classical exact decide (x ≠ y → DSep D {z | z ∈ S} x y)

theorem dsepCI_iff (D : Fin n → Fin n → Prop) {x y : Fin n} (hne : x ≠ y) (S : List (Fin n)) :
    dsepCI D x y S = true ↔ DSep D {z | z ∈ S} x y := by
  unfold dsepCI
  simp [hne]

/-- independences reported by the test are d-separations -/
def TrueIndep (D : Fin n → Fin n → Prop) (ind : CI n) : Prop :=
  ∀ x y (S : List (Fin n)), x ≠ y → S.Nodup → x ∉ S → y ∉ S → ind x y S = true → DSep D {z | z ∈ S} x y

theorem TrueIndep.ind2 {D : Fin n → Fin n → Prop} {ind : CI n} (h : TrueIndep D ind) (x y : Fin n) (S : List (Fin n))
    (hi : Ind2 ind x y S) : Ind2 (dsepCI D) x y S := by
  obtain ⟨h1, h2, h3, h4⟩ := hi
  refine ⟨h1, h2, h3, ?_⟩
  by_cases hne : x = y
  · left; unfold dsepCI; simp [hne]
  · rcases h4 with h4 | h4
    · left; exact (dsepCI_iff D hne S).2 (h x y S hne h1 h2 h3 h4)
    · right; exact (dsepCI_iff D (Ne.symm hne) S).2 (h y x S (Ne.symm hne) h1 h3 h2 h4)

theorem DSepOracle.trueIndep {D : Fin n → Fin n → Prop} {ind : CI n} (h : DSepOracle D ind) : TrueIndep D ind :=
  fun x y S a b c d e => (h x y S a b c d).1 e

theorem ind2_dsep {D : Fin n → Fin n → Prop} {x y : Fin n} (hne : x ≠ y) {S : List (Fin n)} (h : Ind2 (dsepCI D) x y S) :
    DSep D {z | z ∈ S} x y := by
  rcases h.2.2.2 with h | h
  · exact (dsepCI_iff D hne S).1 h
  · exact dSep_symm.1 ((dsepCI_iff D hne.symm S).1 h)

theorem sepAvoids_iff {D : Fin n → Fin n → Prop} (hac : Acyclic D) {k : Know n} (hban : ∀ a b, ¬ (k.forb a b = true ∧ k.forb b a = true))
    {sep : Sep n} (hs : SepSound (dsepCI D) sep) {x y z : Fin n} (hne : x ≠ z) (hxy : Adj D x y) (hzy : Adj D z y)
    (hg : SepGood (dsepCI D) k sep x z) : sepAvoids sep (x, y, z) = true ↔ Collider D x y z := by
  obtain ⟨L, hL, hg⟩ := hg
  have hL1 : sepAvoids sep (x, y, z) = true ↔ ∀ S ∈ L, y ∉ S := by
    unfold sepAvoids; dsimp only; rw [hL]; simp
  have h1 := hac.ne_of_adj hxy
  have h2 := (hac.ne_of_adj hzy).symm
  rw [hL1]
  constructor
  · intro ha
    rcases hg with ⟨S, hS, S', hsub, hS'⟩ | hb
    · by_contra hc
      exact ha S hS (hsub (noncollider_mem (Z := {p | p ∈ S'}) h1 h2 hne hxy hzy.symm hc (ind2_dsep hne hS')))
    · simp only [Know.ban, Bool.and_eq_true] at hb
      exact absurd hb (hban x z)
  · intro hc S hS hy
    obtain ⟨S', hyS', hS'⟩ := hs x z L hL S hS y hy
    exact collider_not_mem (Z := {p | p ∈ S'}) h1 h2 hne hc (ind2_dsep hne hS') hyS'

theorem mem_allPairs2 (x y : Fin n) : (x, y) ∈ perm2 (List.finRange n) ↔ x ≠ y := by
  rw [mem_perm2]; simp [List.mem_finRange, ne_comm]

/-- the correction pass with an oracle, from any partially directed supergraph -/
theorem correction_oracle {D : Fin n → Fin n → Prop} (hac : Acyclic D) {ind : CI n} (ho : DSepOracle D ind) (stable : Bool)
    (s : GG n × Sep n) (hpd : PD s.1) (hs : Sound s.1) (hsup : ∀ a b, Adj D a b → s.1.g a b ≠ .null) :
    ∃ r, skeletonCorrection stable ind s = some r ∧ PD r.1 ∧ Sound r.1 ∧ (∀ a b, r.1.g a b ≠ .null ↔ Adj D a b) ∧
      (∀ a b, r.1.g a b = .null ∨ r.1.g a b = s.1.g a b) ∧
      ∀ k, stable = true → SInv (dsepCI D) k ⟨s.1, s.2, []⟩ → SInv (dsepCI D) k ⟨r.1, r.2, []⟩ := by
  classical
  obtain ⟨r, h1, h2, h3, h4⟩ := corrLoop_spec (stable := stable) (perm2 (List.finRange n)) (n + 1) 0 s (by omega) (by omega)
    (Cut.refl hpd) hs (by intro e he; omega) (ind := ind)
  have hback : ∀ a b, Adj D a b → r.1.g a b ≠ .null := by
    intro a b hab hn
    obtain ⟨S, hS⟩ := h2.just a b (hsup a b hab) hn
    have hne := hac.ne_of_adj hab
    exact ind2_dsep hne ((DSepOracle.trueIndep ho).ind2 a b S hS) (dConn_of_adj hne hab)
  refine ⟨r, h1, h2.pd, h3, fun a b => ⟨fun he => ?_, hback a b⟩, h2.sub, fun k hst hS => ?_⟩
  · by_contra hn
    have hne : a ≠ b := by rintro rfl; exact he (h2.pd.diag a)
    have he' : r.1.g b a ≠ .null := fun hc => he (h2.pd.symm _ _ hc)
    have key : ∀ v w : Fin n, v ≠ w → ¬ Adj D v w → r.1.g v w ≠ .null → DSep D {p | D p v} v w → False := by
      intro v w hvw hna hvw' hs
      have hm : ∀ p, p ∈ (List.finRange n).filter (fun p => decide (D p v)) ↔ D p v := by
        intro p; simp
      have hnd : ((List.finRange n).filter (fun p => decide (D p v))).Nodup := (List.nodup_finRange n).filter _
      have h5 := passed_all ho.setBased h2.pd (fun e => h4 e (v, w) ((mem_allPairs2 v w).2 hvw)) hvw' _ hnd
        (fun z hz => ⟨hback v z (Or.inr ((hm z).1 hz)), by rintro rfl; exact hna (Or.inr ((hm z).1 hz))⟩)
      have h6 := (ho v w _ hvw hnd (fun hv => hac.irrefl _ ((hm v).1 hv)) (fun hw => hna (Or.inr ((hm w).1 hw)))).2 (by
        convert hs using 1
        ext p; exact hm p)
      rw [h5] at h6; simp at h6
    rcases exists_parents_sep hac hne hn with hs | hs
    · exact key a b hne hn he hs
    · exact key b a hne.symm (fun h => hn h.symm) he' (dSep_symm.1 hs)
  · subst hst
    exact corrLoop_sep (fun x y S h => (DSepOracle.trueIndep ho).ind2 x y S h) _ (n + 1) 0 s r (Cut.refl hpd) hs hS h1

end Mvpc
end CL
