import Verif.Model.ExactSearch
import Verif.Proofs.Skeleton

/-!
# Parent graphs: sortedness and optimality of queries
-/
namespace CL
namespace Exact
variable {d : Nat} {K : Type} [AddCommGroup K] [LinearOrder K] [IsOrderedAddMonoid K]

/-- what the construction maintains: sorted, scores right, structures admissible, and every set in `done` is covered -/
structure PGInv (score : Finset (Fin d) → K) (adm done : Finset (Fin d) → Prop) (pg : PG d K) : Prop where
  sorted : pg.Pairwise fun a b => a.2 ≤ b.2
  sc : ∀ e ∈ pg, e.2 = score e.1 ∧ adm e.1
  cover : ∀ S, done S → ∃ e ∈ pg, e.1 ⊆ S ∧ e.2 ≤ score S

theorem mem_insort {pg : PG d K} {S : Finset (Fin d)} {s : K} {e : Finset (Fin d) × K} :
    e ∈ insort pg S s ↔ e = (S, s) ∨ e ∈ pg := by
  unfold insort
  conv_rhs => rw [← List.takeWhile_append_dropWhile (p := fun e : Finset (Fin d) × K => decide (e.2 < s)) (l := pg)]
  simp only [List.mem_append, List.mem_cons]
  tauto

theorem insort_sorted {pg : PG d K} (h : pg.Pairwise fun a b => a.2 ≤ b.2) (S : Finset (Fin d)) (s : K) :
    (insort pg S s).Pairwise fun a b => a.2 ≤ b.2 := by
  unfold insort
  induction pg with
  | nil => simp
  | cons a pg ih =>
    obtain ⟨h1, h2⟩ := List.pairwise_cons.1 h
    by_cases hs : a.2 < s
    · rw [List.takeWhile_cons_of_pos (by simp [hs]), List.dropWhile_cons_of_pos (by simp [hs]), List.cons_append,
        List.pairwise_cons]
      refine ⟨fun b hb => ?_, ih h2⟩
      have : b ∈ insort pg S s := hb
      rcases mem_insort.1 this with rfl | hb
      · exact le_of_lt hs
      · exact h1 b hb
    · rw [List.takeWhile_cons_of_neg (by simp [hs]), List.dropWhile_cons_of_neg (by simp [hs]), List.nil_append,
        List.pairwise_cons]
      refine ⟨fun b hb => ?_, h⟩
      rcases List.mem_cons.1 hb with rfl | hb
      · exact not_lt.1 hs
      · exact le_trans (not_lt.1 hs) (h1 b hb)

/-- the specification of a query on a sorted list -/
theorem query_spec {pg : PG d K} (h : pg.Pairwise fun a b => a.2 ≤ b.2) (U : Finset (Fin d)) :
    ((query pg U) = (none, ⊤) ∧ ∀ e ∈ pg, ¬ e.1 ⊆ U) ∨
    (∃ e ∈ pg, query pg U = (some e.1, (e.2 : WithTop K)) ∧ e.1 ⊆ U ∧ ∀ e' ∈ pg, e'.1 ⊆ U → e.2 ≤ e'.2) := by
  unfold query
  induction pg with
  | nil => left; simp
  | cons a pg ih =>
    obtain ⟨h1, h2⟩ := List.pairwise_cons.1 h
    by_cases ha : a.1 ⊆ U
    · right
      refine ⟨a, by simp, by simp [ha], ha, fun e' he' _ => ?_⟩
      rcases List.mem_cons.1 he' with rfl | he'
      · exact le_refl _
      · exact h1 e' he'
    · rw [List.find?_cons_of_neg (by simp [ha])]
      rcases ih h2 with ⟨e1, e2⟩ | ⟨e, e1, e2, e3, e4⟩
      · left
        refine ⟨e1, fun e he => ?_⟩
        rcases List.mem_cons.1 he with rfl | he
        · exact ha
        · exact e2 e he
      · right
        refine ⟨e, by simp [e1], e2, e3, fun e' he' hU => ?_⟩
        rcases List.mem_cons.1 he' with rfl | he'
        · exact absurd hU ha
        · exact e4 e' he' hU

theorem query_le {pg : PG d K} (h : pg.Pairwise fun a b => a.2 ≤ b.2) {U : Finset (Fin d)} {e : Finset (Fin d) × K}
    (he : e ∈ pg) (hU : e.1 ⊆ U) : (query pg U).2 ≤ (e.2 : WithTop K) := by
  rcases query_spec h U with ⟨h1, h2⟩ | ⟨e', h1, h2, h3, h4⟩
  · exact absurd hU (h2 e he)
  · rw [h2]; exact WithTop.coe_le_coe.2 (h4 e he hU)

theorem query_mono {pg : PG d K} (h : pg.Pairwise fun a b => a.2 ≤ b.2) {U V : Finset (Fin d)} (hUV : U ⊆ V) :
    (query pg V).2 ≤ (query pg U).2 := by
  rcases query_spec h U with ⟨h1, -⟩ | ⟨e', h1, h2, h3, -⟩
  · rw [h1]; exact le_top
  · rw [h2]; exact query_le h h1 (h3.trans hUV)

theorem headScore_le {pg : PG d K} (h : pg.Pairwise fun a b => a.2 ≤ b.2) (U : Finset (Fin d)) :
    headScore pg ≤ (query pg U).2 := by
  rcases query_spec h U with ⟨h1, -⟩ | ⟨e, h1, h2, h3, -⟩
  · rw [h1]; exact le_top
  · rw [h2]
    cases pg with
    | nil => simp at h1
    | cons a pg =>
      simp only [headScore, List.head?_cons, Option.elim]
      rcases List.mem_cons.1 h1 with rfl | h1
      · exact le_refl _
      · exact WithTop.coe_le_coe.2 ((List.pairwise_cons.1 h).1 e h1)

theorem headIn_query {pg : PG d K} {U : Finset (Fin d)} (hU : headIn pg U = true) : (query pg U).2 = headScore pg := by
  cases pg with
  | nil => simp [headIn] at hU
  | cons a pg =>
    simp only [headIn, List.head?_cons, Option.elim, decide_eq_true_eq] at hU
    simp [query, headScore, hU]

theorem PGInv.insort {score : Finset (Fin d) → K} {adm done : Finset (Fin d) → Prop} {pg : PG d K}
    (h : PGInv score adm done pg) {S : Finset (Fin d)} (hS : adm S) :
    PGInv score adm (fun T => done T ∨ T = S) (insort pg S (score S)) := by
  refine ⟨insort_sorted h.sorted S _, fun e he => ?_, fun T hT => ?_⟩
  · rcases mem_insort.1 he with rfl | he
    · exact ⟨rfl, hS⟩
    · exact h.sc e he
  · rcases hT with hT | rfl
    · obtain ⟨e, h1, h2⟩ := h.cover T hT
      exact ⟨e, mem_insort.2 (Or.inr h1), h2⟩
    · exact ⟨(T, score T), mem_insort.2 (Or.inl rfl), Finset.Subset.refl _, le_refl _⟩

theorem PGInv.tryStructure {score : Finset (Fin d) → K} {adm done : Finset (Fin d) → Prop} {pg : PG d K}
    (h : PGInv score adm done pg) {incl : Finset (Fin d)} {l : List (Fin d)} (hl : incl ⊆ l.toFinset → adm l.toFinset) :
    PGInv score adm (fun T => done T ∨ (T = l.toFinset ∧ incl ⊆ l.toFinset)) (tryStructure score incl pg l) := by
  unfold CL.Exact.tryStructure
  split
  · rename_i hi
    split
    · rename_i hany
      refine ⟨h.sorted, h.sc, fun T hT => ?_⟩
      rcases hT with hT | ⟨rfl, -⟩
      · exact h.cover T hT
      · simp only [List.any_eq_true, decide_eq_true_eq] at hany
        obtain ⟨v, hv, hlt⟩ := hany
        rcases query_spec h.sorted (l.toFinset.erase v) with ⟨h1, -⟩ | ⟨e, h1, h2, h3, -⟩
        · rw [h1] at hlt; simp at hlt
        · rw [h2] at hlt
          exact ⟨e, h1, h3.trans (Finset.erase_subset _ _), le_of_lt (WithTop.coe_lt_coe.1 hlt)⟩
    · have := h.insort (hl hi)
      exact ⟨this.sorted, this.sc, fun T hT => this.cover T (hT.imp_right And.left)⟩
  · rename_i hi
    refine ⟨h.sorted, h.sc, fun T hT => h.cover T ?_⟩
    rcases hT with hT | ⟨-, h2⟩
    · exact hT
    · exact absurd h2 hi

theorem PGInv.congr {score : Finset (Fin d) → K} {adm done done' : Finset (Fin d) → Prop} {pg : PG d K}
    (h : PGInv score adm done pg) (hd : ∀ S, done' S → done S) : PGInv score adm done' pg :=
  ⟨h.sorted, h.sc, fun S hS => h.cover S (hd S hS)⟩

/-- Admissible parent sets: drawn from the candidates, within the bound, containing the required ones. -/
def Adm (ps : List (Fin d)) (maxPar : Nat) (incl S : Finset (Fin d)) : Prop :=
  (∀ v ∈ S, v ∈ ps) ∧ S.card ≤ maxPar ∧ incl ⊆ S

theorem PGInv.layer {score : Finset (Fin d) → K} {maxPar : Nat} {ps : List (Fin d)} (hps : ps.Nodup)
    {incl : Finset (Fin d)} {pg : PG d K} {j : Nat}
    (h : PGInv score (Adm ps maxPar incl) (fun S => Adm ps maxPar incl S ∧ S.card < j) pg) :
    PGInv score (Adm ps maxPar incl) (fun S => Adm ps maxPar incl S ∧ S.card < j + 1)
      (parentLayer score maxPar ps incl pg j) := by
  unfold parentLayer
  split
  · rename_i hj
    subst hj
    split
    · rename_i hc
      refine h.congr fun S hS => ?_
      have : S = ∅ := Finset.card_eq_zero.1 (by omega)
      subst this
      have := Finset.card_le_card hS.1.2.2
      simp at this; simp [this] at hc
    · rename_i hc
      have hi : incl = ∅ := Finset.card_eq_zero.1 (by omega)
      refine (h.insort (S := ∅) ⟨by simp, by simp, by simp [hi]⟩).congr fun S hS => Or.inr (Finset.card_eq_zero.1 (by omega))
  · split
    · rename_i hj hm
      have key : ∀ (L : List (List (Fin d))), (∀ l ∈ L, l.Sublist ps ∧ l.length = j) → ∀ (done : Finset (Fin d) → Prop) (pg : PG d K),
          PGInv score (Adm ps maxPar incl) done pg →
          PGInv score (Adm ps maxPar incl) (fun T => done T ∨ ∃ l ∈ L, T = l.toFinset ∧ incl ⊆ l.toFinset)
            (L.foldl (CL.Exact.tryStructure score incl) pg) := by
        intro L
        induction L with
        | nil => intro _ done pg hpg; exact hpg.congr fun S hS => by simpa using hS
        | cons l L ih =>
          intro hL done pg hpg
          obtain ⟨hl1, hl2⟩ := hL l (by simp)
          have hadm : incl ⊆ l.toFinset → Adm ps maxPar incl l.toFinset := fun hi =>
            ⟨fun v hv => hl1.subset (List.mem_toFinset.1 hv), by
              rw [List.toFinset_card_of_nodup (hl1.nodup hps)]; omega, hi⟩
          refine (ih (fun l' hl' => hL l' (by simp [hl'])) _ _ (hpg.tryStructure hadm)).congr fun S hS => ?_
          rcases hS with hS | ⟨l', hl', hS⟩
          · exact Or.inl (Or.inl hS)
          · rcases List.mem_cons.1 hl' with rfl | hl'
            · exact Or.inl (Or.inr hS)
            · exact Or.inr ⟨l', hl', hS⟩
      refine (key (combos ps j) (fun l hl => (combos_mem _ _ _).1 hl) _ pg h).congr fun S hS => ?_
      by_cases hc : S.card < j
      · exact Or.inl ⟨hS.1, hc⟩
      · right
        have hf : (ps.filter (· ∈ S)).toFinset = S := by
          ext v; simp only [List.mem_toFinset, List.mem_filter, decide_eq_true_eq]
          exact ⟨fun h => h.2, fun h => ⟨hS.1.1 v h, h⟩⟩
        refine ⟨ps.filter (· ∈ S), (combos_mem _ _ _).2 ⟨List.filter_sublist, ?_⟩, hf.symm, by rw [hf]; exact hS.1.2.2⟩
        rw [← List.toFinset_card_of_nodup (hps.filter _), hf]; omega
    · refine h.congr fun S hS => ⟨hS.1, ?_⟩
      have := hS.1.2.1
      omega

theorem genParentGraph_inv (score : Finset (Fin d) → K) (maxPar : Nat) {ps : List (Fin d)} (hps : ps.Nodup)
    (incl : Finset (Fin d)) :
    PGInv score (Adm ps maxPar incl) (Adm ps maxPar incl) (genParentGraph score maxPar ps incl) := by
  have key : ∀ m, PGInv score (Adm ps maxPar incl) (fun S => Adm ps maxPar incl S ∧ S.card < m)
      ((List.range m).foldl (parentLayer score maxPar ps incl) []) := by
    intro m
    induction m with
    | zero => exact ⟨by simp, by simp, by simp⟩
    | succ m ih => rw [List.range_succ, List.foldl_append]; exact ih.layer hps
  refine (key (ps.length + 1)).congr fun S hS => ⟨hS, ?_⟩
  have : S ⊆ ps.toFinset := fun v hv => List.mem_toFinset.2 (hS.1 v hv)
  have := Finset.card_le_card this
  rw [List.toFinset_card_of_nodup hps] at this
  omega

end Exact
end CL
