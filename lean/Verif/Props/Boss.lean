import Verif.Props.Gst
import Verif.Props.Cpdag
import Mathlib.Data.List.Permutation
import Mathlib.Algebra.Order.Group.Unbundled.Basic

/-!
# C38: BOSS
-/
namespace CL
namespace Perm
open Spec
variable {p : Nat} {K : Type} [AddCommGroup K] [LinearOrder K] [IsOrderedAddMonoid K]

/-- Score of placing the variables of `l` one after the other after those of `pre`. -/
def totalFrom (tr : Fin p → List (Fin p) → K) : List (Fin p) → List (Fin p) → K
  | _, [] => 0
  | pre, w :: l => tr w pre + totalFrom tr (pre ++ [w]) l

/-- The score of an order: every variable with the parents found among its predecessors. -/
def total (tr : Fin p → List (Fin p) → K) (order : List (Fin p)) : K := totalFrom tr [] order

/-- `tr` depends on the prefix as a set -/
def SetBased (tr : Fin p → List (Fin p) → K) : Prop := ∀ v P P', (∀ a, a ∈ P ↔ a ∈ P') → tr v P = tr v P'

theorem totalFrom_append (tr : Fin p → List (Fin p) → K) (pre l1 l2 : List (Fin p)) :
    totalFrom tr pre (l1 ++ l2) = totalFrom tr pre l1 + totalFrom tr (pre ++ l1) l2 := by
  induction l1 generalizing pre with
  | nil => simp [totalFrom]
  | cons a l1 ih => simp [totalFrom, ih, add_assoc]

theorem totalFrom_congr {tr : Fin p → List (Fin p) → K} (htr : SetBased tr) {P P' : List (Fin p)}
    (h : ∀ a, a ∈ P ↔ a ∈ P') (l : List (Fin p)) : totalFrom tr P l = totalFrom tr P' l := by
  induction l generalizing P P' with
  | nil => rfl
  | cons a l ih =>
    simp only [totalFrom]
    rw [htr a P P' h, ih (P := P ++ [a]) (P' := P' ++ [a]) (by intro b; simp [h])]

/-- the list without `v` -/
def wo (v : Fin p) (l : List (Fin p)) : List (Fin p) := l.filter (· ≠ v)

theorem wo_append (v : Fin p) (a b : List (Fin p)) : wo v (a ++ b) = wo v a ++ wo v b := List.filter_append ..

theorem fwd_spec (tr : Fin p → List (Fin p) → K) (v : Fin p) (A : List (Fin p)) :
    let r := A.zipIdx.foldl (fwdStep tr v) (fun _ => 0, [], 0)
    r.2.1 = wo v A ∧ r.2.2 = totalFrom tr [] (wo v A) ∧
    ∀ j, j < A.length → r.1 j = tr v (wo v (A.take j)) + totalFrom tr [] (wo v (A.take j)) := by
  induction A using List.reverseRecOn with
  | nil => simp [wo, totalFrom]
  | append_singleton A x ih =>
    obtain ⟨h1, h2, h3⟩ := ih
    intro r
    have hr : r = fwdStep tr v (A.zipIdx.foldl (fwdStep tr v) (fun _ => 0, [], 0)) (x, A.length) := by
      show List.foldl _ _ _ = _
      rw [List.zipIdx_append, List.foldl_append]
      simp
    generalize A.zipIdx.foldl (fwdStep tr v) (fun _ => 0, [], 0) = s at *
    have hsc : ∀ j, j < (A ++ [x]).length → r.1 j = tr v (wo v ((A ++ [x]).take j)) + totalFrom tr [] (wo v ((A ++ [x]).take j)) := by
      intro j hj
      have hr1 : r.1 = set1 s.1 A.length (tr v s.2.1 + s.2.2) := by
        rw [hr]; unfold fwdStep; dsimp only; split <;> rfl
      rw [hr1]
      unfold set1
      split
      · rename_i hje
        rw [hje, h1, h2]; simp
      · have hlt : j < A.length := by simp at hj; omega
        rw [h3 j hlt, List.take_append_of_le_length hlt.le]
    by_cases hx : v = x
    · subst hx
      have hw : wo v (A ++ [v]) = wo v A := by simp [wo]
      have hr2 : r.2 = s.2 := by rw [hr]; unfold fwdStep; simp
      rw [hw, hr2]
      exact ⟨h1, h2, hsc⟩
    · have hw : wo v (A ++ [x]) = wo v A ++ [x] := by
        rw [wo_append]; congr 1; simp [wo, Ne.symm hx]
      have hr2 : r.2 = (s.2.1 ++ [x], s.2.2 + tr x s.2.1) := by rw [hr]; unfold fwdStep; simp [hx]
      rw [hw, hr2]
      refine ⟨by rw [h1], ?_, hsc⟩
      rw [totalFrom_append, h1, h2]
      simp [totalFrom]

theorem bwd_spec {tr : Fin p → List (Fin p) → K} (htr : SetBased tr) (v : Fin p) (sc0 : Nat → K) (B A : List (Fin p))
    (hnd : (A ++ B).Nodup) :
    let r := (B.zipIdx A.length).reverse.foldl (bwdStep tr v) (sc0, wo v (A ++ B) ++ [v], 0, (A ++ B).length)
    r.2.1 = wo v A ++ [v] ∧ r.2.2.1 = totalFrom tr (wo v A ++ [v]) (wo v B) ∧
    (∀ j, j < A.length → r.1 j = sc0 j) ∧
    (∀ j, A.length ≤ j → j ≤ (A ++ B).length → r.1 j = sc0 j +
      totalFrom tr (wo v ((A ++ B).take j) ++ [v]) (wo v ((A ++ B).drop j))) ∧
    A.length ≤ r.2.2.2 ∧ r.2.2.2 ≤ (A ++ B).length ∧
    ∀ j, A.length ≤ j → j ≤ (A ++ B).length → r.1 j ≤ r.1 r.2.2.2 := by
  induction B generalizing A with
  | nil =>
    intro r
    refine ⟨by simp [r], by simp [r, wo, totalFrom], fun j _ => rfl, fun j h1 h2 => ?_, by simp [r], by simp [r], fun j h1 h2 => ?_⟩
    · simp only [List.append_nil] at h2
      rw [List.drop_eq_nil_of_le (by simpa using h1)]
      simp [r, wo, totalFrom]
    · have : j = A.length := by simp at h2; omega
      subst this
      simp [r]
  | cons x B ih =>
    intro r
    have hnd' : ((A ++ [x]) ++ B).Nodup := by simpa using hnd
    have happ : (A ++ [x]) ++ B = A ++ x :: B := by simp
    obtain ⟨h1, h2, h3, h4, h5, h6, h7⟩ := ih (A ++ [x]) hnd'
    rw [happ] at h1 h2 h3 h4 h5 h6 h7
    have hlen : (A ++ [x]).length = A.length + 1 := by simp
    rw [hlen] at h1 h2 h3 h4 h5 h6 h7
    have hr : r = bwdStep tr v ((B.zipIdx (A.length + 1)).reverse.foldl (bwdStep tr v)
        (sc0, wo v (A ++ x :: B) ++ [v], 0, (A ++ x :: B).length)) (x, A.length) := by
      show List.foldl _ _ _ = _
      rw [List.zipIdx_cons, List.reverse_cons, List.foldl_append]
      simp
    generalize (B.zipIdx (A.length + 1)).reverse.foldl (bwdStep tr v)
        (sc0, wo v (A ++ x :: B) ++ [v], 0, (A ++ x :: B).length) = s at *
    -- prefix and score after the step
    have hpre : (if v ≠ x then s.2.1.erase x else s.2.1) = wo v A ++ [v] := by
      rw [h1, wo_append]
      by_cases hx : v = x
      · subst hx; simp [wo]
      · have hxA : x ∉ wo v A := fun h => by
          have := (List.mem_filter.1 h).1
          exact (List.nodup_append.1 hnd).2.2 x this x (by simp) rfl
        have e : wo v [x] = [x] := by simp [wo, Ne.symm hx]
        rw [if_pos hx, e, List.append_assoc, List.erase_append_right _ hxA]
        simp
    have hscore : (if v ≠ x then s.2.2.1 + tr x (if v ≠ x then s.2.1.erase x else s.2.1) else s.2.2.1) =
        totalFrom tr (wo v A ++ [v]) (wo v (x :: B)) := by
      rw [hpre, h2, wo_append]
      by_cases hx : v = x
      · subst hx; simp [wo]
      · have e : wo v [x] = [x] := by simp [wo, Ne.symm hx]
        have e2 : wo v (x :: B) = x :: wo v B := by simp [wo, Ne.symm hx]
        rw [if_pos hx, e, e2]
        simp only [totalFrom]
        rw [add_comm]
        congr 1
        exact totalFrom_congr htr (by intro a; simp; tauto) _
    have hr1 : r.1 = set1 s.1 A.length (s.1 A.length + totalFrom tr (wo v A ++ [v]) (wo v (x :: B))) := by
      rw [hr, ← hscore]; rfl
    have hr2 : r.2.1 = wo v A ++ [v] := by rw [hr, ← hpre]; rfl
    have hr3 : r.2.2.1 = totalFrom tr (wo v A ++ [v]) (wo v (x :: B)) := by rw [hr, ← hscore]; rfl
    have hr4 : r.2.2.2 = if r.1 s.2.2.2 < r.1 A.length then A.length else s.2.2.2 := by rw [hr]; rfl
    have hne : ∀ j, j ≠ A.length → r.1 j = s.1 j := by
      intro j hj; rw [hr1]; unfold set1; rw [if_neg hj]
    refine ⟨hr2, hr3, fun j hj => ?_, fun j hj1 hj2 => ?_, ?_, ?_, fun j hj1 hj2 => ?_⟩
    · rw [hne j (by omega)]; exact h3 j (by omega)
    · by_cases hj : j = A.length
      · subst hj
        rw [hr1]
        unfold set1
        rw [if_pos rfl, h3 _ (by omega)]
        simp
      · rw [hne j hj]; exact h4 j (by omega) hj2
    · rw [hr4]; split <;> omega
    · rw [hr4]; split
      · simp
      · exact h6
    · rw [hr4]
      by_cases hj : j = A.length
      · subst hj
        split
        · exact le_refl _
        · rename_i hlt; exact not_lt.1 hlt
      · have hle : r.1 j ≤ r.1 s.2.2.2 := by
          rw [hne j hj, hne _ (by omega)]; exact h7 j (by omega) hj2
        split
        · rename_i hlt; exact hle.trans hlt.le
        · exact hle

theorem insertIdx_mid {A : Type} (a b : List A) (v : A) : (a ++ b).insertIdx a.length v = a ++ v :: b := by
  induction a with
  | nil => simp
  | cons x a ih => simp [ih]

/-- the order after `order.remove(v); order.insert(j - int(j > i), v)` -/
def moved (order : List (Fin p)) (v : Fin p) (j : Nat) : List (Fin p) :=
  (order.erase v).insertIdx (j - (if order.idxOf v < j then 1 else 0)) v

theorem moved_eq {order : List (Fin p)} (hnd : order.Nodup) {v : Fin p} (hv : v ∈ order) {j : Nat} (hj : j ≤ order.length) :
    moved order v j = wo v (order.take j) ++ v :: wo v (order.drop j) := by
  have hwo : ∀ l : List (Fin p), l.Nodup → wo v l = l.erase v := fun l hl => by
    rw [hl.erase_eq_filter]
    unfold wo
    congr 1
    funext x
    by_cases h : x = v <;> simp [h]
  have hnt := hnd.sublist (List.take_sublist j order)
  have hndr := hnd.sublist (List.drop_sublist j order)
  rw [hwo _ hnt, hwo _ hndr]
  unfold moved
  have hmem : v ∈ order.take j ↔ order.idxOf v < j := List.mem_take_iff_idxOf_lt hv
  by_cases hlt : order.idxOf v < j
  · have hvt : v ∈ order.take j := hmem.2 hlt
    have hvd : v ∉ order.drop j := fun h => by
      have := (List.nodup_append.1 (by rw [List.take_append_drop]; exact hnd : (order.take j ++ order.drop j).Nodup)).2.2 v hvt v h
      exact this rfl
    have he : order.erase v = (order.take j).erase v ++ order.drop j := by
      conv_lhs => rw [← List.take_append_drop j order]
      exact List.erase_append_left _ hvt
    have hl : ((order.take j).erase v).length = j - 1 := by
      rw [List.length_erase_of_mem hvt, List.length_take]; omega
    rw [if_pos hlt, he, List.erase_of_not_mem hvd, ← hl, insertIdx_mid]
  · have hvt : v ∉ order.take j := fun h => hlt (hmem.1 h)
    have he : order.erase v = order.take j ++ (order.drop j).erase v := by
      conv_lhs => rw [← List.take_append_drop j order]
      exact List.erase_append_right _ hvt
    have hl : (order.take j).length = j := by rw [List.length_take]; omega
    rw [if_neg hlt, he, List.erase_of_not_mem hvt, Nat.sub_zero]
    conv_lhs => rw [← hl]
    rw [hl]
    have := insertIdx_mid (order.take j) ((order.drop j).erase v) v
    rw [hl] at this
    exact this

/-- moving `v` to its own position gives the order back -/
theorem moved_self {order : List (Fin p)} (hnd : order.Nodup) {v : Fin p} (hv : v ∈ order) :
    moved order v (order.idxOf v) = order := by
  have hlt := List.idxOf_lt_length_iff.2 hv
  rw [moved_eq hnd hv hlt.le]
  have hd : order.drop (order.idxOf v) = v :: order.drop (order.idxOf v + 1) := by
    rw [List.drop_eq_getElem_cons hlt, List.getElem_idxOf]
  have hnot1 : v ∉ order.take (order.idxOf v) := fun h => by
    have := (List.mem_take_iff_idxOf_lt hv).1 h; omega
  have hnot2 : v ∉ order.drop (order.idxOf v + 1) := by
    have := hnd.sublist (List.drop_sublist (order.idxOf v) order)
    rw [hd] at this
    exact (List.nodup_cons.1 this).1
  have hwo : ∀ l : List (Fin p), v ∉ l → wo v l = l := fun l hl => by
    unfold wo
    rw [List.filter_eq_self]
    intro a ha
    simp only [decide_eq_true_eq]
    rintro rfl; exact hl ha
  rw [hd, hwo _ hnot1]
  have : wo v (v :: order.drop (order.idxOf v + 1)) = order.drop (order.idxOf v + 1) := by
    have : wo v (v :: order.drop (order.idxOf v + 1)) = wo v (order.drop (order.idxOf v + 1)) := by simp [wo]
    rw [this, hwo _ hnot2]
  rw [this, ← hd, List.take_append_drop]

theorem moved_perm {order : List (Fin p)} {v : Fin p} (hv : v ∈ order) {j : Nat} (hj : j ≤ order.length) :
    (moved order v j).Perm order := by
  unfold moved
  refine (List.perm_insertIdx _ _ ?_).trans (List.perm_cons_erase hv).symm
  rw [List.length_erase_of_mem hv]
  split
  · omega
  · rename_i h
    have := List.idxOf_lt_length_iff.2 hv
    omega

/-- `scores[j]` is the total score of the order with `v` moved to `j`; `best` is a best position. -/
theorem mutationScores_spec {tr : Fin p → List (Fin p) → K} (htr : SetBased tr) {order : List (Fin p)} (hnd : order.Nodup)
    {v : Fin p} (hv : v ∈ order) :
    (∀ j, j ≤ order.length → (mutationScores tr v order).1 j = total tr (moved order v j)) ∧
    (mutationScores tr v order).2 ≤ order.length ∧
    ∀ j, j ≤ order.length → total tr (moved order v j) ≤ total tr (moved order v (mutationScores tr v order).2) := by
  obtain ⟨f1, f2, f3⟩ := fwd_spec tr v order
  unfold mutationScores
  dsimp only
  generalize order.zipIdx.foldl (fwdStep tr v) (fun _ => 0, [], 0) = fw at *
  have hb := bwd_spec htr v (set1 fw.1 order.length (tr v fw.2.1 + fw.2.2)) order [] (by simpa using hnd)
  simp only [List.nil_append, List.length_nil] at hb
  rw [← f1] at hb
  obtain ⟨-, -, -, b4, -, b6, b7⟩ := hb
  generalize List.foldl (bwdStep tr v) _ _ = bw at *
  have key : ∀ j, j ≤ order.length → bw.1 j = total tr (moved order v j) := by
    intro j hj
    rw [b4 j (Nat.zero_le _) hj, moved_eq hnd hv hj]
    have hs0 : set1 fw.1 order.length (tr v fw.2.1 + fw.2.2) j =
        tr v (wo v (order.take j)) + totalFrom tr [] (wo v (order.take j)) := by
      unfold set1
      split
      · rename_i h; subst h; simp [f1, f2]
      · exact f3 j (by omega)
    rw [hs0]
    unfold total
    rw [totalFrom_append]
    simp only [totalFrom, List.nil_append]
    rw [add_comm (tr v _), add_assoc]
  exact ⟨key, b6, fun j hj => by rw [← key j hj, ← key _ b6]; exact b7 j (Nat.zero_le _) hj⟩

/-- **C38** (one move). `better_mutation` keeps a permutation; it returns `False` and leaves the order alone, or returns
`True` and the total score has grown by at least the tolerance. When it returns `False`, no position for `v` would improve the
score by the tolerance or more. -/
theorem C38_better_mutation {tr : Fin p → List (Fin p) → K} (htr : SetBased tr) {eps : K} {order : List (Fin p)}
    (hnd : order.Nodup) {v : Fin p} (hv : v ∈ order) :
    let r := betterMutation tr eps order v
    r.2.Perm order ∧
    (r.1 = false → r.2 = order ∧ ∀ l, l.erase v = order.erase v → l.Perm order → total tr l < total tr order + eps) ∧
    (r.1 = true → total tr order + eps ≤ total tr r.2) := by
  obtain ⟨h1, h2, h3⟩ := mutationScores_spec htr hnd hv
  have hi : order.idxOf v ≤ order.length := List.idxOf_le_length
  have hcur := h1 _ hi
  rw [moved_self hnd hv] at hcur
  intro r
  have hr : r = if total tr (moved order v (mutationScores tr v order).2) < total tr order + eps then (false, order)
      else (true, moved order v (mutationScores tr v order).2) := by
    show betterMutation tr eps order v = _
    unfold betterMutation
    dsimp only
    rw [h1 _ h2, hcur]
    rfl
  rw [hr]
  split
  · rename_i hlt
    refine ⟨List.Perm.refl _, fun _ => ⟨rfl, fun l hl hp => ?_⟩, by simp⟩
    -- every order that differs only in the place of `v` is one of the moves
    have hvl : v ∈ l := hp.mem_iff.2 hv
    have hlnd : l.Nodup := hp.nodup_iff.2 hnd
    have hk := List.idxOf_lt_length_iff.2 hvl
    have hlen := hp.length_eq
    have hex : ∃ j, j ≤ order.length ∧ j - (if order.idxOf v < j then 1 else 0) = l.idxOf v := by
      by_cases hc : l.idxOf v < order.idxOf v
      · exact ⟨l.idxOf v, by omega, by rw [if_neg (by omega)]; omega⟩
      · by_cases hc2 : l.idxOf v = order.idxOf v
        · exact ⟨l.idxOf v, by omega, by rw [if_neg (by omega)]; omega⟩
        · exact ⟨l.idxOf v + 1, by omega, by rw [if_pos (by omega)]; omega⟩
    obtain ⟨j, hj, hje⟩ := hex
    have : l = moved order v j := by
      unfold moved
      rw [hje, ← hl]
      have hs := moved_self hlnd hvl
      unfold moved at hs
      rw [if_neg (lt_irrefl _), Nat.sub_zero] at hs
      exact hs.symm
    rw [this]
    exact (h3 j hj).trans_lt hlt
  · rename_i hlt
    exact ⟨moved_perm hv h2, by simp, fun _ => not_lt.1 hlt⟩

theorem sweep_spec {tr : Fin p → List (Fin p) → K} (htr : SetBased tr) {eps : K} (he : 0 < eps) (vars : List (Fin p))
    {order : List (Fin p)} (hp : order.Perm (List.finRange p)) :
    let r := sweep tr eps vars order
    r.2.Perm (List.finRange p) ∧ total tr order ≤ total tr r.2 ∧ (r.1 = true → total tr order + eps ≤ total tr r.2) ∧
    (r.1 = false → r.2 = order ∧ ∀ v ∈ vars, ∀ l, l.erase v = order.erase v → l.Perm order →
      total tr l < total tr order + eps) := by
  induction vars using List.reverseRecOn with
  | nil => exact ⟨hp, le_refl _, by simp [sweep], by simp [sweep]⟩
  | append_singleton vs v ih =>
    obtain ⟨h1, h2, h3, h4⟩ := ih
    have hnd : (sweep tr eps vs order).2.Nodup := h1.nodup_iff.2 (List.nodup_finRange p)
    have hv : v ∈ (sweep tr eps vs order).2 := h1.mem_iff.2 (List.mem_finRange v)
    obtain ⟨m1, m2, m3⟩ := C38_better_mutation htr (eps := eps) hnd hv
    have hsw : sweep tr eps (vs ++ [v]) order = ((sweep tr eps vs order).1 || (betterMutation tr eps (sweep tr eps vs order).2 v).1,
        (betterMutation tr eps (sweep tr eps vs order).2 v).2) := by
      unfold sweep; rw [List.foldl_append]; rfl
    rw [hsw]
    have hle : total tr (sweep tr eps vs order).2 ≤ total tr (betterMutation tr eps (sweep tr eps vs order).2 v).2 := by
      cases hb : (betterMutation tr eps (sweep tr eps vs order).2 v).1 with
      | false => rw [(m2 hb).1]
      | true => exact (le_add_of_nonneg_right he.le).trans (m3 hb)
    refine ⟨m1.trans h1, h2.trans hle, fun hb => ?_, fun hb => ?_⟩
    · simp only [Bool.or_eq_true] at hb
      rcases hb with hb | hb
      · exact (h3 hb).trans hle
      · exact (add_le_add_left h2 eps).trans (m3 hb)
    · simp only [Bool.or_eq_false_iff] at hb
      obtain ⟨e1, e2⟩ := h4 hb.1
      obtain ⟨e3, e4⟩ := m2 hb.2
      refine ⟨e3.trans e1, fun w hw l hl hpl => ?_⟩
      rcases List.mem_append.1 hw with hw | hw
      · exact e2 w hw l hl hpl
      · rw [List.mem_singleton.1 hw] at hl
        rw [e1] at e4
        exact e4 l hl hpl

/-- the permutations that are better than `order` -/
def betterCount (tr : Fin p → List (Fin p) → K) (order : List (Fin p)) : Nat :=
  ((List.finRange p).permutations.toFinset.filter fun l => total tr order < total tr l).card

theorem betterCount_lt {tr : Fin p → List (Fin p) → K} {a b : List (Fin p)} (hb : b.Perm (List.finRange p))
    (h : total tr a < total tr b) : betterCount tr b < betterCount tr a := by
  unfold betterCount
  apply Finset.card_lt_card
  rw [Finset.ssubset_iff_of_subset]
  · exact ⟨b, by simp [hb, h], by simp⟩
  · intro l hl
    simp only [Finset.mem_filter] at hl ⊢
    exact ⟨hl.1, h.trans hl.2⟩

theorem bossLoop_spec {tr : Fin p → List (Fin p) → K} (htr : SetBased tr) {eps : K} (he : 0 < eps)
    (sched : Nat → List (Fin p)) (f k : Nat) (order : List (Fin p)) (hp : order.Perm (List.finRange p))
    (hf : betterCount tr order < f) :
    ∃ o k', bossLoop tr eps sched f k order = some o ∧ o.Perm (List.finRange p) ∧ total tr order ≤ total tr o ∧
      ∀ v ∈ sched k', ∀ l, l.erase v = o.erase v → l.Perm o → total tr l < total tr o + eps := by
  induction f generalizing k order with
  | zero => omega
  | succ f ih =>
    obtain ⟨h1, h2, h3, h4⟩ := sweep_spec htr he (sched k) hp
    unfold bossLoop
    split
    · rename_i hb
      have hlt : total tr order < total tr (sweep tr eps (sched k) order).2 :=
        (lt_add_of_pos_right _ he).trans_le (h3 hb)
      obtain ⟨o, k', a1, a2, a3, a4⟩ := ih (k + 1) _ h1 (by have := betterCount_lt h1 hlt; omega)
      exact ⟨o, k', a1, a2, h2.trans a3, a4⟩
    · rename_i hb
      obtain ⟨e1, e2⟩ := h4 (by simpa using hb)
      refine ⟨_, k, rfl, h1, h2, ?_⟩
      rw [e1]
      exact e2

/-! ### The graph -/

theorem parentsGraph_g {parents : Fin p → List (Fin p)} (has : ∀ a b, a ∈ parents b → b ∉ parents a) (a b : Fin p) :
    (parentsGraph parents).g a b = if a ∈ parents b then .tail else if b ∈ parents a then .arrow else .null := by
  have inner : ∀ (l : List (Fin p)) (y : Fin p) (G : GG p), y ∉ l → ∀ a b,
      (l.foldl (fun G x => G.addDirectedEdge x y) G).g a b =
        if b = y ∧ a ∈ l then .tail else if a = y ∧ b ∈ l then .arrow else G.g a b := by
    intro l y
    induction l with
    | nil => intro G _ a b; simp
    | cons x l ih =>
      intro G hy a b
      rw [List.foldl_cons, ih _ (fun h => hy (by simp [h]))]
      have hxy : x ≠ y := fun h => hy (by simp [h])
      simp only [GG.addDirectedEdge, adjustDpath_g, setG_g, upd_apply, List.mem_cons]
      grind
  have hirr : ∀ y, y ∉ parents y := fun y h => has y y h h
  have outer : ∀ (ys : List (Fin p)) (G : GG p), (∀ a b, a ∈ parents b → b ∈ ys → G.g a b = .null ∨ G.g a b = .tail) → ∀ a b,
      (ys.foldl (fun G y => (parents y).foldl (fun G x => G.addDirectedEdge x y) G) G).g a b =
        if b ∈ ys ∧ a ∈ parents b then .tail else if a ∈ ys ∧ b ∈ parents a then .arrow else G.g a b := by
    intro ys
    induction ys with
    | nil => intro G _ a b; simp
    | cons y ys ih =>
      intro G hG a b
      rw [List.foldl_cons, ih]
      · rw [inner _ _ _ (hirr y)]
        have := has a b
        have := has b a
        simp only [List.mem_cons]
        grind
      · intro a b h1 h2
        rw [inner _ _ _ (hirr y)]
        have := has a b h1
        have := hG a b h1 (by simp [h2])
        grind
  unfold parentsGraph
  rw [outer _ _ (by intro a b _ _; left; exact empty_g a b)]
  simp [empty_g]

theorem parentsGraph_isDag {parents : Fin p → List (Fin p)} (hac : Acyclic fun a b => a ∈ parents b) :
    (parentsGraph parents).IsDag ∧ ∀ a b, (parentsGraph parents).Arrow a b ↔ a ∈ parents b := by
  have has : ∀ a b, a ∈ parents b → b ∉ parents a := fun a b h1 h2 =>
    hac a (Relation.TransGen.tail (.single h1) h2)
  have hA : ∀ a b, (parentsGraph parents).Arrow a b ↔ a ∈ parents b := by
    intro a b
    have := has a b
    have := has b a
    unfold GG.Arrow
    rw [parentsGraph_g has, parentsGraph_g has]
    grind
  refine ⟨⟨fun a b h => ?_, ?_⟩, hA⟩
  · rw [hA, hA]
    rw [parentsGraph_g has] at h
    by_contra hc
    push Not at hc
    rw [if_neg hc.1, if_neg hc.2] at h
    exact h rfl
  · intro x hx
    exact hac x (Relation.TransGen.mono (fun a b h => (hA a b).1 h) x x hx)

/-- parents precede their child, hence no cycle -/
theorem acyclic_of_order {order : List (Fin p)} {parents : Fin p → List (Fin p)}
    (h : ∀ a b, a ∈ parents b → order.idxOf a < order.idxOf b) : Acyclic fun a b => a ∈ parents b := by
  intro x hx
  have : ∀ a b, Relation.TransGen (fun a b => a ∈ parents b) a b → order.idxOf a < order.idxOf b := by
    intro a b hab
    induction hab with
    | single hh => exact h _ _ hh
    | tail _ hh ih => exact ih.trans (h _ _ hh)
  exact lt_irrefl _ (this x x hx)

theorem finalParents_before (sc : Fin p → Finset (Fin p) → K) (order : List (Fin p)) (a b : Fin p)
    (h : a ∈ finalParents sc order b) : order.idxOf a < order.idxOf b := by
  have h1 := ((C61_trace_result sc b (order.take (order.idxOf b))).2.1 a h).1
  have hm : a ∈ order := List.take_subset _ _ h1
  exact (List.mem_take_iff_idxOf_lt hm).1 h1

/-- `total` is the sum of the scores of the parent sets that are read off -/
theorem total_eq_sum (sc : Fin p → Finset (Fin p) → K) {order : List (Fin p)} (hp : order.Perm (List.finRange p)) :
    total (trScore sc) order = ∑ v, sc v (finalParents sc order v).toFinset := by
  have hnd : order.Nodup := hp.nodup_iff.2 (List.nodup_finRange p)
  have key : ∀ (B A : List (Fin p)), order = A ++ B →
      totalFrom (trScore sc) A B = (B.map fun v => sc v (finalParents sc order v).toFinset).sum := by
    intro B
    induction B with
    | nil => intro A _; simp [totalFrom]
    | cons w B ih =>
      intro A hA
      simp only [totalFrom, List.map_cons, List.sum_cons]
      rw [ih (A ++ [w]) (by simp [hA])]
      congr 1
      have hw : w ∉ A := fun h => by
        rw [hA] at hnd
        exact (List.nodup_append.1 hnd).2.2 w h w (by simp) rfl
      have hidx : order.idxOf w = A.length := by
        rw [hA, List.idxOf_append_of_notMem hw]; simp
      rw [(C61_trace_result sc w A).2.2.1]
      unfold finalParents
      rw [hidx, hA, List.take_left]
  unfold total
  rw [key order [] rfl, (hp.map _).sum_eq, ← List.ofFn_eq_map, List.sum_ofFn]

/-- **C38.** For every score function, every tolerance `eps > 0` and every random schedule, BOSS terminates; the final order
is a permutation of the variables; its score is the sum of the local scores of the parent sets read off it and is not worse
than that of the initial order; the parents of every variable precede it, so they form a DAG; and the returned graph is the
CPDAG of that DAG (same adjacencies; an edge is directed exactly when its direction is the same in all equivalent DAGs). -/
theorem C38_boss (sc : Fin p → Finset (Fin p) → K) {eps : K} (he : 0 < eps) (sched : Nat → List (Fin p)) :
    ∃ f0, ∀ fuel cfuel, f0 ≤ fuel → p * p + p < cfuel → ∃ order H, boss sc eps sched fuel cfuel = some (order, .ok H) ∧
      order.Perm (List.finRange p) ∧
      total (trScore sc) order = ∑ v, sc v (finalParents sc order v).toFinset ∧
      total (trScore sc) (List.finRange p) ≤ total (trScore sc) order ∧
      (∀ a b, a ∈ finalParents sc order b → order.idxOf a < order.idxOf b) ∧
      Acyclic (fun a b => a ∈ finalParents sc order b) ∧
      ∀ a b, (H.g a b = .null ↔ ¬ Adj (fun a b => a ∈ finalParents sc order b) a b) ∧
        (H.Arrow a b ↔ Compelled (fun a b => a ∈ finalParents sc order b) a b) := by
  refine ⟨betterCount (trScore sc) (List.finRange p) + 1, fun fuel cfuel hf hcf => ?_⟩
  obtain ⟨o, k', h1, h2, h3, -⟩ := bossLoop_spec (tr := trScore sc) (fun v P P' h => trScore_congr sc v h) he sched fuel 0
    (List.finRange p) (List.Perm.refl _) (by omega)
  have hbef := finalParents_before sc o
  have hac := acyclic_of_order hbef
  obtain ⟨hd, hA⟩ := parentsGraph_isDag hac
  obtain ⟨H, hH, hs⟩ := C25_essential_graph hd
  have hE : (parentsGraph (finalParents sc o)).Arrow = fun a b => a ∈ finalParents sc o b := by
    funext a b; exact propext (hA a b)
  rw [hE] at hs
  refine ⟨o, H, ?_, h2, total_eq_sum sc h2, h3, hbef, hac, fun a b => ⟨(hs a b).1, (hs a b).2.1⟩⟩
  unfold boss
  rw [h1]
  simp only [Option.map_some]
  rw [hH cfuel hcf]

/-- **C38** (local optimality of the result). If every round goes through all variables, then in the final order no single
variable can be moved to another place with a gain of the tolerance or more. -/
theorem C38_boss_local_optimum (sc : Fin p → Finset (Fin p) → K) {eps : K} (he : 0 < eps) (sched : Nat → List (Fin p))
    (hall : ∀ k v, v ∈ sched k) :
    ∃ f0, ∀ fuel cfuel, f0 ≤ fuel → ∃ order G, boss sc eps sched fuel cfuel = some (order, G) ∧
      ∀ v l, l.erase v = order.erase v → l.Perm order → total (trScore sc) l < total (trScore sc) order + eps := by
  refine ⟨betterCount (trScore sc) (List.finRange p) + 1, fun fuel cfuel hf => ?_⟩
  obtain ⟨o, k', h1, h2, h3, h4⟩ := bossLoop_spec (tr := trScore sc) (fun v P P' h => trScore_congr sc v h) he sched fuel 0
    (List.finRange p) (List.Perm.refl _) (by omega)
  refine ⟨o, (parentsGraph (finalParents sc o)).dag2cpdag cfuel, ?_, fun v l hl hp => h4 v (hall k' v) l hl hp⟩
  unfold boss
  rw [h1]
  rfl

/-- A concrete run: three variables, 0 gains from parents 1 and 2, which must be moved before it. -/
example : bossLoop (trScore fun v S => if v = 0 then greedyScore 0 S else 0) (1 : Int) (fun _ => [0, 1, 2]) 5 0 [0, 1, 2] =
    some [1, 2, 0] := by decide +kernel

end Perm
end CL
