import Verif.Model.ChiSq
import Verif.Spec.ChiSq
import Mathlib.Algebra.CharZero.Defs
import Mathlib.Algebra.Order.Group.Int
import Mathlib.Data.List.FinRange
import Mathlib.Tactic.Ring
import Mathlib.Data.Fintype.Fin

/-!
# The tables of the chi-square test
-/
open Finset
namespace ChiSpec
variable {N : Nat} {A B C A' B' C' : Type} [DecidableEq A] [DecidableEq B] [DecidableEq C] [DecidableEq A'] [DecidableEq B'] [DecidableEq C']

/-- Two labellings of the same classes give the same sums. -/
theorem sum_image_congr {M : Type} [AddCommMonoid M] {f : Fin N → A} {g : Fin N → B} (h : ∀ k l, f k = f l ↔ g k = g l) {F : A → M} {H : B → M}
    (e : ∀ k, F (f k) = H (g k)) : ∑ a ∈ univ.image f, F a = ∑ b ∈ univ.image g, H b := by
  have key : ∀ a ∈ univ.image f, ∃ k, f k = a := fun a ha => by simpa using ha
  refine Finset.sum_bij (fun a ha => g (key a ha).choose) ?_ ?_ ?_ ?_
  · intro a ha; exact mem_image_of_mem _ (mem_univ _)
  · intro a ha b hb hab
    have h1 := (key a ha).choose_spec
    have h2 := (key b hb).choose_spec
    rw [← h1, ← h2]; exact (h _ _).2 hab
  · intro b hb
    obtain ⟨k, -, rfl⟩ := mem_image.1 hb
    refine ⟨f k, mem_image_of_mem _ (mem_univ _), (h _ _).1 ?_⟩
    exact (key (f k) (mem_image_of_mem _ (mem_univ _))).choose_spec
  · intro a ha
    rw [← e]; rw [(key a ha).choose_spec]

theorem card_image_congr {f : Fin N → A} {g : Fin N → B} (h : ∀ k l, f k = f l ↔ g k = g l) (P : Finset (Fin N)) :
    #(P.image f) = #(P.image g) := by
  have key : ∀ a ∈ P.image f, ∃ k ∈ P, f k = a := fun a ha => by simpa using ha
  refine Finset.card_bij (fun a ha => g (key a ha).choose) ?_ ?_ ?_
  · intro a ha; exact mem_image_of_mem _ (key a ha).choose_spec.1
  · intro a ha b hb hab
    have h1 := (key a ha).choose_spec.2
    have h2 := (key b hb).choose_spec.2
    rw [← h1, ← h2]; exact (h _ _).2 hab
  · intro b hb
    obtain ⟨k, hk, rfl⟩ := mem_image.1 hb
    refine ⟨f k, mem_image_of_mem _ hk, (h _ _).1 ?_⟩
    exact (key (f k) (mem_image_of_mem _ hk)).choose_spec.2

variable {K : Type} [Field K]

/-- The p-value depends only on which samples agree on `x`, on `y` and on the configuration. -/
theorem pvalue_congr (lg : K → K) (sf : K → Int → K) (gsq : Bool) {s : Fin N → C} {x : Fin N → A} {y : Fin N → B} {s' : Fin N → C'}
    {x' : Fin N → A'} {y' : Fin N → B'} (hs : ∀ k l, s k = s l ↔ s' k = s' l) (hx : ∀ k l, x k = x l ↔ x' k = x' l)
    (hy : ∀ k l, y k = y l ↔ y' k = y' l) : pvalue lg sf gsq s x y = pvalue lg sf gsq s' x' y' := by
  have e1 : ∀ k, nS s (s k) = nS s' (s' k) := fun k => by
    unfold nS; exact congrArg Finset.card (filter_congr fun l _ => hs l k)
  have e2 : ∀ k l, nSX s x (s k) (x l) = nSX s' x' (s' k) (x' l) := fun k l => by
    unfold nSX; exact congrArg Finset.card (filter_congr fun j _ => and_congr (hs j k) (hx j l))
  have e3 : ∀ k l, nSX s y (s k) (y l) = nSX s' y' (s' k) (y' l) := fun k l => by
    unfold nSX; exact congrArg Finset.card (filter_congr fun j _ => and_congr (hs j k) (hy j l))
  have e4 : ∀ k l i, nSXY s x y (s k) (x l) (y i) = nSXY s' x' y' (s' k) (x' l) (y' i) := fun k l i => by
    unfold nSXY; exact congrArg Finset.card (filter_congr fun j _ => and_congr (hs j k) (and_congr (hx j l) (hy j i)))
  have e5 : ∀ k l i, (ex s x y (s k) (x l) (y i) : K) = ex s' x' y' (s' k) (x' l) (y' i) := fun k l i => by
    unfold ex; rw [e1, e2, e3]
  have d : df s x y = df s' x' y' := by
    unfold df
    refine sum_image_congr hs fun k => ?_
    have : (univ.filter fun l => s l = s k) = univ.filter fun l => s' l = s' k := filter_congr fun l _ => hs l k
    rw [this, card_image_congr hx, card_image_congr hy]
  have c : (chi2 s x y : K) = chi2 s' x' y' := by
    unfold chi2
    refine sum_image_congr hs fun k => sum_image_congr hx fun l => sum_image_congr hy fun i => ?_
    rw [e2, e3, e4, e5]
  have g : g2 lg s x y = g2 lg s' x' y' := by
    unfold g2
    refine congrArg _ (sum_image_congr hs fun k => sum_image_congr hx fun l => sum_image_congr hy fun i => ?_)
    rw [e4, e5]
  unfold pvalue
  rw [d, c, g]

/-- Swapping the two variables. -/
theorem pvalue_swap (lg : K → K) (sf : K → Int → K) (gsq : Bool) (s : Fin N → C) (x : Fin N → A) (y : Fin N → B) :
    pvalue lg sf gsq s x y = pvalue lg sf gsq s y x := by
  have e4 : ∀ c a b, nSXY s x y c a b = nSXY s y x c b a := fun c a b => by
    unfold nSXY; exact congrArg Finset.card (filter_congr fun j _ => by tauto)
  have e5 : ∀ c a b, (ex s x y c a b : K) = ex s y x c b a := fun c a b => by
    unfold ex; rw [mul_comm]
  have d : df s x y = df s y x := by
    unfold df; exact sum_congr rfl fun c _ => mul_comm _ _
  have c : (chi2 s x y : K) = chi2 s y x := by
    unfold chi2
    refine sum_congr rfl fun c _ => ?_
    rw [sum_comm]
    refine sum_congr rfl fun b _ => sum_congr rfl fun a _ => ?_
    rw [e4, e5]
    simp only [or_comm]
  have g : g2 lg s x y = g2 lg s y x := by
    unfold g2
    refine congrArg _ (sum_congr rfl fun c _ => ?_)
    rw [sum_comm]
    refine sum_congr rfl fun b _ => sum_congr rfl fun a _ => ?_
    rw [e4, e5]
  unfold pvalue
  rw [d, c, g]

/-- Listing the samples in another order. -/
theorem pvalue_perm (lg : K → K) (sf : K → Int → K) (gsq : Bool) (s : Fin N → C) (x : Fin N → A) (y : Fin N → B) (σ : Equiv.Perm (Fin N)) :
    pvalue lg sf gsq (s ∘ σ) (x ∘ σ) (y ∘ σ) = pvalue lg sf gsq s x y := by
  have im : ∀ {D : Type} [DecidableEq D] (f : Fin N → D), univ.image (f ∘ σ) = univ.image f := by
    intro D _ f; ext d; simp only [mem_image, mem_univ, true_and, Function.comp]
    exact ⟨fun ⟨k, h⟩ => ⟨σ k, h⟩, fun ⟨k, h⟩ => ⟨σ.symm k, by simpa using h⟩⟩
  have cd : ∀ (P : Fin N → Prop) [DecidablePred P], #(univ.filter fun k => P (σ k)) = #(univ.filter P) := by
    intro P _
    refine card_bij (fun k _ => σ k) (fun k hk => by simpa using hk) (fun a _ b _ h => σ.injective h) fun b hb => ⟨σ.symm b, ?_, ?_⟩
    · simpa using hb
    · simp
  have im2 : ∀ {D : Type} [DecidableEq D] (f : Fin N → D) (c : C), (univ.filter fun k => (s ∘ σ) k = c).image (f ∘ σ) = (univ.filter fun k => s k = c).image f := by
    intro D _ f c; ext d; simp only [mem_image, mem_filter, mem_univ, true_and, Function.comp]
    exact ⟨fun ⟨k, h⟩ => ⟨σ k, h⟩, fun ⟨k, h⟩ => ⟨σ.symm k, by simpa using h⟩⟩
  have e1 : ∀ c, nS (s ∘ σ) c = nS s c := fun c => cd fun k => s k = c
  have e2 : ∀ c a, nSX (s ∘ σ) (x ∘ σ) c a = nSX s x c a := fun c a => cd fun k => s k = c ∧ x k = a
  have e3 : ∀ c a, nSX (s ∘ σ) (y ∘ σ) c a = nSX s y c a := fun c a => cd fun k => s k = c ∧ y k = a
  have e4 : ∀ c a b, nSXY (s ∘ σ) (x ∘ σ) (y ∘ σ) c a b = nSXY s x y c a b := fun c a b => cd fun k => s k = c ∧ x k = a ∧ y k = b
  have e5 : ∀ c a b, (ex (s ∘ σ) (x ∘ σ) (y ∘ σ) c a b : K) = ex s x y c a b := fun c a b => by unfold ex; rw [e1, e2, e3]
  unfold pvalue chi2 g2 df
  simp only [im, im2, e2, e3, e4, e5]

end ChiSpec

namespace CL.Chi
open ChiSpec
variable {N m n : Nat} {K : Type} [Field K] [DecidableEq K] [CharZero K]

/-- The table of the samples whose configuration has the number `w`. -/
def layer (J : Fin N → Nat) (X : Fin N → Fin m) (Y : Fin N → Fin n) (w : Nat) : (Fin m → Fin n → Nat) × Nat :=
  (fun i j => nSXY J X Y w i j, nS J w)

theorem layer_row (J : Fin N → Nat) (X : Fin N → Fin m) (Y : Fin N → Fin n) (w : Nat) (i : Fin m) :
    ∑ j, (layer J X Y w).1 i j = nSX J X w i := by
  unfold layer nSX nSXY
  dsimp only
  rw [card_eq_sum_card_fiberwise (f := Y) (t := univ) (fun _ _ => mem_univ _)]
  refine sum_congr rfl fun j _ => congrArg Finset.card ?_
  ext k; simp [and_assoc]

theorem layer_col (J : Fin N → Nat) (X : Fin N → Fin m) (Y : Fin N → Fin n) (w : Nat) (j : Fin n) :
    ∑ i, (layer J X Y w).1 i j = nSX J Y w j := by
  unfold layer nSX nSXY
  dsimp only
  rw [card_eq_sum_card_fiberwise (f := X) (t := univ) (fun _ _ => mem_univ _)]
  refine sum_congr rfl fun i _ => congrArg Finset.card ?_
  ext k; simp only [mem_filter, mem_univ, true_and]; tauto

theorem layer_total (J : Fin N → Nat) (X : Fin N → Fin m) (Y : Fin N → Fin n) (w : Nat) : total (layer J X Y w).1 = nS J w := by
  unfold total
  simp only [layer_row]
  unfold nSX nS
  rw [card_eq_sum_card_fiberwise (f := X) (t := univ) (fun _ _ => mem_univ _)]
  refine sum_congr rfl fun i _ => congrArg Finset.card ?_
  ext k; simp

theorem layer_expected (J : Fin N → Nat) (X : Fin N → Fin m) (Y : Fin N → Fin n) (w : Nat) (i : Fin m) (j : Fin n) :
    (expected (layer J X Y w) i j : K) = ex J X Y w i j := by
  unfold expected ex
  rw [layer_row, layer_col]; rfl

theorem nSXY_le (J : Fin N → Nat) (X : Fin N → Fin m) (Y : Fin N → Fin n) (w : Nat) (i : Fin m) (j : Fin n) :
    nSXY J X Y w i j ≤ nSX J X w i ∧ nSXY J X Y w i j ≤ nSX J Y w j ∧ nSX J X w i ≤ nS J w := by
  unfold nSXY nSX nS
  refine ⟨card_le_card ?_, card_le_card ?_, card_le_card ?_⟩
  all_goals intro k hk; simp only [mem_filter, mem_univ, true_and] at hk ⊢; tauto

theorem ex_eq_zero (J : Fin N → Nat) (X : Fin N → Fin m) (Y : Fin N → Fin n) (w : Nat) (i : Fin m) (j : Fin n) :
    (ex J X Y w i j : K) = 0 ↔ nSX J X w i = 0 ∨ nSX J Y w j = 0 := by
  have h := nSXY_le J X Y w i j
  unfold ex
  rw [div_eq_zero_iff, mul_eq_zero, Nat.cast_eq_zero, Nat.cast_eq_zero, Nat.cast_eq_zero]
  omega

theorem nSX_ne_zero {A : Type} [DecidableEq A] {J : Fin N → Nat} {x : Fin N → A} {w : Nat} {a : A} :
    nSX J x w a ≠ 0 ↔ ∃ k, J k = w ∧ x k = a := by
  unfold nSX
  rw [ne_eq, card_eq_zero, ← ne_eq, ← nonempty_iff_ne_empty]
  exact ⟨fun ⟨k, hk⟩ => ⟨k, by simpa using hk⟩, fun ⟨k, hk⟩ => ⟨k, by simpa using hk⟩⟩

/-- The contribution of a cell is what the specification says. -/
theorem cell_spec (lg : K → K) (gsq : Bool) (J : Fin N → Nat) (X : Fin N → Fin m) (Y : Fin N → Fin n) (w : Nat) (i : Fin m) (j : Fin n) :
    cell lg gsq ((((layer J X Y w).1 i j : Nat)) : K) (expected (layer J X Y w) i j) =
      if gsq then (if nSXY J X Y w i j = 0 then 0 else (nSXY J X Y w i j : K) * lg ((nSXY J X Y w i j : K) / ex J X Y w i j))
      else if nSX J X w i = 0 ∨ nSX J Y w j = 0 then 0 else ((nSXY J X Y w i j : K) - ex J X Y w i j) ^ 2 / ex J X Y w i j := by
  have h := nSXY_le J X Y w i j
  rw [layer_expected]
  unfold cell
  have e : ((layer J X Y w).1 i j) = nSXY J X Y w i j := rfl
  rw [e]
  by_cases hz : nSX J X w i = 0 ∨ nSX J Y w j = 0
  · have hc : nSXY J X Y w i j = 0 := by omega
    have hx : (ex J X Y w i j : K) = 0 := (ex_eq_zero J X Y w i j).2 hz
    simp [hx, hc, hz]
  · have hx : (ex J X Y w i j : K) ≠ 0 := fun e => hz ((ex_eq_zero J X Y w i j).1 e)
    simp only [hx, if_false, hz]
    cases gsq
    · simp
    · simp only [if_true]
      by_cases hc : nSXY J X Y w i j = 0
      · simp [hc]
      · have : ((nSXY J X Y w i j : Nat) : K) / ex J X Y w i j ≠ 0 := div_ne_zero (Nat.cast_ne_zero.2 hc) hx
        simp [hc, this]

/-- The rows that are not zero. -/
theorem rows_spec (J : Fin N → Nat) (X : Fin N → Fin m) (Y : Fin N → Fin n) {w : Nat} (hw : ∃ k, J k = w) :
    (m : Int) - 1 - (univ.filter fun i : Fin m => ∀ j, (expected (layer J X Y w) i j : K) = 0).card =
      (#((univ.filter fun k => J k = w).image X) : Int) - 1 := by
  have hset : (univ.filter fun k => J k = w).image X = univ.filter fun i : Fin m => ¬ ∀ j, (expected (layer J X Y w) i j : K) = 0 := by
    ext i
    simp only [mem_image, mem_filter, mem_univ, true_and, layer_expected, ex_eq_zero]
    constructor
    · rintro ⟨k, hk, rfl⟩ hall
      rcases hall (Y k) with h | h
      · exact nSX_ne_zero.2 ⟨k, hk, rfl⟩ h
      · exact nSX_ne_zero.2 ⟨k, hk, rfl⟩ h
    · intro h
      push Not at h
      obtain ⟨j, h1, -⟩ := h
      exact nSX_ne_zero.1 h1
  have hcard := card_filter_add_card_filter_not (s := (univ : Finset (Fin m))) (fun i : Fin m => ∀ j, (expected (layer J X Y w) i j : K) = 0)
  rw [card_univ, Fintype.card_fin] at hcard
  rw [hset]
  omega

theorem cols_spec (J : Fin N → Nat) (X : Fin N → Fin m) (Y : Fin N → Fin n) {w : Nat} (hw : ∃ k, J k = w) :
    (n : Int) - 1 - (univ.filter fun j : Fin n => ∀ i, (expected (layer J X Y w) i j : K) = 0).card =
      (#((univ.filter fun k => J k = w).image Y) : Int) - 1 := by
  have hset : (univ.filter fun k => J k = w).image Y = univ.filter fun j : Fin n => ¬ ∀ i, (expected (layer J X Y w) i j : K) = 0 := by
    ext i
    simp only [mem_image, mem_filter, mem_univ, true_and, layer_expected, ex_eq_zero]
    constructor
    · rintro ⟨k, hk, rfl⟩ hall
      rcases hall (X k) with h | h
      · exact nSX_ne_zero.2 ⟨k, hk, rfl⟩ h
      · exact nSX_ne_zero.2 ⟨k, hk, rfl⟩ h
    · intro h
      push Not at h
      obtain ⟨j, -, h1⟩ := h
      exact nSX_ne_zero.1 h1
  have hcard := card_filter_add_card_filter_not (s := (univ : Finset (Fin n))) (fun j : Fin n => ∀ i, (expected (layer J X Y w) i j : K) = 0)
  rw [card_univ, Fintype.card_fin] at hcard
  rw [hset]
  omega

/-- From the tables of the present configurations `vs` the p-value of the specification is computed. -/
theorem pval_layers (lg : K → K) (sf : K → Int → K) (gsq : Bool) (J : Fin N → Nat) (X : Fin N → Fin m) (Y : Fin N → Fin n) (vs : List Nat)
    (hnd : vs.Nodup) (hvs : ∀ w, w ∈ vs ↔ ∃ k, J k = w) : pval lg sf gsq (vs.map (layer J X Y)) = pvalue lg sf gsq J X Y := by
  have himg : vs.toFinset = univ.image J := by ext w; simp [hvs]
  have hd : dof K (vs.map (layer J X Y)) = df J X Y := by
    unfold dof df
    rw [List.map_map, ← himg, List.sum_toFinset _ hnd]
    refine congrArg List.sum (List.map_congr_left fun w hw => ?_)
    have := (hvs w).1 hw
    simp only [Function.comp]
    rw [rows_spec J X Y this, cols_spec J X Y this]
  have hsub : ∀ (F : Nat → Fin m → Fin n → K), (∀ w i j, nSXY J X Y w i j = 0 → (nSX J X w i = 0 ∨ nSX J Y w j = 0) → F w i j = 0) →
      ∀ w, ∑ i, ∑ j, F w i j = ∑ i ∈ univ.image X, ∑ j ∈ univ.image Y, F w i j := by
    intro F hF w
    have hz : ∀ i j, (i ∉ univ.image X ∨ j ∉ univ.image Y) → F w i j = 0 := by
      intro i j hij
      have h := nSXY_le J X Y w i j
      have : nSX J X w i = 0 ∨ nSX J Y w j = 0 := by
        by_contra hc
        push Not at hc
        obtain ⟨k, -, hk⟩ := nSX_ne_zero.1 hc.1
        obtain ⟨l, -, hl⟩ := nSX_ne_zero.1 hc.2
        rcases hij with hij | hij
        · exact hij (mem_image.2 ⟨k, mem_univ _, hk⟩)
        · exact hij (mem_image.2 ⟨l, mem_univ _, hl⟩)
      exact hF w i j (by omega) this
    rw [← sum_subset (subset_univ (univ.image X)) fun i _ hi => sum_eq_zero fun j _ => hz i j (Or.inl hi)]
    refine sum_congr rfl fun i _ => ?_
    rw [← sum_subset (subset_univ (univ.image Y)) fun j _ hj => hz i j (Or.inr hj)]
  have hs : stat lg gsq (vs.map (layer J X Y)) = if gsq then g2 lg J X Y else chi2 J X Y := by
    unfold stat
    dsimp only
    rw [List.map_map]
    have : ∀ w, ((fun t : (Fin m → Fin n → Nat) × Nat => ∑ i, ∑ j, cell lg gsq ((t.1 i j : Nat) : K) (expected t i j)) ∘ layer J X Y) w =
        ∑ i ∈ univ.image X, ∑ j ∈ univ.image Y,
        if gsq then (if nSXY J X Y w i j = 0 then 0 else (nSXY J X Y w i j : K) * lg ((nSXY J X Y w i j : K) / ex J X Y w i j))
        else if nSX J X w i = 0 ∨ nSX J Y w j = 0 then 0 else ((nSXY J X Y w i j : K) - ex J X Y w i j) ^ 2 / ex J X Y w i j := by
      intro w
      simp only [Function.comp, cell_spec]
      refine hsub (fun w i j => if gsq then (if nSXY J X Y w i j = 0 then 0 else (nSXY J X Y w i j : K) * lg ((nSXY J X Y w i j : K) / ex J X Y w i j))
        else if nSX J X w i = 0 ∨ nSX J Y w j = 0 then 0 else ((nSXY J X Y w i j : K) - ex J X Y w i j) ^ 2 / ex J X Y w i j) ?_ w
      intro w i j h1 h2
      simp [h1, h2]
    rw [List.map_congr_left fun w _ => this w]
    rw [← List.sum_toFinset _ hnd, himg]
    cases gsq
    · simp only [Bool.false_eq_true, if_false]; rfl
    · simp only [if_true]; rfl
  unfold pval pvalue
  rw [hd, hs]


/-! ### Recoding -/

theorem mem_insU (a b : Int) (l : List Int) : b ∈ insU a l ↔ b = a ∨ b ∈ l := by
  induction l with
  | nil => simp [insU]
  | cons c l ih => unfold insU; grind

theorem insU_sorted (a : Int) (l : List Int) (h : l.Pairwise (· < ·)) : (insU a l).Pairwise (· < ·) := by
  induction l with
  | nil => simp [insU]
  | cons c l ih =>
    rw [List.pairwise_cons] at h
    unfold insU
    split
    · rename_i hac
      refine List.pairwise_cons.2 ⟨?_, List.pairwise_cons.2 h⟩
      intro b hb
      rcases List.mem_cons.1 hb with rfl | hb
      · exact hac
      · exact Int.lt_trans hac (h.1 b hb)
    · split
      · exact List.pairwise_cons.2 h
      · refine List.pairwise_cons.2 ⟨?_, ih h.2⟩
        intro b hb
        rcases (mem_insU a b l).1 hb with rfl | hb
        · omega
        · exact h.1 b hb

theorem mem_uniq (b : Int) (l : List Int) : b ∈ uniq l ↔ b ∈ l := by
  unfold uniq
  induction l with
  | nil => simp
  | cons a l ih => rw [List.foldr_cons, mem_insU, ih, List.mem_cons]

theorem uniq_sorted (l : List Int) : (uniq l).Pairwise (· < ·) := by
  unfold uniq
  induction l with
  | nil => simp
  | cons a l ih => rw [List.foldr_cons]; exact insU_sorted _ _ ih

theorem uniq_nodup (l : List Int) : (uniq l).Nodup := (uniq_sorted l).imp fun h => by omega

theorem uniq_length (l : List Int) : (uniq l).length = l.toFinset.card := by
  rw [← List.toFinset_card_of_nodup (uniq_nodup l)]
  refine congrArg Finset.card ?_
  ext b; simp [mem_uniq]

theorem code_lt {l : List Int} {a : Int} (h : a ∈ l) : (uniq l).idxOf a < (uniq l).length := List.idxOf_lt_length_of_mem ((mem_uniq _ _).2 h)

theorem code_inj {l : List Int} {a b : Int} (ha : a ∈ l) (hb : b ∈ l) : (uniq l).idxOf a = (uniq l).idxOf b ↔ a = b := by
  refine ⟨fun h => ?_, fun h => by rw [h]⟩
  have h1 := List.getElem_idxOf (code_lt ha)
  have h2 := List.getElem_idxOf (code_lt hb)
  rw [← h1, ← h2]; simp only [h]

theorem foldl_max (l : List Int) (a : Int) : (∀ b ∈ l, b ≤ l.foldl max a) ∧ a ≤ l.foldl max a ∧ (l.foldl max a = a ∨ l.foldl max a ∈ l) := by
  induction l generalizing a with
  | nil => simp
  | cons c l ih =>
    obtain ⟨h1, h2, h3⟩ := ih (max a c)
    rw [List.foldl_cons]
    refine ⟨?_, ?_, ?_⟩
    · intro b hb
      rcases List.mem_cons.1 hb with rfl | hb
      · omega
      · exact h1 b hb
    · omega
    · rcases h3 with h3 | h3
      · rw [h3, List.mem_cons]; omega
      · right; exact List.mem_cons_of_mem _ h3

/-- The cardinality of a column is the number of its distinct values. -/
theorem card_eq {l : List Int} (h : l ≠ []) : card l = (l.toFinset.card : Int) := by
  obtain ⟨a, ha⟩ := List.exists_mem_of_ne_nil l h
  have hpos : 0 < (uniq l).length := List.length_pos_of_mem ((mem_uniq _ _).2 ha)
  obtain ⟨h1, h2, h3⟩ := foldl_max (inverse l) 0
  rw [← uniq_length]
  unfold card
  have hlast : (((uniq l).length - 1 : Nat) : Int) ∈ inverse l := by
    unfold inverse
    refine List.mem_map.2 ⟨(uniq l)[(uniq l).length - 1]'(by omega), (mem_uniq _ _).1 (List.getElem_mem _), ?_⟩
    rw [(uniq_nodup l).idxOf_getElem]
  have h4 := h1 _ hlast
  have h5 : (inverse l).foldl max 0 < (uniq l).length := by
    rcases h3 with h3 | h3
    · omega
    · unfold inverse at h3 ⊢
      obtain ⟨b, hb, he⟩ := List.mem_map.1 h3
      rw [← he]; exact_mod_cast code_lt hb
  omega

/-! ### The index of a configuration -/

theorem w64_id {x : Nat} (h : x < 2 ^ 63) : w64 (x : Int) = x := by
  unfold w64
  rw [Int.bmod_eq_of_le] <;> omega

/-- The number of a configuration in mixed radix. -/
def val : List Nat → List Nat → Nat
  | _ :: cs, r :: rs => r * cs.prod + val cs rs
  | _, _ => 0

theorem val_lt {cs rs : List Nat} (h : List.Forall₂ (fun c r => r < c) cs rs) : val cs rs < cs.prod := by
  induction h with
  | nil => simp [val]
  | @cons c r cs rs h _ ih =>
    rw [val, List.prod_cons]
    calc r * cs.prod + val cs rs < r * cs.prod + cs.prod := by omega
      _ = (r + 1) * cs.prod := by rw [Nat.add_mul, Nat.one_mul]
      _ ≤ c * cs.prod := Nat.mul_le_mul_right _ h

theorem radix_inj {p a b x y : Nat} (hx : x < p) (hy : y < p) (h : a * p + x = b * p + y) : a = b ∧ x = y := by
  have hp : 0 < p := by omega
  have e1 : (a * p + x) / p = a := by rw [Nat.add_comm, Nat.add_mul_div_right _ _ hp, Nat.div_eq_of_lt hx, Nat.zero_add]
  have e2 : (b * p + y) / p = b := by rw [Nat.add_comm, Nat.add_mul_div_right _ _ hp, Nat.div_eq_of_lt hy, Nat.zero_add]
  have : a = b := by rw [← e1, ← e2, h]
  subst this
  exact ⟨rfl, by omega⟩

theorem val_inj {cs rs rs' : List Nat} (h : List.Forall₂ (fun c r => r < c) cs rs) (h' : List.Forall₂ (fun c r => r < c) cs rs')
    (e : val cs rs = val cs rs') : rs = rs' := by
  induction h generalizing rs' with
  | nil => cases h'; rfl
  | @cons c r cs rs hr hrs ih =>
    cases h' with
    | @cons _ r' _ rs' hr' hrs' =>
      rw [val, val] at e
      obtain ⟨e1, e2⟩ := radix_inj (val_lt hrs) (val_lt hrs') e
      rw [e1, ih hrs' e2]

theorem val_append {cs rs : List Nat} (m n x y : Nat) (h : List.Forall₂ (fun c r => r < c) cs rs) :
    val (cs ++ [m, n]) (rs ++ [x, y]) = (val cs rs * m + x) * n + y := by
  induction h with
  | nil => simp [val]
  | @cons c r cs rs hr _ ih =>
    rw [List.cons_append, List.cons_append, val, ih, val, List.prod_append]
    simp only [List.prod_cons, List.prod_nil, mul_one]
    ring

theorem weights_cons (c : Int) (cs : List Int) : weights (c :: cs) = (w64 ((weights cs).1 * c), (weights cs).1 :: (weights cs).2) := rfl

theorem prod_pos {cs : List Nat} (h : ∀ c ∈ cs, 0 < c) : 0 < cs.prod := by
  induction cs with
  | nil => simp
  | cons c cs ih =>
    rw [List.prod_cons]
    exact Nat.mul_pos (h c (by simp)) (ih fun d hd => h d (by simp [hd]))

theorem weights_fst {cs : List Nat} (h : ∀ c ∈ cs, 0 < c) (hp : cs.prod < 2 ^ 63) : (weights (cs.map (fun c : Nat => (c : Int)))).1 = (cs.prod : Nat) := by
  induction cs with
  | nil => rfl
  | cons c cs ih =>
    rw [List.prod_cons] at hp
    have hc := h c (by simp)
    have : cs.prod ≤ c * cs.prod := Nat.le_mul_of_pos_left _ hc
    rw [List.map_cons, weights_cons, ih (fun d hd => h d (by simp [hd])) (by omega)]
    dsimp only
    rw [← Int.natCast_mul, w64_id (by rw [Nat.mul_comm]; exact hp), List.prod_cons, Nat.mul_comm]

theorem dot_aux {cs rs : List Nat} (h : List.Forall₂ (fun c r => r < c) cs rs) (hp : cs.prod < 2 ^ 63) (a : Nat) (ha : a + val cs rs < 2 ^ 63) :
    (List.zipWith (fun a b => w64 (a * b)) (weights (cs.map (fun c : Nat => (c : Int)))).2 (rs.map (fun c : Nat => (c : Int)))).foldl (fun a b => w64 (a + b)) a =
      ((a + val cs rs : Nat) : Int) := by
  induction h generalizing a with
  | nil => simp [val, weights]
  | @cons c r cs rs hr hrs ih =>
    rw [val] at ha ⊢
    have hc : 0 < c := by omega
    have hpos : ∀ d ∈ cs, 0 < d := by
      clear ih ha hp
      induction hrs with
      | nil => simp
      | cons h1 _ ih => intro d hd; rcases List.mem_cons.1 hd with rfl | hd; omega; exact ih d hd
    rw [List.prod_cons] at hp
    have hle : cs.prod ≤ c * cs.prod := Nat.le_mul_of_pos_left _ hc
    rw [List.map_cons, List.map_cons, weights_cons, List.zipWith_cons_cons, List.foldl_cons, weights_fst hpos (by omega), ← Int.natCast_mul,
      w64_id (by rw [Nat.mul_comm]; omega), ← Int.natCast_add, w64_id (by rw [Nat.mul_comm]; omega), ih (by omega) _ (by rw [Nat.mul_comm]; omega)]
    rw [Nat.mul_comm, Nat.add_assoc]

theorem dot_eq {cs rs : List Nat} (h : List.Forall₂ (fun c r => r < c) cs rs) (hp : cs.prod < 2 ^ 63) :
    dot (weights (cs.map (fun c : Nat => (c : Int)))).2 (rs.map (fun c : Nat => (c : Int))) = (val cs rs : Nat) := by
  have := dot_aux h hp 0 (by have := val_lt h; omega)
  unfold dot
  simpa using this

/-! ### Counting -/

theorem count_finRange {A : Type} [DecidableEq A] (f : Fin N → A) (a : A) : ((List.finRange N).map f).count a = #{k | f k = a} := by
  rw [List.count_eq_countP, List.countP_map, List.countP_eq_length_filter]
  rw [← List.toFinset_card_of_nodup ((List.nodup_finRange N).filter _)]
  refine congrArg Finset.card ?_
  ext k; simp

theorem bincount_layers (J : Fin N → Nat) (X : Fin N → Fin m) (Y : Fin N → Fin n) (kk : Nat) (hJ : ∀ k, J k < kk) :
    bincount3 ((List.finRange N).map fun k => (((J k * m + (X k).1) * n + (Y k).1 : Nat) : Int)) kk m n =
      some ((List.range kk).map fun w => (layer J X Y w).1) := by
  unfold bincount3
  rw [if_pos]
  · refine congrArg some (List.map_congr_left fun w _ => ?_)
    funext i j
    rw [count_finRange]
    unfold layer nSXY
    refine congrArg Finset.card (filter_congr fun k _ => ?_)
    constructor
    · intro h
      have h' := Int.ofNat.inj h
      obtain ⟨e1, e2⟩ := radix_inj (Y k).2 j.2 h'
      obtain ⟨e3, e4⟩ := radix_inj (X k).2 i.2 e1
      exact ⟨e3, Fin.ext e4, Fin.ext e2⟩
    · rintro ⟨rfl, rfl, rfl⟩; rfl
  · rw [List.all_eq_true]
    intro z hz
    obtain ⟨k, -, rfl⟩ := List.mem_map.1 hz
    rw [decide_eq_true_iff]
    refine ⟨by omega, ?_⟩
    have h1 := hJ k
    have h2 := (X k).2
    have h3 := (Y k).2
    have e : (J k * m + (X k).1) * n + (Y k).1 < kk * m * n := by
      have a1 : J k * m + (X k).1 < kk * m := by
        calc J k * m + (X k).1 < J k * m + m := by omega
          _ = (J k + 1) * m := by rw [Nat.add_mul, Nat.one_mul]
          _ ≤ kk * m := Nat.mul_le_mul_right _ h1
      calc (J k * m + (X k).1) * n + (Y k).1 < (J k * m + (X k).1) * n + n := by omega
        _ = (J k * m + (X k).1 + 1) * n := by rw [Nat.add_mul _ 1, Nat.one_mul]
        _ ≤ kk * m * n := Nat.mul_le_mul_right _ a1
    exact_mod_cast e

/-- The coded samples. -/
def samples (R : Fin N → List Nat) (X : Fin N → Fin m) (Y : Fin N → Fin n) : List Sample :=
  (List.finRange N).map fun k => ((R k).map fun c : Nat => (c : Int), ((X k).1 : Int), ((Y k).1 : Int))

/-- What the three ways of filling the tables have in common. -/
def Filled (R : Fin N → List Nat) (X : Fin N → Fin m) (Y : Fin N → Fin n) (t : Option (List ((Fin m → Fin n → Nat) × Nat))) : Prop :=
  ∃ (J : Fin N → Nat) (vs : List Nat), t = some (vs.map (layer J X Y)) ∧ vs.Nodup ∧ (∀ w, w ∈ vs ↔ ∃ k, J k = w) ∧ ∀ k l, J k = J l ↔ R k = R l

theorem fillBincount_filled {cs : List Nat} (R : Fin N → List Nat) (X : Fin N → Fin m) (Y : Fin N → Fin n)
    (hR : ∀ k, List.Forall₂ (fun c r => r < c) cs (R k)) (hc : ∀ c ∈ cs, 0 < c) (hm : 0 < m) (hn : 0 < n) (hp : (cs ++ [m, n]).prod < 2 ^ 63) :
    Filled R X Y (fillBincount (samples R X Y) (cs.map fun c : Nat => (c : Int)) m n) := by
  have hp' : cs.prod < 2 ^ 63 := by
    rw [List.prod_append] at hp
    have : 0 < [m, n].prod := by simpa using Nat.mul_pos hm hn
    have := Nat.le_mul_of_pos_right cs.prod this
    omega
  refine ⟨fun k => val cs (R k), (List.range cs.prod).filter fun w => nS (fun k => val cs (R k)) w ≠ 0, ?_, List.nodup_range.filter _, ?_, ?_⟩
  · unfold fillBincount
    dsimp only
    have e1 : (samples R X Y).map (fun r => dot (weights (cs.map (fun c : Nat => (c : Int)) ++ [(m : Int), (n : Int)])).2 (r.1 ++ [r.2.1, r.2.2])) =
        (List.finRange N).map fun k => (((val cs (R k) * m + (X k).1) * n + (Y k).1 : Nat) : Int) := by
      unfold samples
      rw [List.map_map]
      refine List.map_congr_left fun k _ => ?_
      simp only [Function.comp]
      have h2 : List.Forall₂ (fun c r => r < c) (cs ++ [m, n]) (R k ++ [(X k).1, (Y k).1]) :=
        List.rel_append (hR k) (.cons (X k).2 (.cons (Y k).2 .nil))
      have := dot_eq h2 hp
      rw [val_append _ _ _ _ (hR k)] at this
      simpa using this
    rw [e1, weights_fst hc hp', Int.toNat_natCast, bincount_layers _ X Y _ fun k => val_lt (hR k)]
    simp only [Option.map_some, List.map_map]
    refine congrArg some ?_
    have e2 : ((fun t : Fin m → Fin n → Nat => (t, total t)) ∘ fun w => (layer (fun k => val cs (R k)) X Y w).1) = layer (fun k => val cs (R k)) X Y := by
      funext w
      simp only [Function.comp, layer_total]; rfl
    rw [e2, List.filter_map]
    rfl
  · intro w
    rw [List.mem_filter, List.mem_range]
    have : nS (fun k => val cs (R k)) w ≠ 0 ↔ ∃ k, val cs (R k) = w := by
      unfold nS
      rw [ne_eq, card_eq_zero, ← ne_eq, ← nonempty_iff_ne_empty]
      exact ⟨fun ⟨k, hk⟩ => ⟨k, by simpa using hk⟩, fun ⟨k, hk⟩ => ⟨k, by simpa using hk⟩⟩
    rw [decide_eq_true_iff, this]
    refine ⟨fun h => h.2, fun h => ⟨?_, h⟩⟩
    obtain ⟨k, rfl⟩ := h
    exact val_lt (hR k)
  · intro k l
    exact ⟨val_inj (hR k) (hR l), fun h => by simp only [h]⟩

theorem fillUnique_filled {cs : List Nat} (R : Fin N → List Nat) (X : Fin N → Fin m) (Y : Fin N → Fin n)
    (hR : ∀ k, List.Forall₂ (fun c r => r < c) cs (R k)) (hc : ∀ c ∈ cs, 0 < c) (hm : 0 < m) (hn : 0 < n) (hp : (cs ++ [m, n]).prod < 2 ^ 63) :
    Filled R X Y (fillUnique (samples R X Y) (cs.map fun c : Nat => (c : Int)) m n) := by
  have hp2 : cs.prod * (m * n) < 2 ^ 63 := by simpa using hp
  have hp' : cs.prod < 2 ^ 63 := by
    have := Nat.le_mul_of_pos_right cs.prod (Nat.mul_pos hm hn)
    omega
  set sidx : List Int := (List.finRange N).map fun k => ((val cs (R k) : Nat) : Int) with hs
  have e1 : (samples R X Y).map (fun r => dot (weights (cs.map (fun c : Nat => (c : Int)))).2 r.1) = sidx := by
    unfold samples
    rw [List.map_map, hs]
    refine List.map_congr_left fun k _ => ?_
    simp only [Function.comp]
    exact dot_eq (hR k) hp'
  have hmem : ∀ k, ((val cs (R k) : Nat) : Int) ∈ sidx := fun k => List.mem_map.2 ⟨k, List.mem_finRange k, rfl⟩
  set J : Fin N → Nat := fun k => (uniq sidx).idxOf ((val cs (R k) : Nat) : Int) with hJ
  have hJlt : ∀ k, J k < (uniq sidx).length := fun k => code_lt (hmem k)
  -- there are no more present configurations than configurations
  have hlen : (uniq sidx).length ≤ cs.prod := by
    rw [uniq_length]
    have : sidx.toFinset ⊆ (Finset.range cs.prod).image fun w : Nat => (w : Int) := by
      intro b hb
      rw [List.mem_toFinset, hs] at hb
      obtain ⟨k, -, rfl⟩ := List.mem_map.1 hb
      exact mem_image.2 ⟨_, mem_range.2 (val_lt (hR k)), rfl⟩
    calc sidx.toFinset.card ≤ _ := card_le_card this
      _ ≤ _ := card_image_le
      _ = cs.prod := card_range _
  have e2 : List.zipWith (fun v (r : Sample) => w64 (w64 (w64 (w64 (v * m) * n) + w64 (r.2.1 * n)) + r.2.2)) (inverse sidx) (samples R X Y) =
      (List.finRange N).map fun k => (((J k * m + (X k).1) * n + (Y k).1 : Nat) : Int) := by
    unfold inverse samples
    rw [hs, List.map_map, ← hs, List.zipWith_map, List.zipWith_self]
    refine List.map_congr_left fun k _ => ?_
    simp only [Function.comp]
    have h1 : J k + 1 ≤ cs.prod := by have := hJlt k; omega
    have h2 := (X k).2
    have h3 := (Y k).2
    have a1 : (J k + 1) * (m * n) ≤ cs.prod * (m * n) := Nat.mul_le_mul_right _ h1
    rw [Nat.add_mul, Nat.one_mul] at a1
    have a2 : ((X k).1 + 1) * n ≤ m * n := Nat.mul_le_mul_right _ h2
    rw [Nat.add_mul, Nat.one_mul] at a2
    have a3 : J k * m * 1 ≤ J k * m * n := Nat.mul_le_mul_left _ hn
    have a4 : J k * m * n = J k * (m * n) := Nat.mul_assoc _ _ _
    have : (uniq sidx).idxOf ((val cs (R k) : Nat) : Int) = J k := rfl
    rw [this]
    rw [← Int.natCast_mul, w64_id (by omega), ← Int.natCast_mul, w64_id (by omega), ← Int.natCast_mul, w64_id (by omega), ← Int.natCast_add,
      w64_id (by omega), ← Int.natCast_add, w64_id (by omega), Nat.add_mul]
  refine ⟨J, List.range (uniq sidx).length, ?_, List.nodup_range, ?_, ?_⟩
  · unfold fillUnique
    dsimp only
    rw [e1, e2, bincount_layers J X Y _ hJlt, Option.map_some]
    refine congrArg some (List.ext_getElem (by simp) ?_)
    intro i h1 h2
    have hi : i < (uniq sidx).length := by simpa using h2
    simp only [List.getElem_zip, List.getElem_map, List.getElem_range]
    refine Prod.ext rfl ?_
    change sidx.count (uniq sidx)[i] = nS J i
    rw [show sidx.count (uniq sidx)[i] = _ from count_finRange (fun k => ((val cs (R k) : Nat) : Int)) (uniq sidx)[i]]
    unfold nS
    refine congrArg Finset.card (filter_congr fun k _ => ?_)
    constructor
    · intro h
      rw [hJ]; dsimp only
      rw [h, (uniq_nodup sidx).idxOf_getElem]
    · intro h
      have := List.getElem_idxOf (hJlt k)
      rw [← this]
      simp only [hJ] at h
      simp only [h]
  · intro w
    rw [List.mem_range]
    constructor
    · intro hw
      have := (mem_uniq _ _).1 (List.getElem_mem hw)
      obtain ⟨k, -, hk⟩ := List.mem_map.1 this
      refine ⟨k, ?_⟩
      rw [hJ]; dsimp only
      rw [hk, (uniq_nodup sidx).idxOf_getElem]
    · rintro ⟨k, rfl⟩; exact hJlt k
  · intro k l
    rw [hJ]; dsimp only
    rw [code_inj (hmem k) (hmem l)]
    exact ⟨fun h => val_inj (hR k) (hR l) (by exact_mod_cast h), fun h => by rw [h]⟩

theorem fill2_index (X : Fin N → Fin m) (Y : Fin N → Fin n) (hp : m * n < 2 ^ 63) (k : Fin N) :
    w64 (w64 (((X k).1 : Int) * n) + ((Y k).1 : Int)) = (((0 * m + (X k).1) * n + (Y k).1 : Nat) : Int) := by
  have h2 := (X k).2
  have h3 := (Y k).2
  have a2 : ((X k).1 + 1) * n ≤ m * n := Nat.mul_le_mul_right _ h2
  rw [Nat.add_mul, Nat.one_mul] at a2
  have b1 : (X k).1 * n < 2 ^ 63 := Nat.lt_of_le_of_lt (Nat.le_trans (Nat.le_add_right _ _) a2) hp
  have b2 : (X k).1 * n + (Y k).1 < 2 ^ 63 := Nat.lt_of_le_of_lt (Nat.le_trans (Nat.add_le_add_left (Nat.le_of_lt h3) _) a2) hp
  rw [← Int.natCast_mul, w64_id b1, ← Int.natCast_add, w64_id b2, Nat.zero_mul, Nat.zero_add]

theorem samples_map {A : Type} (R : Fin N → List Nat) (X : Fin N → Fin m) (Y : Fin N → Fin n) (f : Sample → A) :
    (samples R X Y).map f = (List.finRange N).map fun k => f ((R k).map fun c : Nat => (c : Int), ((X k).1 : Int), ((Y k).1 : Int)) := by
  unfold samples
  rw [List.map_map]
  rfl

theorem fill2_filled (R : Fin N → List Nat) (X : Fin N → Fin m) (Y : Fin N → Fin n) (hR : ∀ k, R k = []) (hN : 0 < N)
    (hp : m * n < 2 ^ 63) : Filled R X Y (fill2 (samples R X Y) m n) := by
  refine ⟨fun _ => 0, [0], ?_, by simp, ?_, ?_⟩
  · unfold fill2
    rw [samples_map, List.map_congr_left fun k _ => fill2_index X Y hp k, bincount_layers (fun _ => 0) X Y 1 fun _ => Nat.one_pos]
    have hl : (samples R X Y).length = N := by simp [samples]
    have hn : nS (fun _ : Fin N => 0) 0 = N := by simp [nS]
    rw [hl, Option.map_some, List.map_map]
    refine congrArg some ?_
    rw [List.range_one, List.map_singleton, List.map_singleton]
    unfold layer
    simp only [Function.comp, hn]
  · intro w
    simp only [List.mem_singleton]
    exact ⟨fun h => ⟨⟨0, hN⟩, h.symm⟩, fun ⟨_, h⟩ => h.symm⟩
  · intro k l; simp [hR]


/-- The test on coded samples. -/
theorem test_spec (lg : K → K) (sf : K → Int → K) (gsq : Bool) {cs : List Nat} (R : Fin N → List Nat) (X : Fin N → Fin m) (Y : Fin N → Fin n)
    (hN : 0 < N) (hR : ∀ k, List.Forall₂ (fun c r => r < c) cs (R k)) (hp : (cs ++ [m, n]).prod < 2 ^ 63) :
    test lg sf gsq (samples R X Y) (cs.map fun c : Nat => (c : Int)) m n = some (pvalue lg sf gsq R X Y) := by
  have hm : 0 < m := Nat.lt_of_le_of_lt (Nat.zero_le _) (X ⟨0, hN⟩).2
  have hn : 0 < n := Nat.lt_of_le_of_lt (Nat.zero_le _) (Y ⟨0, hN⟩).2
  have hc : ∀ c ∈ cs, 0 < c := by
    have h := hR ⟨0, hN⟩
    generalize R ⟨0, hN⟩ = r at h
    clear hp hR
    intro c hc
    induction h with
    | nil => simp at hc
    | cons h1 _ ih => rcases List.mem_cons.1 hc with rfl | hc; omega; exact ih hc
  have key : Filled R X Y (if (cs.map fun c : Nat => (c : Int)) = [] then fill2 (samples R X Y) m n else
      fill3 (samples R X Y) (cs.map fun c : Nat => (c : Int)) m n) := by
    split
    · rename_i h
      have h' : cs = [] := by simpa using h
      subst h'
      exact fill2_filled R X Y (fun k => List.forall₂_nil_left_iff.1 (hR k)) hN (by simpa using hp)
    · unfold fill3
      dsimp only
      split
      · exact fillBincount_filled R X Y hR hc hm hn hp
      · exact fillUnique_filled R X Y hR hc hm hn hp
  obtain ⟨J, vs, e, hnd, hvs, hJ⟩ := key
  unfold test
  rw [e, Option.map_some, pval_layers lg sf gsq J X Y vs hnd hvs, pvalue_congr lg sf gsq hJ (fun _ _ => Iff.rfl) (fun _ _ => Iff.rfl)]

/-- The code of a value. -/
def code {V : Type} (cols : V → Fin N → Int) (v : V) (k : Fin N) : Nat := (uniq (List.ofFn (cols v))).idxOf (cols v k)

theorem ofFn_toFinset (f : Fin N → Int) : (List.ofFn f).toFinset = univ.image f := by ext a; simp

theorem code_lt' {V : Type} (cols : V → Fin N → Int) (v : V) (k : Fin N) : code cols v k < #(univ.image (cols v)) := by
  rw [← ofFn_toFinset, ← uniq_length]
  exact code_lt (List.mem_ofFn.2 ⟨k, rfl⟩)

theorem code_inj' {V : Type} (cols : V → Fin N → Int) (v : V) (k l : Fin N) : code cols v k = code cols v l ↔ cols v k = cols v l :=
  code_inj (List.mem_ofFn.2 ⟨k, rfl⟩) (List.mem_ofFn.2 ⟨l, rfl⟩)

theorem inverse_getD {V : Type} (cols : V → Fin N → Int) (v : V) (k : Fin N) :
    (inverse (List.ofFn (cols v))).getD k.1 0 = (code cols v k : Int) := by
  unfold inverse
  simp [code, List.getD_eq_getElem?_getD]

theorem call_spec (lg : K → K) (sf : K → Int → K) (gsq : Bool) {V : Type} (cols : V → Fin N → Int) (x y : V) (S : List V) (hN : 0 < N)
    (hp : (S.map fun v => #(univ.image (cols v))).prod * #(univ.image (cols x)) * #(univ.image (cols y)) < 2 ^ 63) :
    call lg sf gsq cols x y S = some (pvalue lg sf gsq (fun k => S.map fun v => cols v k) (cols x) (cols y)) := by
  have hcard : ∀ v, card (List.ofFn (cols v)) = (#(univ.image (cols v)) : Int) := by
    intro v
    rw [card_eq (by rw [← List.length_pos_iff_ne_nil]; simpa using hN), ofFn_toFinset]
  unfold call
  dsimp only
  simp only [hcard, Int.toNat_natCast, inverse_getD]
  have e : (S.map fun v => (#(univ.image (cols v)) : Int)) = (S.map fun v => #(univ.image (cols v))).map fun c : Nat => (c : Int) := by
    rw [List.map_map]; rfl
  have e2 : ((List.finRange N).map fun k => ((S.map fun v => (code cols v k : Int)), (code cols x k : Int), (code cols y k : Int))) =
      samples (fun k => S.map fun v => code cols v k) (fun k => (⟨code cols x k, code_lt' cols x k⟩ : Fin #(univ.image (cols x))))
        (fun k => (⟨code cols y k, code_lt' cols y k⟩ : Fin #(univ.image (cols y)))) := by
    unfold samples
    simp only [List.map_map]; rfl
  rw [e, e2, test_spec lg sf gsq _ _ _ hN]
  · refine congrArg some (pvalue_congr lg sf gsq ?_ ?_ ?_)
    · intro k l
      rw [List.map_inj_left, List.map_inj_left]
      exact forall₂_congr fun v _ => code_inj' cols v k l
    · intro k l; rw [Fin.mk.injEq]; exact code_inj' cols x k l
    · intro k l; rw [Fin.mk.injEq]; exact code_inj' cols y k l
  · intro k
    rw [List.forall₂_map_left_iff, List.forall₂_map_right_iff, List.forall₂_same]
    exact fun v _ => code_lt' cols v k
  · rw [List.prod_append]
    simpa [Nat.mul_assoc] using hp

end CL.Chi
