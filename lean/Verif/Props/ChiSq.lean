import Verif.Proofs.ChiSq
import Mathlib.Data.Rat.Cast.CharZero

/-!
# C73: the chi-square and G-square tests compute the textbook p-value
-/
open Finset
namespace CL.Chi
open ChiSpec
variable {N : Nat} {K : Type} [Field K] [DecidableEq K] [CharZero K] {V : Type}

/-- The number of configurations of the tested variables: the product of the numbers of distinct values in their columns. -/
def configurations (cols : V → Fin N → Int) (x y : V) (S : List V) : Nat :=
  (S.map fun v => #(univ.image (cols v))).prod * #(univ.image (cols x)) * #(univ.image (cols y))

/-- **C73.** As long as the number of configurations fits in a signed 64-bit integer the returned value is the textbook p-value of the samples: the
three ways of counting (two-way table, one big table, only the configurations that occur) make no difference, nor do the codes given to the
values. -/
theorem C73_textbook_p_value (lg : K → K) (sf : K → Int → K) (gsq : Bool) (cols : V → Fin N → Int) (x y : V) (S : List V) (hN : 0 < N)
    (hsize : configurations cols x y S < 2 ^ 63) :
    call lg sf gsq cols x y S = some (pvalue lg sf gsq (fun k => S.map fun v => cols v k) (cols x) (cols y)) :=
  call_spec lg sf gsq cols x y S hN hsize

theorem configurations_pos (cols : V → Fin N → Int) (hN : 0 < N) (v : V) : 0 < #(univ.image (cols v)) :=
  card_pos.2 ⟨cols v ⟨0, hN⟩, mem_image_of_mem _ (mem_univ _)⟩

/-- The test is symmetric in the two variables. -/
theorem C73_symmetric (lg : K → K) (sf : K → Int → K) (gsq : Bool) (cols : V → Fin N → Int) (x y : V) (S : List V) (hN : 0 < N)
    (hsize : configurations cols x y S < 2 ^ 63) : call lg sf gsq cols x y S = call lg sf gsq cols y x S := by
  rw [call_spec lg sf gsq cols x y S hN hsize, call_spec lg sf gsq cols y x S hN (by unfold configurations at hsize; rwa [Nat.mul_right_comm]),
    pvalue_swap]

/-- The order of the samples does not matter. -/
theorem C73_sample_order (lg : K → K) (sf : K → Int → K) (gsq : Bool) (cols : V → Fin N → Int) (x y : V) (S : List V) (hN : 0 < N)
    (hsize : configurations cols x y S < 2 ^ 63) (σ : Equiv.Perm (Fin N)) :
    call lg sf gsq (fun v => cols v ∘ σ) x y S = call lg sf gsq cols x y S := by
  have im : ∀ v, univ.image (cols v ∘ σ) = univ.image (cols v) := by
    intro v; ext d; simp only [mem_image, mem_univ, true_and, Function.comp]
    exact ⟨fun ⟨k, h⟩ => ⟨σ k, h⟩, fun ⟨k, h⟩ => ⟨σ.symm k, by simpa using h⟩⟩
  rw [call_spec lg sf gsq cols x y S hN hsize, call_spec lg sf gsq (fun v => cols v ∘ σ) x y S hN (by simpa only [im, configurations] using hsize)]
  exact congrArg some (pvalue_perm lg sf gsq (fun k => S.map fun v => cols v k) (cols x) (cols y) σ)

/-- The names of the categories do not matter: two data sets in which, in each tested column, the same samples have equal values. -/
theorem C73_category_names (lg : K → K) (sf : K → Int → K) (gsq : Bool) (cols cols' : V → Fin N → Int) (x y : V) (S : List V) (hN : 0 < N)
    (hsize : configurations cols x y S < 2 ^ 63) (h : ∀ v, (v = x ∨ v = y ∨ v ∈ S) → ∀ k l, cols v k = cols v l ↔ cols' v k = cols' v l) :
    call lg sf gsq cols' x y S = call lg sf gsq cols x y S := by
  have hc : ∀ v, (v = x ∨ v = y ∨ v ∈ S) → #(univ.image (cols' v)) = #(univ.image (cols v)) := fun v hv =>
    card_image_congr (fun k l => (h v hv k l).symm) univ
  have e : configurations cols' x y S = configurations cols x y S := by
    unfold configurations
    rw [hc x (Or.inl rfl), hc y (Or.inr (Or.inl rfl)), List.map_congr_left fun v hv => hc v (Or.inr (Or.inr hv))]
  rw [call_spec lg sf gsq cols x y S hN hsize, call_spec lg sf gsq cols' x y S hN (by rw [← e] at hsize; exact hsize)]
  refine congrArg some (pvalue_congr lg sf gsq ?_ (fun k l => (h x (Or.inl rfl) k l).symm) fun k l => (h y (Or.inr (Or.inl rfl)) k l).symm)
  intro k l
  rw [List.map_inj_left, List.map_inj_left]
  exact forall₂_congr fun v hv => (h v (Or.inr (Or.inr hv)) k l).symm

/-- The conditioning set is a set: only its members matter, not their order or how often they are listed. -/
theorem C73_conditioning_set (lg : K → K) (sf : K → Int → K) (gsq : Bool) (cols : V → Fin N → Int) (x y : V) (S T : List V) (hN : 0 < N)
    (hS : configurations cols x y S < 2 ^ 63) (hT : configurations cols x y T < 2 ^ 63) (hST : ∀ v, v ∈ S ↔ v ∈ T) :
    call lg sf gsq cols x y S = call lg sf gsq cols x y T := by
  rw [call_spec lg sf gsq cols x y S hN hS, call_spec lg sf gsq cols x y T hN hT]
  refine congrArg some (pvalue_congr lg sf gsq ?_ (fun _ _ => Iff.rfl) fun _ _ => Iff.rfl)
  intro k l
  rw [List.map_inj_left, List.map_inj_left]
  exact forall_congr' fun v => imp_congr (hST v) Iff.rfl

/-! ### A case that meets the hypotheses -/

/-- Eight samples of three variables; `0` and `1` agree in six samples. -/
def exCols : Fin 3 → Fin 8 → Int := fun v k =>
  (([[5, 5, 5, 5, 9, 9, 9, 9], [1, 1, 1, 2, 2, 2, 2, 1], [0, 0, 7, 7, 7, 7, 0, 7]] : List (List Int)).getD v []).getD k 0

theorem exCols_size : configurations exCols 0 1 [2] < 2 ^ 63 := by decide

/-- Unconditionally the statistic is `2` with one degree of freedom; given the third variable it is `113/36` with two. -/
theorem C73_example : call id (fun s (d : Int) => s + 100 * (d : ℚ)) false exCols (0 : Fin 3) 1 [] = some (102 : ℚ) ∧
    call id (fun s (d : Int) => s + 100 * (d : ℚ)) false exCols (0 : Fin 3) 1 [2] = some (200 + 113 / 36 : ℚ) := by
  decide +kernel

/-! ### Without the bound -/

/-- Three samples: 65 binary conditioning variables `2 … 66`; in sample `1` the first of them is `1`, in sample `2` all others are. -/
def wrapCols : Fin 67 → Fin 3 → Int := fun v k =>
  if v.1 < 2 then (if k = 1 then 1 else 0) else if v.1 = 2 then (if k = 1 then 1 else 0) else (if k = 2 then 1 else 0)

def wrapS : List (Fin 67) := (List.finRange 67).drop 2

/-- **C73, violated without the bound.** With 65 binary conditioning variables the weight of the first is `2^64`, which wraps to `0`: the code
ignores that variable and tests the two samples it separates as one stratum. The textbook test has no degree of freedom (p-value 1, whatever the
distribution), the code returns the survival function at `2` with one degree of freedom. -/
theorem C73_overflow_violated (lg : ℚ → ℚ) (sf : ℚ → Int → ℚ) :
    call lg sf false wrapCols 0 1 wrapS = some (sf 2 1) ∧
    pvalue lg sf false (fun k => wrapS.map fun v => wrapCols v k) (wrapCols 0) (wrapCols 1) = 1 := by
  have hd : (fill3 ((List.finRange 3).map fun k => (wrapS.map fun v => (inverse (List.ofFn (wrapCols v))).getD k.1 0,
      (inverse (List.ofFn (wrapCols 0))).getD k.1 0, (inverse (List.ofFn (wrapCols 1))).getD k.1 0))
      (wrapS.map fun v => card (List.ofFn (wrapCols v))) (card (List.ofFn (wrapCols 0))).toNat (card (List.ofFn (wrapCols 1))).toNat).map
      (fun ts => (dof ℚ ts, (stat id false ts : ℚ))) = some (1, 2) := by decide +kernel
  constructor
  · unfold call test
    dsimp only
    rw [if_neg (by decide)]
    cases h : (fill3 ((List.finRange 3).map fun k => (wrapS.map fun v => (inverse (List.ofFn (wrapCols v))).getD k.1 0,
      (inverse (List.ofFn (wrapCols 0))).getD k.1 0, (inverse (List.ofFn (wrapCols 1))).getD k.1 0))
      (wrapS.map fun v => card (List.ofFn (wrapCols v))) (card (List.ofFn (wrapCols 0))).toNat (card (List.ofFn (wrapCols 1))).toNat) with
    | none => rw [h] at hd; simp at hd
    | some ts =>
      rw [h] at hd
      simp only [Option.map_some, Option.some.injEq, Prod.mk.injEq] at hd
      have hst : stat lg false ts = 2 := hd.2
      rw [Option.map_some]
      unfold pval
      rw [hd.1, hst]; rfl
  · have : df (fun k => wrapS.map fun v => wrapCols v k) (wrapCols 0) (wrapCols 1) = 0 := by decide +kernel
    unfold pvalue
    rw [if_pos this]

end CL.Chi
