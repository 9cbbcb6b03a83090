import Verif.Spec.LinearNonGaussian
import Verif.Proofs.PartialCorr
import Verif.Proofs.LinearModel
import Mathlib.Algebra.BigOperators.Ring.Finset
import Mathlib.Tactic.Linarith
import Mathlib.Tactic.Ring

/-!
# Linear combinations of uncorrelated errors; residuals in terms of their coefficients
-/
namespace Spec
open Relation Finset
variable {N n m : Nat}

section
variable {ι : Type} [Fintype ι]

/-- the sum of squares of an error -/
def ss (e : ι → Fin N → ℝ) (j : ι) : ℝ := ∑ k, e j k ^ 2

/-- the inner product of coefficient vectors that is the inner product of the columns -/
def ip (e : ι → Fin N → ℝ) (a b : ι → ℝ) : ℝ := ∑ j, a j * b j * ss e j

variable {e : ι → Fin N → ℝ}

theorem sum_err_mul (he : Errors e) [DecidableEq ι] (i j : ι) : ∑ k, e i k * e j k = if i = j then ss e i else 0 := by
  split
  · next h => subst h; exact sum_congr rfl fun k _ => (sq (e i k)).symm
  · next h => exact he.orth i j h

theorem sum_comb (he : Errors e) (a : ι → ℝ) (c : ℝ) : ∑ k, comb e a c k = N * c := by
  unfold comb
  rw [sum_add_distrib, sum_comm]
  simp [← mul_sum, he.mean]

theorem sum_comb_mul (he : Errors e) (a b : ι → ℝ) (c : ℝ) : ∑ k, comb e a 0 k * comb e b c k = ip e a b := by
  classical
  have h1 : ∀ k, comb e a 0 k * comb e b c k = c * comb e a 0 k + ∑ i, ∑ j, a i * b j * (e i k * e j k) := by
    intro k
    unfold comb
    rw [zero_add, mul_add, sum_mul_sum]
    congr 1
    · ring
    · exact sum_congr rfl fun i _ => sum_congr rfl fun j _ => by ring
  rw [sum_congr rfl fun k _ => h1 k, sum_add_distrib, ← mul_sum, sum_comb he, mul_zero, mul_zero, zero_add, sum_comm]
  unfold ip
  refine sum_congr rfl fun i _ => ?_
  rw [sum_comm]
  have : ∀ j, ∑ k, a i * b j * (e i k * e j k) = if j = i then a i * b i * ss e i else 0 := by
    intro j
    rw [← mul_sum, sum_err_mul he i j]
    by_cases h : i = j
    · subst h; simp
    · rw [if_neg h, if_neg fun h' => h h'.symm, mul_zero]
  rw [sum_congr rfl fun j _ => this j]
  simp

theorem cov_comb (he : Errors e) (a b : ι → ℝ) (c d : ℝ) :
    ∑ k, (comb e a c k - (∑ k, comb e a c k) / N) * (comb e b d k - (∑ k, comb e b d k) / N) = ip e a b := by
  rw [sum_comb he, sum_comb he, ← sum_comb_mul he a b 0]
  refine sum_congr rfl fun k _ => ?_
  have hN : (N : ℝ) ≠ 0 := by
    have := k.pos
    exact_mod_cast this.ne'
  rw [mul_div_cancel_left₀ _ hN, mul_div_cancel_left₀ _ hN]
  unfold comb
  ring

theorem ip_self_zero (he : Errors e) {a : ι → ℝ} (h : ip e a a = 0) (j : ι) : a j = 0 := by
  unfold ip at h
  have hn : ∀ j ∈ univ, 0 ≤ a j * a j * ss e j := fun j _ => mul_nonneg (mul_self_nonneg _) (he.pos j).le
  have := (sum_eq_zero_iff_of_nonneg hn).1 h j (mem_univ j)
  rcases mul_eq_zero.1 this with h' | h'
  · exact mul_self_eq_zero.1 h'
  · exact absurd h' (he.pos j).ne'

theorem ip_add (a b c : ι → ℝ) : ip e (fun j => a j + b j) c = ip e a c + ip e b c := by
  unfold ip; rw [← sum_add_distrib]; exact sum_congr rfl fun j _ => by ring

theorem ip_comm (a b : ι → ℝ) : ip e a b = ip e b a := by
  unfold ip; exact sum_congr rfl fun j _ => by ring

theorem ip_smul_sum {κ : Type} (S : Finset κ) (γ : κ → ℝ) (t : κ → ι → ℝ) (a : ι → ℝ) :
    ip e a (fun j => ∑ h ∈ S, γ h * t h j) = ∑ h ∈ S, γ h * ip e a (t h) := by
  unfold ip
  simp only [mul_sum, sum_mul]
  rw [sum_comm]
  exact sum_congr rfl fun h _ => sum_congr rfl fun j _ => by ring

theorem comb_inj (he : Errors e) {a a' : ι → ℝ} {c c' : ℝ} (h : comb e a c = comb e a' c') : a = a' := by
  classical
  have key : ∀ (x : ι → ℝ) (d : ℝ) (j : ι), ∑ k, comb e (fun i => if i = j then 1 else 0) 0 k * comb e x d k = x j * ss e j := by
    intro x d j
    rw [sum_comb_mul he]
    unfold ip
    simp
  funext j
  have h1 := key a c j
  rw [h, key a' c' j] at h1
  exact (mul_right_cancel₀ (he.pos j).ne' h1).symm

/-- every error family has ideal tests -/
theorem exists_ideal (he : Errors e) : ∃ ng corr indep, IdealTests e ng corr indep := by
  classical
  refine ⟨fun _ => true, fun u v => decide (∑ k, (u k - (∑ k, u k) / N) * (v k - (∑ k, v k) / N) ≠ 0),
    fun u v => decide (∃ a c a' c', u = comb e a c ∧ v = comb e a' c' ∧ ∀ i, a i = 0 ∨ a' i = 0), fun _ _ _ => rfl, fun u v => decide_eq_true_iff, ?_⟩
  intro a c a' c'
  rw [decide_eq_true_iff]
  constructor
  · rintro ⟨x, d, x', d', h1, h2, h3⟩
    rw [comb_inj he h1, comb_inj he h2]
    exact h3
  · intro h
    exact ⟨a, c, a', c', rfl, rfl, h⟩

end

/-! ### residuals -/

section
variable {ι : Type} [Fintype ι] {e : ι → Fin N → ℝ}

/-- the columns are combinations of the errors -/
def Rep (data : Fin N → Fin n → ℝ) (e : ι → Fin N → ℝ) (t : Fin n → ι → ℝ) : Prop := ∀ v, ∃ c, (fun k => data k v) = comb e (t v) c

/-- a least squares residual of combinations of the errors is a combination of the errors -/
theorem residual_comb (he : Errors e) {data : Fin N → Fin n → ℝ} {t : Fin n → ι → ℝ} (hr : Rep data e t) {v : Fin n} {S : Finset (Fin n)} {u : Fin N → ℝ}
    (hu : Residual data v S u) {b0 : ℝ} {b : Fin n → ℝ} (hb : ∀ k, u k = data k v - (b0 + ∑ s ∈ S, b s * data k s)) :
    u = comb e (fun j => t v j - ∑ s ∈ S, b s * t s j) 0 ∧ ∀ s ∈ S, ip e (fun j => t v j - ∑ s ∈ S, b s * t s j) (t s) = 0 := by
  choose c hc using hr
  have hd : ∀ v k, data k v = c v + ∑ i, t v i * e i k := fun v k => congrFun (hc v) k
  have h1 : ∀ d : ℝ, d = c v - b0 - ∑ s ∈ S, b s * c s → u = comb e (fun j => t v j - ∑ s ∈ S, b s * t s j) d := by
    intro d hdd
    funext k
    rw [hb, hd]
    unfold comb
    have : ∑ s ∈ S, b s * data k s = ∑ s ∈ S, b s * c s + ∑ i, (∑ s ∈ S, b s * t s i) * e i k := by
      simp only [hd, mul_add, sum_add_distrib]
      congr 1
      simp only [mul_sum, sum_mul]
      rw [sum_comm]
      exact sum_congr rfl fun i _ => sum_congr rfl fun s _ => by ring
    rw [this, hdd]
    simp only [sub_mul, sum_sub_distrib]
    ring
  by_cases hN : N = 0
  · subst hN
    refine ⟨funext fun k => k.elim0, fun s _ => ?_⟩
    unfold ip ss
    simp
  have h2 := h1 _ rfl
  have h3 := hu.sum_zero
  rw [h2, sum_comb he] at h3
  have hz : c v - b0 - ∑ s ∈ S, b s * c s = 0 := (mul_eq_zero.1 h3).resolve_left (by exact_mod_cast hN)
  rw [hz] at h2
  refine ⟨h2, fun s hs => ?_⟩
  have := hu.orth hs
  rw [h2, sum_congr rfl fun k _ => by rw [congrFun (hc s) k], sum_comb_mul he] at this
  exact this

end

/-! ### total effects -/

section
variable {B T : Fin m → Fin m → ℝ}

theorem total_zero (hac : Acyclic fun p i => B p i ≠ 0) (hT : TotalEffects B T) : (∀ i, T i i = 1) ∧ ∀ j i, j ≠ i → ¬ Anc B j i → T j i = 0 := by
  obtain ⟨r, hr⟩ := acyclic_rank hac
  have key : ∀ d, ∀ j i, r i ≤ d → j ≠ i → ¬ Anc B j i → T j i = 0 := by
    intro d
    induction d with
    | zero =>
      intro j i hi hne hna
      rw [hT, if_neg hne, zero_add]
      refine sum_eq_zero fun p _ => ?_
      by_cases hp : B p i = 0
      · rw [hp, zero_mul]
      · have := hr p i hp; omega
    | succ d ih =>
      intro j i hi hne hna
      rw [hT, if_neg hne, zero_add]
      refine sum_eq_zero fun p _ => ?_
      by_cases hp : B p i = 0
      · rw [hp, zero_mul]
      · have hlt := hr p i hp
        rw [ih j p (by omega) (fun h => hna (h ▸ TransGen.single hp)) (fun h => hna (h.tail hp)), mul_zero]
  refine ⟨fun i => ?_, fun j i => key (r i) j i le_rfl⟩
  rw [hT, if_pos rfl]
  have : ∑ p, B p i * T i p = 0 := by
    refine sum_eq_zero fun p _ => ?_
    by_cases hp : B p i = 0
    · rw [hp, zero_mul]
    · rw [key (r p) i p le_rfl (fun h => hac i (TransGen.single (by rw [← h] at hp; exact hp))) (fun h => hac i (h.tail hp)), mul_zero]
  rw [this, add_zero]

theorem rep_of_generated {data : Fin N → Fin m → ℝ} {b0 : Fin m → ℝ} {e : Fin m → Fin N → ℝ} (hg : Generated data b0 B e) (hT : TotalEffects B T) :
    Rep data e fun v j => T j v := by
  obtain ⟨r, hr⟩ := acyclic_rank hg.acyclic
  have key : ∀ d, ∀ i, r i ≤ d → ∃ c, ∀ k, data k i = c + ∑ j, T j i * e j k := by
    intro d
    induction d with
    | zero =>
      intro i hi
      refine ⟨b0 i, fun k => ?_⟩
      have h0 : ∀ p, B p i = 0 := fun p => by
        by_contra hp
        have := hr p i hp; omega
      have h1 : ∀ j, T j i = if j = i then 1 else 0 := fun j => by rw [hT]; simp [h0]
      rw [hg.eqn]
      simp [h0, h1]
    | succ d ih =>
      intro i hi
      have : ∀ p, ∃ c, B p i ≠ 0 → ∀ k, data k p = c + ∑ j, T j p * e j k := by
        intro p
        by_cases hp : B p i = 0
        · exact ⟨0, fun h => absurd hp h⟩
        · obtain ⟨c, hc⟩ := ih p (by have := hr p i hp; omega)
          exact ⟨c, fun _ => hc⟩
      choose c hc using this
      refine ⟨b0 i + ∑ p, B p i * c p, fun k => ?_⟩
      rw [hg.eqn]
      have h1 : ∑ p, B p i * data k p = ∑ p, B p i * c p + ∑ j, (∑ p, B p i * T j p) * e j k := by
        have h2 : ∀ p, B p i * data k p = B p i * c p + ∑ j, B p i * T j p * e j k := by
          intro p
          by_cases hp : B p i = 0
          · simp [hp]
          · rw [hc p hp k, mul_add, mul_sum]
            congr 1
            exact sum_congr rfl fun j _ => by ring
        rw [sum_congr rfl fun p _ => h2 p, sum_add_distrib, sum_comm]
        congr 1
        exact sum_congr rfl fun j _ => (sum_mul _ _ _).symm
      have h3 : ∑ j, T j i * e j k = e i k + ∑ j, (∑ p, B p i * T j p) * e j k := by
        have : ∀ j, T j i * e j k = (if j = i then e j k else 0) + (∑ p, B p i * T j p) * e j k := by
          intro j
          rw [hT j i, add_mul]
          congr 1
          split <;> simp
        rw [sum_congr rfl fun j _ => this j, sum_add_distrib]
        congr 1
        simp
      rw [h1, h3]
      ring
  intro v
  obtain ⟨c, hc⟩ := key (r v) v le_rfl
  exact ⟨c, funext hc⟩

/-- the vectors of total effects are linearly independent -/
theorem total_indep (hac : Acyclic fun p i => B p i ≠ 0) (hT : TotalEffects B T) {γ : Fin m → ℝ} (h : ∀ j, ∑ v, γ v * T j v = 0) : ∀ v, γ v = 0 := by
  obtain ⟨r, hr⟩ := acyclic_rank hac
  obtain ⟨h1, h0⟩ := total_zero hac hT
  by_contra hne
  push Not at hne
  obtain ⟨w, hw⟩ := hne
  obtain ⟨x, hx, hmax⟩ := exists_max_image (univ.filter fun v => γ v ≠ 0) r ⟨w, by simpa using hw⟩
  rw [mem_filter] at hx
  have hrank : ∀ a b, Anc B a b → r a < r b := by
    intro a b hab
    induction hab with
    | single h => exact hr _ _ h
    | tail _ h ih => exact ih.trans (hr _ _ h)
  have := h x
  rw [sum_eq_single x] at this
  · rw [h1, mul_one] at this
    exact hx.2 this
  · intro v _ hv
    by_cases hg : γ v = 0
    · rw [hg, zero_mul]
    · have hle := hmax v (by simpa using hg)
      rw [h0 x v (Ne.symm hv) (fun ha => by have := hrank _ _ ha; omega), mul_zero]
  · simp

theorem anc_trans {a b c : Fin m} (h1 : Anc B a b) (h2 : Anc B b c) : Anc B a c := TransGen.trans h1 h2

theorem exists_total (hac : Acyclic fun p i => B p i ≠ 0) : ∃ T, TotalEffects B T := by
  obtain ⟨r, hr⟩ := acyclic_rank hac
  have key : ∀ d, ∃ T : Fin m → Fin m → ℝ, ∀ j i, r i < d → T j i = (if j = i then 1 else 0) + ∑ p, B p i * T j p := by
    intro d
    induction d with
    | zero => exact ⟨fun _ _ => 0, fun j i h => by omega⟩
    | succ d ih =>
      obtain ⟨T, hT⟩ := ih
      refine ⟨fun j i => (if j = i then 1 else 0) + ∑ p, B p i * T j p, fun j i hi => ?_⟩
      dsimp only
      congr 1
      refine sum_congr rfl fun p _ => ?_
      by_cases hp : B p i = 0
      · rw [hp, zero_mul, zero_mul]
      · rw [hT j p (by have := hr p i hp; omega)]
  obtain ⟨T, hT⟩ := key ((univ.sup r) + 1)
  exact ⟨T, fun j i => hT j i (Nat.lt_succ_of_le (le_sup (mem_univ i)))⟩

end
end Spec
