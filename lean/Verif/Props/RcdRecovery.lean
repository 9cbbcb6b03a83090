import Verif.Model.RcdData
import Verif.Proofs.NonGaussian
import Verif.Props.Rcd

/-!
# C196: RCD recovers a linear non-Gaussian model without hidden variables; C197: what it finds when there are hidden variables
-/
namespace CL
namespace Rcd
open Spec Relation Finset
variable {N n m : Nat}

section
variable {ι : Type} [Fintype ι] {e : ι → Fin N → ℝ} {ct : ColTests N} {useMl : Bool} {ml : (Fin N → Fin n → ℝ) → Fin n → Finset (Fin n) → Fin n → ℝ}
  {data : Fin N → Fin n → ℝ} {t : Fin n → ι → ℝ}

theorem ols_spec (data : Fin N → Fin n → ℝ) (x : Fin n) (S : Finset (Fin n)) : Residual data x S (ols data x S) := Classical.choose_spec (exists_residual data x S)

/-- residuals as combinations of the errors -/
theorem resid_vec (he : Errors e) (hr : Rep data e t) (H : Finset (Fin n)) : ∃ A : Fin n → ι → ℝ, (∀ v, ∃ c, resid data v H = comb e (A v) c) ∧
    (∀ v, ∃ β : Fin n → ℝ, ∀ j, A v j = t v j - ∑ h ∈ H, β h * t h j) ∧ ∀ v, ∀ h ∈ H, ip e (A v) (t h) = 0 := by
  by_cases h0 : H = ∅
  · refine ⟨t, fun v => ?_, fun v => ⟨0, fun j => by simp [h0]⟩, fun v h hh => by simp [h0] at hh⟩
    obtain ⟨c, hc⟩ := hr v
    exact ⟨c, by rw [resid, if_pos h0]; exact hc⟩
  · have : ∀ v, ∃ β : Fin n → ℝ, resid data v H = comb e (fun j => t v j - ∑ h ∈ H, β h * t h j) 0 ∧
        ∀ s ∈ H, ip e (fun j => t v j - ∑ h ∈ H, β h * t h j) (t s) = 0 := by
      intro v
      have hu := ols_spec data v H
      obtain ⟨b0, b, hb⟩ := hu.1
      refine ⟨b, ?_⟩
      rw [resid, if_neg h0]
      exact residual_comb he hr hu hb
    choose β hβ using this
    exact ⟨fun v j => t v j - ∑ h ∈ H, β v h * t h j, fun v => ⟨0, (hβ v).1⟩, fun v => ⟨β v, fun j => rfl⟩, fun v => (hβ v).2⟩

/-- the independence test on residuals, in terms of the errors -/
theorem indepOfResid_iff (he : Errors e) (hi : IdealTests e ct.nonGauss ct.corr ct.indep) {Y : Fin N → Fin n → ℝ} {A : Fin n → ι → ℝ}
    (hY : Rep Y e A) (x : Fin n) (S : Finset (Fin n)) :
    indepOfResid ct useMl ml Y x S = true ↔ ∃ β : Fin n → ℝ, ∀ j ∈ S, ∀ i, A x i - ∑ s ∈ S, β s * A s i = 0 ∨ A j i = 0 := by
  have hY' := hY
  choose c hc using hY'
  constructor
  · intro h
    unfold indepOfResid at h
    split at h
    · next h1 =>
      have hu := ols_spec Y x S
      obtain ⟨b0, b, hb⟩ := hu.1
      obtain ⟨h2, -⟩ := residual_comb he hY hu hb
      refine ⟨b, fun j hj => ?_⟩
      have := h1 j hj
      rw [h2, hc j] at this
      exact (hi.indep _ _ _ _).1 this
    · split at h
      · cases h
      · rw [decide_eq_true_iff] at h
        refine ⟨ml Y x S, fun j hj => ?_⟩
        have h2 : mlResid Y x S (ml Y x S) = comb e (fun i => A x i - ∑ s ∈ S, ml Y x S s * A s i) (c x - ∑ s ∈ S, ml Y x S s * c s) := by
          funext k
          have hd : ∀ v, Y k v = c v + ∑ i, A v i * e i k := fun v => congrFun (hc v) k
          unfold mlResid comb
          simp only [hd, mul_add, sum_add_distrib, sub_mul, sum_sub_distrib]
          have : ∑ s ∈ S, ml Y x S s * ∑ i, A s i * e i k = ∑ i, (∑ s ∈ S, ml Y x S s * A s i) * e i k := by
            simp only [mul_sum, sum_mul]
            rw [sum_comm]
            exact sum_congr rfl fun i _ => sum_congr rfl fun s _ => by ring
          rw [this]
          ring
        have := h j hj
        rw [h2, hc j] at this
        exact (hi.indep _ _ _ _).1 this
  · rintro ⟨β, hβ⟩
    have hres : Residual Y x S (comb e (fun i => A x i - ∑ s ∈ S, β s * A s i) 0) := by
      refine residual_of_orth ⟨c x - ∑ s ∈ S, β s * c s, β, fun k => ?_⟩ ?_ fun s hs => ?_
      · have hd : ∀ v, Y k v = c v + ∑ i, A v i * e i k := fun v => congrFun (hc v) k
        unfold comb
        simp only [hd, mul_add, sum_add_distrib, sub_mul, sum_sub_distrib]
        have : ∑ s ∈ S, β s * ∑ i, A s i * e i k = ∑ i, (∑ s ∈ S, β s * A s i) * e i k := by
          simp only [mul_sum, sum_mul]
          rw [sum_comm]
          exact sum_congr rfl fun i _ => sum_congr rfl fun s _ => by ring
        rw [this]
        ring
      · rw [sum_comb he, mul_zero]
      · rw [sum_congr rfl fun k _ => by rw [congrFun (hc s) k], sum_comb_mul he]
        refine sum_eq_zero fun i _ => ?_
        show (A x i - ∑ s ∈ S, β s * A s i) * A s i * ss e i = 0
        rcases hβ s hs i with h | h
        · rw [h, zero_mul, zero_mul]
        · rw [h, mul_zero, zero_mul]
    have e1 := (ols_spec Y x S).unique hres
    unfold indepOfResid
    rw [if_pos]
    intro j hj
    rw [e1, hc j]
    exact (hi.indep _ _ _ _).2 (hβ j hj)

/-- what the tests say, in terms of vectors `A v` for the residuals on `H` -/
structure Vec (e : ι → Fin N → ℝ) (ct : ColTests N) (useMl : Bool) (ml : (Fin N → Fin n → ℝ) → Fin n → Finset (Fin n) → Fin n → ℝ) (data : Fin N → Fin n → ℝ)
    (t : Fin n → ι → ℝ) (H : Finset (Fin n)) (A : Fin n → ι → ℝ) : Prop where
  rep : ∀ v, ∃ c, resid data v H = comb e (A v) c
  form : ∀ v, ∃ β : Fin n → ℝ, ∀ j, A v j = t v j - ∑ h ∈ H, β h * t h j
  orth : ∀ v, ∀ h ∈ H, ip e (A v) (t h) = 0
  gauss : ∀ v, (∃ i, A v i ≠ 0) → (testsOf ct useMl ml data).nonGauss v H = true
  indep : ∀ x S, (testsOf ct useMl ml data).independent H x S = true ↔ ∃ β : Fin n → ℝ, ∀ j ∈ S, ∀ i, A x i - ∑ s ∈ S, β s * A s i = 0 ∨ A j i = 0

theorem exists_vec (he : Errors e) (hi : IdealTests e ct.nonGauss ct.corr ct.indep) (hr : Rep data e t) (H : Finset (Fin n)) :
    ∃ A, Vec e ct useMl ml data t H A := by
  obtain ⟨A, h1, h2, h3⟩ := resid_vec he hr H
  refine ⟨A, h1, h2, h3, fun v hv => ?_, fun x S => ?_⟩
  · obtain ⟨c, hc⟩ := h1 v
    show ct.nonGauss (resid data v H) = true
    rw [hc]
    exact hi.nonGauss _ _ hv
  · exact indepOfResid_iff he hi (fun v => h1 v) x S

theorem corr_vec (he : Errors e) (hi : IdealTests e ct.nonGauss ct.corr ct.indep) {H H' : Finset (Fin n)} {A A' : Fin n → ι → ℝ}
    (hA : Vec e ct useMl ml data t H A) (hA' : Vec e ct useMl ml data t H' A') (v w : Fin n) :
    (testsOf ct useMl ml data).correlated (v, H) (w, H') = true ↔ ip e (A v) (A' w) ≠ 0 := by
  obtain ⟨c, hc⟩ := hA.rep v
  obtain ⟨d, hd⟩ := hA'.rep w
  show ct.corr (resid data v H) (resid data w H') = true ↔ _
  rw [hi.corr, hc, hd, cov_comb he]

theorem ip_disjoint {a b : ι → ℝ} (h : ∀ i, a i = 0 ∨ b i = 0) : ip e a b = 0 := by
  refine sum_eq_zero fun i _ => ?_
  rcases h i with h | h <;> simp [h]

theorem eligible_pair {tt : Tests n} {H : Finset (Fin n)} {U : List (Fin n)} (h : eligible tt H U = true) {x y : Fin n} (hxy : [x, y].Sublist U) :
    tt.correlated (x, H) (y, H) = true := by
  unfold eligible at h
  rw [Bool.and_eq_true, List.all_eq_true, List.all_eq_true] at h
  exact h.2 [x, y] ((combos_mem _ _ _).2 ⟨hxy, rfl⟩)

theorem eligible_two {tt : Tests n} {H : Finset (Fin n)} {x y : Fin n} (h1 : tt.nonGauss x H = true) (h2 : tt.nonGauss y H = true)
    (h3 : tt.correlated (x, H) (y, H) = true) : eligible tt H [x, y] = true := by
  unfold eligible
  rw [Bool.and_eq_true, List.all_eq_true, List.all_eq_true]
  refine ⟨by simp [h1, h2], fun q hq => ?_⟩
  obtain ⟨hs, hl⟩ := (combos_mem _ _ _).1 hq
  have : q = [x, y] := hs.eq_of_length (by simpa using hl)
  rw [this]
  exact h3

/-- A pair: the other variable of a unique sink is its ancestor. `own v` is the error of variable `v`. -/
theorem pair_sound (he : Errors e) (hi : IdealTests e ct.nonGauss ct.corr ct.indep) (hr : Rep data e t) {H : Finset (Fin n)} {x y : Fin n} {oy : ι}
    (hown : t y oy = 1) (hH : ∀ h ∈ H, t h oy = 0) (hc : (testsOf ct useMl ml data).correlated (x, H) (y, H) = true)
    (hind : (testsOf ct useMl ml data).independent H x {y} = true) : t x oy ≠ 0 := by
  obtain ⟨A, hA⟩ := exists_vec (ct := ct) (useMl := useMl) (ml := ml) he hi hr H
  have hAo : ∀ v, A v oy = t v oy := by
    intro v
    obtain ⟨β, hβ⟩ := hA.form v
    rw [hβ, sum_eq_zero fun h hh => by rw [hH h hh, mul_zero], sub_zero]
  obtain ⟨β, hβ⟩ := (hA.indep x {y}).1 hind
  simp only [mem_singleton, forall_eq, sum_singleton] at hβ
  rw [corr_vec he hi hA hA] at hc
  intro h0
  have h1 := hβ oy
  rw [hAo, hAo, hown, h0] at h1
  rcases h1 with h1 | h1
  · have hb : β y = 0 := by linarith
    refine hc (ip_disjoint fun i => ?_)
    have := hβ i
    rwa [hb, zero_mul, sub_zero] at this
  · exact one_ne_zero h1

end
/-! ### no hidden variables -/

section
variable {e : Fin n → Fin N → ℝ} {ct : ColTests N} {useMl : Bool} {ml : (Fin N → Fin n → ℝ) → Fin n → Finset (Fin n) → Fin n → ℝ}
  {data : Fin N → Fin n → ℝ} {b0 : Fin n → ℝ} {B T : Fin n → Fin n → ℝ}

/-- the recorded ancestors are ancestors -/
def Sound (B : Fin n → Fin n → ℝ) (M : Fin n → Finset (Fin n)) : Prop := ∀ i, ∀ j ∈ M i, Anc B j i

/-- the recorded ancestors are the ancestors -/
def Exact (B : Fin n → Fin n → ℝ) (M : Fin n → Finset (Fin n)) : Prop := ∀ i j, j ∈ M i ↔ Anc B j i

theorem total_below (hac : Acyclic fun p i => B p i ≠ 0) (hT : TotalEffects B T) {h y : Fin n} (ha : Anc B h y) : T y h = 0 :=
  (total_zero hac hT).2 y h (fun e => hac y (e ▸ ha)) fun h' => hac y (h'.trans ha)

theorem anc_of_total (hac : Acyclic fun p i => B p i ≠ 0) (hT : TotalEffects B T) {j i : Fin n} (hne : j ≠ i) (h : T j i ≠ 0) : Anc B j i := by
  by_contra hn
  exact h ((total_zero hac hT).2 j i hne hn)

/-- residuals on an ancestrally closed set: exactly the errors of the set are removed -/
theorem vec_closed (hg : Generated data b0 B e) (hT : TotalEffects B T) {H : Finset (Fin n)} (hH : ∀ h ∈ H, ∀ a, Anc B a h → a ∈ H)
    {A : Fin n → Fin n → ℝ} (hA : Vec e ct useMl ml data (fun v j => T j v) H A) (v j : Fin n) : A v j = if j ∈ H then 0 else T j v := by
  have hz := total_zero hg.acyclic hT
  have hout : ∀ h ∈ H, ∀ j, j ∉ H → T j h = 0 := fun h hh j hj => hz.2 j h (fun e => hj (e ▸ hh)) fun ha => hj (hH h hh j ha)
  split
  · next hj =>
    obtain ⟨r, hr⟩ := acyclic_rank hg.acyclic
    have hrank : ∀ a b, Anc B a b → r a < r b := by
      intro a b hab
      induction hab with
      | single h => exact hr _ _ h
      | tail _ h ih => exact ih.trans (hr _ _ h)
    have key : ∀ d, ∀ h ∈ H, r h ≤ d → A v h = 0 := by
      intro d
      induction d using Nat.strong_induction_on with
      | _ d ih =>
        intro h hh hd
        have ho : ∑ j, A v j * T j h * ss e j = 0 := hA.orth v h hh
        rw [sum_eq_single h] at ho
        · rw [hz.1, mul_one] at ho
          exact (mul_eq_zero.1 ho).resolve_right (hg.errors.pos h).ne'
        · intro x _ hx
          by_cases hax : Anc B x h
          · have hlt := hrank x h hax
            rw [ih (r x) (by omega) x (hH h hh x hax) le_rfl, zero_mul, zero_mul]
          · rw [hz.2 x h hx hax, mul_zero, zero_mul]
        · simp
    exact key _ j hj le_rfl
  · next hj =>
    obtain ⟨β, hβ⟩ := hA.form v
    rw [hβ, sum_eq_zero fun h hh => by rw [hout h hh j hj, mul_zero], sub_zero]

theorem pair_sinks (hg : Generated data b0 B e) (hT : TotalEffects B T) (hi : IdealTests e ct.nonGauss ct.corr ct.indep) {M : Fin n → Finset (Fin n)}
    (hM : Sound B M) {U : List (Fin n)} (hU : U.Nodup) (hl : U.length = 2) (hel : eligible (testsOf ct useMl ml data) (common M U) U = true) {v w : Fin n}
    (hs : v ∈ sinks (testsOf ct useMl ml data) M (common M U) U) (hw : w ∈ U) (hwv : w ≠ v) : Anc B w v := by
  have hr := rep_of_generated hg hT
  obtain ⟨hv, -, hind⟩ := mem_sinks.1 hs
  have hcw : ∀ h ∈ common M U, Anc B h w := fun h hh => hM w h ((mem_filter.1 hh).2 w hw)
  obtain ⟨x, y, rfl⟩ := List.length_eq_two.1 hl
  have hxy : x ≠ y := by simpa using hU
  have hother : ([x, y] : List (Fin n)).toFinset.erase v = {w} := by
    simp only [List.mem_cons, List.not_mem_nil, or_false] at hv hw
    ext z
    simp only [mem_erase, List.mem_toFinset, List.mem_cons, List.not_mem_nil, or_false, mem_singleton]
    rcases hv with rfl | rfl <;> rcases hw with rfl | rfl <;> grind
  rw [hother] at hind
  have hc := eligible_pair hel (List.Sublist.refl _)
  obtain ⟨A, hA⟩ := exists_vec (ct := ct) (useMl := useMl) (ml := ml) hg.errors hi hr (common M [x, y])
  have hc' : (testsOf ct useMl ml data).correlated (v, common M [x, y]) (w, common M [x, y]) = true := by
    rw [corr_vec hg.errors hi hA hA] at hc ⊢
    simp only [List.mem_cons, List.not_mem_nil, or_false] at hv hw
    rcases hv with rfl | rfl <;> rcases hw with rfl | rfl
    · exact absurd rfl hwv
    · exact hc
    · rwa [ip_comm]
    · exact absurd rfl hwv
  refine anc_of_total hg.acyclic hT hwv ?_
  exact pair_sound (t := fun v j => T j v) hg.errors hi hr (oy := w) ((total_zero hg.acyclic hT).1 w)
    (fun h hh => total_below hg.acyclic hT (hcw h hh)) hc' hind

theorem eq_singleton_of {α : Type} {l : List α} {i : α} (hn : l.Nodup) (hi : i ∈ l) (h : ∀ z ∈ l, z = i) : l = [i] := by
  match l, hn, hi, h with
  | [], _, hi, _ => simp at hi
  | [z], _, _, h => rw [h z (by simp)]
  | z :: z' :: l, hn, _, h =>
    have h1 := h z (by simp)
    have h2 := h z' (by simp)
    rw [h1, h2] at hn
    simp at hn

/-- A pair of an ancestor `a` and a descendant `i`, when the ancestors of `a` are known to be common: `i` is the unique sink. -/
theorem pair_found (hg : Generated data b0 B e) (hT : TotalEffects B T) (hf : ∀ j i, Anc B j i → T j i ≠ 0) (hi : IdealTests e ct.nonGauss ct.corr ct.indep)
    {H : Finset (Fin n)} {a i : Fin n} (hai : Anc B a i) (hH : ∀ h, h ∈ H ↔ Anc B h a) {U : List (Fin n)} (hU : U = [a, i] ∨ U = [i, a]) :
    eligible (testsOf ct useMl ml data) H U = true ∧ ∀ M' : Fin n → Finset (Fin n), i ∉ M' a → a ∉ M' i →
      sinks (testsOf ct useMl ml data) M' H U = [i] := by
  have hr := rep_of_generated hg hT
  have hz := total_zero hg.acyclic hT
  obtain ⟨A, hA⟩ := exists_vec (ct := ct) (useMl := useMl) (ml := ml) hg.errors hi hr H
  have hAv := vec_closed hg hT (fun h hh x hx => (hH x).2 (hx.trans ((hH h).1 hh))) hA
  have hne : a ≠ i := fun e => hg.acyclic a (e ▸ hai)
  have haH : a ∉ H := fun h => hg.acyclic a ((hH a).1 h)
  have hiH : i ∉ H := fun h => hg.acyclic a (hai.trans ((hH i).1 h))
  have hAa : ∀ j, A a j = if j = a then 1 else 0 := by
    intro j
    rw [hAv]
    by_cases hj : j = a
    · subst hj; rw [if_neg haH, if_pos rfl, hz.1]
    · rw [if_neg hj]
      split
      · rfl
      · next h => exact hz.2 j a hj fun h' => h ((hH j).2 h')
  have hAia : A i a = T a i := by rw [hAv, if_neg haH]
  have hAii : A i i = 1 := by rw [hAv, if_neg hiH, hz.1]
  have hcorr : ip e (A a) (A i) ≠ 0 := by
    unfold ip
    rw [sum_eq_single a]
    · rw [hAa, if_pos rfl, hAia, one_mul]
      exact mul_ne_zero (hf a i hai) (hg.errors.pos a).ne'
    · intro x _ hx
      rw [hAa, if_neg hx, zero_mul, zero_mul]
    · simp
  have hind : (testsOf ct useMl ml data).independent H i {a} = true := by
    rw [hA.indep]
    refine ⟨fun _ => T a i, fun j hj x => ?_⟩
    rw [mem_singleton] at hj
    subst hj
    rw [sum_singleton]
    by_cases hx : x = j
    · subst hx
      exact Or.inl (by rw [hAia, hAa, if_pos rfl, mul_one, sub_self])
    · exact Or.inr (by rw [hAa, if_neg hx])
  have hnind : (testsOf ct useMl ml data).independent H a {i} = false := by
    rw [Bool.eq_false_iff]
    intro h
    rw [hA.indep] at h
    obtain ⟨β, hβ⟩ := h
    simp only [mem_singleton, forall_eq, sum_singleton] at hβ
    have h1 := (hβ i).resolve_right (by rw [hAii]; exact one_ne_zero)
    rw [hAa, if_neg hne.symm, hAii] at h1
    have hb : β i = 0 := by linarith
    have h2 := (hβ a).resolve_right (by rw [hAia]; exact hf a i hai)
    rw [hAa, if_pos rfl, hb, zero_mul, sub_zero] at h2
    exact one_ne_zero h2
  have g1 := hA.gauss a ⟨a, by rw [hAa, if_pos rfl]; exact one_ne_zero⟩
  have g2 := hA.gauss i ⟨i, by rw [hAii]; exact one_ne_zero⟩
  have hmem : ∀ z, z ∈ U ↔ z = a ∨ z = i := by
    intro z
    rcases hU with rfl | rfl
    · simp
    · simp [or_comm]
  have hnd : U.Nodup := by rcases hU with rfl | rfl <;> simp [hne, hne.symm]
  have her : ∀ x y : Fin n, (x = a ∧ y = i) ∨ (x = i ∧ y = a) → U.toFinset.erase x = {y} := by
    intro x y hxy
    ext z
    simp only [mem_erase, List.mem_toFinset, hmem, mem_singleton]
    rcases hxy with ⟨rfl, rfl⟩ | ⟨rfl, rfl⟩ <;> grind
  refine ⟨?_, fun M' h1 h2 => ?_⟩
  · rcases hU with rfl | rfl
    · exact eligible_two g1 g2 ((corr_vec hg.errors hi hA hA a i).2 hcorr)
    · exact eligible_two g2 g1 ((corr_vec hg.errors hi hA hA i a).2 (by rwa [ip_comm]))
  · refine eq_singleton_of (hnd.filter _) ?_ ?_
    · refine mem_sinks.2 ⟨(hmem i).2 (Or.inr rfl), ⟨fun y hy hyi => ?_, ?_⟩, ?_⟩
      · rcases (hmem y).1 hy with rfl | rfl
        · exact h1
        · exact absurd rfl hyi
      · rw [her i a (Or.inr ⟨rfl, rfl⟩), singleton_subset_iff]
        exact h2
      · rw [her i a (Or.inr ⟨rfl, rfl⟩)]
        exact hind
    · intro z hz'
      obtain ⟨hzU, -, h3⟩ := mem_sinks.1 hz'
      rcases (hmem z).1 hzU with rfl | rfl
      · rw [her z i (Or.inl ⟨rfl, rfl⟩), hnind] at h3
        cases h3
      · rfl

theorem pairU (a i : Fin n) (hne : a ≠ i) : ∃ U : List (Fin n), (U = [a, i] ∨ U = [i, a]) ∧ U ∈ combos (List.finRange n) 2 := by
  rcases lt_or_gt_of_ne hne with h | h
  · exact ⟨[a, i], Or.inl rfl, (combos_mem _ _ _).2 ⟨pair_sublist h, rfl⟩⟩
  · exact ⟨[i, a], Or.inr rfl, (combos_mem _ _ _).2 ⟨pair_sublist h, rfl⟩⟩

/-- When the pairs have nothing more to say, all ancestors are known. -/
theorem pairs_exact (hg : Generated data b0 B e) (hT : TotalEffects B T) (hf : ∀ j i, Anc B j i → T j i ≠ 0) (hi : IdealTests e ct.nonGauss ct.corr ct.indep)
    {M : Fin n → Finset (Fin n)} (hM : Sound B M)
    (hcl : ∀ U ∈ combos (List.finRange n) 2, eligible (testsOf ct useMl ml data) (common M U) U = true → ∃ M' : Fin n → Finset (Fin n), (∀ v, M' v ⊆ M v) ∧
      common M' U = common M U ∧ ∀ x, sinks (testsOf ct useMl ml data) M' (common M U) U = [x] → ∀ y ∈ U, y ≠ x → y ∈ M x) : Exact B M := by
  obtain ⟨r, hr⟩ := acyclic_rank hg.acyclic
  have hrank : ∀ a b, Anc B a b → r a < r b := by
    intro a b hab
    induction hab with
    | single h => exact hr _ _ h
    | tail _ h ih => exact ih.trans (hr _ _ h)
  have key : ∀ d, ∀ a, r a ≤ d → ∀ i, Anc B a i → a ∈ M i := by
    intro d
    induction d using Nat.strong_induction_on with
    | _ d ih =>
      intro a hd i hai
      have hne : a ≠ i := fun e => hg.acyclic a (e ▸ hai)
      obtain ⟨U, hU, hUc⟩ := pairU a i hne
      have hmem : ∀ z, z ∈ U ↔ z = a ∨ z = i := by
        intro z
        rcases hU with rfl | rfl
        · simp
        · simp [or_comm]
      have hH : ∀ h, h ∈ common M U ↔ Anc B h a := by
        intro h
        unfold common
        rw [mem_filter]
        constructor
        · rintro ⟨-, h1⟩
          exact hM a h (h1 a ((hmem a).2 (Or.inl rfl)))
        · intro ha
          refine ⟨mem_univ _, fun x hx => ?_⟩
          have hlt := hrank h a ha
          rcases (hmem x).1 hx with rfl | rfl
          · exact ih (r h) (by omega) h le_rfl x ha
          · exact ih (r h) (by omega) h le_rfl x (ha.trans hai)
      obtain ⟨hel, hs⟩ := pair_found (useMl := useMl) (ml := ml) hg hT hf hi hai hH hU
      obtain ⟨M', h1, h2, h3⟩ := hcl U hUc hel
      by_contra hn
      refine hn (h3 i (hs M' ?_ ?_) a ((hmem a).2 (Or.inl rfl)) hne)
      · intro h'
        exact hg.acyclic a (hai.trans (hM a i (h1 a h')))
      · exact fun h' => hn (h1 i h')
  exact fun i j => ⟨fun h => hM i j h, fun h => key (r j) j le_rfl i h⟩

theorem pair_sublist_or {α : Type} {l : List α} {p q : α} (hp : p ∈ l) (hq : q ∈ l) (hne : p ≠ q) : [p, q].Sublist l ∨ [q, p].Sublist l := by
  induction l with
  | nil => simp at hp
  | cons x l ih =>
    rcases List.mem_cons.1 hp with rfl | hp
    · rcases List.mem_cons.1 hq with rfl | hq
      · exact absurd rfl hne
      · exact Or.inl (List.cons_sublist_cons.2 (List.singleton_sublist.2 hq))
    · rcases List.mem_cons.1 hq with h | hq
      · rw [h]
        exact Or.inr (List.cons_sublist_cons.2 (List.singleton_sublist.2 (by assumption)))
      · rcases ih hp hq with h | h
        · exact Or.inl (h.cons _)
        · exact Or.inr (h.cons _)

/-- Three variables whose ancestors are all known: never exactly one new sink. -/
theorem triple_sinks (hg : Generated data b0 B e) (hT : TotalEffects B T) (hi : IdealTests e ct.nonGauss ct.corr ct.indep)
    {M : Fin n → Finset (Fin n)} (hM : Exact B M) {U : List (Fin n)} (hU : U.Nodup) (hl : U.length = 3)
    (hel : eligible (testsOf ct useMl ml data) (common M U) U = true) (v : Fin n) : sinks (testsOf ct useMl ml data) M (common M U) U ≠ [v] := by
  intro hs
  have hr := rep_of_generated hg hT
  have hz := total_zero hg.acyclic hT
  obtain ⟨hvU, ⟨hno, hnew⟩, hind⟩ := mem_sinks.1 (show v ∈ sinks (testsOf ct useMl ml data) M (common M U) U by rw [hs]; simp)
  have hH : ∀ h, h ∈ common M U ↔ ∀ x ∈ U, Anc B h x := by
    intro h
    unfold common
    rw [mem_filter]
    exact ⟨fun h1 x hx => (hM x h).1 (h1.2 x hx), fun h1 => ⟨mem_univ _, fun x hx => (hM x h).2 (h1 x hx)⟩⟩
  obtain ⟨A, hA⟩ := exists_vec (ct := ct) (useMl := useMl) (ml := ml) hg.errors hi hr (common M U)
  have hAv := vec_closed hg hT (fun h hh x hx => (hH x).2 fun y hy => hx.trans ((hH h).1 hh y hy)) hA
  have hcorr : ∀ p ∈ U, ∀ q ∈ U, p ≠ q → ∃ i, A p i ≠ 0 ∧ A q i ≠ 0 := by
    intro p hp q hq hne
    by_contra hcon
    push Not at hcon
    have h0 : ip e (A p) (A q) = 0 := ip_disjoint fun i => by
      by_cases h : A p i = 0
      · exact Or.inl h
      · exact Or.inr (hcon i h)
    rcases pair_sublist_or hp hq hne with h | h
    · exact (corr_vec hg.errors hi hA hA p q).1 (eligible_pair hel h) h0
    · exact (corr_vec hg.errors hi hA hA q p).1 (eligible_pair hel h) (by rw [ip_comm]; exact h0)
  -- the other two variables
  obtain ⟨j, hj, hjM⟩ := not_subset.1 hnew
  have hcard : (U.toFinset.erase v).card = 2 := by
    rw [card_erase_of_mem (List.mem_toFinset.2 hvU), List.toFinset_card_of_nodup hU, hl]
  obtain ⟨k, hkj, hjk⟩ : ∃ k, k ≠ j ∧ U.toFinset.erase v = {j, k} := by
    obtain ⟨p, q, hpq, e1⟩ := card_eq_two.1 hcard
    rw [e1] at hj ⊢
    rcases mem_insert.1 hj with rfl | hj
    · exact ⟨q, hpq.symm, rfl⟩
    · rw [mem_singleton] at hj
      subst hj
      exact ⟨p, hpq, pair_comm _ _⟩
  have hjv : j ≠ v := (mem_erase.1 hj).1
  have hjU : j ∈ U := List.mem_toFinset.1 (mem_erase.1 hj).2
  have hk : k ∈ U.toFinset.erase v := by rw [hjk]; simp
  have hkv : k ≠ v := (mem_erase.1 hk).1
  have hkU : k ∈ U := List.mem_toFinset.1 (mem_erase.1 hk).2
  have hall : ∀ x ∈ U, x = v ∨ x = j ∨ x = k := by
    intro x hx
    by_cases hxv : x = v
    · exact Or.inl hxv
    · have : x ∈ U.toFinset.erase v := mem_erase.2 ⟨hxv, List.mem_toFinset.2 hx⟩
      rw [hjk] at this
      exact Or.inr (by simpa using this)
  have hnotself : ∀ x ∈ U, x ∉ common M U := fun x hx h => hg.acyclic x ((hH x).1 h x hx)
  have hAo : ∀ x w, w ∈ U → A x w = T w x := fun x w hw => by rw [hAv, if_neg (hnotself w hw)]
  have hjna : ¬ Anc B j v := fun h => hjM ((hM v j).2 h)
  have hvj : ¬ Anc B v j := fun h => hno j hjU hjv ((hM j v).2 h)
  rw [hA.indep, hjk] at hind
  obtain ⟨β, hβ⟩ := hind
  simp only [mem_insert, mem_singleton, forall_eq_or_imp, forall_eq, sum_pair hkj.symm] at hβ
  obtain ⟨hβj, hβk⟩ := hβ
  have e1 : -β j - β k * T j k = 0 := by
    have := (hβj j).resolve_right (by rw [hAo j j hjU, hz.1]; exact one_ne_zero)
    rw [hAo v j hjU, hAo j j hjU, hAo k j hjU, hz.1, hz.2 j v hjv hjna] at this
    linarith
  have e2 : T k v - β j * T k j - β k = 0 := by
    have := (hβk k).resolve_right (by rw [hAo k k hkU, hz.1]; exact one_ne_zero)
    rw [hAo v k hkU, hAo j k hkU, hAo k k hkU, hz.1] at this
    linarith
  have hboth : ¬ (β j = 0 ∧ β k = 0) := by
    rintro ⟨h1, h2⟩
    obtain ⟨i, hi1, hi2⟩ := hcorr v hvU j hjU hjv.symm
    have := (hβj i).resolve_right hi2
    rw [h1, h2] at this
    exact hi1 (by linarith)
  have hTjk : T j k = 0 := by
    by_contra hne
    have hanc := anc_of_total hg.acyclic hT hkj.symm hne
    have h0 := total_below hg.acyclic hT hanc
    rw [h0] at e2
    have hkT : T k v = 0 := by
      by_contra h
      exact hjna (hanc.trans (anc_of_total hg.acyclic hT hkv h))
    rw [hkT] at e2
    have hb : β k = 0 := by linarith
    rw [hb] at e1
    exact hboth ⟨by linarith, hb⟩
  rw [hTjk] at e1
  have hb : β j = 0 := by linarith
  rw [hb] at e2
  have hbk : β k = T k v := by linarith
  have hkanc : Anc B k v := by
    refine anc_of_total hg.acyclic hT hkv fun h => hboth ⟨hb, by rw [hbk]; exact h⟩
  have hTval : ∀ x w, A x w ≠ 0 → w ∉ common M U ∧ (w = x ∨ Anc B w x) := by
    intro x w h
    rw [hAv] at h
    split at h
    · exact absurd rfl h
    · next hw =>
      refine ⟨hw, ?_⟩
      by_cases hwx : w = x
      · exact Or.inl hwx
      · exact Or.inr (anc_of_total hg.acyclic hT hwx h)
  have hkanc' : Anc B k j := by
    obtain ⟨i, hi1, hi2⟩ := hcorr k hkU j hjU hkj
    obtain ⟨hni, h1⟩ := hTval k i hi1
    obtain ⟨-, h2⟩ := hTval j i hi2
    rcases h1 with rfl | h1
    · rcases h2 with h2 | h2
      · exact absurd h2 hkj
      · exact h2
    · rcases h2 with rfl | h2
      · exact absurd (h1.trans hkanc) hjna
      · refine absurd ((hH i).2 fun x hx => ?_) hni
        rcases hall x hx with rfl | rfl | rfl
        · exact h1.trans hkanc
        · exact h2
        · exact h1
  have hAk : ∀ w, A k w = if w = k then 1 else 0 := by
    intro w
    split
    · next h => subst h; rw [hAo _ _ hkU, hz.1]
    · next h =>
      by_contra hne
      obtain ⟨hni, h1⟩ := hTval k w hne
      rcases h1 with h1 | h1
      · exact h h1
      · refine hni ((hH w).2 fun x hx => ?_)
        rcases hall x hx with rfl | rfl | rfl
        · exact h1.trans hkanc
        · exact h1.trans hkanc'
        · exact h1
  -- the other candidate is a sink as well
  have hjs : j ∈ sinks (testsOf ct useMl ml data) M (common M U) U := by
    refine mem_sinks.2 ⟨hjU, ⟨fun y hy hyj h => ?_, fun h => ?_⟩, ?_⟩
    · rcases hall y hy with rfl | rfl | rfl
      · exact hjna ((hM _ _).1 h)
      · exact hyj rfl
      · exact hjna (((hM _ _).1 h).trans hkanc)
    · exact hvj ((hM j v).1 (h (mem_erase.2 ⟨hjv.symm, List.mem_toFinset.2 hvU⟩)))
    · have hother : U.toFinset.erase j = {v, k} := by
        ext x
        simp only [mem_erase, List.mem_toFinset, mem_insert, mem_singleton]
        constructor
        · rintro ⟨h1, h2⟩
          rcases hall x h2 with h | h | h
          · exact Or.inl h
          · exact absurd h h1
          · exact Or.inr h
        · rintro (rfl | rfl)
          · exact ⟨hjv.symm, hvU⟩
          · exact ⟨hkj, hkU⟩
      rw [hother, hA.indep]
      refine ⟨fun x => if x = k then T k j else 0, fun y hy i => ?_⟩
      rw [sum_pair hkv.symm]
      dsimp only
      rw [if_neg hkv.symm, if_pos rfl, zero_mul, zero_add]
      by_cases hik : i = k
      · subst hik
        exact Or.inl (by rw [hAk, if_pos rfl, hAo j i hkU]; ring)
      · rw [hAk, if_neg hik]
        simp only [mem_insert, mem_singleton] at hy
        rcases hy with rfl | rfl
        · have := hβj i
          rw [hb, hAk, if_neg hik] at this
          rcases this with h | h
          · exact Or.inr (by linarith)
          · exact Or.inl (by rw [h]; ring)
        · exact Or.inr (by rw [hAk, if_neg hik])
  rw [hs] at hjs
  exact hjv (by simpa using hjs)

/-! ### the loop -/

theorem foldl_mem_inv {tt : Tests n} {Q : St n → Prop} (l : List (List (Fin n))) (hs : ∀ U ∈ l, ∀ s, Q s → Q (step tt s U)) (s : St n) (h : Q s) :
    Q (l.foldl (step tt) s) := by
  induction l generalizing s with
  | nil => exact h
  | cons U l ih => exact ih (fun V hV => hs V (List.mem_cons_of_mem _ hV)) _ (hs U (by simp) s h)

theorem combos_facts {l : Nat} {U : List (Fin n)} (h : U ∈ combos (List.finRange n) l) : U.Nodup ∧ U.length = l := by
  obtain ⟨h1, h2⟩ := (combos_mem _ _ _).1 h
  exact ⟨h1.nodup (List.nodup_finRange n), h2⟩

/-- a pass over the pairs keeps soundness; if it changes nothing, all ancestors are known -/
theorem pass_one (hg : Generated data b0 B e) (hT : TotalEffects B T) (hf : ∀ j i, Anc B j i → T j i ≠ 0) (hi : IdealTests e ct.nonGauss ct.corr ct.indep)
    {s : St n} (hS : Sound B s.M) (hR : Recorded (testsOf ct useMl ml data) s) :
    Sound B (pass (testsOf ct useMl ml data) 1 s).M ∧ Recorded (testsOf ct useMl ml data) (pass (testsOf ct useMl ml data) 1 s) ∧
    ((pass (testsOf ct useMl ml data) 1 s).changed = false → Exact B (pass (testsOf ct useMl ml data) 1 s).M) := by
  have h1 : Sound B (pass (testsOf ct useMl ml data) 1 s).M := by
    refine foldl_mem_inv (Q := fun s => Sound B s.M) _ (fun U hU s hs => ?_) _ hS
    obtain ⟨hnd, hlen⟩ := combos_facts hU
    intro i j hj
    rcases step_M (t := testsOf ct useMl ml data) s U i with h | ⟨he, hsk, h⟩
    · rw [h] at hj; exact hs i j hj
    · rw [h] at hj
      dsimp only at hj
      rw [if_pos rfl, mem_union] at hj
      rcases hj with hj | hj
      · exact hs i j hj
      · obtain ⟨g1, g2⟩ := mem_erase.1 hj
        exact pair_sinks hg hT hi hs hnd hlen he (by rw [hsk]; simp) (List.mem_toFinset.1 g2) g1
  have h2 : Recorded (testsOf ct useMl ml data) (pass (testsOf ct useMl ml data) 1 s) :=
    foldl_inv (Q := Recorded _) (fun s U h => step_recorded h U) _ _ ⟨hR.seen⟩
  refine ⟨h1, h2, fun hc => pairs_exact (useMl := useMl) (ml := ml) hg hT hf hi h1 fun U hU hel => ?_⟩
  have := foldl_hist (t := testsOf ct useMl ml data) (combos (List.finRange n) 2) { s with changed := false } hc (fun _ => False) (fun U h => h.elim) U (Or.inr hU) hel
  exact h2.seen U _ this

/-- a pass over the triples adds nothing to the true ancestors -/
theorem pass_two (hg : Generated data b0 B e) (hT : TotalEffects B T) (hi : IdealTests e ct.nonGauss ct.corr ct.indep) {s : St n} (hE : Exact B s.M) :
    Exact B (pass (testsOf ct useMl ml data) 2 s).M ∧ (pass (testsOf ct useMl ml data) 2 s).changed = false := by
  have h : (pass (testsOf ct useMl ml data) 2 s).M = s.M := by
    refine foldl_mem_inv (Q := fun r => r.M = s.M) _ (fun U hU r hr => ?_) _ rfl
    obtain ⟨hnd, hlen⟩ := combos_facts hU
    rw [← hr] at hE ⊢
    funext i
    rcases step_M (t := testsOf ct useMl ml data) r U i with h | ⟨he, hsk, -⟩
    · exact h
    · exact absurd hsk (triple_sinks hg hT hi hE hnd hlen he i)
  refine ⟨by rw [h]; exact hE, ?_⟩
  rcases pass_weight (t := testsOf ct useMl ml data) 2 s with ⟨h1, -⟩ | ⟨-, h2⟩
  · exact h1
  · rw [h] at h2; exact absurd h2 (lt_irrefl _)

theorem loop_exact (hg : Generated data b0 B e) (hT : TotalEffects B T) (hf : ∀ j i, Anc B j i → T j i ≠ 0) (hi : IdealTests e ct.nonGauss ct.corr ct.indep)
    {maxN : Nat} (hmax : maxN ≤ 2) {r : St n} : ∀ (f l : Nat) (s : St n), loop (testsOf ct useMl ml data) maxN f l s = some r →
      (l = 1 ∧ Sound B s.M ∧ Recorded (testsOf ct useMl ml data) s) ∨ (l = 2 ∧ Exact B s.M) → Exact B r.M := by
  intro f
  induction f with
  | zero => intro l s h; simp [loop] at h
  | succ f ih =>
    intro l s h hl
    rw [loop] at h
    rcases hl with ⟨rfl, hS, hR⟩ | ⟨rfl, hE⟩
    · obtain ⟨h1, h2, h3⟩ := pass_one (useMl := useMl) (ml := ml) hg hT hf hi hS hR
      by_cases hc : (pass (testsOf ct useMl ml data) 1 s).changed = true
      · rw [if_pos hc] at h
        exact ih 1 _ h (Or.inl ⟨rfl, h1, h2⟩)
      · rw [if_neg hc] at h
        have hE := h3 (by simpa using hc)
        split at h
        · exact ih 2 _ h (Or.inr ⟨rfl, hE⟩)
        · rw [Option.some_inj] at h
          rw [← h]; exact hE
    · obtain ⟨h1, h2⟩ := pass_two (useMl := useMl) (ml := ml) hg hT hi hE
      rw [if_neg (by rw [h2]; simp), if_neg (by omega), Option.some_inj] at h
      rw [← h]; exact h1

/-! ### parents, confounders, coefficients -/

/-- a residual of `i` on some of its non-descendants that explains everything but the error -/
theorem regress_unit (hg : Generated data b0 B e) (hT : TotalEffects B T) {i : Fin n} {R : Finset (Fin n)} (hR : ∀ v ∈ R, T i v = 0) {g A : Fin n → ℝ}
    (hA : ∀ l, A l = (if l = i then 1 else 0) + ∑ v ∈ R, g v * T l v) (ho : ∀ v ∈ R, ip e A (fun l => T l v) = 0) : ∀ v ∈ R, g v = 0 := by
  have hw : ∀ v ∈ R, ip e (fun l => ∑ v ∈ R, g v * T l v) (fun l => T l v) = 0 := by
    intro v hv
    have h1 : ip e A (fun l => T l v) = ip e (fun l => if l = i then 1 else 0) (fun l => T l v) + ip e (fun l => ∑ v ∈ R, g v * T l v) (fun l => T l v) := by
      rw [← ip_add]
      exact congrArg (fun f => ip e f _) (funext hA)
    have h2 : ip e (fun l => if l = i then 1 else 0) (fun l => T l v) = 0 := by
      unfold ip
      refine sum_eq_zero fun l _ => ?_
      by_cases hl : l = i
      · subst hl; simp [hR v hv]
      · simp [hl]
    rw [ho v hv, h2, zero_add] at h1
    exact h1.symm
  have hww : ip e (fun l => ∑ v ∈ R, g v * T l v) (fun l => ∑ v ∈ R, g v * T l v) = 0 := by
    rw [ip_smul_sum R g (fun v l => T l v)]
    exact sum_eq_zero fun v hv => by rw [hw v hv, mul_zero]
  have h0 := ip_self_zero hg.errors hww
  have hind := total_indep hg.acyclic hT (γ := fun v => if v ∈ R then g v else 0) fun l => by
    have h1 := h0 l
    refine Eq.trans ?_ h1
    simp only [ite_mul, zero_mul]
    rw [sum_ite, sum_const_zero, add_zero]
    exact sum_congr (by ext; simp) fun _ _ => rfl
  intro v hv
  have := hind v
  simpa [hv] using this

theorem total_split (hT : TotalEffects B T) {i : Fin n} {R : Finset (Fin n)} (hR : ∀ p, B p i ≠ 0 → p ∈ R) (l : Fin n) :
    T l i = (if l = i then 1 else 0) + ∑ v ∈ R, B v i * T l v := by
  rw [hT l i]
  congr 1
  refine (sum_subset (subset_univ R) fun v _ hv => ?_).symm
  have : B v i = 0 := by
    by_contra h
    exact hv (hR v h)
  rw [this, zero_mul]

theorem parent_iff (hg : Generated data b0 B e) (hT : TotalEffects B T) (hi : IdealTests e ct.nonGauss ct.corr ct.indep) {M : Fin n → Finset (Fin n)}
    (hM : Exact B M) {i j : Fin n} (hj : Anc B j i) : isParent (testsOf ct useMl ml data) M j i = true ↔ B j i ≠ 0 := by
  have hr := rep_of_generated hg hT
  have hz := total_zero hg.acyclic hT
  have hji : j ≠ i := fun h => hg.acyclic j (h ▸ hj)
  unfold isParent
  obtain ⟨A, hA⟩ := exists_vec (ct := ct) (useMl := useMl) (ml := ml) hg.errors hi hr (M i ∩ M j)
  obtain ⟨A', hA'⟩ := exists_vec (ct := ct) (useMl := useMl) (ml := ml) hg.errors hi hr ((M i).erase j)
  have hH : ∀ h, h ∈ M i ∩ M j ↔ Anc B h j := by
    intro h
    rw [mem_inter, hM, hM]
    exact ⟨fun h => h.2, fun h => ⟨h.trans hj, h⟩⟩
  have hAv := vec_closed hg hT (fun h hh x hx => (hH x).2 (hx.trans ((hH h).1 hh))) hA
  have hAj : ∀ l, A j l = if l = j then 1 else 0 := by
    intro l
    rw [hAv]
    by_cases hl : l = j
    · subst hl
      rw [if_neg (fun h => hg.acyclic l ((hH l).1 h)), if_pos rfl, hz.1]
    · rw [if_neg hl]
      split
      · rfl
      · next h => exact hz.2 l j hl fun h' => h ((hH l).2 h')
  rw [corr_vec hg.errors hi hA hA']
  have hip : ip e (A j) (A' i) = A' i j * ss e j := by
    unfold ip
    rw [sum_eq_single j]
    · rw [hAj, if_pos rfl, one_mul]
    · intro l _ hl; rw [hAj, if_neg hl, zero_mul, zero_mul]
    · simp
  rw [hip]
  have hss : ss e j ≠ 0 := (hg.errors.pos j).ne'
  obtain ⟨β, hβ⟩ := hA'.form i
  have hbelow : ∀ v ∈ M i, T i v = 0 := fun v hv => total_below hg.acyclic hT ((hM i v).1 hv)
  constructor
  · intro h hB
    refine h ?_
    have hform : ∀ l, A' i l = (if l = i then 1 else 0) + ∑ v ∈ (M i).erase j, (B v i - β v) * T l v := by
      intro l
      rw [hβ, total_split hT (R := (M i).erase j) (fun p hp => mem_erase.2 ⟨fun e => hp (e ▸ hB), (hM i p).2 (TransGen.single hp)⟩) l]
      simp only [sub_mul, sum_sub_distrib]
      ring
    have h0 := regress_unit hg hT (fun v hv => hbelow v (mem_erase.1 hv).2) hform fun v hv => hA'.orth i v hv
    rw [hform, if_neg hji, zero_add, sum_eq_zero fun v hv => by rw [h0 v hv, zero_mul], zero_mul]
  · intro hB h
    have h0 : A' i j = 0 := (mul_eq_zero.1 h).resolve_right hss
    have hform : ∀ l, A' i l = (if l = i then 1 else 0) + ∑ v ∈ M i, (if v = j then B j i else B v i - β v) * T l v := by
      intro l
      rw [hβ, total_split hT (R := M i) (fun p hp => (hM i p).2 (TransGen.single hp)) l,
        ← add_sum_erase (M i) _ ((hM i j).2 hj), ← add_sum_erase (M i) (fun v => (if v = j then B j i else B v i - β v) * T l v) ((hM i j).2 hj)]
      have : ∑ v ∈ (M i).erase j, (if v = j then B j i else B v i - β v) * T l v = ∑ v ∈ (M i).erase j, B v i * T l v - ∑ v ∈ (M i).erase j, β v * T l v := by
        rw [← sum_sub_distrib]
        refine sum_congr rfl fun v hv => ?_
        rw [if_neg (mem_erase.1 hv).1]
        ring
      rw [this, if_pos rfl]
      ring
    have horth : ∀ v ∈ M i, ip e (A' i) (fun l => T l v) = 0 := by
      intro v hv
      by_cases hvj : v = j
      · subst hvj
        have hsp : (fun l => T l v) = fun l => (if l = v then 1 else 0) + ∑ p ∈ (M i).erase v, B p v * T l p := by
          funext l
          refine total_split hT (fun p hp => ?_) l
          exact mem_erase.2 ⟨fun e => hg.acyclic v (TransGen.single (e ▸ hp)), (hM i p).2 (TransGen.head hp hj)⟩
        rw [hsp, ip_comm, ip_add, ip_comm (fun l => ∑ p ∈ (M i).erase v, B p v * T l p), ip_smul_sum ((M i).erase v) (fun p => B p v) (fun p l => T l p)]
        rw [sum_eq_zero fun p hp => by rw [hA'.orth i p hp, mul_zero], add_zero]
        unfold ip
        refine sum_eq_zero fun l _ => ?_
        show (if l = v then (1 : ℝ) else 0) * A' i l * ss e l = 0
        by_cases hl : l = v
        · subst hl; rw [h0]; ring
        · rw [if_neg hl, zero_mul, zero_mul]
      · exact hA'.orth i v (mem_erase.2 ⟨hvj, hv⟩)
    have := regress_unit hg hT hbelow hform horth j ((hM i j).2 hj)
    rw [if_pos rfl] at this
    exact hB this

/-- the residual on the parents is the error, with the right coefficients -/
theorem parents_regress (hg : Generated data b0 B e) (hT : TotalEffects B T) {i : Fin n} {P : Finset (Fin n)} (hP : ∀ p, p ∈ P ↔ B p i ≠ 0)
    {A β : Fin n → ℝ} (hβ : ∀ l, A l = T l i - ∑ h ∈ P, β h * T l h) (ho : ∀ h ∈ P, ip e A (fun l => T l h) = 0) :
    (∀ p ∈ P, β p = B p i) ∧ ∀ l, A l = if l = i then 1 else 0 := by
  have hform : ∀ l, A l = (if l = i then 1 else 0) + ∑ v ∈ P, (B v i - β v) * T l v := by
    intro l
    rw [hβ, total_split hT (R := P) (fun p hp => (hP p).2 hp) l]
    simp only [sub_mul, sum_sub_distrib]
    ring
  have h0 := regress_unit hg hT (fun v hv => total_below hg.acyclic hT (TransGen.single ((hP v).1 hv))) hform ho
  exact ⟨fun p hp => by have := h0 p hp; linarith, fun l => by rw [hform, sum_eq_zero fun v hv => by rw [h0 v hv, zero_mul], add_zero]⟩

theorem not_confounded (hg : Generated data b0 B e) (hT : TotalEffects B T) (hi : IdealTests e ct.nonGauss ct.corr ct.indep)
    {P : Fin n → Finset (Fin n)} (hP : ∀ i p, p ∈ P i ↔ B p i ≠ 0) {i j : Fin n} (hij : i ≠ j) :
    (testsOf ct useMl ml data).correlated (i, P i) (j, P j) = false := by
  have hr := rep_of_generated hg hT
  obtain ⟨A, hA⟩ := exists_vec (ct := ct) (useMl := useMl) (ml := ml) hg.errors hi hr (P i)
  obtain ⟨A', hA'⟩ := exists_vec (ct := ct) (useMl := useMl) (ml := ml) hg.errors hi hr (P j)
  rw [Bool.eq_false_iff]
  intro h
  refine (corr_vec hg.errors hi hA hA' i j).1 h (ip_disjoint fun l => ?_)
  obtain ⟨β, hβ⟩ := hA.form i
  obtain ⟨β', hβ'⟩ := hA'.form j
  have h1 := (parents_regress hg hT (hP i) hβ fun v hv => hA.orth i v hv).2 l
  have h2 := (parents_regress hg hT (hP j) hβ' fun v hv => hA'.orth j v hv).2 l
  rw [h1, h2]
  by_cases hl : l = i
  · subst hl; exact Or.inr (if_neg hij)
  · exact Or.inl (if_neg hl)

theorem olsCoef_eq (hg : Generated data b0 B e) (hT : TotalEffects B T) {i : Fin n} {P : Finset (Fin n)} (hP : ∀ p, p ∈ P ↔ B p i ≠ 0) :
    ∀ p ∈ P, olsCoef data i P p = B p i := by
  have hr := rep_of_generated hg hT
  have hspec := Classical.choose_spec (Classical.choose_spec (Classical.choose_spec (exists_residual data i P)).1)
  have hu := ols_spec data i P
  obtain ⟨-, h2⟩ := residual_comb hg.errors hr hu (b := olsCoef data i P) hspec
  exact (parents_regress hg hT (A := fun l => T l i - ∑ h ∈ P, olsCoef data i P h * T l h) hP (fun l => rfl) h2).1

/-- **C196.** Data of an acyclic linear model without hidden variables, in which every ancestor has a non-zero total effect; ideal tests; regressions on at most
two variables (`max_explanatory_num` 1 or, the default, 2), with or without the HSIC-minimising regressions: RCD ends, its ancestor lists are
exactly the sets of ancestors, and its adjacency matrix is exactly the matrix of coefficients (row: effect, column: cause), without NaN. -/
theorem C196_recovers (hg : Generated data b0 B e) (hT : TotalEffects B T) (hf : ∀ j i, Anc B j i → T j i ≠ 0)
    (hi : IdealTests e ct.nonGauss ct.corr ct.indep) (useMl : Bool) (ml : (Fin N → Fin n → ℝ) → Fin n → Finset (Fin n) → Fin n → ℝ) {maxN : Nat} (hmax : maxN ≤ 2)
    {fuel : Nat} (hfuel : n * n * (maxN + 1) + maxN < fuel) :
    ∃ M, fitData ct useMl ml data maxN fuel = some (M, fun i j => some (B j i)) ∧ ∀ i j, j ∈ M i ↔ Anc B j i := by
  obtain ⟨r, -, h2⟩ := loop_terminates (t := testsOf ct useMl ml data) maxN (n * n * (maxN + 1) + maxN + 1) 1 init le_rfl (by simp [weight, init])
  have hr := h2 fuel (by omega)
  have hE : Exact B r.M := loop_exact hg hT hf hi hmax fuel 1 init hr
    (Or.inl ⟨rfl, fun i j h => by simp [init] at h, ⟨fun U H h => by simp [init] at h⟩⟩)
  have hP : ∀ i p, p ∈ parents (testsOf ct useMl ml data) r.M i ↔ B p i ≠ 0 := by
    intro i p
    rw [mem_parents]
    constructor
    · rintro ⟨h1, h2⟩
      exact (parent_iff hg hT hi hE ((hE i p).1 h1)).1 h2
    · intro h
      have ha : Anc B p i := TransGen.single h
      exact ⟨(hE i p).2 ha, (parent_iff hg hT hi hE ha).2 h⟩
  have hC : ∀ i j, j ∉ confounded (testsOf ct useMl ml data) (parents (testsOf ct useMl ml data) r.M) i := by
    intro i j
    rcases lt_trichotomy i j with h | h | h
    · intro hc
      have := ((confounded_iff (t := testsOf ct useMl ml data) _ h).1.1 hc).2.2
      rw [not_confounded hg hT hi hP h.ne] at this
      cases this
    · subst h; exact not_confounded_self _ _
    · intro hc
      have := ((confounded_iff (t := testsOf ct useMl ml data) _ h).1.1 ((confounded_iff (t := testsOf ct useMl ml data) _ h).2.1 hc)).2.2
      rw [not_confounded hg hT hi hP h.ne] at this
      cases this
  refine ⟨r.M, ?_, hE⟩
  unfold fitData fit ancestors
  rw [hr]
  simp only [Option.map_some, Option.some_inj, Prod.mk.injEq, true_and]
  funext i j
  have hent : entry (parents (testsOf ct useMl ml data) r.M) (confounded (testsOf ct useMl ml data) (parents (testsOf ct useMl ml data) r.M)) i j =
      if j ∈ parents (testsOf ct useMl ml data) r.M i then .coef else .zero := by
    unfold entry
    rw [if_neg (hC i j)]
  unfold matrix
  rw [hent]
  by_cases hp : j ∈ parents (testsOf ct useMl ml data) r.M i
  · rw [if_pos hp]
    exact congrArg some (olsCoef_eq hg hT (hP i) j hp)
  · rw [if_neg hp]
    have : B j i = 0 := by
      by_contra h
      exact hp ((hP i j).2 h)
    exact congrArg some this.symm

end
end Rcd
end CL
