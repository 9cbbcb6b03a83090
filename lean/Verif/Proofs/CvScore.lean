import Verif.Model.CvScore
import Verif.Proofs.Kci
import Mathlib.Analysis.Matrix.PosDef
import Mathlib.Tactic.FieldSimp
import Mathlib.Tactic.Positivity

/-! # Lemmas about the generalised scores -/
namespace CL
namespace CvScore
open Matrix Kci
variable {T : Nat}

/-! ### Folds -/

theorem mem_slice {a b : Nat} {i : Fin T} : i ∈ slice T a b ↔ a ≤ i.val ∧ i.val < b := by simp [slice]

theorem nodup_slice (T a b : Nat) : (slice T a b).Nodup := (List.nodup_finRange T).filter _

theorem length_slice {a b : Nat} (hb : b ≤ T) : (slice T a b).length = b - a := by
  rw [← List.toFinset_card_of_nodup (nodup_slice T a b), ← Nat.card_Ico a b, ← Finset.card_map Fin.valEmbedding]
  congr 1
  ext t
  simp only [Finset.mem_map, List.mem_toFinset, mem_slice, Fin.valEmbedding_apply, Finset.mem_Ico]
  constructor
  · rintro ⟨i, hi, rfl⟩; exact hi
  · rintro ⟨h1, h2⟩; exact ⟨⟨t, by omega⟩, ⟨h1, h2⟩, rfl⟩

theorem n0_mul_le (T k : Nat) : k * n0 T k ≤ T := by rw [n0]; exact Nat.mul_div_le T k

theorem lt_n0_mul {T k : Nat} (hk : 0 < k) : T < k * n0 T k + k := by
  have := Nat.div_add_mod T k
  have := Nat.mod_lt T hk
  unfold n0; omega

theorem fold_le {T k kk : Nat} (h : kk < k) : kk * n0 T k + n0 T k ≤ T := by
  have h1 : (kk + 1) * n0 T k ≤ k * n0 T k := Nat.mul_le_mul_right _ h
  have h2 := n0_mul_le T k
  rw [Nat.add_mul] at h1; omega

theorem mem_testIdx {k kk : Nat} (h : kk < k) {i : Fin T} :
    i ∈ testIdx T k kk ↔ kk * n0 T k ≤ i.val ∧ (i.val < kk * n0 T k + n0 T k ∨ (kk + 1 = k ∧ 1 < k) ∨ k = 1) := by
  have hle := fold_le (T := T) h
  have hT := i.2
  unfold testIdx
  split_ifs with h0 h1
  · subst h0
    rw [mem_slice]
    rcases Nat.lt_or_ge 1 k with h2 | h2
    · constructor
      · rintro ⟨_, h3⟩; exact ⟨by omega, Or.inl (by omega)⟩
      · rintro ⟨_, h3 | h3 | h3⟩ <;> omega
    · have : k = 1 := by omega
      subst this
      simp [n0, hT]
  · rw [mem_slice]
    constructor
    · rintro ⟨h3, _⟩; exact ⟨h3, Or.inr (Or.inl (by omega))⟩
    · rintro ⟨h3, _⟩; exact ⟨h3, hT⟩
  · rw [mem_slice, Nat.add_mul]
    constructor
    · rintro ⟨h3, h4⟩; exact ⟨h3, Or.inl (by omega)⟩
    · rintro ⟨h3, h4 | h4 | h4⟩ <;> omega

theorem mem_trainIdx {k kk : Nat} (h : kk < k) {i : Fin T} : i ∈ trainIdx T k kk ↔ i ∉ testIdx T k kk := by
  have hle := fold_le (T := T) h
  have hT := i.2
  unfold trainIdx testIdx
  split_ifs with h0 h1
  · rw [mem_slice, mem_slice]; omega
  · rw [mem_slice, mem_slice]; omega
  · rw [List.mem_append, mem_slice, mem_slice, mem_slice, Nat.add_mul]; omega

theorem nodup_testIdx (T k kk : Nat) : (testIdx T k kk).Nodup := by
  unfold testIdx; split_ifs <;> exact nodup_slice _ _ _

theorem nodup_trainIdx (T k kk : Nat) : (trainIdx T k kk).Nodup := by
  unfold trainIdx
  split_ifs
  · exact nodup_slice _ _ _
  · exact nodup_slice _ _ _
  · refine (nodup_slice _ _ _).append (nodup_slice _ _ _) fun i hi hj => ?_
    rw [mem_slice] at hi hj
    rw [Nat.add_mul] at hj; omega

theorem fold_perm {k kk : Nat} (h : kk < k) : (testIdx T k kk ++ trainIdx T k kk).Perm (List.finRange T) := by
  rw [List.perm_ext_iff_of_nodup ((nodup_testIdx T k kk).append (nodup_trainIdx T k kk) fun i hi hj => (mem_trainIdx h).1 hj hi) (List.nodup_finRange T)]
  intro i
  simp only [List.mem_append, List.mem_finRange, iff_true, mem_trainIdx h]
  exact em _

theorem length_testIdx {k kk : Nat} (h : kk < k) : (testIdx T k kk).length = nv T k kk := by
  have hle := fold_le (T := T) h
  unfold testIdx nv
  split_ifs with h0 h1
  · rw [length_slice (by subst h0; omega)]; rfl
  · rw [length_slice le_rfl]
  · rw [Nat.add_mul, length_slice (by omega)]; omega

theorem length_trainIdx {k kk : Nat} (h : kk < k) : (trainIdx T k kk).length = T - nv T k kk := by
  have := (fold_perm (T := T) h).length_eq
  rw [List.length_append, length_testIdx h, List.length_finRange] at this
  omega

theorem nv_lt {k kk : Nat} (hk : 2 ≤ k) (hT : k ≤ T) (h : kk < k) : nv T k kk < T := by
  have h1 : 1 ≤ n0 T k := by unfold n0; exact (Nat.one_le_div_iff (by omega)).2 hT
  have hle := fold_le (T := T) h
  unfold nv
  split_ifs with h0 h2
  · have := fold_le (T := T) (kk := 1) (k := k) (by omega); omega
  · have : 1 * n0 T k ≤ kk * n0 T k := Nat.mul_le_mul_right _ (by omega)
    omega
  · have : 1 * n0 T k ≤ kk * n0 T k := Nat.mul_le_mul_right _ (by omega)
    omega

/-! ### Kernels -/

theorem sqd_eq (x : Col T) (i j : Fin T) : sqd x i j = (x i - x j) ^ 2 := by unfold sqd; ring

theorem kern_eq (θ : ℝ) (x : Col T) : kern θ x = gaussK θ fun i (_ : Fin 1) => x i := by
  ext i j
  simp only [kern, gaussK, of_apply, sqDist, Fin.sum_univ_one, sqd_eq, one_mul]
  rw [max_eq_right (sq_nonneg _)]
  congr 1
  ring

theorem mem_posDiffs {x : Col T} {t : ℝ} : t ∈ posDiffs x ↔ 0 < t ∧ ∃ i j : Fin T, i < j ∧ t = (x i - x j) ^ 2 := by
  simp only [posDiffs, List.mem_filter, List.mem_flatMap, List.mem_finRange, true_and, List.mem_map, decide_eq_true_eq, sqd_eq]
  constructor
  · rintro ⟨⟨i, j, h⟩, ht⟩
    split_ifs at h with hij
    · exact ⟨ht, i, j, hij, h.symm⟩
    · subst h; exact absurd ht (lt_irrefl _)
  · rintro ⟨ht, i, j, hij, h⟩
    exact ⟨⟨i, j, by rw [if_pos hij, h]⟩, ht⟩

/-- all values of the column are equal -/
def Const (x : Col T) : Prop := ∀ i j, x i = x j

theorem posDiffs_nil {x : Col T} : posDiffs x = [] ↔ Const x := by
  constructor
  · intro h i j
    by_contra hne
    rcases lt_trichotomy i j with hij | hij | hij
    · have : (x i - x j) ^ 2 ∈ posDiffs x := mem_posDiffs.2 ⟨by have := sub_ne_zero.2 hne; positivity, i, j, hij, rfl⟩
      rw [h] at this; cases this
    · exact hne (by rw [hij])
    · have : (x j - x i) ^ 2 ∈ posDiffs x := mem_posDiffs.2 ⟨by have := sub_ne_zero.2 (Ne.symm hne); positivity, j, i, hij, rfl⟩
      rw [h] at this; cases this
  · intro h
    rw [List.eq_nil_iff_forall_not_mem]
    intro t ht
    obtain ⟨h0, i, j, _, rfl⟩ := mem_posDiffs.1 ht
    rw [h i j, sub_self] at h0
    simp at h0

theorem theta_const (f : ℝ) {x : Col T} (h : Const x) : theta f x = .nan := by
  rw [theta, posDiffs_nil.2 h]; rfl

theorem theta_val {f : ℝ} (hf : 0 < f) {x : Col T} (h : ¬ Const x) : ∃ θ, theta f x = .val θ ∧ 0 < θ := by
  obtain ⟨m, hm, hp⟩ := npMedian_pos (l := posDiffs x) (fun t ht => (mem_posDiffs.1 ht).1) fun h0 => h (posDiffs_nil.1 h0)
  refine ⟨_, by rw [theta, hm]; rfl, ?_⟩
  have : 0 < √(0.5 * m) := Real.sqrt_pos.2 (by positivity)
  positivity

theorem theta_cases (f : ℝ) (x : Col T) : theta f x = .nan ∨ ∃ θ, theta f x = .val θ := by
  unfold theta npMedian
  dsimp only
  split_ifs
  · exact Or.inl rfl
  · exact Or.inr ⟨_, rfl⟩
  · exact Or.inr ⟨_, rfl⟩

theorem centering_psd (n : Nat) : (centering n).PosSemidef := by
  have := posSemidef_self_mul_conjTranspose (centering n)
  rwa [conjTranspose_eq_transpose_of_trivial, centering_symm, centering_idem] at this

theorem psd_hadCenter {K : Matrix (Fin T) (Fin T) ℝ} (h : K.PosSemidef) : (hadCenter K).PosSemidef :=
  psd_had (psd_had (centering_psd T) h) (centering_psd T)

theorem kx_psd {f : ℝ} {x : Col T} {K : Matrix (Fin T) (Fin T) ℝ} (h : kx f x = .val K) : K.PosSemidef := by
  unfold kx theta at h
  cases hm : npMedian (posDiffs x) with
  | raises => rw [hm] at h; cases h
  | nan => rw [hm] at h; cases h
  | val m =>
    rw [hm] at h; cases h
    rw [kern_eq]
    exact psd_hadCenter (psd_gauss (by positivity) _)

theorem theta_nonneg {f : ℝ} {x : Col T} {θ : ℝ} (h : theta f x = .val θ) : 0 ≤ θ := by
  unfold theta at h
  cases hm : npMedian (posDiffs x) with
  | raises => rw [hm] at h; cases h
  | nan => rw [hm] at h; cases h
  | val m => rw [hm] at h; cases h; positivity

/-- an induction principle for the product of the parents' kernels -/
theorem kpa_ind {f : ℝ} (P : Matrix (Fin T) (Fin T) ℝ → Prop) (h1 : P (of fun _ _ => 1))
    (hs : ∀ K θ p, P K → 0 ≤ θ → P (K ⊙ kern θ p)) {pas : List (Col T)} {K : Matrix (Fin T) (Fin T) ℝ} (h : kpa f pas = .val K) :
    ∃ K', P K' ∧ K = hadCenter K' := by
  have key : ∀ (pas : List (Col T)) (K0 K' : Matrix (Fin T) (Fin T) ℝ), P K0 → pas.foldl (kpaStep f) (.val K0) = .val K' → P K' := by
    intro pas
    induction pas with
    | nil => intro K0 K' h0 h; cases h; exact h0
    | cons p t ih =>
      intro K0 K' h0 h
      rw [List.foldl_cons] at h
      rcases theta_cases f p with hn | ⟨θ, hθ⟩
      · have e : kpaStep f (.val K0) p = .nan := by simp only [kpaStep, Res.bind, hn]
        have hnan : ∀ t : List (Col T), t.foldl (kpaStep f) .nan = .nan := by
          intro t; induction t with
          | nil => rfl
          | cons a t ih => rw [List.foldl_cons]; exact ih
        rw [e, hnan] at h; cases h
      · have e : kpaStep f (.val K0) p = .val (K0 ⊙ kern θ p) := by simp only [kpaStep, Res.bind, hθ]
        rw [e] at h
        exact ih _ _ (hs _ _ _ h0 (theta_nonneg hθ)) h
  unfold kpa at h
  cases hm : pas.foldl (kpaStep f) (.val (of fun _ _ => 1)) with
  | raises => rw [hm] at h; cases h
  | nan => rw [hm] at h; cases h
  | val K' => rw [hm] at h; cases h; exact ⟨K', key _ _ _ h1 hm, rfl⟩

theorem kpa_psd {f : ℝ} {pas : List (Col T)} {K : Matrix (Fin T) (Fin T) ℝ} (h : kpa f pas = .val K) : K.PosSemidef := by
  obtain ⟨K', hK, rfl⟩ := kpa_ind (fun K => K.PosSemidef) psd_ones
    (fun K θ p h0 hθ => by rw [kern_eq]; exact psd_had h0 (psd_gauss hθ _)) h
  exact psd_hadCenter hK

theorem kx_val {f : ℝ} (hf : 0 < f) {x : Col T} (h : ¬ Const x) : ∃ K, kx f x = .val K := by
  obtain ⟨θ, hθ, _⟩ := theta_val hf h
  exact ⟨_, by rw [kx, hθ]; rfl⟩

theorem kpa_val {f : ℝ} (hf : 0 < f) {pas : List (Col T)} (h : ∀ p ∈ pas, ¬ Const p) : ∃ K, kpa f pas = .val K := by
  have key : ∀ (pas : List (Col T)), (∀ p ∈ pas, ¬ Const p) → ∀ K0 : Matrix (Fin T) (Fin T) ℝ, ∃ K', pas.foldl (kpaStep f) (.val K0) = .val K' := by
    intro pas
    induction pas with
    | nil => intro _ K0; exact ⟨K0, rfl⟩
    | cons p t ih =>
      intro h K0
      obtain ⟨θ, hθ, _⟩ := theta_val hf (h p (List.mem_cons_self ..))
      have e : kpaStep f (.val K0) p = .val (K0 ⊙ kern θ p) := by simp only [kpaStep, Res.bind, hθ]
      rw [List.foldl_cons, e]
      exact ih (fun q hq => h q (List.mem_cons_of_mem _ hq)) _
  obtain ⟨K', hK⟩ := key pas h (of fun _ _ => 1)
  exact ⟨_, by rw [kpa, hK]; rfl⟩

/-! ### The matrices of a fold -/

theorem sub_psd {K : Matrix (Fin T) (Fin T) ℝ} (h : K.PosSemidef) (a : List (Fin T)) : (sub K a a).PosSemidef := h.submatrix _

theorem ridge_posDef {lam : ℝ} (hl : 0 < lam) {Kpa : Matrix (Fin T) (Fin T) ℝ} (h : Kpa.PosSemidef) {k kk : Nat} (hkk : kk < k) :
    (ridge lam Kpa k kk).PosDef := by
  rcases Nat.eq_zero_or_pos (T - nv T k kk) with h0 | h0
  · have : IsEmpty (Fin (trainIdx T k kk).length) := by rw [length_trainIdx hkk, h0]; infer_instance
    rw [Subsingleton.elim (ridge lam Kpa k kk) 1]
    exact PosDef.one
  · unfold ridge
    have hp : (0 : ℝ) < ((T - nv T k kk : Nat) : ℝ) * lam := by positivity
    exact PosDef.posSemidef_add (sub_psd h _) (PosDef.one.smul hp)

theorem tmp2_psd (lam : ℝ) {Kx Kpa : Matrix (Fin T) (Fin T) ℝ} (hx : Kx.PosSemidef) (hpa : Kpa.PosSemidef) (k kk : Nat) :
    (tmp2 lam Kx Kpa k kk).PosSemidef := by
  unfold tmp2
  have hs : ((ridge lam Kpa k kk)⁻¹)ᵀ = (ridge lam Kpa k kk)⁻¹ := by
    rw [transpose_nonsing_inv]
    congr 1
    unfold ridge
    rw [transpose_add, transpose_smul, transpose_one, symm_of_psd (sub_psd hpa _)]
  have := (sub_psd hx (trainIdx T k kk)).mul_mul_conjTranspose_same (ridge lam Kpa k kk)⁻¹
  rwa [conjTranspose_eq_transpose_of_trivial, hs] at this

theorem gamma_pos : 0 < gamma := by unfold gamma; norm_num

theorem matB_posDef (lam : ℝ) {Kx Kpa : Matrix (Fin T) (Fin T) ℝ} (hx : Kx.PosSemidef) (hpa : Kpa.PosSemidef) (k kk : Nat) :
    (matB lam Kx Kpa k kk).PosDef := by
  unfold matB
  have := gamma_pos
  exact PosDef.posSemidef_add ((tmp2_psd lam hx hpa k kk).smul (by positivity)) PosDef.one

theorem matB0_posDef {Kx : Matrix (Fin T) (Fin T) ℝ} (hx : Kx.PosSemidef) (k kk : Nat) : (matB0 Kx k kk).PosDef := by
  unfold matB0
  have := gamma_pos
  exact PosDef.posSemidef_add ((sub_psd hx _).smul (by positivity)) PosDef.one

/-! ### The loop -/

theorem meanFolds_val {k : Nat} {term : Nat → Res ℝ} {v : Nat → ℝ} (h : ∀ kk < k, term kk = .val (v kk)) :
    meanFolds k term = .val ((∑ kk ∈ Finset.range k, v kk) / k) := by
  have key : ∀ m ≤ k, (List.range m).foldl (fun (acc : Res ℝ) kk => acc.bind fun s => (term kk).bind fun t => .val (s + t)) (.val 0) =
      .val (∑ kk ∈ Finset.range m, v kk) := by
    intro m
    induction m with
    | zero => intro _; rfl
    | succ m ih =>
      intro hm
      rw [List.range_succ, List.foldl_append, ih (by omega), Finset.sum_range_succ]
      simp only [List.foldl_cons, List.foldl_nil, Res.bind, h m (by omega)]
  rw [meanFolds, key k le_rfl]; rfl

theorem meanFolds_raises {k : Nat} {term : Nat → Res ℝ} (hn : ∀ kk < k, term kk ≠ .nan) {m : Nat} (hm : m < k) (h : term m = .raises) :
    meanFolds k term = .raises := by
  have key : ∀ j ≤ k, m < j → (List.range j).foldl (fun (acc : Res ℝ) kk => acc.bind fun s => (term kk).bind fun t => .val (s + t)) (.val 0) =
      .raises := by
    have nn : ∀ j ≤ k, (List.range j).foldl (fun (acc : Res ℝ) kk => acc.bind fun s => (term kk).bind fun t => .val (s + t)) (.val 0) ≠ .nan := by
      intro j
      induction j with
      | zero => intro _ h; cases h
      | succ j ih =>
        intro hj
        rw [List.range_succ, List.foldl_append]
        have := ih (by omega)
        revert this
        generalize (List.range j).foldl _ _ = acc
        intro ha
        have hb := hn j (by omega)
        simp only [List.foldl_cons, List.foldl_nil]
        cases acc <;> cases hj : term j <;> simp_all [Res.bind]
    intro j
    induction j with
    | zero => intro _ h; omega
    | succ j ih =>
      intro hj hmj
      rw [List.range_succ, List.foldl_append]
      simp only [List.foldl_cons, List.foldl_nil]
      rcases Nat.lt_or_ge m j with h1 | h1
      · rw [ih (by omega) h1]; rfl
      · have : m = j := by omega
        subst this
        have := nn m (by omega)
        revert this
        generalize (List.range m).foldl _ _ = acc
        intro ha
        cases acc <;> simp_all [Res.bind]
  rw [meanFolds, key k le_rfl hm]; rfl

end CvScore
end CL
