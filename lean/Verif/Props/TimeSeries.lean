import Verif.Model.TimeSeries
import Verif.Props.Lingam
import Mathlib.LinearAlgebra.Matrix.Notation
import Mathlib.Algebra.BigOperators.Group.Finset.Basic
import Mathlib.Tactic.Abel
import Mathlib.Tactic.NormNum

/-!
# C99–C104: LiNGAM for time series
-/
namespace CL
namespace TS
open Matrix
variable {p : Nat} {K : Type} [CommRing K]

theorem lagSum_aux (x : Series p K) (t : Nat) (M : List (Mat p K)) (k : Nat) (acc : Vec p K) :
    (M.zipIdx k).foldl (fun acc m => acc + m.1 *ᵥ x (t - (m.2 + 1))) acc =
      acc + ∑ i ∈ Finset.range M.length, M.getD i 0 *ᵥ x (t - (k + i + 1)) := by
  induction M generalizing k acc with
  | nil => simp
  | cons m M ih =>
    rw [List.zipIdx_cons, List.foldl_cons, ih, List.length_cons, Finset.sum_range_succ']
    simp only [List.getD_cons_zero, List.getD_cons_succ, add_zero]
    rw [add_assoc, add_comm (m *ᵥ _)]
    congr 2
    refine Finset.sum_congr rfl fun i _ => ?_
    rw [show k + 1 + i + 1 = k + (i + 1) + 1 by omega]

theorem lagSum_eq (M : List (Mat p K)) (x : Series p K) (t : Nat) :
    lagSum M x t = ∑ i ∈ Finset.range M.length, M.getD i 0 *ᵥ x (t - (i + 1)) := by
  unfold lagSum
  rw [lagSum_aux]
  simp

theorem sum_get_map (f : Mat p K → Mat p K) (M : List (Mat p K)) (y : Nat → Vec p K) :
    ∑ i ∈ Finset.range (M.map f).length, (M.map f).getD i 0 *ᵥ y i = ∑ i ∈ Finset.range M.length, f (M.getD i 0) *ᵥ y i := by
  rw [List.length_map]
  refine Finset.sum_congr rfl fun i hi => ?_
  rw [Finset.mem_range] at hi
  simp only [List.getD_eq_getElem?_getD, List.getElem?_map, List.getElem?_eq_getElem hi, Option.map_some, Option.getD_some]

theorem structural_lags (B0 : Mat p K) (M : List (Mat p K)) (x : Series p K) (t : Nat) (r : Vec p K) (h : r = x t - lagSum M x t) :
    x t = ∑ i ∈ Finset.range (calcB B0 M).length, (calcB B0 M).getD i 0 *ᵥ x (t - i) + (1 - B0) *ᵥ r := by
  unfold calcB
  rw [List.length_cons, Finset.sum_range_succ']
  simp only [List.getD_cons_zero, List.getD_cons_succ, Nat.sub_zero]
  rw [sum_get_map (fun m => (1 - B0) * m) M fun i => x (t - (i + 1)), h, lagSum_eq]
  simp only [← Matrix.mulVec_mulVec]
  rw [Matrix.mulVec_sub, Matrix.mulVec_sum, Matrix.sub_mulVec, Matrix.one_mulVec]
  abel

/-- **C99.** After `fit` without pruning, with coefficients given or estimated by an estimator whose residuals are `x_t` minus the lagged
terms, the reported matrices and the error variables whose independence is tested satisfy the structural equation
`x_t = B_0 x_t + B_1 x_{t-1} + … + B_lags x_{t-lags} + e_t` at every time with enough past; there are `lags + 1` matrices and `B_0` is the
matrix the LiNGAM model found on the residuals. -/
theorem C99_structural_equation (E : Env p K) (o : Obj p K) (x : Series p K × Nat)
    (hest : o.arCoefs = none → (E.estimate x o.lags).2 = calcResiduals (E.estimate x o.lags).1 x.1) :
    let r := fit E false o x
    r.2.B.length = r.1.lags + 1 ∧ (r.2.order, r.2.B.headD 0) = E.lingam r.2.residuals ∧
      ∀ s, x.1 (s + r.1.lags) = ∑ i ∈ Finset.range r.2.B.length, r.2.B.getD i 0 *ᵥ x.1 (s + r.1.lags - i) + errors (r.2.B.headD 0) r.2.residuals s := by
  have key : ∀ (M : List (Mat p K)) (res : Series p K), res = calcResiduals M x.1 →
      let r : Obj p K × Fitted p K := (⟨some M, M.length⟩, ⟨(E.lingam res).1, calcB (E.lingam res).2 M, res⟩)
      r.2.B.length = r.1.lags + 1 ∧ (r.2.order, r.2.B.headD 0) = E.lingam r.2.residuals ∧
      ∀ s, x.1 (s + r.1.lags) = ∑ i ∈ Finset.range r.2.B.length, r.2.B.getD i 0 *ᵥ x.1 (s + r.1.lags - i) + errors (r.2.B.headD 0) r.2.residuals s := by
    intro M res hres
    refine ⟨by simp [calcB], by simp [calcB], fun s => ?_⟩
    have h1 := structural_lags (E.lingam res).2 M x.1 (s + M.length) (res s) (by rw [hres]; rfl)
    simpa [errors, calcB] using h1
  obtain ⟨ar, lags⟩ := o
  cases ar with
  | none =>
    have h := hest rfl
    exact key (E.estimate x lags).1 (E.estimate x lags).2 h
  | some M => exact key M (calcResiduals M x.1) rfl

/-! ## C100: VARMA -/

theorem epsList_length (phi theta : List (Mat p K)) (x init : Series p K) (t : Nat) : (epsList phi theta x init t).length = t := by
  induction t with
  | zero => rfl
  | succ t ih => simp [epsList, ih]

theorem epsList_getD (phi theta : List (Mat p K)) (x init : Series p K) (t s : Nat) (h : s < t) :
    (epsList phi theta x init t).getD s 0 = eps phi theta x init s := by
  induction t with
  | zero => omega
  | succ t ih =>
    by_cases hs : s < t
    · rw [← ih hs]
      simp only [epsList]
      simp only [List.getD_eq_getElem?_getD]
      rw [List.getElem?_append_left (by rw [epsList_length]; exact hs)]
    · obtain rfl : s = t := by omega
      rfl

theorem eps_rec (phi theta : List (Mat p K)) (x init : Series p K) (t : Nat) (ht : max phi.length theta.length ≤ t) :
    eps phi theta x init t = x t - (lagSum phi x t + lagSum theta (eps phi theta x init) t) := by
  unfold eps
  rw [epsList, List.getD_eq_getElem?_getD, List.getElem?_append_right (by rw [epsList_length]), epsList_length, Nat.sub_self, if_neg (by omega)]
  simp only [List.getElem?_cons_zero, Option.getD_some]
  congr 2
  rw [lagSum_eq, lagSum_eq]
  refine Finset.sum_congr rfl fun i hi => ?_
  have := Finset.mem_range.1 hi
  rw [epsList_getD _ _ _ _ _ _ (by omega)]
  rfl

/-- **C100, what holds.** The reported `psis` and `omegas` satisfy `x_t = ψ_0 x_t + ψ_1 x_{t-1} + … + e_t + ω_1 ε_{t-1} + …`, where `e` are the
error variables of the model and `ε` the *residuals* of the reduced form. Missing: the model equation has the error variables `e_{t-j}`
in place of `ε_{t-j}`. -/
theorem C100_varma_partial (psi0 : Mat p K) (phi theta : List (Mat p K)) (x init : Series p K) (t : Nat)
    (ht : max phi.length theta.length ≤ t) :
    x t = ∑ i ∈ Finset.range (psis psi0 phi).length, (psis psi0 phi).getD i 0 *ᵥ x (t - i) + errors psi0 (eps phi theta x init) t +
      ∑ j ∈ Finset.range (omegas psi0 theta).length, (omegas psi0 theta).getD j 0 *ᵥ eps phi theta x init (t - (j + 1)) := by
  have h := structural_lags psi0 phi x t (x t - lagSum phi x t) rfl
  have h2 : x t - lagSum phi x t = eps phi theta x init t + lagSum theta (eps phi theta x init) t := by
    rw [eps_rec _ _ _ _ _ ht]; abel
  rw [h2, Matrix.mulVec_add, lagSum_eq theta, Matrix.mulVec_sum] at h
  unfold omegas
  rw [sum_get_map (fun m => (1 - psi0) * m) theta fun i => eps phi theta x init (t - (i + 1))]
  simp only [← Matrix.mulVec_mulVec]
  rw [add_assoc]
  exact h

/-- `ψ_0`: 1 depends on 0. `θ`: the moving-average part carries 1 over to 0. -/
def exPsi : Mat 2 ℚ := !![0, 0; 1, 0]
def exTheta : Mat 2 ℚ := !![0, 1; 0, 0]

/-- **C100 violated.** Two variables, one moving-average term, coefficients given: at time 1 the model equation with the reported `ψ_0` and
`ω_1` is false. -/
theorem C100_omega_violated : ∃ (psi0 theta : Mat 2 ℚ) (x init : Series 2 ℚ) (t : Nat), 1 ≤ t ∧ psi0 0 1 = 0 ∧ psi0 0 0 = 0 ∧ psi0 1 1 = 0 ∧
    x t ≠ ∑ i ∈ Finset.range (psis psi0 []).length, (psis psi0 []).getD i 0 *ᵥ x (t - i) + errors psi0 (eps [] [theta] x init) t +
      ∑ j ∈ Finset.range (omegas psi0 [theta]).length, (omegas psi0 [theta]).getD j 0 *ᵥ errors psi0 (eps [] [theta] x init) (t - (j + 1)) := by
  refine ⟨exPsi, exTheta, fun _ => ![0, 0], fun _ => ![1, 0], 1, le_refl _, by decide +kernel, by decide +kernel, by decide +kernel, ?_⟩
  decide +kernel

/-! ## C101: repeated fits -/

/-- **C101, what holds.** With coefficients given to the constructor, every fit of the same object gives what a fresh object gives. -/
theorem C101_refit_partial (E : Env p K) (prune : Bool) (M : List (Mat p K)) (lags : Nat) (xs : List (Series p K × Nat)) :
    fitMany E prune xs ⟨some M, lags⟩ = xs.map fun x => (fit E prune ⟨some M, lags⟩ x).2 := by
  induction xs generalizing lags with
  | nil => rfl
  | cons x xs ih =>
    rw [fitMany, List.map_cons]
    congr 1
    have : (fit E prune ⟨some M, lags⟩ x).1 = ⟨some M, M.length⟩ := rfl
    rw [this, ih]
    rfl

/-- **C101 violated (every run).** Without given coefficients, all fits after the first one use the coefficients estimated from the first
data set, whatever the new data are. -/
theorem C101_coefficients_kept_violated (E : Env p K) (prune : Bool) (lags : Nat) (x : Series p K × Nat) (xs : List (Series p K × Nat)) :
    fitMany E prune (x :: xs) ⟨none, lags⟩ = (fit E prune ⟨none, lags⟩ x).2 ::
      xs.map fun y => (fit E prune ⟨some (E.estimate x lags).1, (E.estimate x lags).1.length⟩ y).2 := by
  rw [fitMany]
  congr 1
  have : (fit E prune ⟨none, lags⟩ x).1 = ⟨some (E.estimate x lags).1, (E.estimate x lags).1.length⟩ := rfl
  rw [this, C101_refit_partial]

/-- least squares for one variable and one lag, on three observations -/
def exEnv : Env 1 ℚ where
  estimate x _ :=
    let m : ℚ := (x.1 1 0 * x.1 0 0 + x.1 2 0 * x.1 1 0) / (x.1 0 0 * x.1 0 0 + x.1 1 0 * x.1 1 0)
    ([fun _ _ => m], calcResiduals [fun _ _ => m] x.1)
  lingam _ := ([0], 0)
  prune _ B _ := B

/-- **C101 violated.** Least squares, one lag: the series 1, 2, 4 and then 1, 3, 9. The second fit reports the coefficient 2 of the first
series and non-zero residuals; a fresh object reports 3 and no residuals. -/
theorem C101_refit_violated : ∃ x y : Series 1 ℚ × Nat, (∀ z, (exEnv.estimate z 1).2 = calcResiduals (exEnv.estimate z 1).1 z.1) ∧
    (fitMany exEnv false [x, y] ⟨none, 1⟩).map (fun r => (r.B.map fun m => m 0 0, r.residuals 0 0)) = [([0, 2], 0), ([0, 2], 1)] ∧
    (fitMany exEnv false [y] ⟨none, 1⟩).map (fun r => (r.B.map fun m => m 0 0, r.residuals 0 0)) = [([0, 3], 0)] :=
  ⟨(fun t => ![2 ^ t], 3), (fun t => ![3 ^ t], 3), fun _ => rfl, by decide +kernel, by decide +kernel⟩

/-- the hypothesis of `C99_structural_equation` is met by `exEnv` -/
example (x : Series 1 ℚ × Nat) : (exEnv.estimate x 1).2 = calcResiduals (exEnv.estimate x 1).1 x.1 := rfl

/-! ## C102: total effects of lagged variables -/

theorem foldl_put {V : Type} (i off : Nat) (v : Nat → V) (L : List Nat) (m : Nat → Nat → V) (a b : Nat) :
    L.foldl (fun m f => put m i (f + off) (v f)) m a b = if a = i ∧ off ≤ b ∧ b - off ∈ L then v (b - off) else m a b := by
  induction L generalizing m with
  | nil => simp
  | cons f L ih =>
    rw [List.foldl_cons, ih]
    unfold put
    by_cases h1 : a = i ∧ off ≤ b ∧ b - off ∈ L
    · rw [if_pos h1, if_pos ⟨h1.1, h1.2.1, List.mem_cons_of_mem _ h1.2.2⟩]
    · rw [if_neg h1]
      by_cases h2 : a = i ∧ b = f + off
      · rw [if_pos h2, if_pos ⟨h2.1, by omega, by rw [show b - off = f by omega]; exact List.mem_cons_self⟩, show b - off = f by omega]
      · rw [if_neg h2, if_neg]
        rintro ⟨g1, g2, g3⟩
        rcases List.mem_cons.1 g3 with g3 | g3
        · exact h2 ⟨g1, by omega⟩
        · exact h1 ⟨g1, g2, g3⟩

theorem foldl_lags {V : Type} (i n lags : Nat) (te : Nat → Nat → V) (m : Nat → Nat → V) (a b : Nat) :
    (List.range lags).foldl (fun m lag => (List.range n).foldl (fun m f => put m i (f + n) (te (lag + 1) f)) m) m a b =
      if a = i ∧ n ≤ b ∧ b - n < n ∧ 0 < lags then te lags (b - n) else m a b := by
  induction lags generalizing m with
  | zero => simp
  | succ lags ih =>
    rw [List.range_succ, List.foldl_append, List.foldl_cons, List.foldl_nil, foldl_put, ih]
    simp only [List.mem_range]
    by_cases h : a = i ∧ n ≤ b ∧ b - n < n
    · rw [if_pos h, if_pos ⟨h.1, h.2.1, h.2.2, by omega⟩]
    · rw [if_neg h, if_neg (fun h' => h ⟨h'.1, h'.2.1, h'.2.2.1⟩), if_neg (fun h' => h ⟨h'.1, h'.2.1, h'.2.2.1⟩)]

/-- the body of the outer loop -/
def rowStep {V : Type} (n lags : Nat) (order : List Nat) (te : Nat → Nat → Nat → V) (m : Nat → Nat → V) (ct : Nat × Nat) : Nat → Nat → V :=
  let m1 := (order.take (n - (ct.2 + 1))).foldl (fun m from_ => put m ct.1 from_ (te 0 from_ ct.1)) m
  (List.range lags).foldl (fun m lag => (List.range n).foldl (fun m from_ => put m ct.1 (from_ + n) (te (lag + 1) from_ ct.1)) m) m1

theorem rowStep_eq {V : Type} (n lags : Nat) (order : List Nat) (te : Nat → Nat → Nat → V) (m : Nat → Nat → V) (ct : Nat × Nat) (a b : Nat) :
    rowStep n lags order te m ct a b = if a = ct.1 ∧ n ≤ b ∧ b - n < n ∧ 0 < lags then te lags (b - n) ct.1
      else if a = ct.1 ∧ b ∈ order.take (n - (ct.2 + 1)) then te 0 b ct.1 else m a b := by
  unfold rowStep
  rw [foldl_lags ct.1 n lags (fun l f => te l f ct.1)]
  have := foldl_put ct.1 0 (fun f => te 0 f ct.1) (order.take (n - (ct.2 + 1))) m a b
  simp only [Nat.add_zero, Nat.zero_le, Nat.sub_zero, true_and] at this
  rw [this]

theorem rows_eq {V : Type} (n lags : Nat) (order : List Nat) (te : Nat → Nat → Nat → V) (L : List (Nat × Nat)) (hL : (L.map Prod.fst).Nodup)
    (m : Nat → Nat → V) (a c b : Nat) (h : (a, c) ∈ L) :
    L.foldl (rowStep n lags order te) m a b = if n ≤ b ∧ b - n < n ∧ 0 < lags then te lags (b - n) a
      else if b ∈ order.take (n - (c + 1)) then te 0 b a else m a b := by
  have hskip : ∀ (L : List (Nat × Nat)) (m : Nat → Nat → V), a ∉ L.map Prod.fst → L.foldl (rowStep n lags order te) m a b = m a b := by
    intro L
    induction L with
    | nil => intro m _; rfl
    | cons e L ih =>
      intro m hn
      rw [List.map_cons, List.mem_cons, not_or] at hn
      rw [List.foldl_cons, ih _ hn.2, rowStep_eq, if_neg (fun h => hn.1 h.1), if_neg (fun h => hn.1 h.1)]
  induction L generalizing m with
  | nil => simp at h
  | cons e L ih =>
    rw [List.map_cons, List.nodup_cons] at hL
    rw [List.foldl_cons]
    rcases List.mem_cons.1 h with rfl | h
    · rw [hskip _ _ hL.1, rowStep_eq]
      simp only [true_and]
    · rw [ih hL.2 _ h, rowStep_eq]
      have hne : a ≠ e.1 := fun he => hL.1 (he ▸ List.mem_map.2 ⟨_, h, rfl⟩)
      simp only [hne, false_and, if_false]

/-- the whole matrix -/
theorem totalEffects_eq {V : Type} (zero : V) (n lags : Nat) (l₁ l₂ : List Nat) (a : Nat) (te : Nat → Nat → Nat → V) (b : Nat)
    (ho : (l₁ ++ a :: l₂).Perm (List.range n)) :
    totalEffects zero n lags (l₁ ++ a :: l₂) te a b = if n ≤ b ∧ b - n < n ∧ 0 < lags then te lags (b - n) a
      else if b ∈ l₁ then te 0 b a else zero := by
  have hlen := ho.length_eq
  simp only [List.length_append, List.length_cons, List.length_range] at hlen
  have hmem : (a, l₂.length) ∈ (l₁ ++ a :: l₂).reverse.zipIdx := by
    rw [List.mem_zipIdx_iff_getElem?]
    simp [List.reverse_append, List.getElem?_append]
  have := rows_eq n lags (l₁ ++ a :: l₂) te (l₁ ++ a :: l₂).reverse.zipIdx (by
    rw [List.zipIdx_map_fst]
    exact List.nodup_reverse.2 (ho.nodup_iff.2 List.nodup_range)) (fun _ _ => zero) a l₂.length b hmem
  rw [show n - (l₂.length + 1) = l₁.length by omega, List.take_left'] at this
  · exact this
  · rfl

/-- **C102, what holds.** The bootstrap's matrix of total effects: row `a`, column `b < n` holds the contemporaneous effect of `b` on `a` when
`b` is before `a` in the causal order, else zero; with one lag, column `n + f` holds the effect of `f` one step earlier. -/
theorem C102_total_effects_partial {V : Type} (zero : V) (n : Nat) (order : List Nat) (ho : order.Perm (List.range n))
    (te : Nat → Nat → Nat → V) (a b : Nat) (ha : a < n) (hb : b < n) :
    (∀ lags, Lingam.Before order b a → totalEffects zero n lags order te a b = te 0 b a) ∧
    (∀ lags, ¬ Lingam.Before order b a → totalEffects zero n lags order te a b = zero) ∧
    totalEffects zero n 1 order te a (n + b) = te 1 b a := by
  obtain ⟨l₁, l₂, rfl⟩ := List.append_of_mem (ho.mem_iff.2 (List.mem_range.2 ha))
  have hn : (l₁ ++ a :: l₂).Nodup := ho.nodup_iff.2 List.nodup_range
  have hbef : Lingam.Before (l₁ ++ a :: l₂) b a ↔ b ∈ l₁ := by
    constructor
    · intro h
      by_contra hb'
      have h1 : [b, a].Sublist (a :: l₂) := by
        unfold Lingam.Before at h
        rw [List.sublist_append_iff] at h
        obtain ⟨m₁, m₂, e, s1, s2⟩ := h
        cases m₁ with
        | nil => rw [List.nil_append] at e; rw [e]; exact s2
        | cons c m₁ =>
          rw [List.cons_append, List.cons.injEq] at e
          exact absurd (s1.subset (e.1 ▸ List.mem_cons_self)) hb'
      have hn2 := (List.nodup_append.1 hn).2.1
      rw [List.nodup_cons] at hn2
      cases h1 with
      | cons _ h => exact hn2.1 (h.subset (by simp))
      | cons_cons _ h => exact hn2.1 (h.subset (by simp))
    · intro h
      exact (List.singleton_sublist.2 h).append (List.singleton_sublist.2 List.mem_cons_self)
  refine ⟨fun lags h => ?_, fun lags h => ?_, ?_⟩
  · rw [totalEffects_eq _ _ _ _ _ _ _ _ ho, if_neg (by omega), if_pos (hbef.1 h)]
  · rw [totalEffects_eq _ _ _ _ _ _ _ _ ho, if_neg (by omega), if_neg (fun h' => h (hbef.2 h'))]
  · rw [totalEffects_eq _ _ _ _ _ _ _ _ ho, if_pos ⟨by omega, by omega, by omega⟩, Nat.add_sub_cancel_left]

/-- **C102 violated.** With two or more lags, for every causal order and all effects: the block of lag 1 holds the effects of the *last* lag,
and the blocks of the lags 2, 3, … hold zeros. -/
theorem C102_lags_violated {V : Type} (zero : V) (n lags : Nat) (h2 : 2 ≤ lags) (order : List Nat) (ho : order.Perm (List.range n))
    (te : Nat → Nat → Nat → V) (a b lag : Nat) (ha : a < n) (hb : b < n) (hl : 2 ≤ lag) :
    totalEffects zero n lags order te a (n + b) = te lags b a ∧ totalEffects zero n lags order te a (n * lag + b) = zero := by
  obtain ⟨l₁, l₂, rfl⟩ := List.append_of_mem (ho.mem_iff.2 (List.mem_range.2 ha))
  rw [totalEffects_eq _ _ _ _ _ _ _ _ ho, totalEffects_eq _ _ _ _ _ _ _ _ ho]
  have hlt : ∀ c ∈ l₁, c < n := fun c hc => List.mem_range.1 (ho.mem_iff.1 (List.mem_append_left _ hc))
  have hge : 2 * n ≤ n * lag := by rw [Nat.mul_comm 2]; exact Nat.mul_le_mul_left n hl
  refine ⟨by rw [if_pos ⟨by omega, by omega, by omega⟩, Nat.add_sub_cancel_left], ?_⟩
  rw [if_neg (by omega), if_neg (fun h => by have := hlt _ h; omega)]

/-- the hypotheses of the C102 theorems are met by the order 1, 0 -/
example : [1, 0].Perm (List.range 2) ∧ totalEffects 0 2 2 [1, 0] (fun lag f a => 100 * lag + 10 * f + a) 0 1 = 10 ∧
    totalEffects 0 2 2 [1, 0] (fun lag f a => 100 * lag + 10 * f + a) 0 2 = 200 := by decide

/-! ## C103: lagged regressors -/

theorem mapM_some {α β : Type} (f : α → Option β) (g : α → β) (l : List α) (h : ∀ a ∈ l, f a = some (g a)) : l.mapM f = some (l.map g) := by
  induction l with
  | nil => rfl
  | cons a l ih =>
    rw [List.mapM_cons, h a List.mem_cons_self, ih fun b hb => h b (List.mem_cons_of_mem _ hb)]
    rfl

theorem mapM_get {α β : Type} (f : α → Option β) (l : List α) (r : List β) (h : l.mapM f = some r) (i : Nat) (a : α) (hi : l[i]? = some a) :
    ∃ b, f a = some b ∧ r[i]? = some b := by
  induction l generalizing r i with
  | nil => simp at hi
  | cons c l ih =>
    rw [List.mapM_cons] at h
    cases hc : f c with
    | none => rw [hc] at h; cases h
    | some b =>
      rw [hc] at h
      cases hl : l.mapM f with
      | none => rw [hl] at h; cases h
      | some r' =>
        rw [hl] at h
        cases h
        cases i with
        | zero =>
          simp only [List.getElem?_cons_zero, Option.some.injEq] at hi
          subst hi
          exact ⟨b, hc, rfl⟩
        | succ i => exact ih r' hl i (by simpa using hi)

/-- **C103, what holds.** Row `r` of the block of lag `b` of the regressors of `estimate_total_effect` is the observation `b` steps
earlier, for all rows with enough past; Longitudinal LiNGAM regresses time point `t` on the time points `t-1, …, t-n_lags`, if `t ≥ n_lags`. -/
theorem C103_lagged_regressors_partial {V : Type} (x : Nat → V) :
    (∀ N b r, b < N → b ≤ r → r < N → rolled x N b r = x (r - b)) ∧
    ∀ T nLags t, t < T → nLags ≤ t → predictors T nLags x t = some ((List.range nLags).map fun tau => x (t - (tau + 1))) := by
  refine ⟨fun N b r hb hbr hr => ?_, fun T nLags t ht hn => ?_⟩
  · unfold rolled
    rw [Nat.mod_eq_of_lt hb, show r + (N - b) = (r - b) + N by omega, Nat.add_mod_right, Nat.mod_eq_of_lt (by omega)]
  · refine mapM_some _ _ _ fun tau htau => ?_
    have := List.mem_range.1 htau
    unfold pyIdx
    rw [if_pos (by omega)]
    congr 2
    omega

/-- **C103 violated.** The first `b` rows of a lag block hold observations from the *end* of the series (`N - b + r` is later than `r`), and
when Longitudinal LiNGAM reaches a time point `t < n_lags`, it regresses it on the last time points instead of the missing earlier ones. -/
theorem C103_future_violated {V : Type} (x : Nat → V) :
    (∀ N b r, r < b → b < N → rolled x N b r = x (N - b + r) ∧ r < N - b + r) ∧
    (∀ T nLags t tau, tau < nLags → t ≤ tau → ∀ l, predictors T nLags x t = some l →
      l[tau]? = some (x (T - 1 - (tau - t))) ∧ tau - t ≤ T - 1) ∧
    predictors 4 2 x 1 = some [x 0, x 3] := by
  refine ⟨fun N b r hr hb => ⟨?_, by omega⟩, fun T nLags t tau h1 h2 l hl => ?_, rfl⟩
  · unfold rolled
    rw [Nat.mod_eq_of_lt hb, Nat.mod_eq_of_lt (by omega), Nat.add_comm]
  · obtain ⟨b, hb, hb'⟩ := mapM_get _ _ _ hl tau tau (by simp [h1])
    unfold pyIdx at hb
    rw [if_neg (by omega)] at hb
    split at hb
    · rw [Option.some.injEq] at hb
      rw [hb', ← hb]
      refine ⟨?_, by omega⟩
      congr 2
      omega
    · cases hb

/-! ## C104: Longitudinal LiNGAM -/

theorem residualAt_eq (M : List (Mat p K)) (target : Vec p K) (preds : List (Vec p K)) :
    residualAt M target preds = target - ((M.zip preds).map fun m => m.1 *ᵥ m.2).sum := by
  unfold residualAt
  generalize M.zip preds = L
  induction L generalizing target with
  | nil => simp
  | cons m L ih => rw [List.foldl_cons, ih, List.map_cons, List.sum_cons]; abel

/-- **C104, what holds.** At a time point with enough past the reported matrices satisfy, for every individual,
`x_t = B_t x_t + Σ_l B_{t,l} x_{t-l} + e_t` with `e_t = (1 - B_t) N_t` (the error variables of `get_error_independence_p_values`) and
`B_{t,l}` the reported lagged matrices; time 0 has only NaN. `x` is the trajectory of an individual. -/
theorem C104_longitudinal_partial (T nLags : Nat) (B : Nat → Mat p K) (M : Nat → Nat → Mat p K) (x : Series p K) (t : Nat) (ht : t < T)
    (h0 : 1 ≤ t) (hn : nLags ≤ t) :
    (∀ l, l < nLags → laggedEntry B M t l = some ((1 - B t) * M t l) ∧ laggedEntry B M 0 l = none) ∧
    ∃ preds, predictors T nLags x t = some preds ∧
      x t = B t *ᵥ x t + ((List.range nLags).map fun l => ((laggedEntry B M t l).getD 0) *ᵥ x (t - (l + 1))).sum +
        (1 - B t) *ᵥ residualAt ((List.range nLags).map (M t)) (x t) preds := by
  have hent : ∀ l, l < nLags → laggedEntry B M t l = some ((1 - B t) * M t l) := by
    intro l hl
    unfold laggedEntry
    rw [if_pos h0, if_neg (by omega)]
  refine ⟨fun l hl => ⟨hent l hl, rfl⟩, _, (C103_lagged_regressors_partial x).2 T nLags t ht hn, ?_⟩
  rw [residualAt_eq]
  have h1 : ((List.range nLags).map fun l => ((laggedEntry B M t l).getD 0) *ᵥ x (t - (l + 1))) =
      (List.range nLags).map fun l => (1 - B t) *ᵥ (M t l *ᵥ x (t - (l + 1))) := by
    refine List.map_congr_left fun l hl => ?_
    rw [hent l (List.mem_range.1 hl), Option.getD_some, Matrix.mulVec_mulVec]
  have h2 : ∀ (L : List Nat) (f : Nat → Vec p K), (L.map fun l => (1 - B t) *ᵥ f l).sum = (1 - B t) *ᵥ (L.map f).sum := by
    intro L f
    induction L with
    | nil => simp
    | cons a L ih => rw [List.map_cons, List.sum_cons, ih, List.map_cons, List.sum_cons, Matrix.mulVec_add]
  have h3 : ((((List.range nLags).map (M t)).zip ((List.range nLags).map fun tau => x (t - (tau + 1)))).map fun m => m.1 *ᵥ m.2) =
      (List.range nLags).map fun l => M t l *ᵥ x (t - (l + 1)) := by
    generalize List.range nLags = L
    induction L with
    | nil => rfl
    | cons a L ih => simp only [List.map_cons, List.zip_cons_cons, ih]
  have h4 : (1 - B t) *ᵥ x t = x t - B t *ᵥ x t := by rw [Matrix.sub_mulVec, Matrix.one_mulVec]
  rw [h1, h2, h3, Matrix.mulVec_sub, h4]
  abel

/-- **C104 violated.** With three lags the matrix reported for time 1 and lag 3 (two steps before the first time point) is not NaN: it is
computed from the regression on a *later* time point. -/
theorem C104_nan_violated : ∃ (B : Nat → Mat 1 ℚ) (M : Nat → Nat → Mat 1 ℚ) (x : Series 1 ℚ) (l : List (Vec 1 ℚ)),
    predictors 4 3 x 1 = some l ∧ l[2]? = some (x 2) ∧ laggedEntry B M 1 2 = some ((1 - B 1) * M 1 2) ∧ laggedEntry B M 1 1 = none :=
  ⟨fun _ => 0, fun _ _ => 1, fun _ => 0, _, rfl, rfl, rfl, rfl⟩

end TS
end CL
