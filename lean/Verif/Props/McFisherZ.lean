import Verif.Model.McFisherZ
import Verif.Props.FisherZ
import Verif.Props.Mvpc
import Mathlib.Data.List.GetD

/-!
# C213: the test with missingness correction
-/
open Finset Spec
namespace CL.FisherZ
variable {N : Nat}

/-- What `LinearRegression` guarantees: the residuals of the fit are the least squares residuals. -/
def LeastSquaresReg (fit : Reg) : Prop :=
  ∀ (m : Nat) (d : Fin m → Nat → ℝ) (v : Nat) (W : List Nat), W.Nodup →
    Residual d v W.toFinset fun k => d k v - ((fit _ d v W).1 + ∑ w ∈ W.toFinset, (fit _ d v W).2 w * d k w)

/-! ### Lemmas on the p-value -/

/-- The p-value as a function of the matrix. -/
noncomputable def pv (Φ : ℝ → ℝ) (eps : ℝ) (m k : Nat) (M : Matrix (Fin (k + 2)) (Fin (k + 2)) ℝ) : Option ℝ :=
  if M.det = 0 then none else if m < k + 3 then none else some (tailP Φ m k (clampR eps (rOf M)))

theorem pvalue_pv (Φ : ℝ → ℝ) (eps : ℝ) (R : Nat → Nat → ℝ) (m a b : Nat) (s : List Nat) :
    pvalue Φ eps R m a b s = pv Φ eps m s.length (Matrix.of fun i j => R ((a :: b :: s).getD i 0) ((a :: b :: s).getD j 0)) := by
  unfold pvalue pv
  have e : ∀ i : Fin (s.length + 2), (a :: b :: s).get i = (a :: b :: s).getD i 0 := fun i => by
    rw [List.getD_eq_getElem _ _ i.2]; rfl
  simp only [e]

theorem pv_congr (Φ : ℝ → ℝ) (eps : ℝ) (m : Nat) {k k' : Nat} (h : k = k') (R R' : Nat → Nat → ℝ) (hR : ∀ i < k + 2, ∀ j < k + 2, R i j = R' i j) :
    pv Φ eps m k (Matrix.of fun i j => R i j) = pv Φ eps m k' (Matrix.of fun i j => R' i j) := by
  subst h
  congr 1
  ext i j
  exact hR i i.2 j j.2

theorem pvalue_congr (Φ : ℝ → ℝ) (eps : ℝ) (m : Nat) {a b a' b' : Nat} {s s' : List Nat} (h : s.length = s'.length) (R R' : Nat → Nat → ℝ)
    (hR : ∀ i < s.length + 2, ∀ j < s.length + 2, R ((a :: b :: s).getD i 0) ((a :: b :: s).getD j 0) = R' ((a' :: b' :: s').getD i 0) ((a' :: b' :: s').getD j 0)) :
    pvalue Φ eps R m a b s = pvalue Φ eps R' m a' b' s' := by
  rw [pvalue_pv, pvalue_pv]
  exact pv_congr Φ eps m h (fun i j => R ((a :: b :: s).getD i 0) ((a :: b :: s).getD j 0)) (fun i j => R' ((a' :: b' :: s').getD i 0) ((a' :: b' :: s').getD j 0)) hR

theorem getD_mem_of_lt {l : List Nat} {i : Nat} (h : i < l.length) : l.getD i 0 ∈ l := by
  rw [List.getD_eq_getElem _ _ h]; exact List.getElem_mem h

theorem corr_congr {d d' : Fin N → Nat → ℝ} {i j i' j' : Nat} (hi : ∀ k, d k i = d' k i') (hj : ∀ k, d k j = d' k j') : corr d i j = corr d' i' j' := by
  have mi : mean d i = mean d' i' := by unfold mean; simp only [hi]
  have mj : mean d j = mean d' j' := by unfold mean; simp only [hj]
  unfold corr cov
  simp only [hi, hj, mi, mj]

/-- For different columns the test is the p-value of the columns in the order of the query. -/
theorem fisherz_pvalue (Φ : ℝ → ℝ) (eps : ℝ) (d : Fin N → Nat → ℝ) {a b : Nat} {s : List Nat} (h : (a :: b :: s).Nodup) :
    fisherz Φ eps d a b s = pvalue Φ eps (corr d) N a b s := by
  have hs : s.Nodup := (List.nodup_cons.1 (List.nodup_cons.1 h).2).2
  have ha : a ∉ s := fun c => (List.nodup_cons.1 h).1 (List.mem_cons_of_mem _ c)
  have hb : b ∉ s := (List.nodup_cons.1 (List.nodup_cons.1 h).2).1
  have hab : a ≠ b := fun c => (List.nodup_cons.1 h).1 (by rw [c]; exact List.mem_cons_self)
  have hc : s.toFinset.card = s.length := List.toFinset_card_of_nodup hs
  refine Option.ext fun p => ?_
  rw [C76_fisherz Φ eps d hab, pvalue_eq Φ eps d h, hc]
  simp only [ha, hb, not_false_eq_true, true_and]

theorem fisherz_cols (Φ : ℝ → ℝ) (eps : ℝ) {d d' : Fin N → Nat → ℝ} {a b : Nat} {s : List Nat} (h : (a :: b :: s).Nodup)
    (hd : ∀ k, ∀ v ∈ a :: b :: s, d k v = d' k v) : fisherz Φ eps d a b s = fisherz Φ eps d' a b s := by
  rw [fisherz_pvalue Φ eps d h, fisherz_pvalue Φ eps d' h]
  exact pvalue_congr Φ eps N rfl _ _ fun i hi j hj => corr_congr (fun k => hd k _ (getD_mem_of_lt hi)) (fun k => hd k _ (getD_mem_of_lt hj))

/-- Testing the columns by their positions in the query. -/
theorem fisherz_positions (Φ : ℝ → ℝ) (eps : ℝ) (d : Fin N → Nat → ℝ) {a b : Nat} {s : List Nat} (h : (a :: b :: s).Nodup) :
    fisherz Φ eps (fun k i => d k ((a :: b :: s).getD i 0)) 0 1 (List.range' 2 s.length) = fisherz Φ eps d a b s := by
  have hn : (0 :: 1 :: List.range' 2 s.length).Nodup := by
    have : 0 :: 1 :: List.range' 2 s.length = List.range' 0 (s.length + 2) := by rw [List.range'_succ, List.range'_succ]
    rw [this]; exact List.nodup_range'
  rw [fisherz_pvalue Φ eps d h, fisherz_pvalue Φ eps _ hn]
  refine pvalue_congr Φ eps N (by simp) _ _ fun i hi j hj => ?_
  rw [List.length_range'] at hi hj
  have e : ∀ i < s.length + 2, (0 :: 1 :: List.range' 2 s.length).getD i 0 = i := by
    intro i hi
    have : 0 :: 1 :: List.range' 2 s.length = List.range' 0 (s.length + 2) := by rw [List.range'_succ, List.range'_succ]
    rw [this, List.getD_eq_getElem _ _ (by simpa using hi), List.getElem_range']
    omega
  rw [e i hi, e j hj]
  exact corr_congr (fun _ => rfl) (fun _ => rfl)

/-! ### The rows -/

theorem completeRows_append (data : Fin N → Nat → Option ℝ) (var W : List Nat) : (completeRows data (var ++ W)).Sublist (completeRows data W) := by
  unfold completeRows
  refine List.monotone_filter_right _ fun k h => ?_
  rw [List.all_append, Bool.and_eq_true] at h
  exact h.2

theorem predictorWs_length {shuffle : List (Fin N) → List (Fin N)} (hsh : ∀ l, (shuffle l).Perm l) (data : Fin N → Nat → Option ℝ) (var W : List Nat) :
    (predictorWs shuffle data W (completeRows data (var ++ W)).length).length = (completeRows data (var ++ W)).length := by
  unfold predictorWs
  rw [List.length_take, (hsh _).length_eq]
  exact min_eq_left (completeRows_append data var W).length_le

/-- The virtual sample, by the names of the variables. -/
noncomputable def virtual (fit : Reg) (shuffle : List (Fin N) → List (Fin N)) (data : Fin N → Nat → Option ℝ) (var W : List Nat)
    (k : Fin (completeRows data (var ++ W)).length) (v : Nat) : ℝ :=
  virEntry fit data (completeRows data (var ++ W)) (predictorWs shuffle data W (completeRows data (var ++ W)).length) W v k

theorem fisherz_none (Φ : ℝ → ℝ) (eps : ℝ) {N : Nat} (hN : N = 0) (d : Fin N → Nat → ℝ) (a b : Nat) (s : List Nat) : fisherz Φ eps d a b s = none := by
  unfold fisherz
  cases format1 a b s with
  | none => rfl
  | some q => exact pvalue_small Φ eps _ _ _ _ (by omega)

theorem mcCorrected_eq (Φ : ℝ → ℝ) (eps : ℝ) (fit : Reg) {shuffle : List (Fin N) → List (Fin N)} (hsh : ∀ l, (shuffle l).Perm l)
    (data : Fin N → Nat → Option ℝ) {a b : Nat} {s : List Nat} (W : List Nat) (h : (a :: b :: s).Nodup) :
    mcCorrected Φ eps fit shuffle data (a :: b :: s) W = fisherz Φ eps (virtual fit shuffle data (a :: b :: s) W) a b s := by
  unfold mcCorrected
  simp only
  by_cases h0 : (completeRows data (a :: b :: s ++ W)).length = 0
  · rw [if_pos h0]
    exact (fisherz_none Φ eps h0 _ a b s).symm
  · rw [if_neg h0, if_neg (not_not.2 (predictorWs_length hsh data _ W)), C76_no_missing]
    exact fisherz_positions Φ eps (virtual fit shuffle data (a :: b :: s) W) h

theorem mcCorrected_rows (Φ : ℝ → ℝ) (eps : ℝ) (fit : Reg) {shuffle : List (Fin N) → List (Fin N)} (hsh : ∀ l, (shuffle l).Perm l)
    (data : Fin N → Nat → Option ℝ) {a b : Nat} {s : List Nat} (W : List Nat) (h : (a :: b :: s).Nodup) {rows : List (Fin N)}
    (hr : rows = completeRows data (a :: b :: s ++ W)) :
    mcCorrected Φ eps fit shuffle data (a :: b :: s) W =
      fisherz Φ eps (fun k v => virEntry fit data rows (predictorWs shuffle data W rows.length) W v k) a b s := by
  subst hr; exact mcCorrected_eq Φ eps fit hsh data W h

/-! ### The fit -/

theorem predict_eq (r : ℝ × (Nat → ℝ)) {W : List Nat} (hW : W.Nodup) (row : Nat → ℝ) : predict r W row = r.1 + ∑ w ∈ W.toFinset, r.2 w * row w := by
  unfold predict
  rw [List.sum_toFinset _ hW]

/-- With linearly independent predictors the fit is the only one. -/
theorem fit_unique {m : Nat} (hm : 0 < m) {fit : Reg} (hls : LeastSquaresReg fit) {d : Fin m → Nat → ℝ} {v : Nat} {W : List Nat} (hW : W.Nodup)
    (hi : Independent d W.toFinset) {c : ℝ} {b : Nat → ℝ} (h : Residual d v W.toFinset fun k => d k v - (c + ∑ w ∈ W.toFinset, b w * d k w)) :
    (fit _ d v W).1 = c ∧ ∀ w ∈ W, (fit _ d v W).2 w = b w := by
  have e := (hls _ d v W hW).unique h
  have h1 : ∀ k, ∑ w ∈ W.toFinset, ((fit _ d v W).2 w - b w) * d k w = c - (fit _ d v W).1 := fun k => by
    have := congrFun e k
    simp only [sub_mul, sum_sub_distrib]
    linarith
  have h2 : ∀ w ∈ W, (fit _ d v W).2 w = b w := fun w hw => by
    have := hi (fun w => (fit _ d v W).2 w - b w) ⟨_, h1⟩ w (List.mem_toFinset.2 hw)
    linarith
  refine ⟨?_, h2⟩
  have h3 := h1 ⟨0, hm⟩
  rw [sum_eq_zero fun w hw => by rw [h2 w (List.mem_toFinset.1 hw), sub_self, zero_mul]] at h3
  linarith

/-! ### The property -/

/-- The plan of the correction depends on the pair and the set only. -/
theorem mcPlan_symm {n : Nat} (m : Mvpc.PrtM n) (skel : GG n) {x y : Fin n} {S S' : List (Fin n)} (h : ∀ t, t ∈ S ↔ t ∈ S') :
    Mvpc.mcPlan m skel x y S = Mvpc.mcPlan m skel y x S' := by
  have hm : ∀ t, t ∈ x :: y :: S ↔ t ∈ y :: x :: S' := fun t => by
    rw [List.mem_cons, List.mem_cons, List.mem_cons, List.mem_cons, h]; tauto
  have h1 : Mvpc.prtMvars m (x :: y :: S) = Mvpc.prtMvars m (y :: x :: S') := by
    unfold Mvpc.prtMvars Mvpc.unique
    refine List.filter_congr fun v _ => ?_
    rw [decide_eq_decide, List.mem_flatMap, List.mem_flatMap]
    exact exists_congr fun t => and_congr (hm t) Iff.rfl
  have h2 : Mvpc.condPermC m skel x y S = Mvpc.condPermC m skel y x S' := by
    unfold Mvpc.condPermC
    rw [h1]
    congr 1
    · rw [Bool.eq_iff_iff, List.any_eq_true, List.any_eq_true]
      exact exists_congr fun t => and_congr (hm t) Iff.rfl
    · congr 1
      exact List.filter_congr fun c _ => Bool.and_comm _ _
  have h3 : ∀ W : List (Fin n), (W.filter fun v => v ∉ x :: y :: S) = W.filter fun v => v ∉ y :: x :: S' := fun W =>
    List.filter_congr fun v _ => by rw [decide_eq_decide, hm]
  unfold Mvpc.mcPlan
  simp only [h1, h2, h3]

/-- **C213.** The p-value depends on the unordered pair, the set of conditioning variables and the shuffle only. -/
theorem C213_symmetric (Φ : ℝ → ℝ) (eps : ℝ) (fit : Reg) {shuffle : List (Fin N) → List (Fin N)} (hsh : ∀ l, (shuffle l).Perm l) {n : Nat}
    (data : Fin N → Nat → Option ℝ) (m : Mvpc.PrtM n) (skel : GG n) {x y : Fin n} {S S' : List (Fin n)} (hn : (x :: y :: S).Nodup) (hp : S.Perm S') :
    mcFisherz Φ eps fit shuffle data m skel x y S = mcFisherz Φ eps fit shuffle data m skel y x S' := by
  have hn' : (y :: x :: S').Nodup := ((List.Perm.swap y x S).trans ((hp.cons x).cons y)).nodup_iff.1 hn
  unfold mcFisherz
  rw [mcPlan_symm m skel (x := x) (y := y) (S := S) (S' := S') fun t => hp.mem_iff]
  congr 1
  funext plan
  have hmap : ∀ t, t ∈ S.map Fin.val ↔ t ∈ S'.map Fin.val := fun t => (hp.map _).mem_iff
  cases plan with
  | none =>
    show mvFisherz Φ eps data x y (S.map Fin.val) = mvFisherz Φ eps data y x (S'.map Fin.val)
    unfold mvFisherz
    rw [format1_eq, format1_eq, (sortedSet_eq _ _).2 hmap, min_comm, max_comm]
    simp only [hmap, and_comm]
  | some W =>
    show mcCorrected Φ eps fit shuffle data (x :: y :: S.map Fin.val) (W.map Fin.val) = mcCorrected Φ eps fit shuffle data (y :: x :: S'.map Fin.val) (W.map Fin.val)
    have k1 : ((x : Nat) :: y :: S.map Fin.val).Nodup := hn.map Fin.val_injective
    have k2 : ((y : Nat) :: x :: S'.map Fin.val).Nodup := hn'.map Fin.val_injective
    rw [mcCorrected_eq Φ eps fit hsh data _ k1, mcCorrected_eq Φ eps fit hsh data _ k2, C76_symmetric Φ eps _ x y hmap]
    have hrows : completeRows data ((x : Nat) :: y :: S.map Fin.val ++ W.map Fin.val) = completeRows data ((y : Nat) :: x :: S'.map Fin.val ++ W.map Fin.val) := by
      unfold completeRows
      refine List.filter_congr fun k _ => ?_
      rw [Bool.eq_iff_iff, List.all_eq_true, List.all_eq_true]
      refine forall_congr' fun t => imp_congr ?_ Iff.rfl
      simp only [List.cons_append, List.mem_cons, List.mem_append, hmap]
      tauto
    unfold virtual
    rw [hrows]

/-- **C213.** When no variable has missing values (so nothing causes missingness), the test is Fisher's z test. -/
theorem C213_complete_data (Φ : ℝ → ℝ) (eps : ℝ) (fit : Reg) (shuffle : List (Fin N) → List (Fin N)) {n : Nat} (d : Fin N → Nat → ℝ) (skel : GG n)
    (x y : Fin n) (S : List (Fin n)) :
    mcFisherz Φ eps fit shuffle (fun k i => some (d k i)) [] skel x y S = fisherz Φ eps d x y (S.map Fin.val) := by
  rw [← C76_no_missing]
  unfold mcFisherz Mvpc.mcPlan Mvpc.condPermC
  simp

/-- **C213.** In a linear model — in the rows complete in the variables of the test and the correction variables `W`, every variable of the test is an
affine function of `W` plus an error uncorrelated with `W` — the corrected test is Fisher's z test on the same model and the same errors with the values of
`W` replaced by those of different rows in which `W` is observed, whatever is missing there. -/
theorem C213_resamples_causes (Φ : ℝ → ℝ) (eps : ℝ) {fit : Reg} (hls : LeastSquaresReg fit) {shuffle : List (Fin N) → List (Fin N)}
    (hsh : ∀ l, (shuffle l).Perm l) {n : Nat} (data : Fin N → Nat → Option ℝ) (m : Mvpc.PrtM n) (skel : GG n) {x y : Fin n} {S W : List (Fin n)}
    (hn : (x :: y :: S).Nodup) (hplan : Mvpc.mcPlan m skel x y S = some (some W)) (hW : W.Nodup) {rows : List (Fin N)}
    (hrows : rows = completeRows data ((x :: y :: S).map Fin.val ++ W.map Fin.val))
    (hind : Independent (select data rows) (W.map Fin.val).toFinset)
    (a : Fin n → ℝ) (b : Fin n → Fin n → ℝ) (e : Fin n → Fin rows.length → ℝ)
    (hmodel : ∀ k, ∀ v ∈ x :: y :: S, data (rows.get k) v = some (a v + ∑ w ∈ W.toFinset, b v w * select data rows k w + e v k))
    (hzero : ∀ v ∈ x :: y :: S, ∑ k, e v k = 0) (horth : ∀ v ∈ x :: y :: S, ∀ w ∈ W, ∑ k, e v k * select data rows k w = 0) :
    ∃ r : Fin rows.length → Fin N, Function.Injective r ∧ ∃ d : Fin N → Fin n → ℝ, (∀ k, ∀ w ∈ W, data (r k) w = some (d (r k) w)) ∧
      ∀ z : Fin rows.length → Nat → ℝ, (∀ k, ∀ v ∈ x :: y :: S, z k v = a v + ∑ w ∈ W.toFinset, b v w * d (r k) w + e v k) →
        mcFisherz Φ eps fit shuffle data m skel x y S = fisherz Φ eps z x y (S.map Fin.val) := by
  obtain ⟨ws, hws⟩ : ∃ ws, ws = predictorWs shuffle data (W.map Fin.val) rows.length := ⟨_, rfl⟩
  have hlen : ws.length = rows.length := by rw [hws, hrows]; exact predictorWs_length hsh data _ _
  have hmem : ∀ i ∈ ws, ∀ w ∈ W, (data i w).isSome := by
    intro i hi w hw
    rw [hws] at hi
    have h1 := (hsh _).mem_iff.1 (List.mem_of_mem_take hi)
    exact (mem_completeRows data _ i).1 h1 w (List.mem_map_of_mem hw)
  have hnd : ws.Nodup := hws ▸ ((hsh _).nodup_iff.2 (completeRows_nodup data _)).sublist (List.take_sublist _ _)
  have hget : ∀ k : Fin rows.length, ws.getD k (rows.get k) = ws[k.val]'(by rw [hlen]; exact k.2) := fun k => List.getD_eq_getElem _ _ _
  have hWn : (W.map Fin.val).Nodup := hW.map Fin.val_injective
  have hsum : ∀ f : Nat → ℝ, ∑ w ∈ (W.map Fin.val).toFinset, f w = ∑ w ∈ W.toFinset, f w := fun f => by
    rw [List.sum_toFinset _ hWn, List.sum_toFinset _ hW, List.map_map]; rfl
  refine ⟨fun k => ws.getD k (rows.get k), ?_, fun i v => (data i v).getD 0, ?_, ?_⟩
  · intro k k' h
    dsimp only at h
    rw [hget, hget] at h
    exact Fin.ext ((List.Nodup.getElem_inj_iff hnd).1 h)
  · intro k w hw
    have h1 := hmem (ws.getD k (rows.get k)) (by rw [hget]; exact List.getElem_mem _) w hw
    obtain ⟨c, hc⟩ := Option.isSome_iff_exists.1 h1
    dsimp only
    rw [hc]; rfl
  · intro z hz
    unfold mcFisherz
    rw [hplan]
    show mcCorrected Φ eps fit shuffle data ((x : Nat) :: y :: S.map Fin.val) (W.map Fin.val) = _
    have k1 : ((x : Nat) :: y :: S.map Fin.val).Nodup := hn.map Fin.val_injective
    rw [mcCorrected_rows Φ eps fit hsh data _ k1 hrows, ← hws]
    refine fisherz_cols Φ eps k1 fun k v' hv' => ?_
    obtain ⟨v, hv, rfl⟩ : ∃ v ∈ x :: y :: S, (v : Nat) = v' := List.mem_map.1 (show v' ∈ (x :: y :: S).map Fin.val from hv')
    rw [hz k v hv]
    have hsel : ∀ k : Fin rows.length, select data rows k v = a v + ∑ w ∈ W.toFinset, b v w * select data rows k w + e v k := fun k => by
      show (data (rows.get k) v).getD 0 = _
      rw [hmodel k v hv]; rfl
    obtain ⟨g, hg⟩ : ∃ g : Nat → ℝ, ∀ w : Fin n, g w = b v w := ⟨fun i => if h : i < n then b v ⟨i, h⟩ else 0, fun w => by simp⟩
    have hres : Residual (select data rows) v (W.map Fin.val).toFinset
        fun k => select data rows k v - (a v + ∑ w ∈ (W.map Fin.val).toFinset, g w * select data rows k w) := by
      have he : ∀ k, select data rows k v - (a v + ∑ w ∈ (W.map Fin.val).toFinset, g w * select data rows k w) = e v k := fun k => by
        rw [hsum, hsel k]; simp only [hg]; ring
      refine residual_of_orth ⟨a v, g, fun k => rfl⟩ ?_ ?_
      · simp only [he]; exact hzero v hv
      · intro w hw
        obtain ⟨w', hw', rfl⟩ := List.mem_map.1 (List.mem_toFinset.1 hw)
        simp only [he]
        exact horth v hv w' hw'
    obtain ⟨f1, f2⟩ := fit_unique (Nat.lt_of_le_of_lt (Nat.zero_le _) k.2) hls hWn hind hres
    show predict _ _ _ + (select data rows k v - predict _ _ _) = _
    rw [predict_eq _ hWn, predict_eq _ hWn, f1, hsum, hsum, hsel k]
    have e1 : ∀ f : Nat → ℝ, ∑ w ∈ W.toFinset, (fit _ (select data rows) v (W.map Fin.val)).2 w * f w = ∑ w ∈ W.toFinset, b v w * f w := fun f =>
      sum_congr rfl fun w hw => by rw [f2 w (List.mem_map_of_mem (List.mem_toFinset.1 hw)), hg]
    rw [e1 (select data rows k), e1 fun i => (data (ws.getD k (rows.get k)) i).getD 0]
    ring

/-- **C213.** Changing the unit and the origin of every variable does not change the p-value, if the correction variables are linearly independent in the
complete rows. -/
theorem C213_units (Φ : ℝ → ℝ) (eps : ℝ) {fit : Reg} (hls : LeastSquaresReg fit) {shuffle : List (Fin N) → List (Fin N)}
    (hsh : ∀ l, (shuffle l).Perm l) {n : Nat} (data : Fin N → Nat → Option ℝ) (m : Mvpc.PrtM n) (hm : (m.map Prod.fst).Nodup) (skel : GG n) {x y : Fin n}
    {S : List (Fin n)} (hn : (x :: y :: S).Nodup)
    (hind : ∀ W, Mvpc.mcPlan m skel x y S = some (some W) →
      Independent (select data (completeRows data ((x :: y :: S).map Fin.val ++ W.map Fin.val))) (W.map Fin.val).toFinset)
    (α β : Nat → ℝ) (hα : ∀ t, α t ≠ 0) :
    mcFisherz Φ eps fit shuffle (fun k i => (data k i).map fun c => α i * c + β i) m skel x y S = mcFisherz Φ eps fit shuffle data m skel x y S := by
  obtain ⟨plan, hplan, -, hWn⟩ := Mvpc.C94_correction_variables m hm skel x y S
  have hxy : (x : Nat) ≠ y := fun h => (List.nodup_cons.1 hn).1 (by rw [Fin.ext h]; exact List.mem_cons_self)
  set data' : Fin N → Nat → Option ℝ := fun k i => (data k i).map fun c => α i * c + β i with hdata'
  have hrows : ∀ l, completeRows data' l = completeRows data l := fun l => by
    unfold completeRows
    exact List.filter_congr fun k _ => by simp [hdata']
  have hsel : ∀ (l : List (Fin N)) (k : Fin l.length) (i : Nat), (data (l.get k) i).isSome → select data' l k i = α i * select data l k i + β i := by
    intro l k i h
    obtain ⟨c, hc⟩ := Option.isSome_iff_exists.1 h
    unfold select
    rw [hdata']
    simp only [hc]; rfl
  have k1 : ((x : Nat) :: y :: S.map Fin.val).Nodup := hn.map Fin.val_injective
  unfold mcFisherz
  rw [hplan]
  cases plan with
  | none =>
    show mvFisherz Φ eps data' x y (S.map Fin.val) = mvFisherz Φ eps data x y (S.map Fin.val)
    rw [C76_testwise_deletion, C76_testwise_deletion, hrows, ← C76_units Φ eps (select data _) α β hα hxy]
    refine fisherz_cols Φ eps k1 fun k v hv => hsel _ k v ?_
    exact (mem_completeRows data _ _).1 (List.get_mem (completeRows data _) k) v hv
  | some W =>
    show mcCorrected Φ eps fit shuffle data' ((x : Nat) :: y :: S.map Fin.val) (W.map Fin.val) = mcCorrected Φ eps fit shuffle data ((x : Nat) :: y :: S.map Fin.val) (W.map Fin.val)
    have hW := hind W hplan
    have hWnd : (W.map Fin.val).Nodup := (hWn W rfl).1.map Fin.val_injective
    change Independent (select data (completeRows data ((x : Nat) :: y :: S.map Fin.val ++ W.map Fin.val))) (W.map Fin.val).toFinset at hW
    obtain ⟨rows, hr⟩ : ∃ rows, rows = completeRows data ((x : Nat) :: y :: S.map Fin.val ++ W.map Fin.val) := ⟨_, rfl⟩
    obtain ⟨ws, hws⟩ : ∃ ws, ws = predictorWs shuffle data (W.map Fin.val) rows.length := ⟨_, rfl⟩
    have hpw : predictorWs shuffle data' (W.map Fin.val) rows.length = ws := by
      rw [hws]; unfold predictorWs; rw [hrows]
    rw [mcCorrected_rows Φ eps fit hsh data' _ k1 (rows := rows) (by rw [hrows, hr]), mcCorrected_rows Φ eps fit hsh data _ k1 hr, hpw, ← hws,
      ← C76_units Φ eps (fun k v => virEntry fit data rows ws (W.map Fin.val) v k) α β hα hxy]
    rw [← hr] at hW
    refine fisherz_cols Φ eps k1 fun k v hv => ?_
    have hlen : ws.length = rows.length := by rw [hws, hr]; exact predictorWs_length hsh data _ _
    have hmem : ∀ i ∈ ws, ∀ w ∈ W.map Fin.val, (data i w).isSome := by
      intro i hi w hw
      rw [hws] at hi
      exact (mem_completeRows data _ i).1 ((hsh _).mem_iff.1 (List.mem_of_mem_take hi)) w hw
    have hget : ws.getD k (rows.get k) ∈ ws := by
      rw [List.getD_eq_getElem _ _ (by rw [hlen]; exact k.2)]; exact List.getElem_mem _
    have hsome : ∀ (k : Fin rows.length), ∀ i ∈ (x : Nat) :: y :: S.map Fin.val ++ W.map Fin.val, (data (rows.get k) i).isSome := fun k i hi =>
      (mem_completeRows data _ _).1 (hr ▸ List.get_mem rows k) i hi
    have hs1 : ∀ k : Fin rows.length, select data' rows k v = α v * select data rows k v + β v := fun k => hsel rows k v (hsome k v (List.mem_append_left _ hv))
    have hs2 : ∀ (k : Fin rows.length), ∀ w ∈ (W.map Fin.val).toFinset, select data' rows k w = α w * select data rows k w + β w := fun k w hw =>
      hsel rows k w (hsome k w (List.mem_append_right _ (List.mem_toFinset.1 hw)))
    set r := fit _ (select data rows) v (W.map Fin.val) with hrf
    -- the rescaled fit
    have hcoef : ∀ f : Nat → ℝ, ∑ w ∈ (W.map Fin.val).toFinset, α v * r.2 w / α w * (α w * f w + β w) =
        α v * ∑ w ∈ (W.map Fin.val).toFinset, r.2 w * f w + ∑ w ∈ (W.map Fin.val).toFinset, α v * r.2 w / α w * β w := fun f => by
      rw [mul_sum, ← sum_add_distrib]
      refine sum_congr rfl fun w _ => ?_
      have := hα w
      field_simp
    set c' := α v * r.1 + β v - ∑ w ∈ (W.map Fin.val).toFinset, α v * r.2 w / α w * β w with hc'
    have hresid : ∀ k : Fin rows.length, select data' rows k v - (c' + ∑ w ∈ (W.map Fin.val).toFinset, α v * r.2 w / α w * select data' rows k w) =
        α v * (select data rows k v - (r.1 + ∑ w ∈ (W.map Fin.val).toFinset, r.2 w * select data rows k w)) := fun k => by
      rw [sum_congr rfl fun w hw => by rw [hs2 k w hw], hcoef (fun w => select data rows k w), hs1 k, hc']
      ring
    have hR := hls _ (select data rows) v (W.map Fin.val) hWnd
    rw [← hrf] at hR
    have hres : Residual (select data' rows) v (W.map Fin.val).toFinset
        fun k => select data' rows k v - (c' + ∑ w ∈ (W.map Fin.val).toFinset, α v * r.2 w / α w * select data' rows k w) := by
      refine residual_of_orth ⟨c', fun w => α v * r.2 w / α w, fun k => rfl⟩ ?_ ?_
      · simp only [hresid]
        rw [← mul_sum, hR.sum_zero, mul_zero]
      · intro w hw
        simp only [hresid, hs2 _ w hw]
        have e1 : ∀ k : Fin rows.length, α v * (select data rows k v - (r.1 + ∑ w ∈ (W.map Fin.val).toFinset, r.2 w * select data rows k w)) * (α w * select data rows k w + β w) =
            α v * α w * ((select data rows k v - (r.1 + ∑ w ∈ (W.map Fin.val).toFinset, r.2 w * select data rows k w)) * select data rows k w) +
              α v * β w * (select data rows k v - (r.1 + ∑ w ∈ (W.map Fin.val).toFinset, r.2 w * select data rows k w)) := fun k => by ring
        simp only [e1]
        rw [sum_add_distrib, ← mul_sum, ← mul_sum, hR.orth hw, hR.sum_zero, mul_zero, mul_zero, add_zero]
    have hind' : Independent (select data' rows) (W.map Fin.val).toFinset := by
      rintro c ⟨c0, hc⟩ t ht
      refine hW.rescale hα (β := β) c ⟨c0, fun k => ?_⟩ t ht
      rw [← hc k]
      exact sum_congr rfl fun w hw => by rw [hs2 k w hw]
    obtain ⟨f1, f2⟩ := fit_unique (Nat.lt_of_le_of_lt (Nat.zero_le _) k.2) hls hWnd hind' hres
    show predict _ _ _ + (select data' rows k v - predict _ _ _) = α v * (predict _ _ _ + (select data rows k v - predict _ _ _)) + β v
    rw [predict_eq _ hWnd, predict_eq _ hWnd, predict_eq _ hWnd, predict_eq _ hWnd, f1]
    have e1 : ∀ f : Nat → ℝ, ∑ w ∈ (W.map Fin.val).toFinset, (fit _ (select data' rows) v (W.map Fin.val)).2 w * f w =
        ∑ w ∈ (W.map Fin.val).toFinset, α v * r.2 w / α w * f w := fun f =>
      sum_congr rfl fun w hw => by rw [f2 w (List.mem_toFinset.1 hw)]
    rw [e1 (select data' rows k), e1 fun i => (data' (ws.getD k (rows.get k)) i).getD 0, hresid k]
    have e2 : ∀ w ∈ (W.map Fin.val).toFinset, (data' (ws.getD k (rows.get k)) w).getD 0 = α w * (data (ws.getD k (rows.get k)) w).getD 0 + β w := fun w hw => by
      obtain ⟨q, hq⟩ := Option.isSome_iff_exists.1 (hmem _ hget w (List.mem_toFinset.1 hw))
      rw [hdata']
      simp only [hq]; rfl
    rw [sum_congr rfl fun w hw => by rw [e2 w hw], hcoef (fun w => (data (ws.getD k (rows.get k)) w).getD 0), hc']
    ring

/-! ### The hypotheses are met -/

/-- There is a least squares regression. -/
theorem exists_leastSquaresReg : ∃ fit : Reg, LeastSquaresReg fit := by
  have h : ∀ (m : Nat) (d : Fin m → Nat → ℝ) (v : Nat) (W : List Nat), ∃ r : ℝ × (Nat → ℝ), Residual d v W.toFinset
      fun k => d k v - (r.1 + ∑ w ∈ W.toFinset, r.2 w * d k w) := by
    intro m d v W
    obtain ⟨u, hu⟩ := exists_residual d v W.toFinset
    obtain ⟨b0, b, hb⟩ := id hu.1
    refine ⟨(b0, b), ?_⟩
    rw [show u = fun k => d k v - (b0 + ∑ w ∈ W.toFinset, b w * d k w) from funext hb] at hu
    exact hu
  choose fit hfit using h
  exact ⟨fit, fun m d v W _ => hfit m d v W⟩

/-- Seven samples of four variables: 0 and 1 depend on 2; in the last sample the value of 0 is missing. -/
def mcData : Fin 7 → Nat → Option ℝ := fun k i =>
  if i = 0 then if k = 6 then none else some ((![1, -1, 0, 0, 1, -1, 0] : Fin 7 → ℝ) k)
  else if i = 1 then some ((![2, 0, -1, -1, 0, 0, 5] : Fin 7 → ℝ) k)
  else if i = 2 then some ((![1, -1, 0, 0, 0, 0, 7] : Fin 7 → ℝ) k)
  else some ((![0, 0, 1, -1, 0, 0, 9] : Fin 7 → ℝ) k)

theorem mcData_rows : [0, 1, 2, 3, 4, 5] = completeRows mcData (([0, 1] : List (Fin 4)).map Fin.val ++ ([2, 3] : List (Fin 4)).map Fin.val) := by
  unfold completeRows
  decide +kernel

/-- The hypotheses of C213 are met by these data: 2 and 3 are the correction variables of the test of 0 and 1 (`Mvpc.exM`). -/
theorem C213_example (Φ : ℝ → ℝ) (eps : ℝ) {fit : Reg} (hls : LeastSquaresReg fit) {shuffle : List (Fin 7) → List (Fin 7)} (hsh : ∀ l, (shuffle l).Perm l) :
    ∃ r : Fin 6 → Fin 7, Function.Injective r ∧ ∃ d : Fin 7 → Fin 4 → ℝ, (∀ k, ∀ w ∈ ([2, 3] : List (Fin 4)), mcData (r k) w = some (d (r k) w)) ∧
      ∀ z : Fin 6 → Nat → ℝ, (∀ k, ∀ v ∈ ([0, 1] : List (Fin 4)), z k v = 0 + ∑ w ∈ [2, 3].toFinset, (if w = 2 then 1 else 0) * d (r k) w +
          (if v = 0 then ![0, 0, 0, 0, 1, -1] else ![1, 1, -1, -1, 0, 0]) k) →
        mcFisherz Φ eps fit shuffle mcData Mvpc.exM Mvpc.exSkel 0 1 [] = fisherz Φ eps z 0 1 [] := by
  have hx := C213_resamples_causes Φ eps hls hsh mcData Mvpc.exM Mvpc.exSkel (x := 0) (y := 1) (S := []) (W := [2, 3]) (by decide) (by decide +kernel)
    (by decide) (rows := [0, 1, 2, 3, 4, 5]) mcData_rows ?_ (fun _ => 0) (fun _ w => if w = 2 then 1 else 0)
    (fun v => (if v = 0 then ![0, 0, 0, 0, 1, -1] else ![1, 1, -1, -1, 0, 0] : Fin 6 → ℝ)) ?_ ?_ ?_
  · exact hx
  · rintro c ⟨c0, hc⟩
    have h0 := hc (0 : Fin 6); have h1 := hc (1 : Fin 6); have h2 := hc (2 : Fin 6); have h3 := hc (3 : Fin 6)
    simp [select, mcData] at h0 h1 h2 h3
    intro t ht
    simp at ht
    rcases ht with rfl | rfl <;> linarith
  · intro k v hv
    change Fin 6 at k
    simp only [List.mem_cons, List.not_mem_nil, or_false] at hv
    rcases hv with rfl | rfl <;> fin_cases k <;> simp [select, mcData]
    all_goals norm_num
  · intro v hv
    show ∑ k : Fin 6, _ = (0 : ℝ)
    simp only [List.mem_cons, List.not_mem_nil, or_false] at hv
    rcases hv with rfl | rfl <;> simp [Fin.sum_univ_six]
  · intro v hv w hw
    show ∑ k : Fin 6, _ = (0 : ℝ)
    simp only [List.mem_cons, List.not_mem_nil, or_false] at hv hw
    rcases hv with rfl | rfl <;> rcases hw with rfl | rfl <;> simp [Fin.sum_univ_six, select, mcData]

end CL.FisherZ
