import Verif.Model.TsBoot
import Verif.Props.TimeSeries
import Mathlib.Data.List.GetD

/-!
# C193, C194: fits and bootstraps of the time-series models
-/
namespace CL
namespace TsB
open Matrix TS
variable {p : Nat} {K : Type} [CommRing K] {Crit : Type}

/-! ## The simulated series -/

theorem simRows_length (N start : Nat) (phi theta : List (Mat p K)) (e : Series p K) (j : Nat) : (simRows N start phi theta e j).length = j := by
  induction j with
  | zero => rfl
  | succ j ih => rw [simRows, List.length_append, ih]; rfl

theorem simRows_get (N start : Nat) (phi theta : List (Mat p K)) (e : Series p K) {j s : Nat} (h : s < j) :
    (simRows N start phi theta e j).getD s 0 = (simRows N start phi theta e (s + 1)).getD s 0 := by
  induction j with
  | zero => omega
  | succ j ih =>
    by_cases hs : s = j
    · subst hs; rfl
    · rw [simRows]
      rw [List.getD_append _ _ _ _ (by rw [simRows_length]; omega)]
      exact ih (by omega)

theorem lagSumW_aux (N : Nat) (x : Series p K) (j : Nat) (M : List (Mat p K)) (k : Nat) (acc : Vec p K) (h : k + M.length ≤ j) :
    (M.zipIdx k).foldl (fun acc m => acc + m.1 *ᵥ x (wrapIdx N j m.2)) acc = (M.zipIdx k).foldl (fun acc m => acc + m.1 *ᵥ x (j - (m.2 + 1))) acc := by
  induction M generalizing k acc with
  | nil => rfl
  | cons m M ih =>
    rw [List.length_cons] at h
    rw [List.zipIdx_cons, List.foldl_cons, List.foldl_cons]
    simp only
    rw [show wrapIdx N j k = j - (k + 1) by unfold wrapIdx; rw [if_pos (by omega)]]
    exact ih _ _ (by omega)

theorem lagSumW_eq (N : Nat) (M : List (Mat p K)) (x : Series p K) {j : Nat} (h : M.length ≤ j) : lagSumW N M x j = lagSum M x j := by
  unfold lagSumW lagSum
  exact lagSumW_aux N x j M 0 0 (by omega)

theorem lagSum_congr (M : List (Mat p K)) {x y : Series p K} {j : Nat} (h : ∀ s < j, x s = y s) (hM : M.length ≤ j) : lagSum M x j = lagSum M y j := by
  rw [lagSum_eq, lagSum_eq]
  refine Finset.sum_congr rfl fun i hi => ?_
  rw [Finset.mem_range] at hi
  rw [h _ (by omega)]

/-- C194. The simulated series starts with resampled residuals and then follows the equation of the model,
`x_j = Φ_1 x_{j-1} + … + e_j + Θ_1 e_{j-1} + …` with the resampled residuals `e`. -/
theorem C194_series (N start : Nat) (phi theta : List (Mat p K)) (e : Series p K) (hp : phi.length ≤ start) (hq : theta.length ≤ start) :
    (simulate N start phi theta e).2 = N ∧ (∀ j < N, j < start → (simulate N start phi theta e).1 j = e j) ∧
    ∀ j < N, start ≤ j → (simulate N start phi theta e).1 j =
      (∑ i ∈ Finset.range phi.length, phi.getD i 0 *ᵥ (simulate N start phi theta e).1 (j - (i + 1))) + e j + ∑ i ∈ Finset.range theta.length, theta.getD i 0 *ᵥ e (j - (i + 1)) := by
  have hrow : ∀ j < N, (simulate N start phi theta e).1 j =
      if j < start then e j else lagSumW N phi (fun s => (simRows N start phi theta e j).getD s 0) j + e j + lagSumW N theta e j := by
    intro j hj
    show (simRows N start phi theta e N).getD j 0 = _
    rw [simRows_get N start phi theta e hj, simRows]
    rw [List.getD_append_right _ _ _ _ (by rw [simRows_length]), simRows_length, Nat.sub_self]
    rfl
  refine ⟨rfl, fun j hj hs => by rw [hrow j hj, if_pos hs], fun j hj hs => ?_⟩
  rw [hrow j hj, if_neg (by omega), lagSumW_eq N phi _ (by omega), lagSumW_eq N theta e (by omega), ← lagSum_eq, ← lagSum_eq]
  congr 2
  refine lagSum_congr phi (fun s hs => ?_) (by omega)
  show (simRows N start phi theta e j).getD s 0 = (simRows N start phi theta e N).getD s 0
  rw [simRows_get N start phi theta e hs, simRows_get N start phi theta e (show s < N by omega)]

/-- Computing residuals of the simulated series gives back the resampled residuals. -/
theorem residuals_simulate (N : Nat) (M : List (Mat p K)) (e : Series p K) : ∀ s < N - M.length, calcResiduals M (simulate N M.length M [] e).1 s = e (s + M.length) := by
  intro s hs
  obtain ⟨-, -, h⟩ := C194_series N M.length M [] e le_rfl (Nat.zero_le _)
  unfold calcResiduals
  rw [h (s + M.length) (by omega) (by omega), lagSum_eq]
  simp

/-! ## VARLiNGAM -/

/-- A LiNGAM model that looks at the rows it is given only. -/
def Local (l : Data p K → Option (List (Fin p) × Mat p K)) : Prop := ∀ x y n, (∀ s < n, x s = y s) → l (x, n) = l (y, n)

theorem varFit_given (E : VarEnv p K Crit) {M : List (Mat p K)} {o : VarObj p K Crit} (ho : o.ar = some M) (x : Data p K) {ord : List (Fin p)} {B0 : Mat p K}
    (hl : E.lingam (calcResiduals M x.1, x.2 - M.length) = some (ord, B0)) :
    varFit E false o x = (⟨some M, M.length, o.crit, some ⟨ord, calcB B0 M, (calcResiduals M x.1, x.2 - M.length)⟩⟩, true) := by
  unfold varFit varCoefs varFinish
  rw [ho]
  simp only [Option.bind_some, hl]
  rfl

/-- One sample of the bootstrap: the LiNGAM model sees exactly the resampled residuals, and the coefficients are those of the data. -/
theorem varFit_sample (E : VarEnv p K Crit) (hloc : Local E.lingam) {M : List (Mat p K)} {o : VarObj p K Crit} (ho : o.ar = some M) (N : Nat) (e : Series p K) :
    match E.lingam (fun s => e (s + M.length), N - M.length) with
    | some m => ∃ f, varFit E false o (simulate N M.length M [] e) = (⟨some M, M.length, o.crit, some f⟩, true) ∧ f.order = m.1 ∧ f.B = calcB m.2 M
    | none => varFit E false o (simulate N M.length M [] e) = (⟨some M, o.lags, o.crit, none⟩, false) := by
  have h := hloc (calcResiduals M (simulate N M.length M [] e).1) (fun s => e (s + M.length)) (N - M.length) (residuals_simulate N M e)
  cases hm : E.lingam (fun s => e (s + M.length), N - M.length) with
  | some m =>
    rw [hm] at h
    exact ⟨_, varFit_given E ho _ h, rfl, rfl⟩
  | none =>
    rw [hm] at h
    have h2 : E.lingam (calcResiduals M (simulate N M.length M [] e).1, (simulate N M.length M [] e).2 - M.length) = none := h
    unfold varFit varCoefs varFinish
    rw [ho]
    simp only [Option.bind_some, h2, Option.bind_none]

theorem varBootLoop_spec (E : VarEnv p K Crit) (hloc : Local E.lingam) (M : List (Mat p K)) (N : Nat) (res : Series p K) :
    ∀ (samples : List (Nat → Nat)) (ams : List (List (Mat p K))) (o : VarObj p K Crit), o.ar = some M →
      (∀ out, (varBootLoop E false N M.length res M samples ams o).2 = some out →
        ∃ Bs, out = ams ++ Bs ∧ List.Forall₂ (fun idx B => ∃ m, E.lingam (fun s => res (idx (s + M.length)), N - M.length) = some m ∧ B = calcB m.2 M) samples Bs) ∧
      (varBootLoop E false N M.length res M samples ams o).1.ar = some M ∧ (varBootLoop E false N M.length res M samples ams o).1.crit = o.crit ∧
      ∀ idx, samples.getLast? = some idx → ∀ out, (varBootLoop E false N M.length res M samples ams o).2 = some out →
        ∃ f m, (varBootLoop E false N M.length res M samples ams o).1.fitted = some f ∧ E.lingam (fun s => res (idx (s + M.length)), N - M.length) = some m ∧ f.order = m.1 ∧ f.B = calcB m.2 M := by
  intro samples
  induction samples with
  | nil => intro ams o ho; exact ⟨fun out h => ⟨[], by cases h; simp, .nil⟩, ho, rfl, fun idx h => by cases h⟩
  | cons idx rest ih =>
    intro ams o ho
    have hs := varFit_sample E hloc ho N (resampled res idx)
    rw [varBootLoop]
    cases hm : E.lingam (fun s => res (idx (s + M.length)), N - M.length) with
    | none =>
      have hm' : E.lingam (fun s => resampled res idx (s + M.length), N - M.length) = none := hm
      rw [hm'] at hs
      simp only at hs
      rw [hs]
      exact ⟨fun out h => (by cases h), rfl, rfl, fun _ _ out h => (by cases h)⟩
    | some m =>
      have hm' : E.lingam (fun s => resampled res idx (s + M.length), N - M.length) = some m := hm
      rw [hm'] at hs
      obtain ⟨f, hf, ho', hB⟩ := hs
      rw [hf]
      simp only
      obtain ⟨i1, i2, i3, i4⟩ := ih (ams ++ [f.B]) ⟨some M, M.length, o.crit, some f⟩ rfl
      refine ⟨fun out h => ?_, i2, i3, fun idx' hlast out h => ?_⟩
      · obtain ⟨Bs, rfl, hB'⟩ := i1 out h
        exact ⟨f.B :: Bs, by simp, .cons ⟨m, hm, hB⟩ hB'⟩
      · cases rest with
        | nil =>
          obtain rfl : idx = idx' := by simpa using hlast
          cases h
          exact ⟨f, m, rfl, hm, ho', hB⟩
        | cons i' rest' =>
          rw [List.getLast?_cons_cons] at hlast
          exact i4 idx' hlast out h

/-- C194. A successful bootstrap of VARLiNGAM (without pruning, started on an object with no coefficients or coefficients for its lags): the matrices of a sample are
`B_0, (I - B_0) M_1, …` with the coefficients `M` of the original data and the matrix `B_0` that the LiNGAM model finds on exactly the resampled residuals; the criterion is as before. -/
theorem C194_var_bootstrap (E : VarEnv p K Crit) (hloc : Local E.lingam) (o : VarObj p K Crit) (x : Data p K)
    (hlags : ∀ M r, varCoefs E { o with crit := none } x = some (M, r) → M.length = o.lags) (samples : List (Nat → Nat)) {ams : List (List (Mat p K))}
    (h : (varBootstrap E false o x samples).2 = some ams) :
    ∃ M r, varCoefs E { o with crit := none } x = some (M, r) ∧
      List.Forall₂ (fun idx B => ∃ m, E.lingam (fun s => r.1 (idx (s + M.length)), x.2 - M.length) = some m ∧ B = calcB m.2 M) samples ams ∧
      (varBootstrap E false o x samples).1.crit = o.crit ∧ (varBootstrap E false o x samples).1.ar = some M := by
  unfold varBootstrap at h ⊢
  cases hc : varCoefs E { o with crit := none } x with
  | none =>
    have : varFit E false { o with crit := none } x = (⟨o.ar, o.lags, none, none⟩, false) := by unfold varFit; rw [hc]; rfl
    rw [this] at h
    cases h
  | some Mr =>
    cases hl : E.lingam Mr.2 with
    | none =>
      have : varFit E false { o with crit := none } x = (⟨o.ar, o.lags, none, none⟩, false) := by
        unfold varFit; rw [hc]; simp only [Option.bind_some]; unfold varFinish; rw [hl]; rfl
      rw [this] at h
      cases h
    | some m =>
      have hfit : varFit E false { o with crit := none } x = (⟨some Mr.1, Mr.1.length, none, some ⟨m.1, calcB m.2 Mr.1, Mr.2⟩⟩, true) := by
        unfold varFit; rw [hc]; simp only [Option.bind_some]; unfold varFinish; rw [hl]; rfl
      rw [hfit] at h ⊢
      simp only at h ⊢
      have hlen : Mr.1.length = o.lags := hlags Mr.1 Mr.2 hc
      rw [← hlen] at h ⊢
      obtain ⟨s1, s2, s3, -⟩ := varBootLoop_spec E hloc Mr.1 x.2 Mr.2.1 samples [] ⟨some Mr.1, Mr.1.length, none, some ⟨m.1, calcB m.2 Mr.1, Mr.2⟩⟩ rfl
      refine ⟨Mr.1, Mr.2, rfl, ?_⟩
      cases hb : (varBootLoop E false x.2 Mr.1.length Mr.2.1 Mr.1 samples [] ⟨some Mr.1, Mr.1.length, none, some ⟨m.1, calcB m.2 Mr.1, Mr.2⟩⟩).2 with
      | none => rw [hb] at h; cases h
      | some out =>
        rw [hb] at h
        obtain rfl : out = ams := by cases h; rfl
        obtain ⟨Bs, he, hB⟩ := s1 _ hb
        rw [List.nil_append] at he
        subst he
        exact ⟨hB, rfl, s2⟩

/-- C194 fails (every run): after a bootstrap with at least one sample, the object is not the model of the data any more but that of the last sample. -/
theorem C194_object_violated (E : VarEnv p K Crit) (hloc : Local E.lingam) (M : List (Mat p K)) (o : VarObj p K Crit) (ho : o.ar = some M) (hlags : o.lags = M.length) (x : Data p K)
    (samples : List (Nat → Nat)) (idx : Nat → Nat) (hlast : samples.getLast? = some idx) {ams : List (List (Mat p K))} (h : (varBootstrap E false o x samples).2 = some ams) :
    ∃ f m, (varBootstrap E false o x samples).1.fitted = some f ∧ E.lingam (fun s => calcResiduals M x.1 (idx (s + M.length)), x.2 - M.length) = some m ∧ f.order = m.1 ∧ f.B = calcB m.2 M := by
  unfold varBootstrap at h ⊢
  cases hl : E.lingam (calcResiduals M x.1, x.2 - M.length) with
  | none =>
    have : varFit E false { o with crit := none } x = (⟨o.ar, o.lags, none, none⟩, false) := by
      unfold varFit varCoefs varFinish; rw [ho]; simp only [Option.bind_some]; rw [hl]; rfl
    rw [this] at h
    cases h
  | some m =>
    rw [varFit_given E (o := { o with crit := none }) ho x hl] at h ⊢
    simp only at h ⊢
    rw [hlags] at h ⊢
    obtain ⟨-, -, -, s4⟩ := varBootLoop_spec E hloc M x.2 (calcResiduals M x.1) samples [] ⟨some M, M.length, none, some ⟨m.1, calcB m.2 M, (calcResiduals M x.1, x.2 - M.length)⟩⟩ rfl
    cases hb : (varBootLoop E false x.2 M.length (calcResiduals M x.1) M samples [] ⟨some M, M.length, none, some ⟨m.1, calcB m.2 M, (calcResiduals M x.1, x.2 - M.length)⟩⟩).2 with
    | none => rw [hb] at h; cases h
    | some out => exact s4 idx hlast out hb

/-- C194 fails: a bootstrap that raises in its first fit leaves the object without its criterion, and every later fit estimates with the full number of lags. -/
theorem C194_crash_violated (E : VarEnv p K Crit) (prune : Bool) (lags : Nat) (c : Crit) (x : Data p K) (h : E.estimate none lags x = none) (samples : List (Nat → Nat)) :
    (varBootstrap E prune ⟨none, lags, some c, none⟩ x samples) = (⟨none, lags, none, none⟩, none) ∧
    ∀ y, varCoefs E (varBootstrap E prune ⟨none, lags, some c, none⟩ x samples).1 y = E.estimate none lags y := by
  have e : varBootstrap E prune ⟨none, lags, some c, none⟩ x samples = (⟨none, lags, none, none⟩, none) := by
    unfold varBootstrap
    have : varFit E prune ⟨none, lags, none, none⟩ x = (⟨none, lags, none, none⟩, false) := by unfold varFit varCoefs; rw [h]; rfl
    simp only [this]
  exact ⟨e, fun y => by rw [e]; rfl⟩

/-! ## VARMA-LiNGAM -/

/-- C193. With both arrays of coefficients given, the results of the fits of an object do not depend on the earlier fits. -/
theorem C193_given (E : VarmaEnv p K Crit) (prune : Bool) {o o' : VarmaObj p K Crit} {phi theta : List (Mat p K)} (h1 : o.ar = some phi) (h2 : o.ma = some theta)
    (h1' : o'.ar = some phi) (h2' : o'.ma = some theta) (h3 : o.order = o'.order) (x : Data p K) :
    (varmaFit E prune o x).1.fitted = (varmaFit E prune o' x).1.fitted ∧ (varmaFit E prune o x).2 = (varmaFit E prune o' x).2 := by
  have e : varmaCoefs E o x = varmaCoefs E o' x := by unfold varmaCoefs; rw [h1, h2, h1', h2', h3]
  have e2 : varmaCoefs E o x = some ((some phi, some theta), o.order, varmaResiduals phi theta x (E.noise x)) := by unfold varmaCoefs; rw [h1, h2]
  unfold varmaFit
  rw [← e, e2]
  simp only [Option.bind_some]
  unfold varmaFinish
  cases E.lingam (varmaResiduals phi theta x (E.noise x)) with
  | none => exact ⟨rfl, rfl⟩
  | some m =>
    simp only [Option.bind_some]
    cases psiOmega m.2 (some phi, some theta) o.order with
    | none => exact ⟨rfl, rfl⟩
    | some po =>
      simp only [Option.bind_some]
      cases (if prune = true then E.prune x (errors m.2 (varmaResiduals phi theta x (E.noise x)).1, (varmaResiduals phi theta x (E.noise x)).2) o.order m.1 else some po) with
      | none => exact ⟨rfl, rfl⟩
      | some q => exact ⟨rfl, rfl⟩

/-- What a successful fit leaves: the coefficients and the order that were used. -/
theorem varmaFit_state (E : VarmaEnv p K Crit) (prune : Bool) (o : VarmaObj p K Crit) (x : Data p K) (h : (varmaFit E prune o x).2 = true) :
    ∃ c, varmaCoefs E o x = some c ∧ (varmaFit E prune o x).1.ar = c.1.1 ∧ (varmaFit E prune o x).1.ma = c.1.2 ∧ (varmaFit E prune o x).1.order = c.2.1 ∧
      (varmaFit E prune o x).1.crit = o.crit ∧ ∃ f, (varmaFit E prune o x).1.fitted = some f ∧ f.res = c.2.2 := by
  unfold varmaFit at h ⊢
  cases hc : varmaCoefs E o x with
  | none => rw [hc] at h; cases h
  | some c =>
    rw [hc] at h
    simp only [Option.bind_some] at h ⊢
    refine ⟨c, rfl, ?_⟩
    cases hf : varmaFinish E prune o x c with
    | none => rw [hf] at h; cases h
    | some o' =>
      simp only
      unfold varmaFinish at hf
      cases hl : E.lingam c.2.2 with
      | none => rw [hl] at hf; cases hf
      | some m =>
        rw [hl] at hf
        simp only [Option.bind_some] at hf
        cases hpo : psiOmega m.2 c.1 c.2.1 with
        | none => rw [hpo] at hf; cases hf
        | some po =>
          rw [hpo] at hf
          simp only [Option.bind_some] at hf
          cases hq : (if prune = true then E.prune x (errors m.2 c.2.2.1, c.2.2.2) c.2.1 m.1 else some po) with
          | none => rw [hq] at hf; cases hf
          | some q => rw [hq] at hf; cases hf; exact ⟨rfl, rfl, rfl, rfl, _, rfl, rfl⟩

/-- C193 fails (every run): once a fit has estimated an order with both parts, all later fits use its coefficients, whatever the data are. -/
theorem C193_coefficients_kept_violated (E : VarmaEnv p K Crit) (prune : Bool) (o : VarmaObj p K Crit) (x y : Data p K) (h : (varmaFit E prune o x).2 = true) {phi theta : List (Mat p K)}
    {ord : Nat × Nat} {r : Data p K} (hc : varmaCoefs E o x = some ((some phi, some theta), ord, r)) :
    varmaCoefs E (varmaFit E prune o x).1 y = some ((some phi, some theta), ord, varmaResiduals phi theta y (E.noise y)) := by
  obtain ⟨c, hc', h1, h2, h3, -, -⟩ := varmaFit_state E prune o x h
  rw [hc] at hc'
  cases hc'
  unfold varmaCoefs
  rw [h1, h2, h3]

/-- C193 fails (every run): if the order selected has only one part, the coefficients are estimated again, but the order is searched only within the order selected for the first data. -/
theorem C193_order_kept_violated (E : VarmaEnv p K Crit) (prune : Bool) (o : VarmaObj p K Crit) (x y : Data p K) (h : (varmaFit E prune o x).2 = true)
    {c : (Option (List (Mat p K)) × Option (List (Mat p K))) × (Nat × Nat) × Data p K} (hc : varmaCoefs E o x = some c) (h0 : c.1.1 = none ∨ c.1.2 = none) :
    varmaCoefs E (varmaFit E prune o x).1 y = E.estimate o.crit c.2.1 y := by
  obtain ⟨c', hc', h1, h2, h3, h4, -⟩ := varmaFit_state E prune o x h
  rw [hc] at hc'
  cases hc'
  unfold varmaCoefs
  rw [h1, h2, h3, h4]
  rcases h0 with h0 | h0
  · rw [h0]
  · rw [h0]
    cases c.1.1 <;> rfl

/-- C194 fails for VARMA (every run): if the order has only one part, the bootstrap raises, and the object has lost its criterion. -/
theorem C194_varma_one_part_violated (E : VarmaEnv p K Crit) (prune : Bool) (o : VarmaObj p K Crit) (x : Data p K) (samples : List (Nat → Nat)) (hs : samples ≠ [])
    (hN : max o.order.1 o.order.2 < x.2) {c : (Option (List (Mat p K)) × Option (List (Mat p K))) × (Nat × Nat) × Data p K}
    (hc : varmaCoefs E { o with crit := none } x = some c) (h0 : c.1.1 = none ∨ c.1.2 = none) :
    (varmaBootstrap E prune o x samples).2 = none ∧ (varmaBootstrap E prune o x samples).1.crit = none := by
  unfold varmaBootstrap
  simp only
  cases hb : (varmaFit E prune { o with crit := none } x).2 with
  | false =>
    have : (varmaFit E prune { o with crit := none } x).1.crit = none := by
      unfold varmaFit at hb ⊢
      cases h : (varmaCoefs E { o with crit := none } x).bind (varmaFinish E prune { o with crit := none } x) with
      | none => rfl
      | some o' => rw [h] at hb; cases hb
    simp only [this, and_self]
  | true =>
    obtain ⟨c', hc', h1, h2, -, h4, f, hf, -⟩ := varmaFit_state E prune { o with crit := none } x hb
    rw [hc] at hc'
    cases hc'
    rw [hf]
    simp only
    cases samples with
    | nil => exact absurd rfl hs
    | cons idx rest =>
      have hcond : ¬ (x.2 ≤ max o.order.1 o.order.2 ∨ ((varmaFit E prune { o with crit := none } x).1.ar.isSome = true ∧ (varmaFit E prune { o with crit := none } x).1.ma.isSome = true)) := by
        rw [h1, h2]
        rintro (h | ⟨ha, hb'⟩)
        · omega
        · rcases h0 with h0 | h0
          · rw [h0] at ha; cases ha
          · rw [h0] at hb'; cases hb'
      rw [varmaBootLoop, if_neg hcond]
      exact ⟨rfl, h4⟩

/-- C194. A successful bootstrap of VARMALiNGAM: one list of matrices for each sample, the coefficient matrices `psi` followed by the moving-average matrices `omega` of a fit of the series simulated
from the resampled residuals with the coefficients found on the original data; the criterion is as before. -/
theorem C194_varma_bootstrap (E : VarmaEnv p K Crit) (prune : Bool) (o : VarmaObj p K Crit) (x : Data p K) (samples : List (Nat → Nat)) {ams : List (List (Mat p K))}
    (h : (varmaBootstrap E prune o x samples).2 = some ams) :
    ∃ o1 f0, varmaFit E prune { o with crit := none } x = (o1, true) ∧ o1.fitted = some f0 ∧ (varmaBootstrap E prune o x samples).1.crit = o.crit ∧
      List.Forall₂ (fun idx B => ∃ o2 o3 f,
        varmaFit E prune o2 (simulate x.2 (max o.order.1 o.order.2) (o1.ar.getD []) (o1.ma.getD []) (resampled f0.res.1 idx)) = (o3, true) ∧
          o3.fitted = some f ∧ B = f.psi ++ f.omega) samples ams := by
  have loop : ∀ (N start : Nat) (res : Series p K) (ar ma : Option (List (Mat p K))) (samples : List (Nat → Nat)) (acc : List (List (Mat p K))) (o2 : VarmaObj p K Crit) (ams : List (List (Mat p K))),
      (varmaBootLoop E prune N start res ar ma samples acc o2).2 = some ams → ∃ Bs, ams = acc ++ Bs ∧
        List.Forall₂ (fun idx B => ∃ o2 o3 f, varmaFit E prune o2 (simulate N start (ar.getD []) (ma.getD []) (resampled res idx)) = (o3, true) ∧ o3.fitted = some f ∧
          B = f.psi ++ f.omega) samples Bs := by
    intro N start res ar ma samples
    induction samples with
    | nil => intro acc o2 ams h; exact ⟨[], by rw [List.append_nil]; exact (Option.some.inj h).symm, .nil⟩
    | cons idx rest ih =>
      intro acc o2 ams h
      unfold varmaBootLoop at h
      split_ifs at h with hc
      dsimp only at h
      split at h
      · next f e1 e2 =>
        obtain ⟨Bs, rfl, hB⟩ := ih _ _ _ h
        exact ⟨(f.psi ++ f.omega) :: Bs, by simp, .cons ⟨o2, _, f, Prod.ext rfl e1, e2, rfl⟩ hB⟩
      · cases h
  unfold varmaBootstrap at h ⊢
  dsimp only at h ⊢
  split at h
  · next f e1 e2 =>
    split at h
    · next out e3 =>
      obtain rfl := Option.some.inj h
      obtain ⟨Bs, e4, hB⟩ := loop _ _ _ _ _ _ _ _ _ e3
      rw [List.nil_append] at e4
      subst e4
      exact ⟨_, f, Prod.ext rfl e1, e2, rfl, hB⟩
    · cases h
  · cases h

/-- C194 fails for VARMA with pruning (every run): the fit of the first sample computes fewer errors than observations, and the pruning step raises (`C142_given_coefs_violated`). -/
theorem C194_varma_pruning_violated (E : VarmaEnv p K Crit) (o : VarmaObj p K Crit) (x : Data p K) (samples : List (Nat → Nat)) (hs : samples ≠ [])
    (hprune : ∀ X ee ord cs, 1 ≤ ord.2 → ee.2 ≠ X.2 → ee.2 ≠ 1 → E.prune X ee ord cs = none) {phi theta : List (Mat p K)} {ord : Nat × Nat} {r : Data p K}
    (hc : varmaCoefs E { o with crit := none } x = some ((some phi, some theta), ord, r)) (hq : 1 ≤ ord.2) (hlen : ord.2 ≤ theta.length) (hN : max phi.length theta.length + 1 < x.2) :
    (varmaBootstrap E true o x samples).2 = none ∧ (varmaBootstrap E true o x samples).1.crit = none := by
  unfold varmaBootstrap
  simp only
  cases hb : (varmaFit E true { o with crit := none } x).2 with
  | false =>
    have : (varmaFit E true { o with crit := none } x).1.crit = none := by
      unfold varmaFit at hb ⊢
      cases h : (varmaCoefs E { o with crit := none } x).bind (varmaFinish E true { o with crit := none } x) with
      | none => rfl
      | some o' => rw [h] at hb; cases hb
    simp only [this, and_self]
  | true =>
    obtain ⟨c', hc', h1, h2, h3, h4, f, hf, -⟩ := varmaFit_state E true { o with crit := none } x hb
    rw [hc] at hc'
    cases hc'
    rw [hf]
    simp only
    cases samples with
    | nil => exact absurd rfl hs
    | cons idx rest =>
      generalize (varmaFit E true { o with crit := none } x).1 = o1 at h1 h2 h3 h4
      simp only at h1 h2 h3 h4
      have hfit : ∀ e : Series p K, varmaFit E true o1 (e, x.2) = (⟨o1.ar, o1.ma, o1.order, o1.crit, none⟩, false) := by
        intro e
        unfold varmaFit varmaCoefs
        rw [h1, h2]
        simp only [Option.bind_some]
        unfold varmaFinish
        cases E.lingam (varmaResiduals phi theta (e, x.2) (E.noise (e, x.2))) with
        | none => simp only [Option.bind_none, h1, h2]
        | some m =>
          simp only [Option.bind_some]
          cases psiOmega m.2 (some phi, some theta) o1.order with
          | none => simp only [Option.bind_none, h1, h2]
          | some po =>
            simp only [Option.bind_some, if_true]
            rw [hprune _ _ _ _ (by rw [h3]; exact hq) (by simp only [varmaResiduals]; have := le_max_right phi.length theta.length; omega) (by simp only [varmaResiduals]; omega)]
            simp only [Option.map_none, h1, h2]
      rw [varmaBootLoop]
      simp only [h1, h2]
      rw [if_pos (Or.inr ⟨rfl, rfl⟩)]
      simp only [Option.getD_some]
      rw [show simulate x.2 (max o.order.1 o.order.2) phi theta (resampled f.res.1 idx) = ((simulate x.2 (max o.order.1 o.order.2) phi theta (resampled f.res.1 idx)).1, x.2) from rfl, hfit]
      exact ⟨rfl, h4⟩

/-! ## The hypotheses are met -/

/-- A VARLiNGAM environment: least squares for one variable and one lag on three observations; with a criterion no lag is used. -/
def exVar : VarEnv 1 ℚ Unit where
  estimate c lags x := if x.2 < 3 then none else
    let m : ℚ := (x.1 1 0 * x.1 0 0 + x.1 2 0 * x.1 1 0) / (x.1 0 0 * x.1 0 0 + x.1 1 0 * x.1 1 0)
    if c.isSome = true then some ([], x) else some (List.replicate lags (fun _ _ => m), calcResiduals (List.replicate lags (fun _ _ => m)) x.1, x.2 - lags)
  lingam x := if x.2 = 0 then none else some ([0], fun _ _ => x.1 0 0)
  prune _ B _ := some B

example : Local exVar.lingam := by
  intro x y n h
  unfold exVar
  simp only
  split_ifs with h0
  · rfl
  · rw [h 0 (by omega)]

/-- A bootstrap with two samples: the matrices, and what is left in the object. -/
example : ((varBootstrap exVar false ⟨none, 1, some (), none⟩ (fun t => ![2 ^ t + t], 3) [fun _ => 0, fun _ => 1]).2.map fun l => l.map fun B => B.map fun m => m 0 0) =
      some [[9 / 10, 21 / 100], [-3 / 10, 273 / 100]] ∧
    (varBootstrap exVar false ⟨none, 1, some (), none⟩ (fun t => ![2 ^ t + t], 3) [fun _ => 0, fun _ => 1]).1.crit = some () := by
  constructor <;> decide +kernel

/-- After a bootstrap on too few observations the next fit has one lag; without it, it has none. -/
example : ((varFit exVar false (varBootstrap exVar false ⟨none, 1, some (), none⟩ (fun t => ![2 ^ t], 2) []).1 (fun t => ![2 ^ t], 3)).1.fitted.map fun f => f.B.length) = some 2 ∧
    ((varFit exVar false ⟨none, 1, some (), none⟩ (fun t => ![2 ^ t], 3)).1.fitted.map fun f => f.B.length) = some 1 := by
  constructor <;> decide +kernel

/-- A VARMA environment. -/
def exVarma : VarmaEnv 1 ℚ Unit where
  estimate _ ord x := if x.2 < 3 then none else
    some ((if ord.1 = 0 then none else some (List.replicate ord.1 fun _ _ => x.1 0 0), if ord.2 = 0 then none else some (List.replicate ord.2 fun _ _ => x.1 1 0)), ord, x)
  lingam x := if x.2 = 0 then none else some ([0], fun _ _ => 0)
  prune X ee ord _ := if ord.2 = 0 ∨ ee.2 = X.2 ∨ ee.2 = 1 then some ([0], []) else none
  noise _ := fun _ => 0

/-- The bootstrap works for order (1, 1), raises for order (1, 0) and raises with pruning. -/
example : ((varmaBootstrap exVarma false ⟨none, none, (1, 1), some (), none⟩ (fun t => ![2 ^ t], 4) [id]).2.map fun l => l.map fun B => B.map fun m => m 0 0) = some [[0, 1, 2]] ∧
    (varmaBootstrap exVarma false ⟨none, none, (1, 0), some (), none⟩ (fun t => ![2 ^ t], 4) [id]).2.isNone = true ∧
    (varmaBootstrap exVarma true ⟨none, none, (1, 1), some (), none⟩ (fun t => ![2 ^ t], 4) [id]).2.isNone = true := by
  refine ⟨?_, ?_, ?_⟩ <;> decide +kernel

end TsB
end CL
