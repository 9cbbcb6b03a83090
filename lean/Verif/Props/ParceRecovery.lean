import Verif.Model.ParceData
import Verif.Props.Parce
import Verif.Props.RcdHidden

/-!
# C198-C200: the causal order that ParceLiNGAM finds with an ideal independence test
-/
namespace CL
namespace Parce
open Spec Relation Finset
open Lingam (Before)
variable {N n m : Nat}

/-! ### the tests -/

theorem exo_val {K Q : Type} [LinearOrder K] [Add K] [LinearOrder Q] {D : Data K Q} (U l : List Nat) (s : Option (Nat × Q × K))
    (hs : ∀ b, s = some b → ∃ cap, b.2 = fisherTest D (U.filter (· ≠ b.1)) b.1 cap) (b : Nat × Q × K) (h : l.foldl (exoStep D U) s = some b) :
    ∃ cap, b.2 = fisherTest D (U.filter (· ≠ b.1)) b.1 cap := by
  induction l generalizing s with
  | nil => exact hs b h
  | cons j l ih =>
    refine ih _ (fun b hb => ?_) h
    unfold exoStep at hb
    split at hb
    · rw [Option.some_inj] at hb
      exact ⟨s.map (·.2.2), by rw [← hb]⟩
    · exact hs b hb

theorem fisher_one {K Q : Type} [LinearOrder K] [Add K] [LinearOrder Q] {D : Data K Q} (x y : Nat) (cap : Option K) : fisherTest D [y] x cap = D.pair x [y] :=
  if_pos rfl

section
variable [NeZero n] {hsic : (Fin N → ℝ) → (Fin N → ℝ) → ENNReal × ℝ} {tl : Nat → ENNReal → ℝ} {htl : ∀ k a b, a ≤ b → tl k b ≤ tl k a} {alpha : ℝ}
  {data : Fin N → Fin n → ℝ}

/-- least squares with any solution of the normal equations of the sample covariances -/
theorem resid_of_normal (hN : N ≠ 0) (target : Nat) (ps : List Nat) (coef : Fin n → ℝ)
    (hc : ∀ s ∈ (ps.map (idx n)).toFinset, ∑ p ∈ (ps.map (idx n)).toFinset, (∑ k, (data k s - (∑ k, data k s) / N) * (data k p - (∑ k, data k p) / N)) * coef p =
      ∑ k, (data k s - (∑ k, data k s) / N) * (data k (idx n target) - (∑ k, data k (idx n target)) / N)) :
    resid data target ps = fun k => cen data target k - ∑ p ∈ (ps.map (idx n)).toFinset, coef p * (data k p - (∑ k, data k p) / N) := by
  have h0 : ∀ v, ∑ k, (data k v - (∑ k, data k v) / N) = 0 := by
    intro v
    rw [sum_sub_distrib, sum_const, card_univ, Fintype.card_fin, nsmul_eq_mul, mul_div_cancel₀ _ (by exact_mod_cast hN), sub_self]
  have hs0 : ∑ k, (cen data target k - ∑ p ∈ (ps.map (idx n)).toFinset, coef p * (data k p - (∑ k, data k p) / N)) = 0 := by
    rw [sum_sub_distrib, sum_comm, show ∑ k, cen data target k = 0 from h0 _, sum_eq_zero fun p _ => by rw [← mul_sum, h0, mul_zero], sub_zero]
  refine (Rcd.ols_spec data (idx n target) (ps.map (idx n)).toFinset).unique (residual_of_orth ⟨(∑ k, data k (idx n target)) / N - ∑ p ∈ (ps.map (idx n)).toFinset, coef p * ((∑ k, data k p) / N), coef, fun k => ?_⟩ hs0 fun s hs => ?_)
  · unfold cen
    simp only [mul_sub, sum_sub_distrib]
    ring
  · have h1 : ∑ k, (cen data target k - ∑ p ∈ (ps.map (idx n)).toFinset, coef p * (data k p - (∑ k, data k p) / N)) * data k s =
        ∑ k, (cen data target k - ∑ p ∈ (ps.map (idx n)).toFinset, coef p * (data k p - (∑ k, data k p) / N)) * (data k s - (∑ k, data k s) / N) := by
      have := congrArg (· * ((∑ k, data k s) / N)) hs0
      simp only [zero_mul, sum_mul] at this
      rw [← sub_eq_zero, ← sum_sub_distrib]
      rw [← this]
      exact sum_congr rfl fun k _ => by ring
    rw [h1]
    have h2 := hc s hs
    simp only [sub_mul, sum_sub_distrib, sum_mul]
    rw [sub_eq_zero, sum_comm]
    refine Eq.trans ?_ (h2.symm.trans ?_)
    · exact sum_congr rfl fun k _ => by unfold cen; ring
    · refine sum_congr rfl fun p _ => ?_
      rw [sum_mul]
      exact sum_congr rfl fun k _ => by ring

theorem foldl_top (f : Nat → ENNReal) (l : List Nat) (acc : ENNReal) (h : acc = ⊤ ∨ ∃ x ∈ l, f x = ⊤) : (l.map f).foldl (· + ·) acc = ⊤ := by
  induction l generalizing acc with
  | nil => simpa using h
  | cons y l ih =>
    refine ih _ ?_
    rcases h with rfl | ⟨x, hx, h⟩
    · exact Or.inl (top_add _)
    · rcases List.mem_cons.1 hx with rfl | hx
      · exact Or.inl (by show acc + f x = ⊤; rw [h, add_top])
      · exact Or.inr ⟨x, hx, h⟩

theorem foldl_zero (f : Nat → ENNReal) (l : List Nat) (h : ∀ x ∈ l, f x = 0) : (l.map f).foldl (· + ·) 0 = 0 := by
  induction l with
  | nil => rfl
  | cons y l ih =>
    rw [List.map_cons, List.foldl_cons, h y (by simp), add_zero]
    exact ih fun x hx => h x (by simp [hx])

/-- two variables: the value of the pick is the p-value of its test -/
theorem pick_two {s : St ℝ} (hU : s.U.Nodup) (h2 : s.U.length = 2) {v : Nat × ℝ} (h : pick (testData hsic tl htl alpha data) none s = some v) :
    ∀ x ∈ s.U.filter (· ≠ v.1), v.2 = (hsic (cen data x) (resid data v.1 (s.U.filter (· ≠ v.1)))).2 := by
  have hv := (candidates_sub _ _ _).subset (pick_mem h)
  unfold pick at h
  rw [show candidates none s.orders s.U = s.U from rfl, if_neg (by omega)] at h
  unfold findExo at h
  rw [Option.map_eq_some_iff] at h
  obtain ⟨b, h1, h3⟩ := h
  obtain ⟨cap, h4⟩ := exo_val s.U s.U none (fun b hb => by cases hb) b h1
  rw [← h3] at hv ⊢
  dsimp only at hv ⊢
  have hlen := filter_ne_length hU hv
  obtain ⟨y, hy⟩ := List.length_eq_one_iff.1 (show (s.U.filter (· ≠ b.1)).length = 1 by omega)
  intro x hx
  rw [hy, List.mem_singleton] at hx
  subst hx
  rw [h4]
  unfold fisherTest
  rw [if_pos (by omega), hy]
  rfl

/-- a variable that passes the test is not rejected against any other variable left -/
theorem pick_pass (htop : ∀ k, tl k ⊤ = 0) {s : St ℝ} (hU : s.U.Nodup) (h2 : 2 ≤ s.U.length) {v : Nat × ℝ} (h : pick (testData hsic tl htl alpha data) none s = some v)
    (hpos : 0 < v.2) : ∀ x ∈ s.U.filter (· ≠ v.1), (hsic (cen data x) (resid data v.1 (s.U.filter (· ≠ v.1)))).2 ≠ 0 := by
  intro x hx h0
  by_cases h3 : 3 ≤ s.U.length
  · obtain ⟨w, -, hw, -⟩ := pick_best (D := testData hsic tl htl alpha data) hU h3
    rw [hw, Option.some_inj] at h
    have h1 : fisherStat (testData hsic tl htl alpha data) s.U w = ⊤ := by
      refine foldl_top _ _ _ (Or.inr ⟨x, by rw [← h] at hx; exact hx, ?_⟩)
      show (if _ then _ else _) = _
      rw [← h] at h0
      exact if_pos h0
    rw [← h] at hpos
    have h4 : fisherP (testData hsic tl htl alpha data) s.U w = 0 := by
      unfold fisherP
      rw [h1]
      exact htop _
    rw [h4] at hpos
    exact lt_irrefl _ hpos
  · have := pick_two hU (by omega) h x hx
    rw [h0] at this
    rw [this] at hpos
    exact lt_irrefl _ hpos

theorem idx_val {v : Nat} (h : v < n) : (idx n v).val = v := by
  show v % n = v
  exact Nat.mod_eq_of_lt h

theorem idx_inj {v w : Nat} (hv : v < n) (hw : w < n) (h : idx n v = idx n w) : v = w := by
  rw [← idx_val hv, h, idx_val hw]

end

/-! ### sinks -/

section
variable [NeZero n] {e : Fin m → Fin N → ℝ} {full : Fin N → Fin m → ℝ} {b0 : Fin m → ℝ} {B T : Fin m → Fin m → ℝ} {o : Fin n → Fin m}

/-- If a residual has no error in common with its predictors, the target has no effect on the predictors, whatever is hidden. -/
theorem no_effect (hac : Acyclic fun p i => B p i ≠ 0) (hT : TotalEffects B T) (ho : Function.Injective o) {v : Fin n} {S : Finset (Fin n)} (hv : v ∉ S) {β : Fin n → ℝ}
    (h : ∀ s ∈ S, ∀ l, T l (o v) - ∑ s ∈ S, β s * T l (o s) = 0 ∨ T l (o s) = 0) : ∀ s ∈ S, T (o v) (o s) = 0 := by
  obtain ⟨r, hr⟩ := acyclic_rank hac
  have hrank : ∀ a b, Anc B a b → r a < r b := by
    intro a b hab
    induction hab with
    | single h => exact hr _ _ h
    | tail _ h ih => exact ih.trans (hr _ _ h)
  obtain ⟨h1, h2⟩ := total_zero hac hT
  have hS : ∀ s ∈ S, T (o s) (o v) = ∑ s' ∈ S, β s' * T (o s) (o s') := by
    intro s hs
    have := (h s hs (o s)).resolve_right (by rw [h1]; exact one_ne_zero)
    linarith
  -- no weight on descendants
  have hβ : ∀ d, ∀ s ∈ S, Anc B (o v) (o s) → (univ.sup r) ≤ r (o s) + d → β s = 0 := by
    intro d
    induction d with
    | zero =>
      intro s hs hd hle
      have := hS s hs
      rw [h2 (o s) (o v) (fun q => hv (ho q ▸ hs)) fun q => hac _ (hd.trans q), sum_eq_single s, h1, mul_one] at this
      · exact this.symm
      · intro s' hs' hne
        by_cases ha : Anc B (o s) (o s')
        · have := hrank _ _ ha
          have h3 : r (o s') ≤ univ.sup r := le_sup (mem_univ _)
          omega
        · rw [h2 _ _ (fun q => hne (ho q).symm) ha, mul_zero]
      · exact fun q => absurd hs q
    | succ d ih =>
      intro s hs hd hle
      have := hS s hs
      rw [h2 (o s) (o v) (fun q => hv (ho q ▸ hs)) fun q => hac _ (hd.trans q), sum_eq_single s, h1, mul_one] at this
      · exact this.symm
      · intro s' hs' hne
        by_cases ha : Anc B (o s) (o s')
        · have := hrank _ _ ha
          rw [ih s' hs' (hd.trans ha) (by omega), zero_mul]
        · rw [h2 _ _ (fun q => hne (ho q).symm) ha, mul_zero]
      · exact fun q => absurd hs q
  intro s hs
  rcases h s hs (o v) with h3 | h3
  · rw [h1, sum_eq_zero, sub_zero] at h3
    · exact absurd h3 one_ne_zero
    · intro s' hs'
      by_cases ha : Anc B (o v) (o s')
      · rw [hβ (univ.sup r) s' hs' ha (by omega), zero_mul]
      · rw [h2 _ _ (fun q => hv (by rw [ho q]; exact hs')) ha, mul_zero]
  · exact h3

theorem cen_comb (he : Errors e) {data : Fin N → Fin n → ℝ} {t : Fin n → Fin m → ℝ} (hr : Rep data e t) (v : Nat) : cen data v = comb e (t (idx n v)) 0 := by
  obtain ⟨c, hc⟩ := hr (idx n v)
  have hd : ∀ k, data k (idx n v) = comb e (t (idx n v)) c k := fun k => congrFun hc k
  funext k
  have hN : (N : ℝ) ≠ 0 := by
    have : 0 < N := Fin.pos k
    exact_mod_cast this.ne'
  unfold cen
  simp only [hd]
  rw [sum_comb he, mul_div_cancel_left₀ _ hN]
  unfold comb
  ring

theorem resid_comb (he : Errors e) {data : Fin N → Fin n → ℝ} {t : Fin n → Fin m → ℝ} (hr : Rep data e t) (v : Nat) (ps : List Nat) :
    ∃ β : Fin n → ℝ, resid data v ps = comb e (fun l => t (idx n v) l - ∑ s ∈ (ps.map (idx n)).toFinset, β s * t s l) 0 := by
  have hu := Rcd.ols_spec data (idx n v) (ps.map (idx n)).toFinset
  obtain ⟨b0, b, hb⟩ := hu.1
  exact ⟨b, (residual_comb he hr hu hb).1⟩

variable {hsic : (Fin N → ℝ) → (Fin N → ℝ) → ENNReal × ℝ} {tl : Nat → ENNReal → ℝ} {htl : ∀ k a b, a ≤ b → tl k b ≤ tl k a} {alpha : ℝ}

/-- what is placed has no effect on what is left -/
theorem placed_sink (hg : Generated full b0 B e) (hT : TotalEffects B T) (ho : Function.Injective o) (hd : Detects e hsic) (htop : ∀ k, tl k ⊤ = 0)
    {s : St ℝ} (hI : Inv n s) (h2 : 2 ≤ s.U.length) {v : Nat × ℝ} (h : pick (testData hsic tl htl alpha fun k w => full k (o w)) none s = some v) (hpos : 0 < v.2) :
    ∀ u ∈ s.U.filter (· ≠ v.1), T (o (idx n v.1)) (o (idx n u)) = 0 := by
  have hr := Rcd.rep_observed hg hT o
  have hp := pick_pass htop hI.nodupU h2 h hpos
  have hv := (candidates_sub _ _ _).subset (pick_mem h)
  have hlt : ∀ {u}, u ∈ s.U → u < n := fun hu => ((hI.mem _).1 hu).1
  obtain ⟨β, hβ⟩ := resid_comb hg.errors hr v.1 (s.U.filter (· ≠ v.1))
  have hne : idx n v.1 ∉ ((s.U.filter (· ≠ v.1)).map (idx n)).toFinset := by
    intro hm
    rw [List.mem_toFinset, List.mem_map] at hm
    obtain ⟨u, hu, hq⟩ := hm
    rw [List.mem_filter] at hu
    have := idx_inj (hlt hu.1) (hlt hv) hq
    simp [this] at hu
  have key := no_effect hg.acyclic hT ho hne (β := β) (by
    intro s' hs' l
    rw [List.mem_toFinset, List.mem_map] at hs'
    obtain ⟨u, hu, rfl⟩ := hs'
    by_contra hc
    push Not at hc
    refine hp u hu ?_
    rw [cen_comb hg.errors hr, hβ]
    exact hd _ _ ⟨l, hc.2, hc.1⟩)
  intro u hu
  exact key _ (List.mem_toFinset.2 (List.mem_map.2 ⟨u, hu, rfl⟩))

/-- **C199.** An acyclic linear model of which only some variables are observed, an independence test that detects every dependence, a positive level and no prior
knowledge: whatever the regression coefficients that are estimated later, each variable of the causal order has no total effect on any variable that the order puts
before it, nor on the variables of unknown order. -/
theorem C199_hidden_sound {R : Type} [Zero R] (hg : Generated full b0 B e) (hT : TotalEffects B T) (ho : Function.Injective o) (hd : Detects e hsic)
    (htop : ∀ k, tl k ⊤ = 0) (ha : 0 < alpha) (hn : 2 ≤ n) (coef : Nat → List Nat → Nat → R) {r : Fitted ℝ R}
    (h : fit (testData hsic tl htl alpha fun k w => full k (o w)) coef n ⟨none, []⟩ = some r) :
    ∃ unk bot : List Nat, r.order = (if unk = [] then [] else [.unknown unk]) ++ bot.map .var ∧ (unk ++ bot).Perm (List.range n) ∧
      ∀ v ∈ bot, ∀ u, u ∈ unk ∨ Before bot u v → T (o (idx n v)) (o (idx n u)) = 0 := by
  have hthr : 0 < (testData hsic tl htl alpha fun k w => full k (o w)).thresh :=
    div_pos ha (by have : (2 : ℝ) ≤ n := by exact_mod_cast hn
                   linarith)
  obtain ⟨s, q, hq, hI, hP, he⟩ := search_ends (D := testData hsic tl htl alpha fun k w => full k (o w)) (aknw := none) (n := n)
    (P := fun s => (s.K.map Prod.fst).Pairwise (fun u v => T (o (idx n v)) (o (idx n u)) = 0) ∧ ∀ v ∈ s.K.map Prod.fst, ∀ u ∈ s.U, T (o (idx n v)) (o (idx n u)) = 0)
    (fun s m hs hI h2 hp ht => by
      have hm := (candidates_sub _ _ _).subset (pick_mem hp)
      have hk := placed_sink hg hT ho hd htop hI h2 hp (hthr.trans_le ht)
      refine ⟨List.pairwise_cons.2 ⟨fun v hv => hs.2 v hv _ hm, hs.1⟩, fun v hv u hu => ?_⟩
      rcases List.mem_cons.1 (show v ∈ m.1 :: s.K.map Prod.fst from hv) with rfl | hv
      · exact hk u hu
      · exact hs.2 v hv u (List.mem_filter.1 hu).1) n ⟨[], List.range n, []⟩ (inv_init n []) (by simpa using hn) (by simp) (by simp)
  obtain ⟨hnd, hlt, hlen⟩ := ended_final hI he
  unfold fit at h
  rw [if_neg (by omega), hq] at h
  simp only [Option.map_some, Option.some.injEq] at h
  have hpair : (q.K.map Prod.fst).Pairwise (fun u v => T (o (idx n v)) (o (idx n u)) = 0) ∧
      ∀ v ∈ q.K.map Prod.fst, ∀ u ∈ (List.range n).filter (· ∉ q.K.map Prod.fst), T (o (idx n v)) (o (idx n u)) = 0 := by
    rcases he with ⟨-, rfl, -⟩ | ⟨h1, rfl⟩
    · refine ⟨hP.1, fun v hv u hu => hP.2 v hv u ?_⟩
      rw [hI.rest]; exact hu
    · obtain ⟨u, hu⟩ := List.length_eq_one_iff.1 h1
      rw [hu] at hP ⊢
      simp only [List.map_cons, List.map_nil, List.cons_append, List.nil_append]
      refine ⟨List.pairwise_cons.2 ⟨fun v hv => hP.2 v hv u (by simp), hP.1⟩, fun v _ w hw => ?_⟩
      rw [List.mem_filter] at hw
      exfalso
      simp only [List.mem_cons, not_or, decide_eq_true_eq] at hw
      have := (hI.mem w).2 ⟨List.mem_range.1 hw.1, hw.2.2⟩
      rw [hu, List.mem_singleton] at this
      exact hw.2.1 this
  refine ⟨(List.range n).filter (· ∉ q.K.map Prod.fst), q.K.map Prod.fst, ?_, ?_, fun v hv u hu => ?_⟩
  · rw [← h]; exact order_shape n _ hlen
  · refine (List.perm_ext_iff_of_nodup ?_ List.nodup_range).2 fun v => ?_
    · refine List.nodup_append.2 ⟨List.nodup_range.filter _, hnd, fun a ha b hb e => ?_⟩
      subst e
      rw [List.mem_filter] at ha
      simp only [decide_eq_true_eq] at ha
      exact ha.2 hb
    · rw [List.mem_append, List.mem_filter, List.mem_range]
      simp only [decide_eq_true_eq]
      constructor
      · rintro (h | h)
        · exact h.1
        · exact hlt v h
      · intro h
        by_cases hv : v ∈ q.K.map Prod.fst
        · exact Or.inr hv
        · exact Or.inl ⟨h, hv⟩
  · rcases hu with hu | hu
    · exact hpair.2 v hv u hu
    · have h3 : [u, v].Pairwise (fun u v => T (o (idx n v)) (o (idx n u)) = 0) := List.Pairwise.sublist hu hpair.1
      simpa using h3

end

/-! ### no hidden variables -/

section
variable [NeZero n] {e : Fin n → Fin N → ℝ} {data : Fin N → Fin n → ℝ} {b0 : Fin n → ℝ} {B T : Fin n → Fin n → ℝ}
  {hsic : (Fin N → ℝ) → (Fin N → ℝ) → ENNReal × ℝ} {tl : Nat → ENNReal → ℝ} {htl : ∀ k a b, a ≤ b → tl k b ≤ tl k a} {alpha : ℝ}

/-- the residual of a variable without descendants in `S`, all its parents being in `S`, is its error -/
theorem resid_sink (hg : Generated data b0 B e) (hT : TotalEffects B T) (v : Nat) (ps : List Nat) (hpar : ∀ p, B p (idx n v) ≠ 0 → p ∈ (ps.map (idx n)).toFinset)
    (hnd : ∀ s ∈ (ps.map (idx n)).toFinset, T (idx n v) s = 0) : resid data v ps = comb e (fun l => if l = idx n v then 1 else 0) 0 := by
  have he : comb e (fun l => if l = idx n v then 1 else 0) 0 = e (idx n v) := by
    funext k
    unfold comb
    simp
  rw [he]
  refine (Rcd.ols_spec data (idx n v) _).unique (residual_of_orth ⟨b0 (idx n v), fun p => B p (idx n v), fun k => ?_⟩ (hg.errors.mean _) fun s hs => ?_)
  · have h1 := hg.eqn k (idx n v)
    have h2 : ∑ p ∈ (ps.map (idx n)).toFinset, B p (idx n v) * data k p = ∑ p, B p (idx n v) * data k p := by
      refine sum_subset (subset_univ _) fun p _ hp => ?_
      by_contra hc
      exact hp (hpar p fun h => hc (by rw [h, zero_mul]))
    rw [h2]
    linarith
  · obtain ⟨c, hc⟩ := rep_of_generated hg hT s
    have hd : ∀ k, data k s = comb e (fun l => T l s) c k := fun k => congrFun hc k
    rw [← he, sum_congr rfl fun k _ => by rw [hd k], sum_comb_mul hg.errors]
    refine sum_eq_zero fun l _ => ?_
    by_cases hl : l = idx n v
    · subst hl
      show _ * T (idx n v) s * _ = 0
      rw [hnd s hs]; ring
    · show (if l = idx n v then (1 : ℝ) else 0) * _ * _ = 0
      rw [if_neg hl]; ring

/-- among variables that contain their parents, the one chosen passes the test -/
theorem pick_found (hg : Generated data b0 B e) (hT : TotalEffects B T) (hi : IdealHsic e hsic) (hzero : ∀ k, tl k 0 = 1) {s : St ℝ} (hI : Inv n s) (h2 : 2 ≤ s.U.length)
    (hcl : ∀ u ∈ s.U, ∀ p : Fin n, B p (idx n u) ≠ 0 → p.val ∈ s.U) : ∃ v, pick (testData hsic tl htl alpha data) none s = some (v, 1) := by
  have hlt : ∀ {u}, u ∈ s.U → u < n := fun hu => ((hI.mem _).1 hu).1
  obtain ⟨r, hr⟩ := acyclic_rank hg.acyclic
  have hrank : ∀ a b, Anc B a b → r a < r b := by
    intro a b hab
    induction hab with
    | single h => exact hr _ _ h
    | tail _ h ih => exact ih.trans (hr _ _ h)
  obtain ⟨w, hw, hmax⟩ : ∃ w ∈ s.U, ∀ u ∈ s.U, r (idx n u) ≤ r (idx n w) := by
    have hne : s.U.toFinset.Nonempty := by
      rw [List.toFinset_nonempty_iff]
      intro h; rw [h] at h2; simp at h2
    obtain ⟨w, hw, h⟩ := exists_max_image s.U.toFinset (fun u => r (idx n u)) hne
    exact ⟨w, List.mem_toFinset.1 hw, fun u hu => h u (List.mem_toFinset.2 hu)⟩
  have hTz : ∀ u ∈ s.U, u ≠ w → T (idx n w) (idx n u) = 0 := by
    intro u hu hne
    refine (total_zero hg.acyclic hT).2 _ _ (fun h => hne (idx_inj (hlt hu) (hlt hw) h.symm)) fun ha => ?_
    have := hrank _ _ ha
    have := hmax u hu
    omega
  have hmemS : ∀ x : Fin n, x ∈ ((s.U.filter (· ≠ w)).map (idx n)).toFinset ↔ ∃ u ∈ s.U, u ≠ w ∧ idx n u = x := by
    intro x
    rw [List.mem_toFinset, List.mem_map]
    simp only [List.mem_filter, decide_eq_true_eq, and_assoc]
  have hres := resid_sink (data := data) hg hT w (s.U.filter (· ≠ w)) (fun p hp => (hmemS p).2 ⟨p.val, hcl w hw p hp, fun h => ?_, Fin.ext (idx_val p.isLt)⟩) (fun x hx => by
    obtain ⟨u, hu, hne, rfl⟩ := (hmemS x).1 hx
    exact hTz u hu hne)
  swap
  · have : p = idx n w := Fin.ext (by rw [idx_val (hlt hw)]; exact h)
    exact hg.acyclic p (TransGen.single (by rw [← this] at hp; exact hp))
  have hrep : Rep data e fun v l => T l v := rep_of_generated hg hT
  have hpw : ∀ x ∈ s.U.filter (· ≠ w), (hsic (cen data x) (resid data w (s.U.filter (· ≠ w)))).2 = 1 := by
    intro x hx
    rw [hres, cen_comb hg.errors hrep]
    refine hi.accepts _ _ fun l => ?_
    by_cases hl : l = idx n w
    · subst hl
      rw [List.mem_filter, decide_eq_true_eq] at hx
      exact Or.inl (hTz x hx.1 hx.2)
    · exact Or.inr (if_neg hl)
  by_cases h3 : 3 ≤ s.U.length
  · obtain ⟨v, hv, hpk, hmin⟩ := pick_best (D := testData hsic tl htl alpha data) hI.nodupU h3
    refine ⟨v, ?_⟩
    rw [hpk]
    have h0 : fisherStat (testData hsic tl htl alpha data) s.U w = 0 := by
      refine foldl_zero _ _ fun x hx => ?_
      show (if _ then _ else _) = _
      rw [if_neg (by rw [hpw x hx]; exact one_ne_zero), hpw x hx]
      simp
    have h1 : fisherStat (testData hsic tl htl alpha data) s.U v = 0 := le_antisymm (by rw [← h0]; exact hmin w hw) (bot_le)
    unfold fisherP
    rw [h1]
    rw [show (testData hsic tl htl alpha data).tail (s.U.length - 1) 0 = 1 from hzero _]
  · -- two variables
    obtain ⟨a, b, hab⟩ := List.length_eq_two.1 (show s.U.length = 2 by omega)
    have hnab : a ≠ b := by
      have := hI.nodupU
      rw [hab] at this
      simpa using this
    have fa : ([a, b] : List Nat).filter (· ≠ a) = [b] := by simp [hnab.symm]
    have fb : ([a, b] : List Nat).filter (· ≠ b) = [a] := by simp [hnab]
    have val : ∀ x y, ∃ pa qa, (testData hsic tl htl alpha data).pair x [y] = (pa, qa) ∧
        ((pa = 1 ∧ ∃ c c', (∀ i : Fin n, c i = 0 ∨ c' i = 0) ∧ qa = (hsic (comb e c 0) (comb e c' 0)).1) ∨
          (pa = 0 ∧ ∃ c c', (∃ i : Fin n, c i ≠ 0 ∧ c' i ≠ 0) ∧ qa = (hsic (comb e c 0) (comb e c' 0)).1)) := by
      intro x y
      obtain ⟨β, hβ⟩ := resid_comb hg.errors hrep x [y]
      refine ⟨_, _, rfl, ?_⟩
      rw [hβ, cen_comb hg.errors hrep]
      generalize (fun l => T l (idx n x) - ∑ s ∈ (List.map (idx n) [y]).toFinset, β s * T l s) = c'
      generalize (fun l => T l (idx n (List.headD [y] 0))) = c
      by_cases hc : ∀ i, c i = 0 ∨ c' i = 0
      · exact Or.inl ⟨hi.accepts _ _ hc, c, c', hc, rfl⟩
      · push Not at hc
        exact Or.inr ⟨hi.detects _ _ hc, c, c', hc, rfl⟩
    obtain ⟨pa, qa, ea, ha⟩ := val a b
    obtain ⟨pb, qb, eb, hb⟩ := val b a
    have hone : pa = 1 ∨ pb = 1 := by
      rw [hab] at hw
      simp only [List.mem_cons, List.not_mem_nil, or_false] at hw
      rcases hw with rfl | rfl
      · left
        have := hpw b (by rw [hab, fa]; simp)
        rw [hab, fa] at this
        rw [← this]
        exact (congrArg Prod.fst ea).symm
      · right
        have := hpw a (by rw [hab, fb]; simp)
        rw [hab, fb] at this
        rw [← this]
        exact (congrArg Prod.fst eb).symm
    have hpick : pick (testData hsic tl htl alpha data) none s = some (if qb < qa ∨ pa < pb then (b, pb) else (a, pa)) := by
      unfold pick
      rw [show candidates none s.orders s.U = s.U from rfl, if_neg (by omega), hab]
      unfold findExo
      rw [List.foldl_cons, List.foldl_cons, List.foldl_nil]
      have s1 : exoStep (testData hsic tl htl alpha data) [a, b] none a = some (a, pa, qa) := by
        unfold exoStep
        rw [fa, fisher_one, ea]
        rfl
      rw [s1]
      unfold exoStep
      rw [fb, fisher_one, eb]
      by_cases hc : qb < qa ∨ pa < pb
      · rw [if_pos hc, if_pos (by simpa using hc)]
        rfl
      · rw [if_neg hc, if_neg (by simpa using hc)]
        rfl
    rw [hpick]
    by_cases hc : qb < qa ∨ pa < pb
    · rw [if_pos hc]
      refine ⟨b, ?_⟩
      rcases hb with ⟨hb, -⟩ | ⟨hb, c, c', hcc, hqb⟩
      · rw [hb]
      · rcases ha with ⟨ha, d, d', hdd, hqa⟩ | ⟨ha, -⟩
        · exfalso
          rcases hc with hc | hc
          · have := hi.stat d d' c c' hdd hcc
            rw [← hqa, ← hqb] at this
            exact absurd hc (not_lt.2 this)
          · rw [ha, hb] at hc; linarith
        · rw [ha, hb] at hone; norm_num at hone
    · rw [if_neg hc]
      refine ⟨a, ?_⟩
      rcases ha with ⟨ha, -⟩ | ⟨ha, -⟩
      · rw [ha]
      · exfalso
        rcases hone with h | h
        · rw [ha] at h; norm_num at h
        · exact hc (Or.inr (by rw [ha, h]; norm_num))

/-- **C198.** An acyclic linear model without hidden variables, an ideal independence test, `0 < alpha ≤ n - 1` and no prior knowledge: ParceLiNGAM orders all variables, and every
cause comes before its effects. -/
theorem C198_order {R : Type} [Zero R] (hg : Generated data b0 B e) (hi : IdealHsic e hsic) (htop : ∀ k, tl k ⊤ = 0) (hzero : ∀ k, tl k 0 = 1) (ha : 0 < alpha)
    (ha1 : alpha ≤ n - 1) (hn : 2 ≤ n) (coef : Nat → List Nat → Nat → R) : ∃ (r : Fitted ℝ R) (bot : List Nat), fit (testData hsic tl htl alpha data) coef n ⟨none, []⟩ = some r ∧
      r.order = bot.map .var ∧ bot.Perm (List.range n) ∧ ∀ p i : Fin n, B p i ≠ 0 → Before bot p i := by
  obtain ⟨T, hT⟩ := exists_total hg.acyclic
  have hn2 : (2 : ℝ) ≤ n := by exact_mod_cast hn
  have hthr : 0 < (testData hsic tl htl alpha data).thresh := div_pos ha (by linarith)
  have hthr1 : (testData hsic tl htl alpha data).thresh ≤ 1 := by
    show alpha / (n - 1) ≤ 1
    rw [div_le_one (by linarith)]; exact ha1
  obtain ⟨s, q, hq, hI, hP, he⟩ := search_ends (D := testData hsic tl htl alpha data) (aknw := none) (n := n)
    (P := fun s => (∀ u ∈ s.U, ∀ p : Fin n, B p (idx n u) ≠ 0 → p.val ∈ s.U) ∧ (s.K.map Prod.fst).Pairwise (fun u v => B (idx n v) (idx n u) = 0))
    (fun s m hs hI h2 hp ht => by
      have hm := (candidates_sub _ _ _).subset (pick_mem hp)
      have hlt : ∀ {u}, u ∈ s.U → u < n := fun hu => ((hI.mem _).1 hu).1
      have hk := placed_sink (o := id) hg hT Function.injective_id hi.detects htop hI h2 hp (hthr.trans_le ht)
      have hB : ∀ u ∈ s.U, u ≠ m.1 → B (idx n m.1) (idx n u) = 0 := by
        intro u hu hne
        have h1 := hk u (List.mem_filter.2 ⟨hu, by simpa using hne⟩)
        simp only [id] at h1
        rw [hT, if_neg fun h => hne (idx_inj (hlt hm) (hlt hu) h).symm, zero_add, sum_eq_single (idx n m.1), (total_zero hg.acyclic hT).1, mul_one] at h1
        · exact h1
        · intro p _ hpm
          by_cases hpu : B p (idx n u) = 0
          · rw [hpu, zero_mul]
          · have h3 := hs.1 u hu p hpu
            have h4 := hk p.val (List.mem_filter.2 ⟨h3, by
              simp only [decide_eq_true_eq]
              exact fun h => hpm (Fin.ext (by rw [idx_val (hlt hm)]; exact h))⟩)
            simp only [id] at h4
            rw [show idx n p.val = p from Fin.ext (idx_val p.isLt)] at h4
            rw [h4, mul_zero]
        · exact fun h => absurd (mem_univ _) h
      refine ⟨fun u hu p hpu => ?_, List.pairwise_cons.2 ⟨fun v hv => ?_, hs.2⟩⟩
      · obtain ⟨h1, h3⟩ := List.mem_filter.1 hu
        simp only [decide_eq_true_eq] at h3
        refine List.mem_filter.2 ⟨hs.1 u h1 p hpu, ?_⟩
        simp only [decide_eq_true_eq]
        intro h
        refine hpu ?_
        rw [show p = idx n m.1 from Fin.ext (by rw [idx_val (hlt hm)]; exact h)]
        exact hB u h1 h3
      · by_contra hc
        have h3 := hs.1 m.1 hm (idx n v) hc
        obtain ⟨w, hw, rfl⟩ := List.mem_map.1 hv
        have hwn := hI.lt w.1 hv
        rw [idx_val hwn] at h3
        exact ((hI.mem _).1 h3).2 hv) n ⟨[], List.range n, []⟩ (inv_init n []) (by simpa using hn) (by simp)
      ⟨fun u _ p _ => List.mem_range.2 p.isLt, by simp⟩
  obtain ⟨hnd, hlt, hlen⟩ := ended_final hI he
  rcases he with ⟨h2, -, hno⟩ | ⟨h1, rfl⟩
  · exfalso
    obtain ⟨v, hv⟩ := pick_found (htl := htl) (alpha := alpha) hg hT hi hzero hI h2 hP.1
    exact absurd (hno _ hv) (not_lt.2 hthr1)
  obtain ⟨u, hu⟩ := List.length_eq_one_iff.1 h1
  rw [hu] at hP hq hnd hlt hlen
  simp only [List.map_cons, List.map_nil, List.cons_append, List.nil_append] at hq hnd hlt hlen
  have hall : ∀ v, v < n → v ∈ u :: s.K.map Prod.fst := by
    intro v hv
    by_contra hc
    rw [List.mem_cons, not_or] at hc
    have := (hI.mem v).2 ⟨hv, hc.2⟩
    rw [hu, List.mem_singleton] at this
    exact hc.1 this
  have hunk : (List.range n).filter (· ∉ u :: s.K.map Prod.fst) = [] := by
    rw [List.filter_eq_nil_iff]
    intro v hv
    simp only [decide_eq_true_eq, not_not]
    exact hall v (List.mem_range.1 hv)
  have hpair : (u :: s.K.map Prod.fst).Pairwise (fun u v => B (idx n v) (idx n u) = 0) := by
    refine List.pairwise_cons.2 ⟨fun v hv => ?_, hP.2⟩
    by_contra hc
    have h3 := hP.1 u (by simp) (idx n v) hc
    rw [List.mem_singleton, idx_val (hI.lt v hv)] at h3
    subst h3
    exact (List.nodup_cons.1 hnd).1 hv
  refine ⟨⟨⟨none, s.orders⟩, causalOrder n (u :: s.K.map Prod.fst), 0 :: s.K.map Prod.snd, adjacency coef none (causalOrder n (u :: s.K.map Prod.fst))⟩, u :: s.K.map Prod.fst, ?_, ?_, ?_, ?_⟩
  · unfold fit
    rw [if_neg (by omega), hq]
    rfl
  · rw [order_shape n _ hlen, hunk, if_pos rfl, List.nil_append]
  · refine (List.perm_ext_iff_of_nodup hnd List.nodup_range).2 fun v => ?_
    rw [List.mem_range]
    exact ⟨fun h => hlt v h, hall v⟩
  · intro p i hpi
    have hne : p.val ≠ i.val := fun h => hg.acyclic p (TransGen.single (by rw [Fin.ext h] at hpi ⊢; exact hpi))
    rcases Rcd.pair_sublist_or (hall p p.isLt) (hall i i.isLt) hne with h | h
    · exact h
    · exfalso
      have := List.pairwise_pair.1 (hpair.sublist h)
      rw [show idx n p.val = p from Fin.ext (idx_val p.isLt), show idx n i.val = i from Fin.ext (idx_val i.isLt)] at this
      exact hpi this

end

/-! ### prior knowledge, concrete cases -/

theorem exists_hsic {e : Fin m → Fin N → ℝ} (he : Errors e) : ∃ hsic : (Fin N → ℝ) → (Fin N → ℝ) → ENNReal × ℝ, IdealHsic e hsic := by
  classical
  have key : ∀ a a' : Fin m → ℝ, (∃ b b', comb e a 0 = comb e b 0 ∧ comb e a' 0 = comb e b' 0 ∧ ∃ i, b i ≠ 0 ∧ b' i ≠ 0) ↔ ∃ i, a i ≠ 0 ∧ a' i ≠ 0 := by
    intro a a'
    constructor
    · rintro ⟨b, b', h1, h2, h⟩
      rw [comb_inj he h1, comb_inj he h2]
      exact h
    · exact fun h => ⟨a, a', rfl, rfl, h⟩
  have no : ∀ {a a' : Fin m → ℝ}, (∀ i, a i = 0 ∨ a' i = 0) → ¬ ∃ i, a i ≠ 0 ∧ a' i ≠ 0 := by
    rintro a a' h ⟨i, h1, h2⟩
    exact (h i).elim h1 h2
  refine ⟨fun u v => if ∃ b b', u = comb e b 0 ∧ v = comb e b' 0 ∧ ∃ i, b i ≠ 0 ∧ b' i ≠ 0 then (1, 0) else (0, 1), fun a a' h => ?_, fun a a' h => ?_, fun a a' b b' h h' => ?_⟩
  · rw [if_pos ((key a a').2 h)]
  · rw [if_neg fun h' => no h ((key a a').1 h')]
  · rw [if_neg fun h' => no h ((key a a').1 h')]
    exact bot_le

open Classical in
/-- a tail function: everything finite is accepted -/
noncomputable def crudeTail (_ : Nat) (x : ENNReal) : ℝ := if x = ⊤ then 0 else 1

theorem crudeTail_anti (k : Nat) (a b : ENNReal) (h : a ≤ b) : crudeTail k b ≤ crudeTail k a := by
  unfold crudeTail
  by_cases hb : b = ⊤
  · rw [if_pos hb]; split <;> norm_num
  · rw [if_neg hb, if_neg fun ha => hb (top_le_iff.1 (by rw [← ha]; exact h))]

/-- `x1 = x0 + e1`, `x2 = x0 + e2` -/
def forkB : Fin 3 → Fin 3 → ℤ := ![![0, 1, 1], ![0, 0, 0], ![0, 0, 0]]
def forkT : Fin 3 → Fin 3 → ℤ := ![![1, 1, 1], ![0, 1, 0], ![0, 0, 1]]

/-- A model to which C198 applies. -/
theorem C198_example : ∃ (data : Fin 6 → Fin 3 → ℝ) (e : Fin 3 → Fin 6 → ℝ) (hsic : (Fin 6 → ℝ) → (Fin 6 → ℝ) → ENNReal × ℝ),
    Generated data (fun _ => 0) (fun p i => (forkB p i : ℝ)) e ∧ IdealHsic e hsic ∧
    ∃ (r : Fitted ℝ ℝ) (bot : List Nat), fit (testData hsic crudeTail crudeTail_anti (1 / 10) data) (fun _ _ _ => 0) 3 ⟨none, []⟩ = some r ∧ r.order = bot.map .var ∧
      Before bot 0 1 ∧ Before bot 0 2 := by
  obtain ⟨hsic, hi⟩ := exists_hsic Rcd.exErr_three
  have hg := Rcd.generated_of Rcd.exErr_three (Rcd.acyclic_of_int (b := forkB) Fin.val (by decide)) (Rcd.totals_of_int (b := forkB) (t := forkT) (by decide))
  obtain ⟨r, bot, h1, h2, -, h3⟩ := C198_order (htl := crudeTail_anti) (alpha := 1 / 10) hg hi (fun _ => if_pos rfl) (fun _ => if_neg ENNReal.zero_ne_top) (by norm_num) (by norm_num) (by norm_num)
    (fun _ _ _ => (0 : ℝ))
  exact ⟨_, _, hsic, hg, hi, r, bot, h1, h2, h3 0 1 (by simp [forkB]), h3 0 2 (by simp [forkB])⟩

/-- A model with a hidden variable to which C199 applies (`x0 = h + e`, `x1 = h + e'`, `x2 = x1 + e''`). -/
theorem C199_example : ∃ (full : Fin 8 → Fin 4 → ℝ) (e : Fin 4 → Fin 8 → ℝ) (hsic : (Fin 8 → ℝ) → (Fin 8 → ℝ) → ENNReal × ℝ),
    Generated full (fun _ => 0) (fun p i => (Rcd.hidB p i : ℝ)) e ∧ Detects e hsic ∧
    ∃ (r : Fitted ℝ ℝ) (unk bot : List Nat), fit (testData hsic crudeTail crudeTail_anti (1 / 10) fun k (w : Fin 3) => full k w.succ) (fun _ _ _ => 0) 3 ⟨none, []⟩ = some r ∧
      r.order = (if unk = [] then [] else [.unknown unk]) ++ bot.map .var ∧ (1 ∈ bot → ¬ (2 ∈ unk ∨ Before bot 2 1)) := by
  obtain ⟨hsic, hi⟩ := exists_hsic Rcd.exErr_four
  have hT := Rcd.totals_of_int (b := Rcd.hidB) (t := Rcd.hidT) (by decide)
  have hg := Rcd.generated_of Rcd.exErr_four (Rcd.acyclic_of_int (b := Rcd.hidB) Fin.val (by decide)) hT
  obtain ⟨r, -, -, h, -⟩ := C89_fit (testData hsic crudeTail crudeTail_anti (1 / 10) fun k (w : Fin 3) => ∑ l, (Rcd.hidT l w.succ : ℝ) * ((Rcd.exErr 4 l k : ℤ) : ℝ)) (fun _ _ _ => (0 : ℝ))
    (n := 3) (by norm_num) ⟨none, []⟩
  obtain ⟨unk, bot, h1, -, h3⟩ := C199_hidden_sound hg hT (Fin.succ_injective 3) hi.detects (fun _ => if_pos rfl) (by norm_num : (0 : ℝ) < 1 / 10) (by norm_num) _ h
  refine ⟨_, _, hsic, hg, hi.detects, r, unk, bot, h, h1, fun hb hu => ?_⟩
  have := h3 1 hb 2 hu
  have h4 : Rcd.hidT (Fin.succ (idx 3 1)) (Fin.succ (idx 3 2)) = 1 := by decide
  rw [h4] at this
  norm_num at this

/-- **C200** (refuted). Correct prior knowledge makes ParceLiNGAM lose the order: for `x1 = x0 + e1`, `x2 = x0 + e2` it orders all variables with any level; told that `x0` has a path to `x1`,
which is true, it reports the order of all three variables as unknown (`x1` and `x2` are tested against each other without `x0`). -/
theorem C200_prior_violated : ∃ (data : Fin 6 → Fin 3 → ℝ) (e : Fin 3 → Fin 6 → ℝ) (hsic : (Fin 6 → ℝ) → (Fin 6 → ℝ) → ENNReal × ℝ) (o : Obj),
    Generated data (fun _ => 0) (fun p i => (forkB p i : ℝ)) e ∧ IdealHsic e hsic ∧ mkObj 3 (some pk01) = some o ∧ Anc (fun p i => (forkB p i : ℝ)) 0 1 ∧
    ∀ alpha : ℝ, 0 < alpha → alpha ≤ 2 → ∀ coef : Nat → List Nat → Nat → ℝ, ∃ (r r' : Fitted ℝ ℝ) (bot : List Nat),
      fit (testData hsic crudeTail crudeTail_anti alpha data) coef 3 ⟨none, []⟩ = some r ∧ r.order = bot.map .var ∧
      fit (testData hsic crudeTail crudeTail_anti alpha data) coef 3 o = some r' ∧ r'.order = [.unknown [0, 1, 2]] := by
  obtain ⟨hsic, hi⟩ := exists_hsic Rcd.exErr_three
  have hT := Rcd.totals_of_int (b := forkB) (t := forkT) (by decide)
  have hg := Rcd.generated_of Rcd.exErr_three (Rcd.acyclic_of_int (b := forkB) Fin.val (by decide)) hT
  refine ⟨_, _, hsic, ⟨some pk01, [(0, 1)]⟩, hg, hi, by rfl, TransGen.single (by simp [forkB]), fun alpha ha ha2 coef => ?_⟩
  obtain ⟨r, bot, h1, h2, -, -⟩ := C198_order (htl := crudeTail_anti) (alpha := alpha) hg hi (fun _ => if_pos rfl) (fun _ => if_neg ENNReal.zero_ne_top) ha
    (by norm_num; exact ha2) (by norm_num) coef
  have hrep : Rep _ _ fun (v : Fin 3) l => (forkT l v : ℝ) := rep_of_generated hg hT
  set D := testData hsic crudeTail crudeTail_anti alpha fun k (i : Fin 3) => ∑ l, (forkT l i : ℝ) * ((Rcd.exErr 3 l k : ℤ) : ℝ) with hD
  have hthr : 0 < D.thresh := by
    show 0 < alpha / (((3 : Nat) : ℝ) - 1)
    exact div_pos ha (by norm_num)
  have hdep : ∀ x y : Nat, (x = 1 ∧ y = 2) ∨ (x = 2 ∧ y = 1) → (D.pair x [y]).1 = 0 := by
    intro x y hxy
    obtain ⟨β, hβ⟩ := resid_comb Rcd.exErr_three hrep x [y]
    show (hsic (cen _ y) (resid _ x [y])).2 = 0
    rw [hβ, cen_comb Rcd.exErr_three hrep]
    refine hi.detects _ _ ?_
    simp only [List.map_cons, List.map_nil, List.toFinset_cons, List.toFinset_nil, insert_empty_eq, sum_singleton]
    by_cases hb : β (idx 3 y) = 0
    · refine ⟨0, ?_⟩
      rw [hb]
      rcases hxy with ⟨rfl, rfl⟩ | ⟨rfl, rfl⟩
      · rw [show forkT 0 (idx 3 2) = 1 from by decide, show forkT 0 (idx 3 1) = 1 from by decide]; norm_num
      · rw [show forkT 0 (idx 3 2) = 1 from by decide, show forkT 0 (idx 3 1) = 1 from by decide]; norm_num
    · rcases hxy with ⟨rfl, rfl⟩ | ⟨rfl, rfl⟩
      · refine ⟨2, ?_⟩
        rw [show forkT 2 (idx 3 2) = 1 from by decide, show forkT 2 (idx 3 1) = 0 from by decide]
        simpa using hb
      · refine ⟨1, ?_⟩
        rw [show forkT 1 (idx 3 1) = 1 from by decide, show forkT 1 (idx 3 2) = 0 from by decide]
        simpa using hb
  have hpick : ∀ v, pick D (some pk01) ⟨[(0, 1)], [0, 1, 2], []⟩ = some v → v.2 = 0 := by
    intro v hv
    have hc : candidates (some pk01) [(0, 1)] [0, 1, 2] = [1, 2] := by decide
    unfold pick at hv
    simp only [hc] at hv
    rw [if_neg (by decide)] at hv
    unfold findExo at hv
    rw [Option.map_eq_some_iff] at hv
    obtain ⟨b, g1, g2⟩ := hv
    obtain ⟨cap, g3⟩ := exo_val [1, 2] [1, 2] none (fun b hb => by cases hb) b g1
    rw [← g2, g3]
    rcases exo_mem _ _ _ _ g1 with g4 | g4
    · simp only [List.mem_cons, List.not_mem_nil, or_false] at g4
      rcases g4 with g4 | g4
      · rw [g4, show ([1, 2] : List Nat).filter (· ≠ 1) = [2] from by decide, fisher_one]
        exact hdep 1 2 (Or.inl ⟨rfl, rfl⟩)
      · rw [g4, show ([1, 2] : List Nat).filter (· ≠ 2) = [1] from by decide, fisher_one]
        exact hdep 2 1 (Or.inr ⟨rfl, rfl⟩)
    · cases g4
  have hloop : searchLoop D (some pk01) 3 ⟨[(0, 1)], List.range 3, []⟩ = some ⟨[(0, 1)], [0, 1, 2], []⟩ := by
    rw [show List.range 3 = [0, 1, 2] from by decide, searchLoop]
    cases hp : pick D (some pk01) ⟨[(0, 1)], [0, 1, 2], []⟩ with
    | none => rfl
    | some v =>
      rw [Option.elim_some, hpick v hp, if_neg (not_le.2 hthr)]
  have hfit : ∃ r', fit D coef 3 ⟨some pk01, [(0, 1)]⟩ = some r' ∧ r'.order = [.unknown [0, 1, 2]] := by
    unfold fit
    rw [if_neg (by norm_num), hloop]
    exact ⟨_, rfl, by show causalOrder 3 [] = _; decide⟩
  obtain ⟨r', h3, h4⟩ := hfit
  exact ⟨r, r', bot, h1, h2, h3, h4⟩

end Parce
end CL
