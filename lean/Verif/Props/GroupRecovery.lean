import Verif.Props.DirectRecoveryPw

/-!
# C210: MultiGroupDirectLiNGAM with ideal entropies
-/
namespace CL.Lingam
open Spec Filter Topology
variable {p G : Nat}

/-- `groupScore` with the differences of mutual informations `d` (one for every group) in place of `diffMI` (`multi_group_direct_lingam.py:246-266`). -/
noncomputable def diffGroupScore (Xs : Fin G → Group) (d : ∀ g, Col (Xs g).n → Col (Xs g).n → Col (Xs g).n → Col (Xs g).n → ℝ) (p : Nat) (M : Model)
    (K U : List Nat) (i : Nat) : ℝ :=
  -1 * (List.ofFn fun g => ((U.filter (· ≠ i)).map
    (idealTerm (d g) (searchCandidate M U) (searchVj M U) (stage (Xs g).col (List.range p) K) i)).sum * (((Xs g).n : ℝ) / (totalSize (List.ofFn Xs) : ℝ))).sum

/-- `fit(X_list)` with the differences of mutual informations `d`. -/
noncomputable def diffGroupOrder (Xs : Fin G → Group) (d : ∀ g, Col (Xs g).n → Col (Xs g).n → Col (Xs g).n → Col (Xs g).n → ℝ) (p : Nat) (M : Model) :
    Option (Model × List Nat) :=
  if G < 2 then none else fitOrder (diffGroupScore Xs d p M) p M

/-- With the entropies of the code this is the order of the code. -/
theorem C210_is_groupOrder (p : Nat) (M : Model) (Xs : Fin G → Group) :
    diffGroupOrder Xs (fun _ => diffMI) p M = groupOrder p M (List.ofFn Xs) := by
  unfold diffGroupOrder groupOrder
  rw [List.length_ofFn]
  have : diffGroupScore Xs (fun _ => diffMI) p M = groupScore p M (List.ofFn Xs) := by
    funext K U i
    have ht : totalSize ((List.ofFn Xs).map (stageGroup p K)) = totalSize (List.ofFn Xs) := by
      unfold totalSize; rw [List.map_map]; rfl
    unfold diffGroupScore groupScore groupSum
    rw [ht, List.map_map, List.map_ofFn]
    rfl
  rw [this]

/-- `c N / (c N - 1)` as a function of `N / (N - 1)` -/
noncomputable def ratioOf (c : ℕ) (r : ℝ) : ℝ := 1 / (1 - 1 / (c : ℝ) * ((r - 1) / r))

theorem ratioOf_one (c : ℕ) : ratioOf c 1 = 1 := by unfold ratioOf; norm_num

theorem ratioOf_cont (c : ℕ) : ContinuousAt (ratioOf c) 1 := by
  unfold ratioOf
  refine continuousAt_const.div (continuousAt_const.sub (continuousAt_const.mul ?_)) (by norm_num)
  exact (continuousAt_id.sub continuousAt_const).div continuousAt_id one_ne_zero

theorem ratioOf_eq {c N : ℕ} (hc : 0 < c) (hN : 2 ≤ N) : ratioOf c ((N : ℝ) / ((N : ℝ) - 1)) = ((c * N : ℕ) : ℝ) / (((c * N : ℕ) : ℝ) - 1) := by
  have h1 : (2 : ℝ) ≤ N := by exact_mod_cast hN
  have h2 : (1 : ℝ) ≤ c := by exact_mod_cast hc
  have h3 : (N : ℝ) - 1 ≠ 0 := by linarith
  have h4 : (N : ℝ) ≠ 0 := by linarith
  have h5 : (c : ℝ) ≠ 0 := by linarith
  have h6 : (c : ℝ) * N - 1 ≠ 0 := by nlinarith
  have h7 : ((N : ℝ) / ((N : ℝ) - 1) - 1) / ((N : ℝ) / ((N : ℝ) - 1)) = 1 / N := by field_simp; ring
  unfold ratioOf
  rw [h7]
  have h8 : 1 - 1 / (c : ℝ) * (1 / (N : ℝ)) = ((c : ℝ) * N - 1) / (c * N) := by field_simp
  rw [h8]
  push_cast
  rw [one_div, inv_div]

/-- `K` contains the causes of its members before them, in every group -/
theorem CausalPrefix.group {B : Fin G → Fin p → Fin p → ℝ} {U : Fin p → Fin p → ℝ} (hU : ∀ q i, U q i ≠ 0 ↔ ∃ g, B g q i ≠ 0) {K : List Nat}
    (h : CausalPrefix U K) (g : Fin G) : CausalPrefix (B g) K :=
  fun K1 m K2 e i q hi hb => h K1 m K2 e i q hi ((hU q i).2 ⟨g, hb⟩)

/-- **C210**: several groups (at least two) of data, each from its own linear model with independent errors; the groups may have different coefficients, different
edges and different numbers of samples (`w g * N`), but together their edges have no cycle. In no group a cause has total effect zero, and the estimates of the
differences of mutual informations are ideal. Then from some `N` on (which depends on the models and the measures only, not on the data), `MultiGroupDirectLiNGAM`
without prior knowledge returns one order in which every cause of every group precedes its effects. -/
theorem C210_large_samples (hG : 2 ≤ G) (w : Fin G → ℕ) (hw : ∀ g, 0 < w g) {B T : Fin G → Fin p → Fin p → ℝ} (hac : Acyclic fun q i => ∃ g, B g q i ≠ 0)
    (hT : ∀ g, TotalEffects (B g) (T g)) (hf : ∀ g q i, Anc (B g) q i → T g q i ≠ 0) {s : Fin G → Fin p → ℝ} (hs : ∀ g i, 0 < s g i)
    {F : Fin G → (Fin p → ℝ) → (Fin p → ℝ) → ℝ} (hF : ∀ g, IdealInfo (F g)) :
    ∃ N0, ∀ N ≥ N0, ∀ (X : (g : Fin G) → Nat → Fin (w g * N) → ℝ) (b0 : Fin G → Fin p → ℝ) (e : (g : Fin G) → Fin p → Fin (w g * N) → ℝ)
      (d : (g : Fin G) → (Fin (w g * N) → ℝ) → (Fin (w g * N) → ℝ) → (Fin (w g * N) → ℝ) → (Fin (w g * N) → ℝ) → ℝ) (M : Model), M.aknw = none →
      (∀ g, Generated (fun k (i : Fin p) => X g i k) (b0 g) (B g) (e g)) → (∀ g i, ∑ k, e g i k ^ 2 = ((w g * N : ℕ) : ℝ) * s g i) →
      (∀ g a b a' b' c1 c2 c3 c4, d g (comb (e g) a c1) (comb (e g) b c2) (comb (e g) a' c3) (comb (e g) b' c4) = F g b a' - F g a b') →
        ∃ M' K, diffGroupOrder (fun g => ⟨w g * N, X g⟩) d p M = some (M', K) ∧ K.Perm (List.range p) ∧
          ∀ g, ∀ q i : Fin p, B g q i ≠ 0 → Before K q i := by
  classical
  set U : Fin p → Fin p → ℝ := fun q i => if ∃ g, B g q i ≠ 0 then 1 else 0 with hUdef
  have hU : ∀ q i, U q i ≠ 0 ↔ ∃ g, B g q i ≠ 0 := fun q i => by
    rw [hUdef]; show (if _ then (1 : ℝ) else 0) ≠ 0 ↔ _
    split
    · next h => exact ⟨fun _ => h, fun _ => one_ne_zero⟩
    · next h => exact ⟨fun h' => absurd rfl h', fun h' => absurd h' h⟩
  have hacU : Acyclic fun q i => U q i ≠ 0 := by
    have : (fun q i => U q i ≠ 0) = fun q i => ∃ g, B g q i ≠ 0 := by funext q i; exact propext (hU q i)
    rw [this]; exact hac
  have hacg : ∀ g, Acyclic fun q i => B g q i ≠ 0 := by
    intro g i h
    exact hac i (Relation.TransGen.mono (fun q i h => ⟨g, h⟩) _ _ h)
  set W : Fin G → ℝ := fun g => (w g : ℝ) / ((∑ g, w g : ℕ) : ℝ) with hW
  have hsumpos : 0 < ∑ g, w g := Finset.sum_pos (fun g _ => hw g) ⟨⟨0, by omega⟩, Finset.mem_univ _⟩
  have hWpos : ∀ g, 0 < W g := fun g => div_pos (by exact_mod_cast hw g) (by exact_mod_cast hsumpos)
  have hev := eventually_causal hacU (fun r K j => ∑ g, diffG (F g) (s g) (T g) (ratioOf (w g) r) K j * W g) ?_ ?_ ?_
  · obtain ⟨N0, hN0⟩ := Filter.eventually_atTop.1 ((ratio_tendsto.eventually hev).and (Filter.eventually_ge_atTop 2))
    refine ⟨N0, fun N hN X b0 e d M hM hg hes hd => ?_⟩
    obtain ⟨hcausal, hN2⟩ := hN0 N hN
    unfold diffGroupOrder
    rw [if_neg (by omega)]
    have hsc : ∀ (K V : List Nat) (i : Nat), (∀ m ∈ K, m < p) → V.Perm ((List.range p).filter (· ∉ K)) → i < p →
        diffGroupScore (fun g => ⟨w g * N, X g⟩) d p M K V i = -∑ g, diffG (F g) (s g) (T g) (ratioOf (w g) (N / ((N : ℝ) - 1))) K i * W g := by
      intro K V i hK hV hi
      have hNpos : 0 < N := by omega
      have htot : (totalSize (List.ofFn fun g => (⟨w g * N, X g⟩ : Group)) : ℝ) = ((∑ g, w g : ℕ) : ℝ) * N := by
        unfold totalSize
        rw [List.map_ofFn, List.sum_ofFn]
        simp only [Function.comp]
        rw [← Finset.sum_mul]
        push_cast
        ring
      unfold diffGroupScore
      rw [htot, List.sum_ofFn, neg_one_mul, neg_inj]
      refine Finset.sum_congr rfl fun g _ => ?_
      have hwN : w g * N ≠ 0 := Nat.mul_ne_zero (hw g).ne' (by omega)
      have key := diffScore_eq (X := X g) (d := d g) (F := F g) hM (hg g) (hT g) (hes g) hwN (hd g) hK hV hi
      unfold diffScore at key
      rw [neg_one_mul, neg_inj] at key
      show _ * (((w g * N : ℕ) : ℝ) / _) = _
      rw [key, ratioOf_eq (hw g) hN2]
      congr 1
      rw [hW]
      have h1 : (N : ℝ) ≠ 0 := by exact_mod_cast hNpos.ne'
      have h2 : ((∑ g, w g : ℕ) : ℝ) ≠ 0 := by exact_mod_cast hsumpos.ne'
      push_cast at h2 ⊢
      field_simp
    obtain ⟨M', K, h1, h2, h3⟩ := order_of_scores (B := U) (score := diffGroupScore (fun g => ⟨w g * N, X g⟩) d p M) hM
      (fun K j => ∑ g, diffG (F g) (s g) (T g) (ratioOf (w g) (N / ((N : ℝ) - 1))) K j * W g) hsc hcausal
    exact ⟨M', K, h1, h2, fun g q i hb => h3 q i ((hU q i).2 ⟨g, hb⟩)⟩
  · intro K hn hK hc j hj hjK
    refine tendsto_finsetSum _ fun g _ => ContinuousAt.mul ?_ continuousAt_const
    have h := diffG_cont (hF g) (hacg g) (hT g) (hs g) K hn hK (hc.group hU g) j hj hjK
    exact ContinuousAt.comp_of_eq (g := fun r => diffG (F g) (s g) (T g) r K j) (f := ratioOf (w g)) h (ratioOf_cont (w g)) (ratioOf_one _)
  · intro K hn hK hc j hjK hp
    refine Finset.sum_eq_zero fun g _ => ?_
    rw [ratioOf_one, diffG_zero (hF g) (hacg g) (hT g) (hs g) K hn hK (hc.group hU g) j hjK fun q hq => hp q ((hU q j).2 ⟨g, hq⟩), zero_mul]
  · rintro K hn hK hc j hjK ⟨q, hq, hqK⟩
    obtain ⟨g, hgq⟩ := (hU q j).1 hq
    refine Finset.sum_pos' (fun g' _ => ?_) ⟨g, Finset.mem_univ _, ?_⟩
    · refine mul_nonneg ?_ (hWpos g').le
      unfold diffG
      refine List.sum_nonneg fun x hx => ?_
      obtain ⟨_, -, rfl⟩ := List.mem_map.1 hx
      exact sq_nonneg _
    · rw [ratioOf_one]
      exact mul_pos (diffG_pos (hF g) (hacg g) (hT g) (hf g) (hs g) K hn hK (hc.group hU g) j hjK ⟨q, hgq, hqK⟩) (hWpos g)

/-- Two groups with different edges and a common order: `0 → 1` in the first, `1 → 2` in the second. -/
example : ∃ B T : Fin 2 → Fin 3 → Fin 3 → ℝ, (Acyclic fun q i => ∃ g, B g q i ≠ 0) ∧ (∀ g, TotalEffects (B g) (T g)) ∧ (∀ g q i, Anc (B g) q i → T g q i ≠ 0) ∧
    B 0 0 1 ≠ 0 ∧ B 1 0 1 = 0 ∧ B 1 1 2 ≠ 0 ∧ B 0 1 2 = 0 := by
  have hB : ∀ (g : Fin 2) (q i : Fin 3), (if q.val = g.val ∧ i.val = g.val + 1 then (1 : ℝ) else 0) ≠ 0 ↔ q.val = g.val ∧ i.val = g.val + 1 := fun g q i => by
    split <;> simp_all
  refine ⟨fun g q i => if q.val = g.val ∧ i.val = g.val + 1 then 1 else 0, fun g q i => if q = i ∨ (q.val = g.val ∧ i.val = g.val + 1) then 1 else 0, ?_, ?_, ?_,
    by simp, by simp, by simp, by simp⟩
  · refine Spec.acyclic_of_rank (ρ := fun i : Fin 3 => i.val) ?_
    rintro q i ⟨g, h⟩
    have := (hB g q i).1 h
    omega
  · intro g j i
    simp only [Fin.sum_univ_three]
    fin_cases g <;> fin_cases j <;> fin_cases i <;> norm_num
  · intro g q i h
    have : q.val = g.val ∧ i.val = g.val + 1 := by
      unfold Anc at h
      induction h with
      | single h => exact (hB _ _ _).1 h
      | tail _ h ih => have := (hB _ _ _).1 h; omega
    show (if _ then (1 : ℝ) else 0) ≠ 0
    rw [if_pos (Or.inr this)]
    exact one_ne_zero

end CL.Lingam
