import Verif.Props.GinDriver

/-!
# C205: which clusters `GIN` can find when a residual is never independent of its own variables
-/
namespace CL.GIN

variable {E P : Type}

/-- A combined test of the residual of `X` is rejected as soon as one of the tested columns is a member of `X` (the residual
is a linear combination of the columns `X`, so it depends on them). `T` is the list of tested columns. -/
def SelfReject (O : Oracle E P) : Prop :=
  ∀ X Z T : List Nat, (∃ z ∈ T, z ∈ X) → O.geAlpha (T.map fun z => O.pval z (O.resid X Z)) = false

/-- `c` consists of `c.length` consecutive columns, the first of which is `a`. -/
def IsBlock (a : Nat) (c : List Nat) : Prop := c.Nodup ∧ ∀ x, x ∈ c ↔ a ≤ x ∧ x < a + c.length

theorem block_len {a k : Nat} {c : List Nat} (hn : c.Nodup) (h : ∀ x, x ∈ c ↔ a ≤ x ∧ x < a + k) : c.length = k := by
  have hp : c.Perm (List.range' a k) := by
    refine (List.perm_ext_iff_of_nodup hn List.nodup_range').2 fun x => ?_
    rw [h, List.mem_range'_1]
  rw [hp.length_eq, List.length_range']

theorem accepted_block {O : Oracle E P} (hO : SelfReject O) {ord : List Nat → List Nat} (ho : IsOrd ord) {m k : Nat}
    {vs c : List Nat} (hv : vs.Perm (List.range m)) (hk : k ≤ m) (hc : c ∈ accepted O ord vs k) :
    ∀ x, x ∈ c ↔ m - k ≤ x ∧ x < m := by
  obtain ⟨h1, h2, h3⟩ := mem_accepted.1 hc
  have hvn : vs.Nodup := hv.nodup_iff.2 List.nodup_range
  have hcn : c.Nodup := hvn.sublist h1
  have hlen : (ord (vs.filter fun v => decide (v ∉ c))).length = m - k := by
    rw [(ho _).length_eq]
    have := (filter_append_perm vs c hvn hcn h1.subset).length_eq
    rw [List.length_append, hv.length_eq, List.length_range] at this
    omega
  have hge : ∀ x ∈ c, m - k ≤ x := by
    intro x hx
    by_contra hlt
    have := hO c (ord (vs.filter fun v => decide (v ∉ c))) (List.range (m - k)) ⟨x, List.mem_range.2 (by omega), hx⟩
    unfold pvals at h3
    rw [hlen, this] at h3
    exact absurd h3 (by simp)
  have hsub : ∀ x ∈ c, x ∈ List.range' (m - k) k := by
    intro x hx
    have : x < m := List.mem_range.1 (hv.mem_iff.1 (h1.subset hx))
    rw [List.mem_range'_1]; exact ⟨hge x hx, by omega⟩
  have hp : c.Perm (List.range' (m - k) k) :=
    (List.subperm_of_subset hcn hsub).perm_of_length_le (by rw [List.length_range', h2])
  intro x
  rw [hp.mem_iff, List.mem_range'_1]
  omega

theorem merged_block {O : Oracle E P} (hO : SelfReject O) {ord : List Nat → List Nat} (ho : IsOrd ord) {m k : Nat}
    (hk : 2 ≤ k) (hkm : k ≤ m) {vs : List Nat} (hv : vs.Perm (List.range m)) :
    merged ord (accepted O ord vs k) = [] ∨
      ∃ c, merged ord (accepted O ord vs k) = [c] ∧ c.length = k ∧ IsBlock (m - k) c := by
  have hne : ∀ c ∈ accepted O ord vs k, c ≠ [] := by
    rintro c hc rfl
    have := (mem_accepted.1 hc).2.1
    simp at this; omega
  obtain ⟨h1, h2, -, h4⟩ := merged_spec ho _ hne
  have hall : ∀ c ∈ merged ord (accepted O ord vs k), ∀ x, x ∈ c ↔ m - k ≤ x ∧ x < m := by
    intro c hc x
    constructor
    · intro hx
      obtain ⟨d, hd, hxd, -⟩ := merged_contains ho _ hne hc hx
      exact (accepted_block hO ho hv hkm hd x).1 hxd
    · intro hx
      obtain ⟨y, hy⟩ := List.exists_mem_of_ne_nil _ (h4 c hc)
      obtain ⟨d, hd, -, hdc⟩ := merged_contains ho _ hne hc hy
      exact hdc x ((accepted_block hO ho hv hkm hd x).2 hx)
  cases hM : merged ord (accepted O ord vs k) with
  | nil => exact Or.inl rfl
  | cons c l =>
    rw [hM] at h1 hall
    right
    have hcn : c.Nodup := nodup_of_mem_flatten h1 (by simp)
    have hlen : c.length = k := block_len (a := m - k) hcn fun x => by rw [hall c (by simp) x]; omega
    cases l with
    | nil =>
      refine ⟨c, rfl, hlen, hcn, fun x => ?_⟩
      rw [hall c (by simp) x, hlen]; omega
    | cons d l =>
      exfalso
      have hx : m - k ∈ c := (hall c (by simp) _).2 ⟨le_refl _, by omega⟩
      have hy : m - k ∈ d := (hall d (by simp) _).2 ⟨le_refl _, by omega⟩
      rw [List.flatten_cons, List.nodup_append] at h1
      exact h1.2.2 _ hx _ (by simp [hy]) rfl

/-- What the clusters found so far look like while the variables `0, …, m-1` are left and size `k` is next. -/
structure BInv (k m : Nat) (vs : List Nat) (cs : List (List Nat)) : Prop where
  vars : vs.Perm (List.range m)
  block : ∀ c ∈ cs, ∃ a, m ≤ a ∧ IsBlock a c
  small : ∀ c ∈ cs, c.length < k
  desc : cs.Pairwise fun c d => c.length < d.length ∧ ∀ x ∈ c, ∀ y ∈ d, y < x

theorem round_block {O : Oracle E P} (hO : SelfReject O) {ord : List Nat → List Nat} (ho : IsOrd ord) {m k : Nat}
    (hk : 2 ≤ k) (hkm : k ≤ m) {vs : List Nat} {cs : List (List Nat)} (hi : BInv k m vs cs) :
    ∃ m', BInv (k + 1) m' (dropVars vs (merged ord (accepted O ord vs k))) (cs ++ merged ord (accepted O ord vs k)) := by
  rcases merged_block hO ho hk hkm hi.vars with h | ⟨c, h, hlen, hb⟩
  · rw [h, List.append_nil]
    refine ⟨m, ⟨?_, hi.block, fun c hc => Nat.lt_succ_of_lt (hi.small c hc), hi.desc⟩⟩
    unfold dropVars
    simpa using hi.vars
  · rw [h]
    refine ⟨m - k, ⟨?_, ?_, ?_, ?_⟩⟩
    · unfold dropVars
      refine (List.perm_ext_iff_of_nodup ((hi.vars.nodup_iff.2 List.nodup_range).filter _) List.nodup_range).2 fun x => ?_
      rw [List.mem_filter, hi.vars.mem_iff, List.mem_range, List.mem_range, decide_eq_true_iff]
      simp only [List.flatten_cons, List.flatten_nil, List.append_nil]
      rw [hb.2 x]
      omega
    · intro d hd
      rcases List.mem_append.1 hd with hd | hd
      · obtain ⟨a, h1, h2⟩ := hi.block d hd
        exact ⟨a, by omega, h2⟩
      · rw [List.mem_singleton] at hd
        subst hd
        exact ⟨m - k, le_refl _, hb⟩
    · intro d hd
      rcases List.mem_append.1 hd with hd | hd
      · exact Nat.lt_succ_of_lt (hi.small d hd)
      · rw [List.mem_singleton] at hd
        subst hd; omega
    · rw [List.pairwise_append]
      refine ⟨hi.desc, List.pairwise_singleton _ _, ?_⟩
      intro d hd e he
      rw [List.mem_singleton] at he
      subst he
      refine ⟨by have := hi.small d hd; omega, fun x hx y hy => ?_⟩
      obtain ⟨a, h1, h2⟩ := hi.block d hd
      have h3 := (h2.2 x).1 hx
      have h4 := (hb.2 y).1 hy
      omega

theorem clusterLoop_block {O : Oracle E P} (hO : SelfReject O) {ord : List Nat → List Nat} (ho : IsOrd ord) (fuel : Nat) :
    ∀ k m vs cs r, 2 ≤ k → BInv k m vs cs → clusterLoop O ord fuel k vs cs = some r → ∃ k' m', BInv k' m' r.1 r.2 := by
  induction fuel with
  | zero =>
    intro k m vs cs r hk hi h
    unfold clusterLoop at h
    split at h
    · cases h
    · cases h; exact ⟨k, m, hi⟩
  | succ fuel ih =>
    intro k m vs cs r hk hi h
    unfold clusterLoop at h
    split at h
    · rename_i hlt
      rw [hi.vars.length_eq, List.length_range] at hlt
      obtain ⟨m', hi'⟩ := round_block hO ho hk hlt.le hi
      exact ih _ _ _ _ _ (by omega) hi' h
    · cases h; exact ⟨k, m, hi⟩

/-- **C205**: whatever the data, when a residual is never judged independent of its own columns, the left-over variables
of `GIN` are the first columns `0, …, m-1`, every cluster is a block of consecutive columns, and of two clusters the one
further right is strictly smaller. -/
theorem C205_clusters_are_blocks (O : Oracle E P) (hO : SelfReject O) (ord : List Nat → List Nat) (ho : IsOrd ord) (n : Nat) :
    ∃ r m, gin O ord n = some r ∧ r.vars.Perm (List.range m) ∧
      (∀ c ∈ r.order ++ r.rest, c.Nodup ∧ ∃ a, ∀ x, x ∈ c ↔ a ≤ x ∧ x < a + c.length) ∧
      (∀ c ∈ r.order ++ r.rest, ∀ d ∈ r.order ++ r.rest, c ≠ d →
        (c.length < d.length ∧ ∀ x ∈ c, ∀ y ∈ d, y < x) ∨ (d.length < c.length ∧ ∀ x ∈ c, ∀ y ∈ d, x < y)) := by
  obtain ⟨⟨vs, cs⟩, h1, hi⟩ := clusterLoop_spec (O := O) ho (n := n) n 2 (ord (List.range n)) [] (le_refl _)
    ⟨by simpa using ho _, by simp, by simp⟩ (by rw [(ho _).length_eq]; simp)
  have hnd : (vs ++ cs.flatten).Nodup := hi.perm.nodup_iff.2 List.nodup_range
  obtain ⟨o, rest, g1, g2, -, -⟩ := orderLoop_spec (O := O) (cs.length + 1) [] cs
    (clusters_nodup (List.nodup_append.1 hnd).2.1 hi.size) (by omega)
  obtain ⟨k, m, hB⟩ := clusterLoop_block hO ho n 2 n _ [] _ (le_refl _)
    ⟨ho _, by simp, by simp, List.Pairwise.nil⟩ h1
  refine ⟨⟨vs, o, rest, ginGraph vs o rest⟩, m, ?_, hB.vars, ?_, ?_⟩
  · unfold gin
    rw [h1, Option.bind_some, g1]; simp
  · intro c hc
    obtain ⟨a, -, h⟩ := hB.block c (g2.mem_iff.1 hc)
    exact ⟨h.1, a, h.2⟩
  · intro c hc d hd hne
    have hc' := g2.mem_iff.1 hc
    have hd' := g2.mem_iff.1 hd
    have hpw := hB.desc
    rw [List.pairwise_iff_getElem] at hpw
    obtain ⟨i, hi', rfl⟩ := List.getElem_of_mem hc'
    obtain ⟨j, hj', rfl⟩ := List.getElem_of_mem hd'
    rcases Nat.lt_trichotomy i j with h | h | h
    · exact Or.inl (hpw i j hi' hj' h)
    · subst h; exact absurd rfl hne
    · obtain ⟨h1, h2⟩ := hpw j i hj' hi' h
      exact Or.inr ⟨h1, fun x hx y hy => h2 y hy x hx⟩

/-- **C205 violated (two latents with equally many indicators).** However the columns are arranged and whatever the data,
no run of `GIN` reports two different clusters `A` and `B` of the same size. -/
theorem C205_equal_sizes_violated (O : Oracle E P) (hO : SelfReject O) (ord : List Nat → List Nat) (ho : IsOrd ord) (n : Nat)
    (A B : List Nat) (hA : A.Nodup) (hB : B.Nodup) (hAB : A.length = B.length) (hne : ∃ x ∈ A, x ∉ B) :
    ∃ r, gin O ord n = some r ∧
      ¬ ((∃ c ∈ r.order ++ r.rest, ∀ x, x ∈ c ↔ x ∈ A) ∧ (∃ d ∈ r.order ++ r.rest, ∀ x, x ∈ d ↔ x ∈ B)) := by
  obtain ⟨r, m, h1, -, h3, h4⟩ := C205_clusters_are_blocks O hO ord ho n
  refine ⟨r, h1, ?_⟩
  rintro ⟨⟨c, hc, ec⟩, d, hd, ed⟩
  have lc : c.length = A.length := ((List.perm_ext_iff_of_nodup (h3 c hc).1 hA).2 ec).length_eq
  have ld : d.length = B.length := ((List.perm_ext_iff_of_nodup (h3 d hd).1 hB).2 ed).length_eq
  obtain ⟨x, hx, hx'⟩ := hne
  have hcd : c ≠ d := by
    rintro rfl
    exact hx' ((ed x).1 ((ec x).2 hx))
  rcases h4 c hc d hd hcd with h | h <;> omega

/-- **C205 violated (a cluster that is not a block).** If the indicators `A` of a latent are not consecutive columns, `A` is
never reported, for instance when the indicators of two latents alternate. -/
theorem C205_interleaved_violated (O : Oracle E P) (hO : SelfReject O) (ord : List Nat → List Nat) (ho : IsOrd ord) (n : Nat)
    (A : List Nat) (x y z : Nat) (hx : x ∈ A) (hz : z ∈ A) (hy : y ∉ A) (hxy : x < y) (hyz : y < z) :
    ∃ r, gin O ord n = some r ∧ ¬ ∃ c ∈ r.order ++ r.rest, ∀ v, v ∈ c ↔ v ∈ A := by
  obtain ⟨r, m, h1, -, h3, -⟩ := C205_clusters_are_blocks O hO ord ho n
  refine ⟨r, h1, ?_⟩
  rintro ⟨c, hc, ec⟩
  obtain ⟨-, a, ha⟩ := h3 c hc
  have e1 := (ha x).1 ((ec x).2 hx)
  have e2 := (ha z).1 ((ec z).2 hz)
  exact hy ((ec y).1 ((ha y).2 ⟨by omega, by omega⟩))

/-- Ideal tests of the generalised independent noise condition for a model in which the latents with indicators `cl` are the
only causes: the residual of `X` is independent of column `z` iff `X` consists of indicators of one latent and `z ∉ X`. -/
def idealOracle (cl : List (List Nat)) : Oracle (List Nat) Nat where
  resid X _ := X
  pval z X := if z ∉ X ∧ ∃ c ∈ cl, ∀ x ∈ X, x ∈ c then 1 else 0
  geAlpha ps := ps.all (· == 1)
  ltAlpha ps := !ps.all (· == 1)

/-- The hypothesis of C205 holds for ideal tests. -/
theorem ideal_selfReject (cl : List (List Nat)) : SelfReject (idealOracle cl) := by
  rintro X Z T ⟨z, hz, hx⟩
  show List.all _ _ = false
  rw [List.all_eq_false]
  refine ⟨0, List.mem_map.2 ⟨z, hz, ?_⟩, by simp⟩
  show (if _ then _ else _) = 0
  rw [if_neg (fun h => h.1 hx)]

/-- Six variables, three latents with two indicators each, ideal tests: with the indicators in blocks, `GIN` reports only the
last pair; with alternating indicators it reports nothing. The prescribed tests accept each of the three pairs. -/
theorem C205_three_pairs_violated :
    ((gin (idealOracle [[0, 1], [2, 3], [4, 5]]) id 6).map fun r => (r.vars, r.order ++ r.rest)) = some ([0, 1, 2, 3], [[4, 5]]) ∧
    ((gin (idealOracle [[0, 3], [1, 4], [2, 5]]) id 6).map fun r => (r.vars, r.order ++ r.rest)) =
      some ([0, 1, 2, 3, 4, 5], []) ∧
    (∀ c ∈ combos (List.range 6) 2, (idealOracle [[0, 1], [2, 3], [4, 5]]).geAlpha
      (pvalsOf (idealOracle [[0, 1], [2, 3], [4, 5]]) c ((List.range 6).filter fun v => decide (v ∉ c))) =
        decide (c ∈ [[0, 1], [2, 3], [4, 5]])) := by
  refine ⟨by decide +kernel, by decide +kernel, by decide +kernel⟩

end CL.GIN
