import Verif.Model.Cache
import Mathlib.Tactic.IntervalCases

/-!
# C37 (score cache), C39 (CI cache keys), C40 (CI cache sessions)
-/
namespace CL

/-! ## C37 -/

theorem hashKey_perm (a b : List Nat) : hashKey a = hashKey b ↔ a.Perm b := by
  unfold hashKey
  constructor
  · intro h
    exact (List.perm_insertionSort _ a).symm.trans (h ▸ List.perm_insertionSort _ b)
  · intro h
    refine List.Perm.eq_of_pairwise (le := (· ≤ ·)) (fun _ _ _ _ h1 h2 => le_antisymm h1 h2)
      (List.pairwise_insertionSort _ a) (List.pairwise_insertionSort _ b) ?_
    exact (List.perm_insertionSort _ a).trans (h.trans (List.perm_insertionSort _ b).symm)

/-- Every cached value is the underlying score of some ordering of the same parents. -/
def ScoreInv {V : Type} (f : Nat → List Nat → V) (c : ScoreCache V) : Prop :=
  ∀ i k v, c i k = some v → ∃ pa, hashKey pa = k ∧ v = f i pa

theorem cachedScore_spec {V : Type} (f : Nat → List Nat → V) (c : ScoreCache V) (h : ScoreInv f c) (i : Nat)
    (pa : List Nat) : (∃ pa', pa'.Perm pa ∧ (cachedScore f c i pa).1 = f i pa') ∧ ScoreInv f (cachedScore f c i pa).2 ∧
      (cachedScore f c i pa).2 i (hashKey pa) = some (cachedScore f c i pa).1 ∧
      ∀ j k v, c j k = some v → (cachedScore f c i pa).2 j k = some v := by
  unfold cachedScore
  cases hc : c i (hashKey pa) with
  | some v =>
    obtain ⟨pa', h1, h2⟩ := h i _ v hc
    exact ⟨⟨pa', (hashKey_perm _ _).1 h1, h2⟩, h, hc, fun _ _ _ h => h⟩
  | none =>
    refine ⟨⟨pa, .refl _, rfl⟩, ?_, by simp, ?_⟩
    · intro j k v hv
      dsimp only at hv
      split at hv
      · rename_i hjk
        exact ⟨pa, hjk.2.symm, by rw [hjk.1]; exact (Option.some_inj.1 hv).symm⟩
      · exact h j k v hv
    · intro j k v hv
      dsimp only
      rw [if_neg ?_]
      · exact hv
      · rintro ⟨rfl, rfl⟩; rw [hc] at hv; cases hv

/-- **C37**: for every history of calls `score(i, PAi)` the cached object answers each call with a value of the underlying
score for the same target and the same parent set (possibly listed in another order). -/
theorem C37_cache_transparent {V : Type} (f : Nat → List Nat → V) (calls : List (Nat × List Nat)) :
    (runScores f (fun _ _ => none) calls).length = calls.length ∧
    ∀ k (h : k < calls.length), ∃ pa', pa'.Perm (calls[k]).2 ∧
      (runScores f (fun _ _ => none) calls)[k]? = some (f (calls[k]).1 pa') := by
  have gen : ∀ (calls : List (Nat × List Nat)) (c : ScoreCache V), ScoreInv f c →
      (runScores f c calls).length = calls.length ∧
      ∀ k (h : k < calls.length), ∃ pa', pa'.Perm (calls[k]).2 ∧ (runScores f c calls)[k]? = some (f (calls[k]).1 pa') := by
    intro calls
    induction calls with
    | nil => intro c _; exact ⟨rfl, fun k h => absurd h (Nat.not_lt_zero _)⟩
    | cons q calls ih =>
      intro c hc
      obtain ⟨i, pa⟩ := q
      obtain ⟨h1, h2, -, -⟩ := cachedScore_spec f c hc i pa
      obtain ⟨h3, h4⟩ := ih _ h2
      refine ⟨by simp [runScores, h3], ?_⟩
      rintro (_ | k) hk
      · obtain ⟨pa', hp, he⟩ := h1
        exact ⟨pa', hp, by simp [runScores, he]⟩
      · simpa [runScores] using h4 k (by simpa using hk)
  exact gen calls _ (fun _ _ _ h => by cases h)

/-- **C37**: if the score does not depend on the order in which parents are listed, every call returns exactly the uncached
value. -/
theorem C37_cache_exact {V : Type} (f : Nat → List Nat → V) (hf : ∀ i pa pa', pa.Perm pa' → f i pa = f i pa')
    (calls : List (Nat × List Nat)) :
    runScores f (fun _ _ => none) calls = calls.map fun c => f c.1 c.2 := by
  obtain ⟨h1, h2⟩ := C37_cache_transparent f calls
  apply List.ext_getElem? fun k => ?_
  by_cases hk : k < calls.length
  · obtain ⟨pa', hp, he⟩ := h2 k hk
    rw [he, List.getElem?_map, List.getElem?_eq_getElem hk, Option.map_some, hf _ _ _ hp]
  · rw [List.getElem?_eq_none (by omega), List.getElem?_eq_none (by simp; omega)]

/-- **C37**: within one history two calls for the same target with the same parents (in any order) get the same answer,
even if the underlying score is sensitive to the order. -/
theorem C37_same_parents_same_answer {V : Type} (f : Nat → List Nat → V) (calls : List (Nat × List Nat)) (j k : Nat)
    (hj : j < calls.length) (hk : k < calls.length) (hi : (calls[j]).1 = (calls[k]).1)
    (hp : (calls[j]).2.Perm (calls[k]).2) :
    (runScores f (fun _ _ => none) calls)[j]? = (runScores f (fun _ _ => none) calls)[k]? := by
  -- a value present in the cache is the answer to every later call
  have later : ∀ (calls : List (Nat × List Nat)) (c : ScoreCache V) (i : Nat) (key : List Nat) (v : V), ScoreInv f c →
      c i key = some v → ∀ k (h : k < calls.length), (calls[k]).1 = i → hashKey (calls[k]).2 = key →
      (runScores f c calls)[k]? = some v := by
    intro calls
    induction calls with
    | nil => intro c i key v _ _ k h; exact absurd h (Nat.not_lt_zero _)
    | cons q calls ih =>
      intro c i key v hc hv k hk h1 h2
      cases k with
      | zero =>
        subst h1 h2
        simp only [List.getElem_cons_zero] at hv
        simp [runScores, cachedScore, hv]
      | succ k =>
        obtain ⟨-, h4, -, h5⟩ := cachedScore_spec f c hc q.1 q.2
        simpa [runScores] using ih _ i key v h4 (h5 _ _ _ hv) k (by simpa using hk) h1 h2
  have main : ∀ (calls : List (Nat × List Nat)) (c : ScoreCache V), ScoreInv f c → ∀ j k (hj : j < calls.length)
      (hk : k < calls.length), j < k → (calls[j]).1 = (calls[k]).1 → (calls[j]).2.Perm (calls[k]).2 →
      (runScores f c calls)[j]? = (runScores f c calls)[k]? := by
    intro calls
    induction calls with
    | nil => intro c _ j k h; exact absurd h (Nat.not_lt_zero _)
    | cons q calls ih =>
      intro c hc j k hj hk hlt h1 h2
      obtain ⟨-, h4, h6, -⟩ := cachedScore_spec f c hc q.1 q.2
      obtain ⟨k, rfl⟩ : ∃ k', k = k' + 1 := ⟨k - 1, by omega⟩
      cases j with
      | zero =>
        have := later calls _ q.1 (hashKey q.2) _ h4 h6 k (by simpa using hk) h1.symm
          ((hashKey_perm _ _).2 h2).symm
        simp [runScores, this]
      | succ j => simpa [runScores] using ih _ h4 j k (by simpa using hj) (by simpa using hk) (by omega) h1 h2
  rcases Nat.lt_trichotomy j k with h | h | h
  · exact main calls _ (fun _ _ _ h => by cases h) j k hj hk h hi hp
  · rw [h]
  · exact (main calls _ (fun _ _ _ h => by cases h) k j hk hj h hi.symm hp.symm).symm

/-- Concrete history: with the order-sensitive score "first parent" the second call repeats the cached answer. -/
example : runScores (fun _ pa => pa.headD 0) (fun _ _ => none) [(0, [2, 1]), (0, [1, 2]), (1, [3])] = [2, 2, 3] := by
  decide

/-! ## C39 -/

theorem digitChar_inj {a b : Nat} (ha : a < 10) (hb : b < 10) (h : Nat.digitChar a = Nat.digitChar b) : a = b := by
  interval_cases a <;> interval_cases b <;> first | rfl | exact absurd h (by decide)

theorem digitChar_sep {a : Nat} (ha : a < 10) : Nat.digitChar a ≠ '.' ∧ Nat.digitChar a ≠ ';' ∧ Nat.digitChar a ≠ '|' := by
  interval_cases a <;> decide

theorem strNat_chars (n : Nat) (c : Char) (h : c ∈ strNat n) : c ≠ '.' ∧ c ≠ ';' ∧ c ≠ '|' := by
  unfold strNat at h
  split at h
  · simp only [List.mem_singleton] at h; subst h; decide
  · rw [List.mem_reverse, List.mem_map] at h
    obtain ⟨d, hd, rfl⟩ := h
    exact digitChar_sep (Nat.digits_lt_base (by decide) hd)

theorem map_inj_on {β γ : Type} {f : β → γ} : ∀ {l l' : List β}, (∀ a ∈ l, ∀ b ∈ l', f a = f b → a = b) →
    l.map f = l'.map f → l = l'
  | [], [], _, _ => rfl
  | [], _ :: _, _, h => by simp at h
  | _ :: _, [], _, h => by simp at h
  | a :: l, b :: l', hf, h => by
    simp only [List.map_cons, List.cons.injEq] at h
    rw [hf a (by simp) b (by simp) h.1, map_inj_on (fun x hx y hy => hf x (by simp [hx]) y (by simp [hy])) h.2]

theorem digits_ne_zero_head {n : Nat} (hn : n ≠ 0) : ((Nat.digits 10 n).map Nat.digitChar).reverse ≠ ['0'] := by
  intro h
  rw [List.reverse_eq_iff] at h
  simp only [List.reverse_cons, List.reverse_nil, List.nil_append] at h
  have h' : (Nat.digits 10 n).map Nat.digitChar = [0].map Nat.digitChar := by rw [h]; decide
  have h2 : Nat.digits 10 n = [0] := by
    refine map_inj_on (fun a ha b hb hab => ?_) h'
    simp only [List.mem_singleton] at hb
    subst hb
    exact digitChar_inj (Nat.digits_lt_base (by decide) ha) (by decide) hab
  have h3 : Nat.ofDigits 10 (Nat.digits 10 n) = n := Nat.ofDigits_digits 10 n
  rw [h2] at h3
  simp [Nat.ofDigits] at h3
  exact hn h3.symm

theorem strNat_inj {a b : Nat} (h : strNat a = strNat b) : a = b := by
  unfold strNat at h
  split at h <;> split at h
  · omega
  · rename_i hb; exact absurd h.symm (digits_ne_zero_head hb)
  · rename_i ha _; exact absurd h (digits_ne_zero_head ha)
  · rw [List.reverse_inj] at h
    refine Nat.digits_inj_iff.1 (map_inj_on (fun x hx y hy => ?_) h)
    exact digitChar_inj (Nat.digits_lt_base (by decide) hx) (Nat.digits_lt_base (by decide) hy)

theorem strNat_ne_nil (a : Nat) : strNat a ≠ [] := by
  unfold strNat
  split
  · simp
  · rename_i h
    simp only [ne_eq, List.reverse_eq_nil_iff, List.map_eq_nil_iff]
    exact fun h' => h (Nat.digits_eq_nil_iff_eq_zero.1 h')

theorem split_sep {c : Char} : ∀ {a a' b b' : List Char}, c ∉ a → c ∉ a' → a ++ c :: b = a' ++ c :: b' → a = a' ∧ b = b'
  | [], [], b, b', _, _, h => by simpa using h
  | [], x :: a', b, b', _, h2, h => by
    simp only [List.nil_append, List.cons_append, List.cons.injEq] at h
    exact absurd (by simp [h.1]) h2
  | x :: a, [], b, b', h1, _, h => by
    simp only [List.nil_append, List.cons_append, List.cons.injEq] at h
    exact absurd (by simp [h.1]) h1
  | x :: a, y :: a', b, b', h1, h2, h => by
    simp only [List.cons_append, List.cons.injEq] at h
    simp only [List.mem_cons, not_or] at h1 h2
    obtain ⟨h3, h4⟩ := split_sep h1.2 h2.2 h.2
    exact ⟨by rw [h.1, h3], h4⟩

theorem strLst_chars : ∀ (l : List Nat) (c : Char), c ∈ strLst l → c ≠ ';' ∧ c ≠ '|'
  | [], c, h => by simp [strLst] at h
  | [x], c, h => (strNat_chars x c h).2
  | x :: y :: l, c, h => by
    rw [strLst, List.mem_append, List.mem_cons] at h
    rcases h with h | h | h
    · exact (strNat_chars x c h).2
    · subst h; decide
    · exact strLst_chars (y :: l) c h

theorem dot_notin (x : Nat) : '.' ∉ strNat x := fun h => (strNat_chars x _ h).1 rfl

theorem strLst_inj : ∀ {l l' : List Nat}, strLst l = strLst l' → l = l'
  | [], [], _ => rfl
  | [], [x], h => absurd h.symm (strNat_ne_nil x)
  | [], x :: y :: l, h => by simp [strLst] at h
  | [x], [], h => absurd h (strNat_ne_nil x)
  | x :: y :: l, [], h => by simp [strLst] at h
  | [x], [y], h => by rw [strNat_inj h]
  | [x], y :: z :: l, h => absurd (by rw [strLst] at h; rw [h, strLst]; simp : '.' ∈ strNat x) (dot_notin x)
  | y :: z :: l, [x], h => absurd (by rw [strLst, strLst] at h; rw [← h]; simp : '.' ∈ strNat x) (dot_notin x)
  | x :: y :: l, x' :: y' :: l', h => by
    rw [strLst, strLst] at h
    obtain ⟨h1, h2⟩ := split_sep (dot_notin x) (dot_notin x') h
    rw [strNat_inj h1, strLst_inj h2]

theorem stringize_inj {u v c u' v' c' : List Nat} (h : stringize u v c = stringize u' v' c') :
    u = u' ∧ v = v' ∧ c = c' := by
  have sc : ∀ l, ';' ∉ strLst l := fun l h => (strLst_chars l _ h).1 rfl
  have bar : ∀ l, '|' ∉ strLst l := fun l h => (strLst_chars l _ h).2 rfl
  unfold stringize at h
  have len : ∀ {l : List Nat}, ¬ l.length > 0 → l = [] := fun h => List.length_eq_zero_iff.1 (by omega)
  split at h <;> split at h
  · obtain ⟨h1, h2⟩ := split_sep (sc u) (sc u') h
    obtain ⟨h3, h4⟩ := split_sep (bar v) (bar v') h2
    exact ⟨strLst_inj h1, strLst_inj h3, strLst_inj h4⟩
  · obtain ⟨h1, h2⟩ := split_sep (sc u) (sc u') h
    exact absurd (by rw [← h2]; simp) (bar v')
  · obtain ⟨h1, h2⟩ := split_sep (sc u) (sc u') h
    exact absurd (by rw [h2]; simp) (bar v)
  · rename_i hc hc'
    obtain ⟨h1, h2⟩ := split_sep (sc u) (sc u') h
    exact ⟨strLst_inj h1, strLst_inj h2, by rw [len hc, len hc']⟩

theorem keyOf_inj {q q' : Query} (h : keyOf q = keyOf q') : q = q' := by
  obtain ⟨h1, h2, h3⟩ := stringize_inj h
  exact Prod.ext h1 (Prod.ext h2 h3)

theorem mem_sortedSet (l : List Nat) (x : Nat) : x ∈ sortedSet l ↔ x ∈ l := by
  unfold sortedSet
  rw [(List.perm_insertionSort _ _).mem_iff, List.mem_dedup]

theorem sortedSet_eq (l l' : List Nat) : sortedSet l = sortedSet l' ↔ ∀ x, x ∈ l ↔ x ∈ l' := by
  constructor
  · intro h x
    rw [← mem_sortedSet, h, mem_sortedSet]
  · intro h
    refine List.Perm.eq_of_pairwise (le := (· ≤ ·)) (fun _ _ _ _ h1 h2 => le_antisymm h1 h2)
      (List.pairwise_insertionSort _ _) (List.pairwise_insertionSort _ _) ?_
    refine (List.perm_insertionSort _ _).trans (List.Perm.trans ?_ (List.perm_insertionSort _ _).symm)
    exact (List.perm_ext_iff_of_nodup (List.nodup_dedup _) (List.nodup_dedup _)).2 fun a => by simp [h a]

theorem format1_some {x y : Nat} {s : List Nat} {q : Query} (h : format1 x y s = some q) :
    q = if x < y then ([x], [y], sortedSet s) else ([y], [x], sortedSet s) := by
  unfold format1 at h
  by_cases c : x < y <;> simp [c] at h ⊢ <;> exact h.2.symm

theorem formatM_some {x y s : List Nat} {q : Query} (h : formatM x y s = some q) :
    q = if sortedSet x < sortedSet y then (sortedSet x, sortedSet y, sortedSet s)
      else (sortedSet y, sortedSet x, sortedSet s) := by
  unfold formatM at h
  by_cases c : sortedSet x < sortedSet y <;> simp [c] at h ⊢ <;> exact h.2.symm

/-- **C39** (single columns): two valid queries get the same cache key iff they ask about the same unordered pair and the
same conditioning set — however the arguments are ordered or repeated. -/
theorem C39_key_iff_same_query (x y x' y' : Nat) (s s' : List Nat) (q q' : Query)
    (h : format1 x y s = some q) (h' : format1 x' y' s' = some q') :
    keyOf q = keyOf q' ↔
      ((x = x' ∧ y = y') ∨ (x = y' ∧ y = x')) ∧ ∀ i, i ∈ s ↔ i ∈ s' := by
  rw [format1_some h, format1_some h', ← sortedSet_eq]
  constructor
  · intro hk
    have := keyOf_inj hk
    by_cases c1 : x < y <;> by_cases c2 : x' < y' <;>
      simp only [c1, c2, if_true, if_false, Prod.mk.injEq, List.cons.injEq, and_true] at this <;>
      exact ⟨by omega, this.2.2⟩
  · rintro ⟨h1, h2⟩
    rw [h2]
    rcases h1 with ⟨rfl, rfl⟩ | ⟨rfl, rfl⟩
    · rfl
    · rcases Nat.lt_trichotomy x y with c | c | c
      · simp only [c, c.not_gt, if_true, if_false]
      · rw [c]
      · simp only [c, c.not_gt, if_true, if_false]

/-- **C39** (column groups, kernel tests): the key depends exactly on the unordered pair of column sets and the
conditioning set. -/
theorem C39_multi_key_iff_same_query (x y s x' y' s' : List Nat) (q q' : Query)
    (h : formatM x y s = some q) (h' : formatM x' y' s' = some q') :
    keyOf q = keyOf q' ↔
      (((∀ i, i ∈ x ↔ i ∈ x') ∧ (∀ i, i ∈ y ↔ i ∈ y')) ∨ ((∀ i, i ∈ x ↔ i ∈ y') ∧ (∀ i, i ∈ y ↔ i ∈ x'))) ∧
        ∀ i, i ∈ s ↔ i ∈ s' := by
  rw [formatM_some h, formatM_some h']
  simp only [← sortedSet_eq]
  constructor
  · intro hk
    have := keyOf_inj hk
    by_cases c1 : sortedSet x < sortedSet y <;> by_cases c2 : sortedSet x' < sortedSet y' <;>
      simp only [c1, c2, if_true, if_false, Prod.mk.injEq] at this <;> tauto
  · rintro ⟨h1, h2⟩
    rw [h2]
    rcases h1 with ⟨h3, h4⟩ | ⟨h3, h4⟩
    · rw [h3, h4]
    · rw [h3, h4]
      rcases lt_trichotomy (sortedSet x') (sortedSet y') with c | c | c
      · simp only [c, c.not_gt, if_true, if_false]
      · rw [c]
      · simp only [c, c.not_gt, if_true, if_false]

/-- A cache key always contains a semicolon, so it never collides with the metadata entries of the cache. -/
theorem C39_key_not_metadata (q : Query) : keyOf q ≠ kData ∧ keyOf q ≠ kMethod ∧ keyOf q ≠ kParams := by
  have : ';' ∈ keyOf q := by unfold keyOf stringize; split <;> simp
  refine ⟨?_, ?_, ?_⟩ <;>
  · intro h
    rw [h] at this
    revert this
    decide

/-- Concrete keys: `(7, 2 | {10, 3})` in two different spellings, and a different query. -/
example : (format1 7 2 [10, 3, 3]).map keyOf = some "2;7|3.10".toList ∧
    (format1 2 7 [3, 10]).map keyOf = some "2;7|3.10".toList ∧ (format1 2 7 [310]).map keyOf = some "2;7|310".toList := by
  decide

/-! ## C40 -/

/-- All p-values in the dictionary are what the test itself would compute, no metadata is stored under a query key,
the data hash is that of the data, and a `method_name`-valued key is absent. -/
structure GoodDict {P : Type} (f : Query → P) (dataHash : List Char) (c : CDict P) : Prop where
  pv : ∀ q v, c (keyOf q) = some v → v = .pval (f q)
  data : c kData = some (.str dataHash)
  keys : ∀ k v, c k = some v → k = kData ∨ k = kMethod ∨ k = kParams ∨ ∃ q, k = keyOf q

/-- The names used by the library as method names (`cit.py:14-25`) are no cache keys: neither metadata keys nor do they
contain a semicolon. -/
def PlainName (m : List Char) : Prop := m ≠ kData ∧ m ≠ kMethod ∧ m ≠ kParams ∧ ';' ∉ m

theorem semicolon_mem (q : Query) : ';' ∈ keyOf q := by unfold keyOf stringize; split <;> simp

theorem GoodDict.plain {P : Type} {f : Query → P} {d : List Char} {c : CDict P} (h : GoodDict f d c) {m : List Char}
    (hm : PlainName m) : c m = none := by
  cases hc : c m with
  | none => rfl
  | some v =>
    rcases h.keys m v hc with h | h | h | ⟨q, h⟩
    · exact absurd h hm.1
    · exact absurd h hm.2.1
    · exact absurd h hm.2.2.1
    · exact absurd (h ▸ semicolon_mem q) hm.2.2.2

theorem good_check {P : Type} {f : Query → P} {d : List Char} {c : CDict P} (h : GoodDict f d c) {m p : List Char}
    (hm : PlainName m) : ∃ c', checkMethod c m p = some c' ∧ GoodDict f d c' := by
  refine ⟨(c.set kMethod (.str m)).set kParams (.str p), ?_, ?_, ?_, ?_⟩
  · unfold checkMethod; rw [h.plain hm]
  · intro q v hv
    obtain ⟨-, h2, h3⟩ := C39_key_not_metadata q
    simp only [CDict.set, h2, h3, if_false] at hv
    exact h.pv q v hv
  · have h1 : kData ≠ kParams := by decide
    have h2 : kData ≠ kMethod := by decide
    simp only [CDict.set, h1, h2, if_false, h.data]
  · intro k v hv
    simp only [CDict.set] at hv
    split at hv
    · rename_i hk; exact Or.inr (Or.inr (Or.inl hk))
    · split at hv
      · rename_i hk; exact Or.inr (Or.inl hk)
      · exact h.keys k v hv

theorem good_fresh {P : Type} (f : Query → P) (d : List Char) :
    GoodDict f d (CDict.set (fun _ => none) kData (.str d)) where
  pv q v hv := by
    have := (C39_key_not_metadata q).1
    simp [CDict.set, this] at hv
  data := by simp [CDict.set]
  keys k v hv := by
    simp only [CDict.set] at hv
    split at hv
    · rename_i h; exact Or.inl h
    · cases hv

theorem good_open {P : Type} (f : Query → P) (d m p : List Char) (hm : PlainName m) (file : Option (CDict P))
    (hf : ∀ c, file = some c → GoodDict f d c) : ∃ c, openSession d m p file = some c ∧ GoodDict f d c := by
  unfold openSession initCache
  cases file with
  | none => exact good_check (good_fresh f d) hm
  | some c =>
    have := hf c rfl
    simp only [this.data, if_true, Option.bind_some]
    exact good_check this hm

theorem good_ask {P : Type} {f : Query → P} {d : List Char} {c : CDict P} (h : GoodDict f d c) (q : Query) :
    (askCache f c q).1 = some (f q) ∧ GoodDict f d (askCache f c q).2 := by
  unfold askCache
  cases hc : c (keyOf q) with
  | some v =>
    obtain rfl := h.pv q v hc
    exact ⟨rfl, h⟩
  | none =>
    refine ⟨rfl, ?_, ?_, ?_⟩
    · intro q' v hv
      simp only [CDict.set] at hv
      split at hv
      · rename_i hk; rw [keyOf_inj hk]; exact (Option.some_inj.1 hv).symm
      · exact h.pv q' v hv
    · have := (C39_key_not_metadata q).1
      simp only [CDict.set, this.symm, if_false, h.data]
    · intro k v hv
      simp only [CDict.set] at hv
      split at hv
      · rename_i hk; exact Or.inr (Or.inr (Or.inr ⟨q, hk⟩))
      · exact h.keys k v hv

/-- **C40** (answers): a test that only ever meets cache files written by itself (same data, method and parameters) answers
every query, in every history of queries, saves and process restarts, exactly as without a cache; opening a session never
fails. -/
theorem C40_own_cache_transparent {P : Type} (f : Query → P) (dataHash method params : List Char)
    (hm : PlainName method) (hist : List CEv) :
    ∃ s0 answers, openSession dataHash method params (none : Option (CDict P)) = some s0 ∧
      runCache f dataHash method params ⟨s0, none⟩ hist = some answers ∧ ∀ qa ∈ answers, qa.2 = some (f qa.1) := by
  obtain ⟨s0, h0, g0⟩ := good_open f dataHash method params hm none (by simp)
  have gen : ∀ (hist : List CEv) (s : CState P), GoodDict f dataHash s.mem →
      (∀ c, s.disk = some c → GoodDict f dataHash c) →
      ∃ answers, runCache f dataHash method params s hist = some answers ∧ ∀ qa ∈ answers, qa.2 = some (f qa.1) := by
    intro hist
    induction hist with
    | nil => intro s _ _; exact ⟨[], rfl, by simp⟩
    | cons e es ih =>
      intro s h1 h2
      cases e with
      | ask q =>
        obtain ⟨h3, h4⟩ := good_ask h1 q
        obtain ⟨l, h5, h6⟩ := ih ⟨(askCache f s.mem q).2, s.disk⟩ h4 h2
        refine ⟨(q, (askCache f s.mem q).1) :: l, by simp [runCache, h5], ?_⟩
        rintro qa (_ | ⟨_, hqa⟩)
        · exact h3
        · exact h6 qa hqa
      | save => exact ih ⟨s.mem, some s.mem⟩ h1 (by rintro c ⟨⟩; exact h1)
      | restart =>
        obtain ⟨c, h3, h4⟩ := good_open f dataHash method params hm s.disk h2
        obtain ⟨l, h5, h6⟩ := ih ⟨c, s.disk⟩ h4 h2
        exact ⟨l, by simp [runCache, h3, h5], h6⟩
  obtain ⟨l, h1, h2⟩ := gen hist ⟨s0, none⟩ g0 (by simp)
  exact ⟨s0, l, h0, h1, h2⟩

/-- **C40** is false for mismatching tests: whatever test `(m', p', f')` wrote the cache file, a session of another method
with other parameters opens it without complaint. -/
theorem C40_mismatch_accepted_violated {P : Type} (f' : Query → P) (dataHash m p : List Char) (hm : PlainName m)
    (file : CDict P) (hfile : GoodDict f' dataHash file) : ∃ c, openSession dataHash m p (some file) = some c := by
  obtain ⟨c, h, -⟩ := good_open f' dataHash m p hm (some file) (by rintro c ⟨⟩; exact hfile)
  exact ⟨c, h⟩

/-- Concrete failure: a cache written by `fisherz` (p-value 1 for the pair 0,1) is loaded by `chisq` for the same data hash;
`chisq` would compute 0 but answers 1. -/
theorem C40_wrong_answers_violated :
    ∃ (s1 : CDict Nat) (s2 : CDict Nat) (q : Query),
      openSession "h".toList "fisherz".toList "".toList (none : Option (CDict Nat)) = some s1 ∧
      format1 0 1 [] = some q ∧
      openSession "h".toList "chisq".toList "".toList (some (askCache (fun _ => 1) s1 q).2) = some s2 ∧
      (askCache (fun _ => 0) s2 q).1 = some 1 := by
  refine ⟨_, _, _, rfl, rfl, rfl, by decide⟩

/-- The data check does work: a cache written for data with another hash is rejected. -/
theorem C40_other_data_rejected {P : Type} (f' : Query → P) (d d' m p : List Char) (hd : d ≠ d')
    (file : CDict P) (hfile : GoodDict f' d file) : openSession d' m p (some file) = none := by
  simp [openSession, initCache, hfile.data, hd]

/-- The method names of the library satisfy the hypothesis. -/
example : PlainName "fisherz".toList ∧ PlainName "kci".toList ∧ PlainName "d_separation".toList := by
  unfold PlainName; decide

end CL
