import Verif.Model.Generators
import Mathlib.Tactic.Ring
import Mathlib.Algebra.Order.Ring.Int

/-!
# C11, C12: the combination generators
-/
namespace CL
namespace Gen

/-- `[s, s+1, ..., s+m-1]` -/
def ramp (s : Int) (m : Nat) : List Int := (List.range m).map fun j : Nat => s + (j : Int)

@[simp] theorem length_ramp (s : Int) (m : Nat) : (ramp s m).length = m := by simp [ramp]

theorem ramp_succ (s : Int) (m : Nat) : ramp s (m + 1) = s :: ramp (s + 1) m := by
  unfold ramp
  rw [List.range_succ_eq_map]
  simp [Function.comp_def]
  intro a _; ring

/-- The successor of a choice, recursively. -/
def nxt (a : Int) : List Int → Option (List Int)
  | [] => none
  | x :: r => match nxt a r with
    | some r' => some (x :: r')
    | none => if x < a - (r.length + 1) then some (ramp (x + 1) (r.length + 1)) else none

theorem nxt_length (a : Int) (l l' : List Int) (h : nxt a l = some l') : l'.length = l.length := by
  induction l generalizing l' with
  | nil => simp [nxt] at h
  | cons x r ih =>
    unfold nxt at h
    split at h
    · rename_i r' hr; simp at h; rw [← h]; simp [ih r' hr]
    · split at h <;> simp at h; rw [← h]; simp

/-- closed form of `fill` -/
theorem fill_eq (loc : List Int) (b index : Nat) (hl : loc.length = b) (hi : index < b) :
    fill loc b index = loc.take index ++ ramp (loc[index]'(by omega) + 1) (b - index) := by
  have key : ∀ (m : Nat) (pre : List Int) (v : Int) (post : List Int), post.length = m →
      (List.range' (pre.length + 1) m).foldl (fun l i => l.set i (l.getD (i - 1) 0 + 1)) (pre ++ v :: post) =
        pre ++ ramp v (m + 1) := by
    intro m
    induction m with
    | zero =>
      intro pre v post h
      have : post = [] := List.length_eq_zero_iff.1 h
      subst this
      simp [ramp]
    | succ m ih =>
      intro pre v post h
      obtain ⟨w, post, rfl⟩ : ∃ w p, post = w :: p := by
        cases post with
        | nil => simp at h
        | cons w p => exact ⟨w, p, rfl⟩
      rw [List.range'_succ, List.foldl_cons]
      have e : (pre ++ v :: w :: post).set (pre.length + 1) ((pre ++ v :: w :: post).getD (pre.length + 1 - 1) 0 + 1) =
          (pre ++ [v]) ++ (v + 1) :: post := by
        simp [List.getD, List.set_append]
      rw [e]
      have := ih (pre ++ [v]) (v + 1) post (by simpa using h)
      rw [List.length_append, List.length_singleton] at this
      rw [this, ramp_succ v (m + 1)]
      simp
  unfold fill
  have hsplit : loc.set index (loc.getD index 0 + 1) =
      loc.take index ++ (loc[index]'(by omega) + 1) :: loc.drop (index + 1) := by
    rw [List.set_eq_take_append_cons_drop, if_pos (by omega)]
    simp [List.getD, List.getElem?_eq_getElem (show index < loc.length by omega)]
  rw [hsplit]
  have hk := key (b - (index + 1)) (loc.take index) (loc[index]'(by omega) + 1) (loc.drop (index + 1))
    (by simp [hl])
  rw [List.length_take, Nat.min_eq_left (by omega)] at hk
  rw [hk]
  congr 2
  omega

theorem nxt_of_drop (a : Int) (loc : List Int) (i : Nat) (r : List Int) (h : nxt a (loc.drop i) = some r) :
    nxt a loc = some (loc.take i ++ r) := by
  induction loc generalizing i with
  | nil => simp [nxt] at h
  | cons x l ih =>
    cases i with
    | zero => simpa using h
    | succ i =>
      have := ih i (by simpa using h)
      unfold nxt
      rw [this]
      simp

/-- the scan-and-fill of the code computes the successor -/
theorem scan_fill (a : Int) (loc : List Int) (i : Nat) (hi : i ≤ loc.length) (hn : nxt a (loc.drop i) = none) :
    (scan loc (a - loc.length) i).map (fun r => r.map (fill loc loc.length)) = some (nxt a loc) := by
  induction i with
  | zero => simp at hn; simp [scan, hn]
  | succ i ih =>
    have hlt : i < loc.length := by omega
    have hd : loc.drop i = loc[i] :: loc.drop (i + 1) := List.drop_eq_getElem_cons hlt
    unfold scan
    rw [List.getElem?_eq_getElem hlt]
    simp only [Option.elim]
    by_cases hc : loc[i] < (i : Int) + (a - loc.length)
    · rw [if_pos hc]
      have h1 : nxt a (loc.drop i) = some (ramp (loc[i] + 1) (loc.length - i)) := by
        rw [hd]
        unfold nxt
        rw [hn]
        simp only [List.length_drop]
        rw [if_pos (by omega)]
        congr 2
        omega
      rw [nxt_of_drop a loc i _ h1]
      simp only [Option.map_some]
      rw [fill_eq loc _ i rfl hlt]
    · rw [if_neg hc]
      apply ih (by omega)
      rw [hd]
      unfold nxt
      rw [hn]
      simp only [List.length_drop]
      rw [if_neg (by omega)]

theorem scan_fill' (a : Int) (loc : List Int) :
    (scan loc (a - loc.length) loc.length).map (fun r => r.map (fill loc loc.length)) = some (nxt a loc) :=
  scan_fill a loc loc.length (le_refl _) (by simp [nxt])

/-- all increasing `m`-lists with entries in `[s, s + w)`, in lexicographic order -/
def lex : Nat → Int → Nat → List (List Int)
  | _, _, 0 => [[]]
  | 0, _, _ + 1 => []
  | w + 1, s, m + 1 => (lex w (s + 1) m).map (s :: ·) ++ lex w (s + 1) (m + 1)

theorem lex_nil {w : Nat} (s : Int) {m : Nat} (h : w < m) : lex w s m = [] := by
  induction w generalizing s m with
  | zero => cases m <;> simp_all [lex]
  | succ w ih =>
    cases m with
    | zero => omega
    | succ m => simp [lex, ih (s + 1) (show w < m by omega), ih (s + 1) (show w < m + 1 by omega)]

/-- membership in the specification list -/
theorem mem_lex (w : Nat) (s : Int) (m : Nat) (c : List Int) :
    c ∈ lex w s m ↔ c.length = m ∧ c.Pairwise (· < ·) ∧ ∀ x ∈ c, s ≤ x ∧ x < s + w := by
  induction w generalizing s m c with
  | zero =>
    cases m with
    | zero =>
      simp only [lex, List.mem_singleton]
      constructor
      · rintro rfl; simp
      · rintro ⟨h, -⟩; exact List.length_eq_zero_iff.1 h
    | succ m =>
      simp only [lex, List.not_mem_nil, false_iff]
      rintro ⟨h, -, h'⟩
      cases c with
      | nil => simp at h
      | cons x c => have := h' x (by simp); simp at this; omega
  | succ w ih =>
    cases m with
    | zero =>
      simp only [lex, List.mem_singleton]
      constructor
      · rintro rfl; simp
      · rintro ⟨h, -⟩; exact List.length_eq_zero_iff.1 h
    | succ m =>
      simp only [lex, List.mem_append, List.mem_map, ih]
      constructor
      · rintro (⟨c, ⟨h1, h2, h3⟩, rfl⟩ | ⟨h1, h2, h3⟩)
        · refine ⟨by simp [h1], List.pairwise_cons.2 ⟨fun x hx => ?_, h2⟩, ?_⟩
          · have := h3 x hx; omega
          · intro x hx
            rcases List.mem_cons.1 hx with rfl | hx
            · push_cast; omega
            · have := h3 x hx; push_cast; omega
        · refine ⟨h1, h2, fun x hx => ?_⟩
          have := h3 x hx; push_cast; omega
      · rintro ⟨h1, h2, h3⟩
        cases c with
        | nil => simp at h1
        | cons x c =>
          obtain ⟨h2a, h2b⟩ := List.pairwise_cons.1 h2
          have hx := h3 x (by simp)
          by_cases he : x = s
          · left
            subst he
            refine ⟨c, ⟨by simpa using h1, h2b, fun y hy => ?_⟩, rfl⟩
            have := h2a y hy
            have := h3 y (by simp [hy])
            push_cast at *; omega
          · right
            refine ⟨h1, h2, fun y hy => ?_⟩
            have h5 := h3 y hy
            rcases List.mem_cons.1 hy with rfl | hy'
            · push_cast at *; omega
            · have := h2a y hy'; push_cast at *; omega

theorem lex_sorted (w : Nat) (s : Int) (m : Nat) : (lex w s m).Pairwise (· < ·) := by
  induction w generalizing s m with
  | zero => cases m <;> simp [lex]
  | succ w ih =>
    cases m with
    | zero => simp [lex]
    | succ m =>
      rw [lex, List.pairwise_append]
      refine ⟨?_, ih _ _, ?_⟩
      · rw [List.pairwise_map]
        refine (ih (s + 1) m).imp ?_
        intro a b hab
        exact List.cons_lt_cons_self.2 hab
      · intro c hc d hd
        obtain ⟨c', -, rfl⟩ := List.mem_map.1 hc
        obtain ⟨h1, -, h3⟩ := (mem_lex _ _ _ _).1 hd
        cases d with
        | nil => simp at h1
        | cons y d =>
          have := h3 y (by simp)
          exact List.cons_lt_cons_iff.2 (Or.inl (by omega))

/-- Repeated successors from `c` give exactly `R`, then nothing. -/
def Trav (a : Int) : List Int → List (List Int) → Prop
  | c, [] => nxt a c = none
  | c, d :: R => nxt a c = some d ∧ Trav a d R

theorem trav_cons {a s : Int} {m : Nat} (R : List (List Int)) (c : List Int) (h : Trav a c R) (hc : c.length = m)
    (B : List (List Int))
    (hB : if s < a - (m + 1) then ∃ tl, B = ramp (s + 1) (m + 1) :: tl ∧ Trav a (ramp (s + 1) (m + 1)) tl else B = []) :
    Trav a (s :: c) (R.map (s :: ·) ++ B) := by
  induction R generalizing c with
  | nil =>
    simp only [Trav] at h
    simp only [List.map_nil, List.nil_append]
    split at hB
    · rename_i hlt
      obtain ⟨tl, rfl, ht⟩ := hB
      refine ⟨?_, ht⟩
      unfold nxt
      rw [h, hc]
      simp only
      rw [if_pos hlt]
    · rename_i hlt
      subst hB
      simp only [Trav]
      unfold nxt
      rw [h, hc]
      simp only
      rw [if_neg hlt]
  | cons d R ih =>
    obtain ⟨h1, h2⟩ := h
    rw [List.map_cons, List.cons_append]
    refine ⟨?_, ih d h2 (by rw [nxt_length a c d h1, hc])⟩
    unfold nxt
    rw [h1]

theorem lex_trav (w : Nat) (s : Int) (m : Nat) (h : m ≤ w) :
    ∃ tl, lex w s m = ramp s m :: tl ∧ Trav (s + w) (ramp s m) tl := by
  induction w generalizing s m with
  | zero =>
    obtain rfl : m = 0 := by omega
    exact ⟨[], by simp [lex, ramp], by simp [Trav, nxt, ramp]⟩
  | succ w ih =>
    cases m with
    | zero => exact ⟨[], by simp [lex, ramp], by simp [Trav, nxt, ramp]⟩
    | succ m =>
      obtain ⟨tl, h1, h2⟩ := ih (s + 1) m (by omega)
      refine ⟨tl.map (s :: ·) ++ lex w (s + 1) (m + 1), ?_, ?_⟩
      · rw [lex, h1, ramp_succ]; simp
      · rw [ramp_succ]
        have ea : s + 1 + (w : Int) = s + ((w + 1 : Nat) : Int) := by push_cast; ring
        rw [ea] at h2
        apply trav_cons tl _ h2 (length_ramp _ _)
        split
        · obtain ⟨tl', h3, h4⟩ := ih (s + 1) (m + 1) (by push_cast at *; omega)
          rw [ea] at h4
          exact ⟨tl', h3, h4⟩
        · exact lex_nil _ (by push_cast at *; omega)

theorem length_initLocal (b : Nat) : (initLocal b).length = b := by
  unfold initLocal; split <;> simp <;> omega

theorem nxt_initLocal (a b : Nat) (hb : 0 < b) (h : b ≤ a) : nxt a (initLocal b) = some (ramp 0 b) := by
  have h1 : (initLocal b).drop (b - 1) = [(b : Int) - 2] := by
    unfold initLocal; rw [if_pos hb]; simp
  have h2 : (initLocal b).take (b - 1) = (List.range (b - 1)).map (fun i : Nat => (i : Int)) := by
    unfold initLocal; rw [List.take_left']; simp
  rw [nxt_of_drop a _ (b - 1) [(b : Int) - 1], h2]
  · congr 1
    obtain ⟨c, rfl⟩ : ∃ c, b = c + 1 := ⟨b - 1, by omega⟩
    simp [ramp, List.range_succ]
  · rw [h1]
    simp [nxt, ramp]
    constructor <;> omega

/-! ## C11 -/

theorem cgen_callN (a b : Nat) (R : List (List Int)) (loc : List Int) (hl : loc.length = b) (h : Trav a loc R) (i : Nat) :
    callN CGen.next i ⟨a, b, (a : Int) - b, loc, true⟩ = some R[i]? := by
  have hs := scan_fill' a loc
  rw [hl] at hs
  induction i generalizing loc R with
  | zero =>
    cases R with
    | nil =>
      simp only [Trav] at h
      rw [h] at hs
      cases hsc : scan loc ((a : Int) - b) b with
      | none => rw [hsc] at hs; simp at hs
      | some r =>
        rw [hsc] at hs
        cases r with
        | some r => simp at hs
        | none => simp [callN, CGen.next, hsc]
    | cons d R =>
      obtain ⟨h1, h2⟩ := h
      rw [h1] at hs
      cases hsc : scan loc ((a : Int) - b) b with
      | none => rw [hsc] at hs; simp at hs
      | some r =>
        rw [hsc] at hs
        cases r with
        | none => simp at hs
        | some r => simp at hs; simp [callN, CGen.next, hsc, hs]
  | succ i ih =>
    cases R with
    | nil =>
      simp only [Trav] at h
      have hs' := hs
      rw [h] at hs
      cases hsc : scan loc ((a : Int) - b) b with
      | none => rw [hsc] at hs; simp at hs
      | some r =>
        rw [hsc] at hs
        cases r with
        | some r => simp at hs
        | none =>
          have := ih [] loc hl (by simpa [Trav] using h) hs'
          simp [callN, CGen.next, hsc] at this ⊢
          simpa [CGen.next] using this
    | cons d R =>
      obtain ⟨h1, h2⟩ := h
      have hd : d.length = b := by rw [nxt_length _ _ _ h1, hl]
      rw [h1] at hs
      cases hsc : scan loc ((a : Int) - b) b with
      | none => rw [hsc] at hs; simp at hs
      | some r =>
        rw [hsc] at hs
        cases r with
        | none => simp at hs
        | some r =>
          simp at hs
          have hsd := scan_fill' a d
          rw [hd] at hsd
          have := ih R d hd h2 hsd
          simp [callN, CGen.next, hsc, hs] at this ⊢
          simpa [CGen.next] using this

/-- For `b ≤ a` (the documented domain), the calls of `next()` return, in order, the entries of a list `L` that is strictly
increasing in the lexicographic order and contains exactly the strictly increasing `b`-lists with entries in `0..a-1`; every
later call returns `None` (and no call raises). -/
theorem C11_enumerates (a b : Nat) (h : b ≤ a) :
    ∃ L : List (List Int), L.Pairwise (· < ·) ∧
      (∀ c, c ∈ L ↔ c.length = b ∧ c.Pairwise (· < ·) ∧ ∀ x ∈ c, 0 ≤ x ∧ x < a) ∧
      ∀ i, callN CGen.next i (CGen.init a b) = some L[i]? := by
  refine ⟨lex a 0 b, lex_sorted _ _ _, by intro c; rw [mem_lex]; simp, ?_⟩
  obtain ⟨tl, h1, h2⟩ := lex_trav a 0 b h
  rw [zero_add] at h2
  intro i
  rw [h1]
  have hfirst : CGen.next (CGen.init a b) = some (some (ramp 0 b), ⟨a, b, (a : Int) - b, ramp 0 b, true⟩) := by
    rcases Nat.eq_zero_or_pos b with rfl | hb
    · simp [CGen.next, CGen.init, scan, initLocal, ramp]
    · have hs := scan_fill' a (initLocal b)
      rw [length_initLocal, nxt_initLocal a b hb h] at hs
      cases hsc : scan (initLocal b) ((a : Int) - b) b with
      | none => rw [hsc] at hs; simp at hs
      | some r =>
        rw [hsc] at hs
        cases r with
        | none => simp at hs
        | some r =>
          simp at hs
          simp [CGen.next, CGen.init, hsc, hs]
  cases i with
  | zero => simp [callN, hfirst]
  | succ i =>
    simp only [callN, hfirst, Option.bind_some, List.getElem?_cons_succ]
    exact cgen_callN a b tl _ (length_ramp _ _) h2 i

/-- 4 choose 2 in the order of the calls. -/
example : (List.range 7).map (fun i => callN CGen.next i (CGen.init 4 2)) =
    [some (some [0, 1]), some (some [0, 2]), some (some [0, 3]), some (some [1, 2]), some (some [1, 3]), some (some [2, 3]),
      some none] := by decide

/-! ## C12 -/

/-- the remaining sizes -/
def later (a eff b : Nat) : List (List Int) := (List.range' (b + 1) (eff - b)).flatMap (lex a 0)

theorem later_end (a b eff : Nat) (h : eff ≤ b) : later a eff b = [] := by
  simp [later, Nat.sub_eq_zero_of_le h]

theorem later_step (a b eff : Nat) (h : b < eff) : later a eff b = lex a 0 (b + 1) ++ later a eff (b + 1) := by
  unfold later
  obtain ⟨k, hk⟩ : ∃ k, eff - b = k + 1 := ⟨eff - b - 1, by omega⟩
  rw [hk, List.range'_succ, List.flatMap_cons]
  congr 3
  omega

theorem dgen_next (a b eff : Nat) (he : eff ≤ a) (hb : b ≤ eff) (R : List (List Int)) (loc : List Int)
    (hl : loc.length = b) (h : Trav a loc R) :
    (R ++ later a eff b = [] → ∃ g, DGen.next ⟨a, b, eff, (a : Int) - b, loc, true⟩ = some (none, g)) ∧
    ∀ d T, R ++ later a eff b = d :: T → ∃ b' R', b' ≤ eff ∧ d.length = b' ∧ Trav a d R' ∧ T = R' ++ later a eff b' ∧
      DGen.next ⟨a, b, eff, (a : Int) - b, loc, true⟩ = some (some d, ⟨a, b', eff, (a : Int) - b', d, true⟩) := by
  have hs := scan_fill' a loc
  rw [hl] at hs
  cases R with
  | cons d R =>
    obtain ⟨h1, h2⟩ := h
    refine ⟨by simp, ?_⟩
    rintro d' T hT
    simp at hT
    obtain ⟨rfl, rfl⟩ := hT
    refine ⟨b, R, hb, by rw [nxt_length _ _ _ h1, hl], h2, rfl, ?_⟩
    rw [h1] at hs
    cases hsc : scan loc ((a : Int) - b) b with
    | none => rw [hsc] at hs; simp at hs
    | some r =>
      rw [hsc] at hs
      cases r with
      | none => simp at hs
      | some r => simp at hs; simp [DGen.next, hsc, hs]
  | nil =>
    simp only [Trav] at h
    rw [h] at hs
    have hsc : scan loc ((a : Int) - b) b = some none := by
      cases hsc : scan loc ((a : Int) - b) b with
      | none => rw [hsc] at hs; simp at hs
      | some r =>
        rw [hsc] at hs
        cases r with
        | some r => simp at hs
        | none => rfl
    simp only [List.nil_append]
    rcases Nat.lt_or_ge b eff with hlt | hge
    · obtain ⟨tl, h1, h2⟩ := lex_trav a 0 (b + 1) (by omega)
      rw [zero_add] at h2
      rw [later_step a b eff hlt, h1]
      refine ⟨by simp, ?_⟩
      intro d T hT
      simp only [List.cons_append, List.cons.injEq] at hT
      obtain ⟨rfl, rfl⟩ := hT
      refine ⟨b + 1, tl, hlt, length_ramp _ _, h2, rfl, ?_⟩
      have hs2 := scan_fill' a (initLocal (b + 1))
      rw [length_initLocal, nxt_initLocal a (b + 1) (by omega) (by omega)] at hs2
      cases hsc2 : scan (initLocal (b + 1)) ((a : Int) - (b + 1 : Nat)) (b + 1) with
      | none => rw [hsc2] at hs2; simp at hs2
      | some r =>
        rw [hsc2] at hs2
        cases r with
        | none => simp at hs2
        | some r =>
          simp at hs2
          have hsc2' := hsc2
          push_cast at hsc2'
          simp [DGen.next, hsc, DGen.reinit, DGen.nextInner, hsc2', hs2, Nat.not_lt.2 hlt]
    · rw [later_end a b eff hge]
      refine ⟨fun _ => ?_, by simp⟩
      simp [DGen.next, hsc, Nat.lt_succ_of_le hge]

theorem dgen_callN (a eff : Nat) (he : eff ≤ a) (i b : Nat) (hb : b ≤ eff) (R : List (List Int)) (loc : List Int)
    (hl : loc.length = b) (h : Trav a loc R) (hi : i ≤ (R ++ later a eff b).length) :
    callN DGen.next i ⟨a, b, eff, (a : Int) - b, loc, true⟩ = some (R ++ later a eff b)[i]? := by
  induction i generalizing b R loc with
  | zero =>
    obtain ⟨h1, h2⟩ := dgen_next a b eff he hb R loc hl h
    cases hR : R ++ later a eff b with
    | nil => obtain ⟨g, hg⟩ := h1 hR; simp [callN, hg]
    | cons d T => obtain ⟨b', R', -, -, -, -, hg⟩ := h2 d T hR; simp [callN, hg]
  | succ i ih =>
    obtain ⟨h1, h2⟩ := dgen_next a b eff he hb R loc hl h
    cases hR : R ++ later a eff b with
    | nil => rw [hR] at hi; simp at hi
    | cons d T =>
      obtain ⟨b', R', c1, c2, c3, c4, hg⟩ := h2 d T hR
      rw [hR] at hi
      simp only [callN, hg, Option.bind_some, List.getElem?_cons_succ]
      rw [ih b' c1 R' d c2 c3 (by rw [← c4]; simpa using hi), c4]

/-- the size bound the generator works with: `depth`, or everything for `-1` or `depth > a` -/
def effDepth (a : Nat) (depth : Option Nat) : Nat := depth.elim a fun d => min d a

/-- For every `a` and every depth (`none` is `-1`), the calls of `next()` return, in order, the entries of a list `L` without
repetitions, sorted by size and lexicographically within a size, containing exactly the strictly increasing lists with
entries in `0..a-1` and at most `depth` entries (all of them for `-1`); the call after the last entry returns `None`. -/
theorem C12_enumerates (a : Nat) (depth : Option Nat) :
    ∃ L : List (List Int),
      L.Pairwise (fun c d => c.length < d.length ∨ (c.length = d.length ∧ c < d)) ∧
      (∀ c, c ∈ L ↔ (∀ d, depth = some d → c.length ≤ d) ∧ c.Pairwise (· < ·) ∧ ∀ x ∈ c, 0 ≤ x ∧ x < a) ∧
      ∀ i ≤ L.length, callN DGen.next i (DGen.init a depth) = some L[i]? := by
  have heff : effDepth a depth ≤ a := by cases depth <;> simp [effDepth]
  have hinit : DGen.init a depth = ⟨a, 0, effDepth a depth, (a : Int) - 0, [], false⟩ := by
    have : (depth.elim a fun d => if d > a then a else d) = effDepth a depth := by
      cases depth with
      | none => rfl
      | some d => simp only [effDepth, Option.elim]; split <;> omega
    simp only [DGen.init, this]
    simp [initLocal]
  have hL : ∀ c, c ∈ (List.range (effDepth a depth + 1)).flatMap (lex a 0) ↔
      c.length ≤ effDepth a depth ∧ c.Pairwise (· < ·) ∧ ∀ x ∈ c, 0 ≤ x ∧ x < a := by
    intro c
    simp only [List.mem_flatMap, List.mem_range, mem_lex, zero_add]
    constructor
    · rintro ⟨m, hm, h1, h2, h3⟩; exact ⟨by omega, h2, h3⟩
    · rintro ⟨h1, h2, h3⟩; exact ⟨c.length, by omega, rfl, h2, h3⟩
  have hlen : ∀ (c : List Int), c.Pairwise (· < ·) → (∀ x ∈ c, 0 ≤ x ∧ x < (a : Int)) → c.length ≤ a := by
    intro c h1 h2
    by_contra hc
    have hm : c ∈ lex a 0 c.length := (mem_lex _ _ _ _).2 ⟨rfl, h1, by simpa using h2⟩
    rw [lex_nil 0 (by omega)] at hm
    simp at hm
  refine ⟨(List.range (effDepth a depth + 1)).flatMap (lex a 0), ?_, ?_, ?_⟩
  · rw [List.pairwise_flatMap]
    refine ⟨?_, ?_⟩
    · intro m _
      refine (lex_sorted a 0 m).imp_of_mem ?_
      intro c d hc hd hlt
      right
      exact ⟨((mem_lex _ _ _ _).1 hc).1.trans ((mem_lex _ _ _ _).1 hd).1.symm, hlt⟩
    · refine (List.pairwise_lt_range).imp ?_
      intro m k hmk c hc d hd
      left
      rw [((mem_lex _ _ _ _).1 hc).1, ((mem_lex _ _ _ _).1 hd).1]
      exact hmk
  · intro c
    rw [hL]
    constructor
    · rintro ⟨h1, h2, h3⟩
      refine ⟨?_, h2, h3⟩
      rintro d rfl
      simp [effDepth] at h1
      exact h1.1
    · rintro ⟨h1, h2, h3⟩
      refine ⟨?_, h2, h3⟩
      cases depth with
      | none => exact hlen c h2 h3
      | some d => exact le_min (h1 d rfl) (hlen c h2 h3)
  · intro i hi
    have e : (List.range (effDepth a depth + 1)).flatMap (lex a 0) = [] :: ([] ++ later a (effDepth a depth) 0) := by
      unfold later
      rw [List.range_eq_range', List.range'_succ, List.flatMap_cons]
      have : lex a 0 0 = [[]] := by cases a <;> rfl
      rw [this]; simp
    have hfirst : DGen.next (DGen.init a depth) = some (some [], ⟨a, 0, effDepth a depth, (a : Int) - (0 : Nat), [], true⟩) := by
      rw [hinit]; simp [DGen.next, scan]
    rw [e] at hi ⊢
    cases i with
    | zero => simp [callN, hfirst]
    | succ i =>
      simp only [callN, hfirst, Option.bind_some, List.getElem?_cons_succ]
      exact dgen_callN a _ heff i 0 (Nat.zero_le _) [] [] rfl (by simp [Trav, nxt]) (by simpa using hi)

/-- Calling `next()` again after it has returned `None` raises `IndexError`. -/
theorem C12_after_end_raises (a : Nat) (depth : Option Nat) (g g' : DGen) (hl : g.loc.length = g.b)
    (h : DGen.next g = some (none, g')) : DGen.next g' = none := by
  have hg : g' = { g with b := g.b + 1 } := by
    unfold DGen.next at h
    cases hsc : scan g.loc g.diff g.b with
    | none => rw [hsc] at h; simp at h
    | some r =>
      rw [hsc] at h
      cases r with
      | some r => simp at h
      | none =>
        simp only [Option.bind_some, Option.elim] at h
        split at h
        · split at h
          · simp at h; exact h.symm
          · unfold DGen.nextInner at h
            cases hs2 : scan (({ g with b := g.b + 1 }).reinit).loc (({ g with b := g.b + 1 }).reinit).diff
                (({ g with b := g.b + 1 }).reinit).b with
            | none => rw [hs2] at h; simp at h
            | some r =>
              rw [hs2] at h
              cases r with
              | some r => simp at h
              | none => simp [DGen.reinit] at h
        · simp at h
  subst hg
  unfold DGen.next
  simp only
  unfold scan
  rw [List.getElem?_eq_none (by omega)]
  simp

example : (List.range 9).map (fun i => callN DGen.next i (DGen.init 3 (some 2))) =
    [some (some []), some (some [0]), some (some [1]), some (some [2]), some (some [0, 1]), some (some [0, 2]),
      some (some [1, 2]), some none, none] := by decide

end Gen
end CL
