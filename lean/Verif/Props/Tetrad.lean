import Verif.Model.Tetrad
import Verif.Props.Txt
import Verif.Proofs.PC
import Mathlib.Tactic.Ring
import Mathlib.Tactic.FinCases

/-!
# C147, C148: Tetrad text files
-/
namespace CL
namespace Tetrad
open Pattern Txt
variable {n : Nat}

/-! ## Strings -/

theorem splitSkip_skip (sep b : List Char) : ∀ s : List Char, splitSkip sep s.length (s ++ b) = splitSkip sep 0 b
  | [] => rfl
  | x :: s => by
    rw [List.length_cons, List.cons_append, splitSkip]
    exact splitSkip_skip sep b s

theorem splitStr_free {c : Char} {s : List Char} : ∀ {a : List Char}, c ∉ a → splitStr (c :: s) a = [a]
  | [], _ => rfl
  | x :: a, h => by
    have hx : ¬ c = x := fun e => h (by simp [e])
    have ih := splitStr_free (c := c) (s := s) (a := a) fun e => h (by simp [e])
    unfold splitStr at ih ⊢
    rw [splitSkip, if_neg (by simp [List.isPrefixOf, hx]), ih]
    rfl

theorem splitStr_app {c : Char} {s b : List Char} : ∀ {a : List Char}, c ∉ a →
    splitStr (c :: s) (a ++ c :: (s ++ b)) = a :: splitStr (c :: s) b
  | [], _ => by
    unfold splitStr
    rw [List.nil_append, splitSkip, if_pos (by simp [List.isPrefixOf])]
    rw [List.length_cons, Nat.add_sub_cancel, splitSkip_skip]
  | x :: a, h => by
    have hx : ¬ c = x := fun e => h (by simp [e])
    have ih := splitStr_app (c := c) (s := s) (b := b) (a := a) fun e => h (by simp [e])
    unfold splitStr at ih ⊢
    rw [List.cons_append, splitSkip, if_neg (by simp [List.isPrefixOf, hx]), ih]
    rfl

theorem contains_iff (sub l : List Char) : contains sub l = true ↔ sub <:+: l := by
  unfold contains
  rw [List.any_eq_true, List.infix_iff_prefix_suffix]
  simp only [List.mem_tails, List.isPrefixOf_iff_prefix]
  exact ⟨fun ⟨t, h1, h2⟩ => ⟨t, h2, h1⟩, fun ⟨t, h1, h2⟩ => ⟨t, h2, h1⟩⟩

theorem digitChar_digit {a : Nat} (ha : a < 10) : (Nat.digitChar a).isDigit = true ∧ (Nat.digitChar a).toNat - '0'.toNat = a := by
  interval_cases a <;> decide

theorem strNat_digit (k : Nat) (c : Char) (h : c ∈ strNat k) : c.isDigit = true := by
  unfold strNat at h
  split at h
  · simp only [List.mem_singleton] at h; subst h; decide
  · rw [List.mem_reverse, List.mem_map] at h
    obtain ⟨d, hd, rfl⟩ := h
    exact (digitChar_digit (Nat.digits_lt_base (by decide) hd)).1

theorem not_mem_strNat {c : Char} (hc : c.isDigit = false) (k : Nat) : c ∉ strNat k := fun h => by
  rw [strNat_digit k c h] at hc; cases hc

theorem parseNat_strNat (k : Nat) : parseNat (strNat k) = some k := by
  unfold parseNat
  rw [if_pos ⟨strNat_ne_nil k, strNat_digit k⟩]
  congr 1
  unfold strNat
  split
  · rename_i h; subst h; rfl
  · rw [List.foldl_reverse]
    have H : ∀ l : List Nat, (∀ d ∈ l, d < 10) →
        (l.map Nat.digitChar).foldr (fun c a => 10 * a + (c.toNat - '0'.toNat)) 0 = Nat.ofDigits 10 l := by
      intro l
      induction l with
      | nil => intro _; rfl
      | cons d l ih =>
        intro h
        rw [List.map_cons, List.foldr_cons, ih fun d hd => h d (by simp [hd]), (digitChar_digit (h d (by simp))).2, Nat.ofDigits_cons]
        push_cast
        ring
    rw [H _ fun d hd => Nat.digits_lt_base (by decide) hd, Nat.ofDigits_digits]

/-! ## Lines -/

theorem not_mem_xName {c : Char} (hc : c.isDigit = false) (hX : c ≠ 'X') (i : Nat) : c ∉ xName i := by
  unfold xName
  simp only [List.mem_cons, not_or]
  exact ⟨hX, not_mem_strNat hc _⟩

theorem parseIdx_xName (i : Nat) : parseIdx (xName i) = some (i : Int) := by
  unfold parseIdx xName
  have h1 := splitStr_app (c := 'X') (s := []) (b := strNat (i + 1)) (a := []) (by simp)
  simp only [List.nil_append] at h1
  rw [h1, splitStr_free (not_mem_strNat (by decide) _)]
  simp [parseNat_strNat]

theorem parseEnds_edgeLine (k : Nat) (e : Kind × Fin n × Fin n) :
    parseEnds e.1 (edgeLine k e) = some (((e.2.1 : Nat) : Int), ((e.2.2 : Nat) : Int)) := by
  unfold parseEnds edgeLine
  have h1 := splitStr_app (c := '.') (s := [' ']) (b := xName e.2.1 ++ ' ' :: (e.1.str ++ ' ' :: xName e.2.2)) (a := strNat k)
    (not_mem_strNat (by decide) _)
  have hdot : '.' ∉ xName e.2.1 ++ ' ' :: (e.1.str ++ ' ' :: xName e.2.2) := by
    simp only [List.mem_append, List.mem_cons, not_or]
    exact ⟨not_mem_xName (by decide) (by decide) _, by decide, by cases e.1 <;> decide, by decide, not_mem_xName (by decide) (by decide) _⟩
  rw [show strNat k ++ '.' :: ' ' :: (xName e.2.1 ++ ' ' :: (e.1.str ++ ' ' :: xName e.2.2)) =
    strNat k ++ '.' :: ([' '] ++ (xName e.2.1 ++ ' ' :: (e.1.str ++ ' ' :: xName e.2.2))) from rfl, h1, splitStr_free hdot]
  have h2 := splitStr_app (c := ' ') (s := e.1.str ++ [' ']) (b := xName e.2.2) (a := xName e.2.1) (not_mem_xName (by decide) (by decide) _)
  rw [splitStr_free (not_mem_xName (by decide) (by decide) _)] at h2
  have h3 : splitStr (sepOf e.1) (xName e.2.1 ++ ' ' :: (e.1.str ++ ' ' :: xName e.2.2)) = [xName e.2.1, xName e.2.2] := by
    rw [← h2]; simp [sepOf]
  simp [h3, parseIdx_xName]

theorem count_edgeLine (k : Nat) (e : Kind × Fin n × Fin n) {c : Char} (h1 : c.isDigit = false) (h2 : c ≠ 'X') (h3 : c ≠ '.') (h4 : c ≠ ' ') :
    (edgeLine k e).count c = e.1.str.count c := by
  unfold edgeLine
  have hx : ∀ i : Nat, (xName i).count c = 0 := fun i => List.count_eq_zero.2 (not_mem_xName h1 h2 i)
  simp [List.count_append, List.count_cons, hx, List.count_eq_zero.2 (not_mem_strNat h1 _), h3.symm, h4.symm]

theorem kindOf_edgeLine (k : Nat) (e : Kind × Fin n × Fin n) : kindOf (edgeLine k e) = some e.1 := by
  have hin : contains e.1.str (edgeLine k e) = true := by
    rw [contains_iff]
    exact ⟨strNat k ++ '.' :: ' ' :: (xName e.2.1 ++ [' ']), ' ' :: xName e.2.2, by simp [edgeLine]⟩
  have hno : ∀ sub : List Char, ∀ c : Char, c.isDigit = false → c ≠ 'X' → c ≠ '.' → c ≠ ' ' → e.1.str.count c < sub.count c →
      contains sub (edgeLine k e) = false := by
    intro sub c h1 h2 h3 h4 h5
    rw [← Bool.not_eq_true, contains_iff]
    intro h
    have := h.sublist.count_le c
    rw [count_edgeLine k e h1 h2 h3 h4] at this
    omega
  unfold kindOf
  obtain ⟨kd, l, r⟩ := e
  cases kd
  · rw [if_pos hin]
  · rw [if_neg (by rw [hno Kind.dir.str '>' (by decide) (by decide) (by decide) (by decide) (by simp only [Kind.str]; decide)]; simp), if_pos hin]
  · rw [if_neg (by rw [hno Kind.dir.str '-' (by decide) (by decide) (by decide) (by decide) (by simp only [Kind.str]; decide)]; simp),
      if_neg (by rw [hno Kind.und.str '-' (by decide) (by decide) (by decide) (by decide) (by simp only [Kind.str]; decide)]; simp), if_pos hin]

theorem axis_fin (i : Fin n) : axis n ((i : Nat) : Int) = some i := by
  unfold axis
  rw [dif_pos ⟨by omega, by omega⟩]
  simp

theorem readLine_edgeLine (A : Mat n) (k : Nat) (e : Kind × Fin n × Fin n) : readLine A (edgeLine k e) = place A e.1 e.2.1 e.2.2 := by
  unfold readLine
  rw [kindOf_edgeLine]
  simp [parseEnds_edgeLine, axis_fin]

/-! ## The file -/

/-- the edge lines, numbered from `k` -/
def lines : Nat → List (Kind × Fin n × Fin n) → List (List Char)
  | _, [] => []
  | k, e :: es => edgeLine k e :: lines (k + 1) es

theorem nl_edgeLine (k : Nat) (e : Kind × Fin n × Fin n) : ∀ x ∈ edgeLine k e, (x == '\n') = false := by
  intro x hx
  have : x ≠ '\n' := by
    rintro rfl
    have h := count_edgeLine k e (c := '\n') (by decide) (by decide) (by decide) (by decide)
    have h2 : 0 < (edgeLine k e).count '\n' := List.count_pos_iff.2 hx
    rw [h] at h2
    cases h3 : e.1 <;> rw [h3] at h2 <;> revert h2 <;> decide
  simpa using this

theorem split_edgeText : ∀ (E : List (Kind × Fin n × Fin n)) (k : Nat),
    (splitBy (· == '\n') (edgeText k E)).filter (· ≠ []) = lines k E
  | [], k => by simp [edgeText, splitBy, lines]
  | e :: E, k => by
    rw [edgeText, splitBy_app (by decide) (nl_edgeLine k e), List.filter_cons_of_pos, split_edgeText E (k + 1), lines]
    simp [edgeLine]

theorem fold_lines : ∀ (E : List (Kind × Fin n × Fin n)) (k : Nat) (A : Mat n),
    (lines k E).foldlM readLine A = E.foldlM (fun A e => place A e.1 e.2.1 e.2.2) A
  | [], _, _ => rfl
  | e :: E, k, A => by
    rw [lines, List.foldlM_cons, List.foldlM_cons, readLine_edgeLine]
    exact bind_congr fun A' => fold_lines E (k + 1) A'

/-- the names are `X1`, …, `Xn` -/
def names (n : Nat) : List (List Char) := (List.range n).map xName

theorem nameLine_eq (n : Nat) : nameLine (n + 1) = joinSemi (names (n + 1)) := by
  unfold nameLine names
  have H : ∀ (l : List (List Char)) (x : List Char), l.flatMap (fun y => y ++ [';']) ++ x = joinSemi (l ++ [x]) := by
    intro l x
    induction l with
    | nil => rfl
    | cons y l ih =>
      rw [List.flatMap_cons, List.append_assoc, List.append_assoc, ih]
      cases l <;> rfl
  rw [List.range_succ, List.map_append, List.map_singleton, ← H, List.flatMap_map]
  rfl

theorem xName_no {c : Char} (hc : c.isDigit = false) (hX : c ≠ 'X') (m : Nat) : ∀ x ∈ names m, c ∉ x := by
  intro x hx
  obtain ⟨i, -, rfl⟩ := List.mem_map.1 hx
  exact not_mem_xName hc hX i

theorem nameCount_nameLine {n : Nat} (hn : 2 ≤ n) : nameCount (nameLine n) = n := by
  obtain ⟨m, rfl⟩ : ∃ m, n = m + 2 := ⟨n - 2, by omega⟩
  rw [nameLine_eq]
  unfold nameCount
  have hc : ',' ∉ joinSemi (names (m + 1 + 1)) := fun h => by
    rcases joinSemi_mem _ _ h with h | ⟨x, hx, h⟩
    · exact absurd h (by decide)
    · exact xName_no (by decide) (by decide) _ x hx h
  have hs : ';' ∈ joinSemi (names (m + 1 + 1)) := by
    have : ∀ l : List (List Char), 2 ≤ l.length → ';' ∈ joinSemi l := by
      intro l hl
      match l, hl with
      | x :: y :: l, _ => simp [joinSemi]
    exact this _ (by simp [names])
  rw [if_neg hc, if_pos hs]
  have H : ∀ l : List (List Char), l ≠ [] → (∀ x ∈ l, ';' ∉ x) → splitStr [';'] (joinSemi l) = l := by
    intro l
    induction l with
    | nil => intro h; exact absurd rfl h
    | cons x l ih =>
      intro _ h
      cases l with
      | nil => exact splitStr_free (h x (by simp))
      | cons y l =>
        rw [joinSemi]
        have := splitStr_app (c := ';') (s := []) (b := joinSemi (y :: l)) (a := x) (h x (by simp))
        rw [List.nil_append] at this
        rw [this, ih (by simp) fun z hz => h z (by simp [hz])]
  rw [H _ (by simp [names]) (xName_no (by decide) (by decide) _)]
  simp [names]

theorem rows_fileOf (n : Nat) (E : List (Kind × Fin n × Fin n)) : rows (fileOf n E) = nameLine n :: "Graph Edges: ".toList :: lines 1 E := by
  unfold rows fileOf
  have hn : ∀ x ∈ nameLine n, (x == '\n') = false := by
    intro x hx
    have : x ≠ '\n' := by
      rintro rfl
      unfold nameLine at hx
      simp only [List.mem_append, List.mem_flatMap, List.mem_cons, List.not_mem_nil, or_false] at hx
      rcases hx with ⟨i, -, h | h⟩ | h | h
      · exact not_mem_xName (by decide) (by decide) _ h
      · exact absurd h (by decide)
      · exact absurd h (by decide)
      · exact not_mem_strNat (by decide) _ h
    simpa using this
  rw [splitBy_app (by decide) (by decide), splitBy_app (by decide) hn,
    show ('\n' :: ("Graph Edges: ".toList ++ '\n' :: edgeText 1 E)) = [] ++ '\n' :: ("Graph Edges: ".toList ++ '\n' :: edgeText 1 E) from rfl,
    splitBy_app (by decide) (by simp), splitBy_app (by decide) (by decide), List.filter_cons_of_pos (by decide),
    List.filter_cons_of_pos (by simp [nameLine]), List.filter_cons_of_neg (by simp), List.filter_cons_of_pos (by decide), split_edgeText]
  rfl

theorem read_fileOf (hn : 2 ≤ n) (E : List (Kind × Fin n × Fin n)) :
    read (fileOf n E) = (E.foldlM (fun A e => place A e.1 e.2.1 e.2.2) (start n)).map fun A => ⟨n, A⟩ := by
  unfold read
  rw [rows_fileOf]
  have : ∀ m, m = n → ((lines 1 E).foldlM readLine (start m)).map (fun A => (⟨m, A⟩ : Σ n, Mat n)) =
      (E.foldlM (fun A e => place A e.1 e.2.1 e.2.2) (start n)).map fun A => ⟨n, A⟩ := by
    rintro m rfl
    rw [fold_lines]
  exact this _ (nameCount_nameLine hn)

/-! ## What a list of edges says -/

/-- The edge `e` says that the cell `(i, j)` of the matrix is `v`. -/
def Says (e : Kind × Fin n × Fin n) (i j : Fin n) (v : Int) : Prop :=
  (i = e.2.1 ∧ j = e.2.2 ∧ v = e.1.vals.1) ∨ (i = e.2.2 ∧ j = e.2.1 ∧ v = e.1.vals.2)

/-- no edge from a variable to itself, and no two edges contradict each other -/
def Good (E : List (Kind × Fin n × Fin n)) : Prop :=
  (∀ e ∈ E, e.2.1 ≠ e.2.2) ∧ ∀ e ∈ E, ∀ e' ∈ E, ∀ i j v v', Says e i j v → Says e' i j v' → v = v'

/-- `A` is the matrix of the edges `E`. -/
def MatrixOf (E : List (Kind × Fin n × Fin n)) (A : Mat n) : Prop :=
  (∀ e ∈ E, ∀ i j v, Says e i j v → A i j = v) ∧ (∀ i, A i i = nan) ∧ ∀ i j, i ≠ j → (∀ e ∈ E, ∀ v, ¬ Says e i j v) → A i j = -1

theorem says_flip {e : Kind × Fin n × Fin n} {i j : Fin n} {v : Int} (h : Says e i j v) : ∃ v', Says e j i v' := by
  rcases h with ⟨rfl, rfl, -⟩ | ⟨rfl, rfl, -⟩
  · exact ⟨_, Or.inr ⟨rfl, rfl, rfl⟩⟩
  · exact ⟨_, Or.inl ⟨rfl, rfl, rfl⟩⟩

theorem says_val {e : Kind × Fin n × Fin n} {i j : Fin n} {v : Int} (h : Says e i j v) : v ≠ -1 := by
  rcases h with ⟨-, -, rfl⟩ | ⟨-, -, rfl⟩ <;> cases e.1 <;> decide

theorem place_step {P : List (Kind × Fin n × Fin n)} {A : Mat n} (hP : Good P) (hA : MatrixOf P A) (e : Kind × Fin n × Fin n) :
    (Good (P ++ [e]) → ∃ A', place A e.1 e.2.1 e.2.2 = some A' ∧ MatrixOf (P ++ [e]) A') ∧
    (¬ Good (P ++ [e]) → place A e.1 e.2.1 e.2.2 = none) := by
  obtain ⟨k, l, r⟩ := e
  obtain ⟨h1, h2, h3⟩ := hA
  have s1 : Says (k, l, r) l r k.vals.1 := Or.inl ⟨rfl, rfl, rfl⟩
  have s2 : Says (k, l, r) r l k.vals.2 := Or.inr ⟨rfl, rfl, rfl⟩
  by_cases hlr : l = r
  · subst hlr
    refine ⟨fun hg => absurd rfl (hg.1 (k, l, l) (by simp)), fun _ => ?_⟩
    unfold place
    rw [if_pos (by simp [h2, nan]), if_pos]
    simp only [h2]
    left; cases k <;> decide
  by_cases hs : ∃ e' ∈ P, ∃ v, Says e' l r v
  · obtain ⟨e', he', v, hv⟩ := hs
    obtain ⟨v', hv'⟩ := says_flip hv
    have ha := h1 e' he' _ _ _ hv
    have ha' := h1 e' he' _ _ _ hv'
    unfold place
    rw [if_pos ⟨by rw [ha]; exact says_val hv, by rw [ha']; exact says_val hv'⟩]
    refine ⟨fun hg => ?_, fun hg => ?_⟩
    · have e1 := hg.2 (k, l, r) (by simp) e' (by simp [he']) _ _ _ _ s1 hv
      have e2 := hg.2 (k, l, r) (by simp) e' (by simp [he']) _ _ _ _ s2 hv'
      refine ⟨A, by rw [if_neg]; simp [ha, ha', e1, e2], ?_, h2, ?_⟩
      · intro f hf i j w hw
        rcases List.mem_append.1 hf with hf | hf
        · exact h1 f hf i j w hw
        · rw [List.mem_singleton] at hf
          subst hf
          rcases hw with ⟨rfl, rfl, rfl⟩ | ⟨rfl, rfl, rfl⟩
          · exact ha.trans e1.symm
          · exact ha'.trans e2.symm
      · intro i j hij hf
        exact h3 i j hij fun f hf' => hf f (by simp [hf'])
    · rw [if_pos]
      by_contra hc
      rw [not_or, not_not, not_not] at hc
      obtain ⟨c1, c2⟩ := hc
      refine hg ⟨?_, ?_⟩
      · intro f hf
        rcases List.mem_append.1 hf with hf | hf
        · exact hP.1 f hf
        · rw [List.mem_singleton] at hf; subst hf; exact hlr
      · have key : ∀ f ∈ P ++ [(k, l, r)], ∀ i j w, Says f i j w → A i j = w := by
          intro f hf i j w hw
          rcases List.mem_append.1 hf with hf | hf
          · exact h1 f hf i j w hw
          · rw [List.mem_singleton] at hf
            subst hf
            rcases hw with ⟨rfl, rfl, rfl⟩ | ⟨rfl, rfl, rfl⟩
            · exact c1
            · exact c2
        intro f hf f' hf' i j w w' hw hw'
        rw [← key f hf i j w hw, ← key f' hf' i j w' hw']
  · have hs1 : ∀ e' ∈ P, ∀ v, ¬ Says e' l r v := fun e' he' v hv => hs ⟨e', he', v, hv⟩
    have hs2 : ∀ e' ∈ P, ∀ v, ¬ Says e' r l v := fun e' he' v hv => by
      obtain ⟨v', hv'⟩ := says_flip hv
      exact hs1 e' he' v' hv'
    have ha := h3 l r hlr hs1
    have hw : place A k l r = some (setCell (setCell A l r k.vals.1) r l k.vals.2) := by
      unfold place
      rw [if_neg (by simp [ha])]
    have hcell : ∀ i j, setCell (setCell A l r k.vals.1) r l k.vals.2 i j =
        if i = r ∧ j = l then k.vals.2 else if i = l ∧ j = r then k.vals.1 else A i j := fun i j => rfl
    refine ⟨fun _ => ⟨_, hw, ?_, ?_, ?_⟩, fun hg => absurd ⟨?_, ?_⟩ hg⟩
    · intro f hf i j w hfw
      rw [hcell]
      rcases List.mem_append.1 hf with hf1 | hf
      · rw [if_neg, if_neg]
        · exact h1 f hf1 i j w hfw
        · rintro ⟨rfl, rfl⟩; exact hs1 f hf1 w hfw
        · rintro ⟨rfl, rfl⟩; exact hs2 f hf1 w hfw
      · rw [List.mem_singleton] at hf
        subst hf
        rcases hfw with ⟨rfl, rfl, rfl⟩ | ⟨rfl, rfl, rfl⟩
        · rw [if_neg (fun h => hlr h.1), if_pos ⟨rfl, rfl⟩]
        · rw [if_pos ⟨rfl, rfl⟩]
    · intro i
      rw [hcell, if_neg, if_neg]
      · exact h2 i
      · rintro ⟨rfl, h⟩; exact hlr h
      · rintro ⟨rfl, h⟩; exact hlr h.symm
    · intro i j hij hf
      rw [hcell, if_neg, if_neg]
      · exact h3 i j hij fun f hf' => hf f (by simp [hf'])
      · rintro ⟨rfl, rfl⟩; exact hf (k, i, j) (by simp) _ s1
      · rintro ⟨rfl, rfl⟩; exact hf (k, j, i) (by simp) _ s2
    · intro f hf
      rcases List.mem_append.1 hf with hf | hf
      · exact hP.1 f hf
      · rw [List.mem_singleton] at hf; subst hf; exact hlr
    · have hne : ∀ f ∈ P, ∀ i j w w', Says f i j w → Says (k, l, r) i j w' → False := by
        intro f hf i j w w' hw1 hw'
        rcases hw' with ⟨rfl, rfl, -⟩ | ⟨rfl, rfl, -⟩
        · exact hs1 f hf w hw1
        · exact hs2 f hf w hw1
      intro f hf f' hf' i j w w' hw hw'
      rcases List.mem_append.1 hf with hf | hf <;> rcases List.mem_append.1 hf' with hf' | hf'
      · exact hP.2 f hf f' hf' i j w w' hw hw'
      · rw [List.mem_singleton] at hf'; subst hf'; exact (hne f hf i j w w' hw hw').elim
      · rw [List.mem_singleton] at hf; subst hf; exact (hne f' hf' i j w' w hw' hw).elim
      · rw [List.mem_singleton] at hf hf'
        subst hf; subst hf'
        rcases hw with ⟨rfl, rfl, rfl⟩ | ⟨rfl, rfl, rfl⟩ <;> rcases hw' with ⟨h, h', rfl⟩ | ⟨h, h', rfl⟩ <;>
          first | rfl | exact absurd h hlr | exact absurd h.symm hlr

theorem good_prefix {P Q : List (Kind × Fin n × Fin n)} (h : Good (P ++ Q)) : Good P :=
  ⟨fun e he => h.1 e (by simp [he]), fun e he e' he' => h.2 e (by simp [he]) e' (by simp [he'])⟩

theorem fold_place : ∀ (E P : List (Kind × Fin n × Fin n)) (A : Mat n), Good P → MatrixOf P A →
    (Good (P ++ E) → ∃ A', E.foldlM (fun A e => place A e.1 e.2.1 e.2.2) A = some A' ∧ MatrixOf (P ++ E) A') ∧
    (¬ Good (P ++ E) → E.foldlM (fun A e => place A e.1 e.2.1 e.2.2) A = none)
  | [], P, A, hP, hA => by
    rw [List.append_nil]
    exact ⟨fun _ => ⟨A, rfl, hA⟩, fun h => absurd hP h⟩
  | e :: E, P, A, hP, hA => by
    have hs := place_step hP hA e
    rw [show P ++ e :: E = (P ++ [e]) ++ E by simp]
    simp only [List.foldlM_cons]
    by_cases hg : Good (P ++ [e])
    · obtain ⟨A', hA', hm⟩ := hs.1 hg
      rw [hA']
      exact fold_place E (P ++ [e]) A' hg hm
    · rw [hs.2 hg]
      exact ⟨fun h => absurd (good_prefix h) hg, fun _ => rfl⟩

theorem matrixOf_start : MatrixOf ([] : List (Kind × Fin n × Fin n)) (start n) :=
  ⟨by simp, fun i => by simp [start], fun i j h _ => by simp [start, h]⟩

/-- **C148** A Tetrad file over `X1`, …, `Xn` (two or more variables) with the edge lines `E`: `tetrad2adjmat` returns the matrix of the edges if no
two lines contradict each other and no line joins a variable with itself, and raises an error otherwise. -/
theorem C148_read_edges (hn : 2 ≤ n) (E : List (Kind × Fin n × Fin n)) :
    (Good E → ∃ A : Mat n, read (fileOf n E) = some ⟨n, A⟩ ∧ MatrixOf E A) ∧ (¬ Good E → read (fileOf n E) = none) := by
  rw [read_fileOf hn]
  have h := fold_place E [] (start n) ⟨by simp, by simp⟩ matrixOf_start
  rw [List.nil_append] at h
  exact ⟨fun hg => by obtain ⟨A, hA, hm⟩ := h.1 hg; exact ⟨A, by rw [hA]; rfl, hm⟩, fun hg => by rw [h.2 hg]; rfl⟩

/-- `A` is an adjacency matrix: NaN on the diagonal, and each pair of variables has two marks (0 or 1) or none (-1). -/
def Valid (A : Mat n) : Prop :=
  (∀ i, A i i = nan) ∧ ∀ i j, i ≠ j → (A i j = -1 ∧ A j i = -1) ∨ ((A i j = 0 ∨ A i j = 1) ∧ (A j i = 0 ∨ A j i = 1))

theorem mem_findVal (A : Mat n) (v : Int) (i j : Fin n) : (i, j) ∈ findVal A v ↔ A i j = v := by
  unfold findVal
  rw [List.mem_filter]
  simp [mem_allPairs]

theorem mem_edgeList (A : Mat n) (k : Kind) (i j : Fin n) : (k, i, j) ∈ edgeList A ↔
    A i j = k.vals.1 ∧ A j i = k.vals.2 ∧ (k ≠ .dir → i < j) := by
  unfold edgeList findFullyDirected findUndirected
  simp only [List.mem_append, List.mem_map, List.mem_filter, mem_findVal, Prod.mk.injEq, Prod.exists, beq_iff_eq, decide_eq_true_eq,
    Bool.and_eq_true]
  cases k <;> simp [Kind.vals] <;> tauto

/-- **C147** Round trip: `tetrad2adjmat` returns the matrix that `adjmat2tetrad` wrote, for two or more variables. -/
theorem C147_roundtrip_partial (hn : 2 ≤ n) {A : Mat n} (hA : Valid A) : read (write A) = some ⟨n, A⟩ := by
  have key : ∀ e ∈ edgeList A, ∀ i j v, Says e i j v → A i j = v := by
    rintro ⟨k, l, r⟩ he i j v h
    rw [mem_edgeList] at he
    rcases h with ⟨rfl, rfl, rfl⟩ | ⟨rfl, rfl, rfl⟩
    · exact he.1
    · exact he.2.1
  have hg : Good (edgeList A) := by
    refine ⟨?_, fun e he e' he' i j v v' h h' => (key e he i j v h).symm.trans (key e' he' i j v' h')⟩
    rintro ⟨k, l, r⟩ he (hlr : l = r)
    subst hlr
    rw [mem_edgeList, hA.1] at he
    revert he
    cases k <;> simp [Kind.vals, nan]
  obtain ⟨B, hB, h1, h2, h3⟩ := (C148_read_edges hn (edgeList A)).1 hg
  unfold write
  rw [hB]
  have : B = A := by
    funext i j
    by_cases hij : i = j
    · subst hij; rw [h2, hA.1]
    rcases hA.2 i j hij with ⟨a1, a2⟩ | ⟨a1, a2⟩
    · rw [a1]
      refine h3 i j hij fun e he v hv => ?_
      have := key e he i j v hv
      exact says_val hv (this.symm.trans a1)
    · have hex : ∃ e ∈ edgeList A, ∃ v, Says e i j v := by
        rcases a1 with a1 | a1 <;> rcases a2 with a2 | a2
        · rcases lt_or_gt_of_ne hij with h | h
          · exact ⟨(.und, i, j), (mem_edgeList _ _ _ _).2 ⟨a1, a2, fun _ => h⟩, _, Or.inl ⟨rfl, rfl, rfl⟩⟩
          · exact ⟨(.und, j, i), (mem_edgeList _ _ _ _).2 ⟨a2, a1, fun _ => h⟩, _, Or.inr ⟨rfl, rfl, rfl⟩⟩
        · exact ⟨(.dir, j, i), (mem_edgeList _ _ _ _).2 ⟨a2, a1, by simp⟩, _, Or.inr ⟨rfl, rfl, rfl⟩⟩
        · exact ⟨(.dir, i, j), (mem_edgeList _ _ _ _).2 ⟨a1, a2, by simp⟩, _, Or.inl ⟨rfl, rfl, rfl⟩⟩
        · rcases lt_or_gt_of_ne hij with h | h
          · exact ⟨(.bi, i, j), (mem_edgeList _ _ _ _).2 ⟨a1, a2, fun _ => h⟩, _, Or.inl ⟨rfl, rfl, rfl⟩⟩
          · exact ⟨(.bi, j, i), (mem_edgeList _ _ _ _).2 ⟨a2, a1, fun _ => h⟩, _, Or.inr ⟨rfl, rfl, rfl⟩⟩
      obtain ⟨e, he, v, hv⟩ := hex
      rw [h1 e he i j v hv, key e he i j v hv]
  rw [this]

/-- **C147 violated** for one variable: the matrix read back has no rows. -/
theorem C147_one_variable_violated (A : Mat 1) (hA : Valid A) : ∃ B : Mat 0, read (write A) = some ⟨0, B⟩ := by
  have h : edgeList A = [] := by
    refine List.eq_nil_iff_forall_not_mem.2 ?_
    rintro ⟨k, l, r⟩ he
    rw [mem_edgeList, Subsingleton.elim r l, hA.1] at he
    revert he
    cases k <;> simp [Kind.vals, nan]
  refine ⟨start 0, ?_⟩
  unfold write read
  rw [h, rows_fileOf]
  rfl

example : Valid (fun i j : Fin 3 => if i = j then nan else if (i, j) = (0, 1) then 1 else if (i, j) = (1, 0) then 0 else
    if i = 2 ∨ j = 2 then (if i = 0 ∨ j = 0 then 1 else 0) else -1) := by unfold Valid nan; decide
example : Good ([(.dir, 0, 1), (.und, 1, 2), (.dir, 0, 1)] : List (Kind × Fin 3 × Fin 3)) := by
  refine ⟨by decide, ?_⟩
  intro e he e' he' i j v v' h h'
  revert h h'
  fin_cases he <;> fin_cases he' <;> rintro (⟨rfl, rfl, rfl⟩ | ⟨rfl, rfl, rfl⟩) (⟨h1, h2, rfl⟩ | ⟨h1, h2, rfl⟩) <;>
    first | rfl | exact absurd h1 (by decide) | exact absurd h2 (by decide)
example : ¬ Good ([(.dir, 0, 1), (.dir, 1, 0)] : List (Kind × Fin 2 × Fin 2)) := fun h =>
  absurd (h.2 (.dir, 0, 1) (by simp) (.dir, 1, 0) (by simp) 0 1 1 0 (Or.inl ⟨rfl, rfl, rfl⟩) (Or.inr ⟨rfl, rfl, rfl⟩)) (by decide)

/-! ## `rearrange_columns` -/

/-- **C149** If the columns of the file are a permutation of the variables `X1`, …, `Xn`, column `i` being `X(var i + 1)`, then the rearranged matrix
has in the cell of two variables what the given matrix has in the cell of their columns. -/
theorem C149_rearrange (A : Mat n) (var : Fin n → Fin n) (hv : Function.Injective var) (h : 0 < n) (i j : Fin n) :
    rearrange A var h (var i) (var j) = A i j := by
  have key : ∀ i, newIndices var h (var i) = i := by
    have H : ∀ (l : List (Fin n)) (f : Fin n → Fin n) (i : Fin n),
        l.foldl (fun f i => fun a => if a = var i then i else f a) f (var i) = if i ∈ l then i else f (var i) := by
      intro l
      induction l with
      | nil => simp
      | cons x l ih =>
        intro f i
        rw [List.foldl_cons, ih]
        by_cases h1 : i ∈ l
        · simp [h1]
        · by_cases h2 : i = x
          · subst h2; simp [h1]
          · simp [h1, h2, hv.ne h2]
    intro i
    unfold newIndices
    rw [H]
    split_ifs with hi
    · rfl
    · obtain ⟨m, rfl⟩ : ∃ m, n = m + 1 := ⟨n - 1, by omega⟩
      rw [List.finRange_succ, List.drop_one, List.tail_cons] at hi
      rcases Fin.eq_zero_or_eq_succ i with h0 | ⟨j, rfl⟩
      · rw [h0]; rfl
      · exact absurd (List.mem_map.2 ⟨j, List.mem_finRange j, rfl⟩) hi
  unfold rearrange
  rw [key, key]

example : Function.Injective (![2, 0, 1] : Fin 3 → Fin 3) := by decide

end Tetrad
end CL
