import Verif.Model.CitSession
import Verif.Props.Cache
import Verif.Props.PCComplete
import Verif.Proofs.DSep
import Mathlib.Algebra.Order.Ring.Rat
import Mathlib.Tactic.NormNum
import Mathlib.Data.Rat.Encodable

/-!
# C177-C180: registry, crash-safe caches, the d-separation test, the data hash
-/
open Spec
namespace CL.Cit

/-! ## C177 -/

/-- The built-in tests (documentation of `CIT`). -/
def builtins {C : Type} : List (String × TestClass C) :=
  [("fisherz", .fisherZ), ("kci", .kci), ("fastkci", .fastKci), ("rcit", .rcit), ("chisq", .chisqOrGsq "chisq"), ("gsq", .chisqOrGsq "gsq"),
   ("mv_fisherz", .mvFisherZ), ("mc_fisherz", .mcFisherZ), ("d_separation", .dSeparation)]

theorem foldl_register {C : Type} (isTest : C → Bool) (name : String) : ∀ (h : List (String × C)) (reg : Registry C),
    (∀ p ∈ h, p.1 = name → isTest p.2 = false) → h.foldl (fun reg p => (register isTest reg p.1 p.2).1) reg name = reg name
  | [], _, _ => rfl
  | p :: h, reg, hp => by
    rw [List.foldl_cons, foldl_register isTest name h _ fun q hq => hp q (List.mem_cons_of_mem _ hq)]
    unfold register
    by_cases ht : isTest p.2 = true
    · rw [if_pos ht]
      have hne : name ≠ p.1 := by
        rintro e
        rw [hp p List.mem_cons_self e.symm] at ht
        cases ht
      exact if_neg hne
    · rw [if_neg ht]

/-- **C177.** The class registered last under a name is the one `CIT` builds, whatever was registered before and under other names. -/
theorem C177_last_registration {C : Type} (isTest : C → Bool) (before after : List (String × C)) (name : String) (c : C) (hc : isTest c = true)
    (hafter : ∀ p ∈ after, p.1 = name → isTest p.2 = false) :
    cit (registerAll isTest (before ++ (name, c) :: after)) name = some (.custom c) := by
  have h : registerAll isTest (before ++ (name, c) :: after) name = some c := by
    unfold registerAll
    rw [List.foldl_append, List.foldl_cons, foldl_register isTest name after _ hafter]
    unfold register
    rw [if_pos hc]
    exact if_pos rfl
  unfold cit
  rw [h]

/-- **C177.** A name under which no test was registered gives the documented built-in test, and raises for all other names. -/
theorem C177_builtin {C : Type} (isTest : C → Bool) (h : List (String × C)) (method : String) (hn : ∀ p ∈ h, p.1 = method → isTest p.2 = false) :
    (∀ t, (method, t) ∈ builtins → cit (registerAll isTest h) method = some t) ∧
    ((∀ t : TestClass C, (method, t) ∉ builtins) → cit (registerAll isTest h) method = none) := by
  have e : registerAll isTest h method = none := by
    unfold registerAll
    rw [foldl_register isTest method h _ hn]
  unfold cit
  rw [e]
  constructor
  · intro t ht
    simp only [builtins, List.mem_cons, Prod.mk.injEq, List.not_mem_nil, or_false] at ht
    rcases ht with ⟨rfl, rfl⟩ | ⟨rfl, rfl⟩ | ⟨rfl, rfl⟩ | ⟨rfl, rfl⟩ | ⟨rfl, rfl⟩ | ⟨rfl, rfl⟩ | ⟨rfl, rfl⟩ | ⟨rfl, rfl⟩ | ⟨rfl, rfl⟩ <;> simp
  · intro ht
    have h1 := ht .fisherZ; have h2 := ht .kci; have h3 := ht .fastKci; have h4 := ht .rcit
    have h5 := ht (.chisqOrGsq "chisq"); have h6 := ht (.chisqOrGsq "gsq"); have h7 := ht .mvFisherZ
    have h8 := ht .mcFisherZ; have h9 := ht .dSeparation
    simp [builtins] at h1 h2 h3 h4 h5 h6 h7 h8 h9
    simp [h1, h2, h3, h4, h5, h6, h7, h8, h9]

/-- **C177.** Registering a class that is not a test raises and leaves the registry as it was; registering a test never raises. -/
theorem C177_rejected {C : Type} (isTest : C → Bool) (reg : Registry C) (name : String) (c : C) :
    ((register isTest reg name c).2 = true ↔ isTest c = false) ∧ (isTest c = false → (register isTest reg name c).1 = reg) := by
  unfold register
  by_cases h : isTest c = true
  · rw [if_pos h]
    simp [h]
  · rw [if_neg h]
    exact ⟨⟨fun _ => by simpa using h, fun _ => rfl⟩, fun _ => rfl⟩

/-- A registration and a failed one under the same name. -/
example : cit (registerAll (fun c : Nat => c < 10) [("mine", 3), ("mine", 12), ("other", 4)]) "mine" = some (.custom 3) := by decide

/-! ## C178 -/

variable {P : Type}

theorem lget_lput : ∀ (d : LDict P) (k k' : List Char) (v : CVal P), lget (lput d k v) k' = if k' = k then some v else lget d k'
  | [], k, k', v => by
    unfold lput lget
    by_cases h : k' = k
    · subst h; simp
    · have h' : ¬ k = k' := fun e => h e.symm
      simp [h, h']
  | (a, b) :: d, k, k', v => by
    have ih := lget_lput d k k' v
    unfold lput
    unfold lget at ih ⊢
    by_cases h : a = k
    · subst h
      by_cases h2 : k' = a
      · subst h2; simp
      · have h2' : ¬ a = k' := fun e => h2 e.symm
        simp [h2, h2']
    · rw [if_neg h]
      by_cases h2 : a = k'
      · have h3 : ¬ k' = k := fun e => h (h2.trans e)
        simp [h2, h3]
      · rw [List.find?_cons_of_neg (by simpa using h2), ih, List.find?_cons_of_neg (by simpa using h2)]

/-- No quotes or closing braces. -/
def CleanStr (s : List Char) : Prop := '"' ∉ s ∧ '}' ∉ s

/-- All strings of the dictionary are clean. -/
def CleanDict (d : LDict P) : Prop := ∀ e ∈ d, CleanStr e.1 ∧ ∀ s, e.2 = .str s → CleanStr s

theorem clean_lput {d : LDict P} {k : List Char} {v : CVal P} (hd : CleanDict d) (hk : CleanStr k) (hv : ∀ s, v = .str s → CleanStr s) :
    CleanDict (lput d k v) := by
  induction d with
  | nil =>
    intro e he
    obtain rfl := List.mem_singleton.1 he
    exact ⟨hk, hv⟩
  | cons p d ih =>
    obtain ⟨a, b⟩ := p
    unfold lput
    by_cases h : a = k
    · rw [if_pos h]
      rintro e (_ | ⟨_, he⟩)
      · exact ⟨(hd (a, b) List.mem_cons_self).1, hv⟩
      · exact hd e (List.mem_cons_of_mem _ he)
    · rw [if_neg h]
      rintro e (_ | ⟨_, he⟩)
      · exact hd (a, b) List.mem_cons_self
      · exact ih (fun e he => hd e (List.mem_cons_of_mem _ he)) e he

theorem lput_ne_nil (d : LDict P) (k : List Char) (v : CVal P) : lput d k v ≠ [] := by
  cases d with
  | nil => simp [lput]
  | cons p d => unfold lput; split <;> simp

theorem takeUntil_eq {c : Char} : ∀ {a b : List Char}, c ∉ a → takeUntil c (a ++ c :: b) = some (a, b)
  | [], b, _ => by simp [takeUntil]
  | x :: a, b, h => by
    have hx : x ≠ c := fun e => h (e ▸ List.mem_cons_self)
    simp [takeUntil, hx, takeUntil_eq fun hc => h (List.mem_cons_of_mem _ hc)]

/-- What may follow a value. -/
def Follows (t : List Char) : Prop := ∃ c u, t = c :: u ∧ (c = ',' ∨ c = '\n')

theorem span_num {a t : List Char} (ha : ',' ∉ a ∧ '\n' ∉ a) (ht : Follows t) :
    (a ++ t).takeWhile (fun x => x ≠ ',' && x ≠ '\n') = a ∧ (a ++ t).dropWhile (fun x => x ≠ ',' && x ≠ '\n') = t := by
  induction a with
  | nil =>
    obtain ⟨c, u, rfl, rfl | rfl⟩ := ht <;> simp
  | cons x a ih =>
    have hx1 : x ≠ ',' := fun e => ha.1 (e ▸ List.mem_cons_self)
    have hx2 : x ≠ '\n' := fun e => ha.2 (e ▸ List.mem_cons_self)
    obtain ⟨h1, h2⟩ := ih ⟨fun h => ha.1 (List.mem_cons_of_mem _ h), fun h => ha.2 (List.mem_cons_of_mem _ h)⟩
    simp only [List.cons_append]
    rw [List.takeWhile_cons_of_pos (by simp [hx1, hx2]), List.dropWhile_cons_of_pos (by simp [hx1, hx2]), h1, h2]
    exact ⟨rfl, rfl⟩

theorem loadVal_dump (N : NumText P) (v : CVal P) (hv : ∀ s, v = .str s → CleanStr s) {t : List Char} (ht : Follows t) :
    loadVal N (dumpVal N v ++ t) = some (v, t) := by
  cases v with
  | str s =>
    have : dumpVal N (CVal.str s) ++ t = '"' :: (s ++ '"' :: t) := by simp [dumpVal]
    rw [this]
    show (takeUntil '"' (s ++ '"' :: t)).map (fun p => ((CVal.str p.1 : CVal P), p.2)) = _
    rw [takeUntil_eq (hv s rfl).1]
    rfl
  | pval p =>
    obtain ⟨h1, h2⟩ := span_num ⟨(N.clean p).1, (N.clean p).2.1⟩ ht
    have hq := (N.clean p).2.2.2
    have hne : N.num p ++ t ≠ [] := by
      obtain ⟨c, u, rfl, -⟩ := ht
      simp
    have hhd : ∀ u, N.num p ++ t ≠ '"' :: u := by
      intro u e
      cases hn : N.num p with
      | nil =>
        rw [hn] at e
        obtain ⟨c, w, rfl, rfl | rfl⟩ := ht <;> simp at e
      | cons x xs =>
        rw [hn] at e hq
        simp only [List.cons_append, List.cons.injEq] at e
        exact hq (e.1 ▸ List.mem_cons_self)
    show loadVal N (N.num p ++ t) = _
    unfold loadVal
    split
    · rename_i u e
      exact (hhd u e).elim
    · rw [h1, h2, N.parse_num]
      rfl

theorem loadItem_dump (N : NumText P) (e : List Char × CVal P) (he : CleanStr e.1 ∧ ∀ s, e.2 = .str s → CleanStr s) {t : List Char} (ht : Follows t) :
    loadItem N (dumpItem N e ++ t) = some (e, t) := by
  have h0 : dumpItem N e ++ t = ' ' :: ' ' :: '"' :: (e.1 ++ '"' :: (':' :: ' ' :: (dumpVal N e.2 ++ t))) := by
    unfold dumpItem
    simp
  have h1 : ∀ u, loadItem N (' ' :: ' ' :: '"' :: u) = (takeUntil '"' u).bind fun p => match p.2 with
      | ':' :: ' ' :: u => (loadVal N u).map fun q => ((p.1, q.1), q.2)
      | _ => none := fun u => rfl
  rw [h0, h1, takeUntil_eq he.1.1, Option.bind_some]
  show (loadVal N (dumpVal N e.2 ++ t)).map (fun q => ((e.1, q.1), q.2)) = _
  rw [loadVal_dump N e.2 he.2 ht]
  rfl

theorem dumpItem_ne (N : NumText P) (e : List Char × CVal P) : 0 < (dumpItem N e).length := by
  unfold dumpItem
  simp

theorem loadItems_dump (N : NumText P) : ∀ (d : LDict P), d ≠ [] → CleanDict d → ∀ f, (dumpItems N d).length ≤ f →
    loadItems N f (dumpItems N d ++ ['}']) = some d
  | [], h, _, _, _ => (h rfl).elim
  | [e], _, hc, f, hf => by
    obtain ⟨g, rfl⟩ : ∃ g, f = g + 1 := ⟨f - 1, by
      have := dumpItem_ne N e
      simp only [dumpItems, List.length_append, List.length_singleton] at hf
      omega⟩
    have h0 : dumpItems N [e] ++ ['}'] = dumpItem N e ++ ('\n' :: '}' :: []) := by simp [dumpItems]
    rw [h0]
    unfold loadItems
    rw [loadItem_dump N e (hc e List.mem_cons_self) ⟨_, _, rfl, Or.inr rfl⟩]
    rfl
  | e :: e' :: d, _, hc, f, hf => by
    have hlen : (dumpItems N (e :: e' :: d)).length = (dumpItem N e).length + ((dumpItems N (e' :: d)).length + 2) := by
      simp [dumpItems]
    obtain ⟨g, rfl⟩ : ∃ g, f = g + 1 := ⟨f - 1, by omega⟩
    have ih := loadItems_dump N (e' :: d) (by simp) (fun x hx => hc x (List.mem_cons_of_mem _ hx)) g (by omega)
    have h0 : dumpItems N (e :: e' :: d) ++ ['}'] = dumpItem N e ++ (',' :: '\n' :: (dumpItems N (e' :: d) ++ ['}'])) := by simp [dumpItems]
    rw [h0]
    unfold loadItems
    rw [loadItem_dump N e (hc e List.mem_cons_self) ⟨_, _, rfl, Or.inl rfl⟩, Option.bind_some]
    show (loadItems N g (dumpItems N (e' :: d) ++ ['}'])).map (e :: ·) = _
    rw [ih]
    rfl

/-- The file reads back as it was written. -/
theorem loads_dumps (N : NumText P) (d : LDict P) (hd : d ≠ []) (hc : CleanDict d) : loads N (dumps N d) = some d := by
  unfold dumps loads
  exact loadItems_dump N d hd hc _ (by simp)

theorem takeUntil_mem {c x : Char} : ∀ {t : List Char} {a b : List Char}, takeUntil c t = some (a, b) → x ∈ b → x ∈ t
  | [], _, _, h, _ => by cases h
  | y :: t, a, b, h, hx => by
    unfold takeUntil at h
    by_cases hy : y = c
    · rw [if_pos hy] at h
      cases h
      exact List.mem_cons_of_mem _ hx
    · rw [if_neg hy] at h
      obtain ⟨⟨a', b'⟩, h1, h2⟩ := Option.map_eq_some_iff.1 h
      cases h2
      exact List.mem_cons_of_mem _ (takeUntil_mem h1 hx)

theorem loadVal_mem {N : NumText P} {t u : List Char} {v : CVal P} {x : Char} (h : loadVal N t = some (v, u)) (hx : x ∈ u) : x ∈ t := by
  unfold loadVal at h
  split at h
  · obtain ⟨⟨a, b⟩, h1, h2⟩ := Option.map_eq_some_iff.1 h
    cases h2
    exact List.mem_cons_of_mem _ (takeUntil_mem h1 hx)
  · obtain ⟨a, h1, h2⟩ := Option.map_eq_some_iff.1 h
    cases h2
    exact (List.dropWhile_sublist _).subset hx

theorem loadItem_mem {N : NumText P} {t u : List Char} {e : List Char × CVal P} {x : Char} (h : loadItem N t = some (e, u)) (hx : x ∈ u) : x ∈ t := by
  unfold loadItem at h
  split at h
  · obtain ⟨⟨a, b⟩, h1, h2⟩ := Option.bind_eq_some_iff.1 h
    dsimp only at h2
    split at h2
    · rename_i w
      obtain ⟨⟨v, r⟩, h3, h4⟩ := Option.map_eq_some_iff.1 h2
      cases h4
      have := loadVal_mem h3 hx
      have := takeUntil_mem (x := x) h1 (List.mem_cons_of_mem _ (List.mem_cons_of_mem _ this))
      simp [this]
    · cases h2
  · cases h

theorem loadItems_brace {N : NumText P} : ∀ {f : Nat} {t : List Char} {d : LDict P}, loadItems N f t = some d → '}' ∈ t
  | 0, _, _, h => by cases h
  | f + 1, t, d, h => by
    unfold loadItems at h
    obtain ⟨⟨e, u⟩, h1, h2⟩ := Option.bind_eq_some_iff.1 h
    dsimp only at h2
    refine loadItem_mem h1 ?_
    split at h2
    · obtain ⟨a, h3, -⟩ := Option.map_eq_some_iff.1 h2
      exact List.mem_cons_of_mem _ (List.mem_cons_of_mem _ (loadItems_brace h3))
    · simp
    · cases h2

/-- Without a closing brace the file cannot be read. -/
theorem loads_brace {N : NumText P} {t : List Char} (h : '}' ∉ t) : loads N t = none := by
  by_contra hne
  obtain ⟨d, hd⟩ := Option.ne_none_iff_exists'.1 hne
  unfold loads at hd
  split at hd
  · exact h (List.mem_cons_of_mem _ (List.mem_cons_of_mem _ (loadItems_brace hd)))
  · cases hd

theorem dumpItem_brace (N : NumText P) {e : List Char × CVal P} (he : CleanStr e.1 ∧ ∀ s, e.2 = .str s → CleanStr s) : '}' ∉ dumpItem N e := by
  obtain ⟨k, v⟩ := e
  have hv : '}' ∉ dumpVal N v := by
    cases v with
    | str s => simpa [dumpVal] using (he.2 s rfl).2
    | pval p => exact (N.clean p).2.2.1
  simp [dumpItem, he.1.2, hv]

theorem dumpItems_brace (N : NumText P) : ∀ {d : LDict P}, CleanDict d → '}' ∉ dumpItems N d
  | [], _ => by simp [dumpItems]
  | [e], h => by simp [dumpItems, dumpItem_brace N (h e List.mem_cons_self)]
  | e :: e' :: d, h => by
    have := dumpItems_brace N (d := e' :: d) fun x hx => h x (List.mem_cons_of_mem _ hx)
    simp [dumpItems, dumpItem_brace N (h e List.mem_cons_self), this]

/-- An interrupted save leaves no closing brace. -/
theorem take_brace (N : NumText P) {d : LDict P} (hc : CleanDict d) {k : Nat} (hk : k < (dumps N d).length) : '}' ∉ (dumps N d).take k := by
  have h0 : dumps N d = ('{' :: '\n' :: dumpItems N d) ++ ['}'] := by simp [dumps]
  rw [h0] at hk ⊢
  rw [List.take_append_of_le_length (by simp at hk ⊢; omega)]
  intro h
  have := List.mem_of_mem_take h
  simp [dumpItems_brace N hc] at this

theorem strNat_clean (n : Nat) : CleanStr (strNat n) := by
  have key : ∀ d < 10, Nat.digitChar d ≠ '"' ∧ Nat.digitChar d ≠ '}' := by decide
  unfold strNat
  split
  · unfold CleanStr; decide
  · constructor <;> intro h <;> rw [List.mem_reverse, List.mem_map] at h <;> obtain ⟨d, hd, e⟩ := h
    · exact (key d (Nat.digits_lt_base (by decide) hd)).1 e
    · exact (key d (Nat.digits_lt_base (by decide) hd)).2 e

theorem strLst_clean : ∀ l : List Nat, CleanStr (strLst l)
  | [] => by unfold strLst CleanStr; simp
  | [x] => strNat_clean x
  | x :: y :: l => by
    obtain ⟨h1, h2⟩ := strNat_clean x
    obtain ⟨h3, h4⟩ := strLst_clean (y :: l)
    unfold strLst CleanStr
    simp [h1, h2, h3, h4]

theorem keyOf_clean (q : Query) : CleanStr (keyOf q) := by
  obtain ⟨h1, h2⟩ := strLst_clean q.1
  obtain ⟨h3, h4⟩ := strLst_clean q.2.1
  obtain ⟨h5, h6⟩ := strLst_clean q.2.2
  unfold keyOf stringize
  split <;> simp [CleanStr, h1, h2, h3, h4, h5, h6]

/-- The dictionary is right: clean, not empty, with the answers the test itself would give. -/
structure Fine (f : Query → P) (dh : List Char) (c : LDict P) : Prop where
  good : GoodDict f dh (lget c)
  clean : CleanDict c
  ne : c ≠ []

theorem lput_fun (c : LDict P) (k : List Char) (v : CVal P) : lget (lput c k v) = CDict.set (lget c) k v := by
  funext k'
  rw [lget_lput]
  rfl

theorem Fine.check {f : Query → P} {dh m ps : List Char} {c : LDict P} (h : Fine f dh c) (hm : PlainName m) (cm : CleanStr m) (cp : CleanStr ps) :
    ∃ c', checkL c m ps = some c' ∧ Fine f dh c' := by
  have hn := h.good.plain hm
  refine ⟨lput (lput c kMethod (.str m)) kParams (.str ps), ?_, ?_, ?_, lput_ne_nil _ _ _⟩
  · unfold checkL
    rw [hn]
  · obtain ⟨c', h1, h2⟩ := good_check h.good (p := ps) hm
    unfold checkMethod at h1
    rw [hn] at h1
    cases h1
    rw [lput_fun, lput_fun]
    exact h2
  · exact clean_lput (clean_lput h.clean (by unfold CleanStr; decide) (by rintro s ⟨⟩; exact cm)) (by unfold CleanStr; decide) (by rintro s ⟨⟩; exact cp)

theorem Fine.ask {f : Query → P} {dh : List Char} {c : LDict P} (h : Fine f dh c) (q : Query) :
    (ask f c q).1 = some (f q) ∧ Fine f dh (ask f c q).2 := by
  obtain ⟨h1, h2⟩ := good_ask h.good q
  unfold askCache at h1 h2
  unfold Cit.ask
  cases hc : lget c (keyOf q) with
  | none =>
    rw [hc] at h2
    exact ⟨rfl, by rw [lput_fun]; exact h2, clean_lput h.clean (keyOf_clean q) (by rintro s ⟨⟩), lput_ne_nil _ _ _⟩
  | some v =>
    rw [hc] at h1 h2
    cases v with
    | str s => cases h1
    | pval p => exact ⟨h1, h⟩

theorem ask_hit {f : Query → P} {c : LDict P} {q : Query} {p : P} (h : lget c (keyOf q) = some (.pval p)) : (Cit.ask f c q).1 = some p := by
  unfold Cit.ask
  rw [h]

theorem fine_fresh (f : Query → P) {dh : List Char} (hd : CleanStr dh) : Fine f dh [(kData, .str dh)] := by
  refine ⟨?_, ?_, by simp⟩
  · have : lget [(kData, (CVal.str dh : CVal P))] = CDict.set (fun _ => none) kData (.str dh) := by
      have := lput_fun ([] : LDict P) kData (.str dh)
      exact this
    rw [this]
    exact good_fresh f dh
  · intro e he
    obtain rfl := List.mem_singleton.1 he
    exact ⟨(by unfold CleanStr; decide : CleanStr kData), by rintro s ⟨⟩; exact hd⟩

/-- The state after any history. -/
structure Inv (N : NumText P) (f : Query → P) (dh : List Char) (s : St P) : Prop where
  mem : ∀ c, s.mem = some c → Fine f dh c
  disk : ∀ t, s.disk = some t → (∃ c, t = dumps N c ∧ Fine f dh c) ∨ '}' ∉ t

theorem Fine.open {N : NumText P} {f : Query → P} {dh m ps : List Char} (hm : PlainName m) (cm : CleanStr m) (cp : CleanStr ps) {c : LDict P} (h : Fine f dh c) :
    ∃ c', openFile N true dh m ps (some (dumps N c)) = some c' ∧ Fine f dh c' := by
  unfold openFile readFile
  dsimp only
  rw [loads_dumps N c h.ne h.clean, Option.bind_some, h.good.data]
  dsimp only
  rw [if_pos rfl, Option.bind_some]
  exact h.check hm cm cp

theorem open_fresh {N : NumText P} {f : Query → P} {dh m ps : List Char} (hm : PlainName m) (cm : CleanStr m) (cp : CleanStr ps) (hd : CleanStr dh) :
    ∃ c', openFile N true dh m ps none = some c' ∧ Fine f dh c' := by
  unfold openFile readFile
  dsimp only
  rw [if_pos rfl, Option.bind_some]
  exact (fine_fresh f hd).check hm cm cp

theorem open_broken {N : NumText P} {dh m ps t : List Char} (ht : '}' ∉ t) : openFile N true dh m ps (some t) = none := by
  unfold openFile readFile
  dsimp only
  rw [loads_brace ht]
  rfl

variable {N : NumText P} {f : Query → P} {dh m ps : List Char}

theorem Inv.step (hm : PlainName m) (cm : CleanStr m) (cp : CleanStr ps) (hd : CleanStr dh) {s : St P} (h : Inv N f dh s) (e : Ev) :
    Inv N f dh (Cit.step N f dh m ps s e).1 ∧ ∀ q p, Seen.answer q p ∈ (Cit.step N f dh m ps s e).2 → p = some (f q) := by
  obtain ⟨mem, disk⟩ := s
  cases e with
  | ask q =>
    cases mem with
    | none => exact ⟨h, fun q p hp => by cases hp⟩
    | some c =>
      obtain ⟨h1, h2⟩ := (h.mem c rfl).ask q
      refine ⟨⟨fun c' hc' => by cases hc'; exact h2, h.disk⟩, ?_⟩
      intro q' p hp
      simp only [Cit.step, List.mem_singleton, Seen.answer.injEq] at hp
      rw [hp.1, hp.2]
      exact h1
  | save =>
    cases mem with
    | none => exact ⟨h, fun q p hp => by cases hp⟩
    | some c =>
      exact ⟨⟨fun c' hc' => by cases hc'; exact h.mem c rfl, fun t ht => by cases ht; exact Or.inl ⟨c, rfl, h.mem c rfl⟩⟩, fun q p hp => by cases hp⟩
  | crashInSave k =>
    cases mem with
    | none => exact ⟨h, fun q p hp => by cases hp⟩
    | some c =>
      refine ⟨⟨fun c' hc' => (by cases hc'), fun t ht => ?_⟩, fun q p hp => by cases hp⟩
      cases ht
      by_cases hk : k < (dumps N c).length
      · exact Or.inr (take_brace N (h.mem c rfl).clean hk)
      · exact Or.inl ⟨c, List.take_of_length_le (by omega), h.mem c rfl⟩
  | crash => exact ⟨⟨fun c' hc' => (by cases hc'), h.disk⟩, fun q p hp => by cases hp⟩
  | start =>
    have key : (∃ c, openFile N true dh m ps disk = some c ∧ Fine f dh c) ∨ openFile N true dh m ps disk = none := by
      cases disk with
      | none => exact Or.inl (open_fresh hm cm cp hd)
      | some t =>
        rcases h.disk t rfl with ⟨c, rfl, hc⟩ | hb
        · exact Or.inl (hc.open hm cm cp)
        · exact Or.inr (open_broken hb)
    rcases key with ⟨c, h1, h2⟩ | h1
    · simp only [Cit.step, h1]
      exact ⟨⟨fun c' hc' => by cases hc'; exact h2, h.disk⟩, fun q p hp => by cases hp⟩
    · simp only [Cit.step, h1]
      exact ⟨⟨fun c' hc' => (by cases hc'), h.disk⟩, fun q p hp => by simp at hp⟩

theorem run_snoc (h : List Ev) (e : Ev) : run N f dh m ps (h ++ [e]) =
    ((step N f dh m ps (run N f dh m ps h).1 e).1, (run N f dh m ps h).2 ++ (step N f dh m ps (run N f dh m ps h).1 e).2) := by
  unfold run
  rw [List.foldl_append]
  rfl

theorem inv_run (hm : PlainName m) (cm : CleanStr m) (cp : CleanStr ps) (hd : CleanStr dh) (h : List Ev) :
    Inv N f dh (run N f dh m ps h).1 ∧ ∀ q p, Seen.answer q p ∈ (run N f dh m ps h).2 → p = some (f q) := by
  induction h using List.reverseRecOn with
  | nil => exact ⟨⟨fun c hc => (by cases hc), fun t ht => (by cases ht)⟩, fun q p hp => by cases hp⟩
  | append_singleton h e ih =>
    rw [run_snoc]
    obtain ⟨h1, h2⟩ := ih.1.step (m := m) (ps := ps) hm cm cp hd e
    refine ⟨h1, fun q p hp => ?_⟩
    rcases List.mem_append.1 hp with hp | hp
    · exact ih.2 q p hp
    · exact h2 q p hp

/-- **C178.** In every history of queries, saves, crashes (also in the middle of a save, at any character) and new processes, every answer given through the cache
file is the one the test itself computes. -/
theorem C178_no_wrong_answers (hm : PlainName m) (cm : CleanStr m) (cp : CleanStr ps) (hd : CleanStr dh) (h : List Ev) :
    ∀ q p, Seen.answer q p ∈ (run N f dh m ps h).2 → p = some (f q) := (inv_run hm cm cp hd h).2

/-- **C178.** Without a crash in the middle of a save, a test can always be constructed again: nothing is raised, and a query to a living process is answered. -/
theorem C178_restart_partial (hm : PlainName m) (cm : CleanStr m) (cp : CleanStr ps) (hd : CleanStr dh) (h : List Ev) (hno : ∀ k, Ev.crashInSave k ∉ h) :
    Seen.raised ∉ (run N f dh m ps h).2 ∧
    ∀ q, ∃ s, run N f dh m ps (h ++ [.start, .ask q]) = (s, (run N f dh m ps h).2 ++ [.answer q (some (f q))]) := by
  have gen : ∀ h : List Ev, (∀ k, Ev.crashInSave k ∉ h) → Seen.raised ∉ (run N f dh m ps h).2 ∧
      ∀ t, (run N f dh m ps h).1.disk = some t → ∃ c, t = dumps N c ∧ Fine f dh c := by
    intro h
    induction h using List.reverseRecOn with
    | nil => exact fun _ => ⟨by simp [run], fun t ht => by cases ht⟩
    | append_singleton h e ih =>
      intro hno
      obtain ⟨i1, i2⟩ := ih fun k hk => hno k (List.mem_append_left _ hk)
      have hi := (inv_run (N := N) (f := f) hm cm cp hd h).1
      rw [run_snoc]
      generalize hs : (run N f dh m ps h).1 = s at *
      obtain ⟨mem, disk⟩ := s
      cases e with
      | ask q =>
        cases mem with
        | none => simpa [step] using ⟨i1, i2⟩
        | some c => simpa [step] using ⟨i1, i2⟩
      | save =>
        cases mem with
        | none => simpa [step] using ⟨i1, i2⟩
        | some c =>
          refine ⟨by simpa [step] using i1, fun t ht => ?_⟩
          cases ht
          exact ⟨c, rfl, hi.mem c rfl⟩
      | crashInSave k => exact (hno k (by simp)).elim
      | crash => simpa [step] using ⟨i1, i2⟩
      | start =>
        obtain ⟨c, h1, -⟩ : ∃ c, openFile N true dh m ps disk = some c ∧ Fine f dh c := by
          cases disk with
          | none => exact open_fresh hm cm cp hd
          | some t =>
            obtain ⟨c, rfl, hc⟩ := i2 t rfl
            exact hc.open hm cm cp
        simp only [step, h1]
        exact ⟨by simpa using i1, i2⟩
  obtain ⟨g1, g2⟩ := gen h hno
  refine ⟨g1, fun q => ?_⟩
  have e : h ++ [Ev.start, Ev.ask q] = (h ++ [Ev.start]) ++ [Ev.ask q] := by simp
  obtain ⟨c, h1, h2⟩ : ∃ c, openFile N true dh m ps (run N f dh m ps h).1.disk = some c ∧ Fine f dh c := by
    cases hdk : (run N f dh m ps h).1.disk with
    | none => exact open_fresh hm cm cp hd
    | some t =>
      obtain ⟨c, rfl, hc⟩ := g2 t hdk
      exact hc.open hm cm cp
  rw [e, run_snoc, run_snoc]
  simp only [step, h1, (h2.ask q).1, List.append_nil]
  exact ⟨_, rfl⟩

/-- **C178, violated.** A crash in the middle of a save, at whatever character, makes the cache file unreadable for good: every later attempt to construct the test
raises and no query is ever answered again, until the user deletes the file (with all p-values computed before). -/
theorem C178_interrupted_save_violated (hm : PlainName m) (cm : CleanStr m) (cp : CleanStr ps) (hd : CleanStr dh) (h : List Ev) (c : LDict P)
    (hc : (run N f dh m ps h).1.mem = some c) (k : Nat) (hk : k < (dumps N c).length) (later : List Ev) :
    ∃ s, run N f dh m ps (h ++ .crashInSave k :: later) =
      (s, (run N f dh m ps h).2 ++ List.replicate (later.countP fun e => match e with | .start => true | _ => false) .raised) := by
  have hb := take_brace N ((inv_run (N := N) (f := f) hm cm cp hd h).1.mem c hc).clean hk
  suffices H : run N f dh m ps (h ++ .crashInSave k :: later) = (⟨none, some ((dumps N c).take k)⟩,
      (run N f dh m ps h).2 ++ List.replicate (later.countP fun e => match e with | .start => true | _ => false) .raised) from ⟨_, H⟩
  induction later using List.reverseRecOn with
  | nil =>
    rw [run_snoc]
    simp only [step, hc]
    simp
  | append_singleton l e ih =>
    rw [show h ++ Ev.crashInSave k :: (l ++ [e]) = (h ++ Ev.crashInSave k :: l) ++ [e] by simp, run_snoc, ih]
    cases e with
    | ask q => simp [step]
    | save => simp [step]
    | crashInSave j => simp [step]
    | crash => simp [step]
    | start =>
      simp only [step, open_broken (N := N) (dh := dh) (m := m) (ps := ps) hb]
      rw [List.countP_append, List.append_assoc]
      simp [List.replicate_succ']

/-- **C178, violated.** A cache file in the current directory, given by its bare name, cannot be created: the constructor raises. -/
theorem C178_bare_name_violated (dh m ps : List Char) : openFile N false dh m ps none = none := rfl

/-- A way to write and read p-values (here natural numbers). -/
def natText : NumText Nat where
  num p := List.replicate p '1'
  parse t := some t.length
  parse_num p := by simp
  clean p := by
    refine ⟨?_, ?_, ?_, ?_⟩ <;> intro h <;> have := (List.mem_replicate.1 h).2 <;> revert this <;> decide

/-- The hypotheses can be met: a session of `fisherz` that is alive after one query. -/
example : PlainName "fisherz".toList ∧ CleanStr "fisherz".toList ∧ CleanStr "h".toList ∧
    ∃ c, (run natText (fun q => q.2.2.length) "h".toList "fisherz".toList "".toList [.start, .ask ([0], [1], [2])]).1.mem = some c ∧ 0 < (dumps natText c).length := by
  refine ⟨by unfold PlainName; decide, by unfold CleanStr; decide, by unfold CleanStr; decide, _, rfl, by simp [dumps]⟩

/-! ## C179 -/

section DSepTest
variable {n : Nat}

theorem format1_none {x y : Nat} {S : List Nat} : format1 x y S = none ↔ x ∈ S ∨ y ∈ S := by
  unfold format1
  by_cases c : x < y <;> simp only [c, if_true, if_false, mem_sortedSet] <;> by_cases h1 : x ∈ S <;> by_cases h2 : y ∈ S <;> simp [h1, h2]

theorem dsepQuery_format {D : Fin n → Fin n → Prop} {x y : Fin n} {S : List (Fin n)} {q : Query} (h : format1 x y (S.map Fin.val) = some q) :
    (DSep D {z | z ∈ S} x y → dsepQuery D q = 1) ∧ (¬ DSep D {z | z ∈ S} x y → dsepQuery D q = 0) := by
  have hset : {z : Fin n | z.val ∈ sortedSet (S.map Fin.val)} = {z | z ∈ S} := by
    ext z
    simp only [Set.mem_setOf_eq, mem_sortedSet, List.mem_map]
    exact ⟨fun ⟨a, h1, h2⟩ => Fin.ext h2 ▸ h1, fun h => ⟨z, h, rfl⟩⟩
  have key : (∀ x' y' : Fin n, q.1 = [x'.val] → q.2.1 = [y'.val] → DSep D {z | z.val ∈ q.2.2} x' y') ↔ DSep D {z | z ∈ S} x y := by
    rw [format1_some h]
    by_cases c : x.val < y.val
    · simp only [c, if_true, hset]
      constructor
      · exact fun h => h x y rfl rfl
      · intro h x' y' h1 h2
        rw [← Fin.ext (List.singleton_inj.1 h1), ← Fin.ext (List.singleton_inj.1 h2)]
        exact h
    · simp only [c, if_false, hset]
      constructor
      · exact fun h => dSep_symm.1 (h y x rfl rfl)
      · intro h x' y' h1 h2
        rw [← Fin.ext (List.singleton_inj.1 h1), ← Fin.ext (List.singleton_inj.1 h2)]
        exact dSep_symm.1 h
  unfold dsepQuery
  constructor
  · intro hd
    exact if_pos (key.2 hd)
  · intro hd
    exact if_neg fun h => hd (key.1 h)

/-- **C179.** Through any cache it has written itself, the d-separation test answers 1 for d-separated and 0 for d-connected variables of the true DAG, in either order,
whatever the order of the conditioning set; it raises exactly if a variable is in the conditioning set. -/
theorem C179_answers (D : Fin n → Fin n → Prop) {c : LDict ℚ} (hc : Fine (dsepQuery D) dh c) (x y : Fin n) (S : List (Fin n)) :
    (dsepCall D c x y S = none ↔ x ∈ S ∨ y ∈ S) ∧
    (x ∉ S → y ∉ S → DSep D {z | z ∈ S} x y → dsepCall D c x y S = some 1) ∧
    (x ∉ S → y ∉ S → ¬ DSep D {z | z ∈ S} x y → dsepCall D c x y S = some 0) := by
  have hmem : ∀ z : Fin n, z.val ∈ S.map Fin.val ↔ z ∈ S := fun z => by
    rw [List.mem_map]
    exact ⟨fun ⟨a, h1, h2⟩ => Fin.ext h2 ▸ h1, fun h => ⟨z, h, rfl⟩⟩
  unfold dsepCall
  cases hf : format1 x y (S.map Fin.val) with
  | none =>
    have := format1_none.1 hf
    rw [hmem, hmem] at this
    refine ⟨⟨fun _ => this, fun _ => rfl⟩, fun h1 h2 => (this.elim h1 h2).elim, fun h1 h2 => (this.elim h1 h2).elim⟩
  | some q =>
    have hn : ¬ (x ∈ S ∨ y ∈ S) := fun h => by
      rw [← hmem, ← hmem, ← format1_none, hf] at h
      cases h
    obtain ⟨h1, h2⟩ := dsepQuery_format (D := D) hf
    rw [Option.bind_some, (hc.ask q).1]
    exact ⟨⟨fun h => (by cases h), fun h => (hn h).elim⟩, fun _ _ h => by rw [h1 h], fun _ _ h => by rw [h2 h]⟩

/-- **C179.** `pc` with `indep_test="d_separation"` and a true DAG returns the CPDAG of that DAG (given background knowledge that is true: of every Markov equivalent DAG with the
same knowledge), for every `alpha` it accepts, every rule for unshielded colliders and whatever the data. -/
theorem C179_pc (D : Fin n → Fin n → Prop) (hac : Acyclic D) {c : LDict ℚ} (hc : Fine (dsepQuery D) dh c) (alpha : ℚ) (h0 : 0 < alpha) (h1 : alpha < 1)
    (stable : Bool) (ucRule : Nat) (hr : ucRule ≤ 2) (prio : Option Nat) (k : Know n) (hk : k.TrueOf D)
    (hban : (stable = true ∧ ucRule ≠ 0) ∨ ∀ a b, ¬ (k.forb a b = true ∧ k.forb b a = true)) :
    ∃ H, pcAlg (dsepTest D c alpha) 0 stable ucRule prio k = some H ∧ ∀ F, Acyclic F → MarkovEquiv D F → k.TrueOf F → PCCorrect F H := by
  refine pc_correct_class D hac (dsepTest D c alpha) 0 ?_ stable ucRule hr prio k hk hban
  intro x y S _ _ hx hy
  obtain ⟨-, h2, h3⟩ := C179_answers D hc x y S
  unfold TestFn.ind dsepTest
  dsimp only
  rw [decide_eq_true_iff]
  by_cases hd : DSep D {z | z ∈ S} x y
  · rw [h2 hx hy hd]
    simpa [hd] using h1
  · rw [h3 hx hy hd]
    simpa [hd] using h0.le

/-- **C179, violated.** The cache file does not know which DAG it was made for (and the data are only a placeholder): a query asked with one true DAG, saved, and asked
again with *any* other true DAG gets the first DAG's answer. -/
theorem C179_stale_violated (N : NumText ℚ) (hm : PlainName m) (cm : CleanStr m) (cp : CleanStr ps) (D₁ D₂ : Fin n → Fin n → Prop) {c : LDict ℚ} (hc : Fine (dsepQuery D₁) dh c)
    (x y : Fin n) (S : List (Fin n)) (q : Query) (hq : format1 x y (S.map Fin.val) = some q) :
    ∃ c₂, openFile N true dh m ps (some (dumps N (ask (dsepQuery D₁) c q).2)) = some c₂ ∧ dsepCall D₂ c₂ x y S = dsepCall D₁ c x y S := by
  have h1 := (hc.ask q).2
  have hget : lget (ask (dsepQuery D₁) c q).2 (keyOf q) = some (.pval (dsepQuery D₁ q)) := by
    unfold Cit.ask
    cases hl : lget c (keyOf q) with
    | none =>
      dsimp only
      rw [lget_lput, if_pos rfl]
    | some v =>
      have := hc.good.pv q v hl
      subst this
      exact hl
  refine ⟨lput (lput (ask (dsepQuery D₁) c q).2 kMethod (.str m)) kParams (.str ps), ?_, ?_⟩
  · unfold openFile readFile
    dsimp only
    rw [loads_dumps N _ h1.ne h1.clean, Option.bind_some, h1.good.data]
    dsimp only
    rw [if_pos rfl, Option.bind_some]
    unfold checkL
    rw [h1.good.plain hm]
  · unfold dsepCall
    rw [hq, Option.bind_some, Option.bind_some, (hc.ask q).1]
    obtain ⟨-, k2, k3⟩ := C39_key_not_metadata q
    have : lget (lput (lput (ask (dsepQuery D₁) c q).2 kMethod (.str m)) kParams (.str ps)) (keyOf q) = some (.pval (dsepQuery D₁ q)) := by
      rw [lget_lput, if_neg k3, lget_lput, if_neg k2, hget]
    exact ask_hit this

/-- The hypotheses can be met: the empty cache, and a numeral system for the answers. -/
example (D : Fin n → Fin n → Prop) : Fine (dsepQuery D) "h".toList [(kData, .str "h".toList)] ∧ PlainName "d_separation".toList ∧ CleanStr "d_separation".toList ∧
    Nonempty (NumText ℚ) := by
  refine ⟨fine_fresh _ (by unfold CleanStr; decide), by unfold PlainName; decide, by unfold CleanStr; decide, ⟨⟨fun p => List.replicate (Encodable.encode p) '1', fun t => Encodable.decode t.length, ?_, ?_⟩⟩⟩
  · intro p
    rw [List.length_replicate, Encodable.encodek]
  · intro p
    refine ⟨?_, ?_, ?_, ?_⟩ <;> intro h <;> have := (List.mem_replicate.1 h).2 <;> revert this <;> decide

end DSepTest

/-! ## C180 -/

/-- **C180.** Data whose text and hash differ from those of the data the cache was made for are refused. -/
theorem C180_other_data_partial {α : Type} (md5 : List Char → List Char) (R : Render α) (n n' : Nat) (rows rows' : List (List α)) {c : LDict P}
    (hc : Fine f (dataHashOf md5 R n rows) c) (hne : dataHashOf md5 R n rows ≠ dataHashOf md5 R n' rows') :
    openFile N true (dataHashOf md5 R n' rows') m ps (some (dumps N c)) = none := by
  unfold openFile readFile
  dsimp only
  rw [loads_dumps N c hc.ne hc.clean, Option.bind_some, hc.good.data]
  dsimp only
  rw [if_neg hne]
  rfl

/-- **C180, violated.** The hash sees only the text numpy prints. Two data sets of more than 1000 entries that have the same first three and last three rows — of whatever
length, with whatever samples in between — have the same hash, so that a p-value cached for the one is returned for the other. -/
theorem C180_summary_violated {α : Type} (md5 : List Char → List Char) (R : Render α) (n : Nat) (top mid mid' bottom : List (List α)) (ht : top.length = 3)
    (hb : bottom.length = 3) (hm1 : mid ≠ []) (hm2 : mid' ≠ []) (hbig : 1000 < (top ++ mid ++ bottom).length * n) (hbig' : 1000 < (top ++ mid' ++ bottom).length * n)
    (hm : PlainName m) (cm : CleanStr m) (cp : CleanStr ps) (f f' : Query → P) {c : LDict P} (hc : Fine f (dataHashOf md5 R n (top ++ mid ++ bottom)) c) (q : Query) :
    ∃ c', openFile N true (dataHashOf md5 R n (top ++ mid' ++ bottom)) m ps (some (dumps N (ask f c q).2)) = some c' ∧ (ask f' c' q).1 = some (f q) := by
  have edges : ∀ l : List (List α), l ≠ [] → edge (top ++ l ++ bottom) = top ++ bottom := by
    intro l hl
    have hpos := List.length_pos_iff.2 hl
    unfold edge
    rw [if_pos (by simp only [List.length_append]; omega)]
    congr 1
    · rw [List.append_assoc, List.take_append_of_le_length (by omega), List.take_of_length_le (by omega)]
    · rw [List.drop_append_of_le_length (by simp only [List.length_append]; omega), List.drop_eq_nil_of_le (by simp only [List.length_append]; omega), List.nil_append]
  have hhash : dataHashOf md5 R n (top ++ mid' ++ bottom) = dataHashOf md5 R n (top ++ mid ++ bottom) := by
    unfold dataHashOf strArray
    have l1 := List.length_pos_iff.2 hm1
    have l2 := List.length_pos_iff.2 hm2
    rw [if_neg (by omega), if_neg (by omega), edges mid' hm2, edges mid hm1]
    have e1 : decide (6 < (top ++ mid' ++ bottom).length) = true := by simp only [List.length_append, decide_eq_true_eq]; omega
    have e2 : decide (6 < (top ++ mid ++ bottom).length) = true := by simp only [List.length_append, decide_eq_true_eq]; omega
    rw [e1, e2]
  rw [hhash]
  have h1 := (hc.ask q).2
  have hget : lget (ask f c q).2 (keyOf q) = some (.pval (f q)) := by
    unfold Cit.ask
    cases hl : lget c (keyOf q) with
    | none =>
      dsimp only
      rw [lget_lput, if_pos rfl]
    | some v =>
      have := hc.good.pv q v hl
      subst this
      exact hl
  refine ⟨lput (lput (ask f c q).2 kMethod (.str m)) kParams (.str ps), ?_, ?_⟩
  · unfold openFile readFile
    dsimp only
    rw [loads_dumps N _ h1.ne h1.clean, Option.bind_some, h1.good.data]
    dsimp only
    rw [if_pos rfl, Option.bind_some]
    unfold checkL
    rw [h1.good.plain hm]
  · obtain ⟨-, k2, k3⟩ := C39_key_not_metadata q
    have : lget (lput (lput (ask f c q).2 kMethod (.str m)) kParams (.str ps)) (keyOf q) = some (.pval (f q)) := by
      rw [lget_lput, if_neg k3, lget_lput, if_neg k2, hget]
    exact ask_hit this

/-- The hypotheses can be met: 506 rows of two entries that differ in the middle. -/
example : 1000 < (List.replicate 3 [1, 2] ++ List.replicate 500 [0, 0] ++ List.replicate 3 [1, 2]).length * 2 ∧
    1000 < (List.replicate 3 [1, 2] ++ List.replicate 500 [5, 6] ++ List.replicate 3 [1, 2]).length * 2 := by
  simp only [List.length_append, List.length_replicate]
  decide

end CL.Cit
