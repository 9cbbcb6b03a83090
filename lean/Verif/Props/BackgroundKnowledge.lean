import Verif.Model.BackgroundKnowledge
import Mathlib.Data.List.Induction

/-!
# C22: background knowledge answers reflect the history of calls
-/
namespace CL
namespace BK
variable {N : Type} [DecidableEq N]

/-- The last call in `hist` that is `on` or `off` is an `on`. -/
def LastIs (hist : List (Op N)) (on off : Op N) : Prop :=
  ∃ pre post, hist = pre ++ on :: post ∧ off ∉ post

/-- Node `x` was put in tier `t` and has not been moved to another tier or taken out of a tier since. -/
def InTier (hist : List (Op N)) (x : N) (t : Nat) : Prop :=
  ∃ pre post, hist = pre ++ .addTier x t :: post ∧ (∀ t', .addTier x t' ∉ post) ∧ ∀ t', .remTier x t' ∉ post

theorem lastIs_snoc (hist : List (Op N)) (o on off : Op N) (hne : on ≠ off) :
    LastIs (hist ++ [o]) on off ↔ o = on ∨ (o ≠ off ∧ LastIs hist on off) := by
  constructor
  · rintro ⟨pre, post, he, hn⟩
    rcases List.eq_nil_or_concat post with rfl | ⟨post', o', rfl⟩
    · have := List.append_inj_right' he rfl
      simp at this
      exact Or.inl this
    · right
      rw [List.concat_eq_append, ← List.cons_append, ← List.append_assoc] at he
      have h1 := List.append_inj_left' he rfl
      have h2 := List.append_inj_right' he rfl
      simp at h2
      subst h2
      simp at hn
      exact ⟨fun h => hn.2 h.symm, pre, post', h1, hn.1⟩
  · rintro (rfl | ⟨h, pre, post, rfl, hn⟩)
    · exact ⟨hist, [], by simp, by simp⟩
    · exact ⟨pre, post ++ [o], by simp, by simp [hn, Ne.symm h]⟩

theorem inTier_snoc (hist : List (Op N)) (o : Op N) (x : N) (t : Nat) :
    InTier (hist ++ [o]) x t ↔ o = .addTier x t ∨ ((∀ t', o ≠ .addTier x t' ∧ o ≠ .remTier x t') ∧ InTier hist x t) := by
  constructor
  · rintro ⟨pre, post, he, hn1, hn2⟩
    rcases List.eq_nil_or_concat post with rfl | ⟨post', o', rfl⟩
    · have := List.append_inj_right' he rfl
      simp at this
      exact Or.inl this
    · right
      rw [List.concat_eq_append, ← List.cons_append, ← List.append_assoc] at he
      have h1 := List.append_inj_left' he rfl
      have h2 := List.append_inj_right' he rfl
      simp at h2
      subst h2
      simp at hn1 hn2
      exact ⟨fun t' => ⟨fun h => (hn1 t').2 h.symm, fun h => (hn2 t').2 h.symm⟩, pre, post', h1, fun t' => (hn1 t').1,
        fun t' => (hn2 t').1⟩
  · rintro (rfl | ⟨h, pre, post, rfl, hn1, hn2⟩)
    · exact ⟨hist, [], by simp, by simp, by simp⟩
    · exact ⟨pre, post ++ [o], by simp, fun t' => by simp [hn1, Ne.symm (h t').1], fun t' => by simp [hn2, Ne.symm (h t').2]⟩

/-- the representation invariant -/
structure Rep (hist : List (Op N)) (s : State N) : Prop where
  forb : ∀ a b, (a, b) ∈ s.forb ↔ LastIs hist (.addForb a b) (.remForb a b)
  forbPat : ∀ a b, (a, b) ∈ s.forbPat ↔ LastIs hist (.addForbPat a b) (.remForbPat a b)
  req : ∀ a b, (a, b) ∈ s.req ↔ LastIs hist (.addReq a b) (.remReq a b)
  reqPat : ∀ a b, (a, b) ∈ s.reqPat ↔ LastIs hist (.addReqPat a b) (.remReqPat a b)
  tier : ∀ x t, s.tierValue x = some t ↔ InTier hist x t

theorem mem_setAdd {α : Type} [DecidableEq α] (l : List α) (a b : α) : b ∈ setAdd l a ↔ b = a ∨ b ∈ l := by
  unfold setAdd; split <;> grind

theorem mem_setDel {α : Type} [DecidableEq α] (l : List α) (a b : α) : b ∈ setDel l a ↔ b ≠ a ∧ b ∈ l := by
  unfold setDel; simp [and_comm]

theorem rep_snoc {hist : List (Op N)} {s : State N} (h : Rep hist s) (o : Op N) : Rep (hist ++ [o]) (exec s o) := by
  obtain ⟨h1, h2, h3, h4, h5⟩ := h
  constructor
  · intro a b
    rw [lastIs_snoc _ _ _ _ (by simp), ← h1]
    cases o <;> simp [exec, ensureTiers, mem_setAdd, mem_setDel] <;> grind
  · intro a b
    rw [lastIs_snoc _ _ _ _ (by simp), ← h2]
    cases o <;> simp [exec, ensureTiers, mem_setAdd, mem_setDel] <;> grind
  · intro a b
    rw [lastIs_snoc _ _ _ _ (by simp), ← h3]
    cases o <;> simp [exec, ensureTiers, mem_setAdd, mem_setDel] <;> grind
  · intro a b
    rw [lastIs_snoc _ _ _ _ (by simp), ← h4]
    cases o <;> simp [exec, ensureTiers, mem_setAdd, mem_setDel] <;> grind
  · intro x t
    rw [inTier_snoc, ← h5]
    cases o <;> simp [exec, ensureTiers] <;> grind

theorem lastIs_nil (on off : Op N) : ¬ LastIs [] on off := by rintro ⟨pre, post, h, -⟩; simp at h

theorem rep_run (hist : List (Op N)) : Rep hist (run hist) := by
  induction hist using List.reverseRecOn with
  | nil =>
    have ht : ∀ (x : N) t, ¬ InTier ([] : List (Op N)) x t := by rintro x t ⟨pre, post, h, -⟩; simp at h
    constructor <;> simp [run, init, lastIs_nil, ht]
  | append_singleton hist o ih =>
    unfold run at ih ⊢
    rw [List.foldl_append]
    exact rep_snoc ih o

/-- After any history, `is_forbidden(a, b)` holds iff the pair was added and not removed since, or some pattern pair that
was added and not removed since matches the two names, or both nodes are in tiers and the tier of `a` is strictly later. -/
theorem C22_is_forbidden (rx : String → N → Bool) (hist : List (Op N)) (a b : N) :
    isForbidden rx (run hist) a b = true ↔
      LastIs hist (.addForb a b) (.remForb a b) ∨
      (∃ p q, LastIs hist (.addForbPat p q) (.remForbPat p q) ∧ rx p a = true ∧ rx q b = true) ∨
      ∃ ta tb, InTier hist a ta ∧ InTier hist b tb ∧ tb < ta := by
  have h := rep_run hist
  simp only [isForbidden, Bool.or_eq_true, List.any_eq_true, Prod.exists, decide_eq_true_eq, Bool.and_eq_true,
    ← h.forb, ← h.forbPat, ← h.tier, or_assoc]
  refine or_congr ?_ (or_congr Iff.rfl ?_)
  · constructor
    · rintro ⟨x, y, hm, rfl, rfl⟩; exact hm
    · intro hm; exact ⟨a, b, hm, rfl, rfl⟩
  · cases (run hist).tierValue a <;> cases (run hist).tierValue b <;> simp

/-- After any history, `is_required(a, b)` holds iff the pair was added and not removed since, or some pattern pair that was
added and not removed since matches. -/
theorem C22_is_required (rx : String → N → Bool) (hist : List (Op N)) (a b : N) :
    isRequired rx (run hist) a b = true ↔
      LastIs hist (.addReq a b) (.remReq a b) ∨
      ∃ p q, LastIs hist (.addReqPat p q) (.remReqPat p q) ∧ rx p a = true ∧ rx q b = true := by
  have h := rep_run hist
  simp only [isRequired, Bool.or_eq_true, List.any_eq_true, Prod.exists, decide_eq_true_eq, Bool.and_eq_true,
    ← h.req, ← h.reqPat]
  refine or_congr ?_ Iff.rfl
  constructor
  · rintro ⟨x, y, hm, rfl, rfl⟩; exact hm
  · intro hm; exact ⟨a, b, hm, rfl, rfl⟩

/-- `is_in_which_tier` after any history. -/
theorem C22_is_in_which_tier (hist : List (Op N)) (x : N) (t : Nat) :
    inWhichTier (run hist) x = some t ↔ InTier hist x t := (rep_run hist).tier x t

/-- The strict-tier knowledge is consistent: no pair is forbidden in both directions by tiers alone. -/
theorem C22_tiers_never_forbid_both (hist : List (Op N)) (a b : N)
    (hp : ∀ o ∈ hist, ∃ x t, o = .addTier x t ∨ o = .remTier x t) (rx : String → N → Bool) :
    ¬ (isForbidden rx (run hist) a b = true ∧ isForbidden rx (run hist) b a = true) := by
  have hno : ∀ on off : Op N, (∀ x t, on ≠ .addTier x t ∧ on ≠ .remTier x t) → ¬ LastIs hist on off := by
    rintro on off hne ⟨pre, post, rfl, -⟩
    obtain ⟨x, t, h⟩ := hp on (by simp)
    have := hne x t
    tauto
  have key : ∀ a b, isForbidden rx (run hist) a b = true → ∃ ta tb, InTier hist a ta ∧ InTier hist b tb ∧ tb < ta := by
    intro a b h
    rcases (C22_is_forbidden rx hist a b).1 h with h | ⟨p, q, h, -⟩ | h
    · exact absurd h (hno _ _ (by simp))
    · exact absurd h (hno _ _ (by simp))
    · exact h
  rintro ⟨h1, h2⟩
  obtain ⟨ta, tb, i1, i2, hlt⟩ := key a b h1
  obtain ⟨tb', ta', j1, j2, hlt'⟩ := key b a h2
  rw [← C22_is_in_which_tier] at i1 i2 j1 j2
  rw [i1] at j2; rw [i2] at j1
  simp at j1 j2
  omega

/-- `remove_node_from_tier` does not look at the tier it is given: removing node 0 from tier 5, where it never was, makes the
object forget that node 0 is in tier 1, and the edge 0 → 1 that tiers forbade is no longer forbidden. -/
theorem C22_remove_from_other_tier_violated :
    ∃ hist : List (Op Nat), inWhichTier (run hist) 0 = some 1 ∧ isForbidden (fun _ _ => false) (run hist) 0 1 = true ∧
      inWhichTier (run (hist ++ [.remTier 0 5])) 0 = none ∧
      isForbidden (fun _ _ => false) (run (hist ++ [.remTier 0 5])) 0 1 = false :=
  ⟨[.addTier 0 1, .addTier 1 0], by decide, by decide, by decide, by decide⟩

/-- A non-trivial history. -/
example : isForbidden (fun p (_ : Nat) => p == "X.*") (run [.addForbPat "X.*" "X.*", .addForb 0 1, .remForb 0 1,
    .addTier 0 2, .addTier 1 1, .remForbPat "X.*" "X.*"]) 0 1 = true := by decide

end BK
end CL
