import Verif.Proofs.DSep
import Mathlib.Data.Fintype.Card
import Mathlib.Data.List.FinRange

/-!
# Deciding d-separation on concrete small graphs (for examples only)
-/
namespace Spec
open Relation
variable {m : Nat}

/-- a directed path of at most `f` edges -/
def reachB (e : Fin m → Fin m → Bool) : Nat → Fin m → Fin m → Bool
  | 0, a, b => a == b
  | f + 1, a, b => a == b || (List.finRange m).any fun d => e a d && reachB e f d b

theorem reachB_sound {e : Fin m → Fin m → Bool} : ∀ (f : Nat) (a b : Fin m), reachB e f a b = true → ReflTransGen (fun a b => e a b = true) a b
  | 0, a, b, h => by simp [reachB] at h; exact h ▸ .refl
  | f + 1, a, b, h => by
    simp only [reachB, Bool.or_eq_true, beq_iff_eq, List.any_eq_true, Bool.and_eq_true] at h
    rcases h with rfl | ⟨d, -, h1, h2⟩
    · exact .refl
    · exact .head h1 (reachB_sound f d b h2)

theorem reachB_complete {e : Fin m → Fin m → Bool} {r : Fin m → Nat} (hr : ∀ a b, e a b = true → r a < r b) {a b : Fin m}
    (h : ReflTransGen (fun a b => e a b = true) a b) : r a ≤ r b ∧ ∀ f, r b ≤ f + r a → reachB e f a b = true := by
  induction h using ReflTransGen.head_induction_on with
  | refl => exact ⟨le_refl _, fun f _ => by cases f <;> simp [reachB]⟩
  | @head a c hac _ ih =>
    have h1 := hr a c hac
    refine ⟨by omega, fun f hf => ?_⟩
    cases f with
    | zero => omega
    | succ f =>
      simp only [reachB, Bool.or_eq_true, beq_iff_eq, List.any_eq_true, Bool.and_eq_true]
      exact Or.inr ⟨c, List.mem_finRange c, hac, ih.2 f (by omega)⟩

/-- `b` is an ancestor of the conditioning set -/
def ancB (e : Fin m → Fin m → Bool) (z : Fin m → Bool) (b : Fin m) : Bool := (List.finRange m).any fun v => z v && reachB e m b v

def openB (e : Fin m → Fin m → Bool) (z : Fin m → Bool) (a b c : Fin m) : Bool := if e a b && e c b then ancB e z b else !z b

/-- a path from `c` (entered from `p`) to `y` over nodes outside `vis` -/
def goB (e : Fin m → Fin m → Bool) (z : Fin m → Bool) (y : Fin m) : Nat → List (Fin m) → Fin m → Fin m → Bool
  | 0, _, _, _ => false
  | f + 1, vis, p, c => c == y || (List.finRange m).any fun d => (e c d || e d c) && !vis.contains d && openB e z p c d && goB e z y f (d :: vis) c d

def dconnB (e : Fin m → Fin m → Bool) (z : Fin m → Bool) (x y : Fin m) : Bool :=
  x == y || (List.finRange m).any fun d => (e x d || e d x) && !(d == x) && goB e z y m [d, x] x d

section
variable {e : Fin m → Fin m → Bool} {z : Fin m → Bool} {r : Fin m → Nat} (hr : ∀ a b, e a b = true → r a < r b) (hm : ∀ a, r a < m)
include hr hm

theorem ancB_iff {b : Fin m} : ancB e z b = true ↔ AncOf (fun a b => e a b = true) {v | z v = true} b := by
  simp only [ancB, List.any_eq_true, Bool.and_eq_true, AncOf, Set.mem_setOf_eq, List.mem_finRange, true_and]
  refine exists_congr fun v => and_congr_right fun _ => ⟨reachB_sound m b v, fun h => (reachB_complete hr h).2 m ?_⟩
  have := hm v
  omega

theorem openB_iff {a b c : Fin m} : openB e z a b c = true ↔ Open (fun a b => e a b = true) {v | z v = true} a b c := by
  unfold openB Open Collider
  by_cases h : e a b = true ∧ e c b = true
  · simp [h, ancB_iff hr hm]
  · have : (e a b && e c b) = false := by
      rw [Bool.eq_false_iff]; simpa [Bool.and_eq_true] using h
    simp [this, h]

theorem goB_sound {y : Fin m} : ∀ (f : Nat) (vis : List (Fin m)) (p c : Fin m), goB e z y f vis p c = true →
    (e p c = true ∨ e c p = true) → c ∈ vis →
    ∃ l, (p :: c :: l).getLast? = some y ∧ (c :: l).Nodup ∧ (∀ v ∈ l, v ∉ vis) ∧ ActiveSeq (fun a b => e a b = true) {v | z v = true} (p :: c :: l)
  | 0, _, _, _, h, _, _ => by simp [goB] at h
  | f + 1, vis, p, c, h, hpc, hv => by
    simp only [goB, Bool.or_eq_true, beq_iff_eq, List.any_eq_true, Bool.and_eq_true, Bool.not_eq_true'] at h
    rcases h with rfl | ⟨d, -, ⟨⟨h1, h2⟩, h3⟩, h4⟩
    · exact ⟨[], by simp, by simp, by simp, ActiveSeq.pair hpc⟩
    · have h2' : d ∉ vis := by intro hd; simp [hd] at h2
      obtain ⟨l, q1, q2, q3, q4⟩ := goB_sound f (d :: vis) c d h4 h1 (List.mem_cons_self ..)
      refine ⟨d :: l, by simpa using q1, ?_, ?_, activeSeq_cons.2 ⟨hpc, (openB_iff hr hm).1 h3, q4⟩⟩
      · refine List.nodup_cons.2 ⟨?_, q2⟩
        intro hc
        rcases List.mem_cons.1 hc with rfl | hc
        · exact h2' hv
        · exact q3 c hc (List.mem_cons_of_mem _ hv)
      · intro v hv'
        rcases List.mem_cons.1 hv' with rfl | hv'
        · exact h2'
        · exact fun hx => q3 v hv' (List.mem_cons_of_mem _ hx)

theorem goB_complete {y : Fin m} : ∀ (l : List (Fin m)) (f : Nat) (vis : List (Fin m)) (p c : Fin m), l.length < f →
    (c :: l).getLast? = some y → l.Nodup → (∀ v ∈ l, v ∉ vis) →
    ActiveSeq (fun a b => e a b = true) {v | z v = true} (p :: c :: l) → goB e z y f vis p c = true
  | _, 0, _, _, _, h, _, _, _, _ => by omega
  | [], f + 1, vis, p, c, _, hl, _, _, _ => by simp at hl; simp [goB, hl]
  | d :: l, f + 1, vis, p, c, hf, hl, hn, hv, ha => by
    obtain ⟨-, h2, h3⟩ := activeSeq_cons.1 ha
    simp only [goB, Bool.or_eq_true, beq_iff_eq, List.any_eq_true, Bool.and_eq_true, Bool.not_eq_true']
    refine Or.inr ⟨d, List.mem_finRange d, ⟨⟨h3.edge c d ⟨[], l, by simp⟩, ?_⟩, (openB_iff hr hm).2 h2⟩, ?_⟩
    · have := hv d (List.mem_cons_self ..)
      simpa using this
    · obtain ⟨n1, n2⟩ := List.nodup_cons.1 hn
      refine goB_complete l f (d :: vis) c d (by simp at hf; omega) (by simpa using hl) n2 (fun v hvl hx => ?_) h3
      rcases List.mem_cons.1 hx with rfl | hx
      · exact n1 hvl
      · exact hv v (List.mem_cons_of_mem _ hvl) hx

theorem dconnB_iff {x y : Fin m} : dconnB e z x y = true ↔ DConn (fun a b => e a b = true) {v | z v = true} x y := by
  simp only [dconnB, Bool.or_eq_true, beq_iff_eq, List.any_eq_true, Bool.and_eq_true, Bool.not_eq_true']
  constructor
  · rintro (rfl | ⟨d, -, ⟨h1, h2⟩, h3⟩)
    · exact ⟨[x], by simp, rfl, rfl, ⟨fun a b h => by have := h.length_le; simp at this, fun a b c h => by have := h.length_le; simp at this⟩⟩
    · obtain ⟨l, q1, q2, q3, q4⟩ := goB_sound hr hm m [d, x] x d h3 h1 (List.mem_cons_self ..)
      refine ⟨x :: d :: l, List.nodup_cons.2 ⟨fun hx => ?_, q2⟩, rfl, q1, q4⟩
      rcases List.mem_cons.1 hx with rfl | hx
      · simp at h2
      · exact q3 x hx (by simp)
  · rintro ⟨l, hn, hx, hy, ha⟩
    match l, hn, hx, hy, ha with
    | [a], _, hx, hy, _ => simp at hx hy; exact Or.inl (hx.symm.trans hy)
    | a :: d :: l, hn, hx, hy, ha =>
      simp at hx
      subst hx
      refine Or.inr ⟨d, List.mem_finRange d, ⟨ha.edge a d ⟨[], l, by simp⟩, ?_⟩, ?_⟩
      · simp only [List.nodup_cons, List.mem_cons, not_or] at hn
        simpa using fun h => hn.1.1 h.symm
      · have hlen : (a :: d :: l).length ≤ m := by simpa using List.Nodup.length_le_card hn
        simp only [List.nodup_cons, List.mem_cons, not_or] at hn
        refine goB_complete hr hm l m [d, a] a d (by simp at hlen; omega) (by simpa using hy) hn.2.2 (fun v hv hx => ?_) ha
        simp at hx
        rcases hx with rfl | rfl
        · exact hn.2.1 hv
        · exact hn.1.2 hv

end
end Spec
