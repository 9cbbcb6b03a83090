import Verif.Model.Graph
import Mathlib.Logic.Relation

namespace CL
open GG
variable {n : Nat}

@[simp] theorem upd_same {α : Type} (m : Fin n → Fin n → α) (i j : Fin n) (v : α) : upd m i j v i j = v := by
  simp [upd]

theorem upd_apply {α : Type} (m : Fin n → Fin n → α) (i j a b : Fin n) (v : α) :
    upd m i j v a b = if a = i ∧ b = j then v else m a b := rfl

@[simp] theorem setG_g (G : GG n) (i j : Fin n) (m : Mark) : (G.setG i j m).g = upd G.g i j m := rfl
@[simp] theorem setG_dp (G : GG n) (i j : Fin n) (m : Mark) : (G.setG i j m).dp = G.dp := rfl
@[simp] theorem adjustDpath_g (G : GG n) (i j : Fin n) : (G.adjustDpath i j).g = G.g := rfl

theorem foldl_adjust_g (l : List (Fin n)) (G : GG n) :
    (l.foldl (fun H i => H.adjustDpath i i) G).g = G.g := by
  induction l generalizing G with
  | nil => rfl
  | cons a l ih => simp [ih]

theorem foldl_recon_g (l : List (Edge n)) (G : GG n) :
    (l.foldl (fun H e =>
    if GG.isParentOf H e.node1 e.node2 then H.adjustDpath e.node1 e.node2
    else if GG.isParentOf H e.node2 e.node1 then H.adjustDpath e.node2 e.node1
    else H) G).g = G.g := by
  induction l generalizing G with
  | nil => rfl
  | cons a l ih =>
    rw [List.foldl_cons, ih]
    split
    · rfl
    · split <;> rfl

@[simp] theorem reconstituteDpath_g (G : GG n) (es : List (Edge n)) : (G.reconstituteDpath es).g = G.g := by
  unfold reconstituteDpath
  simp only [foldl_recon_g, foldl_adjust_g]

/-- closed form of the loop of `adjust_dpath` for a reflexive matrix -/
theorem adjust_closed (dp : Fin n → Fin n → Bool) (hr : ∀ a, dp a a = true) (i j : Fin n) (l : List (Fin n)) :
    l.foldl (adjustStep i j) (upd dp j i true) =
      fun a b => dp a b || (decide (a = j) && decide (b = i)) || (decide (a = j) && decide (b ∈ l) && dp i b)
        || (decide (b = i) && decide (a ∈ l) && dp a j) := by
  induction l using List.reverseRecOn with
  | nil => funext a b; simp only [List.foldl_nil, List.not_mem_nil]; by_cases h : a = j ∧ b = i <;> grind [upd]
  | append_singleton l k ih =>
    rw [List.foldl_append, ih]
    funext a b
    simp only [List.foldl_cons, List.foldl_nil, adjustStep, List.mem_append, List.mem_singleton]
    have h1 := hr i; have h2 := hr j; have h3 := hr a; have h4 := hr b
    by_cases ha : a = j <;> by_cases hb : b = i <;> grind [upd]

theorem adjustDpath_dp (G : GG n) (hr : ∀ a, G.dp a a = true) (i j a b : Fin n) :
    (G.adjustDpath i j).dp a b = true ↔
      G.dp a b = true ∨ (a = j ∧ G.dp i b = true) ∨ (G.dp a j = true ∧ b = i) := by
  unfold adjustDpath
  simp only [adjust_closed _ hr]
  have := hr i; have := hr j
  simp [List.mem_finRange]
  grind

end CL
