import Verif.Model.Minimize
import Mathlib.Tactic.Linarith
import Mathlib.Tactic.Ring
import Mathlib.Data.Rat.Sqrt

/-!
# C191: the optimiser of the hyperparameters
-/
namespace CL
namespace Mini
variable {p : Nat} {K : Type} [Field K] [LinearOrder K] [IsStrictOrderedRing K]

/-- The invariant of the best point: it was evaluated, its value is the least one seen, and on the coordinates `Z` (where the gradient vanishes) it agrees with the start. -/
structure Good (f : Vec p K → Option (K × Vec p K)) (Z : Fin (p + 1) → Prop) (X0 : Vec p K) (b : Best p K) : Prop where
  val : f b.X = some (b.F, b.dF)
  mem : b.F ∈ b.seen
  le : ∀ v ∈ b.seen, b.F ≤ v
  agree : ∀ k, Z k → b.X k = X0 k

theorem good_keep {f : Vec p K → Option (K × Vec p K)} {Z : Fin (p + 1) → Prop} {X0 : Vec p K} {b : Best p K} (h : Good f Z X0 b) {Y : Vec p K} {r : K × Vec p K} (hr : f Y = some r)
    (hY : ∀ k, Z k → Y k = X0 k) : Good f Z X0 (keep ⟨b.X, b.F, b.dF, b.seen ++ [r.1]⟩ Y r.1 r.2) := by
  unfold keep
  split
  · rename_i hlt
    refine ⟨hr, by simp, fun v hv => ?_, hY⟩
    rcases List.mem_append.1 hv with hv | hv
    · exact (le_of_lt hlt).trans (h.le v hv)
    · simp at hv; exact le_of_eq hv.symm
  · rename_i hlt
    refine ⟨h.val, List.mem_append_left _ h.mem, fun v hv => ?_, h.agree⟩
    rcases List.mem_append.1 hv with hv | hv
    · exact h.le v hv
    · simp at hv; subst hv; exact not_lt.1 hlt

theorem keep_seen (b : Best p K) (Y : Vec p K) (v : K) (g : Vec p K) : (keep b Y v g).seen = b.seen := by
  unfold keep; split <;> rfl

theorem move_agree {Z : Fin (p + 1) → Prop} {X X0 s : Vec p K} (hX : ∀ k, Z k → X k = X0 k) (hs : ∀ k, Z k → s k = 0) (x : K) (k : Fin (p + 1)) (hk : Z k) : move X x s k = X0 k := by
  unfold move; rw [hs k hk, mul_zero, add_zero, hX k hk]

section search
variable (sqrt : K → K) (f : Vec p K → Option (K × Vec p K)) (Z : Fin (p + 1) → Prop) (X0 : Vec p K)
  (hf : ∀ Y v g, f Y = some (v, g) → ∀ k, Z k → g k = 0) {X s : Vec p K} (hX : ∀ k, Z k → X k = X0 k) (hs : ∀ k, Z k → s k = 0) {f0 : K} {df0 : Vec p K}
  (hdf : ∀ k, Z k → df0 k = 0)
include hf hX hs hdf

theorem tryPoint_good : ∀ (M : Nat) (x3 : K) (b : Best p K), Good f Z X0 b → f0 ∈ b.seen →
    Good f Z X0 (tryPoint f X s f0 df0 M x3 b).best ∧ (tryPoint f X s f0 df0 M x3 b).M ≤ M ∧ (0 < M → (tryPoint f X s f0 df0 M x3 b).M < M) ∧
    (∀ k, Z k → (tryPoint f X s f0 df0 M x3 b).df3 k = 0) ∧ f0 ∈ (tryPoint f X s f0 df0 M x3 b).best.seen ∧
    (tryPoint f X s f0 df0 M x3 b).best.seen.length + (tryPoint f X s f0 df0 M x3 b).M ≤ b.seen.length + M := by
  intro M
  induction M with
  | zero =>
    intro x3 b hb h0
    have : keep b (move X x3 s) f0 df0 = b := by unfold keep; rw [if_neg (not_lt.2 (hb.le f0 h0))]
    unfold tryPoint
    rw [this]
    exact ⟨hb, le_rfl, fun h => absurd h (lt_irrefl _), hdf, h0, le_rfl⟩
  | succ M ih =>
    intro x3 b hb h0
    cases hr : f (move X x3 s) with
    | none =>
      have e : tryPoint f X s f0 df0 (M + 1) x3 b = tryPoint f X s f0 df0 M ((0 + x3) / 2) b := by rw [tryPoint, hr]; rfl
      rw [e]
      obtain ⟨h1, h2, -, h4, h5, h6⟩ := ih ((0 + x3) / 2) b hb h0
      exact ⟨h1, by omega, fun _ => by omega, h4, h5, by omega⟩
    | some r =>
      have e : tryPoint f X s f0 df0 (M + 1) x3 b = ⟨x3, r.1, r.2, M, keep ⟨b.X, b.F, b.dF, b.seen ++ [r.1]⟩ (move X x3 s) r.1 r.2⟩ := by rw [tryPoint, hr]; rfl
      rw [e]
      refine ⟨good_keep hb hr (move_agree hX hs x3), by simp, fun _ => by simp, hf _ _ _ hr, ?_, ?_⟩
      · rw [keep_seen]; exact List.mem_append_left _ h0
      · rw [keep_seen]; simp; omega

theorem extrapolate_good (d0 : K) : ∀ (fuel M : Nat) (x3 : K) (b : Best p K), Good f Z X0 b → f0 ∈ b.seen →
    Good f Z X0 (extrapolate sqrt f X s f0 df0 d0 fuel M x3 b).best ∧ (extrapolate sqrt f X s f0 df0 d0 fuel M x3 b).M ≤ M ∧
    (∀ k, Z k → (extrapolate sqrt f X s f0 df0 d0 fuel M x3 b).df3 k = 0) ∧ f0 ∈ (extrapolate sqrt f X s f0 df0 d0 fuel M x3 b).best.seen ∧
    (extrapolate sqrt f X s f0 df0 d0 fuel M x3 b).best.seen.length + (extrapolate sqrt f X s f0 df0 d0 fuel M x3 b).M ≤ b.seen.length + M := by
  intro fuel
  induction fuel with
  | zero =>
    intro M x3 b hb h0
    obtain ⟨h1, h2, -, h4, h5, h6⟩ := tryPoint_good f Z X0 hf hX hs hdf M x3 b hb h0
    exact ⟨h1, h2, h4, h5, h6⟩
  | succ fuel ih =>
    intro M x3 b hb h0
    obtain ⟨h1, h2, -, h4, h5, h6⟩ := tryPoint_good f Z X0 hf hX hs hdf M x3 b hb h0
    rw [extrapolate]
    split
    · exact ⟨h1, h2, h4, h5, h6⟩
    · obtain ⟨g1, g2, g3, g4, g5⟩ := ih (tryPoint f X s f0 df0 M x3 b).M
        (nextOut 0 (tryPoint f X s f0 df0 M x3 b).x3 (cubicOut sqrt 0 f0 d0 (tryPoint f X s f0 df0 M x3 b).x3 (tryPoint f X s f0 df0 M x3 b).f3
          (dot00 (tryPoint f X s f0 df0 M x3 b).df3 s))) (tryPoint f X s f0 df0 M x3 b).best h1 h5
      exact ⟨g1, by omega, g3, g4, by omega⟩

omit hdf in
theorem interpolate_good (d0 : K) : ∀ (M : Nat) (a : Lp K) (b : Option (Lp K)) (r r' : Pt p K), r.M = M → Good f Z X0 r.best → (∀ k, Z k → r.df3 k = 0) →
    interpolate sqrt f X s f0 d0 M a b r = some r' →
    Good f Z X0 r'.best ∧ r'.M ≤ M ∧ (∀ k, Z k → r'.df3 k = 0) ∧ (∀ v ∈ r.best.seen, v ∈ r'.best.seen) ∧ r'.best.seen.length + r'.M ≤ r.best.seen.length + M := by
  intro M
  induction M with
  | zero =>
    intro a b r r' hM hb hz h
    rw [interpolate] at h
    obtain rfl := Option.some.inj h
    exact ⟨hb, by omega, hz, fun v hv => hv, by omega⟩
  | succ M ih =>
    intro a b r r' hM hb hz h
    rw [interpolate] at h
    split at h
    · cases hsub : (subinterval f0 d0 a b ⟨r.x3, r.f3, dot00 r.df3 s⟩).2 with
      | none => rw [hsub] at h; cases h
      | some b' =>
        rw [hsub, Option.bind_some] at h
        dsimp only at h
        generalize (subinterval f0 d0 a b ⟨r.x3, r.f3, dot00 r.df3 s⟩).1 = a' at h
        generalize clip a' b' (interX3 sqrt f0 a' b') = x at h
        cases hr : f (move X x s) with
        | none => rw [hr] at h; cases h
        | some v =>
          rw [hr, Option.bind_some] at h
          obtain ⟨g1, g2, g3, g4, g5⟩ := ih _ _ _ _ rfl (good_keep hb hr (move_agree hX hs x)) (hf _ _ _ hr) h
          refine ⟨g1, by omega, g3, fun w hw => g4 w ?_, ?_⟩
          · rw [keep_seen]; exact List.mem_append_left _ hw
          · simp only [keep_seen, List.length_append, List.length_singleton] at g5; omega
    · obtain rfl := Option.some.inj h
      exact ⟨hb, by omega, hz, fun v hv => hv, by omega⟩

theorem lineSearch_good (hv : f X = some (f0, df0)) (d0 x3 : K) (M : Nat) (seen : List K) (h0 : f0 ∈ seen) (hle : ∀ v ∈ seen, f0 ≤ v) {r : Pt p K}
    (h : lineSearch sqrt f X s f0 df0 d0 x3 M seen = some r) :
    Good f Z X0 r.best ∧ r.M ≤ M ∧ (∀ k, Z k → r.df3 k = 0) ∧ (∀ v ∈ seen, v ∈ r.best.seen) ∧ r.best.seen.length + r.M ≤ seen.length + M := by
  have hb : Good f Z X0 ⟨X, f0, df0, seen⟩ := ⟨hv, h0, hle, hX⟩
  obtain ⟨e1, e2, e3, e4, e5⟩ := extrapolate_good sqrt f Z X0 hf hX hs hdf d0 (M + 1) M x3 _ hb h0
  unfold lineSearch at h
  obtain ⟨g1, g2, g3, g4, g5⟩ := interpolate_good sqrt f Z X0 hf hX hs d0 _ _ _ _ _ rfl e1 e3 h
  refine ⟨g1, by omega, g3, fun v hv' => g4 v ?_, by simp only at e5; omega⟩
  have hseen : ∀ (M : Nat) (x3 : K) (b : Best p K), ∀ v ∈ b.seen, v ∈ (tryPoint f X s f0 df0 M x3 b).best.seen := by
    intro M
    induction M with
    | zero => intro x3 b v hv; rw [tryPoint, keep_seen]; exact hv
    | succ M ih =>
      intro x3 b v hv
      rw [tryPoint]
      cases hr : f (move X x3 s) with
      | none => exact ih _ _ v hv
      | some r => simp only [Option.elim_some, keep_seen]; exact List.mem_append_left _ hv
  have hseen2 : ∀ (fuel M : Nat) (x3 : K) (b : Best p K), ∀ v ∈ b.seen, v ∈ (extrapolate sqrt f X s f0 df0 d0 fuel M x3 b).best.seen := by
    intro fuel
    induction fuel with
    | zero => intro M x3 b v hv; exact hseen _ _ _ v hv
    | succ fuel ih =>
      intro M x3 b v hv
      rw [extrapolate]
      split
      · exact hseen _ _ _ v hv
      · exact ih _ _ _ v (hseen _ _ _ v hv)
  exact hseen2 _ _ _ ⟨X, f0, df0, seen⟩ v hv'
end search

theorem mainLoop_good (sqrt : K → K) (f : Vec p K → Option (K × Vec p K)) (Z : Fin (p + 1) → Prop) (X0 : Vec p K) (hf : ∀ Y v g, f Y = some (v, g) → ∀ k, Z k → g k = 0)
    (len : Nat) (fX : List K) : ∀ (fuel : Nat) (failed : Bool) (i : Nat) (X : Vec p K) (f0 : K) (df0 : Vec p K) (x3 : K) (seen : List K),
    (∀ k, Z k → X k = X0 k) → f X = some (f0, df0) → f0 ∈ seen → (∀ v ∈ seen, f0 ≤ v) → seen.length ≤ i →
    ∀ X' fX' i' seen', mainLoop sqrt f len fX fuel failed i X f0 df0 x3 seen = .done X' fX' i' seen' →
      fX' = fX ∧ (∃ F g, f X' = some (F, g) ∧ F ∈ seen' ∧ ∀ v ∈ seen', F ≤ v) ∧ (∀ k, Z k → X' k = X0 k) ∧ (∀ v ∈ seen, v ∈ seen') ∧ seen'.length ≤ i' ∧ i' ≤ max i len ∧
      (failed = true → i' ≤ i + 20) ∧ i' ≤ i + 20 * fuel := by
  intro fuel
  induction fuel with
  | zero =>
    intro failed i X f0 df0 x3 seen hX hv h0 hle hlen X' fX' i' seen' h
    rw [mainLoop] at h
    cases h
    exact ⟨rfl, ⟨f0, df0, hv, h0, hle⟩, hX, fun v hv => hv, hlen, by omega, fun _ => by omega, by omega⟩
  | succ fuel ih =>
    intro failed i X f0 df0 x3 seen hX hv h0 hle hlen X' fX' i' seen' h
    rw [mainLoop] at h
    split at h
    · rename_i hi
      dsimp only at h
      cases hl : lineSearch sqrt f X (fun k => -df0 k) f0 df0 (-dot00 (fun k => -df0 k) (fun k => -df0 k)) x3 (min 20 (len - i)) seen with
      | none => rw [hl] at h; cases h
      | some r =>
        rw [hl] at h
        simp only [Option.elim_some] at h
        obtain ⟨g1, g2, g3, g4, g5⟩ := lineSearch_good sqrt f Z X0 hf hX (s := fun k => -df0 k) (fun k hk => by rw [hf _ _ _ hv k hk, neg_zero]) (hf _ _ _ hv) hv _ _ _ seen h0 hle hl
        split at h
        · cases h
        · split at h
          · cases h
            exact ⟨rfl, ⟨r.best.F, r.best.dF, g1.val, g1.mem, g1.le⟩, g1.agree, g4, by omega, by omega, fun _ => by omega, by omega⟩
          · rename_i hnf
            rw [not_or] at hnf
            obtain ⟨q1, q2, q3, q4, q5, q6, q7, q8⟩ := ih true _ _ _ _ _ _ g1.agree g1.val g1.mem g1.le (by omega) _ _ _ _ h
            exact ⟨q1, q2, q3, fun v hv => q4 v (g4 v hv), q5, by omega, fun hfl => absurd hfl hnf.1, by omega⟩
    · cases h
      exact ⟨rfl, ⟨f0, df0, hv, h0, hle⟩, hX, fun v hv => hv, hlen, by omega, fun _ => by omega, by omega⟩

/-- **C191** Whatever the function: if `minimize` returns after failed line searches, the point returned has been evaluated, no value seen is smaller (in particular it is not worse than the
start), the number of evaluations is within the limit, and coordinates in which the gradient always vanishes are unchanged. -/
theorem C191_best (sqrt : K → K) (f : Vec p K → Option (K × Vec p K)) {len : Nat} (hlen : 0 < len) (X : Vec p K) {X' : Vec p K} {fX : List K} {i : Nat} {seen : List K}
    (h : minimize sqrt f len X = .done X' fX i seen) :
    (∃ F g, f X' = some (F, g) ∧ F ∈ seen ∧ ∀ v ∈ seen, F ≤ v) ∧ (∃ F0 g0, f X = some (F0, g0) ∧ F0 ∈ seen) ∧ seen.length ≤ i ∧ i ≤ len ∧
    ∀ k, (∀ Y v g, f Y = some (v, g) → g k = 0) → X' k = X k := by
  unfold minimize at h
  cases hr : f X with
  | none => rw [hr] at h; cases h
  | some r =>
    rw [hr] at h
    simp only [Option.elim_some] at h
    obtain ⟨-, h2, h3, h4, h5, h6, -, -⟩ := mainLoop_good sqrt f (fun k => ∀ Y v g, f Y = some (v, g) → g k = 0) X (fun Y v g hv k hk => hk Y v g hv) len _ _ _ _ _ _ _ _ _ (fun _ _ => rfl) hr
      (by simp) (by simp) (by simp) _ _ _ _ h
    exact ⟨h2, ⟨r.1, r.2, rfl, h4 _ (by simp)⟩, h5, by omega, h3⟩

/-- **C191** A line search from a point with value `f0` and slope `d0 ≤ 0` counts as successful only if it went down: the new value is below `f0`, by at least a twentieth of what the
slope promises, and the new slope is at most a tenth of the old one. -/
theorem C191_success_descends {f0 d0 : K} {s : Vec p K} {r : Pt p K} (hd : d0 ≤ 0) (hx : 0 ≤ r.x3) (h : succeeds f0 d0 s r = true) :
    r.f3 < f0 ∧ r.x3 * |d0| / 20 < f0 - r.f3 ∧ |dot00 r.df3 s| < |d0| / 10 := by
  obtain ⟨h1, h2⟩ : |dot00 r.df3 s| < -(SIG * d0) ∧ r.f3 < f0 + r.x3 * RHO * d0 := of_decide_eq_true h
  unfold RHO at h2
  unfold SIG at h1 h2
  rw [abs_of_nonpos hd]
  have : r.x3 * d0 ≤ 0 := mul_nonpos_of_nonneg_of_nonpos hx hd
  exact ⟨by linarith, by linarith, by linarith⟩

/-- A step from value 1 with slope −1 to value 1/2 with slope 0 is a success. -/
example : succeeds (p := 0) (1 : ℚ) (-1) (fun _ => 1) ⟨1, 1 / 2, fun _ => 0, 0, ⟨fun _ => 0, 0, fun _ => 0, []⟩⟩ = true := by decide +kernel

/-- In one line search with slope zero nothing fails, and it does not succeed. -/
theorem lineSearch_total (sqrt : K → K) (f : Vec p K → Option (K × Vec p K)) (X0 : Vec p K) (hf : ∀ Y v g, f Y = some (v, g) → g 0 = 0)
    (ht : ∀ Y, ∃ r, f Y = some r) {X s : Vec p K} (hX : X 0 = X0 0) (hs : s 0 = 0) {f0 : K} {df0 : Vec p K} (hv : f X = some (f0, df0)) (x3 : K) (M : Nat) (seen : List K) (h0 : f0 ∈ seen)
    (hle : ∀ v ∈ seen, f0 ≤ v) : ∃ r, lineSearch sqrt f X s f0 df0 0 x3 M seen = some r ∧ succeeds f0 0 s r = false := by
  have hint : ∀ (M : Nat) (a : Lp K) (b : Option (Lp K)) (r : Pt p K), ∃ r', interpolate sqrt f X s f0 0 M a b r = some r' := by
    intro M
    induction M with
    | zero => intro a b r; exact ⟨r, rfl⟩
    | succ M ih =>
      intro a b r
      rw [interpolate]
      split
      · rename_i hc
        have hd : dot00 r.df3 s = 0 := by unfold dot00; rw [hs, mul_zero]
        rw [hd] at hc
        simp only [mul_zero, neg_zero, abs_zero, lt_self_iff_false, false_or, add_zero] at hc
        have e : subinterval f0 0 a b ⟨r.x3, r.f3, dot00 r.df3 s⟩ = (a, some ⟨r.x3, r.f3, dot00 r.df3 s⟩) := by
          unfold subinterval; rw [if_pos (Or.inr (by simpa using hc))]
        rw [e]
        simp only [Option.bind_some]
        obtain ⟨v, hv⟩ := ht (move X (clip a ⟨r.x3, r.f3, dot00 r.df3 s⟩ (interX3 sqrt f0 a ⟨r.x3, r.f3, dot00 r.df3 s⟩)) s)
        rw [hv, Option.bind_some]
        exact ih _ _ _
      · exact ⟨r, rfl⟩
  obtain ⟨r, hr⟩ := hint _ ⟨0, f0, 0⟩ none (extrapolate sqrt f X s f0 df0 0 (M + 1) M x3 ⟨X, f0, df0, seen⟩)
  refine ⟨r, hr, ?_⟩
  unfold succeeds
  have hd : dot00 r.df3 s = 0 := by unfold dot00; rw [hs, mul_zero]
  rw [hd]
  simp

/-- **C191** As it is called by the marginal scores: a function defined everywhere whose gradient has first entry zero. `minimize` gives up after two line searches, both counted as failed: at
most 41 evaluations whatever the limit, and the record of progress `fX` is the starting value alone. -/
theorem C191_gives_up_violated (sqrt : K → K) (f : Vec p K → Option (K × Vec p K)) (hf : ∀ Y v g, f Y = some (v, g) → g 0 = 0) (ht : ∀ Y, ∃ r, f Y = some r) {len : Nat} (hlen : 0 < len)
    (X : Vec p K) : ∃ X' i seen F g, f X = some (F, g) ∧ minimize sqrt f len X = .done X' [F] i seen ∧ i ≤ 41 := by
  obtain ⟨⟨F, g⟩, hF⟩ := ht X
  have zero : ∀ (df0 : Vec p K), df0 0 = 0 → -dot00 (fun k => -df0 k) (fun k => -df0 k) = 0 := fun df0 h => by simp [dot00, h]
  have loop : ∀ (fuel : Nat) (failed : Bool) (i : Nat) (Y : Vec p K) (f0 : K) (df0 : Vec p K) (x3 : K) (seen : List K), 2 ≤ fuel ∨ (1 ≤ fuel ∧ failed = true) → f Y = some (f0, df0) → f0 ∈ seen →
      (∀ v ∈ seen, f0 ≤ v) → ∃ X' i' seen', mainLoop sqrt f len [F] fuel failed i Y f0 df0 x3 seen = .done X' [F] i' seen' ∧ i' ≤ i + (if failed = true then 20 else 40) := by
    intro fuel
    induction fuel with
    | zero => intro failed i Y f0 df0 x3 seen h; omega
    | succ fuel ih =>
      intro failed i Y f0 df0 x3 seen h hv h0 hle
      rw [mainLoop]
      split
      · rename_i hi
        have hz := hf _ _ _ hv
        obtain ⟨r, hr, hsucc⟩ := lineSearch_total sqrt f Y hf ht (X := Y) (s := fun k => -df0 k) rfl (by simp [hz]) hv x3 (min 20 (len - i)) seen h0 hle
        obtain ⟨g1, g2, -, -, -⟩ := lineSearch_good sqrt f (fun k => k = 0) Y (fun Y v g h k hk => hk ▸ hf Y v g h) (fun _ _ => rfl) (s := fun k => -df0 k) (fun k hk => by rw [hk, hz, neg_zero]) (fun k hk => by rw [hk, hz]) hv 0 x3 _ seen h0 hle hr
        dsimp only
        rw [zero df0 hz, hr]
        simp only [Option.elim_some, hsucc, Bool.false_eq_true, if_false]
        split
        · exact ⟨_, _, _, rfl, by split <;> omega⟩
        · rename_i hnf
          rw [not_or] at hnf
          have hfl : failed = false := by simpa using hnf.1
          subst hfl
          obtain ⟨X', i', seen', e, hle'⟩ := ih true (i + (min 20 (len - i) - r.M)) r.best.X r.best.F r.best.dF (1 / (1 - -dot00 (fun k => -r.best.dF k) (fun k => -r.best.dF k))) r.best.seen
            (by rcases h with h | h
                · exact Or.inr ⟨by omega, rfl⟩
                · exact absurd h.2 (by simp)) g1.val g1.mem g1.le
          exact ⟨X', i', seen', e, by simp at hle' ⊢; omega⟩
      · exact ⟨_, _, _, rfl, by omega⟩
  obtain ⟨X', i', seen', e, hi⟩ := loop (len + 2) false 1 X F g (1 / (1 - -dot00 (fun k => -g k) (fun k => -g k))) [F] (Or.inl (by omega)) hF (by simp) (by simp)
  refine ⟨X', i', seen', F, g, hF, ?_, by simpa using hi⟩
  unfold minimize
  rw [hF]
  exact e

/-- The point and the number of evaluations returned. -/
def Out.result : Out p K → Option (Vec p K × Nat)
  | .done X _ i _ => some (X, i)
  | _ => none

/-- **C191** The point returned need not be near a minimum: for the parabola `(x - 1/2)²` in the last coordinate, started at `1`, seven of 300 evaluations are made and `29/50` is returned, where the
derivative is `4/25`. -/
theorem C191_minimum_violated :
    let f : Vec 2 ℚ → Option (ℚ × Vec 2 ℚ) := fun Y => some ((Y 2 - 1 / 2) ^ 2, fun k => if k = 2 then 2 * (Y 2 - 1 / 2) else 0)
    (minimize Rat.sqrt f 300 (fun k => if k = 2 then 1 else 0)).result.map (fun r => (r.1 2, r.2)) = some (29 / 50, 7) := by
  decide +kernel

end Mini
end CL
