import Verif.Props.FCI

/-!
# The fuel of the inner loops of the FCI model is adequate, and rules that report no change change nothing
-/
namespace CL
open GG Relation
variable {n : Nat}
namespace Fci

/-- The two orders of a set are permutations. -/
structure _root_.CL.FciEnv.Ok (env : FciEnv n) : Prop where
  setOrder : ∀ l, (env.setOrder l).Perm l
  sorted : ∀ l, (env.sorted l).Perm l

/-! ### Uncovered circle paths -/

theorem enqueueP_fold (path cs : List (Fin n)) : ∀ (s : List (Fin n × List (Fin n)) × List (Fin n)), s.2.Nodup →
    (cs.foldl (enqueueP path) s).2.Nodup ∧
    (cs.foldl (enqueueP path) s).1.length + s.2.length = s.1.length + (cs.foldl (enqueueP path) s).2.length := by
  induction cs with
  | nil => intro s h1; exact ⟨h1, rfl⟩
  | cons c cs ih =>
    intro s h1
    rw [List.foldl_cons]
    by_cases hc : c ∈ s.2
    · rw [show enqueueP path s c = s by simp [enqueueP, hc]]
      exact ih s h1
    · rw [show enqueueP path s c = (s.1 ++ [(c, path ++ [c])], c :: s.2) by simp [enqueueP, hc]]
      obtain ⟨a1, a2⟩ := ih (s.1 ++ [(c, path ++ [c])], c :: s.2) (List.nodup_cons.2 ⟨hc, h1⟩)
      refine ⟨a1, ?_⟩
      simp at a2 ⊢; omega

theorem circleLoop_fuel (a b dst : Fin n) : ∀ (f k : Nat) (q : List (Fin n × List (Fin n)) × List (Fin n)) (st : GG n × Bool),
    q.2.Nodup → q.1.length + n < f + q.2.length → circleLoop a b dst (f + k) q st = circleLoop a b dst f q st
  | 0, k, q, st, h1, h2 => by
    have := h1.length_le_card
    simp at this; omega
  | f + 1, k, ([], V), st, h1, h2 => by
    rw [show f + 1 + k = (f + k) + 1 by omega]
    simp only [circleLoop]
  | f + 1, k, ((t, path) :: Q, V), st, h1, h2 => by
    rw [show f + 1 + k = (f + k) + 1 by omega]
    simp only [circleLoop]
    generalize (if t = dst ∧ uncovered st.1 path = true then (orientOnPath (reor st.1 a b .tail .tail) a b path, true) else st) = st'
    obtain ⟨a1, a2⟩ := enqueueP_fold path (circleSteps st'.1 [a, b] t) (Q, V) h1
    apply circleLoop_fuel a b dst f k _ _ a1
    simp at a2 h2; omega

/-- More fuel changes nothing in `circlePaths`. -/
theorem circlePaths_fuel (a b c d : Fin n) (st : GG n × Bool) (k : Nat) :
    circleLoop a b d (n + 1 + k) ((circleSteps st.1 [a, b] c).foldl (enqueueP [c]) ([], [])) st = circlePaths a b c d st := by
  obtain ⟨a1, a2⟩ := enqueueP_fold [c] (circleSteps st.1 [a, b] c) ([], []) (by simp)
  exact circleLoop_fuel a b d (n + 1) k _ _ a1 (by simp at a2; omega)

/-! ### Possible-D-SEP -/

structure PdOk (st : PdSt n) : Prop where
  nodup : st.V.Nodup

theorem pdInit_fold (x y : Fin n) (bs : List (Fin n)) (hb : bs.Nodup) : ∀ (st : PdSt n), st.V.Nodup →
    (∀ b ∈ bs, (x, b) ∉ st.V) → (bs.foldl (pdInit x y) st).V.Nodup ∧
    (bs.foldl (pdInit x y) st).Q.length + st.V.length = st.Q.length + (bs.foldl (pdInit x y) st).V.length := by
  induction bs with
  | nil => intro st h1 _; exact ⟨h1, rfl⟩
  | cons b bs ih =>
    intro st h1 h2
    obtain ⟨hb1, hb2⟩ := List.nodup_cons.1 hb
    rw [List.foldl_cons]
    by_cases hby : b = y
    · rw [show pdInit x y st b = st by simp [pdInit, hby]]
      exact ih hb2 st h1 (fun c hc => h2 c (List.mem_cons_of_mem _ hc))
    · have e : pdInit x y st b = ⟨st.Q ++ [(x, b)], (x, b) :: st.V, addPrev st.prev x b, some (st.e.getD (x, b)), st.dist, b :: st.dsep⟩ := by
        simp [pdInit, hby]
      rw [e]
      obtain ⟨a1, a2⟩ := ih hb2 ⟨st.Q ++ [(x, b)], (x, b) :: st.V, addPrev st.prev x b, some (st.e.getD (x, b)), st.dist, b :: st.dsep⟩
        (List.nodup_cons.2 ⟨h2 b (List.mem_cons_self ..), h1⟩) (by
          intro c hc
          have : c ≠ b := fun e => hb1 (e ▸ hc)
          simp [this, h2 c (List.mem_cons_of_mem _ hc)])
      refine ⟨a1, ?_⟩
      simp at a2 ⊢; omega

theorem pdStep_fold (G : GG n) (x y a b : Fin n) (cs : List (Fin n)) : ∀ (st : PdSt n), st.V.Nodup →
    (cs.foldl (pdStep G x y a b) st).V.Nodup ∧
    (cs.foldl (pdStep G x y a b) st).Q.length + st.V.length = st.Q.length + (cs.foldl (pdStep G x y a b) st).V.length := by
  induction cs with
  | nil => intro st h1; exact ⟨h1, rfl⟩
  | cons c cs ih =>
    intro st h1
    rw [List.foldl_cons]
    have h2 : (pdStep G x y a b st c).V.Nodup ∧
        (pdStep G x y a b st c).Q.length + st.V.length = st.Q.length + (pdStep G x y a b st c).V.length := by
      unfold pdStep
      split
      · exact ⟨h1, rfl⟩
      · dsimp only
        split
        · split
          · exact ⟨h1, rfl⟩
          · refine ⟨List.nodup_cons.2 ⟨by assumption, h1⟩, ?_⟩
            simp; omega
        · exact ⟨h1, rfl⟩
    obtain ⟨a1, a2⟩ := ih _ h2.1
    exact ⟨a1, by omega⟩

theorem tick_spec (st : PdSt n) (t : Fin n × Fin n) (Q : List (Fin n × Fin n)) : (st.tick t Q).V = st.V ∧ (st.tick t Q).Q = Q ∧
    (st.tick t Q).prev = st.prev ∧ (st.tick t Q).dsep = st.dsep := by
  unfold PdSt.tick; split <;> simp

theorem member_spec (st : PdSt n) (G : GG n) (x b : Fin n) : (st.member G x b).V = st.V ∧ (st.member G x b).Q = st.Q ∧
    (st.member G x b).prev = st.prev ∧ (st.member G x b).dsep = if onePath G st.prev b x b then b :: st.dsep else st.dsep := by
  unfold PdSt.member; split <;> simp

theorem pdLoop_nil (G : GG n) (x y : Fin n) (maxPath : Int) (f : Nat) (st : PdSt n) (hQ : st.Q = []) :
    pdLoop G x y maxPath f st = st := by
  cases f with
  | zero => rfl
  | succ f => rw [pdLoop, hQ]

theorem pdLoop_fuel (G : GG n) (x y : Fin n) (maxPath : Int) : ∀ (f k : Nat) (st : PdSt n), st.V.Nodup →
    st.Q.length + n * n < f + st.V.length → pdLoop G x y maxPath (f + k) st = pdLoop G x y maxPath f st
  | 0, k, st, h1, h2 => by
    have := h1.length_le_card
    simp at this; omega
  | f + 1, k, st, h1, h2 => by
    rw [show f + 1 + k = (f + k) + 1 by omega]
    cases hQ : st.Q with
    | nil => rw [pdLoop_nil _ _ _ _ _ _ hQ, pdLoop_nil _ _ _ _ _ _ hQ]
    | cons t Q =>
      simp only [pdLoop, hQ]
      split
      · rfl
      · obtain ⟨v1, v2, -, -⟩ := tick_spec st t Q
        obtain ⟨w1, w2, -, -⟩ := member_spec (st.tick t Q) G x t.2
        obtain ⟨a1, a2⟩ := pdStep_fold G x y t.1 t.2 (G.adjacentNodes t.2) ((st.tick t Q).member G x t.2) (by rw [w1, v1]; exact h1)
        apply pdLoop_fuel G x y maxPath f k _ a1
        rw [w1, w2, v1, v2] at a2; rw [hQ] at h2; simp at h2; omega

/-- `FCI.py:149-172`: the state when the loop of `getPossibleDsep` starts. -/
def pdStart (env : FciEnv n) (G : GG n) (x y : Fin n) : PdSt n :=
  (env.setOrder (G.adjacentNodes x)).foldl (pdInit x y) ⟨[], [], fun _ => none, none, 0, []⟩

theorem nodup_adjacentNodes (G : GG n) (x : Fin n) : (G.adjacentNodes x).Nodup := (List.nodup_finRange n).filter _

theorem pdStart_spec {env : FciEnv n} (hk : env.Ok) (G : GG n) (x y : Fin n) : (pdStart env G x y).V.Nodup ∧
    (pdStart env G x y).Q.length = (pdStart env G x y).V.length := by
  have hnd : (env.setOrder (G.adjacentNodes x)).Nodup := (hk.setOrder _).nodup_iff.2 (nodup_adjacentNodes G x)
  obtain ⟨a1, a2⟩ := pdInit_fold x y _ hnd ⟨[], [], fun _ => none, none, 0, []⟩ (by simp) (by simp)
  exact ⟨a1, by unfold pdStart; simpa using a2⟩

/-- More fuel changes nothing in `possibleDsep`. -/
theorem possibleDsep_fuel {env : FciEnv n} (hk : env.Ok) (G : GG n) (x y : Fin n) (maxPath : Int) (k : Nat) :
    pdLoop G x y maxPath (n * n + 1 + k) (pdStart env G x y) = pdLoop G x y maxPath (n * n + 1) (pdStart env G x y) := by
  obtain ⟨h1, h2⟩ := pdStart_spec hk G x y
  exact pdLoop_fuel G x y maxPath _ _ _ h1 (by omega)

/-! ### Discriminating paths -/

/-- `W` lists the visited set so that every predecessor comes after. -/
inductive OrdPrev (prev : Fin n → Option (Fin n)) : List (Fin n) → Prop
  | nil : OrdPrev prev []
  | cons {v : Fin n} {W : List (Fin n)} (hv : v ∉ W) (hp : ∀ p, prev v = some p → p ∈ W) (h : OrdPrev prev W) : OrdPrev prev (v :: W)

theorem OrdPrev.nodup {prev : Fin n → Option (Fin n)} {W : List (Fin n)} (h : OrdPrev prev W) : W.Nodup := by
  induction h with
  | nil => simp
  | cons hv _ _ ih => exact List.nodup_cons.2 ⟨hv, ih⟩

theorem OrdPrev.congr {prev prev' : Fin n → Option (Fin n)} {W : List (Fin n)} (h : OrdPrev prev W) (he : ∀ v ∈ W, prev' v = prev v) :
    OrdPrev prev' W := by
  induction h with
  | nil => exact .nil
  | cons hv hp _ ih =>
    exact .cons hv (fun p e => hp p (by rw [← he _ (List.mem_cons_self ..)]; exact e)) (ih fun v hv => he v (List.mem_cons_of_mem _ hv))

theorem getPath_fuel_mem {prev : Fin n → Option (Fin n)} {W : List (Fin n)} (h : OrdPrev prev W) : ∀ (f k : Nat) (v : Fin n),
    v ∈ W → W.length ≤ f → getPath prev (f + k) v = getPath prev f v := by
  induction h with
  | nil => intro f k v hv; simp at hv
  | @cons w W hw hp h ih =>
    intro f k v hv hf
    cases f with
    | zero => simp at hf
    | succ f =>
      rw [show f + 1 + k = (f + k) + 1 by omega]
      rcases List.mem_cons.1 hv with rfl | hv
      · simp only [getPath]
        cases hpv : prev v with
        | none => rfl
        | some p => simp only [Option.elim_some]; rw [ih f k p (hp p hpv) (by simp at hf; omega)]
      · have := ih (f + 1) k v hv (by simp at hf; omega)
        rwa [show f + 1 + k = (f + k) + 1 by omega] at this

theorem getPath_fuel {prev : Fin n → Option (Fin n)} {W : List (Fin n)} (h : OrdPrev prev W) {d t : Fin n} (hd : prev d = some t)
    (ht : t ∈ W) (k : Nat) : getPath prev (n + 1 + k) d = getPath prev (n + 1) d := by
  have hl : W.length ≤ n := by have := h.nodup.length_le_card; simpa using this
  rw [show n + 1 + k = (n + k) + 1 by omega]
  simp only [getPath, hd, Option.elim_some]
  rw [getPath_fuel_mem h n k t ht hl]

/-- The visited set is well ordered by `prev`, and the queue holds visited nodes. -/
structure DdpOk (st : DdpSt n) : Prop where
  ord : ∃ W, OrdPrev st.prev W ∧ ∀ v, v ∈ W ↔ v ∈ st.V
  queue : ∀ v ∈ st.Q, v ∈ st.V
  nodup : st.V.Nodup

theorem DdpOk.setPrev {st : DdpSt n} (h : DdpOk st) {d t : Fin n} (hd : d ∉ st.V) : DdpOk (st.setPrev d t) := by
  obtain ⟨⟨W, h1, h2⟩, h3, h4⟩ := h
  refine ⟨⟨W, h1.congr fun v hv => ?_, h2⟩, h3, h4⟩
  have : v ≠ d := fun e => hd (e ▸ (h2 v).1 hv)
  simp [DdpSt.setPrev, this]

theorem DdpOk.push {st : DdpSt n} (h : DdpOk st) {d t : Fin n} {cPar : List (Fin n)} (hd : d ∉ st.V) (ht : t ∈ st.V)
    (hp : st.prev d = some t) : DdpOk (st.push cPar d) := by
  obtain ⟨⟨W, h1, h2⟩, h3, h4⟩ := h
  unfold DdpSt.push
  split
  · refine ⟨⟨d :: W, .cons (fun hc => hd ((h2 d).1 hc)) (fun p e => ?_) h1, fun v => ?_⟩, ?_, List.nodup_cons.2 ⟨hd, h4⟩⟩
    · rw [hp] at e; cases e; exact (h2 t).2 ht
    · simp [h2]
    · intro v hv
      simp only [List.mem_append, List.mem_singleton] at hv
      rcases hv with hv | rfl
      · exact List.mem_cons_of_mem _ (h3 v hv)
      · exact List.mem_cons_self ..
  · exact ⟨⟨W, h1, h2⟩, h3, h4⟩

theorem ddpInner_ok {env : FciEnv n} {ss : SSet n} {G : GG n} {a b c t : Fin n} {cPar : List (Fin n)} :
    ∀ (ds : List (Fin n)) (st st' : DdpSt n), DdpOk st → t ∈ st.V → ddpInner env ss G a b c t cPar ds st = .inr st' →
    DdpOk st' ∧ st'.Q.length + st.V.length = st.Q.length + st'.V.length
  | [], st, st', h, _, he => by
    simp only [ddpInner, Sum.inr.injEq] at he; subst he; exact ⟨h, rfl⟩
  | d :: ds, st, st', h, ht, he => by
    unfold ddpInner at he
    split at he
    · exact ddpInner_ok ds st st' h ht he
    · rename_i hd
      have h' := h.setPrev (t := t) hd
      split at he
      · exact ddpInner_ok ds (st.setPrev d t) st' h' ht he
      · split at he
        · simp at he
        · have h'' := h'.push (cPar := cPar) (t := t) hd ht (by simp [DdpSt.setPrev])
          have hlen : ((st.setPrev d t).push cPar d).Q.length + st.V.length = st.Q.length + ((st.setPrev d t).push cPar d).V.length := by
            unfold DdpSt.push
            split <;> simp [DdpSt.setPrev] <;> omega
          obtain ⟨r1, r2⟩ := ddpInner_ok ds _ st' h'' (by
            unfold DdpSt.push
            split
            · exact List.mem_cons_of_mem _ ht
            · exact ht) he
          exact ⟨r1, by omega⟩

theorem DdpOk.take {st : DdpSt n} (h : DdpOk st) {t : Fin n} {Q : List (Fin n)} (hQ : st.Q = t :: Q) : DdpOk (st.take t Q) := by
  obtain ⟨h1, h3, h4⟩ := h
  have : ∀ v ∈ Q, v ∈ st.V := fun v hv => h3 v (by rw [hQ]; exact List.mem_cons_of_mem _ hv)
  unfold DdpSt.take
  split
  · exact ⟨h1, this, h4⟩
  · exact ⟨h1, this, h4⟩

theorem take_V (st : DdpSt n) (t : Fin n) (Q : List (Fin n)) : (st.take t Q).V = st.V ∧ (st.take t Q).Q = Q := by
  unfold DdpSt.take; split <;> exact ⟨rfl, rfl⟩

theorem ddpLoop_fuel (env : FciEnv n) (ss : SSet n) (G : GG n) (a b c : Fin n) (cPar : List (Fin n)) : ∀ (f k : Nat) (st : DdpSt n),
    DdpOk st → st.Q.length + n < f + st.V.length → ddpLoop env ss G a b c cPar (f + k) st = ddpLoop env ss G a b c cPar f st
  | 0, k, st, h1, h2 => by
    have := h1.nodup.length_le_card
    simp at this; omega
  | f + 1, k, st, h1, h2 => by
    rw [show f + 1 + k = (f + k) + 1 by omega]
    simp only [ddpLoop]
    cases hQ : st.Q with
    | nil => rfl
    | cons t Q =>
      dsimp only
      split
      · rfl
      · cases hi : ddpInner env ss G a b c t cPar (G.nodesInto t .arrow) (st.take t Q) with
        | inl G' => rfl
        | inr st2 =>
          dsimp only
          obtain ⟨e1, e2⟩ := take_V st t Q
          obtain ⟨r1, r2⟩ := ddpInner_ok _ _ _ (h1.take hQ) (by rw [e1]; exact h1.queue t (by rw [hQ]; simp)) hi
          apply ddpLoop_fuel env ss G a b c cPar f k _ r1
          rw [e1, e2] at r2; rw [hQ] at h2; simp at h2; omega

theorem ddpStart_ok {a b : Fin n} (hab : a ≠ b) : DdpOk (⟨[a], [b, a], fun u => if u = a then some b else none, none, 0⟩ : DdpSt n) := by
  refine ⟨⟨[a, b], ?_, fun v => by simp; tauto⟩, by simp, by simp [hab.symm]⟩
  have hba : ¬ b = a := fun e => hab e.symm
  refine .cons (by simp [hab]) (fun p e => ?_) (.cons (by simp) (fun p e => ?_) .nil)
  · simp at e; simp [e]
  · simp [hba] at e

/-- More fuel changes nothing in `ddpOrient`. -/
theorem ddpOrient_fuel (env : FciEnv n) (ss : SSet n) (G : GG n) {a b : Fin n} (hab : a ≠ b) (c : Fin n) (k : Nat) :
    ddpLoop env ss G a b c (G.parents c) (n + 1 + k) ⟨[a], [b, a], fun u => if u = a then some b else none, none, 0⟩ =
    ddpLoop env ss G a b c (G.parents c) (n + 1) ⟨[a], [b, a], fun u => if u = a then some b else none, none, 0⟩ :=
  ddpLoop_fuel env ss G a b c _ _ _ _ (ddpStart_ok hab) (by simp; omega)

/-! ### A rule that reports no change changed nothing -/

/-- The flag only rises, and if it is down at the end nothing happened. -/
def Quiet (s t : GG n × Bool) : Prop := t.2 = false → t = s

theorem Quiet.rfl {s : GG n × Bool} : Quiet s s := fun _ => Eq.refl _
theorem Quiet.trans {s t u : GG n × Bool} (h1 : Quiet s t) (h2 : Quiet t u) : Quiet s u := by
  intro hu
  have e := h2 hu
  rw [e] at hu ⊢
  exact h1 hu
theorem Quiet.set {s : GG n × Bool} {G : GG n} : Quiet s (G, true) := by intro h; simp at h
theorem Quiet.fold {α : Type} {s t : GG n × Bool} (f : GG n × Bool → α → GG n × Bool) (l : List α) (h : Quiet s t)
    (hf : ∀ u, ∀ x ∈ l, Quiet u (f u x)) : Quiet s (l.foldl f t) :=
  foldl_inv (Quiet s) f l (fun u hu x hx => hu.trans (hf u x hx)) t h

theorem r1_quiet {k : Know n} (st : GG n × Bool) (a b c : Fin n) : Quiet st (r1 k st a b c) := by
  unfold r1; repeat' split
  all_goals first | exact Quiet.rfl | exact Quiet.set

theorem r2_quiet {k : Know n} (st : GG n × Bool) (a b c : Fin n) : Quiet st (r2 k st a b c) := by
  unfold r2; repeat' split
  all_goals first | exact Quiet.rfl | exact Quiet.set

theorem r1r2Step_quiet {k : Know n} (b : Fin n) (st : GG n × Bool) (p : Fin n × Fin n) : Quiet st (r1r2Step k b st p) :=
  (((r1_quiet _ _ _ _).trans (r1_quiet _ _ _ _)).trans (r2_quiet _ _ _ _)).trans (r2_quiet _ _ _ _)

theorem r1r2_quiet {k : Know n} (st : GG n × Bool) : Quiet st (r1r2 k st) :=
  Quiet.rfl.fold _ _ fun _ _ _ => Quiet.rfl.fold _ _ fun u p _ => r1r2Step_quiet _ u p

theorem r3Step_quiet {k : Know n} {ss : SSet n} (b d : Fin n) (st : GG n × Bool) (p : Fin n × Fin n) : Quiet st (r3Step k ss b d st p) := by
  unfold r3Step; repeat' split
  all_goals first | exact Quiet.rfl | exact Quiet.set

theorem r3_quiet {k : Know n} {ss : SSet n} (st : GG n × Bool) : Quiet st (r3 k ss st) :=
  Quiet.rfl.fold _ _ fun _ _ _ => Quiet.rfl.fold _ _ fun _ _ _ => Quiet.rfl.fold _ _ fun u p _ => r3Step_quiet _ _ u p

theorem r4_quiet {env : FciEnv n} {ss : SSet n} (st : GG n × Bool) : Quiet st (r4 env ss st) := by
  refine Quiet.rfl.fold _ _ fun _ _ _ => Quiet.rfl.fold _ _ fun _ _ _ => Quiet.rfl.fold _ _ fun u c _ => ?_
  unfold r4Step ddpOrient
  split
  · exact Quiet.rfl
  · split
    · exact Quiet.rfl
    · cases ddpLoop env ss u.1 _ _ c _ _ _ with
      | none => exact Quiet.rfl
      | some G' => exact Quiet.set

theorem circleLoop_quiet (a b dst : Fin n) : ∀ (f : Nat) (q : List (Fin n × List (Fin n)) × List (Fin n)) (st : GG n × Bool),
    Quiet st (circleLoop a b dst f q st)
  | 0, _, _ => Quiet.rfl
  | f + 1, ([], _), _ => Quiet.rfl
  | f + 1, ((t, path) :: Q, V), st => by
    unfold circleLoop
    refine Quiet.trans ?_ (circleLoop_quiet a b dst f _ _)
    split
    · exact Quiet.set
    · exact Quiet.rfl

theorem r5_quiet (st : GG n × Bool) : Quiet st (r5 st) := by
  refine Quiet.rfl.fold _ _ fun _ _ _ => Quiet.rfl.fold _ _ fun u a _ => ?_
  unfold r5Step
  split
  · exact Quiet.rfl
  · exact Quiet.rfl.fold _ _ fun v p _ => circleLoop_quiet a _ p.2 _ _ v

theorem r6_quiet (st : GG n × Bool) : Quiet st (r6 st) := by
  refine Quiet.rfl.fold _ _ fun u b _ => ?_
  unfold r6Node
  split
  · exact Quiet.rfl.fold _ _ fun _ _ _ => Quiet.set
  · exact Quiet.rfl

theorem r7_quiet (st : GG n × Bool) : Quiet st (r7 st) := by
  refine Quiet.rfl.fold _ _ fun u b _ => Quiet.rfl.fold _ _ fun _ _ _ => Quiet.rfl.fold _ _ fun v a _ => ?_
  unfold r7Step; repeat' split
  all_goals first | exact Quiet.rfl | exact Quiet.set

theorem r8_quiet (st : GG n × Bool) : Quiet st (r8 st) := by
  refine Quiet.rfl.fold _ _ fun u b _ => Quiet.rfl.fold _ _ fun v p _ => ?_
  unfold r8Step
  dsimp only
  split
  · exact Quiet.set
  · exact Quiet.rfl

theorem r9_quiet {env : FciEnv n} (st : GG n × Bool) : Quiet st (r9 env st) := by
  refine Quiet.rfl.fold _ _ fun u b _ => Quiet.rfl.fold _ _ fun v p _ => ?_
  unfold r9Step
  dsimp only
  repeat' split
  all_goals first | exact Quiet.rfl | exact Quiet.set

theorem r10_quiet {env : FciEnv n} (st : GG n × Bool) : Quiet st (r10 env st) := by
  refine Quiet.rfl.fold _ _ fun u b _ => Quiet.rfl.fold _ _ fun v p _ => ?_
  unfold r10A
  dsimp only
  split
  · exact Quiet.rfl
  · refine Quiet.rfl.fold _ _ fun w q _ => ?_
    unfold r10Step
    repeat' split
    all_goals first | exact Quiet.rfl | exact Quiet.set

/-- When a round ends with the flag down, every rule it ran was started on the final graph and changed nothing. -/
theorem round_quiet {env : FciEnv n} {ss : SSet n} {first : Bool} {G H : GG n} (h : (round env ss first G).1 = (H, false)) :
    G = H ∧ r1r2 env.k (H, false) = (H, false) ∧ r3 env.k ss (H, false) = (H, false) ∧
    ((first && env.allKinds) = true → r4 env ss (H, false) = (H, false)) ∧ r5 (H, false) = (H, false) ∧ r6 (H, false) = (H, false) ∧
    r7 (H, false) = (H, false) ∧ r8 (H, false) = (H, false) ∧ r9 env (H, false) = (H, false) ∧ r10 env (H, false) = (H, false) := by
  unfold round at h
  dsimp only at h
  generalize hs4 : (if ((r3 env.k ss (r1r2 env.k (G, false))).2 || first && env.allKinds) = true then
    r4 env ss (r3 env.k ss (r1r2 env.k (G, false))) else r3 env.k ss (r1r2 env.k (G, false))) = s4 at h
  have e10 := r10_quiet (env := env) (r9 env (r8 (r7 (r6 (r5 s4))))) (by rw [h])
  rw [e10] at h
  have e9 := r9_quiet (env := env) (r8 (r7 (r6 (r5 s4)))) (by rw [h])
  rw [e9] at h
  have e8 := r8_quiet (r7 (r6 (r5 s4))) (by rw [h])
  rw [e8] at h
  have e7 := r7_quiet (r6 (r5 s4)) (by rw [h])
  rw [e7] at h
  have e6 := r6_quiet (r5 s4) (by rw [h])
  rw [e6] at h
  have e5 := r5_quiet s4 (by rw [h])
  rw [e5] at h
  rw [h] at e5 e6 e7 e8 e9 e10 hs4
  rw [e5] at e6 e7 e8 e9 e10; rw [e6] at e7 e8 e9 e10; rw [e7] at e8 e9 e10; rw [e8] at e9 e10; rw [e9] at e10
  have e4 : r3 env.k ss (r1r2 env.k (G, false)) = (H, false) ∧ ((first && env.allKinds) = true → r4 env ss (H, false) = (H, false)) := by
    split at hs4
    · have := r4_quiet (env := env) (ss := ss) (r3 env.k ss (r1r2 env.k (G, false))) (by rw [hs4])
      rw [hs4] at this
      rw [← this] at hs4 ⊢
      exact ⟨Eq.refl _, fun _ => hs4⟩
    · rename_i hc
      exact ⟨hs4, fun hf => absurd (by simp [hf]) hc⟩
  have e3 := r3_quiet (k := env.k) (ss := ss) (r1r2 env.k (G, false)) (by rw [e4.1])
  rw [e4.1] at e3
  have e2 := r1r2_quiet (k := env.k) (G, false) (by rw [← e3])
  rw [← e3] at e2
  have eG : H = G := congrArg Prod.fst e2
  subst eG
  exact ⟨Eq.refl _, e3.symm, by rw [← e3] at e4; exact e4.1, e4.2, e5, e6, e7, e8, e9, e10⟩

end Fci
end CL
