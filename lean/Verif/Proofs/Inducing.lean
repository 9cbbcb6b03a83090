import Verif.Proofs.DSep
import Verif.Spec.Latent
import Mathlib.Data.Set.Insert

/-!
# Inducing paths: what inseparability says about ancestors
-/
namespace Spec
open Relation
variable {V ι : Type} {E : V → V → Prop} {Z T Sel : Set V} {o : ι → V}

theorem AncOf.mono (h : Z ⊆ T) {b : V} (hb : AncOf E Z b) : AncOf E T b := by
  obtain ⟨z, hz, hp⟩ := hb
  exact ⟨z, h hz, hp⟩

theorem AncOf.of_path {a b : V} (h : ReflTransGen E a b) (hb : AncOf E Z b) : AncOf E Z a := by
  obtain ⟨z, hz, hp⟩ := hb
  exact ⟨z, hz, h.trans hp⟩

/-- An active walk with the marks at its two ends (`true`: an arrowhead points at the end). -/
inductive AW (E : V → V → Prop) (Z : Set V) : V → Bool → V → Bool → Prop
  | fwd {x y : V} : E x y → AW E Z x false y true
  | bwd {x y : V} : E y x → AW E Z x true y false
  | join {x b y : V} {dx d1 d2 dy : Bool} : AW E Z x dx b d1 → AW E Z b d2 y dy → (d1 = true → d2 = true → AncOf E Z b) →
      (d1 = false ∨ d2 = false → b ∉ Z) → AW E Z x dx y dy

theorem AW.symm {x y : V} {dx dy : Bool} (h : AW E Z x dx y dy) : AW E Z y dy x dx := by
  induction h with
  | fwd h => exact .bwd h
  | bwd h => exact .fwd h
  | join _ _ h1 h2 ih1 ih2 => exact .join ih2 ih1 (fun a b => h1 b a) (fun h => h2 h.symm)

theorem AW.of_dir {x y : V} (h : TransGen E x y) (hx : ¬ AncOf E Z x) : AW E Z x false y true := by
  induction h using TransGen.head_induction_on with
  | single h => exact .fwd h
  | @head c d hs _ ih =>
    have hd : ¬ AncOf E Z d := fun hd => hx (hd.of_edge hs)
    exact .join (.fwd hs) (ih hd) (fun _ h => by simp at h) (fun _ hm => hd ⟨d, hm, .refl⟩)

theorem ActiveSeq.glue {p r : List V} {b : V} (h1 : ActiveSeq E Z (p ++ [b])) (h2 : ActiveSeq E Z (b :: r))
    (hb : ∀ p' u w r', p = p' ++ [u] → r = w :: r' → Open E Z u b w) : ActiveSeq E Z (p ++ b :: r) := by
  constructor
  · intro a c hi
    rcases infix2_append hi with h | h
    · exact h1.edge a c h
    · exact h2.edge a c h
  · intro a v c hi
    rcases infix3_append hi with h | h | ⟨rfl, ⟨p', rfl⟩, r', rfl⟩
    · exact h1.opened a v c h
    · exact h2.opened a v c h
    · exact hb p' a c r' rfl rfl

/-- An active walk is an active sequence of nodes. -/
theorem AW.toSeq (hac : Acyclic E) {x y : V} {dx dy : Bool} (h : AW E Z x dx y dy) :
    ∃ l, ActiveSeq E Z l ∧ (∃ w r, l = x :: w :: r ∧ (dx = true ↔ E w x)) ∧ ∃ p u, l = p ++ [u, y] ∧ (dy = true ↔ E u y) := by
  induction h with
  | @fwd x y h => exact ⟨[x, y], .pair (Or.inl h), ⟨y, [], rfl, by simp [hac.asymm h]⟩, [], x, rfl, by simp [h]⟩
  | @bwd x y h => exact ⟨[x, y], .pair (Or.inr h), ⟨y, [], rfl, by simp [h]⟩, [], x, rfl, by simp [hac.asymm h]⟩
  | @join x b y dx d1 d2 dy _ _ h1 h2 ih1 ih2 =>
    obtain ⟨l1, a1, ⟨w1, r1, e1, m1⟩, p1, u1, f1, n1⟩ := ih1
    obtain ⟨l2, a2, ⟨w2, r2, e2, m2⟩, p2, u2, f2, n2⟩ := ih2
    have g1 : l1 = (p1 ++ [u1]) ++ [b] := by rw [f1]; simp
    refine ⟨(p1 ++ [u1]) ++ b :: w2 :: r2, ?_, ?_, ?_⟩
    · refine ActiveSeq.glue (g1 ▸ a1) (e2 ▸ a2) ?_
      intro p' u w r' hp hr
      have hu : u1 = u := by
        have := congrArg List.getLast? hp
        simpa using this
      simp only [List.cons.injEq] at hr
      obtain ⟨rfl, -⟩ := hr
      subst hu
      refine ⟨fun hc => h1 (n1.2 hc.1) (m2.2 hc.2), fun hc => h2 ?_⟩
      by_contra hcon
      simp only [not_or, Bool.not_eq_false] at hcon
      exact hc ⟨n1.1 hcon.1, m2.1 hcon.2⟩
    · rcases p1 with _ | ⟨s, _ | ⟨t, p1⟩⟩
      · have : x = u1 ∧ w1 = b ∧ r1 = [] := by simpa [e1] using f1
        obtain ⟨rfl, rfl, -⟩ := this
        exact ⟨_, _, rfl, m1⟩
      · have : x = s ∧ w1 = u1 ∧ r1 = [b] := by simpa [e1] using f1
        obtain ⟨rfl, rfl, -⟩ := this
        exact ⟨_, _, rfl, m1⟩
      · have : x = s ∧ w1 = t ∧ r1 = p1 ++ [u1, b] := by simpa [e1] using f1
        obtain ⟨rfl, rfl, -⟩ := this
        exact ⟨_, p1 ++ u1 :: b :: w2 :: r2, by simp, m1⟩
    · rw [← e2, f2]
      exact ⟨p1 ++ [u1] ++ p2, u2, by simp, n2⟩

theorem AW.dConn (hac : Acyclic E) {x y : V} {dx dy : Bool} (h : AW E Z x dx y dy) : DConn E Z x y := by
  obtain ⟨l, a, ⟨w, r, e, -⟩, p, u, f, -⟩ := h.toSeq hac
  refine dConn_of_walk hac (l := l) (by rw [e]; rfl) ?_ a
  rw [f]; simp

/-- Every node of an active path is an ancestor of an end or of the conditioning set. -/
theorem ActiveSeq.anc {l : List V} {x y v : V} (h : ActiveSeq E Z l) (hx : l.head? = some x) (hy : l.getLast? = some y) (hv : v ∈ l) :
    AncOf E ({x, y} ∪ Z) v := by
  obtain ⟨p, r, rfl⟩ := List.append_of_mem hv
  rcases List.eq_nil_or_concat p with rfl | ⟨p', a, rfl⟩
  · simp at hx; subst hx; exact ⟨v, by simp, .refl⟩
  rcases r with _ | ⟨c, r⟩
  · simp at hy; subst hy; exact ⟨v, by simp, .refl⟩
  have ho : Open E Z a v c := h.opened a v c ⟨p', r, by simp⟩
  have hmono : Z ⊆ {x, y} ∪ Z := fun z hz => Or.inr hz
  by_cases hc : Collider E a v c
  · exact (ho.1 hc).mono hmono
  · by_cases hcv : E c v
    · have hav : ¬ E a v := fun h' => hc ⟨h', hcv⟩
      have hva : E v a := (h.edge a v ⟨p', c :: r, by simp⟩).resolve_left hav
      have hrev : ActiveSeq E Z (v :: a :: p'.reverse) := by
        have := h.reverse
        refine this.infix ⟨(c :: r).reverse, [], by simp⟩
      rcases forward_or_anc hrev hva with hf | hf
      · refine ⟨x, by simp, (hf x ?_).to_reflTransGen⟩
        rcases p' with _ | ⟨s, p'⟩
        · simpa using hx
        · simp at hx
          subst hx
          simp [List.getLast?_cons, List.getLast?_append]
      · exact hf.mono hmono
    · have hvc : E v c := (h.edge v c ⟨p' ++ [a], r, by simp⟩).resolve_right hcv
      have hsuf : ActiveSeq E Z (v :: c :: r) := h.infix ⟨p' ++ [a], [], by simp⟩
      rcases forward_or_anc hsuf hvc with hf | hf
      · refine ⟨y, by simp, (hf y ?_).to_reflTransGen⟩
        rw [← hy]; simp [List.getLast?_append, List.getLast?_cons]
      · exact hf.mono hmono

theorem causes_of_edge (hac : Acyclic E) {x y w : V} (h : E x w) (hw : AncOf E ({x, y} ∪ Sel) w) : Causes E Sel x y := by
  obtain ⟨z, hz, hp⟩ := hw
  rcases hz with (rfl | rfl) | hz
  · exact absurd (TransGen.head' h hp) (hac _)
  · exact ⟨z, Or.inl rfl, hp.head h⟩
  · exact ⟨z, Or.inr hz, hp.head h⟩

theorem induce_aux (hac : Acyclic E) (hT : Sel ⊆ T) {X Y : V} : ∀ (r : List V) (v w : V) (dx d : Bool),
    (v :: w :: r).getLast? = some Y → (∀ a b, [a, b] <:+: v :: w :: r → Adj E a b) →
    (∀ a b c, [a, b, c] <:+: v :: w :: r → b ≠ X ∧ b ≠ Y ∧ (Collider E a b c → AncOf E ({X, Y} ∪ Sel) b) ∧ (¬ Collider E a b c → b ∉ T)) →
    (∀ u ∈ v :: w :: r, AncOf E ({X, Y} ∪ Sel) u) →
    AW E T X dx w d → (d = true → E v w) → (d = false → E w v) → (¬ Causes E Sel X Y → dx = true) →
    ∃ dx dy, AW E T X dx Y dy ∧ (¬ Causes E Sel X Y → dx = true) ∧ (¬ Causes E Sel Y X → dy = true) := by
  intro r
  induction r with
  | nil =>
    intro v w dx d hl _ _ hanc hw hd1 hd2 hx
    simp only [List.getLast?_cons_cons, List.getLast?_singleton, Option.some.injEq] at hl
    subst hl
    refine ⟨dx, d, hw, hx, fun hY => ?_⟩
    by_contra hd
    simp only [Bool.not_eq_true] at hd
    refine hY (causes_of_edge hac (hd2 hd) ?_)
    have := hanc v (by simp)
    rwa [Set.pair_comm]
  | cons c r ih =>
    intro v w dx d hl hedge htr hanc hw hd1 hd2 hx
    obtain ⟨hwX, hwY, hcol, hnon⟩ := htr v w c ⟨[], r, by simp⟩
    have hnext : ∀ (dx e : Bool), AW E T X dx w e → (¬ Causes E Sel X Y → dx = true) → (e = true → E c w → AncOf E T w) →
        (e = false ∨ ¬ E c w → w ∉ T) →
        ∃ dx dy, AW E T X dx Y dy ∧ (¬ Causes E Sel X Y → dx = true) ∧ (¬ Causes E Sel Y X → dy = true) := by
      intro dx e hwe hx h1 h2
      have hadj : Adj E w c := hedge w c ⟨[v], r, by simp⟩
      have step : ∀ f, AW E T X dx c f → (f = true → E w c) → (f = false → E c w) → _ := fun f hf k1 k2 =>
        ih w c dx f (by simpa [List.getLast?_cons_cons] using hl) (fun a b h => hedge a b (h.trans ⟨[v], [], by simp⟩))
          (fun a b c' h => htr a b c' (h.trans ⟨[v], [], by simp⟩)) (fun u hu => hanc u (List.mem_cons_of_mem _ hu)) hf k1 k2 hx
      by_cases hcw : E c w
      · exact step false (.join hwe (.bwd hcw) (fun he _ => h1 he hcw) (fun he => h2 (Or.inl (by simpa using he)))) (by simp) (fun _ => hcw)
      · have hwc := hadj.resolve_right hcw
        exact step true (.join hwe (.fwd hwc) (fun _ h => by simp at h) (fun _ => h2 (Or.inr hcw))) (fun _ => hwc) (by simp)
    by_cases hc : Collider E v w c
    · by_cases hT' : AncOf E T w
      · refine hnext dx d hw hx (fun _ _ => hT') (fun he => ?_)
        rcases he with he | he
        · exact absurd hc.1 (hac.asymm (hd2 he))
        · exact absurd hc.2 he
      · obtain ⟨z, hz, hp⟩ := hcol hc
        rcases hz with (rfl | rfl) | hz
        · have hdir : TransGen E w z := (reflTransGen_iff_eq_or_transGen.1 hp).resolve_left (fun h => hwX h.symm)
          exact hnext true false (AW.of_dir hdir hT').symm (fun _ => rfl) (by simp) (fun _ hm => hT' ⟨w, hm, .refl⟩)
        · have hdir : TransGen E w z := (reflTransGen_iff_eq_or_transGen.1 hp).resolve_left (fun h => hwY h.symm)
          exact ⟨dx, true, .join hw (AW.of_dir hdir hT') (fun _ h => by simp at h) (fun _ hm => hT' ⟨w, hm, .refl⟩), hx, fun _ => rfl⟩
        · exact absurd ⟨z, hT hz, hp⟩ hT'
    · refine hnext dx d hw hx (fun he hcw => absurd ⟨hd1 he, hcw⟩ hc) (fun _ => hnon hc)

/-- **Inseparable variables are joined by an active walk given any set of observed variables**, and the walk enters an end unless
that end is an ancestor of the other end or of the selection. -/
theorem induce (hac : Acyclic E) (ho : Function.Injective o) (hs : ∀ i, o i ∉ Sel) {x y : ι} (hne : x ≠ y)
    (hins : ¬ Separable E o Sel x y) (S : Set ι) :
    ∃ dx dy, AW E (o '' S ∪ Sel) (o x) dx (o y) dy ∧ (¬ Causes E Sel (o x) (o y) → dx = true) ∧
      (¬ Causes E Sel (o y) (o x) → dy = true) := by
  obtain ⟨l, hnd, hh, hl, ha⟩ : DConn E (o '' {i | AncOf E ({o x, o y} ∪ Sel) (o i) ∧ i ≠ x ∧ i ≠ y} ∪ Sel) (o x) (o y) := by
    by_contra hcon
    exact hins ⟨{i | AncOf E ({o x, o y} ∪ Sel) (o i) ∧ i ≠ x ∧ i ≠ y}, by simp, by simp, hcon⟩
  have hsub : ∀ v, AncOf E (o '' {i | AncOf E ({o x, o y} ∪ Sel) (o i) ∧ i ≠ x ∧ i ≠ y} ∪ Sel) v → AncOf E ({o x, o y} ∪ Sel) v := by
    rintro v ⟨z, ⟨i, hi, rfl⟩ | hz, hp⟩
    · exact hi.1.of_path hp
    · exact ⟨z, Or.inr hz, hp⟩
  have hanc : ∀ v ∈ l, AncOf E ({o x, o y} ∪ Sel) v := by
    intro v hv
    obtain ⟨z, hz | hz, hp⟩ := ha.anc hh hl hv
    · exact ⟨z, Or.inl hz, hp⟩
    · exact AncOf.of_path hp (hsub z ⟨z, hz, .refl⟩)
  have htr : ∀ a b c, [a, b, c] <:+: l → b ≠ o x ∧ b ≠ o y ∧ (Collider E a b c → AncOf E ({o x, o y} ∪ Sel) b) ∧
      (¬ Collider E a b c → b ∉ o '' S ∪ Sel) := by
    intro a b c hi
    have ho' := ha.opened a b c hi
    obtain ⟨s, t, rfl⟩ := hi
    have h1 : b ≠ o x := by
      rintro rfl
      rcases s with _ | ⟨s0, s⟩
      · simp at hh hnd; subst hh; exact hnd.1.1 rfl
      · simp at hh hnd; subst hh; simp at hnd
    have h2 : b ≠ o y := by
      rintro rfl
      have : o y ∈ c :: t := by
        have : (c :: t).getLast? = some (o y) := by
          rw [← hl]
          simp [List.getLast?_append, List.getLast?_cons]
        exact List.mem_of_getLast? this
      simp [List.nodup_append] at hnd
      simp at this
      tauto
    refine ⟨h1, h2, fun hc => hsub b (ho'.1 hc), fun hc => ?_⟩
    have hb := ho'.2 hc
    rintro (⟨i, hi, rfl⟩ | hb')
    · refine hb (Or.inl ⟨i, ⟨hanc _ (by simp), ?_, ?_⟩, rfl⟩)
      · rintro rfl; exact h1 rfl
      · rintro rfl; exact h2 rfl
    · exact hb (Or.inr hb')
  rcases l with _ | ⟨a, _ | ⟨w, r⟩⟩
  · simp at hh
  · simp at hh hl
    exact absurd (ho (hh.symm.trans hl)) hne
  · simp at hh
    subst hh
    have hadj : Adj E (o x) w := ha.edge (o x) w ⟨[], r, by simp⟩
    have hsT : Sel ⊆ o '' S ∪ Sel := fun z hz => Or.inr hz
    rcases hadj with h | h
    · exact induce_aux hac hsT r (o x) w false true hl (fun a b => ha.edge a b) htr hanc (.fwd h) (fun _ => h) (by simp)
        (fun hn => absurd (causes_of_edge hac h (hanc w (by simp))) hn)
    · exact induce_aux hac hsT r (o x) w true false hl (fun a b => ha.edge a b) htr hanc (.bwd h) (by simp) (fun _ => h) (fun _ => rfl)

theorem separable_symm {x y : ι} (h : Separable E o Sel x y) : Separable E o Sel y x := by
  obtain ⟨S, h1, h2, h3⟩ := h
  exact ⟨S, h2, h1, dSep_symm.1 h3⟩

theorem Causes.trans {u v w : V} (h1 : Causes E Sel u v) (h2 : Causes E Sel v w) : Causes E Sel u w := by
  obtain ⟨z, rfl | hz, hp⟩ := h1
  · exact h2.of_path hp
  · exact ⟨z, Or.inr hz, hp⟩

/-- mutual ancestors: selected -/
theorem Causes.mutual (hac : Acyclic E) {u v : V} (hne : u ≠ v) (h1 : Causes E Sel u v) (h2 : Causes E Sel v u) : AncOf E Sel u := by
  obtain ⟨z, rfl | hz, hp⟩ := h1
  · obtain ⟨z', rfl | hz', hp'⟩ := h2
    · have := (reflTransGen_iff_eq_or_transGen.1 hp).resolve_left (fun h => hne h.symm)
      exact absurd (this.trans_left hp') (hac _)
    · exact ⟨z', hz', hp.trans hp'⟩
  · exact ⟨z, hz, hp⟩

theorem Causes.of_sel {u v : V} (h : AncOf E Sel u) : Causes E Sel u v := h.mono fun _ h => Or.inr h

section
variable (hac : Acyclic E) (ho : Function.Injective o) (hs : ∀ i, o i ∉ Sel)
include hac ho hs

/-- A walk into `b` goes on to `c`, whatever the marks, when `b` is an ancestor of the conditioning set outside it. -/
theorem through {S : Set ι} {a b c : ι} {da d1 d2 dc : Bool} (hsep : DSep E (o '' S ∪ Sel) (o a) (o c)) (hb : b ∉ S)
    (h1 : AW E (o '' S ∪ Sel) (o a) da (o b) d1) (h2 : AW E (o '' S ∪ Sel) (o b) d2 (o c) dc) :
    ¬ AncOf E (o '' S ∪ Sel) (o b) ∧ d1 = true ∧ d2 = true := by
  have hbT : o b ∉ o '' S ∪ Sel := by
    rintro (⟨i, hi, e⟩ | h)
    · exact hb (ho e ▸ hi)
    · exact hs b h
  have hd : ¬ (d1 = false ∨ d2 = false) := fun hd =>
    hsep (AW.dConn hac (.join h1 h2 (fun e1 e2 => by simp [e1, e2] at hd) (fun _ => hbT)))
  simp only [not_or, Bool.not_eq_false] at hd
  exact ⟨fun hA => hsep (AW.dConn hac (.join h1 h2 (fun _ _ => hA) (fun _ => hbT))), hd.1, hd.2⟩

/-- A directed path out of `b` cannot continue an active walk ending in `b`. -/
theorem not_causes_of_walk {S : Set ι} {a b c : ι} {da d1 : Bool} (hsep : DSep E (o '' S ∪ Sel) (o a) (o c)) (hb : b ∉ S) (hbc : b ≠ c)
    (hins : ¬ Separable E o Sel b c) (h1 : AW E (o '' S ∪ Sel) (o a) da (o b) d1) : ¬ Causes E Sel (o b) (o c) := by
  intro hcon
  obtain ⟨d2, dc, h2, -, -⟩ := induce hac ho hs hbc hins S
  obtain ⟨hA, -, -⟩ := through hac ho hs hsep hb h1 h2
  obtain ⟨z, rfl | hz, hp⟩ := hcon
  · have hdir : TransGen E (o b) (o c) := (reflTransGen_iff_eq_or_transGen.1 hp).resolve_left (fun h => hbc (ho h.symm))
    have := (through hac ho hs hsep hb h1 (AW.of_dir hdir hA)).2.2
    simp at this
  · exact hA ⟨z, Or.inr hz, hp⟩

/-- The middle of an unshielded triple is left out by a separating set: it is no ancestor of either end. -/
theorem triple_out {S : Set ι} {a b c : ι} (hab : a ≠ b) (hbc : b ≠ c) (h1 : ¬ Separable E o Sel a b) (h2 : ¬ Separable E o Sel b c)
    (hb : b ∉ S) (hsep : DSep E (o '' S ∪ Sel) (o a) (o c)) : ¬ Causes E Sel (o b) (o a) ∧ ¬ Causes E Sel (o b) (o c) := by
  obtain ⟨da, d1, w1, -, -⟩ := induce hac ho hs hab h1 S
  obtain ⟨d2, dc, w2, -, -⟩ := induce hac ho hs hbc h2 S
  exact ⟨not_causes_of_walk hac ho hs (dSep_symm.1 hsep) hb hab.symm (fun h => h1 (separable_symm h)) w2.symm,
    not_causes_of_walk hac ho hs hsep hb hbc h2 w1⟩

/-- The middle of an unshielded triple is in a separating set: it is an ancestor of an end (or selected). -/
theorem triple_in {S : Set ι} {a b c : ι} (hab : a ≠ b) (hbc : b ≠ c) (h1 : ¬ Separable E o Sel a b) (h2 : ¬ Separable E o Sel b c)
    (hb : b ∈ S) (hsep : DSep E (o '' S ∪ Sel) (o a) (o c)) : Causes E Sel (o b) (o a) ∨ Causes E Sel (o b) (o c) := by
  by_contra hcon
  rw [not_or] at hcon
  obtain ⟨da, d1, w1, -, e1⟩ := induce hac ho hs hab h1 S
  obtain ⟨d2, dc, w2, e2, -⟩ := induce hac ho hs hbc h2 S
  refine hsep (AW.dConn hac (.join w1 w2 (fun _ _ => ⟨o b, Or.inl ⟨b, hb, rfl⟩, .refl⟩) (fun h => ?_)))
  rw [e1 hcon.1, e2 hcon.2] at h
  simp at h

/-- A collider path `p 0, …, p k, b` whose interior nodes are ancestors of `c`, started at the end `p 0`: given a set that separates
`p 0` and `c`, there is an active walk from `p 0` to `b`, which enters `b` if `b` is no ancestor of `p k`. -/
theorem disc_walk {S : Set ι} {c : ι} : ∀ (path : List ι) (d t : ι) , (∀ x ∈ t :: path, x ≠ c) →
    DSep E (o '' S ∪ Sel) (o d) (o c) → (t :: path ≠ []) →
    (∃ da, AW E (o '' S ∪ Sel) (o d) da (o t) true) →
    (∀ x y, [x, y] <:+: t :: path → x ≠ y ∧ ¬ Separable E o Sel x y ∧ ¬ Separable E o Sel x c ∧ Causes E Sel (o x) (o c) ∧
      ¬ Causes E Sel (o x) (o y)) →
    (∀ x y z, [x, y, z] <:+: t :: path → ¬ Causes E Sel (o y) (o x)) →
    ∀ p a b, t :: path = p ++ [a, b] → ∃ da db, AW E (o '' S ∪ Sel) (o d) da (o b) db ∧ (¬ Causes E Sel (o b) (o a) → db = true) := by
  intro path
  induction path with
  | nil =>
    intro d t _ _ _ _ _ _ p a b he
    have := congrArg List.length he
    simp at this
  | cons u path ih =>
    intro d t hc hsep _ hw hpair htri p a b he
    obtain ⟨da, hw⟩ := hw
    obtain ⟨htu, hins, hinsc, hcau, hncau⟩ := hpair t u ⟨[], path, by simp⟩
    have htS : t ∈ S := by
      by_contra htS
      exact not_causes_of_walk hac ho hs hsep htS (hc t (by simp)) hinsc hw hcau
    obtain ⟨d1, d2, w, e1, e2⟩ := induce hac ho hs htu hins S
    have hw2 : AW E (o '' S ∪ Sel) (o d) da (o u) d2 :=
      .join hw w (fun _ _ => ⟨o t, Or.inl ⟨t, htS, rfl⟩, .refl⟩) (fun h => by simp [e1 hncau] at h)
    rcases path with _ | ⟨v, path⟩
    · have : p = [] ∧ t = a ∧ u = b := by
        rcases p with _ | ⟨q, p⟩
        · simpa using he
        · have := congrArg List.length he; simp at this
      obtain ⟨-, rfl, rfl⟩ := this
      exact ⟨da, d2, hw2, e2⟩
    · have hu := htri t u v ⟨[], path, by simp⟩
      rcases p with _ | ⟨q, p⟩
      · simp at he
      · refine ih d u (fun x hx => hc x (List.mem_cons_of_mem _ hx)) hsep (by simp) ⟨da, by rw [← e2 hu]; exact hw2⟩
          (fun x y h => hpair x y (h.trans ⟨[t], [], by simp⟩)) (fun x y z h => htri x y z (h.trans ⟨[t], [], by simp⟩)) p a b ?_
        simpa using (List.cons.inj he).2

/-- What a discriminating path `d, …, a, b, c` for `b` tells: `path` lists the nodes from the one after `d` up to `b`. -/
theorem discriminating {S : Set ι} {d c t : ι} {path p : List ι} {a b : ι} (he : t :: path = p ++ [a, b])
    (hc : ∀ x ∈ t :: path, x ≠ c) (hsep : DSep E (o '' S ∪ Sel) (o d) (o c)) (hdt : d ≠ t) (hinsd : ¬ Separable E o Sel d t)
    (htd : ¬ Causes E Sel (o t) (o d))
    (hpair : ∀ x y, [x, y] <:+: t :: path → x ≠ y ∧ ¬ Separable E o Sel x y ∧ ¬ Separable E o Sel x c ∧ Causes E Sel (o x) (o c) ∧
      ¬ Causes E Sel (o x) (o y))
    (htri : ∀ x y z, [x, y, z] <:+: t :: path → ¬ Causes E Sel (o y) (o x)) (hinsb : ¬ Separable E o Sel b c) :
    (b ∈ S → Causes E Sel (o b) (o c)) ∧ (b ∉ S → ¬ Causes E Sel (o b) (o a) ∧ ¬ Causes E Sel (o b) (o c)) := by
  obtain ⟨d1, d2, w, e1, e2⟩ := induce hac ho hs hdt hinsd S
  obtain ⟨da, db, hw, hdb⟩ := disc_walk hac ho hs path d t hc hsep (by simp) ⟨d1, by rw [← e2 htd]; exact w⟩ hpair htri p a b he
  have hac' : Causes E Sel (o a) (o c) := (hpair a b ⟨p, [], by rw [he]; simp⟩).2.2.2.1
  have hbc : b ≠ c := hc b (by rw [he]; simp)
  constructor
  · intro hb
    by_contra hcon
    obtain ⟨d3, d4, w', e3, -⟩ := induce hac ho hs hbc hinsb S
    refine hsep (AW.dConn hac (.join hw w' (fun _ _ => ⟨o b, Or.inl ⟨b, hb, rfl⟩, .refl⟩) (fun h => ?_)))
    rw [hdb (fun h => hcon (h.trans hac')), e3 hcon] at h
    simp at h
  · intro hb
    have := not_causes_of_walk hac ho hs hsep hb hbc hinsb hw
    exact ⟨fun h => this (h.trans hac'), this⟩

end
end Spec
