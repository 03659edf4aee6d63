import Verif.Tree.Props

/-!
# C96: `a + b` of quantum systems

`QuantumSystem.__add__` (`classes/QSystem.py:423-440`).  The first part uses the trees of `Tree/Model.lean`: both operands are different and in
no composite.  The second part has objects with identities, so that an operand can be used again.  Simplifications: names as operands
(C22), terms, matrices and flags are left out; `copy` (of an operand added to itself) is a system of the same kind and dimension, and only
single systems are copied (C30).
-/
namespace Verif.Tree
open Sys

namespace Plus

/-- Which object is returned. -/
inductive Who
  | self | other | new
deriving DecidableEq, Repr

/-- `self + other` (`QSystem.py:429-440`); `none` is an exception (only the UnboundLocalError of line 440 is possible). -/
def plus (p c : Sys) : Option (Who × Sys) :=
  if p.kind ≠ some false ∧ c.kind ≠ some true then (addSub p c).map fun r => (.self, r)
  else if p.kind = none ∧ c.kind = some true then some (.other, c)
  else if p.kind = c.kind then ((addSub blank p).bind fun x => addSub x c).map fun r => (.new, r)
  else if p.kind ≠ some true ∧ c.kind = some true then (addSub c p).map fun r => (.other, r)
  else none

/-- An expression of single systems of these dimensions. -/
inductive Exp
  | one (d : Nat)
  | add (l r : Exp)

/-- The value of an expression; every operand is used once. -/
def eval : Exp → Option Sys
  | .one d => some (single d)
  | .add l r => match eval l, eval r with
    | some p, some c => (plus p c).map (·.2)
    | _, _ => none

/-- The single systems as written. -/
def Exp.leaves : Exp → List Nat
  | .one d => [d]
  | .add l r => l.leaves ++ r.leaves

/-- The order in which they end up: a single system in front of a composite goes to the end. -/
def Exp.order : Exp → List Nat
  | .one d => [d]
  | .add (.one d) (.add l r) => (Exp.add l r).order ++ [d]
  | .add l r => l.order ++ r.order

/-- No single system stands in front of a composite. -/
def Exp.Behind : Exp → Prop
  | .one _ => True
  | .add (.one _) (.add _ _) => False
  | .add l r => l.Behind ∧ r.Behind

/-- All dimensions are positive. -/
def Exp.Pos : Exp → Prop
  | .one d => 0 < d
  | .add l r => l.Pos ∧ r.Pos

/-! ## The cases -/

theorem good_add {p c : Sys} (hp : Shape p ∧ Positions p) (hc : Shape c ∧ Positions c) (hk : p.kind ≠ some false) :
    ∃ r, addSub p c = some r ∧ (Shape r ∧ Positions r) ∧ r.kind = some true ∧ dims r = if p.kind = some true then dims p ++ dims c else dims c := by
  obtain ⟨r, h1, h2, h3, h4⟩ := addSub_composite p c hk
  have hw := wf_addSub ((wf_iff p).2 hp) ((wf_iff c).2 hc) h1
  refine ⟨r, h1, (wf_iff r).1 hw, h2, ?_⟩
  by_cases h : p.kind = some true
  · rw [if_pos h]; exact h3 h
  · rw [if_neg h]
    refine h4 ?_
    cases p with
    | node k d b a s =>
      have := hp.1
      unfold Shape at this
      exact (this.2 h).1

theorem good_blank : Shape blank ∧ Positions blank := by
  refine (wf_iff blank).1 ?_
  unfold blank WF
  exact ⟨rfl, rfl, fun h => (by cases h), fun _ => ⟨rfl, Nat.one_pos⟩⟩

theorem good_single (d : Nat) (hd : 0 < d) : Shape (single d) ∧ Positions (single d) := by
  refine (wf_iff _).1 ?_
  unfold single WF
  exact ⟨rfl, rfl, fun h => (by cases h), fun _ => ⟨rfl, hd⟩⟩

/-- **C96** (partial: not for an operand without kind, nor for a single system in front of a composite).  `p + c` is a composite with the
single systems of `p` followed by those of `c`, all of them with the right positions: a new one for two single systems or two
composites, and `p` itself for a composite and a single system. -/
theorem C96_plus_partial {p c : Sys} (hsp : Shape p) (hp : Positions p) (hsc : Shape c) (hc : Positions c)
    (h : (p.kind = some true ∧ c.kind ≠ none) ∨ (p.kind = some false ∧ c.kind = some false)) :
    ∃ w r, plus p c = some (w, r) ∧ r.kind = some true ∧ Shape r ∧ Positions r ∧ dims r = dims p ++ dims c ∧
      (w = .self ↔ p.kind = some true ∧ c.kind = some false) ∧ w ≠ .other := by
  have new : p.kind = c.kind → p.kind ≠ none → (p.kind = some false ∨ c.kind = some true) →
      ∃ r, plus p c = some (.new, r) ∧ r.kind = some true ∧ Shape r ∧ Positions r ∧ dims r = dims p ++ dims c := by
    intro e hn hx
    obtain ⟨x, h1, gx, kx, dx⟩ := good_add good_blank ⟨hsp, hp⟩ (by simp [blank, kind])
    obtain ⟨r, h2, gr, kr, dr⟩ := good_add gx ⟨hsc, hc⟩ (by rw [kx]; simp)
    refine ⟨r, ?_, kr, gr.1, gr.2, ?_⟩
    · unfold plus
      rw [if_neg (by rcases hx with hx | hx <;> simp [hx]), if_neg (by simp [hn]), if_pos e, h1]
      simp [h2]
    · rw [dr, if_pos kx, dx]
      simp [blank, kind]
  rcases h with ⟨k1, k2⟩ | ⟨k1, k2⟩
  · cases hk : c.kind with
    | none => exact absurd hk k2
    | some b =>
      cases b with
      | true =>
        obtain ⟨r, e, a1, a2, a3, a4⟩ := new (by rw [k1, hk]) (by simp [k1]) (.inr hk)
        exact ⟨.new, r, e, a1, a2, a3, a4, by simp, by simp⟩
      | false =>
        obtain ⟨r, e, g, k, d⟩ := good_add ⟨hsp, hp⟩ ⟨hsc, hc⟩ (by rw [k1]; simp)
        refine ⟨.self, r, ?_, k, g.1, g.2, by rw [d, if_pos k1], by simp [k1], by simp⟩
        unfold plus
        rw [if_pos (by simp [k1, hk]), e]
        rfl
  · obtain ⟨r, e, a1, a2, a3, a4⟩ := new (by rw [k1, k2]) (by simp [k1]) (.inl k1)
    exact ⟨.new, r, e, a1, a2, a3, a4, by simp [k1], by simp⟩

/-- **C96** fails: a single system in front of a composite is put behind everything the composite contains, and the composite itself is
changed and returned. -/
theorem C96_single_first {p c : Sys} (hsp : Shape p) (hp : Positions p) (hsc : Shape c) (hc : Positions c)
    (h1 : p.kind = some false) (h2 : c.kind = some true) :
    ∃ r, plus p c = some (.other, r) ∧ plus c p = some (.self, r) ∧ Shape r ∧ Positions r ∧ dims r = dims c ++ dims p := by
  obtain ⟨r, e, g, _, d⟩ := good_add ⟨hsc, hc⟩ ⟨hsp, hp⟩ (by rw [h2]; simp)
  refine ⟨r, ?_, ?_, g.1, g.2, by rw [d, if_pos h2]⟩
  · unfold plus
    rw [if_neg (by simp [h1]), if_neg (by simp [h1]), if_neg (by simp [h1, h2]), if_pos (by simp [h1, h2]), e]
    rfl
  · unfold plus
    rw [if_pos (by simp [h1, h2]), e]
    rfl

/-- **C96** fails: of a system without kind (`QuantumSystem()`) and a composite, the composite alone is returned, as it was. -/
theorem C96_untyped_composite {p c : Sys} (h1 : p.kind = none) (h2 : c.kind = some true) : plus p c = some (.other, c) := by
  unfold plus
  rw [if_neg (by simp [h2]), if_pos ⟨h1, h2⟩]

/-- A system without kind becomes a composite that contains the other system only. -/
theorem C96_untyped_first {p c : Sys} (hsp : Shape p) (hp : Positions p) (hsc : Shape c) (hc : Positions c)
    (h1 : p.kind = none) (h2 : c.kind ≠ some true) : ∃ r, plus p c = some (.self, r) ∧ Shape r ∧ Positions r ∧ dims r = dims c := by
  obtain ⟨r, e, g, _, d⟩ := good_add ⟨hsp, hp⟩ ⟨hsc, hc⟩ (by rw [h1]; simp)
  refine ⟨r, ?_, g.1, g.2, by rw [d, h1]; simp⟩
  unfold plus
  rw [if_pos (by simp [h1, h2]), e]
  rfl

/-- **C96** (exceptions).  The only exception is the UnboundLocalError for a single system plus a system without kind. -/
theorem C96_raises {p c : Sys} (hsp : Shape p) (hp : Positions p) (hsc : Shape c) (hc : Positions c) :
    plus p c = none ↔ p.kind = some false ∧ c.kind = none := by
  constructor
  · intro h
    cases hk : p.kind with
    | none =>
      by_cases h2 : c.kind = some true
      · rw [C96_untyped_composite hk h2] at h; cases h
      · obtain ⟨r, e, _⟩ := C96_untyped_first hsp hp hsc hc hk h2
        rw [e] at h; cases h
    | some b =>
      cases hc2 : c.kind with
      | none =>
        cases b with
        | false => exact ⟨rfl, rfl⟩
        | true =>
          obtain ⟨r, e, _⟩ := good_add ⟨hsp, hp⟩ ⟨hsc, hc⟩ (by rw [hk]; simp)
          unfold plus at h
          rw [if_pos (by simp [hk, hc2]), e] at h
          cases h
      | some b' =>
        cases b with
        | true =>
          obtain ⟨w, r, e, _⟩ := C96_plus_partial hsp hp hsc hc (.inl ⟨hk, by simp [hc2]⟩)
          rw [e] at h; cases h
        | false =>
          cases b' with
          | false =>
            obtain ⟨w, r, e, _⟩ := C96_plus_partial hsp hp hsc hc (.inr ⟨hk, hc2⟩)
            rw [e] at h; cases h
          | true =>
            obtain ⟨r, e, _⟩ := C96_single_first hsp hp hsc hc hk hc2
            rw [e] at h; cases h
  · rintro ⟨h1, h2⟩
    unfold plus
    rw [if_neg (by simp [h1]), if_neg (by simp [h1]), if_neg (by simp [h1, h2]), if_neg (by simp [h2])]

/-- What a system contains directly: kind and single systems of each sub-system. -/
def top (p : Sys) : List (Option Bool × List Nat) := p.subs.map fun s => (s.kind, dims s)

theorem kind_setAfter (v : Nat) (s : Sys) : (setAfter v s).kind = s.kind := by cases s; simp [setAfter, kind]
theorem kind_setBefore (v : Nat) (s : Sys) : (setBefore v s).kind = s.kind := by cases s; simp [setBefore, kind]

theorem top_addLoop (s : List Sys) (c : Sys) : (addLoop s c).1.map (fun s => (s.kind, dims s)) = s.map (fun s => (s.kind, dims s)) ∧
    (addLoop s c).2.kind = c.kind := by
  induction s generalizing c with
  | nil => simp [addLoop]
  | cons q r ih => simp [addLoop, ih, kind_setAfter, kind_setBefore, dims_setAfter]

theorem top_addSub {p c r : Sys} (h : addSub p c = some r) : top r = top p ++ [(c.kind, dims c)] := by
  cases p with
  | node k d b a s =>
    have : some r = some (node (some true) d b a ((addLoop s c).1 ++ [(addLoop s c).2])) := by
      rw [← h]
      cases k with
      | none => rfl
      | some v => cases v with
        | true => rfl
        | false => cases h
    injection this with this
    subst this
    simp [top, subs, top_addLoop, dims_addLoop]

/-- **C96** (contents).  What is returned contains directly: both operands if it is new, and what it contained before followed by the other
operand if it is one of the operands (or just what it contained before, as in `C96_untyped_composite`). -/
theorem C96_contents {p c r : Sys} {w : Who} (h : plus p c = some (w, r)) :
    (w = .new → top r = [(p.kind, dims p), (c.kind, dims c)]) ∧
    (w = .self → top r = top p ++ [(c.kind, dims c)]) ∧
    (w = .other → top r = if p.kind = none then top c else top c ++ [(p.kind, dims p)]) := by
  unfold plus at h
  by_cases h1 : p.kind ≠ some false ∧ c.kind ≠ some true
  · rw [if_pos h1] at h
    cases e : addSub p c with
    | none => rw [e] at h; cases h
    | some x =>
      rw [e] at h
      injection h with h
      injection h with hw hr
      subst hw hr
      exact ⟨by simp, fun _ => top_addSub e, by simp⟩
  · rw [if_neg h1] at h
    by_cases h2 : p.kind = none ∧ c.kind = some true
    · rw [if_pos h2] at h
      injection h with h
      injection h with hw hr
      subst hw hr
      exact ⟨by simp, by simp, fun _ => by rw [if_pos h2.1]⟩
    · rw [if_neg h2] at h
      by_cases h3 : p.kind = c.kind
      · rw [if_pos h3] at h
        cases e : addSub blank p with
        | none => rw [e] at h; cases h
        | some x =>
          rw [e] at h
          have h : (addSub x c).map (fun r => (Who.new, r)) = some (w, r) := h
          cases e' : addSub x c with
          | none => rw [e'] at h; cases h
          | some y =>
            rw [e'] at h
            injection h with h
            injection h with hw hr
            subst hw hr
            refine ⟨fun _ => ?_, by simp, by simp⟩
            rw [top_addSub e', top_addSub e]
            simp [top, blank, subs]
      · rw [if_neg h3] at h
        by_cases h4 : p.kind ≠ some true ∧ c.kind = some true
        · rw [if_pos h4] at h
          cases e : addSub c p with
          | none => rw [e] at h; cases h
          | some x =>
            rw [e] at h
            injection h with h
            injection h with hw hr
            subst hw hr
            refine ⟨by simp, by simp, fun _ => ?_⟩
            rw [if_neg (fun hn => h2 ⟨hn, h4.2⟩), top_addSub e]
        · rw [if_neg h4] at h
          cases h

/-! ## Sums of single systems -/

theorem eval_good : ∀ e : Exp, e.Pos → ∃ r, eval e = some r ∧ Shape r ∧ Positions r ∧ dims r = e.order ∧
    r.kind = some (match e with | .one _ => false | .add _ _ => true)
  | .one d, h => ⟨single d, rfl, (good_single d h).1, (good_single d h).2, by simp [single, dims, Exp.order], rfl⟩
  | .add l r, h => by
    obtain ⟨p, e1, s1, p1, d1, k1⟩ := eval_good l h.1
    obtain ⟨c, e2, s2, p2, d2, k2⟩ := eval_good r h.2
    have done : ∀ w x, plus p c = some (w, x) → Shape x → Positions x → x.kind = some true → dims x = (Exp.add l r).order →
        ∃ r', eval (.add l r) = some r' ∧ Shape r' ∧ Positions r' ∧ dims r' = (Exp.add l r).order ∧ r'.kind = some true := by
      intro w x e a1 a2 a3 a4
      exact ⟨x, by simp [eval, e1, e2, e], a1, a2, a4, a3⟩
    cases l with
    | one d =>
      cases r with
      | one d' =>
        obtain ⟨w, x, e, a1, a2, a3, a4, _⟩ := C96_plus_partial s1 p1 s2 p2 (.inr ⟨k1, k2⟩)
        exact done w x e a2 a3 a1 (by rw [a4, d1, d2]; simp [Exp.order])
      | add l' r' =>
        obtain ⟨x, e, _, a2, a3, a4⟩ := C96_single_first s1 p1 s2 p2 k1 k2
        refine done _ x e a2 a3 ?_ (by rw [a4, d1, d2]; simp [Exp.order])
        obtain ⟨y, hy, hk, _⟩ := addSub_composite c p (by rw [k2]; simp)
        unfold plus at e
        have hk1 : p.kind = some false := k1
        have hk2 : c.kind = some true := k2
        rw [if_neg (by simp [hk1]), if_neg (by simp [hk1]), if_neg (by simp [hk1, hk2]), if_pos (by simp [hk1, hk2]), hy] at e
        injection e with e
        injection e with _ e
        rw [← e]; exact hk
    | add l' r' =>
      obtain ⟨w, x, e, a1, a2, a3, a4, _⟩ := C96_plus_partial s1 p1 s2 p2 (.inl ⟨k1, by rw [k2]; simp⟩)
      exact done w x e a2 a3 a1 (by rw [a4, d1, d2]; simp [Exp.order])

/-- **C96** (sums).  Every sum of single systems has a value, which contains each of them once, with consistent positions, in the order
`Exp.order`. -/
theorem C96_sum (e : Exp) (h : e.Pos) : ∃ r, eval e = some r ∧ Shape r ∧ Positions r ∧ dims r = e.order ∧ e.order.Perm e.leaves := by
  obtain ⟨r, h1, h2, h3, h4, _⟩ := eval_good e h
  refine ⟨r, h1, h2, h3, h4, ?_⟩
  have : ∀ e : Exp, e.order.Perm e.leaves := by
    intro e
    induction e with
    | one d => exact .refl _
    | add l r ih1 ih2 =>
      cases l with
      | one d =>
        cases r with
        | one d' => exact .refl _
        | add l' r' =>
          show ((Exp.add l' r').order ++ [d]).Perm ([d] ++ (Exp.add l' r').leaves)
          exact List.perm_append_comm.trans (List.Perm.append_left _ ih2)
      | add l' r' =>
        show ((Exp.add l' r').order ++ r.order).Perm ((Exp.add l' r').leaves ++ r.leaves)
        exact List.Perm.append ih1 ih2
  exact this e

/-- **C96** (order).  The systems are in the order written if no single system stands in front of a composite, in particular for
`a + b + c + …`. -/
theorem C96_order (e : Exp) (h : e.Behind) : e.order = e.leaves := by
  induction e with
  | one d => rfl
  | add l r ih1 ih2 =>
    cases l with
    | one d =>
      cases r with
      | one d' => rfl
      | add l' r' => exact absurd h (by simp [Exp.Behind])
    | add l' r' =>
      show (Exp.add l' r').order ++ r.order = (Exp.add l' r').leaves ++ r.leaves
      have h : (Exp.add l' r').Behind ∧ r.Behind := h
      rw [ih1 h.1, ih2 h.2]

/-- `a + b + c + …`: Python brackets to the left. -/
def chain (e : Exp) : List Nat → Exp
  | [] => e
  | d :: ds => chain (.add e (.one d)) ds

theorem chain_behind (ds : List Nat) : ∀ e : Exp, e.Behind → (chain e ds).Behind ∧ (chain e ds).leaves = e.leaves ++ ds := by
  induction ds with
  | nil => intro e h; exact ⟨h, by simp [chain]⟩
  | cons d ds ih =>
    intro e h
    obtain ⟨a, b⟩ := ih (.add e (.one d)) (by cases e with
      | one d' => exact ⟨trivial, trivial⟩
      | add l r => exact ⟨h, trivial⟩)
    exact ⟨a, by simp [chain, b, Exp.leaves]⟩

theorem chain_flat (ds : List Nat) : ∀ (e : Exp) (p : Sys), eval e = some p → p.kind = some true → Shape p → Positions p → (∀ d ∈ ds, 0 < d) →
    ∃ r, eval (chain e ds) = some r ∧ top r = top p ++ ds.map fun d => (some false, [d]) := by
  induction ds with
  | nil => intro e p h _ _ _ _; exact ⟨p, h, by simp⟩
  | cons d ds ih =>
    intro e p h hk hs hp hd
    have gd := good_single d (hd d (by simp))
    obtain ⟨w, x, e1, a1, a2, a3, _, a5, _⟩ := C96_plus_partial hs hp gd.1 gd.2 (.inl ⟨hk, by simp [single, kind]⟩)
    have hw : w = .self := a5.2 ⟨hk, rfl⟩
    obtain ⟨r, h1, h2⟩ := ih (.add e (.one d)) x (by simp [eval, h, e1]) a1 a2 a3 (fun d' h' => hd d' (by simp [h']))
    refine ⟨r, h1, ?_⟩
    rw [h2, (C96_contents e1).2.1 hw]
    simp [single, kind, dims]

/-- **C96** (chains).  `a + b + c + …` contains directly all these systems, in the order written. -/
theorem C96_chain (d d' : Nat) (ds : List Nat) (h : ∀ x ∈ d :: d' :: ds, 0 < x) : ∃ r, eval (chain (.one d) (d' :: ds)) = some r ∧
    Shape r ∧ Positions r ∧ dims r = d :: d' :: ds ∧ top r = (d :: d' :: ds).map fun x => (some false, [x]) := by
  have pos : ∀ (ds : List Nat) (e : Exp), e.Pos → (∀ x ∈ ds, 0 < x) → (chain e ds).Pos := by
    intro ds
    induction ds with
    | nil => intro e he _; exact he
    | cons x ds ih => intro e he hx; exact ih _ ⟨he, hx x (by simp)⟩ (fun y hy => hx y (by simp [hy]))
  obtain ⟨r, h1, h2, h3, h4, _⟩ := C96_sum _ (pos (d' :: ds) (.one d) (h d (by simp)) (fun y hy => h y (List.mem_cons_of_mem _ hy)))
  obtain ⟨a, b⟩ := chain_behind (d' :: ds) (.one d) trivial
  have g1 := good_single d (h d (by simp))
  have g2 := good_single d' (h d' (by simp))
  obtain ⟨w, x, e1, a1, a2, a3, _, a5, a6⟩ := C96_plus_partial g1.1 g1.2 g2.1 g2.2 (.inr ⟨rfl, rfl⟩)
  have hw : w = .new := by
    cases w with
    | self => exact absurd (a5.1 rfl).1 (by simp [single, kind])
    | other => exact absurd rfl a6
    | new => rfl
  obtain ⟨r', h1', h2'⟩ := chain_flat ds (.add (.one d) (.one d')) x (by simp [eval, e1]) a1 a2 a3
    (fun y hy => h y (List.mem_cons_of_mem _ (List.mem_cons_of_mem _ hy)))
  have : some r = some r' := h1.symm.trans h1'
  injection this with this
  refine ⟨r, h1, h2, h3, by rw [h4, C96_order _ a, b]; rfl, ?_⟩
  rw [this, h2', (C96_contents e1).1 hw]
  simp [single, kind, dims]

/-- **C96** fails: addition is not associative, `a + (b + c)` has the order `b, c, a`. -/
theorem C96_not_associative (a b c : Nat) (ha : 0 < a) (hb : 0 < b) (hc : 0 < c) : ∃ r r',
    eval (.add (.add (.one a) (.one b)) (.one c)) = some r ∧ eval (.add (.one a) (.add (.one b) (.one c))) = some r' ∧
    dims r = [a, b, c] ∧ dims r' = [b, c, a] := by
  obtain ⟨r, h1, _, _, h4, _⟩ := C96_sum (.add (.add (.one a) (.one b)) (.one c)) ⟨⟨ha, hb⟩, hc⟩
  obtain ⟨r', h1', _, _, h4', _⟩ := C96_sum (.add (.one a) (.add (.one b) (.one c))) ⟨ha, hb, hc⟩
  exact ⟨r, r', h1, h1', by rw [h4]; rfl, by rw [h4']; rfl⟩

/-- `2 + 3 + 5`, and `2 + (3 + 5)`. -/
example : eval (chain (.one 2) [3, 5]) = some (node (some true) 1 1 1
      [node (some false) 2 1 15 [], node (some false) 3 2 5 [], node (some false) 5 6 1 []]) ∧
    eval (.add (.one 2) (.add (.one 3) (.one 5))) = some (node (some true) 1 1 1
      [node (some false) 3 1 10 [], node (some false) 5 3 2 [], node (some false) 2 15 1 []]) := ⟨rfl, rfl⟩

/-- `(2 + 3) + (5 + 7)` is a composite of two composites. -/
example : eval (.add (.add (.one 2) (.one 3)) (.add (.one 5) (.one 7))) = some (node (some true) 1 1 1
    [node (some true) 1 1 35 [node (some false) 2 1 105 [], node (some false) 3 2 35 []],
     node (some true) 1 6 1 [node (some false) 5 6 7 [], node (some false) 7 30 1 []]]) := rfl

/-! ## Operands that are used again -/

/-- An object: `__compSys`, `__dimension`, `__dimsBefore`, `__dimsAfter` and the values of `subSys` (`QSystem.py:75-100`). -/
structure Obj where
  kind : Option Bool
  dim : Nat
  before : Nat
  after : Nat
  subs : List Nat
deriving DecidableEq, Repr

/-- The objects, and the number of the next new one. -/
structure Mem where
  obj : Nat → Obj
  next : Nat

/-- Change one object. -/
def Mem.put (h : Mem) (i : Nat) (o : Obj) : Mem := { h with obj := fun j => if j = i then o else h.obj j }

/-- A new object. -/
def Mem.alloc (h : Mem) (o : Obj) : Mem × Nat := ({ h.put h.next o with next := h.next + 1 }, h.next)

/-- The product of the given dimensions. -/
def prodM (f : Nat → Option Nat) : List Nat → Option Nat
  | [] => some 1
  | i :: is => (f i).bind fun d => (prodM f is).map (d * ·)

/-- The `dimension` getter (`QSystem.py:227-239`).  `none`: RecursionError. -/
def dimM : Nat → Mem → Nat → Option Nat
  | 0, _, _ => none
  | n + 1, h, i => if (h.obj i).kind = some true then prodM (dimM n h) (h.obj i).subs else some (h.obj i).dim

/-- A loop over objects. -/
def loopM (f : Mem → Nat → Option Mem) : Mem → List Nat → Option Mem
  | h, [] => some h
  | h, i :: is => (f h i).bind fun h => loopM f h is

/-- The `_dimsBefore` setter (`QSystem.py:298-314, 324-326`). -/
def setBeforeM : Nat → Nat → Mem → Nat → Option Mem
  | 0, _, _, _ => none
  | n + 1, v, h, i =>
    let old := (h.obj i).before
    loopM (fun h q => setBeforeM n ((h.obj q).before * v / old) h q) (h.put i { h.obj i with before := v }) (h.obj i).subs

/-- The `_dimsAfter` setter (`QSystem.py:298-314, 336-338`). -/
def setAfterM : Nat → Nat → Mem → Nat → Option Mem
  | 0, _, _, _ => none
  | n + 1, v, h, i =>
    let old := (h.obj i).after
    loopM (fun h q => setAfterM n ((h.obj q).after * v / old) h q) (h.put i { h.obj i with after := v }) (h.obj i).subs

/-- `__addSub` (`QSystem.py:372-380`) for one sub-system `s` that is there already. -/
def besideM (n b : Nat) (h : Mem) (s : Nat) : Option Mem :=
  (dimM n h b).bind fun db => (setAfterM n ((h.obj s).after * db) h s).bind fun h =>
    (dimM n h s).bind fun ds => setBeforeM n ((h.obj b).before * ds) h b

/-- `a.addSubSys(b)` (`QSystem.py:382-409`).  `none`: ValueError, TypeError or RecursionError. -/
def addSubM (n : Nat) (h : Mem) (a b : Nat) : Option Mem :=
  if a ∈ (h.obj b).subs then none
  else if (h.obj a).kind = some false then none
  else
    let h := h.put a { h.obj a with kind := some true }
    if b ∈ (h.obj a).subs then some h
    else (loopM (besideM n b) h (h.obj a).subs).map fun h => h.put a { h.obj a with subs := (h.obj a).subs ++ [b] }

/-- `other.copy() if (other is self) else other` for a system without sub-systems; the copy is a single system because its dimension is
assigned (`QSystem.py:742-743`). -/
def operandM (h : Mem) (a b : Nat) : Mem × Nat :=
  if b = a then h.alloc ⟨some false, (h.obj b).dim, 1, 1, []⟩ else (h, b)

/-- `a + b` (`QSystem.py:423-440`): the objects afterwards and the one returned. -/
def plusM (n : Nat) (h : Mem) (a b : Nat) : Option (Mem × Nat) :=
  let ka := (h.obj a).kind
  let kb := (h.obj b).kind
  if ka ≠ some false ∧ kb ≠ some true then
    let (h, b) := operandM h a b
    (addSubM n h a b).map fun h => (h, a)
  else if ka = none ∧ kb = some true then some (h, b)
  else if ka = kb then
    let (h, b) := operandM h a b
    let (h, c) := h.alloc ⟨none, 1, 1, 1, []⟩
    (addSubM n h c a).bind fun h => (addSubM n h c b).map fun h => (h, c)
  else if ka ≠ some true ∧ kb = some true then (addSubM n h b a).map fun h => (h, b)
  else none

/-- The size of the matrices of an object: `_totalDim` (`QSystem.py:216-225`). -/
def totalDimM (n : Nat) (h : Mem) (i : Nat) : Option Nat := (dimM n h i).map fun d => d * (h.obj i).before * (h.obj i).after

/-- Single systems `0, 1, …` of the given dimensions. -/
def singles (ds : List Nat) : Mem := ⟨fun i => ⟨some false, ds.getD i 1, 1, 1, []⟩, ds.length⟩

theorem plusM_singles (n : Nat) (h : Mem) (a b : Nat) (hab : a ≠ b) (ha : (h.obj a).kind = some false) (hb : (h.obj b).kind = some false)
    (sa : (h.obj a).subs = []) (sb : (h.obj b).subs = []) (hna : a ≠ h.next) (hnb : b ≠ h.next) :
    ∃ h', plusM (n + 1) h a b = some (h', h.next) ∧ h'.next = h.next + 1 ∧ (h'.obj h.next) = ⟨some true, 1, 1, 1, [a, b]⟩ ∧
      h'.obj a = { h.obj a with after := (h.obj a).after * (h.obj b).dim } ∧
      h'.obj b = { h.obj b with before := (h.obj b).before * (h.obj a).dim } ∧
      ∀ i, i ≠ a → i ≠ b → i ≠ h.next → h'.obj i = h.obj i := by
  have hba : b ≠ a := fun e => hab e.symm
  have hna' : h.next ≠ a := fun e => hna e.symm
  have hnb' : h.next ≠ b := fun e => hnb e.symm
  refine ⟨⟨fun i => if i = h.next then ⟨some true, 1, 1, 1, [a, b]⟩ else if i = b then { h.obj b with before := (h.obj b).before * (h.obj a).dim }
    else if i = a then { h.obj a with after := (h.obj a).after * (h.obj b).dim } else h.obj i, h.next + 1⟩, ?_, ?_, ?_, ?_, ?_, ?_⟩
  · simp [plusM, operandM, ha, hb, hba, Mem.alloc, addSubM, Mem.put, hna, hnb, hna', hnb', hab, sa, sb, loopM, besideM, dimM, setAfterM,
      setBeforeM]
    funext i
    by_cases i1 : i = h.next
    · simp [i1]
    · by_cases i2 : i = b
      · simp [i2, hnb, hb, sb]
      · by_cases i3 : i = a
        · simp [i3, hna, hab, ha, sa]
        · simp [i1, i2, i3]
  · rfl
  · simp [hna, hnb, hna', hnb']
  · simp [hna, hnb, hna', hnb', hab, hba, ha, sa]
  · simp [hna, hnb, hna', hnb', hab, hba, hb, sb]
  · intro i i1 i2 i3
    simp [i1, i2, i3]

/-- **C96** fails: a single system that is used in two sums has wrong positions in both.  After `x = a + b; y = a + c` the matrices of `a`
have the size `da db dc`, while `x` has the dimension `da db` and `y` the dimension `da dc`. -/
theorem C96_used_twice (n da db dc : Nat) : ∃ h1 h2, plusM (n + 2) (singles [da, db, dc]) 0 1 = some (h1, 3) ∧ plusM (n + 2) h1 0 2 = some (h2, 4) ∧
    totalDimM (n + 2) h1 0 = some (da * db) ∧ dimM (n + 2) h1 3 = some (da * db) ∧
    totalDimM (n + 2) h2 0 = some (da * db * dc) ∧ dimM (n + 2) h2 3 = some (da * db) ∧ dimM (n + 2) h2 4 = some (da * dc) ∧
    (h2.obj 3).subs = [0, 1] ∧ (h2.obj 4).subs = [0, 2] := by
  obtain ⟨h1, e1, n1, c1, a1, b1, o1⟩ := plusM_singles (n + 1) (singles [da, db, dc]) 0 1 (by decide) rfl rfl rfl rfl
    (show (0 : Nat) ≠ 3 by decide) (show (1 : Nat) ≠ 3 by decide)
  have n1 : h1.next = 4 := n1
  have k0 : h1.obj 0 = ⟨some false, da, 1, db, []⟩ := by rw [a1]; simp [singles]
  have k1 : h1.obj 1 = ⟨some false, db, da, 1, []⟩ := by rw [b1]; simp [singles]
  have k2 : h1.obj 2 = ⟨some false, dc, 1, 1, []⟩ := by rw [o1 2 (by decide) (by decide) (show (2 : Nat) ≠ 3 by decide)]; rfl
  have k3 : h1.obj 3 = ⟨some true, 1, 1, 1, [0, 1]⟩ := c1
  obtain ⟨h2, e2, n2, c2, a2, b2, o2⟩ := plusM_singles (n + 1) h1 0 2 (by decide) (by rw [k0]) (by rw [k2]) (by rw [k0]) (by rw [k2])
    (by rw [n1]; decide) (by rw [n1]; decide)
  rw [n1] at e2 c2 o2
  have j0 : h2.obj 0 = ⟨some false, da, 1, db * dc, []⟩ := by rw [a2, k0, k2]
  have j2 : h2.obj 2 = ⟨some false, dc, da, 1, []⟩ := by rw [b2, k0, k2]; simp
  have j1 : h2.obj 1 = ⟨some false, db, da, 1, []⟩ := by rw [o2 1 (by decide) (by decide) (by decide), k1]
  have j3 : h2.obj 3 = ⟨some true, 1, 1, 1, [0, 1]⟩ := by rw [o2 3 (by decide) (by decide) (by decide), k3]
  refine ⟨h1, h2, e1, e2, ?_, ?_, ?_, ?_, ?_, by rw [j3], by rw [c2]⟩
  · simp [totalDimM, dimM, k0]
  · simp [dimM, prodM, k3, k0, k1]
  · simp [totalDimM, dimM, j0, Nat.mul_assoc]
  · simp [dimM, prodM, j3, j0, j1]
  · simp [dimM, prodM, c2, j0, j2]

/-- Adding a system that is there already changes nothing: `x + a` is `x`. -/
theorem C96_present (n : Nat) (h : Mem) (x a : Nat) (hx : (h.obj x).kind = some true) (ha : (h.obj a).kind = some false)
    (sa : (h.obj a).subs = []) (hm : a ∈ (h.obj x).subs) : ∃ h', plusM n h x a = some (h', x) ∧ ∀ i, h'.obj i = h.obj i := by
  have hax : a ≠ x := fun e => by rw [e, hx] at ha; cases ha
  refine ⟨h.put x { h.obj x with kind := some true }, ?_, fun i => ?_⟩
  · simp [plusM, hx, ha, operandM, hax, addSubM, sa, Mem.put, hm]
  · by_cases hi : i = x
    · simp [Mem.put, hi, ← hx]
    · simp [Mem.put, hi]

/-- `a + a` contains `a` and a copy of it, which is in no other composite. -/
theorem C96_double (n : Nat) (h : Mem) (a : Nat) (ha : (h.obj a).kind = some false) (sa : (h.obj a).subs = []) (hn : a < h.next) :
    ∃ h', plusM (n + 1) h a a = some (h', h.next + 1) ∧ h'.obj (h.next + 1) = ⟨some true, 1, 1, 1, [a, h.next]⟩ ∧
      h'.obj h.next = ⟨some false, (h.obj a).dim, (h.obj a).dim, 1, []⟩ ∧
      h'.obj a = { h.obj a with after := (h.obj a).after * (h.obj a).dim } := by
  have n1 : a ≠ h.next := by omega
  have n2 : a ≠ h.next + 1 := by omega
  have n3 : h.next ≠ a := by omega
  have n4 : h.next + 1 ≠ a := by omega
  refine ⟨⟨fun i => if i = h.next + 1 then ⟨some true, 1, 1, 1, [a, h.next]⟩ else if i = h.next then ⟨some false, (h.obj a).dim, (h.obj a).dim, 1, []⟩
    else if i = a then { h.obj a with after := (h.obj a).after * (h.obj a).dim } else h.obj i, h.next + 2⟩, ?_, ?_, ?_, ?_⟩
  · simp [plusM, operandM, Mem.alloc, addSubM, Mem.put, loopM, besideM, dimM, setAfterM, setBeforeM, ha, sa, n1, n2, n3, n4]
    funext i
    by_cases i1 : i = h.next + 1
    · simp [i1]
    · by_cases i2 : i = h.next
      · simp [i2]
      · by_cases i3 : i = a
        · simp [i3, n1, n2, ha, sa]
        · simp [i1, i2, i3]
  · simp
  · simp
  · simp [n1, n2]

/-- Three qubits: `(0 + 1) + 2` has the right positions, `0 + 1` and `0 + 2` do not. -/
example : ((plusM 9 (singles [2, 2, 2]) 0 1).bind fun r => (plusM 9 r.1 r.2 2).map fun r => ([0, 1, 2].map (totalDimM 9 r.1), dimM 9 r.1 r.2)) =
      some ([some 8, some 8, some 8], some 8) ∧
    ((plusM 9 (singles [2, 2, 2]) 0 1).bind fun r => (plusM 9 r.1 0 2).map fun r => ([0, 1, 2].map (totalDimM 9 r.1), dimM 9 r.1 r.2)) =
      some ([some 8, some 4, some 4], some 4) := by
  constructor <;> decide +kernel

end Plus
end Verif.Tree
