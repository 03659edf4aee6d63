import Verif.Tree.Props
import Verif.Sweep.Model

/-!
# C26 with the division of the code

In `Verif.Tree.Model` the positions are rescaled with the quotient of natural numbers.  The code uses `int((a*b)/c)`
(`QSystem.py:291-293,314`), where `/` gives a floating point number.  Here the functions that rescale are written with any division that is
exact for quotients up to `2^53` (`Sweep.FloatDiv`), and compared with those of `Verif.Tree.Model`.
-/
namespace Verif.Tree
open Sys Verif.Sweep

mutual
/-- The `_dimsBefore` setter (`QSystem.py:298-314, 324-326`). -/
def setBeforeF (fd : FloatDiv) (v : Nat) : Sys → Sys
  | node k d b a s => node k d v a (scaleBeforeF fd v b s)
/-- The loop over `subSys` of `__dimsABUpdate('_dimsBefore', v)`. -/
def scaleBeforeF (fd : FloatDiv) (v old : Nat) : List Sys → List Sys
  | [] => []
  | s :: r => setBeforeF fd (fd.div (s.before * v) old) s :: scaleBeforeF fd v old r
end

mutual
/-- The `_dimsAfter` setter (`QSystem.py:298-314, 336-338`). -/
def setAfterF (fd : FloatDiv) (v : Nat) : Sys → Sys
  | node k d b a s => node k d b v (scaleAfterF fd v a s)
/-- The loop over `subSys` of `__dimsABUpdate('_dimsAfter', v)`. -/
def scaleAfterF (fd : FloatDiv) (v old : Nat) : List Sys → List Sys
  | [] => []
  | s :: r => setAfterF fd (fd.div (s.after * v) old) s :: scaleAfterF fd v old r
end

/-- `__addSub` (`QSystem.py:372-380`); the products are those of integers. -/
def addLoopF (fd : FloatDiv) : List Sys → Sys → List Sys × Sys
  | [], c => ([], c)
  | s :: r, c =>
    let s' := setAfterF fd (s.after * c.dimension) s
    let rest := addLoopF fd r (setBeforeF fd (c.before * s.dimension) c)
    (s' :: rest.1, rest.2)

/-- `addSubSys` (`QSystem.py:382-409`), as `Sys.addSub`. -/
def addSubF (fd : FloatDiv) (p c : Sys) : Option Sys :=
  match p with
  | node (some false) _ _ _ _ => none
  | node _ d b a s => some (node (some true) d b a ((addLoopF fd s c).1 ++ [(addLoopF fd s c).2]))

/-- `_updateDimension` (`QSystem.py:273-296`), as `Sys.updateDim`. -/
def updateDimF (fd : FloatDiv) (i new old : Nat) (s : List Sys) : List Sys :=
  s.mapIdx fun j q =>
    if j < i then setAfterF fd (fd.div (q.after * new) old) q
    else if i < j then setBeforeF fd (fd.div (q.before * new) old) q
    else q

/-- The `dimension` setter (`QSystem.py:247-263`), as `Sys.setDim`. -/
def setDimF (fd : FloatDiv) (d : Nat) : List Nat → Sys → Option (Sys × Option Nat)
  | [], node k d₀ b a s =>
    let k' := match k with | none => some (!s.isEmpty) | some v => some v
    if k' = some true then some (node k' d₀ b a s, none)
    else if d = 0 then none
    else some (node k' d b a s, some d₀)
  | i :: p, node k d₀ b a s =>
    match s[i]? with
    | none => none
    | some q =>
      match setDimF fd d p q with
      | none => none
      | some (q', none) => some (node k d₀ b a (s.set i q'), none)
      | some (q', some old) => some (node k d₀ b a (updateDimF fd i d old (s.set i q')), some old)

theorem div_eq (fd : FloatDiv) {n a q : Nat} (ha : 0 < a) (e : n = a * q) (h : q ≤ 2 ^ 53) : fd.div n a = n / a := by
  refine fd.exact n a ha ⟨q, e⟩ ?_
  rw [e, Nat.mul_div_cancel_left _ ha]
  exact h

theorem le_left {a b c : Nat} (h : a * b ≤ c) (hb : 0 < b) : a ≤ c := le_trans (Nat.le_mul_of_pos_right a hb) h

mutual
theorem setAfterF_eq (fd : FloatDiv) : ∀ (s : Sys) (L R v : Nat), 0 < R → WF L R s → v * s.dimension ≤ 2 ^ 53 → setAfterF fd v s = setAfter v s
  | node k d b a s, L, R, v, hR, h, hv => by
    unfold WF at h
    obtain ⟨rfl, rfl, h1, h2⟩ := h
    unfold setAfterF setAfter
    by_cases hk : k = some true
    · rw [scaleAfterF_eq fd s b a v hR (h1 hk) (by simpa [dimension, hk] using hv)]
    · obtain ⟨rfl, _⟩ := h2 hk
      simp [scaleAfterF, scaleAfter]
theorem scaleAfterF_eq (fd : FloatDiv) : ∀ (s : List Sys) (L R v : Nat), 0 < R → WFL L R s → v * dimProd s ≤ 2 ^ 53 →
    scaleAfterF fd v R s = scaleAfter v R s
  | [], _, _, _, _, _, _ => by simp [scaleAfterF, scaleAfter]
  | s :: r, L, R, v, hR, h, hv => by
    simp only [WFL] at h
    simp only [dimProd] at hv
    have hp := wf_pos h.1
    have hr := wfL_pos h.2
    have e : s.after * v = R * (dimProd r * v) := by rw [wf_after h.1]; ring
    have hq : dimProd r * v * s.dimension ≤ 2 ^ 53 := by rw [show dimProd r * v * s.dimension = v * (s.dimension * dimProd r) by ring]; exact hv
    have e2 : s.after * v / R = dimProd r * v := by rw [e, Nat.mul_div_cancel_left _ hR]
    simp only [scaleAfterF, scaleAfter]
    rw [div_eq fd hR e (le_left hq hp), e2, setAfterF_eq fd s L _ _ (Nat.mul_pos hr hR) h.1 hq,
      scaleAfterF_eq fd r _ R v hR h.2 (le_left (b := s.dimension) (by rw [show v * dimProd r * s.dimension = v * (s.dimension * dimProd r) by ring]; exact hv) hp)]
end

mutual
theorem setBeforeF_eq (fd : FloatDiv) : ∀ (s : Sys) (L R v : Nat), 0 < L → WF L R s → v * s.dimension ≤ 2 ^ 53 → setBeforeF fd v s = setBefore v s
  | node k d b a s, L, R, v, hL, h, hv => by
    unfold WF at h
    obtain ⟨rfl, rfl, h1, h2⟩ := h
    unfold setBeforeF setBefore
    by_cases hk : k = some true
    · rw [scaleBeforeF_eq fd s b a v 1 hL Nat.one_pos (by simpa using h1 hk) (by simpa [dimension, hk] using hv)]
    · obtain ⟨rfl, _⟩ := h2 hk
      simp [scaleBeforeF, scaleBefore]
theorem scaleBeforeF_eq (fd : FloatDiv) : ∀ (s : List Sys) (L R v x : Nat), 0 < L → 0 < x → WFL (L * x) R s → v * x * dimProd s ≤ 2 ^ 53 →
    scaleBeforeF fd v L s = scaleBefore v L s
  | [], _, _, _, _, _, _, _, _ => by simp [scaleBeforeF, scaleBefore]
  | s :: r, L, R, v, x, hL, hx, h, hv => by
    simp only [WFL] at h
    simp only [dimProd] at hv
    have hp := wf_pos h.1
    have hr := wfL_pos h.2
    have e : s.before * v = L * (v * x) := by rw [wf_before h.1]; ring
    have hq : v * x * s.dimension ≤ 2 ^ 53 := le_left (b := dimProd r) (by rw [Nat.mul_assoc (v * x)]; exact hv) hr
    have e2 : s.before * v / L = v * x := by rw [e, Nat.mul_div_cancel_left _ hL]
    simp only [scaleBeforeF, scaleBefore]
    rw [div_eq fd hL e (le_left hq hp), e2, setBeforeF_eq fd s _ _ _ (Nat.mul_pos hL hx) h.1 hq,
      scaleBeforeF_eq fd r L R v (x * s.dimension) hL (Nat.mul_pos hx hp) (by rw [← Nat.mul_assoc]; exact h.2)
        (by rw [show v * (x * s.dimension) * dimProd r = v * x * (s.dimension * dimProd r) by ring]; exact hv)]
end

theorem mapAfterF_eq (fd : FloatDiv) (s : List Sys) (L x new old : Nat) (ho : 0 < old) (hx : 0 < x) (h : WFL L (x * old) s)
    (hb : x * new * dimProd s ≤ 2 ^ 53) :
    (s.map fun q => setAfterF fd (fd.div (q.after * new) old) q) = s.map fun q => setAfter (q.after * new / old) q := by
  induction s generalizing L with
  | nil => rfl
  | cons q r ih =>
    simp only [WFL] at h
    simp only [dimProd] at hb
    have hp := wf_pos h.1
    have hr := wfL_pos h.2
    have e : q.after * new = old * (dimProd r * (x * new)) := by rw [wf_after h.1]; ring
    have hq : dimProd r * (x * new) * q.dimension ≤ 2 ^ 53 := by
      rw [show dimProd r * (x * new) * q.dimension = x * new * (q.dimension * dimProd r) by ring]; exact hb
    have e2 : q.after * new / old = dimProd r * (x * new) := by rw [e, Nat.mul_div_cancel_left _ ho]
    simp only [List.map_cons]
    rw [ih _ h.2 (le_left (b := q.dimension) (by rw [show x * new * dimProd r * q.dimension = x * new * (q.dimension * dimProd r) by ring]; exact hb) hp),
      div_eq fd ho e (le_left hq hp), e2, setAfterF_eq fd q L _ _ (Nat.mul_pos hr (Nat.mul_pos hx ho)) h.1 hq]

theorem mapBeforeF_eq (fd : FloatDiv) (s : List Sys) (x R new old : Nat) (ho : 0 < old) (hx : 0 < x) (h : WFL (x * old) R s)
    (hb : x * new * dimProd s ≤ 2 ^ 53) :
    (s.map fun q => setBeforeF fd (fd.div (q.before * new) old) q) = s.map fun q => setBefore (q.before * new / old) q := by
  induction s generalizing x with
  | nil => rfl
  | cons q r ih =>
    simp only [WFL] at h
    simp only [dimProd] at hb
    have hp := wf_pos h.1
    have hr := wfL_pos h.2
    have e : q.before * new = old * (x * new) := by rw [wf_before h.1]; ring
    have hq : x * new * q.dimension ≤ 2 ^ 53 := le_left (b := dimProd r) (by rw [Nat.mul_assoc (x * new)]; exact hb) hr
    have e2 : q.before * new / old = x * new := by rw [e, Nat.mul_div_cancel_left _ ho]
    simp only [List.map_cons]
    rw [ih (x * q.dimension) (Nat.mul_pos hx hp) (by rw [show x * q.dimension * old = x * old * q.dimension by ring]; exact h.2)
        (by rw [show x * q.dimension * new * dimProd r = x * new * (q.dimension * dimProd r) by ring]; exact hb),
      div_eq fd ho e (le_left hq hp), e2, setBeforeF_eq fd q _ _ _ (Nat.mul_pos hx ho) h.1 hq]

theorem updateDimF_append (fd : FloatDiv) (a b : List Sys) (q : Sys) (new old : Nat) :
    updateDimF fd a.length new old (a ++ q :: b) =
      a.map (fun s => setAfterF fd (fd.div (s.after * new) old) s) ++ q ::
        b.map (fun s => setBeforeF fd (fd.div (s.before * new) old) s) := by
  unfold updateDimF
  rw [List.mapIdx_append]
  congr 1
  · apply List.ext_getElem
    · simp
    · intro n h1 h2
      simp only [List.length_mapIdx] at h1
      simp [h1]
  · rw [List.mapIdx_cons]
    congr 1
    · simp
    · apply List.ext_getElem
      · simp
      · intro n h1 h2
        simp only [List.getElem_mapIdx, List.getElem_map]
        rw [if_neg (by omega), if_pos (by omega)]

theorem setDimF_eq (fd : FloatDiv) (d : Nat) : ∀ (p : List Nat) (t t' : Sys) (o : Option Nat) (L R : Nat), 0 < L → 0 < R → WF L R t →
    setDim d p t = some (t', o) → L * t'.dimension * R ≤ 2 ^ 53 → setDimF fd d p t = some (t', o)
  | [], node k d₀ b a s, t', o, L, R, hL, hR, hw, h, hb => by
    rw [← h]; rfl
  | i :: p, node k d₀ b a s, t', o, L, R, hL, hR, hw, h, hb => by
    unfold WF at hw
    obtain ⟨rfl, rfl, h1, h2⟩ := hw
    unfold setDim at h
    unfold setDimF
    cases hq : s[i]? with
    | none => simp [hq] at h
    | some q =>
      have hk : k = some true := by
        by_contra hk
        rw [(h2 hk).1] at hq
        simp at hq
      subst hk
      obtain ⟨l, r, rfl, rfl⟩ := split_at s i q hq
      have hs := h1 rfl
      rw [wfL_append] at hs
      simp only [WFL, dimProd] at hs
      obtain ⟨hl, hqw, hr⟩ := hs
      have hLl : 0 < b * dimProd l := Nat.mul_pos hL (wfL_pos hl)
      have hRr : 0 < dimProd r * a := Nat.mul_pos (wfL_pos hr) hR
      simp only [hq] at h
      cases hs' : setDim d p q with
      | none => simp [hs'] at h
      | some res =>
        obtain ⟨q', o'⟩ := res
        have ih := wf_setDim d p q q' o' _ _ hLl hRr hqw hs'
        have hq' := wf_pos ih.1
        simp only [hs'] at h
        cases o' with
        | none =>
          simp only [Option.some.injEq, Prod.mk.injEq] at h
          obtain ⟨rfl, rfl⟩ := h
          simp only [set_append, dimension, if_true, dimProd_append, dimProd] at hb
          dsimp only
          rw [setDimF_eq fd d p q q' none _ _ hLl hRr hqw hs'
            (by rw [show b * dimProd l * q'.dimension * (dimProd r * a) = b * (dimProd l * (q'.dimension * dimProd r)) * a by ring]; exact hb)]
        | some old =>
          simp only [Option.some.injEq, Prod.mk.injEq] at h
          obtain ⟨rfl, rfl⟩ := h
          obtain ⟨ho, x, hx, e1, e2⟩ := ih.2.2 old rfl
          simp only [set_append, updateDim_append, dimension, if_true, dimProd_append, dimProd, dimProd_mapAfter, dimProd_mapBefore] at hb
          have hb' : b * (dimProd l * (x * d * dimProd r)) * a ≤ 2 ^ 53 := by rw [← e2]; exact hb
          have f1 := mapAfterF_eq fd l b (x * (dimProd r * a)) d old ho (Nat.mul_pos hx hRr)
            (by rw [show x * (dimProd r * a) * old = x * old * dimProd r * a by ring, ← e1]; exact hl)
            (le_left (b := b) (by rw [show x * (dimProd r * a) * d * dimProd l * b = b * (dimProd l * (x * d * dimProd r)) * a by ring]; exact hb') hL)
          have f2 := mapBeforeF_eq fd r (b * dimProd l * x) a d old ho (Nat.mul_pos hLl hx)
            (by rw [show b * dimProd l * x * old = b * dimProd l * (x * old) by ring, ← e1]; exact hr)
            (le_left (b := a) (by rw [show b * dimProd l * x * d * dimProd r * a = b * (dimProd l * (x * d * dimProd r)) * a by ring]; exact hb') hR)
          dsimp only
          rw [setDimF_eq fd d p q q' (some old) _ _ hLl hRr hqw hs'
            (by rw [show b * dimProd l * q'.dimension * (dimProd r * a) = b * (dimProd l * (q'.dimension * dimProd r)) * a by ring]; exact hb)]
          simp only [set_append, updateDimF_append, updateDim_append, f1, f2]

theorem addLoopF_eq (fd : FloatDiv) (s : List Sys) (c : Sys) (L R B A : Nat) (hB : 0 < B) (hR : 0 < R) (hs : WFL L R s) (hc : WF B A c)
    (hb : B * dimProd s * R * c.dimension ≤ 2 ^ 53) : addLoopF fd s c = addLoop s c := by
  induction s generalizing c L B with
  | nil => rfl
  | cons q r ih =>
    simp only [WFL] at hs
    simp only [dimProd] at hb
    have hq := wf_pos hs.1
    have hr := wfL_pos hs.2
    have hcp := wf_pos hc
    have hc' := wf_setBefore c B A (B * q.dimension) hB hc
    have e1 : setAfterF fd (q.after * c.dimension) q = setAfter (q.after * c.dimension) q := by
      refine setAfterF_eq fd q L _ _ (Nat.mul_pos hr hR) hs.1 (le_left (b := B) ?_ hB)
      rw [wf_after hs.1, show dimProd r * R * c.dimension * q.dimension * B = B * (q.dimension * dimProd r) * R * c.dimension by ring]
      exact hb
    have e2 : setBeforeF fd (c.before * q.dimension) c = setBefore (c.before * q.dimension) c := by
      refine setBeforeF_eq fd c B A _ hB hc (le_left (b := dimProd r * R) ?_ (Nat.mul_pos hr hR))
      rw [wf_before hc, show B * q.dimension * c.dimension * (dimProd r * R) = B * (q.dimension * dimProd r) * R * c.dimension by ring]
      exact hb
    simp only [addLoopF, addLoop, e1, e2]
    rw [ih (setBefore (c.before * q.dimension) c) _ (B * q.dimension) (Nat.mul_pos hB hq) hs.2 (by rw [wf_before hc]; exact hc')
      (by rw [dimension_setBefore, show B * q.dimension * dimProd r * R * c.dimension = B * (q.dimension * dimProd r) * R * c.dimension by ring]; exact hb)]

/-- **C26** with floating point division: setting a dimension does the same as with the exact quotient, if the total dimension afterwards is at
most `2^53`. -/
theorem C26_float_dimension (fd : FloatDiv) {t t' : Sys} {p : List Nat} (hs : Shape t) (ht : Positions t) (d : Nat) (o : Option Nat)
    (h : setDim d p t = some (t', o)) (hb : (dims t').prod ≤ 2 ^ 53) : setDimF fd d p t = some (t', o) :=
  setDimF_eq fd d p t t' o 1 1 Nat.one_pos Nat.one_pos ((wf_iff t).2 ⟨hs, ht⟩) h (by rw [dimension_eq]; simpa using hb)

/-- **C26** with floating point division: adding a stand-alone system to an outermost composite. -/
theorem C26_float_addition (fd : FloatDiv) {p c : Sys} (hsp : Shape p) (hp : Positions p) (hsc : Shape c) (hc : Positions c)
    (hk : p.kind = some true) (hb : (dims p).prod * (dims c).prod ≤ 2 ^ 53) : addSubF fd p c = addSub p c := by
  cases p with
  | node k d b a s =>
    simp only [kind] at hk
    subst hk
    have hw := (wf_iff _).2 ⟨hsp, hp⟩
    unfold WF at hw
    obtain ⟨rfl, rfl, h1, _⟩ := hw
    simp only [addSubF, addSub]
    rw [addLoopF_eq fd s c 1 1 1 1 Nat.one_pos Nat.one_pos (h1 rfl) ((wf_iff c).2 ⟨hsc, hc⟩)
      (by rw [dimProd_eq, dimension_eq]; simpa [dims] using hb)]

/-! ### Above the bound -/

/-- A natural number rounded to 53 binary digits, ties to the even one, as `/` does with an integer quotient.  Simplification: no overflow. -/
def round53 (q : Nat) : Nat :=
  let s := 2 ^ (Nat.log2 q - 52)
  (if s < 2 * (q % s) ∨ (s = 2 * (q % s) ∧ q / s % 2 = 1) then q / s + 1 else q / s) * s

theorem round53_small {q : Nat} (h : q ≤ 2 ^ 53) : round53 q = q := by
  rcases Nat.lt_or_eq_of_le h with h | rfl
  · have : Nat.log2 q - 52 = 0 := by
      by_cases h0 : q = 0
      · simp [h0]
      · have := (Nat.log2_lt h0).2 h
        omega
    simp [round53, this, Nat.mod_one]
  · decide +kernel

/-- The division of the code for exact quotients. -/
def roundDiv : FloatDiv where
  div n a := round53 (n / a)
  exact _ _ _ _ h := round53_small h

theorem round53_even {q : Nat} (h : 2 ^ 53 < q) : 2 ∣ round53 q := by
  have hl : 53 ≤ Nat.log2 q := (Nat.le_log2 (by omega)).2 (Nat.le_of_lt h)
  obtain ⟨k, hk⟩ : ∃ k, Nat.log2 q - 52 = k + 1 := ⟨Nat.log2 q - 53, by omega⟩
  simp only [round53, hk]
  exact Dvd.dvd.mul_left (Dvd.intro_left (2 ^ k) (by rw [Nat.pow_succ])) _

/-- **C26** (negation) above the bound the positions are rounded.  Two qubits; the second gets an odd dimension above `2^53`.  That is the dimension
after the first qubit, which has an even number instead. -/
theorem C26_float_wrong (d : Nat) (hd : 2 ^ 53 < d) (ho : d % 2 = 1) :
    ∃ t t' q : Sys, run [] [.new, .newSingle 2, .add 0 1, .newSingle 2, .add 0 1] = some [t] ∧ setDimF roundDiv d [1] t = some (t', some 2) ∧
      rightOf t' [0] = [d] ∧ sysAt t' [0] = some q ∧ 2 ∣ q.after ∧ ¬ Positions t' := by
  have h0 : d ≠ 0 := by omega
  have h1 : run [] [.new, .newSingle 2, .add 0 1, .newSingle 2, .add 0 1] =
      some [node (some true) 1 1 1 [node (some false) 2 1 2 [], node (some false) 2 2 1 []]] := by rfl
  have h2 : setDimF roundDiv d [1] (node (some true) 1 1 1 [node (some false) 2 1 2 [], node (some false) 2 2 1 []]) =
      some (node (some true) 1 1 1 [node (some false) 2 1 (round53 d) [], node (some false) d 2 1 []], some 2) := by
    simp [setDimF, h0, updateDimF, setAfterF, scaleAfterF, roundDiv, Sys.after]
  have h3 : rightOf (node (some true) 1 1 1 [node (some false) 2 1 (round53 d) [], node (some false) d 2 1 []]) [0] = [d] := by
    simp [rightOf, dimsL, dims]
  have h4 : sysAt (node (some true) 1 1 1 [node (some false) 2 1 (round53 d) [], node (some false) d 2 1 []]) [0] =
      some (node (some false) 2 1 (round53 d) []) := by simp [sysAt]
  have h5 := round53_even hd
  refine ⟨_, _, _, h1, h2, h3, h4, h5, fun hp => ?_⟩
  have := (hp [0] _ h4).2.1
  rw [h3] at this
  simp only [Sys.after, List.prod_cons, List.prod_nil, Nat.mul_one] at this
  omega

/-- The dimension of 34 systems with three levels. -/
example : 2 ^ 53 < 3 ^ 34 ∧ 3 ^ 34 % 2 = 1 ∧ round53 (3 ^ 34) = 3 ^ 34 - 1 := by refine ⟨?_, ?_, ?_⟩ <;> decide +kernel

/-- Within the bound: a composite in a composite. -/
example (fd : FloatDiv) (t t' : Sys) (h : run [] [.new, .new, .newSingle 2, .add 1 2, .newSingle 5, .add 1 2, .add 0 1, .newSingle 7, .add 0 1] = some [t])
    (o : Option Nat) (e : setDim 3 [0, 1] t = some (t', o)) (hb : (dims t').prod ≤ 2 ^ 53) : setDimF fd 3 [0, 1] t = some (t', o) :=
  have hw := (wf_iff t).1 (wf_run _ [] _ (by simp) h t (by simp))
  C26_float_dimension fd hw.1 hw.2 3 o e hb

end Verif.Tree
