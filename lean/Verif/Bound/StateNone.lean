import Verif.Bound.StateProps

/-!
# C89: assigning `None` as the initial state

`system.initialState = None` and `protocol.initialState = None`, for the simulations of `Verif.Bound.State`.
-/
namespace Verif.StateBound
open Verif.Bound (B)

variable {M I X : Type}

/-- `_initialStateInput = None` (`QSimBase.py:238-240`): `_setGetMaxInput` (`QSimBase.py:242-262`) sets `_maxInput` to 1, as `None` is no
integer. -/
def setInputNone (A : Alg M I X) (h : Heap M I X) (s : Nat) : Heap M I X :=
  { h with mx := upd h.mx s (some A.one), inV := upd h.inV s none, inB := upd h.inB s .broken }

/-- `_createState(None, 1)` of system `n` and the assignment of the result (`QSystem.py:53-55`, `QSimBase.py:229`, `QPro.py:140`): the input
stored in the simulation of the system is used. -/
def makeNone (A : Alg M I X) (lim : Nat) (h : Heap M I X) (s n : Nat) : Except Err Unit × Heap M I X :=
  match readP h.inV h.inB lim n with
  | none => (.error .recursion, h)
  | some i => match A.create (h.dim n) (.stored i) (some A.one) with
    | .error e => (.error e, h)
    | .ok r => (.ok (), setV h s r)

/-- `initialState = None` of a simulation or a single system (`QSimBase.py:226-229`, `QSystem.py:173-191`). -/
def setSimNone (A : Alg M I X) (lim : Nat) (h : Heap M I X) (s : Nat) : Except Err Unit × Heap M I X :=
  match issGet (setInputNone A h s) s with
  | (.error e, h) => (.error e, h)
  | (.ok n, h) => makeNone A lim h s n

/-- `initialState = None` of a protocol (`QPro.py:137-140`). -/
def setProNone (A : Alg M I X) (lim : Nat) (h : Heap M I X) (s : Nat) : Except Err Unit × Heap M I X :=
  match h.owner s with
  | .protocol (some n) => makeNone A lim (setInputNone A h s) s n
  | _ => (.error .attribute, setInputNone A h s)

/-- `system.initialState = None` for a single system raises ValueError and does not take the initial state away: it is still read as long as the
dimension is the same.  Its input is gone, so after a change of the dimension reading raises ValueError. -/
theorem C89_none_system (A : Alg M I X) (hA : ∀ d x, A.create d (.stored none) x = .error .value) (lim : Nat) (h : Heap M I X) (p : Nat)
    (hs : system h p = .ok p) (hb : h.stB p = .broken) (v : M) (hv : h.stV p = some v) (hd : A.rows v = h.dim p) :
    (setSimNone A (lim + 1) h p).1 = .error .value ∧
    (get A (lim + 1) (lim + 1) (setSimNone A (lim + 1) h p).2 p).1 = .ok (some v) ∧
    ∀ d, d ≠ h.dim p →
      (get A (lim + 1) (lim + 1) (exec A (lim + 1) (setSimNone A (lim + 1) h p).2 (.setDim p d)) p).1 = .error .value := by
  obtain ⟨h1, f, h2, h3⟩ := issGet_spec (setInputNone A h p) p
  have hs' : ∀ x, system (setInputNone A h p) x = system h x := fun _ => rfl
  have e : setSimNone A (lim + 1) h p = (.error .value, { setInputNone A h p with iss := f }) := by
    have h1' : issGet (setInputNone A h p) p = (.ok p, { setInputNone A h p with iss := f }) := by
      rw [← h2, ← hs, ← hs', ← h1]
    rw [setSimNone, h1']
    simp [makeNone, readP, setInputNone, upd, hA]
  rw [e]
  have hsys : system { setInputNone A h p with iss := f } p = .ok p := by rw [h3, hs', hs]
  refine ⟨rfl, ?_, fun d hne => ?_⟩
  · rw [(get_core A _ _ _ p).1]
    unfold getC
    rw [hsys]
    simp [Heap.core, setInputNone, readP, hb, hv, fresh?, hd]
  · rw [(get_core A _ _ _ p).1]
    have hsys' : system (exec A (lim + 1) { setInputNone A h p with iss := f } (.setDim p d)) p = .ok p := hsys
    unfold getC
    rw [hsys']
    have hne' : A.rows v ≠ d := fun c => hne (by rw [← c, hd])
    have hm : makeC A (system (exec A (lim + 1) { setInputNone A h p with iss := f } (.setDim p d))) (lim + 1)
        (exec A (lim + 1) { setInputNone A h p with iss := f } (.setDim p d)).core p = .error .value := by
      rw [makeC, hsys']
      simp [Heap.core, exec, setInputNone, readP, upd, hA]
    simp only [hm]
    simp [Heap.core, exec, setInputNone, readP, hb, hv, fresh?, upd, hne']

/-- `protocol.initialState = None` gives the protocol the state made of the input of its system, but from then on it no longer follows the system:
whatever is assigned to the system, the protocol starts from the old state.  Only when the dimension changes it is made again from the input of the
system, and then without looking at the largest level of the input. -/
theorem C89_none_protocol (A : Alg M I X) (hA : A.Fits) (lim : Nat) (h : Heap M I X) (c n : Nat) (hc : n ≠ c)
    (ho : h.owner c = .protocol (some n)) (hs : system h c = .ok n) (i : I) (hi : h.inV n = some i) (hb : h.inB n = .broken) (v : M)
    (hv : A.create (h.dim n) (.stored (some i)) (some A.one) = .ok (some v)) :
    (setProNone A (lim + 1) h c).1 = .ok () ∧
    (get A (lim + 1) (lim + 1) (setProNone A (lim + 1) h c).2 c).1 = .ok (some v) ∧
    (∀ j, (get A (lim + 1) (lim + 1) (exec A (lim + 1) (setProNone A (lim + 1) h c).2 (.setSim n j)) c).1 = .ok (some v)) ∧
    ∀ d, d ≠ h.dim n → (get A (lim + 1) (lim + 1) (exec A (lim + 1) (setProNone A (lim + 1) h c).2 (.setDim n d)) c).1 =
      A.create d (.stored (some i)) (some A.one) := by
  have e : setProNone A (lim + 1) h c = (.ok (), setV (setInputNone A h c) c (some v)) := by
    simp [setProNone, ho, makeNone, readP, setInputNone, upd, hc, hb, hi, hv]
  have key : ∀ g : Heap M I X, g.dim = h.dim → system g c = .ok n → g.stB c = .broken → g.stV c = some v →
      (get A (lim + 1) (lim + 1) g c).1 = .ok (some v) := by
    intro g g1 g2 g3 g4
    rw [(get_core A _ _ _ c).1]
    unfold getC
    rw [g2]
    simp [Heap.core, readP, g1, g3, g4, fresh?, hA _ _ _ _ hv]
  rw [e]
  refine ⟨rfl, key _ rfl hs (by simp [setV, upd]) (by simp [setV, upd]), fun j => ?_, fun d hd => ?_⟩
  rotate_left
  · rw [(get_core A _ _ _ c).1]
    generalize hg : exec A (lim + 1) (setV (setInputNone A h c) c (some v)) (.setDim n d) = g
    have g1 : system g c = .ok n := by subst hg; exact hs
    have g2 : A.rows v ≠ d := fun q => hd (by rw [← q, hA _ _ _ _ hv])
    have hm : makeC A (system g) (lim + 1) g.core c = A.create d (.stored (some i)) (some A.one) := by
      rw [makeC, g1]
      subst hg
      simp [Heap.core, exec, setV, setInputNone, readP, upd, hc, hb, hi]
    unfold getC
    rw [g1]
    simp only [hm]
    subst hg
    cases hr : A.create d (.stored (some i)) (some A.one) <;>
      simp [Heap.core, exec, setV, setInputNone, readP, upd, fresh?, g2]
  obtain ⟨-, f2, f3, -, f5, -, f7⟩ := set_frame A (setV (setInputNone A h c) c (some v)) n j _ (.inl rfl)
  refine key _ f2 ((f3 c).trans hs) ?_ ?_
  · rcases f5 c with f | ⟨f, -⟩
    · exact f.trans (by simp [setV, upd])
    · exact absurd f.symm hc
  · exact (f7 c hc.symm).1.trans (by simp [setV, upd])

/-- The hypothesis of `C89_none_system` holds for single systems. -/
theorem C89_none_single (coef : Bool) (d : Nat) (x : Option ℤ) : (leafAlg coef).create d (.stored none) x = .error .value := by
  cases x <;> rfl

/-- System 0 of dimension 3 in state 2. -/
def toySet : Heap (Nat × Nat) Nat Nat := run toy 10 [.bind 1 0 false false, .setSim 0 2] (fresh toyOwner fun _ => 3)

example : (setSimNone toy 10 toySet 0).1 = .error .value ∧ value (setSimNone toy 10 toySet 0).2 0 = some (some (3, 2)) ∧
    (get toy 10 10 (exec toy 10 (setSimNone toy 10 toySet 0).2 (.setDim 0 5)) 0).1 = .error .value := by
  obtain ⟨a, b, c⟩ := C89_none_system toy (fun d x => by cases x <;> rfl) 9 toySet 0 rfl rfl (3, 2) rfl rfl
  exact ⟨a, by rw [value, b], c 5 (by decide)⟩

/-- The protocol would follow the system to state 0, after `protocol.initialState = None` it stays in state 2. -/
example : value (exec toy 10 toySet (.setSim 0 0)) 1 = some (some (3, 0)) ∧
    value (exec toy 10 (setProNone toy 10 toySet 1).2 (.setSim 0 0)) 1 = some (some (3, 2)) := by
  obtain ⟨-, -, c, -⟩ := C89_none_protocol toy toy_fits 9 toySet 1 0 (by decide) rfl rfl 2 rfl rfl (3, 2) rfl
  exact ⟨by decide +kernel, by rw [value, c 0]⟩

end Verif.StateBound
