import Mathlib.Analysis.SpecialFunctions.Exponential
import Verif.Toolbox.EvolutionProps
import Verif.Toolbox.Operators
/-!
# C53: dissipators of protocols (`classes/QPro.py`, open systems)
-/
namespace Verif.Open
open Verif.Toolbox Matrix NormedSpace
variable {n : ℕ}

/-- An open protocol: a `freeEvolution` with Hamiltonian and time step, or a `qProtocol` with steps, each with its own dissipators
(jump operator and the rate stored when the dissipator was added, `environment.py:84-86`).  Copies, updates, caches and time
dependence are left out (closed systems: `Verif.Cache.Model`). -/
inductive Proto (n : ℕ) where
  | free (D : List (Op n × ℝ)) (H : Op n) (t : ℝ)
  | comp (D : List (Op n × ℝ)) (steps : List (Proto n))

/-- `_dissipator`. -/
def Proto.own : Proto n → List (Op n × ℝ)
  | .free D _ _ => D
  | .comp D _ => D

mutual
/-- `_isOpen` (`QPro.py:117-125`), the propagation to the steps left out: they are only asked with arguments here. -/
def isOpen : Proto n → Bool
  | .free D _ _ => !D.isEmpty
  | .comp D steps => !D.isEmpty || anyOpen steps
def anyOpen : List (Proto n) → Bool
  | [] => false
  | p :: ps => isOpen p || anyOpen ps
end

/-- The lists given to `getUnitary` when it is called without arguments (`QPro.py:209-211`). -/
def ownArgs (p : Proto n) : List (Op n) × List ℝ := (p.own.map Prod.fst, p.own.map Prod.snd)

mutual
/-- `getUnitary(collapseOps, decayRates)` (`QPro.py:208-224`) with lists given: own dissipators are appended, then the unitary is
created: `matrixExponentiation` (`:400-407`) or the product of the steps (`:330-336`).  `none` is an exception. -/
noncomputable def getWith : Proto n → List (Op n) × List ℝ → Option (Op (n * n))
  | .free D H t, (cs, rs) =>
    match LiouvillianExp (some H) t (some ((cs ++ D.map Prod.fst).map Collapse.op)) (some (rs ++ D.map Prod.snd)) with
    | some (.super L) => some L
    | _ => none
  | .comp D steps, (cs, rs) => stepsWith steps (cs ++ D.map Prod.fst, rs ++ D.map Prod.snd) 1
noncomputable def stepsWith : List (Proto n) → List (Op n) × List ℝ → Op (n * n) → Option (Op (n * n))
  | [], _, acc => some acc
  | p :: ps, a, acc => match getWith p a with
    | some u => stepsWith ps a (u * acc)
    | none => none
end

/-- `getUnitary()` without arguments of an open protocol: the lists are its own dissipators, once. -/
noncomputable def getNoArgs (p : Proto n) : Option (Op (n * n)) :=
  match p with
  | .free D H t => getWith (.free [] H t) (D.map Prod.fst, D.map Prod.snd)
  | .comp D steps => getWith (.comp [] steps) (D.map Prod.fst, D.map Prod.snd)

/-- `unitary()` of an open protocol (`QPro.py:195-206`): it passes its own dissipators to `getUnitary`. -/
noncomputable def unitaryOpen (p : Proto n) : Option (Op (n * n)) := getWith p (ownArgs p)

/-! ### Specification -/

/-- The Lindblad generator `-i[H, .] + Σ r D(c)`. -/
noncomputable def generator (H : Op n) (D : List (Op n × ℝ)) : Op (n * n) :=
  hamPart (some H) + (D.map fun cr => (cr.2 : ℂ) • dissipator cr.1).sum

mutual
/-- The propagator of a protocol in which each dissipator acts once, on its own protocol and everything below; `ctx` are those
of the protocols above. -/
noncomputable def propagator : List (Op n × ℝ) → Proto n → Op (n * n)
  | ctx, .free D H t => exp ((t : ℂ) • generator H (ctx ++ D))
  | ctx, .comp D steps => productFrom (ctx ++ D) steps 1
noncomputable def productFrom : List (Op n × ℝ) → List (Proto n) → Op (n * n) → Op (n * n)
  | _, [], acc => acc
  | ctx, p :: ps, acc => productFrom ctx ps (propagator ctx p * acc)
end

theorem addCollapse_sum (rates : List ℝ) (hr : rates ≠ []) : ∀ (cs : List (Op n)) (idx : ℕ) (L : Op (n * n)),
    idx + cs.length = rates.length →
    addCollapse false (some rates) idx (cs.map Collapse.op) L =
      some (L + ((cs.zip (rates.drop idx)).map fun cr => (cr.2 : ℂ) • dissipator cr.1).sum) := by
  intro cs
  induction cs with
  | nil => intro idx L _; simp [addCollapse]
  | cons c cs ih =>
    intro idx L hl
    simp only [List.length_cons] at hl
    have hlt : idx < rates.length := by omega
    rw [List.map_cons, addCollapse]
    have h0 : rates.length ≠ 0 := by simpa using hr
    simp only [h0, ne_eq, not_false_eq_true, if_true, List.getElem?_eq_getElem hlt]
    rw [ih (idx + 1) _ (by omega), List.drop_eq_getElem_cons hlt]
    simp only [List.zip_cons_cons, List.map_cons, List.sum_cons, collapsePart, add_assoc]

theorem Liouvillian_generator (H : Op n) (D : List (Op n × ℝ)) :
    Liouvillian (some H) (some ((D.map Prod.fst).map Collapse.op)) (some (D.map Prod.snd)) false = some (generator H D) := by
  unfold Liouvillian
  dsimp only
  cases D with
  | nil => simp [addCollapse, generator]
  | cons d D =>
    have hz : ∀ l : List (Op n × ℝ), (l.map Prod.fst).zip (l.map Prod.snd) = l := by
      intro l; induction l with
      | nil => rfl
      | cons a l ih => simp [ih]
    rw [addCollapse_sum _ (by simp) _ 0 _ (by simp), List.drop_zero, hz]
    rfl

theorem LiouvillianExp_generator (H : Op n) (t : ℝ) (D : List (Op n × ℝ)) :
    LiouvillianExp (some H) t (some ((D.map Prod.fst).map Collapse.op)) (some (D.map Prod.snd)) =
      some (.super (exp ((t : ℂ) • generator H D))) := by
  unfold LiouvillianExp
  dsimp only
  rw [Liouvillian_generator]
  simp

mutual
theorem getWith_eq : ∀ (p : Proto n) (ctx : List (Op n × ℝ)),
    getWith p (ctx.map Prod.fst, ctx.map Prod.snd) = some (propagator ctx p)
  | .free D H t, ctx => by
    rw [getWith, ← List.map_append, ← List.map_append, LiouvillianExp_generator]
    simp [propagator]
  | .comp D steps, ctx => by
    rw [getWith, ← List.map_append, ← List.map_append, stepsWith_eq]
    simp [propagator]
theorem stepsWith_eq : ∀ (ps : List (Proto n)) (ctx : List (Op n × ℝ)) (acc : Op (n * n)),
    stepsWith ps (ctx.map Prod.fst, ctx.map Prod.snd) acc = some (productFrom ctx ps acc)
  | [], ctx, acc => by rw [stepsWith, productFrom]
  | p :: ps, ctx, acc => by
    rw [stepsWith, getWith_eq p ctx]
    dsimp only
    rw [stepsWith_eq ps ctx, productFrom]
end

/-- The total effect of a list of dissipators. -/
noncomputable def total (D : List (Op n × ℝ)) : Op (n * n) := (D.map fun cr => (cr.2 : ℂ) • dissipator cr.1).sum

theorem total_append (D E : List (Op n × ℝ)) : total (D ++ E) = total D + total E := by simp [total]

mutual
theorem propagator_congr : ∀ (p : Proto n) (a b : List (Op n × ℝ)), total a = total b → propagator a p = propagator b p
  | .free D H t, a, b, h => by
    have : generator H (a ++ D) = generator H (b ++ D) := by
      unfold generator
      have : total a + total D = total b + total D := by rw [h]
      rw [← total_append, ← total_append] at this
      unfold total at this
      rw [this]
    rw [propagator, propagator, this]
  | .comp D steps, a, b, h => by
    rw [propagator, propagator]
    exact productFrom_congr steps (a ++ D) (b ++ D) 1 (by rw [total_append, total_append, h])
theorem productFrom_congr : ∀ (ps : List (Proto n)) (a b : List (Op n × ℝ)) (acc : Op (n * n)), total a = total b →
    productFrom a ps acc = productFrom b ps acc
  | [], _, _, _, _ => by rw [productFrom, productFrom]
  | p :: ps, a, b, acc, h => by
    rw [productFrom, productFrom, propagator_congr p a b h]
    exact productFrom_congr ps a b _ h
end

/-- The same protocol with the rates of its own dissipators multiplied. -/
def Proto.scale (c : ℝ) : Proto n → Proto n
  | .free D H t => .free (D.map fun x => (x.1, c * x.2)) H t
  | .comp D steps => .comp (D.map fun x => (x.1, c * x.2)) steps

theorem total_double (D : List (Op n × ℝ)) : total (D ++ D) = total (D.map fun x => (x.1, 2 * x.2)) := by
  rw [total_append]
  induction D with
  | nil => simp [total]
  | cons d D ih =>
    unfold total at *
    simp only [List.map_cons, List.sum_cons]
    rw [← ih]
    push_cast
    module

/-! ### The theorems -/

/-- C53 fails: `unitary()` of an open protocol is the propagator with the rates of the protocol's own dissipators doubled. -/
theorem C53_own_rates_doubled (p : Proto n) : unitaryOpen p = some (propagator [] (p.scale 2)) := by
  unfold unitaryOpen ownArgs
  rw [getWith_eq]
  congr 1
  cases p with
  | free D H t =>
    simp only [Proto.own, Proto.scale, propagator, List.nil_append]
    have := total_double D
    unfold total at this
    unfold generator
    rw [this]
  | comp D steps =>
    simp only [Proto.own, Proto.scale, propagator, List.nil_append]
    exact productFrom_congr steps _ _ 1 (total_double D)

/-- C53: the dissipators of the steps of a protocol, at any depth, act once with their rates in `unitary()` of the protocol, if the
protocol has none itself. -/
theorem C53_steps_once_partial (p : Proto n) (h : p.own = []) : unitaryOpen p = some (propagator [] p) := by
  unfold unitaryOpen ownArgs
  rw [getWith_eq, h]

/-- C53: `getUnitary()` without arguments uses every dissipator once. -/
theorem C53_getUnitary_once_partial (p : Proto n) : getNoArgs p = some (propagator [] p) := by
  cases p with
  | free D H t => rw [getNoArgs, getWith_eq]; simp [propagator]
  | comp D steps => rw [getNoArgs, getWith_eq]; simp [propagator]

/-! ### Open or closed -/

mutual
/-- All dissipators of a protocol and of its steps at any depth. -/
def Proto.all : Proto n → List (Op n × ℝ)
  | .free D _ _ => D
  | .comp D steps => D ++ allL steps
/-- The same for lists. -/
def allL : List (Proto n) → List (Op n × ℝ)
  | [] => []
  | p :: ps => p.all ++ allL ps
end

mutual
/-- `getUnitary(None, None)` of a protocol that is not open (`QPro.py:208-224, 330-336, 400-407`). -/
noncomputable def getClosed : Proto n → Option (Op n)
  | .free _ H t => match LiouvillianExp (some H) t none none with
    | some (.unitary U) => some U
    | _ => none
  | .comp _ steps => stepsClosed steps 1
noncomputable def stepsClosed : List (Proto n) → Op n → Option (Op n)
  | [], acc => some acc
  | p :: ps, acc => match getClosed p with
    | some u => stepsClosed ps (u * acc)
    | none => none
end

/-- `unitary()` (`QPro.py:195-206`) when nothing is cached. -/
noncomputable def unitary (p : Proto n) : Option (Propagator n) :=
  if isOpen p then (unitaryOpen p).map .super else (getClosed p).map .unitary

mutual
theorem isOpen_iff : ∀ p : Proto n, isOpen p = true ↔ p.all ≠ []
  | .free D H t => by simp [isOpen, Proto.all]
  | .comp D steps => by
    rw [isOpen, Proto.all, Bool.or_eq_true, anyOpen_iff steps]
    cases D <;> simp
theorem anyOpen_iff : ∀ ps : List (Proto n), anyOpen ps = true ↔ allL ps ≠ []
  | [] => by simp [anyOpen, allL]
  | p :: ps => by
    rw [anyOpen, allL, Bool.or_eq_true, isOpen_iff p, anyOpen_iff ps]
    by_cases h : p.all = [] <;> simp [h]
end

mutual
/-- The product of the unitaries of the steps, the first step acting first. -/
noncomputable def closedProduct : Proto n → Op n
  | .free _ H t => unitaryOp H t
  | .comp _ steps => closedFrom steps 1
noncomputable def closedFrom : List (Proto n) → Op n → Op n
  | [], acc => acc
  | p :: ps, acc => closedFrom ps (closedProduct p * acc)
end

mutual
theorem getClosed_eq : ∀ p : Proto n, getClosed p = some (closedProduct p)
  | .free D H t => by rw [getClosed, closedProduct]; rfl
  | .comp D steps => by rw [getClosed, closedProduct, stepsClosed_eq]
theorem stepsClosed_eq : ∀ (ps : List (Proto n)) (acc : Op n), stepsClosed ps acc = some (closedFrom ps acc)
  | [], acc => by rw [stepsClosed, closedFrom]
  | p :: ps, acc => by
    rw [stepsClosed, getClosed_eq p]
    dsimp only
    rw [stepsClosed_eq ps, closedFrom]
end

/-- C53: `unitary()` is a superoperator exactly if the protocol or one of its steps, at any depth, has a dissipator; otherwise it is
the ordered product of the unitaries of the steps. -/
theorem C53_open_iff (p : Proto n) : (p.all ≠ [] → ∃ L, unitary p = some (.super L)) ∧
    (p.all = [] → unitary p = some (.unitary (closedProduct p))) := by
  constructor
  · intro h
    rw [← isOpen_iff] at h
    rw [unitary, if_pos h, C53_own_rates_doubled]
    exact ⟨_, rfl⟩
  · intro h
    have : ¬ isOpen p = true := fun hc => (isOpen_iff p).1 hc h
    rw [unitary, if_neg this, getClosed_eq]
    rfl

mutual
/-- Every Hamiltonian in the protocol is Hermitian. -/
def Proto.herm : Proto n → Prop
  | .free _ H _ => H.IsHermitian
  | .comp _ steps => hermL steps
/-- The same for lists. -/
def hermL : List (Proto n) → Prop
  | [] => True
  | p :: ps => p.herm ∧ hermL ps
end

mutual
theorem propagator_closed : ∀ (p : Proto n), p.all = [] → p.herm → ∀ X : Op n,
    propagator [] p * mat2Vec X = mat2Vec (closedProduct p * X * (closedProduct p)ᴴ)
  | .free D H t, hD, hH, X => by
    rw [Proto.all] at hD
    rw [Proto.herm] at hH
    subst hD
    obtain ⟨W, hW, hX⟩ := C40_no_dissipation H hH t (some []) X
    have hg := LiouvillianExp_generator H t []
    simp only [List.map_nil] at hg
    rw [hg] at hW
    simp only [Option.some.injEq, Propagator.super.injEq] at hW
    rw [← C39_mat2Vec_vec2Mat (propagator [] (.free [] H t) * mat2Vec X), propagator, List.append_nil, hW, hX, hc_eq, closedProduct]
  | .comp D steps, hD, hH, X => by
    rw [Proto.all, List.append_eq_nil_iff] at hD
    rw [Proto.herm] at hH
    obtain ⟨rfl, hS⟩ := hD
    rw [propagator, List.append_nil, closedProduct]
    have := productFrom_closed steps hS hH 1 1 (fun X => by simp) X
    exact this
theorem productFrom_closed : ∀ (ps : List (Proto n)), allL ps = [] → hermL ps → ∀ (acc : Op (n * n)) (u : Op n),
    (∀ X : Op n, acc * mat2Vec X = mat2Vec (u * X * uᴴ)) → ∀ X : Op n,
    productFrom [] ps acc * mat2Vec X = mat2Vec (closedFrom ps u * X * (closedFrom ps u)ᴴ)
  | [], _, _, acc, u, h, X => by rw [productFrom, closedFrom, h]
  | p :: ps, hD, hH, acc, u, h, X => by
    rw [allL, List.append_eq_nil_iff] at hD
    rw [hermL] at hH
    rw [productFrom, closedFrom]
    refine productFrom_closed ps hD.2 hH.2 _ _ (fun Y => ?_) X
    rw [Matrix.mul_assoc, h, propagator_closed p hD.1 hH.1, Matrix.conjTranspose_mul]
    simp only [Matrix.mul_assoc]
end

/-- C53: without dissipators the two descriptions agree: the Lindblad propagator acts by conjugation with the unitary that
`unitary()` returns. -/
theorem C53_closed_agrees (p : Proto n) (hD : p.all = []) (hH : p.herm) (X : Op n) :
    ∃ U, unitary p = some (.unitary U) ∧ vec2Mat (propagator [] p * mat2Vec X) = U * X * Uᴴ :=
  ⟨_, (C53_open_iff p).2 hD, by rw [propagator_closed p hD hH X, C39_vec2Mat_mat2Vec]⟩

/-- A dissipator two levels down makes the whole protocol open. -/
example (H : Op 2) : ∃ L, unitary (.comp [] [.free [] H 1, .comp [] [.free [(sigmam, 1)] H 2]]) = some (.super L) :=
  (C53_open_iff _).1 (by simp [Proto.all, allL])

/-! ### A decaying qubit -/

/-- The row reading off the population of the upper level. -/
def popRow : Matrix (Fin 1) (Fin (2 * 2)) ℂ := (mat2Vec (!![1, 0; 0, 0] : Op 2))ᵀ

theorem popRow_mul (X : Op 2) (a b : Fin 1) : (popRow * mat2Vec X) a b = X 0 0 := by
  simp only [popRow, Matrix.mul_apply, transpose_apply, mat2Vec, of_apply]
  rw [← finProdFinEquiv.sum_comp, Fintype.sum_prod_type]
  simp [Fin.sum_univ_two]

theorem popRow_decay (g : ℝ) : popRow * (generator (0 : Op 2) [(sigmam, g)]) = (-(g : ℂ)) • popRow := by
  have h : ∀ (v : Ket (2 * 2)) (a b : Fin 1), (popRow * (generator (0 : Op 2) [(sigmam, g)]) * v) a b =
      (((-(g : ℂ)) • popRow) * v) a b := by
    intro v a b
    rw [Matrix.mul_assoc, ← C39_mat2Vec_vec2Mat v]
    generalize vec2Mat v = X
    rw [← mat2Vec_act, popRow_mul, Matrix.smul_mul, Matrix.smul_apply, popRow_mul]
    have e1 : (sigmam * X * sigmamᴴ) 0 0 = 0 := by
      rw [Matrix.mul_assoc, Matrix.mul_apply]
      simp [sigmam, Fin.sum_univ_two]
    have e2 : (sigmamᴴ * sigmam * X) 0 0 = X 0 0 := by
      rw [Matrix.mul_apply]
      simp [sigmam, Fin.sum_univ_two, Matrix.mul_apply, Matrix.conjTranspose_apply]
    have e3 : (X * (sigmamᴴ * sigmam)) 0 0 = X 0 0 := by
      rw [Matrix.mul_apply]
      simp [sigmam, Fin.sum_univ_two, Matrix.mul_apply, Matrix.conjTranspose_apply]
    unfold generator
    simp only [List.map_cons, List.map_nil, List.sum_cons, List.sum_nil, add_zero]
    rw [act_add, act_smul, act_dissipator, act_hamPart]
    simp only [Matrix.add_apply, Matrix.smul_apply, Matrix.sub_apply, e1, e2, e3, Matrix.zero_mul, Matrix.mul_zero, Matrix.zero_apply,
      smul_eq_mul]
    simp only [Bool.false_eq_true, if_false]
    ring
  ext i j
  have h1 := h (Matrix.of fun k _ => if k = j then 1 else 0) i 0
  simpa [Matrix.mul_apply] using h1

/-- The population of the upper level after the propagator. -/
theorem pop_decay (g t : ℝ) (X : Op 2) :
    vec2Mat (exp ((t : ℂ) • generator (0 : Op 2) [(sigmam, g)]) * mat2Vec X) 0 0 = Complex.exp (-(t * g)) * X 0 0 := by
  have hi := mul_exp_of_intertwine popRow ((t : ℂ) • generator (0 : Op 2) [(sigmam, g)])
    (Matrix.diagonal fun _ : Fin 1 => (-(t * g) : ℂ)) (by
      rw [Matrix.mul_smul, popRow_decay]
      ext i j
      rw [Matrix.diagonal_mul]
      simp only [Matrix.smul_apply, smul_eq_mul]
      ring)
  have h2 : (popRow * exp ((t : ℂ) • generator (0 : Op 2) [(sigmam, g)]) * mat2Vec X) 0 0 =
      (exp (Matrix.diagonal fun _ : Fin 1 => (-(t * g) : ℂ)) * popRow * mat2Vec X) 0 0 := by rw [hi]
  rw [Matrix.mul_assoc, ← C39_mat2Vec_vec2Mat (exp _ * mat2Vec X), popRow_mul, Matrix.exp_diagonal] at h2
  rw [h2, Matrix.mul_assoc, Matrix.diagonal_mul, popRow_mul, Pi.coe_exp, Complex.exp_eq_exp_ℂ]

/-- C53 fails for a decaying qubit: with rate `g` the population of the upper level after time `t` is `e^(-2gt)`, not `e^(-gt)`. -/
theorem C53_decay_witness (g t : ℝ) : ∃ L, unitaryOpen (.free [(sigmam, g)] 0 t) = some L ∧
    vec2Mat (L * mat2Vec (!![1, 0; 0, 0] : Op 2)) 0 0 = Complex.exp (-(t * (2 * g))) := by
  refine ⟨_, C53_own_rates_doubled _, ?_⟩
  simp only [Proto.scale, propagator, List.nil_append, List.map_cons, List.map_nil]
  have := pop_decay (2 * g) t (!![1, 0; 0, 0] : Op 2)
  rw [this]
  simp

/-- Hence it is not the propagator with the given rate. -/
theorem C53_not_once (g t : ℝ) (h : g * t ≠ 0) :
    unitaryOpen (.free [(sigmam, g)] 0 t) ≠ some (propagator [] (.free [(sigmam, g)] 0 t)) := by
  intro e
  obtain ⟨L, e1, e2⟩ := C53_decay_witness g t
  rw [e1, Option.some.injEq] at e
  subst e
  simp only [propagator, List.nil_append] at e2
  rw [pop_decay g t] at e2
  simp only [Matrix.of_apply, Matrix.cons_val', Matrix.cons_val_zero, mul_one] at e2
  have h3 := congrArg (fun z => z.re) e2
  have r1 : (Complex.exp (-((t : ℂ) * g))).re = Real.exp (-(t * g)) := by
    rw [← Complex.ofReal_mul, ← Complex.ofReal_neg, Complex.exp_ofReal_re]
  have r2 : (Complex.exp (-((t : ℂ) * (2 * g)))).re = Real.exp (-(t * (2 * g))) := by
    have : (-((t : ℂ) * (2 * g))) = ((-(t * (2 * g)) : ℝ) : ℂ) := by push_cast; ring
    rw [this, Complex.exp_ofReal_re]
  rw [r1, r2] at h3
  have := Real.exp_injective h3
  apply h
  linarith

/-- A protocol of two steps, one of them dissipative, without own dissipators. -/
example (H : Op 2) (g : ℝ) : unitaryOpen (.comp [] [.free [(sigmam, g)] H 1, .free [] H 2]) =
    some (exp (((2 : ℝ) : ℂ) • generator H []) * exp (((1 : ℝ) : ℂ) • generator H [(sigmam, g)])) := by
  rw [C53_steps_once_partial _ rfl]
  simp [propagator, productFrom]

end Verif.Open
